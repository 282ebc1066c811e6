import Verif.Base
import Verif.Builder.AdvComplete
import Verif.Builder.Assert
import Verif.Builder.Basic
import Verif.Builder.Circ
import Verif.Builder.Cons
import Verif.Builder.Exec
import Verif.Builder.ExpandOk
import Verif.Builder.ExpandProof
import Verif.Builder.ExprOps
import Verif.Builder.Gadgets
import Verif.Builder.Lower
import Verif.Builder.Macro
import Verif.Builder.Pool
import Verif.Builder.Process
import Verif.Builder.Push
import Verif.Builder.Root
import Verif.Compile.Det
import Verif.Compile.FixedPoint
import Verif.Compile.HasTerms
import Verif.Compile.Link
import Verif.Compile.LoopEnds
import Verif.Compile.LoopTotal
import Verif.Compile.NoMarks
import Verif.Compile.NoRand
import Verif.Compile.NoRoot
import Verif.Compile.Passes
import Verif.Compile.Pipeline
import Verif.Compile.SolverBack
import Verif.Compile.SourceSound
import Verif.Compile.SourceValid
import Verif.Compile.SrcRand
import Verif.Compile.StageTotal
import Verif.Compile.Step1
import Verif.Compile.Step2
import Verif.Compile.Step2Terms
import Verif.Compile.Step3
import Verif.Compile.Step4
import Verif.Compile.Terminates
import Verif.Compile.TidyTotal
import Verif.Compile.TraceTotal
import Verif.Compile.Track
import Verif.Compile.Whole
import Verif.FinalBuild.Basic
import Verif.FinalBuild.Circ
import Verif.FinalBuild.Circuit
import Verif.FinalBuild.Emit
import Verif.FinalBuild.Insn
import Verif.FinalBuild.Mul
import Verif.FinalBuild.Root
import Verif.FinalBuild.Spec
import Verif.FinalBuild.Step
import Verif.FinalBuild.Sum
import Verif.Frontend.Api
import Verif.Frontend.Builder
import Verif.Frontend.Calls
import Verif.Frontend.Declare
import Verif.Frontend.Gt
import Verif.Frontend.Hoare
import Verif.Frontend.Memo
import Verif.Frontend.MemoExec
import Verif.Frontend.Prims
import Verif.Frontend.Program
import Verif.Frontend.Root
import Verif.Hints.Builtin
import Verif.IR.AddBack
import Verif.IR.BottomUp
import Verif.IR.Chains
import Verif.IR.ChainsProof
import Verif.IR.Compose
import Verif.IR.Core
import Verif.IR.Dce
import Verif.IR.DceBfs
import Verif.IR.DceCanon
import Verif.IR.DceProof
import Verif.IR.DceRoot
import Verif.IR.DceSize
import Verif.IR.Dest
import Verif.IR.ExportCons
import Verif.IR.Expr
import Verif.IR.Family
import Verif.IR.HintExport
import Verif.IR.HintExportProof
import Verif.IR.HintExportRoot
import Verif.IR.HintExportWF
import Verif.IR.Langs
import Verif.IR.MapCircuits
import Verif.IR.MulFanout
import Verif.IR.MulFanoutFan
import Verif.IR.MulFanoutInj
import Verif.IR.MulFanoutLimit
import Verif.IR.MulFanoutRoot
import Verif.IR.MulFanoutSem
import Verif.IR.Reassign
import Verif.IR.ReassignCanon
import Verif.IR.ReassignProof
import Verif.IR.ReassignRoot
import Verif.IR.Recast
import Verif.IR.RenumWF
import Verif.IR.Sel
import Verif.IR.SolveDup
import Verif.IR.Total
import Verif.IR.Validate
import Verif.InputMapping
import Verif.InputPlaced
import Verif.Layered.Basic
import Verif.Layered.Common
import Verif.Layered.CommonProof
import Verif.Layered.DedupFix
import Verif.Layered.Degree
import Verif.Layered.Den
import Verif.Layered.Expand
import Verif.Layered.ExpandProof
import Verif.Layered.ExpandRoot
import Verif.Layered.Flow
import Verif.Layered.GateSort
import Verif.Layered.Hom
import Verif.Layered.LoopCommon
import Verif.Layered.LoopExpand
import Verif.Layered.LoopMeasure
import Verif.Layered.Masks
import Verif.Layered.Opt
import Verif.Layered.PubCommon
import Verif.Layered.PubCount
import Verif.Layered.PubExpand
import Verif.Layered.Rel
import Verif.Layered.Run
import Verif.Layered.Safe
import Verif.Layered.Shift
import Verif.Layered.Twins
import Verif.Layered.Uniform
import Verif.Layered.ValidKeep
import Verif.Layered.Validate
import Verif.Layered.ValidateIff
import Verif.Layered.ValidateMap
import Verif.Layering.Aligned
import Verif.Layering.Bridge
import Verif.Layering.CcParts
import Verif.Layering.Chain
import Verif.Layering.Combine
import Verif.Layering.CompileMono
import Verif.Layering.CompileTotal
import Verif.Layering.Connect
import Verif.Layering.ConnectTotal
import Verif.Layering.Correct
import Verif.Layering.CtxOk
import Verif.Layering.CtxTotal
import Verif.Layering.Decomp
import Verif.Layering.Fill
import Verif.Layering.GateShape
import Verif.Layering.Gates
import Verif.Layering.Layout
import Verif.Layering.Level
import Verif.Layering.MergeTotal
import Verif.Layering.MinPass
import Verif.Layering.Once
import Verif.Layering.Ops
import Verif.Layering.Parts
import Verif.Layering.ProgOk
import Verif.Layering.Query
import Verif.Layering.RootIO
import Verif.Layering.RootOk
import Verif.Layering.Schedule
import Verif.Layering.ScheduleAux
import Verif.Layering.ScheduleOk
import Verif.Layering.Sem
import Verif.Layering.SolveOk
import Verif.Layering.SolveTotal
import Verif.Layering.Split
import Verif.Layering.SplitCc
import Verif.Layering.SplitCut
import Verif.Layering.SplitExpand
import Verif.Layering.SplitFlat
import Verif.Layering.SplitMono
import Verif.Layering.SplitPool
import Verif.Layering.SplitRec
import Verif.Layering.SplitRoot
import Verif.Layering.SplitSeg
import Verif.Layering.SplitSem
import Verif.Layering.SplitStep
import Verif.Layering.SplitTerms
import Verif.Layering.SplitTotal
import Verif.Layering.SplitTotalCut
import Verif.Layering.Table
import Verif.Layering.TraceIR
import Verif.Layering.Transition
import Verif.Layering.ValidOut
import Verif.Layering.ValidRoot
import Verif.Layering.ValidSeg
import Verif.Layering.Wire
import Verif.Props.C01
import Verif.Props.C02
import Verif.Props.C03
import Verif.Props.C04
import Verif.Props.C05
import Verif.Props.C06
import Verif.Props.C07
import Verif.Props.C08
import Verif.Props.C09
import Verif.Props.C10
import Verif.Props.C11
import Verif.Props.C12
import Verif.Props.C13
import Verif.Props.C14
import Verif.Props.C15
import Verif.Props.C16
import Verif.Props.C17
import Verif.Props.C18
import Verif.Props.C18Loop
import Verif.Props.C19
import Verif.Props.C20
import Verif.Props.C21
import Verif.Props.C22
import Verif.Props.C23
import Verif.Props.C24
import Verif.Props.C25
import Verif.Props.C26
import Verif.Props.C27
import Verif.Props.C28
import Verif.Props.C29
import Verif.Props.C30
import Verif.Props.C31
import Verif.Props.C32
import Verif.Props.C33
import Verif.Props.C34
import Verif.Props.C35
import Verif.Props.C36
import Verif.Props.C37
import Verif.Props.C38
import Verif.Props.C39
import Verif.Props.C40
import Verif.Props.C41
import Verif.Props.C42
import Verif.Props.C43
import Verif.Props.C44
import Verif.Props.C45
import Verif.Props.C46
import Verif.Props.C47
import Verif.Props.C48
import Verif.Props.C49
import Verif.Props.C50
import Verif.Props.C51
import Verif.Props.C52
import Verif.Props.C53
import Verif.Props.C53B
import Verif.Props.C53C
import Verif.Props.Examples
import Verif.Props.LayeredEx
import Verif.Serde.Codec
import Verif.Serde.IR
import Verif.Serde.Layered
import Verif.Std.BigInt
import Verif.Std.BigIntAdv
import Verif.Std.BigIntHonest
import Verif.Std.Emulated
import Verif.Std.EmulatedAny
import Verif.Std.EmulatedCheck
import Verif.Std.EmulatedHonest
import Verif.Std.EmulatedOps
import Verif.Std.EmulatedProof
import Verif.Std.LimbsM31
import Verif.Std.LimbsM31More
import Verif.Std.LimbsM31Proof
import Verif.Std.LogUp
import Verif.Std.LogUpHonest
import Verif.Std.LogUpProof
import Verif.Std.MatMul
import Verif.Std.Poseidon
import Verif.Std.RangeProof
import Verif.Std.Sha256
import Verif.Std.Sha256Proof
import Verif.Std.Sha256Root
import Verif.Std.Sha256Spec
import Verif.Std.ShaM31
import Verif.Std.ShaM31Batch
import Verif.Std.ShaM31Compress
import Verif.Std.ShaM31Proof
import Verif.Std.ShaM31Root
import Verif.Std.Tower
import Verif.Std.TowerAlg
import Verif.Std.TowerEasy
import Verif.Std.TowerProof
import Verif.Std.TowerProof2
import Verif.Std.TowerSel
import Verif.Utils.Bucket
import Verif.Utils.Heap
import Verif.Utils.Pool
import Verif.Utils.Pow2
import Verif.Utils.StaticHash
import Verif.Utils.Topo
import Verif.Utils.UnionFind
import Verif.Witness.Pack
import Verif.Witness.Solve
import Verif.Witness.Solver
import Verif.Zkcuda.Context
import Verif.Zkcuda.Kernel
import Verif.Zkcuda.KernelSpec
import Verif.Zkcuda.Padding
import Verif.Zkcuda.Reorder
import Verif.Zkcuda.Shape
import Verif.Zkcuda.VecShaped
