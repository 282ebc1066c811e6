import Verif.Compile.NoRand
import Verif.Builder.Process
import Verif.FinalBuild.Root
import Verif.IR.HintExportRoot
import Verif.IR.AddBack
import Verif.IR.MulFanoutRoot
import Verif.Layering.Wire
import Verif.Layered.ExpandRoot
import Verif.Layered.CommonProof
import Verif.Layered.Validate

/-!
# The compiler

Model of `compile/mod.rs`: `compile_with_options` and its four steps, put together from the models of the passes.

Simplifications: `none` stands for every failure (an error value, a panic, or loops that need more than `fuel` rounds); printing is left out.
-/

set_option linter.unusedSectionVars false
set_option linter.unusedSimpArgs false

namespace Verif.Compile

open Verif.IR Verif.IR.HintExport

variable {F : Type} [Field F] [DecidableEq F] {L : Lang F}

/-- What the model leaves open: bounds for loops, orders of hash tables and of sorting, the costs of the configuration, and which sets
`find_common_parts` compares (see the models of the passes). -/
structure Params (F : Type) where
  fuel : Nat
  /-- order of the constraints of a built circuit -/
  srt : List (Expr F) → List (Expr F)
  /-- costs of the configuration -/
  costs : FinalBuild.Costs
  /-- order of expressions -/
  ltE : Expr F → Expr F → Bool
  /-- order of a hash table in `solve_duplicates` -/
  ord : List Nat → List Nat
  /-- order of gates -/
  srtG : List (Layered.Gate F) → List (Layered.Gate F)
  srtA : List Layered.Alloc → List Layered.Alloc
  ordH : List (Nat × List Layered.Alloc) → List (Nat × List Layered.Alloc)
  srtE : List (Nat × Nat × Nat) → List (Nat × Nat × Nat)
  sample : List (Layered.Segment F) → List (List (Layered.UniGate F))
  srtC : List (Nat × List Layered.Alloc) → List (Nat × List Layered.Alloc)

/-- `CompileOptions` (compile/mod.rs:12-18), `ENABLE_RANDOM_COMBINATION` of the configuration and `CROSS_LAYER_RELAY` of the input type. -/
structure Options where
  mulFanoutLimit : Option Nat
  optLevel : Nat
  allowReorder : Bool
  randomComb : Bool
  cross : Bool

/-- `CompileOptions::validate` (compile/mod.rs:48-57). -/
def Options.valid (o : Options) : Bool :=
  (match o.mulFanoutLimit with | some l => decide (1 < l) | none => true) && decide (1 ≤ o.optLevel) && decide (o.optLevel ≤ 3)

/-- `validate` with `?`. -/
def checked (rc : RootCircuit L) : Option (RootCircuit L) := if rc.validate then some rc else none

/-- The result of a loop that has ended. -/
def Loop.toOption {α : Type} : Loop α → Option α
  | .done a => some a
  | _ => none

/-- The result of a builder that succeeded. -/
def outcomeOption {α : Type} : Builder.Outcome α → Option α
  | .ok a => some a
  | _ => none

/-- `remove_unreachable` and `compose_in_place` (for example compile/mod.rs:112-114). -/
def pruneOnce (rc : RootCircuit L) (im : InputMapping) : Option (RootCircuit L × InputMapping) :=
  match removeUnreachable rc with
  | none => none
  | some (r, im') => (im.composeInPlace im').map fun m => (r, m)

/-- The clean-up after a pass (compile/mod.rs:125-139, 164-179, 208-222, 231-246). -/
def tidy [DecidableEq L.Insn] [DecidableEq L.Con] (opt fuel : Nat) (rc : RootCircuit L) (im : InputMapping) : Option (RootCircuit L × InputMapping) :=
  if 2 ≤ opt then (optimizeUntilFixedPoint rcEq cleanup fuel rc im).toOption
  else if 1 ≤ opt then pruneOnce rc im
  else some (rc, im)

/-- The source-level optimisation (compile/mod.rs:106-118). -/
def tidySource {E : Env F} (opt fuel : Nat) (rc : RootCircuit (source E)) (im : InputMapping) : Option (RootCircuit (source E) × InputMapping) :=
  if 3 ≤ opt then (optimizeUntilFixedPoint rcEq cleanupSource fuel (Chains.detectChains rc) im).toOption
  else if 1 ≤ opt then pruneOnce (Chains.detectChains rc) im
  else some (rc, im)

/-- `compile_step_1` (compile/mod.rs:96-146): the circuit after the source-level optimisation, the hint-normalised circuit and `src_im`.
The first component is not returned by the code. -/
def step1 (P : Params F) (o : Options) {E : Env F} (rc : RootCircuit (source E)) : Option (RootCircuit (source E) × RootCircuit (hintNorm E) × InputMapping) := do
  let rc ← checked rc
  let (src, im) ← tidySource o.optLevel P.fuel rc (.identity (inputSize rc))
  let src ← checked src
  let hn ← outcomeOption (Builder.process E.canon P.srt E src)
  let (hn, im) ← tidy o.optLevel P.fuel hn im
  let hn ← checked hn
  some (src, hn, im)

/-- `compile_step_2` up to `final_build_opt` (compile/mod.rs:152-167). -/
def step2a (P : Params F) (o : Options) {E : Env F} (hl : RootCircuit (hintLess E)) : Option (RootCircuit (hintLess E) × InputMapping) := do
  let im := InputMapping.identity (inputSize hl)
  let (r, im) ← if 2 ≤ o.optLevel then (optimizeUntilFixedPoint rcEq cleanup P.fuel hl im).toOption else some (hl, im)
  let r ← checked r
  some (r, im)

/-- `compile_step_2`: `final_build_opt` and the limit of products (compile/mod.rs:169-200). -/
def step2b (P : Params F) (o : Options) {E : Env F} (hl : RootCircuit (hintLess E)) (im : InputMapping) : Option (RootCircuit (dest E true) × InputMapping) := do
  let d ← outcomeOption (FinalBuild.process P.costs P.ltE E hl)
  let (d, im) ← tidy o.optLevel P.fuel d im
  let d ← checked d
  match o.mulFanoutLimit with
  | none => some (d, im)
  | some limit => do
    let d ← MulFanout.solveRoot E limit d
    let d ← checked d
    some (d, im)

/-- `compile_step_2`: constraints become outputs (compile/mod.rs:202-212). -/
def step2c (o : Options) {E : Env F} (d : RootCircuit (dest E true)) (im : InputMapping) : Option (RootCircuit (dest E true) × InputMapping) :=
  if o.randomComb then some (d, im)
  else do
    let r ← ExportCons.exportConstraints d
    let r ← reassign r false
    let (r, im) ← pruneOnce r im
    let r ← checked r
    some (r, im)

/-- `compile_step_2`: splitting at layers (compile/mod.rs:214-236). -/
def step2d (P : Params F) (o : Options) {E : Env F} (d : RootCircuit (dest E true)) (im : InputMapping) : Option (RootCircuit (dest E true) × InputMapping) :=
  if o.cross then some (d, im)
  else do
    let r ← Layering.Split.splitRoot o.randomComb (Layering.progGet d.get) P.fuel d.expectedNumOutputZeroes
    let r ← checked (Layering.Split.splitRc E d.numPublicInputs r)
    tidy o.optLevel P.fuel r im

/-- `compile_step_2`: unique inputs and outputs (compile/mod.rs:238-254). -/
def step2e (P : Params F) (o : Options) {E : Env F} (d : RootCircuit (dest E true)) (im : InputMapping) : Option (RootCircuit (dest E false) × InputMapping) := do
  let d ← if o.optLevel = 1 then reassign d true else some d
  let r ← SolveDup.solveDuplicates E P.ord d
  let (r, im) ← tidy o.optLevel P.fuel r im
  let r ← checked r
  if r.circuits.all (fun p => decide (p.2.numInputs ≠ 0)) then some (r, im) else none

/-- `compile_step_2` (compile/mod.rs:148-255): the circuit before it is split at layers (not returned by the code), the final circuit and
`hl_im`. -/
def step2 (P : Params F) (o : Options) {E : Env F} (hl : RootCircuit (hintLess E)) :
    Option (RootCircuit (dest E true) × RootCircuit (dest E false) × InputMapping) := do
  let (hl, im) ← step2a P o hl
  let (d, im) ← step2b P o hl im
  let (relaxed, im) ← step2c o d im
  let (d, im) ← step2d P o relaxed im
  let (d, im) ← step2e P o d im
  some (relaxed, d, im)

/-- One round of the loop in `compile_step_3` (compile/mod.rs:269-275). -/
def shrink (P : Params F) (lc : Layered.Circuit F) : Option (Layered.Circuit F) :=
  let lc1 := lc.expandSmall P.srtG P.srtA P.ordH
  if lc1.segments.length ≤ 100 then lc1.findCommon P.srtG P.srtE P.sample else some lc1

/-- The loop in `compile_step_3` (compile/mod.rs:268-280). -/
def shrinkLoop (P : Params F) : Nat → Layered.Circuit F → Option (Layered.Circuit F)
  | 0, _ => none
  | n + 1, lc =>
    match shrink P lc with
    | none => none
    | some lc2 => if lc2 = lc then some lc else shrinkLoop P n lc2

/-- `compile_step_3` (compile/mod.rs:257-284). -/
def step3 (P : Params F) (o : Options) (lc : Layered.Circuit F) : Option (Layered.Circuit F) :=
  if lc.validate = some true then
    let lc := if 1 ≤ o.optLevel then lc.dedup P.srtG else lc
    match (if 3 ≤ o.optLevel then shrinkLoop P P.fuel lc else some lc) with
    | none => none
    | some lc => if lc.validate = some true then some (lc.sortAll P.srtG P.srtC) else none
  else none

/-- The outputs of the solver circuit (compile/mod.rs:373-378). -/
def setOutputs {E : Env F} (im : InputMapping) (ex : RootCircuit (hintNorm E)) : Option (RootCircuit (hintNorm E)) :=
  match ex.get 0 with
  | none => none
  | some c => (im.mapInputs 0 c.outputs).map fun outs =>
      ⟨ex.numPublicInputs, ex.expectedNumOutputZeroes,
        ex.circuits.map fun p => if p.1 = 0 then (0, ⟨c.instructions, c.constraints, outs.map (max 1), c.numInputs⟩) else p⟩

/-- `compile_step_4` (compile/mod.rs:286-305). -/
def step4 (P : Params F) (o : Options) {E : Env F} (ex : RootCircuit (hintNorm E)) (im : InputMapping) : Option (RootCircuit (hintNorm E) × InputMapping) := do
  let ex ← checked ex
  if 2 ≤ o.optLevel then (optimizeUntilFixedPoint rcEq removeUnreachable P.fuel ex im).toOption else some (ex, im)

/-- Everything `compile_with_options` computes on the way. -/
structure Trace (E : Env F) where
  /-- the circuit after the source-level optimisation -/
  src : RootCircuit (source E)
  /-- the hint-normalised circuit -/
  hn : RootCircuit (hintNorm E)
  srcIm : InputMapping
  hl : RootCircuit (hintLess E)
  ex : RootCircuit (hintNorm E)
  /-- the circuit before it is split at layers -/
  relaxed : RootCircuit (IR.dest E true)
  dest : RootCircuit (IR.dest E false)
  hlIm : InputMapping
  lc0 : Layered.Circuit F
  /-- the solver circuit -/
  solver : RootCircuit (hintNorm E)
  /-- the layered circuit -/
  lc : Layered.Circuit F

/-- `compile_with_options` (compile/mod.rs:338-395); the code returns the last two components. -/
def compileTrace (P : Params F) (o : Options) {E : Env F} (rc : RootCircuit (source E)) : Option (Trace E) := do
  if o.valid then
    let (src, hn, srcIm) ← step1 P o rc
    let (hl, ex) ← removeAndExport E hn
    let ex ← checked ex
    let (relaxed, d, hlIm) ← step2 P o hl
    let (lc0, size, order) ← Layering.compile o.cross o.allowReorder (Layering.progGet d.get) P.fuel d.numPublicInputs d.expectedNumOutputZeroes
    let lc ← step3 P o lc0
    let im ← hlIm.composeInPlace ⟨size, order⟩
    let ex1 ← setOutputs im ex
    let (ex2, srcIm') ← step4 P o ex1 srcIm
    let ex3 ← AddBack.addBack srcIm' ex2
    let solver ← checked ex3
    some ⟨src, hn, srcIm, hl, ex, relaxed, d, hlIm, lc0, solver, lc⟩
  else none

/-- `compile_with_options`: the solver circuit and the layered circuit. -/
def compileWithOptions (P : Params F) (o : Options) {E : Env F} (rc : RootCircuit (source E)) : Option (RootCircuit (hintNorm E) × Layered.Circuit F) :=
  (compileTrace P o rc).map fun t => (t.solver, t.lc)

end Verif.Compile
