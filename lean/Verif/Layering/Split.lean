import Verif.Layering.Schedule
import Verif.IR.Expr

/-!
# Splitting circuits at layers

Model of `layering/ir_split.rs`.

Simplifications:
* `none` is a panic; reading the layer of a variable out of range (impossible in validated circuits) gives 0;
* `output_layers`, `cc_occured_layers` and `splitted_circuits` only memoise: without them the same values are computed again, and a circuit
  that is generated again gets the number of the equal circuit in the pool (`Pool::add`);
* the dummy entry 0 of the pool is left out: number `id` is position `id - 1`;
* `var_local_id` is the list of the variables in the order of their local numbers; `var_new_id`, `is_output` and `fin_outputs` of the last
  part are functions;
* sorting the constraints by layer and consuming them layer by layer is filtering by layer (both keep the order inside a layer).
-/

set_option linter.unusedSectionVars false
set_option linter.unusedSimpArgs false

namespace Verif.Layering.Split

open Verif.IR (Expr Coef Term VarSpec)
open Verif.Layering

deriving instance DecidableEq for Prog

/-- Layer of a variable. -/
def layAt (ls : List Nat) (x : Nat) : Nat := ls.getD x 0

/-- The loop over the instructions in `compute_output_layers` (ir_split.rs:52-83); `ls` is `var_layers`, `cc` collects `cc_occured_layers`. -/
def layerPass {F : Type} (rec : Nat → List Nat → Option (List Nat × List Nat)) : List (Verif.IR.Dest.Insn F) → List Nat → List Nat → Option (List Nat × List Nat)
  | [], ls, cc => some (ls, cc)
  | .constantLike _ :: is, ls, cc => layerPass rec is (ls ++ [1]) cc
  | .internal e :: is, ls, cc => layerPass rec is (ls ++ [maxOf ((Expr.getVars e).map (layAt ls)) + 1]) cc
  | .call d xs n :: is, ls, cc =>
    match rec d (xs.map (layAt ls)) with
    | none => none
    | some (o, c) => if o.length = n then layerPass rec is (ls ++ o) (cc ++ c.map (· + 1)) else none

/-- `compute_output_layers` (ir_split.rs:47-94): `output_layers` and `cc_occured_layers` of a circuit with given input layers. -/
def layersOf {F : Type} (get : Nat → Option (Prog F)) : Nat → Nat → List Nat → Option (List Nat × List Nat)
  | 0, _, _ => none
  | f + 1, id, ils =>
    match get id with
    | none => none
    | some p =>
      match layerPass (layersOf get f) p.insns (0 :: ils) [] with
      | none => none
      | some (ls, cc) => some (p.outs.map (layAt ls), sortDedup (cc ++ p.cons.map fun x => layAt ls x + 1))

/-- `SplitVarRef` (ir_split.rs:39-44). -/
inductive Ref
  | input (i : Nat)
  | internal (i : Nat)
  | unknown
  deriving DecidableEq

/-- `SplittedCircuitSegment` (ir_split.rs:31-37). -/
structure Seg where
  start : Nat
  stop : Nat
  id : Nat
  mid : List Ref

/-- `SplittedCircuit` (ir_split.rs:26-29). -/
structure Spl where
  segs : List Seg
  outs : List Ref

/-- `Pool::add` (utils/pool.rs:20-28) behind the dummy entry. -/
def poolAdd {F : Type} [DecidableEq F] (pool : List (Prog F)) (c : Prog F) : Nat × List (Prog F) :=
  if c ∈ pool then (pool.idxOf c + 1, pool) else (pool.length + 1, pool ++ [c])

/-- State of `expand_sub_circuit_calls_phase1` (ir_split.rs:102-109): `var_new_id`, `var_max`, `new_insns`, `sub_combined_constraints`,
`new_var_layers`, `sc_layers`. -/
structure Exp (F : Type) where
  vm : List Nat
  vmax : Nat
  insns : List (Verif.IR.Dest.Insn F)
  scc : List Nat
  ls : List Nat
  scl : List Nat

/-- The variable a reference stands for (ir_split.rs:159-163, 181-185); `inputs` are the arguments of the call, already renamed. -/
def refVar (inputs : List Nat) (pre : Nat) : Ref → Option Nat
  | .input i => inputs[i]?
  | .internal i => some (pre + i + 1)
  | .unknown => none

/-- The loop over the segments of a called circuit (ir_split.rs:152-174). -/
def expandSegs {F : Type} (pool : List (Prog F)) (inputs : List Nat) (pre : Nat) : List Seg → Exp F → Option (Exp F)
  | [], st => some st
  | s :: segs, st =>
    match pool[s.id - 1]? with
    | none => none
    | some c =>
      match mapOpt (refVar inputs pre) s.mid with
      | none => none
      | some ins =>
        let ls := st.ls ++ List.replicate c.outs.length s.stop
        if ins.all (fun x => decide (x < ls.length ∧ layAt ls x ≤ s.start)) then
          expandSegs pool inputs pre segs
            { st with vmax := st.vmax + c.outs.length, ls := ls, insns := st.insns ++ [.call s.id ins c.outs.length], scl := st.scl ++ [s.start] }
        else none

/-- The variables of combined constraints of a called circuit (ir_split.rs:189-197): an input is a panic. -/
def sccVar (pre : Nat) : Ref → Option Nat
  | .internal i => some (pre + i + 1)
  | _ => none

/-- One instruction of `expand_sub_circuit_calls_phase1` (ir_split.rs:110-200). -/
def expandStep {F : Type} (layers : Nat → List Nat → Option (List Nat × List Nat)) (rec : Nat → List Nat → List (Prog F) → Option (Spl × List (Prog F)))
    (i : Verif.IR.Dest.Insn F) (st : Exp F) (pool : List (Prog F)) : Option (Exp F × List (Prog F)) :=
  match i with
  | .constantLike v => some ({ st with insns := st.insns ++ [.constantLike v], vmax := st.vmax + 1, vm := st.vm ++ [st.vmax + 1], ls := st.ls ++ [1] }, pool)
  | .internal e =>
    let e := Expr.replaceVars e (fun x => st.vm.getD x 0)
    some ({ st with insns := st.insns ++ [.internal e], vmax := st.vmax + 1, vm := st.vm ++ [st.vmax + 1],
                    ls := st.ls ++ [maxOf ((Expr.getVars e).map (layAt st.ls)) + 1] }, pool)
  | .call d xs n =>
    let ins := xs.map fun x => st.vm.getD x 0
    match rec d (ins.map (layAt st.ls)) pool, layers d (ins.map (layAt st.ls)) with
    | some (spl, pool), some (o, _) =>
      match expandSegs pool ins st.vmax spl.segs st with
      | none => none
      | some st' =>
        match mapOpt (refVar ins st.vmax) (spl.outs.take n), mapOpt (sccVar st.vmax) (spl.outs.drop n) with
        | some ts, some cs =>
          if (ts.zip o).all (fun p => decide (p.1 < st'.ls.length ∧ layAt st'.ls p.1 = p.2)) ∧ o.length = ts.length then
            some ({ st' with vm := st'.vm ++ ts, scc := st'.scc ++ cs }, pool)
          else none
        | _, _ => none
    | _, _ => none

/-- The loop of `expand_sub_circuit_calls_phase1`. -/
def expand {F : Type} (layers : Nat → List Nat → Option (List Nat × List Nat)) (rec : Nat → List Nat → List (Prog F) → Option (Spl × List (Prog F))) :
    List (Verif.IR.Dest.Insn F) → Exp F → List (Prog F) → Option (Exp F × List (Prog F))
  | [], st, pool => some (st, pool)
  | i :: is, st, pool =>
    match expandStep layers rec i st pool with
    | none => none
    | some (st, pool) => expand layers rec is st pool

/-- State at the beginning (ir_split.rs:103-109). -/
def Exp.init {F : Type} (n : Nat) (ils : List Nat) : Exp F := ⟨List.range (n + 1), n, [], [], 0 :: ils, []⟩

/-! ### Combined constraints (ir_split.rs:238-289) -/

/-- The terms of layer `i` (ir_split.rs:248-268); `last` is `lst` with `lst_terms`; at the root `add_outputs` contains exactly `lst`. -/
def ccTerms {F : Type} [One F] (root : Bool) (scc cons : List Nat) (lay : Nat → Nat) (last : Option (Nat × List (Term F))) (i : Nat) : List (Term F) :=
  (scc.filter fun x => lay x == i).map (fun x => ⟨1, .linear x⟩) ++
  ((if root then (match last with | some p => [⟨1, .linear p.1⟩] | none => []) else []) ++
   (cons.filter fun x => lay x == i).map (fun x => ⟨1, .randomLinear x⟩))

/-- Repeat the previous combination instead of copying its value (ir_split.rs:270-279). -/
def ccReuse {F : Type} [One F] [DecidableEq F] (last : Option (Nat × List (Term F))) (ts : List (Term F)) : List (Term F) :=
  match ts, last with
  | [⟨c, .linear x⟩], some (y, lt) => if c = 1 ∧ x = y then lt else ts
  | _, _ => ts

/-- The loop over the layers (ir_split.rs:247-288): layer and terms of each combination; `nv` is the number of the next variable. -/
def ccLoop {F : Type} [One F] [DecidableEq F] (root : Bool) (scc cons : List Nat) (lay : Nat → Nat) :
    List Nat → Nat → Option (Nat × List (Term F)) → List (Nat × List (Term F))
  | [], _, _ => []
  | i :: is, nv, last =>
    let ts := ccTerms root scc cons lay last i
    if ts.isEmpty then ccLoop root scc cons lay is nv last
    else
      let ts := ccReuse last ts
      (i, ts) :: ccLoop root scc cons lay is (nv + 1) (some (nv, ts))

/-- A circuit after phase 1 and after adding the combinations: instructions, layers, layers of the calls, outputs, variables of the
combinations. -/
structure Flat (F : Type) where
  insns : List (Verif.IR.Dest.Insn F)
  ls : List Nat
  scl : List Nat
  outs : List Nat
  adds : List Nat
  cons : List Nat

/-- Phase 1 and the combinations (ir_split.rs:96-289).  `random` is `ENABLE_RANDOM_COMBINATION`. -/
def flatten {F : Type} [Field F] [DecidableEq F] (random root : Bool) (layers : Nat → List Nat → Option (List Nat × List Nat))
    (rec : Nat → List Nat → List (Prog F) → Option (Spl × List (Prog F))) (p : Prog F) (ils : List Nat) (pool : List (Prog F)) : Option (Flat F × List (Prog F)) :=
  match expand layers rec p.insns (Exp.init p.numInputs ils) pool with
  | none => none
  | some (st, pool) =>
    let cons := p.cons.map fun x => st.vm.getD x 0
    let entries := if random then ccLoop root st.scc cons (layAt st.ls) (List.range (maxOf st.ls + 10)) (st.vmax + 1) none else []
    let vars := List.range' (st.vmax + 1) entries.length
    some (⟨st.insns ++ entries.map (fun e => .internal (Expr.fromTerms e.2)), st.ls ++ entries.map (·.1 + 1), st.scl,
      p.outs.map (fun x => st.vm.getD x 0), if root then (vars.getLast?).toList else vars, if random then [] else cons⟩, pool)

/-! ### Segments (ir_split.rs:306-460) -/

/-- Number of variables an instruction defines. -/
def nOut {F : Type} : Verif.IR.Dest.Insn F → Nat
  | .call _ _ n => n
  | _ => 1

/-- `max_layers` (ir_split.rs:306-327). -/
def maxPass {F : Type} (mn : List Nat) : List (Verif.IR.Dest.Insn F) → Nat → List Nat → List Nat → List Nat
  | [], _, _, m => m
  | .internal e :: is, cur, scl, m => maxPass mn is (cur + 1) scl ((Expr.getVars e).foldl (fun m x => m.set x (max (m.getD x 0) (layAt mn cur - 1))) m)
  | .call _ xs n :: is, cur, scl, m => maxPass mn is (cur + n) scl.tail (xs.foldl (fun m x => m.set x (max (m.getD x 0) (scl.headD 0))) m)
  | .constantLike _ :: is, cur, scl, m => maxPass mn is (cur + 1) scl m

/-- Does an instruction whose first variable is `cur` belong to the segment (ir_split.rs:369, 377-378, 397-399)? -/
def incl {F : Type} (mn : List Nat) (start stop : Nat) (i : Verif.IR.Dest.Insn F) (cur : Nat) : Bool :=
  match i with
  | .constantLike _ => start == 0
  | .internal _ => decide (start < layAt mn cur) && decide (layAt mn cur ≤ stop)
  | .call _ _ n => decide (0 < n) && (decide (start < layAt mn cur) && decide (layAt mn cur ≤ stop))

/-- Local number of a variable. -/
def locOf (lv : List Nat) (x : Nat) : Nat := if x ∈ lv then lv.idxOf x + 1 else 0

/-- An instruction with local numbers (ir_split.rs:379-386, 400-412); a variable without local number is a panic. -/
def locInsn {F : Type} (lv : List Nat) (i : Verif.IR.Dest.Insn F) : Option (Verif.IR.Dest.Insn F) :=
  match i with
  | .constantLike v => some (.constantLike v)
  | .internal e => if (Expr.getVars e).all (fun x => decide (x ∈ lv)) then some (.internal (Expr.replaceVars e (locOf lv))) else none
  | .call d xs n => if xs.all (fun x => decide (x ∈ lv)) then some (.call d (xs.map (locOf lv)) n) else none

/-- The instructions of a segment (ir_split.rs:365-421), and the variables with local numbers. -/
def segInsns {F : Type} (mn : List Nat) (start stop : Nat) : List (Verif.IR.Dest.Insn F) → Nat → List Nat → Option (List (Verif.IR.Dest.Insn F) × List Nat)
  | [], _, lv => some ([], lv)
  | i :: is, cur, lv =>
    if incl mn start stop i cur then
      let new := List.range' cur (nOut i)
      match locInsn lv i, segInsns mn start stop is (cur + nOut i) (lv ++ new) with
      | some i', some (r, lv') => some (i' :: r, lv')
      | _, _ => none
    else segInsns mn start stop is (cur + nOut i) lv

/-- State of the loop over the segments (ir_split.rs:329-341). -/
structure SegSt where
  varNew : Nat → Ref
  isOut : Nat → Bool
  fin : Nat → Option Ref
  count : Nat
  segs : List Seg

/-- The variables that enter a segment (ir_split.rs:345-361). -/
def segIns (n cvm : Nat) (mn mx : List Nat) (start : Nat) : List Nat × List Nat :=
  ((List.range' 1 n).filter fun j => layAt mn j == start,
   (List.range' 1 (cvm - 1)).filter fun j => (decide (layAt mn j < start) || (layAt mn j == start && decide (n < j))) && decide (start ≤ layAt mx j))

/-- One segment (ir_split.rs:342-450). -/
def segStep {F : Type} [DecidableEq F] (n cvm : Nat) (is : List (Verif.IR.Dest.Insn F)) (mn mx : List Nat) (start stop : Nat) (st : SegSt) (pool : List (Prog F)) :
    Option (SegSt × List (Prog F)) :=
  let en := segIns n cvm mn mx start
  match segInsns mn start stop is (n + 1) (en.1 ++ en.2) with
  | none => none
  | some (sis, lv) =>
    let js := (List.range' 1 cvm).filter fun j => (st.isOut j || (decide (layAt mn j ≤ stop) && decide (stop ≤ layAt mx j))) && decide (j ∈ lv)
    let add := poolAdd pool ⟨(en.1 ++ en.2).length, sis, [], js.map (locOf lv)⟩
    some (⟨fun j => if j ∈ js then .internal (st.count + js.idxOf j) else st.varNew j,
      fun j => st.isOut j && !decide (j ∈ js),
      fun j => if j ∈ js ∧ st.isOut j = true then some (.internal (st.count + js.idxOf j)) else st.fin j,
      st.count + js.length,
      st.segs ++ [⟨start, stop, add.1, en.1.map (fun j => .input (j - 1)) ++ en.2.map st.varNew⟩]⟩, add.2)

/-- The loop over the segments; `pairs` are consecutive elements of `split_at`. -/
def segLoop {F : Type} [DecidableEq F] (n cvm : Nat) (is : List (Verif.IR.Dest.Insn F)) (mn mx : List Nat) :
    List (Nat × Nat) → SegSt → List (Prog F) → Option (SegSt × List (Prog F))
  | [], st, pool => some (st, pool)
  | p :: ps, st, pool =>
    match segStep n cvm is mn mx p.1 p.2 st pool with
    | none => none
    | some (st, pool) => segLoop n cvm is mn mx ps st pool

/-- State before the loop (ir_split.rs:329-340). -/
def SegSt.init (n : Nat) (outs : List Nat) : SegSt where
  varNew := fun j => if 1 ≤ j ∧ j ≤ n then .input (j - 1) else .unknown
  isOut := fun j => decide (j ∈ outs) && !decide (1 ≤ j ∧ j ≤ n)
  fin := fun j => if 1 ≤ j ∧ j ≤ n then some (.input (j - 1)) else none
  count := 0
  segs := []

/-- Cut a flattened circuit into segments (ir_split.rs:297-460). -/
def cut {F : Type} [DecidableEq F] (n : Nat) (fl : Flat F) (splitAt : List Nat) (pool : List (Prog F)) : Option (Spl × List (Prog F)) :=
  let outs := fl.outs ++ fl.adds
  if (fl.ls.take (n + 1)).all (fun l => decide (l ∈ splitAt)) ∧ outs.all (fun o => decide (layAt fl.ls o ∈ splitAt)) ∧ splitAt.head? = some 0 then
    match segLoop n (fl.ls.length - 1) fl.insns fl.ls (maxPass fl.ls fl.insns (n + 1) fl.scl fl.ls) (pairs splitAt) (SegSt.init n outs) pool with
    | none => none
    | some (st, pool) =>
      match mapOpt st.fin outs with
      | none => none
      | some refs => some (⟨st.segs, refs⟩, pool)
  else none

/-- `split_circuit` for a circuit other than the root (ir_split.rs:216-461). -/
def split {F : Type} [Field F] [DecidableEq F] (random : Bool) (get : Nat → Option (Prog F)) (fuel : Nat) :
    Nat → List Nat → Nat → List Nat → List (Prog F) → Option (Spl × List (Prog F))
  | 0, _, _, _, _ => none
  | f + 1, pre, id, ils, pool =>
    if id = 0 then none
    else
      match get id, layersOf get fuel id ils with
      | some p, some (o, cc) =>
        let splitAt := sortDedup (pre ++ (ils ++ (o ++ cc)))
        match flatten random false (layersOf get fuel) (split random get fuel f splitAt) p ils pool with
        | none => none
        | some (fl, pool) => cut p.numInputs fl splitAt pool
      | _, _ => none

/-- `split_to_single_layer` (ir_split.rs:464-493) and `split_circuit` for the root (ir_split.rs:290-296): the new root circuit, the other new
circuits (number `i + 1` at position `i`), and `expected_num_output_zeroes`. -/
def splitRoot {F : Type} [Field F] [DecidableEq F] (random : Bool) (get : Nat → Option (Prog F)) (fuel k : Nat) : Option (Prog F × List (Prog F) × Nat) :=
  match get 0 with
  | none => none
  | some p =>
    let ils := List.replicate p.numInputs 0
    match layersOf get fuel 0 ils with
    | none => none
    | some (o, cc) =>
      match flatten random true (layersOf get fuel) (split random get fuel fuel (sortDedup ([0] ++ (ils ++ (o ++ cc))))) p ils [] with
      | none => none
      | some (fl, pool) =>
        if fl.cons = [] then some (⟨p.numInputs, fl.insns, [], fl.adds ++ fl.outs⟩, pool, k + if random then 1 else 0) else none

end Verif.Layering.Split
