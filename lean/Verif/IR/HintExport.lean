import Verif.IR.Langs
import Verif.IR.Reassign

/-!
# `remove_and_export_hints`, `add_back_removed_inputs` (circuit/ir/hint_normalized/mod.rs:247-531)
-/

set_option linter.unusedSectionVars false

namespace Verif.IR

open Verif.Utils

variable {F : Type} [Field F] [DecidableEq F]

namespace HintExport

/-- The case distinction made by the passes on an instruction: a hint, a call, or anything else, which is carried over to the
hint-less language (hint_normalized/mod.rs:302-327). -/
inductive View (F : Type)
  | hint (h : Nat) (xs : List Nat) (n : Nat)
  | call (c : Nat) (xs : List Nat) (n : Nat)
  | other (j : HintLess.Insn F)

/-- See `View`. -/
def view : HintNorm.Insn F → View F
  | .linComb lc => .other (.linComb lc)
  | .mul xs => .other (.mul xs)
  | .hint h xs n => .hint h xs n
  | .constantLike c => .other (.constantLike c)
  | .call c xs n => .call c xs n
  | .customGate g xs => .other (.customGate g xs)

/-- The loop of `compute_hint_sizes` (hint_normalized/mod.rs:251-263): hints of the sub-circuits called, own hints. -/
def sizes (hs : Nat → Nat × Nat) : List (HintNorm.Insn F) → Nat × Nat
  | [] => (0, 0)
  | i :: is =>
    let r := sizes hs is
    match view i with
    | .hint _ _ n => (r.1, r.2 + n)
    | .call c _ _ => (r.1 + (hs c).1, r.2)
    | .other _ => r

/-- `compute_hint_sizes` (hint_normalized/mod.rs:247-265): (all hints, own hints). -/
def computeHintSizes (hs : Nat → Nat × Nat) (is : List (HintNorm.Insn F)) : Nat × Nat :=
  ((sizes hs is).1 + (sizes hs is).2, (sizes hs is).2)

/-- The two instruction loops of `remove_hints` (hint_normalized/mod.rs:284-336), fused into one: the first loop only numbers
the hint outputs (`ownP` is the counter it uses), the second does the rest (`subP` is `sub_hint_ptr`, `mx` is `new_var_max`).
Fusing is faithful because instructions refer to earlier variables only.  Result: instructions, `new_id`, final
`sub_hint_ptr`. -/
def removeInsns (hs : Nat → Nat × Nat) : List (HintNorm.Insn F) → List Nat → Nat → Nat → Nat →
    List (HintLess.Insn F) × List Nat × Nat
  | [], vm, _, subP, _ => ([], vm, subP)
  | i :: is, vm, ownP, subP, mx =>
    match view i with
    | .hint _ _ n => removeInsns hs is (vm ++ List.range' (ownP + 1) n) (ownP + n) subP mx
    | .call c xs n =>
      let r := removeInsns hs is (vm ++ List.range' (mx + 1) n) ownP (subP + (hs c).1) (mx + n)
      (.call c (xs.map (vmGet vm) ++ List.range' (subP + 1) (hs c).1) n :: r.1, r.2)
    | .other j =>
      let r := removeInsns hs is (vm ++ [mx + 1]) ownP subP (mx + 1)
      (j.replaceVars (vmGet vm) :: r.1, r.2)

/-- `remove_hints` (hint_normalized/mod.rs:267-344) without the final assertion. -/
def removeCore (E : Env F) (hs : Nat → Nat × Nat) (c : Nat) (circ : Circuit (hintNorm E)) : Circuit (hintLess E) :=
  let n := circ.numInputs
  let sz := hs c
  let r := removeInsns hs circ.instructions (List.range (n + 1)) n (n + sz.2) (n + sz.1)
  ⟨r.1, circ.constraints.map (fun k => ⟨k.typ, vmGet r.2.1 k.var⟩), circ.outputs.map (vmGet r.2.1), n + sz.1⟩

/-- `remove_hints` (hint_normalized/mod.rs:267-344); the `assert_eq!(sub_hint_ptr, expected_sub_hint_ptr)` is a failure. -/
def removeHints (E : Env F) (hs : Nat → Nat × Nat) (c : Nat) (circ : Circuit (hintNorm E)) : Option (Circuit (hintLess E)) :=
  let n := circ.numInputs
  let sz := hs c
  if (removeInsns hs circ.instructions (List.range (n + 1)) n (n + sz.2) (n + sz.1)).2.2 = n + sz.1 then
    some (removeCore E hs c circ)
  else none

/-- The instruction loop of `export_hints` (hint_normalized/mod.rs:360-403): instructions, `new_id`, `add_outputs`,
`add_outputs_sub`. -/
def exportInsns (hs : Nat → Nat × Nat) : List (HintNorm.Insn F) → List Nat → Nat →
    List (HintNorm.Insn F) × List Nat × List Nat × List Nat
  | [], vm, _ => ([], vm, [], [])
  | i :: is, vm, mx =>
    match view i with
    | .hint h xs n =>
      let vm' := vm ++ List.range' (mx + 1) n
      let r := exportInsns hs is vm' (mx + n)
      (.hint h (xs.map (vmGet vm')) n :: r.1, r.2.1, List.range' (mx + 1) n ++ r.2.2.1, r.2.2.2)
    | .call c xs n =>
      let vm' := vm ++ List.range' (mx + 1) n
      let r := exportInsns hs is vm' (mx + n + (hs c).1)
      (.call c (xs.map (vmGet vm')) (n + (hs c).1) :: r.1, r.2.1, r.2.2.1, List.range' (mx + n + 1) (hs c).1 ++ r.2.2.2)
    | .other _ =>
      let vm' := vm ++ [mx + 1]
      let r := exportInsns hs is vm' (mx + 1)
      (i.replaceVars (vmGet vm') :: r.1, r.2)

/-- `export_hints` (hint_normalized/mod.rs:346-418). -/
def exportHints (E : Env F) (hs : Nat → Nat × Nat) (isRoot : Bool) (circ : Circuit (hintNorm E)) : Circuit (hintNorm E) :=
  let n := circ.numInputs
  let r := exportInsns hs circ.instructions (List.range (n + 1)) n
  ⟨r.1, if isRoot then [⟨(), 1⟩] else [],
    (if isRoot then List.range' 1 n else circ.outputs.map (vmGet r.2.1)) ++ r.2.2.1 ++ r.2.2.2, n⟩

/-- `sub_hint_sizes[&id]`. -/
def hsGet (tab : Nat → Option (Nat × Nat)) (c : Nat) : Nat × Nat := (tab c).getD (0, 0)

/-- The first loop of `remove_and_export_hints` (hint_normalized/mod.rs:447-453): the table `sub_hint_sizes`. -/
def hintSizes (E : Env F) (rc : RootCircuit (hintNorm E)) : Option (List (Nat × (Nat × Nat))) :=
  match topoOrder rc.vertices rc.edges with
  | none => none
  | some order => some (bottomUp rc.get (fun t _ circ => computeHintSizes (hsGet t) circ.instructions) order)

/-- `remove_and_export_hints` (hint_normalized/mod.rs:446-478). -/
def removeAndExport (E : Env F) (rc : RootCircuit (hintNorm E)) : Option (RootCircuit (hintLess E) × RootCircuit (hintNorm E)) :=
  match hintSizes E rc with
  | none => none
  | some t =>
    let hs := hsGet (fun d => t.lookup d)
    match mapOpt (fun p => (removeHints E hs p.1 p.2).map (fun x => (p.1, x))) rc.circuits with
    | none => none
    | some cs => some (⟨rc.numPublicInputs, rc.expectedNumOutputZeroes, cs⟩,
        ⟨rc.numPublicInputs, 0, rc.circuits.map (fun p => (p.1, exportHints E hs (p.1 == 0) p.2))⟩)

end HintExport

end Verif.IR
