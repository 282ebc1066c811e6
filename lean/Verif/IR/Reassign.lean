import Verif.IR.BottomUp

/-!
# `reassign_duplicate_sub_circuit_outputs` (circuit/ir/common/opt.rs:391-454)
-/

set_option linter.unusedSectionVars false

namespace Verif.IR

open Verif.Utils

variable {F : Type} [Field F] [DecidableEq F] {L : Lang F}

/-- `has_duplicate_sub_circuit_outputs` (opt.rs:391-399). -/
def RootCircuit.hasDupOutputs (rc : RootCircuit L) : Bool := rc.circuits.any (fun p => !decide p.2.outputs.Nodup)

/-- `var_map[x]`. -/
def vmGet (vm : List Nat) (x : Nat) : Nat := (vm[x]?).getD 0

/-- The instruction loop (opt.rs:414-428); `om` is `out_map`. -/
def reassignInsns (L : Lang F) (om : Nat → List Nat) : List L.Insn → List Nat → List L.Insn × List Nat
  | [], vm => ([], vm)
  | i :: is, vm =>
    let vm' := vm ++ match L.asCall i with
      | some (d, _, _) => (om d).map (· + vm.length)
      | none => (List.range (L.numOutputs i)).map (· + vm.length)
    let r := reassignInsns L om is vm'
    (L.replaceVars i (vmGet vm') :: r.1, r.2)

/-- `om` of a circuit (opt.rs:435-438): first position of an equal output. -/
def firstPos (outs : List Nat) : List Nat := outs.map (fun o => outs.idxOf o)

/-- The loop that gives duplicate outputs a variable of their own (opt.rs:439-450): the appended instructions and the new
outputs; `i` is the position, `vmax` is `var_max`. -/
def freshOutputs (L : Lang F) (outs : List Nat) : Nat → Nat → List Nat → List L.Insn × List Nat
  | _, _, [] => ([], [])
  | i, vmax, o :: os =>
    if outs.idxOf o < i then
      let r := freshOutputs L outs (i + 1) (vmax + 1) os
      (L.fromKxPlusB ((outs[outs.idxOf o]?).getD 0) 1 0 :: r.1, (vmax + 1) :: r.2)
    else
      let r := freshOutputs L outs (i + 1) vmax os
      (r.1, o :: r.2)

/-- One iteration of the loop over circuits (opt.rs:407-451): the new circuit and its `om`. -/
def reassignCircuit (om : Nat → List Nat) (fresh : Bool) (circ : Circuit L) : Circuit L × List Nat :=
  let r := reassignInsns L om circ.instructions (List.range (circ.numInputs + 1))
  let outs := circ.outputs.map (vmGet r.2)
  let cons := circ.constraints.map (fun k => k.replaceVar (vmGet r.2))
  if fresh then
    let f := freshOutputs L outs 0 (r.2.length - 1) outs
    (⟨r.1 ++ f.1, cons, f.2, circ.numInputs⟩, firstPos outs)
  else (⟨r.1, cons, outs, circ.numInputs⟩, firstPos outs)

/-- `out_map.get(&c).unwrap()`. -/
def omGet (tab : Nat → Option (Circuit L × List Nat)) (c : Nat) : List Nat := ((tab c).map (·.2)).getD []

/-- `reassign_duplicate_sub_circuit_outputs` (opt.rs:401-453). -/
def reassign (rc : RootCircuit L) (force : Bool) : Option (RootCircuit L) :=
  if rc.hasDupOutputs then
    mapBottomUp rc (fun tab c circ => reassignCircuit (omGet tab) (c == 0 || force) circ) (·.1)
  else some rc

end Verif.IR
