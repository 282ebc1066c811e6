import Verif.Layered.ValidateMap
import Verif.Props.C17

/-!
# C19 — Canonical sorting preserves meaning

English: `sort_everything()` permutes gates and child segments without changing the circuit's outputs.

`srt`, `srtC` stand for the two `sort()`s (of gates and of child segments): any permutations.
-/

namespace Verif.Props

open Verif.Layered

variable {F R : Type} [CommRing R]

/-- Only the order changes. -/
theorem C19_perm (srt : List (Gate F) → List (Gate F)) (hs : ∀ l, (srt l).Perm l) (srtC : List (Nat × List Alloc) → List (Nat × List Alloc))
    (hsC : ∀ l, (srtC l).Perm l) (c : Circuit F) : (c.sortAll srt srtC).layerIds = c.layerIds ∧
      List.Forall₂ (fun s s' : Segment F => s'.numInputs = s.numInputs ∧ s'.numOutputs = s.numOutputs ∧ s'.childSegs.Perm s.childSegs ∧
        s'.gateMuls.Perm s.gateMuls ∧ s'.gateAdds.Perm s.gateAdds ∧ s'.gateConsts.Perm s.gateConsts ∧ s'.gateCustoms.Perm s.gateCustoms)
        c.segments (c.sortAll srt srtC).segments := by
  refine ⟨rfl, ?_⟩
  simp only [Circuit.sortAll]
  rw [List.forall₂_map_right_iff, List.forall₂_same]
  intro s _
  exact ⟨rfl, rfl, hsC _, hs _, hs _, hs _, hs _⟩

/-- The result is valid: `validate` accepts it whenever it accepts the given circuit. -/
theorem C19_valid {F : Type} [CommRing F] [DecidableEq F] (srt : List (Gate F) → List (Gate F)) (hs : ∀ l, (srt l).Perm l) (srtC : List (Nat × List Alloc) → List (Nat × List Alloc))
    (hsC : ∀ l, (srtC l).Perm l) (c : Circuit F) (hc : c.validate = some true) : (c.sortAll srt srtC).validate = some true := sortAll_valid hs hsC hc

/-- Every wire keeps its possible values, so outputs and verdict do. -/
theorem C19 [DecidableEq R] (srt : List (Gate F) → List (Gate F)) (hs : ∀ l, (srt l).Perm l) (srtC : List (Nat × List Alloc) → List (Nat × List Alloc))
    (hsC : ∀ l, (srtC l).Perm l) (c : Circuit F) (hc : c.validate = some true) (V : LEnv F R) (inputs : List R) :
    {ws | ∃ tape, (c.sortAll srt srtC).wires V inputs tape = some ws} = {ws | ∃ tape, c.wires V inputs tape = some ws} ∧
    ∀ o : List R × Bool, (∃ tape, (c.sortAll srt srtC).eval V inputs tape = some o) ↔ ∃ tape, c.eval V inputs tape = some o := by
  have h := (sort_segMap (V := V) hs hsC).traces (c' := c.sortAll srt srtC) (validate_ok hc) rfl rfl inputs
  exact ⟨h, fun o => Set.ext_iff.1 (outcomes_of_traces h rfl rfl) o⟩

open LEx

example : {ws | ∃ tape, (circ.sortAll (fun l => l.reverse) (fun l => l.reverse)).wires V [1, 2, 3, 5] tape = some ws} =
    {ws | ∃ tape, circ.wires V [1, 2, 3, 5] tape = some ws} :=
  (C19 _ (fun l => l.reverse_perm) _ (fun l => l.reverse_perm) circ circ_valid V _).1

end Verif.Props
