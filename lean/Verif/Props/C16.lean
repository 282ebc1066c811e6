import Verif.Layering.Combine
import Mathlib.Data.ZMod.Basic
import Mathlib.Algebra.Field.ZMod

/-!
# C16 — combining constraints with random coefficients is sound and complete

`CTree` records which constraint values a combined wire collects, over layers and sub-circuits (layering/compile.rs:296-349); `CTree.eval`
runs the emitted gates (layering/wire.rs:391-448) with the layered evaluator, drawing one fresh value from the tape for every
`Coef::Random`.
-/

namespace Verif.Props

open Verif.Layering Verif.Layered Verif.IR

/-- The wires of one layer (layering/wire.rs:391-448): after the emitted gates, the combined wire holds `Σ rᵢ·cᵢ` over the circuit's own
constraints (one fresh coefficient each) plus the combinations passed on with coefficient one, and no other wire changes. -/
theorem C16_gates {F : Type} [CommRing F] (V : LEnv F F) (hV : V.const 1 = 1) (segs : List (Segment F)) (f : Nat)
    (buf out : List F) (t : Nat → F) (pos numVar nIn : Nat) (aq : Nat → Nat) (vars subPos : List Nat) (hpos : pos < out.length)
    (hv : ∀ v ∈ vars, aq v < buf.length) (hs : ∀ p ∈ subPos, p < buf.length) :
    ∃ out', (∃ t', applySeg V segs (f + 1) (combineSegment numVar aq vars subPos pos nIn out.length) [buf] (out, t) = some (out', t')) ∧
      out'.length = out.length ∧ (∀ i, i ≠ pos → out'[i]? = out[i]?) ∧
      out'.getD pos 0 = out.getD pos 0 +
        (dot t ((vars.filter (fun v => v < numVar)).map fun v => buf.getD (aq v) 0) +
          ((vars.filter (fun v => numVar ≤ v)).map fun v => buf.getD (aq v) 0).sum + (subPos.map fun p => buf.getD p 0).sum) := by
  refine ⟨_, ⟨_, run_combine V hV segs f buf out t pos numVar nIn aq vars subPos hpos hv hs⟩, by simp, ?_, ?_⟩
  · intro i hi
    rw [List.getElem?_modify]
    simp [Ne.symm hi]
  · simp only [List.getD_eq_getElem?_getD, List.getElem?_modify, if_true]
    simp [hpos, ownVals, passVals]

/-- The value of the combined wire is the random linear combination of all constraints below it. -/
theorem C16_value {F : Type} [CommRing F] (V : LEnv F F) (hV : V.const 1 = 1) (c : CTree F) (t : Nat → F) :
    ∃ t', c.eval V t = some (∑ i : Fin c.leaves.length, t i * c.leaves[i], t') :=
  ⟨_, by rw [CTree.eval_eq V hV, dot_eq_sum]⟩

/-- Completeness: if every constraint is zero, the combined wire is zero whatever the coefficients. -/
theorem C16_complete {F : Type} [CommRing F] (V : LEnv F F) (hV : V.const 1 = 1) (c : CTree F) (h : ∀ x ∈ c.leaves, x = 0)
    (t : Nat → F) : (c.eval V t).map Prod.fst = some 0 := by
  rw [CTree.eval_eq V hV, dot_zero t _ h]; rfl

/-- Extend finitely many coefficients to a tape. -/
def tapeOf {F : Type} [Zero F] {n : Nat} (r : Fin n → F) : Nat → F := fun i => if h : i < n then r ⟨i, h⟩ else 0

/-- Soundness: over a field with `N` elements, if some constraint is non-zero then exactly one coefficient vector in `N` makes the combined
wire vanish. -/
theorem C16_sound {F : Type} [Field F] [Fintype F] [DecidableEq F] (V : LEnv F F) (hV : V.const 1 = 1) (c : CTree F)
    (h : ∃ x ∈ c.leaves, x ≠ 0) :
    Fintype.card { r : Fin c.leaves.length → F // (c.eval V (tapeOf r)).map Prod.fst = some 0 } * Fintype.card F =
      Fintype.card F ^ c.leaves.length := by
  obtain ⟨x, hx, hne⟩ := h
  obtain ⟨i, hi, rfl⟩ := List.getElem_of_mem hx
  rw [← count_zero (fun j : Fin c.leaves.length => c.leaves[j]) ⟨i, hi⟩ hne]
  congr 1
  apply Fintype.card_congr
  refine Equiv.subtypeEquivRight fun r => ?_
  rw [CTree.eval_eq V hV, dot_eq_sum]
  simp [tapeOf]

/-! ### Non-vacuity -/

instance prime5 : Fact (Nat.Prime 5) := ⟨by decide⟩

/-- Two layers at the root, one sub-circuit; constraint values 0, 2 and 1. -/
def ex16 : CTree (ZMod 5) := .node [0] [.node [2] [] []] [.node [1] [] []]

example : ex16.leaves = [2, 1, 0] := by simp [ex16, CTree.leaves, CTree.leavesL]
example : ∃ x ∈ ex16.leaves, x ≠ 0 := ⟨2, by simp [ex16, CTree.leaves, CTree.leavesL], by decide⟩
example : (ex16.eval (LEnv.unsafe fun _ _ => 0) (fun i => (i + 1 : Nat))).map Prod.fst = some 4 := by
  rw [CTree.eval_eq _ rfl]; simp [ex16, CTree.leaves, CTree.leavesL, dot]; decide
example : (CTree.node [0] [.node [0, 0] [] []] [] : CTree (ZMod 5)).leaves = [0, 0, 0] := by simp [CTree.leaves, CTree.leavesL]

end Verif.Props
