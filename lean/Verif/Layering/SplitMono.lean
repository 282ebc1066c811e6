import Verif.Layering.Split

/-!
# A larger recursion bound does not change the result of splitting

The model of `split_to_single_layer` (ir_split.rs:464-493) has a bound on the depth of recursion; once there is a result, it is the same for
every larger bound.
-/

set_option linter.unusedSectionVars false
set_option linter.unusedSimpArgs false

namespace Verif.Layering.Split

open Verif.IR (Expr Coef Term VarSpec)
open Verif.Layering

variable {F : Type} [Field F] [DecidableEq F]

theorem layerPass_mono {r1 r2 : Nat → List Nat → Option (List Nat × List Nat)} (h : ∀ d xs r, r1 d xs = some r → r2 d xs = some r) :
    ∀ (is : List (Verif.IR.Dest.Insn F)) (ls cc : List Nat) r, layerPass r1 is ls cc = some r → layerPass r2 is ls cc = some r := by
  intro is
  induction is with
  | nil => intro ls cc r hr; exact hr
  | cons i is ih =>
    intro ls cc r hr
    cases i with
    | constantLike v => exact ih _ _ _ hr
    | internal e => exact ih _ _ _ hr
    | call d xs n =>
      rw [layerPass] at hr ⊢
      cases h1 : r1 d (xs.map (layAt ls)) with
      | none => rw [h1] at hr; cases hr
      | some p =>
        obtain ⟨o, c⟩ := p
        rw [h1] at hr
        rw [h _ _ _ h1]
        dsimp only at hr ⊢
        split at hr
        · rename_i hc
          rw [if_pos hc]; exact ih _ _ _ hr
        · cases hr

theorem layersOf_mono {get : Nat → Option (Prog F)} : ∀ {n m : Nat}, n ≤ m → ∀ id ils r, layersOf get n id ils = some r → layersOf get m id ils = some r := by
  intro n
  induction n with
  | zero => intro m _ id ils r h; cases h
  | succ n ih =>
    intro m hm id ils r h
    obtain ⟨k, rfl⟩ : ∃ k, m = k + 1 := ⟨m - 1, by omega⟩
    rw [layersOf] at h ⊢
    cases hg : get id with
    | none => rw [hg] at h; cases h
    | some p =>
      rw [hg] at h
      dsimp only at h ⊢
      cases hl : layerPass (layersOf get n) p.insns (0 :: ils) [] with
      | none => rw [hl] at h; cases h
      | some q =>
        rw [hl] at h
        rw [layerPass_mono (ih (by omega : n ≤ k)) _ _ _ _ hl]
        exact h

section
variable {l1 l2 : Nat → List Nat → Option (List Nat × List Nat)} {r1 r2 : Nat → List Nat → List (Prog F) → Option (Spl × List (Prog F))}
  (hl : ∀ d xs r, l1 d xs = some r → l2 d xs = some r) (hr : ∀ d xs pool r, r1 d xs pool = some r → r2 d xs pool = some r)
include hl hr

theorem expandStep_mono (i : Verif.IR.Dest.Insn F) (st : Exp F) (pool : List (Prog F)) (r : Exp F × List (Prog F)) (h : expandStep l1 r1 i st pool = some r) :
    expandStep l2 r2 i st pool = some r := by
  cases i with
  | constantLike v => exact h
  | internal e => exact h
  | call d xs n =>
    simp only [expandStep] at h ⊢
    cases h1 : r1 d ((xs.map fun x => st.vm.getD x 0).map (layAt st.ls)) pool with
    | none => rw [h1] at h; cases h
    | some p =>
      cases h2 : l1 d ((xs.map fun x => st.vm.getD x 0).map (layAt st.ls)) with
      | none => rw [h1, h2] at h; cases h
      | some q =>
        rw [h1, h2] at h
        rw [hr _ _ _ _ h1, hl _ _ _ h2]
        exact h

theorem expand_mono : ∀ (is : List (Verif.IR.Dest.Insn F)) (st : Exp F) (pool : List (Prog F)) r, expand l1 r1 is st pool = some r → expand l2 r2 is st pool = some r := by
  intro is
  induction is with
  | nil => intro st pool r h; exact h
  | cons i is ih =>
    intro st pool r h
    rw [expand] at h ⊢
    cases h1 : expandStep l1 r1 i st pool with
    | none => rw [h1] at h; cases h
    | some p =>
      rw [h1] at h
      rw [expandStep_mono hl hr _ _ _ _ h1]
      exact ih _ _ _ h

theorem flatten_mono (random root : Bool) (p : Prog F) (ils : List Nat) (pool : List (Prog F)) (r : Flat F × List (Prog F))
    (h : flatten random root l1 r1 p ils pool = some r) : flatten random root l2 r2 p ils pool = some r := by
  unfold flatten at h ⊢
  cases h1 : expand l1 r1 p.insns (Exp.init p.numInputs ils) pool with
  | none => rw [h1] at h; cases h
  | some q =>
    rw [h1] at h
    rw [expand_mono hl hr _ _ _ _ h1]
    exact h

end

theorem split_mono {random : Bool} {get : Nat → Option (Prog F)} {N M : Nat} (hNM : N ≤ M) : ∀ {n m : Nat}, n ≤ m → ∀ pre id ils pool r,
    split random get N n pre id ils pool = some r → split random get M m pre id ils pool = some r := by
  intro n
  induction n with
  | zero => intro m _ pre id ils pool r h; cases h
  | succ n ih =>
    intro m hm pre id ils pool r h
    obtain ⟨k, rfl⟩ : ∃ k, m = k + 1 := ⟨m - 1, by omega⟩
    rw [split] at h ⊢
    by_cases h0 : id = 0
    · rw [if_pos h0] at h; cases h
    · rw [if_neg h0] at h ⊢
      cases hg : get id with
      | none => rw [hg] at h; cases h
      | some p =>
        cases hl : layersOf get N id ils with
        | none => rw [hg, hl] at h; cases h
        | some q =>
          obtain ⟨o, cc⟩ := q
          rw [hg, hl] at h
          rw [layersOf_mono hNM _ _ _ hl]
          dsimp only at h ⊢
          cases hf : flatten random false (layersOf get N) (split random get N n (sortDedup (pre ++ (ils ++ (o ++ cc))))) p ils pool with
          | none => rw [hf] at h; cases h
          | some q =>
            rw [hf] at h
            rw [flatten_mono (layersOf_mono hNM) (fun d xs pool r => ih (by omega : n ≤ k) _ d xs pool r) _ _ _ _ _ _ hf]
            exact h

/-- The result does not depend on the bound. -/
theorem splitRoot_mono {random : Bool} {get : Nat → Option (Prog F)} {n m k : Nat} (hm : n ≤ m) {r : Prog F × List (Prog F) × Nat}
    (h : splitRoot random get n k = some r) : splitRoot random get m k = some r := by
  unfold splitRoot at h ⊢
  cases hg : get 0 with
  | none => rw [hg] at h; cases h
  | some p =>
    rw [hg] at h
    dsimp only at h ⊢
    cases hl : layersOf get n 0 (List.replicate p.numInputs 0) with
    | none => rw [hl] at h; cases h
    | some q =>
      obtain ⟨o, cc⟩ := q
      rw [hl] at h
      rw [layersOf_mono hm _ _ _ hl]
      dsimp only at h ⊢
      cases hf : flatten random true (layersOf get n) (split random get n n (sortDedup ([0] ++ (List.replicate p.numInputs 0 ++ (o ++ cc))))) p (List.replicate p.numInputs 0) [] with
      | none => rw [hf] at h; cases h
      | some q =>
        rw [hf] at h
        rw [flatten_mono (layersOf_mono hm) (fun d xs pool r => split_mono hm hm _ d xs pool r) _ _ _ _ _ _ hf]
        exact h

end Verif.Layering.Split
