import Verif.Layering.SplitSem
import Mathlib.Tactic.FieldSimp
import Mathlib.Tactic.LinearCombination

/-!
# Sums of variables and of random multiples of variables (for `ir_split.rs`)
-/

set_option linter.unusedSectionVars false
set_option linter.unusedSimpArgs false

namespace Verif.Layering.Split

open Verif.IR (Expr Env Term VarSpec)
open Verif.Layering

variable {F : Type} [Field F] [DecidableEq F]

/-- Terms of a combination: variables, and variables with random coefficients. -/
def mk (l r : List Nat) : List (Term F) := l.map (fun x => (⟨1, .linear x⟩ : Term F)) ++ r.map (fun x => (⟨1, .randomLinear x⟩ : Term F))

theorem getVars_mk (l r : List Nat) : Expr.getVars (mk (F := F) l r) = l ++ r := by
  simp [Expr.getVars, mk, List.flatMap_append, List.flatMap_map, VarSpec.vars]

/-- Value of a monomial for given random values. -/
def wr (E : Env F) (W : Nat → F) (ρ : Nat → F) : VarSpec → F
  | .randomLinear x => W x * ρ x
  | v => Expr.mon E (fun x => some (W x)) v

theorem sem_wr (E : Env F) (W ρ : Nat → F) : ∀ e : Expr F, Expr.Sem E (fun x => some (W x)) e (Expr.lin (wr E W ρ) e) := by
  intro e
  induction e with
  | nil => rfl
  | cons t e ih =>
    refine ⟨wr E W ρ t.vars * t.coef, _, ?_, ih, rfl⟩
    obtain ⟨c, v⟩ := t
    cases v with
    | randomLinear x => exact ⟨W x, ρ x * c, rfl, by simp only [wr]; ring⟩
    | const => exact ⟨_, rfl, rfl⟩
    | linear x => exact ⟨W x, rfl, rfl⟩
    | quad x y => exact ⟨_, ⟨W x, W y, rfl, rfl, rfl⟩, rfl⟩
    | custom g xs =>
      refine ⟨E.custom g (xs.map W), ⟨xs.map W, Verif.mapOpt_some, rfl⟩, ?_⟩
      simp only [wr, Expr.mon, Option.getD_some]

theorem lin_fromTerms_mk (w : VarSpec → F) (l r : List Nat) : Expr.lin w (Expr.fromTerms (mk l r)) = Expr.lin w (mk l r) := by
  unfold Expr.fromTerms
  rw [Expr.lin_compress, Expr.sortTerms, Expr.lin_perm _ (List.perm_insertionSort _ _)]
  congr 1
  simp [mk, Function.comp_def, Term.normalize, VarSpec.normalize]

theorem lin_mk (E : Env F) (W ρ : Nat → F) (l r : List Nat) : Expr.lin (wr E W ρ) (mk l r) = (l.map W).sum + (r.map fun x => W x * ρ x).sum := by
  simp [Expr.lin, mk, List.map_append, List.sum_append, Function.comp_def, wr, Expr.mon]

theorem sem_mk (E : Env F) (W ρ : Nat → F) (l r : List Nat) :
    Expr.Sem E (fun x => some (W x)) (Expr.fromTerms (mk l r)) ((l.map W).sum + (r.map fun x => W x * ρ x).sum) := by
  rw [← lin_mk E W ρ l r, ← lin_fromTerms_mk]
  exact sem_wr E W ρ _

/-- The random coefficients may be zero. -/
theorem sem_sum (E : Env F) (W : Nat → F) (l r : List Nat) : Expr.Sem E (fun x => some (W x)) (Expr.fromTerms (mk l r)) (l.map W).sum := by
  have := sem_mk E W (fun _ => 0) l r
  simpa using this

theorem sum_ite (W : Nat → F) (v : Nat) (c : F) : ∀ r : List Nat, (r.map fun x => W x * if x = v then c else 0).sum = (r.count v : F) * (W v * c) := by
  intro r
  induction r with
  | nil => simp
  | cons a r ih =>
    rw [List.map_cons, List.sum_cons, ih, List.count_cons]
    by_cases h : a = v
    · subst h; simp; ring
    · simp [h]

/-- With a nonzero variable that has a random coefficient every value is possible. -/
theorem sem_any (E : Env F) {W : Nat → F} {l r : List Nat} {v : Nat} (hv : v ∈ r) (hW : W v ≠ 0) (hc : ∀ k, 0 < k → k ≤ r.length → (k : F) ≠ 0) (y : F) :
    Expr.Sem E (fun x => some (W x)) (Expr.fromTerms (mk l r)) y := by
  have hk : (r.count v : F) ≠ 0 := hc _ (List.count_pos_iff.2 hv) List.count_le_length
  have := sem_mk E W (fun x => if x = v then (y - (l.map W).sum) * ((r.count v : F) * W v)⁻¹ else 0) l r
  rw [sum_ite] at this
  have e : (l.map W).sum + (r.count v : F) * (W v * ((y - (l.map W).sum) * ((r.count v : F) * W v)⁻¹)) = y := by
    field_simp; ring
  rwa [e] at this

/-- If all variables are zero, so is the combination. -/
theorem sem_zero (E : Env F) {W : Nat → F} {l r : List Nat} (hl : ∀ x ∈ l, W x = 0) (hr : ∀ x ∈ r, W x = 0) {y : F}
    (h : Expr.Sem E (fun x => some (W x)) (Expr.fromTerms (mk l r)) y) : y = 0 := by
  have hall : ∀ t ∈ Expr.fromTerms (mk (F := F) l r), t = Term.zero ∨ (∃ x, t.vars = .linear x ∧ W x = 0) ∨ (∃ x, t.vars = .randomLinear x ∧ W x = 0) := by
    intro t ht
    by_cases hz : t = Term.zero
    · exact Or.inl hz
    · obtain ⟨s, hs, e⟩ := Expr.fromTerms_mem _ t ht hz
      rcases List.mem_append.1 hs with hs | hs
      · obtain ⟨x, hx, rfl⟩ := List.mem_map.1 hs
        exact Or.inr (Or.inl ⟨x, e.symm, hl x hx⟩)
      · obtain ⟨x, hx, rfl⟩ := List.mem_map.1 hs
        exact Or.inr (Or.inr ⟨x, e.symm, hr x hx⟩)
  revert h hall
  generalize Expr.fromTerms (mk (F := F) l r) = e
  intro h hall
  induction e generalizing y with
  | nil => exact h
  | cons t e ih =>
    obtain ⟨a, b, h1, h2, rfl⟩ := h
    rw [ih h2 (fun t ht => hall t (by simp [ht])), add_zero]
    obtain ⟨c, v⟩ := t
    rcases hall ⟨c, v⟩ (by simp) with hz | ⟨x, e, hx⟩ | ⟨x, e, hx⟩
    · cases hz
      obtain ⟨m, hm, rfl⟩ := h1
      simp
    · simp only at e; subst e
      obtain ⟨m, hm, rfl⟩ := h1
      cases hm
      rw [hx]; simp
    · simp only at e; subst e
      obtain ⟨m, r, hm, rfl⟩ := h1
      cases hm
      rw [hx]; simp

end Verif.Layering.Split
