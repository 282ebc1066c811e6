import Verif.Props.Examples
import Mathlib.Algebra.CharP.Two

/-!
# C05: normalisation of expressions preserves their value
-/

set_option linter.unusedSectionVars false

namespace Verif.Props

open Verif.IR

variable {F : Type} [Field F] [DecidableEq F]

/-- Specification: the value of a monomial under a total assignment. -/
def monValue (custom : Nat → List F → F) (a : Nat → F) : VarSpec → F
  | .const => 1
  | .linear x => a x
  | .quad x y => a x * a y
  | .custom g xs => custom g (xs.map a)
  | .randomLinear _ => 0

/-- Specification: the value of a list of terms, `Σ coef · monomial`. -/
def termsValue (custom : Nat → List F → F) (a : Nat → F) (ts : List (Term F)) : F :=
  (ts.map (fun t => t.coef * monValue custom a t.vars)).sum

/-- Specification: no random term. -/
def NoRandomTerm (ts : List (Term F)) : Prop := ∀ t ∈ ts, ∀ x, t.vars ≠ .randomLinear x

private theorem monValue_eq (E : Env F) (a : Nat → F) (v : VarSpec) :
    Expr.mon E (fun x => some (a x)) v = monValue E.custom a v := by
  cases v <;> simp [Expr.mon, monValue]

private theorem termsValue_eq (E : Env F) (a : Nat → F) (ts : List (Term F)) :
    Expr.lin (Expr.mon E (fun x => some (a x))) ts = termsValue E.custom a ts := by
  simp [Expr.lin, termsValue, monValue_eq, mul_comm]

/-- The value of an expression built from any list of terms (in any order, with repetitions and cancellations) is the sum of
the terms, under every assignment and every meaning of the custom gates. -/
theorem C05_value (E : Env F) (a : Nat → F) (ts : List (Term F)) :
    termsValue E.custom a (Expr.fromTerms ts) = termsValue E.custom a ts := by
  rw [← termsValue_eq, ← termsValue_eq, Expr.lin_fromTerms]

/-- `termsValue` is what the evaluator computes: evaluation of the built expression has exactly one result, that value. -/
theorem C05_eval (E : Env F) (a : Nat → F) (ts : List (Term F)) (hr : NoRandomTerm ts) (y : F) :
    Expr.Sem E (fun x => some (a x)) (Expr.fromTerms ts) y ↔ y = termsValue E.custom a ts := by
  rw [Expr.sem_fromTerms E _ ts hr (fun _ _ => rfl), Expr.sem_iff_lin E _ ts hr (fun _ _ => rfl), termsValue_eq]

/-- Shape: strictly sorted by the derived order of monomials (in particular no monomial occurs twice), products have their
variables in normal order, and no coefficient is zero unless the expression is the single constant 0. -/
theorem C05_shape (ts : List (Term F)) :
    (Expr.fromTerms ts).Pairwise (fun s t => s.vars.lt t.vars) ∧
    (∀ t ∈ Expr.fromTerms ts, ∀ x y, t.vars = .quad x y → y ≤ x) ∧
    (Expr.fromTerms ts = [⟨0, .const⟩] ∨ (Expr.fromTerms ts ≠ [] ∧ ∀ t ∈ Expr.fromTerms ts, t.coef ≠ 0)) := by
  refine ⟨Expr.fromTerms_sorted ts, ?_, Expr.fromTerms_nonzero ts⟩
  intro t ht x y e
  have := Expr.fromTerms_normalized ts t ht
  rw [e] at this
  simpa [VarSpec.isNormalized] using this

/-- No variable is invented. -/
theorem C05_vars (ts : List (Term F)) : ∀ x ∈ Expr.getVars (Expr.fromTerms ts), x ∈ Expr.getVars ts :=
  fun x hx => Expr.fromTerms_vars ts x hx

/-- The restriction to non-random terms is necessary: over a field of characteristic two, two random terms with the same variable
are merged into nothing, although their sum can take any value (`compress_identical_terms` adds up the ignored coefficients). -/
theorem C05_random_violated [CharP F 2] (E : Env F) (a : Nat → F) (ha : a 1 ≠ 0) :
    Expr.Sem E (fun x => some (a x)) [⟨1, .randomLinear 1⟩, ⟨1, .randomLinear 1⟩] 1 ∧
    ¬ Expr.Sem E (fun x => some (a x)) (Expr.fromTerms [⟨1, .randomLinear 1⟩, ⟨1, .randomLinear 1⟩]) 1 := by
  have h2 : (1 : F) + 1 = 0 := CharTwo.add_self_eq_zero 1
  constructor
  · refine ⟨1, 0, ?_, ⟨0, 0, ?_, rfl, by simp⟩, by simp⟩
    · exact ⟨a 1, (a 1)⁻¹, rfl, by simp [ha]⟩
    · exact ⟨a 1, 0, rfl, by simp⟩
  · have : Expr.fromTerms [⟨(1 : F), .randomLinear 1⟩, ⟨1, .randomLinear 1⟩] = [⟨0, .const⟩] := by
      simp [Expr.fromTerms, Term.normalize, VarSpec.normalize, Expr.sortTerms, VarSpec.le, Expr.compress,
        Expr.mergeAdj, h2, Term.zero]
    rw [this]
    simp [Expr.Sem, Term.Sem, VarSpec.Sem]

/-- Cancellation, reordering and merging on a concrete list. -/
example : NoRandomTerm ([⟨3, .quad 1 2⟩, ⟨1, .linear 4⟩, ⟨4, .quad 2 1⟩, ⟨2, .const⟩, ⟨5, .linear 4⟩] : List (Term Ex.F7)) ∧
    Expr.fromTerms ([⟨3, .quad 1 2⟩, ⟨1, .linear 4⟩, ⟨4, .quad 2 1⟩, ⟨2, .const⟩, ⟨5, .linear 4⟩] : List (Term Ex.F7)) =
      [⟨2, .const⟩, ⟨6, .linear 4⟩] := by
  refine ⟨?_, by decide +kernel⟩
  intro t ht x
  simp at ht
  rcases ht with rfl | rfl | rfl | rfl | rfl <;> simp

end Verif.Props
