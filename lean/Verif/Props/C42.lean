import Verif.Std.MatMul
import Mathlib.Data.ZMod.Basic
import Mathlib.Algebra.Field.ZMod
/-!
C42: the matrix multiplication check (circuit-std-rs/src/matmul.rs).  Matrices are Mathlib matrices; `rows` lists them row by row as the circuit's inputs.
-/
set_option linter.unusedSectionVars false
namespace Verif.Props
open Verif.Std.MatMul

variable {F : Type} [Field F] [DecidableEq F]

/-- Completeness: a correct product is accepted for every challenge. -/
theorem C42_complete {m n k : Nat} (A : Matrix (Fin (m + 1)) (Fin (n + 1)) F) (B : Matrix (Fin (n + 1)) (Fin (k + 1)) F) (draws : List F) :
    define (rows A) (rows B) (rows (A * B)) draws = some true := by
  rw [define_eq]
  simp [Matrix.mulVec_mulVec]

/-- Soundness when the top left entry of the first matrix is not zero: a wrong product is accepted only if every challenge lies in a set of at most `columns` elements.
Missing from the full property: `A 0 0 = 0`, where the claim is false (next theorem). -/
theorem C42_sound_partial {m n k : Nat} (A : Matrix (Fin (m + 1)) (Fin (n + 1)) F) (B : Matrix (Fin (n + 1)) (Fin (k + 1)) F) (C : Matrix (Fin (m + 1)) (Fin (k + 1)) F)
    (hA : A 0 0 ≠ 0) (hC : C ≠ A * B) :
    ∃ bad : Finset F, bad.card ≤ k + 1 ∧ ∀ draws, define (rows A) (rows B) (rows C) draws = some true → ∀ r ∈ draws, r ∈ bad := by
  obtain ⟨bad, h1, h2⟩ := bad_card (x1 := A 0 0) hA (D := A * B - C) (sub_ne_zero.2 hC.symm)
  refine ⟨bad, h1, ?_⟩
  intro draws h r hr
  rw [define_eq] at h
  simp only [Option.some.injEq, List.all_eq_true, decide_eq_true_eq] at h
  apply h2
  rw [Matrix.sub_mulVec, ← Matrix.mulVec_mulVec, h r hr, sub_self]

/-- `Variable::from(1)` is the first input and not the constant one: if `A 0 0 = 0` the first column of the result is not checked at all. -/
theorem C42_violated {m n k : Nat} (A : Matrix (Fin (m + 1)) (Fin (n + 1)) F) (B : Matrix (Fin (n + 1)) (Fin (k + 1)) F) (C : Matrix (Fin (m + 1)) (Fin (k + 1)) F)
    (hA : A 0 0 = 0) (hC : ∀ i j, j ≠ 0 → C i j = (A * B) i j) (draws : List F) : define (rows A) (rows B) (rows C) draws = some true := by
  rw [define_eq]
  simp only [Option.some.injEq, List.all_eq_true, decide_eq_true_eq]
  intro r _
  rw [Matrix.mulVec_mulVec]
  funext i
  simp only [Matrix.mulVec, dotProduct]
  apply Finset.sum_congr rfl
  intro j _
  by_cases hj : j = 0
  · subst hj; simp [auxVec, hA]
  · rw [hC i j hj]

instance c42_prime : Fact (Nat.Prime 7) := ⟨by decide⟩

/-- A wrong product accepted for every challenge. -/
theorem C42_wrong_accepted : ∃ (A B C : Matrix (Fin 1) (Fin 1) (ZMod 7)), C ≠ A * B ∧ ∀ draws, define (rows A) (rows B) (rows C) draws = some true :=
  ⟨!![0], !![1], !![5], by decide, fun draws => C42_violated (m := 0) (n := 0) (k := 0) _ _ _ (by decide) (fun _ j h => absurd (Fin.ext (by have := j.2; simp only [Fin.val_zero]; omega)) h) draws⟩

/-- The dimension checks compare the values of the variables whose ids are the dimensions: a 1x2 times 1x1 product is accepted. -/
theorem C42_dims_violated : ∃ (a b c : List (List (ZMod 7))), a = [[3, 3]] ∧ b.length = 1 ∧ ∀ r, define a b c [r] = some true :=
  ⟨[[3, 3]], [[2]], [[6]], rfl, rfl, by decide⟩

example : define (rows !![1, 2; 3, 4]) (rows !![5, 6; 0, 1]) (rows !![5, 1; 1, 1]) [(3 : ZMod 7)] = some true := by decide
example : define (rows !![1, 2; 3, 4]) (rows !![5, 6; 0, 1]) (rows !![5, 1; 1, 2]) [(3 : ZMod 7)] = some false := by decide

end Verif.Props
