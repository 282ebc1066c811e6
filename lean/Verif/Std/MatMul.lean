import Mathlib.Algebra.Field.Basic
import Mathlib.LinearAlgebra.Matrix.Notation
import Mathlib.Data.Matrix.Mul
import Mathlib.Algebra.Polynomial.Roots
import Mathlib.Algebra.BigOperators.Fin
import Mathlib.Tactic.Ring
import Mathlib.Tactic.LinearCombination
/-!
Model of `/repo/circuit-std-rs/src/matmul.rs` at the level of field values (see `Verif.Std.LogUp` for the conventions).
-/
set_option linter.unusedSectionVars false
set_option linter.unusedSimpArgs false
namespace Verif.Std.MatMul

variable {F : Type} [Field F] [DecidableEq F]

/-- One entry of `matrix_multiply` (matmul.rs:99-104): `Σ_j origin[i][j] * aux[j]` over the indices of `aux`; an index beyond the row panics. -/
def mulRow (row aux : List F) : Option F :=
  if aux.length ≤ row.length then some ((row.zip aux).map fun p => p.1 * p.2).sum else none

/-- matmul.rs:85-105: `n` is the length of the target (initially all zero). -/
def matrixMultiply (n : Nat) (aux : List F) (origin : List (List F)) : Option (List F) :=
  if n ≤ origin.length then (origin.take n).mapM fun row => mulRow row aux else none

/-- The values pushed by the loop matmul.rs:60-63. -/
def powers (r : F) : Nat → F → List F
  | 0, _ => []
  | k + 1, ch => (ch * r) :: powers r k (ch * r)

/-- matmul.rs:54-63.  `Variable::from(1)` is the variable with id 1, not the constant one; `x1` is its value. -/
def auxMat (x1 r : F) (n2 : Nat) : List F := x1 :: powers r (n2 - 1) r

/-- The body of the loop, matmul.rs:53-79. -/
def roundCheck (x1 : F) (a b c : List (List F)) (n2 : Nat) (r : F) : Option Bool :=
  let aux := auxMat x1 r n2
  match matrixMultiply b.length aux b, matrixMultiply a.length aux c with
  | some second, some res =>
    match matrixMultiply a.length second a with
    | some first => some (decide (first = res))
    | none => none
  | _, _ => none

/-- Values of the variables with ids 0, 1, ...: the inputs in the order of the fields of the circuit struct, row by row (`declare_circuit!`), then the constant zero of
matmul.rs:41. -/
def varVals (a b c : List (List F)) : List F := 0 :: (a.flatten ++ b.flatten ++ c.flatten) ++ [0]

/-- `assert_is_equal(Variable::from(x), Variable::from(y))` (matmul.rs:43-45) compares the values of the variables with ids `x` and `y`; id 0 panics. -/
def assertIds (vals : List F) (x y : Nat) : Option Bool :=
  if x = 0 ∨ y = 0 then none else
  match vals[x]?, vals[y]? with
  | some u, some v => some (decide (u = v))
  | _, _ => none

/-- Conjunction of assertions where a panic dominates. -/
def andO : Option Bool → Option Bool → Option Bool
  | some x, some y => some (x && y)
  | _, _ => none

/-- matmul.rs:27-82 (`define`).  `draws` are the random values, one per iteration of the loop (three for M31, one otherwise). -/
def define (a b c : List (List F)) (draws : List F) : Option Bool :=
  match a, b, c with
  | ra :: _, rb :: _, rc :: _ =>
    let vals := varVals a b c
    let dims := andO (andO (assertIds vals ra.length b.length) (assertIds vals c.length a.length)) (assertIds vals rc.length rb.length)
    match vals[1]? with
    | some x1 => draws.foldl (fun acc r => andO acc (roundCheck x1 a b c rb.length r)) dims
    | none => none
  | _, _, _ => none

/-- A matrix as rows. -/
def rows {m n : Nat} (A : Matrix (Fin m) (Fin n) F) : List (List F) := List.ofFn fun i => List.ofFn (A i)

theorem mulRow_ofFn {n : Nat} (r v : Fin n → F) : mulRow (List.ofFn r) (List.ofFn v) = some (∑ j, r j * v j) := by
  rw [mulRow, if_pos (by simp), ← List.sum_ofFn]
  congr 2
  apply List.ext_getElem
  · simp
  · intro i h1 h2; simp

theorem matrixMultiply_ofFn {m n : Nat} (A : Matrix (Fin m) (Fin n) F) (v : Fin n → F) :
    matrixMultiply m (List.ofFn v) (rows A) = some (List.ofFn (A.mulVec v)) := by
  rw [matrixMultiply, if_pos (by simp [rows]), List.take_of_length_le (by simp [rows])]
  have : ∀ l : List (Fin m), (l.map fun i => List.ofFn (A i)).mapM (fun row => mulRow row (List.ofFn v)) = some (l.map (A.mulVec v)) := by
    intro l
    induction l with
    | nil => rfl
    | cons i l ih =>
      rw [List.map_cons, List.mapM_cons, ih, mulRow_ofFn]; rfl
  have e : rows A = (List.finRange m).map fun i => List.ofFn (A i) := List.ofFn_eq_map
  rw [e, this]
  exact congrArg some List.ofFn_eq_map.symm

theorem powers_get (r : F) : ∀ (k : Nat) (ch : F) (i : Nat), i < k → (powers r k ch)[i]? = some (ch * r ^ (i + 1)) := by
  intro k
  induction k with
  | zero => intro ch i h; omega
  | succ k ih =>
    intro ch i h
    cases i with
    | zero => simp [powers]
    | succ i => simp only [powers, List.getElem?_cons_succ]; rw [ih _ i (by omega)]; congr 1; ring

theorem powers_length (r : F) : ∀ (k : Nat) (ch : F), (powers r k ch).length = k := by
  intro k; induction k with
  | zero => intro ch; rfl
  | succ k ih => intro ch; simp [powers, ih]

/-- The vector used by the check. -/
def auxVec (x1 r : F) (n : Nat) : Fin (n + 1) → F := fun j => if j.1 = 0 then x1 else r ^ (j.1 + 1)

theorem auxMat_eq (x1 r : F) (n : Nat) : auxMat x1 r (n + 1) = List.ofFn (auxVec x1 r n) := by
  apply List.ext_getElem?
  intro i
  cases i with
  | zero => simp [auxMat, auxVec]
  | succ i =>
    simp only [auxMat, Nat.add_sub_cancel, List.getElem?_cons_succ, List.getElem?_ofFn]
    by_cases h : i < n
    · rw [powers_get _ _ _ _ h]; simp [auxVec, h]; ring
    · rw [List.getElem?_eq_none (by rw [powers_length]; omega)]; simp [h]

theorem roundCheck_iff {m n k : Nat} (x1 r : F) (A : Matrix (Fin m) (Fin n) F) (B : Matrix (Fin n) (Fin (k + 1)) F) (C : Matrix (Fin m) (Fin (k + 1)) F) :
    roundCheck x1 (rows A) (rows B) (rows C) (k + 1) r = some (decide (A.mulVec (B.mulVec (auxVec x1 r k)) = C.mulVec (auxVec x1 r k))) := by
  have h1 : (rows A).length = m := by simp [rows]
  have h2 : (rows B).length = n := by simp [rows]
  simp only [roundCheck, auxMat_eq, h1, h2, matrixMultiply_ofFn, List.ofFn_inj]

theorem assertIds_self {vals : List F} {x : Nat} (h0 : x ≠ 0) (h : x < vals.length) : assertIds vals x x = some true := by
  simp [assertIds, h0, List.getElem?_eq_getElem h]

theorem flatten_rows_length {m n : Nat} (A : Matrix (Fin m) (Fin n) F) : (rows A).flatten.length = m * n := by
  rw [List.length_flatten, rows, List.map_ofFn]
  have : (List.length ∘ fun i => List.ofFn (A i)) = fun _ => n := by funext i; simp
  rw [this, List.sum_ofFn]; simp

theorem rows_cons {m n : Nat} (A : Matrix (Fin (m + 1)) (Fin (n + 1)) F) : ∃ l rest, rows A = l :: rest ∧ l.length = n + 1 ∧ l[0]? = some (A 0 0) := by
  refine ⟨List.ofFn (A 0), List.ofFn fun i => List.ofFn (A i.succ), ?_, by simp, by simp⟩
  simp [rows, List.ofFn_succ]

theorem andO_true (o : Option Bool) : andO (some true) o = o := by cases o <;> simp [andO]

theorem fold_andO (f : F → Bool) (l : List F) (b : Bool) : l.foldl (fun acc r => andO acc (some (f r))) (some b) = some (b && l.all f) := by
  induction l generalizing b with
  | nil => simp
  | cons r l ih =>
    rw [List.foldl_cons, show andO (some b) (some (f r)) = some (b && f r) from rfl, ih, List.all_cons, Bool.and_assoc]

/-- The verdict of `define` for matrices of matching dimensions. -/
theorem define_eq {m n k : Nat} (A : Matrix (Fin (m + 1)) (Fin (n + 1)) F) (B : Matrix (Fin (n + 1)) (Fin (k + 1)) F) (C : Matrix (Fin (m + 1)) (Fin (k + 1)) F) (draws : List F) :
    define (rows A) (rows B) (rows C) draws =
      some (draws.all fun r => decide (A.mulVec (B.mulVec (auxVec (A 0 0) r k)) = C.mulVec (auxVec (A 0 0) r k))) := by
  obtain ⟨la, ta, ha, hla, ha0⟩ := rows_cons A
  obtain ⟨lb, tb, hb, hlb, _⟩ := rows_cons B
  obtain ⟨lc, tc, hc, hlc, _⟩ := rows_cons C
  have hA : (rows A).length = m + 1 := by simp [rows]
  have hB : (rows B).length = n + 1 := by simp [rows]
  have hC : (rows C).length = m + 1 := by simp [rows]
  have hvl : (varVals (rows A) (rows B) (rows C)).length = 1 + ((m + 1) * (n + 1) + (n + 1) * (k + 1) + (m + 1) * (k + 1)) + 1 := by
    simp only [varVals, List.length_cons, List.length_append, flatten_rows_length, List.length_nil]; omega
  have p1 : n + 1 ≤ (m + 1) * (n + 1) := Nat.le_mul_of_pos_left _ (by omega)
  have p2 : m + 1 ≤ (m + 1) * (n + 1) := Nat.le_mul_of_pos_right _ (by omega)
  have p3 : k + 1 ≤ (n + 1) * (k + 1) := Nat.le_mul_of_pos_left _ (by omega)
  have e1 : assertIds (varVals (rows A) (rows B) (rows C)) la.length (rows B).length = some true := by
    rw [hla, hB]; exact assertIds_self (by omega) (by rw [hvl]; omega)
  have e2 : assertIds (varVals (rows A) (rows B) (rows C)) (rows C).length (rows A).length = some true := by
    rw [hA, hC]; exact assertIds_self (by omega) (by rw [hvl]; omega)
  have e3 : assertIds (varVals (rows A) (rows B) (rows C)) lc.length lb.length = some true := by
    rw [hlb, hlc]; exact assertIds_self (by omega) (by rw [hvl]; omega)
  have ex : (varVals (rows A) (rows B) (rows C))[1]? = some (A 0 0) := by
    rw [varVals, ha]
    cases la with
    | nil => simp at hla
    | cons z la => simpa using ha0
  have hfold := fold_andO (fun r => decide (A.mulVec (B.mulVec (auxVec (A 0 0) r k)) = C.mulVec (auxVec (A 0 0) r k))) draws true
  unfold define
  generalize hra : rows A = RA at *
  generalize hrb : rows B = RB at *
  generalize hrc : rows C = RC at *
  subst ha hb hc
  simp only [e1, e2, e3, ex, andO_true]
  simp only [hlb, ← hra, ← hrb, ← hrc, roundCheck_iff]
  rw [hfold]; simp

open Polynomial in
/-- If `D ≠ 0` then `D v(r) = 0` for at most `k + 1` values `r`. -/
theorem bad_card {m k : Nat} {x1 : F} (hx : x1 ≠ 0) {D : Matrix (Fin m) (Fin (k + 1)) F} (hD : D ≠ 0) :
    ∃ bad : Finset F, bad.card ≤ k + 1 ∧ ∀ r, D.mulVec (auxVec x1 r k) = 0 → r ∈ bad := by
  obtain ⟨i, j, hij⟩ : ∃ i j, D i j ≠ 0 := by
    by_contra h
    push_neg at h
    exact hD (by ext i j; exact h i j)
  let P : F[X] := ∑ j : Fin (k + 1), C (D i j) * (if j.1 = 0 then C x1 else X ^ (j.1 + 1))
  have hdeg : P.natDegree ≤ k + 1 := by
    apply natDegree_sum_le_of_forall_le
    intro j _
    refine (natDegree_C_mul_le _ _).trans ?_
    split
    · simp
    · rw [natDegree_X_pow]; omega
  have hcoef : P.coeff (if j.1 = 0 then 0 else j.1 + 1) ≠ 0 := by
    have : P.coeff (if j.1 = 0 then 0 else j.1 + 1) = ∑ l : Fin (k + 1), if l = j then (if j.1 = 0 then D i j * x1 else D i j) else 0 := by
      simp only [P, finset_sum_coeff]
      apply Finset.sum_congr rfl
      intro l _
      by_cases hl : l = j
      · subst hl
        by_cases h0 : l.1 = 0
        · simp [h0]
        · simp [h0]
      · have hlj : l.1 ≠ j.1 := fun e => hl (Fin.ext e)
        by_cases h0 : l.1 = 0
        · have : j.1 ≠ 0 := by omega
          simp [h0, hl, this, coeff_C]
        · by_cases hj : j.1 = 0
          · simp [h0, hl, hj, coeff_X_pow]
          · simp [h0, hl, hj, coeff_X_pow, hlj]; intro e; omega
    rw [this, Finset.sum_ite_eq' Finset.univ j]
    simp only [Finset.mem_univ, if_true]
    split
    · exact mul_ne_zero hij hx
    · exact hij
  have hP : P ≠ 0 := fun e => hcoef (by rw [e]; simp)
  refine ⟨P.roots.toFinset, (Multiset.toFinset_card_le _).trans ((card_roots' P).trans hdeg), ?_⟩
  intro r hr
  rw [Multiset.mem_toFinset, mem_roots hP, IsRoot]
  have := congrFun hr i
  simp only [Matrix.mulVec, dotProduct, Pi.zero_apply] at this
  rw [← this]
  simp only [P, eval_finset_sum]
  apply Finset.sum_congr rfl
  intro l _
  simp only [auxVec]
  by_cases h0 : l.1 = 0
  · simp [h0]
  · simp [h0]

end Verif.Std.MatMul
