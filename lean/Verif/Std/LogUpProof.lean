import Verif.Std.LogUp
import Mathlib.Algebra.Polynomial.FieldDivision
import Mathlib.Algebra.Polynomial.Roots
import Mathlib.Algebra.Order.BigOperators.Group.Finset
import Mathlib.FieldTheory.RatFunc.Basic
import Mathlib.Tactic.FieldSimp
/-!
Proofs about the LogUp gadget: the halving sum is the sum of fractions, the check is a polynomial
identity in the challenge, and that polynomial vanishes exactly when the multisets agree.
-/
set_option linter.unusedSectionVars false
set_option linter.unusedSimpArgs false
namespace Verif.Std.LogUp

section
variable {R : Type} [CommRing R]

/-- Left-to-right sum of fractions. -/
def msum : List (Rational R) → Rational R
  | [] => ⟨0, 1⟩
  | a :: l => addRational a (msum l)

theorem add_comm' (a b : Rational R) : addRational a b = addRational b a := by
  simp only [addRational, Rational.mk.injEq]; constructor <;> ring

theorem add_assoc' (a b c : Rational R) : addRational (addRational a b) c = addRational a (addRational b c) := by
  simp only [addRational, Rational.mk.injEq]; constructor <;> ring

theorem zero_add' (a : Rational R) : addRational ⟨0, 1⟩ a = a := by
  cases a; simp [addRational]

theorem add_zero' (a : Rational R) : addRational a ⟨0, 1⟩ = a := by
  cases a; simp [addRational]

theorem msum_append (a b : List (Rational R)) : msum (a ++ b) = addRational (msum a) (msum b) := by
  induction a with
  | nil => simp [msum, zero_add']
  | cons x a ih => simp only [List.cons_append, msum, ih, add_assoc']

theorem msum_zipWith : ∀ (a b : List (Rational R)), a.length = b.length → msum (List.zipWith addRational a b) = addRational (msum a) (msum b) := by
  intro a
  induction a with
  | nil => intro b h; cases b with
    | nil => simp [msum, zero_add']
    | cons _ _ => simp at h
  | cons x a ih => intro b h; cases b with
    | nil => simp at h
    | cons y b =>
      simp only [List.zipWith_cons_cons, msum, ih b (by simpa using h)]
      simp only [addRational, Rational.mk.injEq]; constructor <;> ring

theorem halve_msum (l : List (Rational R)) : msum (halve l) = msum l := by
  simp only [halve]
  rw [msum_append, msum_zipWith _ _ (by simp only [List.length_take, List.length_drop]; omega), ← msum_append, ← msum_append]
  congr 1
  conv_rhs => rw [← List.take_append_drop (l.length / 2) l]
  rw [List.append_assoc]; congr 1
  conv_rhs => rw [← List.take_append_drop (l.length / 2) (l.drop (l.length / 2))]
  rw [List.drop_drop]; congr 2; omega

theorem halve_length (l : List (Rational R)) : (halve l).length = (l.length + 1) / 2 := by
  simp only [halve, List.length_append, List.length_zipWith, List.length_take, List.length_drop]; omega

theorem sumLoop_eq : ∀ (k : Nat) (l : List (Rational R)), l.length ≤ k + 1 → sumLoop k l = msum l := by
  have base : ∀ l : List (Rational R), l.length ≤ 1 → l.headD ⟨0, 1⟩ = msum l := by
    intro l h
    match l, h with
    | [], _ => rfl
    | [a], _ => simp [msum, add_zero']
  intro k
  induction k with
  | zero => intro l h; exact base l (by omega)
  | succ k ih =>
    intro l h
    simp only [sumLoop]
    split
    · exact base l ‹_›
    · rw [ih _ (by rw [halve_length]; omega), halve_msum]

theorem sumRationalVec_eq (l : List (Rational R)) : sumRationalVec l = msum l := sumLoop_eq _ _ (by omega)

/-- The fractions `c / (x - v)`. -/
def fracs (x : R) (l : List (R × R)) : List (Rational R) := l.map fun p => ⟨p.2, x - p.1⟩

theorem logupPolyVal_eq (vals counts : List R) (x : R) : logupPolyVal vals counts x = msum (fracs x (vals.zip counts)) := sumRationalVec_eq _

theorem combineRow_eq (row rand : List R) : combineRow row rand = ((row.zip rand).map fun p => p.1 * p.2).sum := by
  simp only [combineRow]
  suffices ∀ (l : List (R × R)) (a : R), l.foldl (fun acc p => acc + p.1 * p.2) a = a + (l.map fun p => p.1 * p.2).sum by simpa using this (row.zip rand) 0
  intro l
  induction l with
  | nil => intro a; simp
  | cons p l ih => intro a; simp only [List.foldl_cons, ih, List.map_cons, List.sum_cons]; ring

end

open Polynomial

variable {F : Type} [Field F] [DecidableEq F]

/-- The same fractions over polynomials in the challenge. -/
noncomputable def pfracs (l : List (F × F)) : List (Rational F[X]) := l.map fun p => ⟨C p.2, X - C p.1⟩

theorem eval_msum (α : F) : ∀ l : List (F × F),
    (msum (fracs α l)).num = (msum (pfracs l)).num.eval α ∧ (msum (fracs α l)).den = (msum (pfracs l)).den.eval α := by
  intro l
  induction l with
  | nil => simp [msum, fracs, pfracs]
  | cons p l ih =>
    obtain ⟨h1, h2⟩ := ih
    simp only [fracs, pfracs, List.map_cons, msum, addRational] at h1 h2 ⊢
    rw [h1, h2]; simp

theorem den_eq (l : List (F × F)) : (msum (pfracs l)).den = (l.map fun p => X - C p.1).prod := by
  induction l with
  | nil => simp [msum, pfracs]
  | cons p l ih =>
    simp only [pfracs, List.map_cons, msum, addRational, List.prod_cons] at ih ⊢
    rw [ih]

theorem den_ne (l : List (F × F)) : (msum (pfracs l)).den ≠ 0 := by
  induction l with
  | nil => simp [msum, pfracs]
  | cons p l ih =>
    simp only [pfracs, List.map_cons, msum, addRational] at ih ⊢
    exact mul_ne_zero (X_sub_C_ne_zero _) ih

theorem den_degree (l : List (F × F)) : (msum (pfracs l)).den.natDegree ≤ l.length := by
  induction l with
  | nil => simp [msum, pfracs]
  | cons p l ih =>
    simp only [pfracs, List.map_cons, msum, addRational] at ih ⊢
    refine (natDegree_mul_le).trans ?_
    rw [natDegree_X_sub_C]; simp only [List.length_cons]; omega

theorem num_degree (l : List (F × F)) : (msum (pfracs l)).num.natDegree + 1 ≤ l.length ∨ (msum (pfracs l)).num = 0 := by
  induction l with
  | nil => simp [msum, pfracs]
  | cons p l ih =>
    have hd := den_degree l
    simp only [pfracs, List.map_cons, msum, addRational] at ih hd ⊢
    left
    have h1 : (C p.2 * (msum (List.map (fun p : F × F => (⟨C p.2, X - C p.1⟩ : Rational F[X])) l)).den).natDegree ≤ l.length :=
      (natDegree_C_mul_le _ _).trans hd
    have h2 : ((X - C p.1) * (msum (List.map (fun p : F × F => (⟨C p.2, X - C p.1⟩ : Rational F[X])) l)).num).natDegree ≤ l.length := by
      rcases ih with ih | ih
      · refine natDegree_mul_le.trans ?_; rw [natDegree_X_sub_C]; omega
      · rw [ih]; simp
    have := natDegree_add_le_of_degree_le h1 h2
    simp only [List.length_cons]; omega

/-- With unit counts the numerator is the derivative of the denominator. -/
theorem num_derivative (l : List F) : (msum (pfracs (l.zip (l.map fun _ => (1 : F))))).num = derivative (msum (pfracs (l.zip (l.map fun _ => (1 : F))))).den := by
  induction l with
  | nil => simp [msum, pfracs]
  | cons a l ih =>
    simp only [pfracs, List.map_cons, List.zip_cons_cons, msum, addRational] at ih ⊢
    rw [derivative_mul, ih]; simp

/-- The polynomial whose value at the challenge is asserted to be zero. -/
noncomputable def checkPoly (vals counts queries : List F) : F[X] :=
  (msum (pfracs (vals.zip counts))).num * (msum (pfracs (queries.zip (queries.map fun _ => (1 : F))))).den
    - (msum (pfracs (vals.zip counts))).den * (msum (pfracs (queries.zip (queries.map fun _ => (1 : F))))).num

/-- The asserted equality on combined values. -/
def check (vals counts queries : List F) (α : F) : Bool :=
  eqRational (logupPolyVal vals counts α) (logupPolyVal queries (queries.map fun _ => 1) α)

theorem check_iff (vals counts queries : List F) (α : F) : check vals counts queries α = true ↔ (checkPoly vals counts queries).eval α = 0 := by
  simp only [check, eqRational, logupPolyVal_eq, decide_eq_true_eq, checkPoly]
  obtain ⟨h1, h2⟩ := eval_msum α (vals.zip counts)
  obtain ⟨h3, h4⟩ := eval_msum α (queries.zip (queries.map fun _ => (1 : F)))
  rw [h1, h2, h3, h4, eval_sub, eval_mul, eval_mul, sub_eq_zero]

theorem checkPoly_degree (vals counts queries : List F) (hq : queries ≠ []) : (checkPoly vals counts queries).natDegree + 1 ≤ vals.length + queries.length := by
  simp only [checkPoly]
  have hl : queries.length ≠ 0 := by simpa using hq
  have a1 := den_degree (vals.zip counts)
  have a2 := num_degree (vals.zip counts)
  have b1 := den_degree (queries.zip (queries.map fun _ => (1 : F)))
  have b2 := num_degree (queries.zip (queries.map fun _ => (1 : F)))
  simp only [List.length_zip, List.length_map, Nat.min_self] at a1 a2 b1 b2
  have h1 : ((msum (pfracs (vals.zip counts))).num * (msum (pfracs (queries.zip (queries.map fun _ => (1 : F))))).den).natDegree ≤ vals.length + queries.length - 1 := by
    rcases a2 with a2 | a2
    · refine natDegree_mul_le.trans ?_; omega
    · rw [a2]; simp
  have h2 : ((msum (pfracs (vals.zip counts))).den * (msum (pfracs (queries.zip (queries.map fun _ => (1 : F))))).num).natDegree ≤ vals.length + queries.length - 1 := by
    rcases b2 with b2 | b2
    · refine natDegree_mul_le.trans ?_; omega
    · rw [b2]; simp
  have := natDegree_sub_le_of_le h1 h2
  omega

theorem den_rootMultiplicity (l : List F) (q : F) : rootMultiplicity q (msum (pfracs (l.zip (l.map fun _ => (1 : F))))).den = l.count q := by
  induction l with
  | nil => simp [msum, pfracs]
  | cons a l ih =>
    have hne := den_ne (l.zip (l.map fun _ => (1 : F)))
    simp only [pfracs, List.map_cons, List.zip_cons_cons, msum, addRational] at ih hne ⊢
    rw [rootMultiplicity_mul (mul_ne_zero (X_sub_C_ne_zero _) hne), ih, rootMultiplicity_X_sub_C, List.count_cons]
    by_cases h : a = q
    · subst h; simp; omega
    · rw [if_neg (fun e => h e.symm), if_neg (by simpa using h)]; omega

theorem den_not_root (l : List (F × F)) (q : F) (h : q ∉ l.map (·.1)) : (msum (pfracs l)).den.eval q ≠ 0 := by
  rw [den_eq]
  induction l with
  | nil => simp
  | cons p l ih =>
    simp only [List.map_cons, List.mem_cons, not_or] at h
    rw [List.map_cons, List.prod_cons, eval_mul]
    refine mul_ne_zero ?_ (ih h.2)
    rw [eval_sub, eval_X, eval_C, sub_ne_zero]; exact h.1

/-- Soundness: a query outside the table makes the polynomial non-zero, provided its multiplicity is not zero in the field. -/
theorem checkPoly_ne_zero {vals counts queries : List F} {q : F} (hq : q ∈ queries) (ht : q ∉ vals) (hm : ((queries.count q : Nat) : F) ≠ 0) :
    checkPoly vals counts queries ≠ 0 := by
  intro h0
  have hD := den_ne (queries.zip (queries.map fun _ => (1 : F)))
  have hmul := den_rootMultiplicity queries q
  have hder := num_derivative queries
  have hT : (msum (pfracs (vals.zip counts))).den.eval q ≠ 0 := by
    apply den_not_root
    intro hmem
    obtain ⟨p, hp, rfl⟩ := List.mem_map.1 hmem
    exact ht (List.of_mem_zip hp).1
  have hTne := den_ne (vals.zip counts)
  simp only [checkPoly, sub_eq_zero] at h0
  rw [hder] at h0
  generalize (msum (pfracs (queries.zip (queries.map fun _ => (1 : F))))).den = D at *
  generalize (msum (pfracs (vals.zip counts))).den = T at *
  generalize (msum (pfracs (vals.zip counts))).num = N at *
  have hpos : 0 < queries.count q := List.count_pos_iff.2 hq
  have hroot : D.IsRoot q := (rootMultiplicity_pos hD).1 (by omega)
  have hd := derivative_rootMultiplicity_of_root_of_mem_nonZeroDivisors hroot (by rw [hmul]; exact mem_nonZeroDivisors_of_ne_zero hm)
  have hd0 : derivative D ≠ 0 := by
    intro e
    have hT' : N * D = 0 := by rw [h0, e, mul_zero]
    have := derivative_rootMultiplicity_of_root_of_mem_nonZeroDivisors hroot (by rw [hmul]; exact mem_nonZeroDivisors_of_ne_zero hm)
    -- write D = (X - C q) ^ m * E
    obtain ⟨E, hE, hEd⟩ := exists_eq_pow_rootMultiplicity_mul_and_not_dvd D hD q
    rw [hmul] at hE
    obtain ⟨m, hm'⟩ : ∃ m, queries.count q = m + 1 := ⟨queries.count q - 1, by omega⟩
    rw [hm'] at hE hm
    have hx : derivative D = (X - C q) ^ m * (C ((m + 1 : Nat) : F) * E + (X - C q) * derivative E) := by
      rw [hE, derivative_mul, derivative_X_sub_C_pow]; simp only [Nat.add_sub_cancel]; push_cast; ring
    rw [hx] at e
    rcases mul_eq_zero.1 e with e | e
    · exact pow_ne_zero _ (X_sub_C_ne_zero q) e
    · apply hEd
      have : (X - C q) ∣ C ((m + 1 : Nat) : F) * E := ⟨- derivative E, by linear_combination e⟩
      rcases (prime_X_sub_C q).dvd_or_dvd this with h | h
      · exfalso
        rw [dvd_iff_isRoot, IsRoot, eval_C] at h
        exact hm h
      · exact h
  have hND : N * D ≠ 0 := by rw [h0]; exact mul_ne_zero hTne hd0
  have e1 := congrArg (rootMultiplicity q) h0
  rw [rootMultiplicity_mul hND, rootMultiplicity_mul (mul_ne_zero hTne hd0), hd, rootMultiplicity_eq_zero (p := T) hT] at e1
  omega

/-- Grouping a weighted sum by value. -/
theorem group_sum {K ι : Type} [CommRing K] [DecidableEq ι] (φ : F →+* K) (g : ι → K) (S : Finset ι) : ∀ l : List (ι × F), (∀ p ∈ l, p.1 ∈ S) →
    (l.map fun p => φ p.2 * g p.1).sum = ∑ a ∈ S, φ (((l.filter (·.1 = a)).map (·.2)).sum) * g a := by
  intro l
  induction l with
  | nil => intro _; simp
  | cons p l ih =>
    intro h
    rw [List.map_cons, List.sum_cons, ih (fun q hq => h q (by simp [hq]))]
    have hp := h p (by simp)
    rw [← Finset.add_sum_erase _ _ hp, ← Finset.add_sum_erase _ _ hp]
    rw [Finset.sum_congr rfl (g := fun a => φ ((List.map (·.2) (List.filter (fun x : ι × F => decide (x.1 = a)) (p :: l))).sum) * g a)]
    · simp only [List.filter_cons, decide_true, if_true, List.map_cons, List.sum_cons, map_add]; ring
    · intro a ha
      have : p.1 ≠ a := fun e => (Finset.mem_erase.1 ha).1 e.symm
      simp [this]

theorem unit_counts {ι : Type} [DecidableEq ι] (l : List ι) (a : ι) :
    (((l.zip (l.map fun _ => (1 : F))).filter (·.1 = a)).map (·.2)).sum = ((l.count a : Nat) : F) := by
  induction l with
  | nil => simp
  | cons b l ih =>
    rw [List.map_cons, List.zip_cons_cons, List.filter_cons, List.count_cons]
    by_cases hb : b = a
    · simp [hb, ih, add_comm, -List.map_const', -List.map_const]
    · simp [hb, ih, -List.map_const', -List.map_const]

/-- If the counts of every key add up to its multiplicity, weighted sums agree. -/
theorem weighted_eq {ι : Type} [DecidableEq ι] {vals : List (ι × F)} {queries : List ι}
    (h : ∀ a : ι, ((vals.filter (·.1 = a)).map (·.2)).sum = ((queries.count a : Nat) : F)) (f : ι → F) :
    (vals.map fun p => p.2 * f p.1).sum = (queries.map f).sum := by
  have e1 := group_sum (RingHom.id F) f (vals.map (·.1) ++ queries).toFinset vals
    (fun p hp => by simp only [List.mem_toFinset, List.mem_append]; exact Or.inl (List.mem_map_of_mem hp))
  have e2 := group_sum (RingHom.id F) f (vals.map (·.1) ++ queries).toFinset (queries.zip (queries.map fun _ => (1 : F)))
    (fun p hp => by simp only [List.mem_toFinset, List.mem_append]; exact Or.inr (List.of_mem_zip hp).1)
  simp only [RingHom.id_apply] at e1 e2
  have e3 : ((queries.zip (queries.map fun _ => (1 : F))).map fun p => p.2 * f p.1).sum = (queries.map f).sum := by
    clear * -
    induction queries with
    | nil => simp
    | cons b l ih => simp only [List.map_cons, List.zip_cons_cons, List.sum_cons, one_mul, ih]
  rw [e1, ← e3, e2]
  exact Finset.sum_congr rfl (fun a _ => by rw [h a, unit_counts])

/-- Counts that are right row by row are right for every combination of the columns. -/
theorem combine_counts {ι : Type} [DecidableEq ι] {table query : List ι} {counts : List F} (comb : ι → F)
    (h : ∀ a : ι, (((table.zip counts).filter (·.1 = a)).map (·.2)).sum = ((query.count a : Nat) : F)) (a : F) :
    ((((table.map comb).zip counts).filter (·.1 = a)).map (·.2)).sum = (((query.map comb).count a : Nat) : F) := by
  have e := weighted_eq h (fun r => if comb r = a then 1 else 0)
  have e1 : ∀ (l : List ι) (c : List F), ((((l.map comb).zip c).filter (·.1 = a)).map (·.2)).sum = ((l.zip c).map fun p => p.2 * (if comb p.1 = a then 1 else 0)).sum := by
    intro l
    induction l with
    | nil => intro c; simp
    | cons r l ih =>
      intro c
      cases c with
      | nil => simp
      | cons x c =>
        have := ih c
        by_cases hr : comb r = a
        · simp [hr, this]
        · simp [hr, this]
  have e2 : (query.map fun r => if comb r = a then (1 : F) else 0).sum = (((query.map comb).count a : Nat) : F) := by
    clear * -
    induction query with
    | nil => simp
    | cons r l ih =>
      by_cases hr : comb r = a
      · simp [hr, ih, add_comm]
      · simp [hr, ih]
  rw [e1, e, e2]

/-- Completeness: if the counts add up to the multiplicities of the queries the polynomial vanishes. -/
theorem checkPoly_zero {vals counts queries : List F}
    (h : ∀ a : F, (((vals.zip counts).filter (·.1 = a)).map (·.2)).sum = ((queries.count a : Nat) : F)) : checkPoly vals counts queries = 0 := by
  have inj : Function.Injective (algebraMap F[X] (RatFunc F)) := IsFractionRing.injective F[X] (RatFunc F)
  have nz : ∀ {p : F[X]}, p ≠ 0 → algebraMap F[X] (RatFunc F) p ≠ 0 := fun hp e => hp (inj (by rw [e, map_zero]))
  let φ : F →+* RatFunc F := (algebraMap F[X] (RatFunc F)).comp C
  let g : F → RatFunc F := fun a => (algebraMap F[X] (RatFunc F) (X - C a))⁻¹
  have key : ∀ l : List (F × F), (algebraMap F[X] (RatFunc F) (msum (pfracs l)).num) / algebraMap F[X] (RatFunc F) (msum (pfracs l)).den
      = (l.map fun p => φ p.2 * g p.1).sum := by
    intro l
    induction l with
    | nil => simp [msum, pfracs]
    | cons p l ih =>
      have hd := nz (den_ne l)
      have hx := nz (X_sub_C_ne_zero p.1)
      simp only [pfracs, List.map_cons, msum, addRational, List.sum_cons] at ih hd ⊢
      rw [← ih, map_add, map_mul, map_mul, map_mul]
      show _ = algebraMap F[X] (RatFunc F) (C p.2) * (algebraMap F[X] (RatFunc F) (X - C p.1))⁻¹ + _
      field_simp
  let Q := queries.zip (queries.map fun _ => (1 : F))
  let S : Finset F := ((vals.zip counts).map (·.1) ++ Q.map (·.1)).toFinset
  have hs : ∀ a : F, ((Q.filter (·.1 = a)).map (·.2)).sum = ((queries.count a : Nat) : F) := by
    intro a
    show (((queries.zip (queries.map fun _ => (1 : F))).filter (·.1 = a)).map (·.2)).sum = _
    clear * -
    induction queries with
    | nil => simp
    | cons b l ih =>
      rw [List.map_cons, List.zip_cons_cons, List.filter_cons, List.count_cons]
      by_cases hb : b = a
      · simp [hb, ih, add_comm, -List.map_const', -List.map_const]
      · simp [hb, ih, -List.map_const', -List.map_const]
  have e1 := group_sum φ g S (vals.zip counts) (fun p hp => by simp only [S, List.mem_toFinset, List.mem_append]; exact Or.inl (List.mem_map_of_mem hp))
  have e2 := group_sum φ g S Q (fun p hp => by simp only [S, List.mem_toFinset, List.mem_append]; exact Or.inr (List.mem_map_of_mem hp))
  have e : algebraMap F[X] (RatFunc F) (msum (pfracs (vals.zip counts))).num / algebraMap F[X] (RatFunc F) (msum (pfracs (vals.zip counts))).den
      = algebraMap F[X] (RatFunc F) (msum (pfracs Q)).num / algebraMap F[X] (RatFunc F) (msum (pfracs Q)).den := by
    rw [key, key, e1, e2]
    exact Finset.sum_congr rfl (fun a _ => by rw [h a, hs a])
  rw [div_eq_div_iff (nz (den_ne _)) (nz (den_ne _)), ← map_mul, ← map_mul] at e
  have e := inj e
  simp only [checkPoly]
  show (msum (pfracs (vals.zip counts))).num * (msum (pfracs Q)).den - (msum (pfracs (vals.zip counts))).den * (msum (pfracs Q)).num = 0
  rw [e]; ring

/-- At most `rows + queries - 1` challenges satisfy the check when some query is outside the table. -/
theorem check_card [Fintype F] {vals counts queries : List F} {q : F} (hq : q ∈ queries) (ht : q ∉ vals) (hm : ((queries.count q : Nat) : F) ≠ 0) :
    (Finset.univ.filter fun α : F => check vals counts queries α = true).card + 1 ≤ vals.length + queries.length := by
  have hne := checkPoly_ne_zero (counts := counts) hq ht hm
  have hd := checkPoly_degree vals counts queries (by rintro rfl; simp at hq)
  have : (Finset.univ.filter fun α : F => check vals counts queries α = true) ⊆ (checkPoly vals counts queries).roots.toFinset := by
    intro α hα
    simp only [Finset.mem_filter, Finset.mem_univ, true_and] at hα
    rw [Multiset.mem_toFinset, mem_roots hne]
    exact (check_iff _ _ _ _).1 hα
  have h1 := Finset.card_le_card this
  have h2 := Multiset.toFinset_card_le (checkPoly vals counts queries).roots
  have h3 := card_roots' (checkPoly vals counts queries)
  omega

theorem combineRow_cons (a : F) (row : List F) (rs : List F) : combineRow (a :: row) (columnRandomness rs) = a + combineRow row rs := by
  simp [combineRow_eq, columnRandomness]

/-- Two different rows collide for few challenges. -/
theorem collide_card [Fintype F] {k : Nat} {s t : List F} (hs : s.length = k + 1) (ht : t.length = k + 1) (hne : s ≠ t) :
    (Finset.univ.filter fun p : F × (Fin k → F) => combineRow s (columnRandomness (List.ofFn p.2)) = combineRow t (columnRandomness (List.ofFn p.2))).card ≤ Fintype.card F ^ k := by
  obtain ⟨a, s, rfl⟩ : ∃ a s', s = a :: s' := by cases s with | nil => simp at hs | cons a s => exact ⟨a, s, rfl⟩
  obtain ⟨b, t, rfl⟩ : ∃ a s', t = a :: s' := by cases t with | nil => simp at ht | cons a s => exact ⟨a, s, rfl⟩
  simp only [List.length_cons, Nat.add_right_cancel_iff] at hs ht
  simp only [combineRow_cons]
  have hsum : ∀ (l : List F) (hl : l.length = k) (r : Fin k → F), combineRow l (List.ofFn r) = ∑ i : Fin k, l[i.1]'(by have := i.2; omega) * r i := by
    intro l hl r
    rw [combineRow_eq, ← List.sum_ofFn]
    congr 1
    apply List.ext_getElem
    · simp [hl]
    · intro i h1 h2; simp
  by_cases hst : s = t
  · subst hst
    have hab : a ≠ b := fun e => hne (by rw [e])
    rw [Finset.filter_false_of_mem]
    · simp
    · intro p _ e; exact hab (add_right_cancel e)
  · obtain ⟨j, hj⟩ : ∃ j : Fin k, s[j.1]'(by have := j.2; omega) ≠ t[j.1]'(by have := j.2; omega) := by
      by_contra hcon
      push_neg at hcon
      exact hst (List.ext_getElem (by omega) (fun i h1 h2 => hcon ⟨i, by omega⟩))
    have : Fintype.card F ^ k = (Finset.univ : Finset (Fin k → F)).card := by simp
    rw [this]
    apply Finset.card_le_card_of_injOn (fun p : F × (Fin k → F) => Function.update p.2 j p.1) (fun _ _ => by simp)
    rintro ⟨α, r⟩ h1 ⟨β, u⟩ h2 he
    simp only [Finset.coe_filter, Finset.mem_univ, true_and, Set.mem_setOf_eq] at h1 h2 he
    have hαβ : α = β := by have := congrFun he j; simpa using this
    have hr : ∀ i, i ≠ j → r i = u i := by
      intro i hi; have := congrFun he i; simpa [Function.update_of_ne hi] using this
    rw [hsum s hs, hsum t ht] at h1 h2
    rw [← Finset.add_sum_erase _ _ (Finset.mem_univ j), ← Finset.add_sum_erase (a := j) _ (fun i : Fin k => t[i.1]'(by have := i.2; omega) * _) (Finset.mem_univ j)] at h1 h2
    have c1 : ∀ (l : List F) (hl : l.length = k), ∑ x ∈ Finset.univ.erase j, l[x.1]'(by have := x.2; omega) * r x = ∑ x ∈ Finset.univ.erase j, l[x.1]'(by have := x.2; omega) * u x := by
      intro l hl
      exact Finset.sum_congr rfl (fun x hx => by rw [hr x (Finset.mem_erase.1 hx).1])
    rw [c1 s hs, c1 t ht] at h1
    have hj2 : (s[j.1]'(by have := j.2; omega) - t[j.1]'(by have := j.2; omega)) * (r j - u j) = 0 := by linear_combination h1 - h2
    rcases mul_eq_zero.1 hj2 with h | h
    · exact absurd (sub_eq_zero.1 h) hj
    · refine Prod.ext hαβ (funext fun i => ?_)
      by_cases hi : i = j
      · subst hi; exact sub_eq_zero.1 h
      · exact hr i hi

/-- The whole check, all columns: the number of accepted challenge vectors. -/
theorem tableCheck_card [Fintype F] {k : Nat} {table query : List (List F)} {counts : List F} {q : List F}
    (hT : ∀ r ∈ table, r.length = k + 1) (hQ : ∀ r ∈ query, r.length = k + 1) (hq : q ∈ query) (ht : q ∉ table)
    (hchar : ∀ n : Nat, 0 < n → n ≤ query.length → ((n : Nat) : F) ≠ 0) :
    (Finset.univ.filter fun p : F × (Fin k → F) => tableCheck table query counts p.1 (List.ofFn p.2) = some true).card
      ≤ (2 * table.length + query.length) * Fintype.card F ^ k := by
  classical
  let A : List F → Finset (F × (Fin k → F)) := fun t => Finset.univ.filter fun p : F × (Fin k → F) =>
    combineRow q (columnRandomness (List.ofFn p.2)) = combineRow t (columnRandomness (List.ofFn p.2))
  let B : Finset (F × (Fin k → F)) := Finset.univ.filter fun p : F × (Fin k → F) =>
    tableCheck table query counts p.1 (List.ofFn p.2) = some true ∧ ∀ t ∈ table, combineRow q (columnRandomness (List.ofFn p.2)) ≠ combineRow t (columnRandomness (List.ofFn p.2))
  have hsub : (Finset.univ.filter fun p : F × (Fin k → F) => tableCheck table query counts p.1 (List.ofFn p.2) = some true) ⊆ (table.toFinset.biUnion A) ∪ B := by
    intro p hp
    simp only [Finset.mem_filter, Finset.mem_univ, true_and] at hp
    by_cases h : ∃ t ∈ table, combineRow q (columnRandomness (List.ofFn p.2)) = combineRow t (columnRandomness (List.ofFn p.2))
    · obtain ⟨t, h1, h2⟩ := h
      exact Finset.mem_union_left _ (Finset.mem_biUnion.2 ⟨t, List.mem_toFinset.2 h1, by simpa [A] using h2⟩)
    · push_neg at h
      exact Finset.mem_union_right _ (by simpa [B] using ⟨hp, h⟩)
  have hA : (table.toFinset.biUnion A).card ≤ table.length * Fintype.card F ^ k := by
    refine (Finset.card_biUnion_le).trans ?_
    refine (Finset.sum_le_card_nsmul _ _ (Fintype.card F ^ k) ?_).trans ?_
    · intro t htm
      have htm := List.mem_toFinset.1 htm
      exact collide_card (hQ q hq) (hT t htm) (fun e => ht (e ▸ htm))
    · rw [smul_eq_mul]; exact Nat.mul_le_mul_right _ (List.toFinset_card_le _)
  have hB : B.card ≤ (table.length + query.length) * Fintype.card F ^ k := by
    refine (Finset.card_le_mul_card_image (f := Prod.snd) B (table.length + query.length) ?_).trans (Nat.mul_le_mul_left _ ?_)
    · intro r hr
      obtain ⟨⟨α0, r0⟩, hm, hr0⟩ := Finset.mem_image.1 hr
      simp only at hr0; subst hr0
      simp only [B, Finset.mem_filter, Finset.mem_univ, true_and] at hm
      obtain ⟨hm, hno⟩ := hm
      have hc : ∀ rows : List (List F), (∀ r ∈ rows, r.length = k + 1) → combineColumns rows (columnRandomness (List.ofFn r0)) = some (rows.map fun row => combineRow row (columnRandomness (List.ofFn r0))) := by
        intro rows hrows
        cases rows with
        | nil => rfl
        | cons x l => simp only [combineColumns, columnRandomness, List.length_cons, List.length_ofFn, hrows x (by simp), if_true]
      let tv := table.map fun row => combineRow row (columnRandomness (List.ofFn r0))
      let qv := query.map fun row => combineRow row (columnRandomness (List.ofFn r0))
      let q0 := combineRow q (columnRandomness (List.ofFn r0))
      have hcard := check_card (vals := tv) (counts := counts) (queries := qv) (q := q0) (List.mem_map_of_mem hq)
        (by intro hmem; obtain ⟨t, h1, h2⟩ := List.mem_map.1 hmem; exact hno t h1 h2.symm)
        (hchar _ (List.count_pos_iff.2 (List.mem_map_of_mem hq)) (by have := List.count_le_length (a := q0) (l := qv); simpa [qv] using this))
      have : (B.filter fun a => a.2 = r0).card ≤ (Finset.univ.filter fun α : F => check tv counts qv α = true).card := by
        apply Finset.card_le_card_of_injOn Prod.fst
        · rintro ⟨α, r⟩ h
          simp only [B, Finset.coe_filter, Finset.mem_filter, Finset.mem_univ, true_and, Set.mem_setOf_eq] at h ⊢
          obtain ⟨⟨h, _⟩, rfl⟩ := h
          simp only [tableCheck, hc table hT, hc query hQ, Option.some.injEq] at h
          exact h
        · rintro ⟨α, r⟩ h1 ⟨β, u⟩ h2 he
          simp only [Finset.coe_filter, Set.mem_setOf_eq] at h1 h2 he
          rw [he, h1.2, h2.2]
      simp only [tv, qv, List.length_map] at hcard
      simp only [tv, qv] at this
      omega
    · refine (Finset.card_le_univ _).trans ?_
      simp
  calc _ ≤ _ := Finset.card_le_card hsub
    _ ≤ _ := Finset.card_union_le _ _
    _ ≤ _ := Nat.add_le_add hA hB
    _ = _ := by ring

end Verif.Std.LogUp
