import Mathlib.Algebra.BigOperators.Group.Finset.Basic
import Mathlib.Algebra.BigOperators.Ring.Finset
import Mathlib.Algebra.BigOperators.Intervals
import Mathlib.Algebra.Order.BigOperators.Group.Finset
import Mathlib.Tactic.Ring

/-!
# Counting the occurrences of the segments of a layered circuit

The arithmetic behind the termination of the loop of `compile_step_3`: `a i k` is the number of times segment `i` calls segment `k`, `L k` the number of times
`k` is a layer.
-/

namespace Verif.Layered

open Finset

/-- `m` counts occurrences: as a layer, or in an occurrence of another segment. -/
def Counts (n : Nat) (a : Nat → Nat → Nat) (L m : Nat → Nat) : Prop := ∀ k < n, m k = L k + ∑ i ∈ range n, m i * a i k

/-- The number of occurrences. -/
def occur (n : Nat) (a : Nat → Nat → Nat) (L : Nat → Nat) (k : Nat) : Nat :=
  L k + ∑ i ∈ (range n).attach, if k < i.1 then occur n a L i.1 * a i.1 k else 0
termination_by n - k
decreasing_by have := mem_range.1 i.2; omega

theorem occur_counts {n : Nat} {a : Nat → Nat → Nat} {L : Nat → Nat} (ha : ∀ i k, a i k ≠ 0 → k < i) : Counts n a L (occur n a L) := by
  intro k _
  conv_lhs => rw [occur]
  congr 1
  rw [sum_attach (range n) (fun i => if k < i then occur n a L i * a i k else 0)]
  apply sum_congr rfl
  intro i _
  by_cases h : k < i
  · rw [if_pos h]
  · rw [if_neg h]
    have : a i k = 0 := by
      by_contra h'
      exact h (ha i k h')
    rw [this, Nat.mul_zero]

theorem Counts.unique {n : Nat} {a : Nat → Nat → Nat} {L m m' : Nat → Nat} (ha : ∀ i k, a i k ≠ 0 → k < i) (h : Counts n a L m) (h' : Counts n a L m') : ∀ k < n, m k = m' k := by
  have key : ∀ d k, n - k = d → k < n → m k = m' k := by
    intro d
    induction d using Nat.strongRecOn with
    | _ d ih =>
      intro k hd hk
      rw [h k hk, h' k hk]
      congr 1
      apply sum_congr rfl
      intro i hi
      have hi := mem_range.1 hi
      by_cases e : a i k = 0
      · rw [e, Nat.mul_zero, Nat.mul_zero]
      · have := ha i k e
        rw [ih (n - i) (by omega) i rfl hi]
  exact fun k hk => key _ k rfl hk

/-- Inlining the segments in `x` keeps every weighted sum of occurrences. -/
theorem flow {n : Nat} {a : Nat → Nat → Nat} {m w w' : Nat → Nat} {x : Nat → Bool} (hm : ∀ e < n, x e = true → m e = ∑ i ∈ range n, m i * a i e)
    (hw : ∀ i < n, m i ≠ 0 → w' i = w i + ∑ e ∈ range n, if x e then a i e * w' e else 0) :
    (∑ i ∈ range n, if x i then 0 else m i * w' i) = ∑ i ∈ range n, m i * w i := by
  have h1 : ∑ i ∈ range n, m i * w' i = ∑ i ∈ range n, m i * w i + ∑ e ∈ range n, if x e then m e * w' e else 0 := by
    have e1 : ∀ i ∈ range n, m i * w' i = m i * w i + ∑ e ∈ range n, m i * (if x e then a i e * w' e else 0) := by
      intro i hi
      by_cases h0 : m i = 0
      · simp [h0]
      · rw [hw i (mem_range.1 hi) h0, Nat.mul_add, mul_sum]
    rw [sum_congr rfl e1, sum_add_distrib, sum_comm]
    congr 1
    apply sum_congr rfl
    intro e he
    by_cases hx : x e = true
    · simp only [hx, if_true]
      rw [hm e (mem_range.1 he) hx, sum_mul]
      exact sum_congr rfl fun i _ => by ring
    · simp [hx]
  have h2 : ∑ i ∈ range n, m i * w' i = (∑ i ∈ range n, if x i then 0 else m i * w' i) + ∑ e ∈ range n, if x e then m e * w' e else 0 := by
    rw [← sum_add_distrib]
    apply sum_congr rfl
    intro i _
    by_cases hx : x i = true <;> simp [hx]
  omega

/-- Renumbering the kept elements. -/
theorem sum_kept (p : Nat → Bool) (f : Nat → Nat) : ∀ n, ∑ j ∈ range ((List.range n).countP p), f j = ∑ i ∈ range n, if p i then f ((List.range i).countP p) else 0 := by
  intro n
  induction n with
  | zero => simp
  | succ n ih =>
    rw [sum_range_succ, ← ih, List.range_succ, List.countP_append]
    by_cases h : p n = true
    · simp [h, sum_range_succ]
    · simp [h]

/-- Uses when every segment that is kept is counted once: at least as many as before. -/
theorem uses_flow {n : Nat} {a a' : Nat → Nat → Nat} {x u : Nat → Bool} (ha : ∀ i k, a i k ≠ 0 → k < i)
    (hx : ∀ e < n, x e = true → u e = true ∧ ∃ i < n, u i = true ∧ a i e ≠ 0)
    (hk : ∀ i < n, u i = true → ∀ k, x k = false → a' i k = a i k + ∑ e ∈ range n, if x e then a i e * a' e k else 0)
    (k : Nat) (hxk : x k = false) : (∑ i ∈ range n, if u i then a i k else 0) ≤ ∑ i ∈ range n, if u i && !x i then a' i k else 0 := by
  -- number of copies of every segment, the kept ones counted once
  let b : Nat → Nat → Nat := fun i e => if u i && x e then a i e else 0
  have hb : ∀ i e, b i e ≠ 0 → e < i := by
    intro i e h
    simp only [b] at h
    split at h
    · exact ha i e h
    · exact absurd rfl h
  let m := occur n b (fun i => if u i && !x i then 1 else 0)
  have hm : Counts n b (fun i => if u i && !x i then 1 else 0) m := occur_counts hb
  have hmx : ∀ e < n, x e = true → m e = ∑ i ∈ range n, (if u i then m i else 0) * a i e := by
    intro e he hxe
    rw [hm e he]
    simp only [hxe, Bool.not_true, Bool.and_false, Bool.false_eq_true, if_false, Nat.zero_add, b, Bool.and_true]
    apply sum_congr rfl
    intro i _
    by_cases h : u i = true <;> simp [h]
  have hmk : ∀ i < n, x i = false → m i = if u i then 1 else 0 := by
    intro i hi hxi
    rw [hm i hi]
    simp [b, hxi]
  have hpos : ∀ d i, n - i = d → i < n → u i = true → 1 ≤ m i := by
    intro d
    induction d using Nat.strongRecOn with
    | _ d ih =>
      intro i hd hi hu
      cases hxi : x i with
      | false => rw [hmk i hi hxi, if_pos hu]
      | true =>
        obtain ⟨_, j, hj, huj, haj⟩ := hx i hi hxi
        have hlt := ha j i haj
        rw [hmx i hi hxi]
        refine le_trans ?_ (single_le_sum (f := fun i' => (if u i' then m i' else 0) * a i' i) (fun _ _ => Nat.zero_le _) (mem_range.2 hj))
        simp only [huj, if_true]
        exact Nat.mul_pos (ih (n - j) (by omega) j rfl hj huj) (Nat.pos_of_ne_zero haj)
  have hf := flow (n := n) (a := a) (m := fun i => if u i then m i else 0) (w := fun i => a i k) (w' := fun i => a' i k) (x := x)
    (fun e he hxe => by
      simp only [(hx e he hxe).1, if_true]
      exact hmx e he hxe)
    (fun i hi h0 => by
      have hu : u i = true := by
        by_contra h
        exact h0 (by simp [h])
      exact hk i hi hu k hxk)
  have e1 : (∑ i ∈ range n, if u i && !x i then a' i k else 0) = ∑ i ∈ range n, if x i then 0 else (if u i then m i else 0) * a' i k := by
    apply sum_congr rfl
    intro i hi
    cases hxi : x i with
    | true => simp
    | false =>
      by_cases hu : u i = true
      · simp [hu, hmk i (mem_range.1 hi) hxi]
      · simp [hu]
  rw [e1, hf]
  apply sum_le_sum
  intro i hi
  by_cases hu : u i = true
  · simp only [hu, if_true]
    exact Nat.le_mul_of_pos_left _ (hpos _ i rfl (mem_range.1 hi) hu)
  · simp [hu]

end Verif.Layered
