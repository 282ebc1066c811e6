import Verif.Base
import Mathlib.Data.List.Basic
import Mathlib.Data.Fintype.EquivFin
import Mathlib.Algebra.Order.Ring.Nat

/-!
# Bucket sort (utils/bucket_sort.rs:1-22)

`none` models a panic: a key that is not below `num_buckets`, an underflow of a counter or an index out of bounds.
-/

set_option linter.unusedSectionVars false
set_option linter.unusedSimpArgs false

namespace Verif.Bucket

variable {α : Type}

/-- Counting the keys (bucket_sort.rs:9-11). -/
def countLoop (f : α → Nat) : List α → List Nat → Option (List Nat)
  | [], cnt => some cnt
  | a :: arr, cnt => if f a < cnt.length then countLoop f arr (cnt.modify (f a) (· + 1)) else none

/-- Prefix sums (bucket_sort.rs:12-14), `i` from 1. -/
def prefixLoop : Nat → Nat → List Nat → List Nat
  | 0, _, cnt => cnt
  | k + 1, i, cnt => prefixLoop k (i + 1) (cnt.set i (cnt.getD i 0 + cnt.getD (i - 1) 0))

/-- Placing the elements, last first (bucket_sort.rs:16-20); the list holds the elements still to place, last first. -/
def placeLoop (f : α → Nat) : List α → List Nat → List (Option α) → Option (List Nat × List (Option α))
  | [], cnt, res => some (cnt, res)
  | a :: arr, cnt, res =>
    match cnt[f a]? with
    | none => none
    | some 0 => none
    | some (k + 1) => if k < res.length then placeLoop f arr (cnt.set (f a) k) (res.set k (some a)) else none

/-- `bucket_sort` (bucket_sort.rs:1-22).  `None` entries stand for `T::default()`. -/
def bucketSort (f : α → Nat) (m : Nat) (arr : List α) : Option (List (Option α) × List Nat) :=
  match countLoop f arr (List.replicate m 0) with
  | none => none
  | some cnt =>
    match placeLoop f arr.reverse (prefixLoop (m - 1) 1 cnt) (List.replicate arr.length none) with
    | none => none
    | some (cnt, res) => some (res, cnt)

/-- Specification: number of elements with a smaller key. -/
def below (f : α → Nat) (arr : List α) (p : Nat) : Nat := arr.countP fun a => decide (f a < p)

/-- Specification: position of element `j` in the stable order: elements with smaller keys, then earlier elements with the same key. -/
def pos (f : α → Nat) (arr : List α) (j : Nat) (a : α) : Nat := below f arr (f a) + (arr.take j).countP fun b => decide (f b = f a)

theorem countLoop_spec (f : α → Nat) : ∀ (arr : List α) (cnt : List Nat), (∀ a ∈ arr, f a < cnt.length) →
    ∃ r, countLoop f arr cnt = some r ∧ r.length = cnt.length ∧ ∀ p, p < cnt.length → r.getD p 0 = cnt.getD p 0 + arr.countP (fun a => decide (f a = p)) := by
  intro arr
  induction arr with
  | nil => intro cnt _; exact ⟨cnt, rfl, rfl, by simp⟩
  | cons a arr ih =>
    intro cnt h
    have ha := h a (by simp)
    obtain ⟨r, h1, h2, h3⟩ := ih (cnt.modify (f a) (· + 1)) (by intro b hb; simpa using h b (by simp [hb]))
    refine ⟨r, by simp only [countLoop, ha, if_true]; exact h1, by simpa using h2, ?_⟩
    intro p hp
    rw [h3 p (by simpa using hp), List.countP_cons]
    simp only [List.getD, List.getElem?_modify, List.getElem?_eq_getElem hp, Option.map_some, Option.getD_some]
    by_cases e : f a = p
    · simp [e]; omega
    · simp [e]

theorem below_succ (f : α → Nat) (arr : List α) (p : Nat) : below f arr (p + 1) = below f arr p + arr.countP (fun a => decide (f a = p)) := by
  unfold below
  induction arr with
  | nil => rfl
  | cons a arr ih =>
    simp only [List.countP_cons, ih]
    by_cases h1 : f a < p
    · have h2 : f a < p + 1 := by omega
      have h3 : f a ≠ p := by omega
      simp [h1, h2, h3]; omega
    · by_cases h3 : f a = p
      · have h2 : f a < p + 1 := by omega
        simp [h1, h2, h3]; omega
      · have h2 : ¬ f a < p + 1 := by omega
        simp [h1, h2, h3]

/-- After the prefix sums the counter of `p` is the number of elements with key at most `p`. -/
theorem prefixLoop_spec (g : Nat → Nat) : ∀ (k i : Nat) (cnt : List Nat), 1 ≤ i → i + k ≤ cnt.length →
    (∀ p, p < i → cnt.getD p 0 = ((List.range (p + 1)).map g).sum) → (∀ p, i ≤ p → p < cnt.length → cnt.getD p 0 = g p) →
    (prefixLoop k i cnt).length = cnt.length ∧ (∀ p, p < i + k → (prefixLoop k i cnt).getD p 0 = ((List.range (p + 1)).map g).sum) := by
  intro k
  induction k with
  | zero => intro i cnt _ _ h _; exact ⟨rfl, h⟩
  | succ k ih =>
    intro i cnt hi hl h1 h2
    simp only [prefixLoop]
    have key : ∀ p, (cnt.set i (cnt.getD i 0 + cnt.getD (i - 1) 0)).getD p 0 = if p = i then cnt.getD i 0 + cnt.getD (i - 1) 0 else cnt.getD p 0 := by
      intro p
      simp only [List.getD, List.getElem?_set]
      by_cases e : i = p
      · subst e; simp [show i < cnt.length by omega]
      · simp [e, show p ≠ i from fun h => e h.symm]
    obtain ⟨g1, g2⟩ := ih (i + 1) (cnt.set i (cnt.getD i 0 + cnt.getD (i - 1) 0)) (by omega) (by simp; omega) (by
      intro p hp
      rw [key]
      split
      · rename_i e; subst e
        rw [h2 p (le_refl _) (by omega), h1 (p - 1) (by omega)]
        rw [show p - 1 + 1 = p by omega, List.range_succ, List.map_append, List.sum_append]
        simp; omega
      · exact h1 p (by omega)) (by
      intro p hp hpl
      rw [key, if_neg (by omega)]
      exact h2 p (by omega) (by simpa using hpl))
    refine ⟨by simpa using g1, ?_⟩
    intro p hp
    exact g2 p (by omega)

theorem below_sum (f : α → Nat) (arr : List α) (p : Nat) : ((List.range p).map fun q => arr.countP (fun a => decide (f a = q))).sum = below f arr p := by
  induction p with
  | zero => simp [below]
  | succ p ih => rw [List.range_succ, List.map_append, List.sum_append, ih, below_succ]; simp

theorem below_mono (f : α → Nat) (arr : List α) {p q : Nat} (h : p ≤ q) : below f arr p ≤ below f arr q := by
  apply List.countP_mono_left
  intro a _ ha
  simp only [decide_eq_true_eq] at ha ⊢; omega

theorem take_countP_lt {arr : List α} {q : α → Bool} {i j : Nat} {a : α} (hi : arr[i]? = some a) (hq : q a = true) (hij : i < j) :
    (arr.take i).countP q < (arr.take j).countP q := by
  have hl := (List.getElem?_eq_some_iff.1 hi).1
  obtain ⟨d, rfl⟩ : ∃ d, j = i + 1 + d := ⟨j - (i + 1), by omega⟩
  have e1 : arr.take (i + 1) = arr.take i ++ [a] := by
    rw [List.take_add_one, hi]; rfl
  have e2 : (arr.take (i + 1 + d)) = arr.take (i + 1) ++ (arr.drop (i + 1)).take d := by rw [List.take_add]
  rw [e2, e1, List.countP_append, List.countP_append]
  simp [hq]; omega

/-- For `i < j`, element `i` is placed before element `j` exactly when its key is not larger. -/
theorem pos_order (f : α → Nat) (arr : List α) {i j : Nat} {a b : α} (hi : arr[i]? = some a) (hj : arr[j]? = some b) (hij : i < j) :
    (pos f arr i a < pos f arr j b ↔ f a ≤ f b) ∧ pos f arr i a ≠ pos f arr j b := by
  have hle : ∀ (k : Nat) (x : α), arr[k]? = some x → pos f arr k x < below f arr (f x + 1) := by
    intro k x hk
    rw [below_succ]
    unfold pos
    have hl := (List.getElem?_eq_some_iff.1 hk).1
    have := take_countP_lt (q := fun b => decide (f b = f x)) hk (by simp) hl
    simp only [List.take_length] at this
    omega
  have h1 := hle i a hi
  have h2 := hle j b hj
  have l1 : below f arr (f a) ≤ pos f arr i a := by unfold pos; omega
  have l2 : below f arr (f b) ≤ pos f arr j b := by unfold pos; omega
  rcases lt_trichotomy (f a) (f b) with h | h | h
  · have := below_mono f arr (show f a + 1 ≤ f b from h)
    constructor
    · constructor <;> intro _ <;> omega
    · omega
  · have h3 := take_countP_lt (q := fun c => decide (f c = f a)) hi (by simp) hij
    have : pos f arr i a < pos f arr j b := by unfold pos; rw [← h]; omega
    exact ⟨⟨fun _ => by omega, fun _ => this⟩, by omega⟩
  · have := below_mono f arr (show f b + 1 ≤ f a from h)
    constructor
    · constructor <;> intro _ <;> omega
    · omega

theorem pos_lt (f : α → Nat) (arr : List α) {i : Nat} {a : α} (hi : arr[i]? = some a) : pos f arr i a < arr.length := by
  have h1 : pos f arr i a < below f arr (f a + 1) := by
    rw [below_succ]
    unfold pos
    have hl := (List.getElem?_eq_some_iff.1 hi).1
    have := take_countP_lt (q := fun b => decide (f b = f a)) hi (by simp) hl
    simp only [List.take_length] at this
    omega
  exact lt_of_lt_of_le h1 List.countP_le_length

/-- The placing loop: with `k` elements left to place. -/
theorem placeLoop_spec (f : α → Nat) (m : Nat) (arr : List α) (hk : ∀ a ∈ arr, f a < m) : ∀ (k : Nat) (cnt : List Nat) (res : List (Option α)), k ≤ arr.length →
    cnt.length = m → res.length = arr.length → (∀ p, p < m → cnt.getD p 0 = below f arr p + (arr.take k).countP (fun b => decide (f b = p))) →
    (∀ (j : Nat) a, k ≤ j → arr[j]? = some a → res[pos f arr j a]? = some (some a)) →
    ∃ cnt' res', placeLoop f (arr.take k).reverse cnt res = some (cnt', res') ∧ res'.length = arr.length ∧
      cnt'.length = m ∧ (∀ p, p < m → cnt'.getD p 0 = below f arr p) ∧ ∀ (j : Nat) a, arr[j]? = some a → res'[pos f arr j a]? = some (some a) := by
  intro k
  induction k with
  | zero =>
    intro cnt res _ hc hr h1 h2
    exact ⟨cnt, res, rfl, hr, hc, fun p hp => by simpa using h1 p hp, fun j a => h2 j a (by omega)⟩
  | succ k ih =>
    intro cnt res hkl hc hr h1 h2
    have hl : k < arr.length := by omega
    have hg := List.getElem?_eq_getElem hl
    generalize arr[k] = a at hg
    have e1 : arr.take (k + 1) = arr.take k ++ [a] := by rw [List.take_add_one, hg]; rfl
    rw [e1, List.reverse_append]
    simp only [List.reverse_cons, List.reverse_nil, List.nil_append, List.singleton_append, placeLoop]
    have ha := hk a (List.mem_of_getElem? hg)
    have hca : cnt[f a]? = some (pos f arr k a + 1) := by
      have := h1 (f a) ha
      rw [e1, List.countP_append] at this
      simp only [List.countP_cons, List.countP_nil, decide_true, if_true] at this
      have hlc : f a < cnt.length := by omega
      rw [List.getElem?_eq_getElem hlc]
      simp only [List.getD, List.getElem?_eq_getElem hlc, Option.getD_some] at this
      rw [this]; unfold pos
      congr 1
    rw [hca]
    simp only
    have hpl : pos f arr k a < res.length := by rw [hr]; exact pos_lt f arr hg
    rw [if_pos hpl]
    apply ih
    · omega
    · simpa using hc
    · simpa using hr
    · intro p hp
      simp only [List.getD, List.getElem?_set]
      by_cases e : f a = p
      · subst e; simp [show f a < cnt.length by omega, pos]
      · have := h1 p hp
        rw [e1, List.countP_append] at this
        simp only [List.countP_cons, List.countP_nil, e, decide_false, Bool.false_eq_true, if_false] at this
        simp only [e, if_false]
        simpa [List.getD] using this
    · intro j b hj hb
      rw [List.getElem?_set]
      by_cases ej : j = k
      · subst ej
        rw [hg] at hb; cases hb
        simp [hpl]
      · have hlt : k < j := by omega
        have := (pos_order f arr hg hb hlt).2
        rw [if_neg this]
        exact h2 j b (by omega) hb

/-- `bucket_sort` sorts stably: element `j` of the input ends up at position `pos j`, and `cnt[p]` is the start of bucket `p`. -/
theorem bucketSort_spec (f : α → Nat) (m : Nat) (arr : List α) (hk : ∀ a ∈ arr, f a < m) : ∃ res cnt, bucketSort f m arr = some (res, cnt) ∧
    res.length = arr.length ∧ cnt.length = m ∧ (∀ p, p < m → cnt.getD p 0 = below f arr p) ∧
    ∀ (j : Nat) a, arr[j]? = some a → res[pos f arr j a]? = some (some a) := by
  obtain ⟨c1, h1, h2, h3⟩ := countLoop_spec f arr (List.replicate m 0) (by simpa using hk)
  simp only [List.length_replicate] at h2 h3
  have h4 : (prefixLoop (m - 1) 1 c1).length = m ∧ ∀ p, p < m → (prefixLoop (m - 1) 1 c1).getD p 0 = below f arr (p + 1) := by
    by_cases hm : m = 0
    · subst hm; exact ⟨by simpa [prefixLoop] using h2, by omega⟩
    · have hr : ∀ p, p < m → c1.getD p 0 = arr.countP (fun a => decide (f a = p)) := by
        intro p hp
        rw [h3 p hp]
        simp [List.getD, List.getElem?_replicate, hp]
      obtain ⟨g1, g2⟩ := prefixLoop_spec (fun p => arr.countP (fun a => decide (f a = p))) (m - 1) 1 c1 (le_refl _) (by omega)
        (by intro p hp; rw [hr p (by omega)]; have : p = 0 := by omega
            subst this; simp)
        (by intro p _ hp; exact hr p (by omega))
      refine ⟨by omega, ?_⟩
      intro p hp
      rw [g2 p (by omega), below_sum]
  obtain ⟨cnt', res', g1, g2, g3, g4, g5⟩ := placeLoop_spec f m arr hk arr.length (prefixLoop (m - 1) 1 c1) (List.replicate arr.length none) (le_refl _) h4.1 (by simp)
    (by intro p hp; rw [h4.2 p hp, below_succ, List.take_length])
    (by intro j a hj ha; have := (List.getElem?_eq_some_iff.1 ha).1; omega)
  rw [List.take_length] at g1
  refine ⟨res', cnt', ?_, g2, g3, g4, g5⟩
  unfold bucketSort
  rw [h1]
  simp only
  rw [g1]

end Verif.Bucket
