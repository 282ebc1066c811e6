import Verif.Layering.MinPass
import Verif.Layering.CtxOk

/-!
# Pieces of `compute_min_max_layers`
-/

set_option linter.unusedSectionVars false
set_option linter.unusedSimpArgs false

namespace Verif.Layering

theorem le_maxOf {l : List Nat} {x : Nat} (h : x ∈ l) : x ≤ maxOf l := (le_foldl_max l 0).2.1 x h

theorem getD_le_maxOf (m : List Nat) (x : Nat) : m.getD x 0 ≤ maxOf m := by
  by_cases h : x < m.length
  · rw [List.getD_eq_getElem?_getD, List.getElem?_eq_getElem h]
    exact le_maxOf (List.getElem_mem h)
  · rw [List.getD_eq_getElem?_getD, List.getElem?_eq_none (by omega)]; simp

theorem sortDedup_mem {l : List Nat} {x : Nat} : x ∈ sortDedup l ↔ x ∈ l := by simp [sortDedup]

theorem sortDedup_sorted (l : List Nat) : (sortDedup l).Pairwise (· < ·) := by
  have h1 : (sortDedup l).Pairwise (· ≤ ·) := List.pairwise_insertionSort (· ≤ ·) _
  have h2 : (sortDedup l).Nodup := (List.perm_insertionSort _ _).nodup_iff.2 (List.nodup_dedup _)
  exact (h1.and h2).imp fun h => lt_of_le_of_ne h.1 h.2

theorem layersOf_spec {cross : Bool} {x mn mx outL : Nat} {isOut : Bool} {us l : List Nat} (h : layersOf cross x mn mx outL isOut us = some l) (hx : x ≠ 0)
    (hm : mn ≤ mx) (hus : ∀ u ∈ us, mn ≤ u ∧ u ≤ mx) (ho : isOut = true → mx = outL) :
    l.Pairwise (· < ·) ∧ l.head? = some mn ∧ (∀ u ∈ us, u ∈ l) ∧ (isOut = true → outL ∈ l) := by
  unfold layersOf at h
  rw [if_neg hx] at h
  split at h
  · dsimp only at h
    generalize ht : sortDedup (mn :: us ++ if isOut = true then [outL] else []) = t at h
    split at h
    · rename_i hh
      cases h
      refine ⟨ht ▸ sortDedup_sorted _, hh.1, ?_, ?_⟩
      · intro u hu; rw [← ht, sortDedup_mem]; simp [hu]
      · intro e; rw [← ht, sortDedup_mem, e]; simp
    · cases h
  · cases h
    refine ⟨List.pairwise_lt_range', ?_, ?_, ?_⟩
    · rw [List.head?_range']; rw [if_neg (by omega)]
    · intro u hu; have := hus u hu; rw [List.mem_range'_1]; omega
    · intro e; have := ho e; rw [List.mem_range'_1]; omega

theorem number_getD : ∀ (l : List (List Nat × List Nat)) (n i : Nat), (number n l).getD i none =
    (l[i]?).bind fun x => if nonEmpty x then some ⟨n + ((l.take i).filter nonEmpty).length, x.1, x.2⟩ else none := by
  intro l
  induction l with
  | nil => intro n i; simp [number]
  | cons a l ih =>
    intro n i
    unfold number
    cases i with
    | zero =>
      by_cases h : nonEmpty a
      · simp [h]
      · simp [h]
    | succ i =>
      by_cases h : nonEmpty a
      · rw [if_pos h, List.getD_cons_succ, ih, List.getElem?_cons_succ, List.take_succ_cons, List.filter_cons_of_pos h]
        congr 1
        funext x
        rw [List.length_cons, show n + 1 + ((l.take i).filter nonEmpty).length = n + (((l.take i).filter nonEmpty).length + 1) by omega]
      · rw [if_neg h, List.getD_cons_succ, ih, List.getElem?_cons_succ, List.take_succ_cons, List.filter_cons_of_neg h]

theorem number_length : ∀ (l : List (List Nat × List Nat)) (n : Nat), (number n l).length = l.length := by
  intro l
  induction l with
  | nil => intro n; rfl
  | cons a l ih => intro n; unfold number; split <;> simp [ih]

theorem popRev_spec (o : Nat) : ∀ (r : List (Option CC)), ∃ t, popRev o r = r.drop t ∧ (∀ x ∈ r.take t, x = none) := by
  intro r
  induction r with
  | nil => exact ⟨0, by simp [popRev], by simp⟩
  | cons a r ih =>
    cases a with
    | some c => exact ⟨0, by simp [popRev], by simp⟩
    | none =>
      unfold popRev
      split
      · obtain ⟨t, h1, h2⟩ := ih
        exact ⟨t + 1, by simpa using h1, by simpa using h2⟩
      · exact ⟨0, by simp, by simp⟩

theorem append_none_getD (a b : List (Option CC)) (h : ∀ x ∈ b, x = none) (i : Nat) : (a ++ b).getD i none = a.getD i none := by
  by_cases hi : i < a.length
  · rw [List.getD_eq_getElem?_getD, List.getD_eq_getElem?_getD, List.getElem?_append_left hi]
  · rw [List.getD_eq_getElem?_getD, List.getD_eq_getElem?_getD, List.getElem?_append_right (by omega), List.getElem?_eq_none (show a.length ≤ i by omega)]
    cases hh : b[i - a.length]? with
    | none => rfl
    | some x => rw [h x (List.mem_of_getElem? hh)]; rfl

theorem popRev_getD (o : Nat) (l : List (Option CC)) (i : Nat) : ((popRev o l.reverse).reverse).getD i none = l.getD i none := by
  obtain ⟨t, h1, h2⟩ := popRev_spec o l.reverse
  have e : l = (popRev o l.reverse).reverse ++ (l.reverse.take t).reverse := by
    rw [h1, ← List.reverse_append, List.take_append_drop, List.reverse_reverse]
  conv_rhs => rw [e]
  rw [append_none_getD]
  intro x hx
  exact h2 x (by simpa using hx)

theorem popRev_last (o : Nat) (l : List (Option CC)) {c : CC} (h : l.getLast? = some (some c)) : (popRev o l.reverse).reverse = l := by
  rw [List.getLast?_eq_head?_reverse] at h
  cases hr : l.reverse with
  | nil => rw [hr] at h; cases h
  | cons a r =>
    rw [hr] at h
    simp at h
    subst h
    rw [show popRev o (some c :: r) = some c :: r by rw [popRev]; simp, ← hr, List.reverse_reverse]

theorem bumpOut_le (root : Bool) : ∀ (l : List (Option CC)) (i o : Nat), o ≤ bumpOut root i l o := by
  intro l
  induction l with
  | nil => intro i o; exact le_refl _
  | cons x l ih =>
    intro i o
    unfold bumpOut
    refine le_trans ?_ (ih _ _)
    split
    · rename_i h
      simp at h
      split <;> omega
    · exact le_refl _

theorem bumpOut_some {c : CC} : ∀ (l : List (Option CC)) (i o j : Nat), l[j]? = some (some c) → i + j + 1 ≤ bumpOut false i l o := by
  intro l
  induction l with
  | nil => intro i o j h; simp at h
  | cons x l ih =>
    intro i o j h
    unfold bumpOut
    cases j with
    | zero =>
      simp at h
      subst h
      refine le_trans ?_ (bumpOut_le _ _ _ _)
      simp only [Option.isSome_some, Bool.true_and, decide_eq_true_eq, if_false, Bool.false_eq_true]
      split <;> omega
    | succ j =>
      rw [List.getElem?_cons_succ] at h
      have := ih (i + 1) (if x.isSome && decide (o < i + 1) then (if false then i else i + 1) else o) j h
      simp only [Bool.false_eq_true, if_false] at this ⊢
      omega

end Verif.Layering
