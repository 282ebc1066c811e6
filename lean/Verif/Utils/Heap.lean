import Verif.Base
import Mathlib.Data.List.Basic
import Mathlib.Algebra.Order.Ring.Nat

/-!
# Binary heap (utils/heap.rs:1-43)

`lt a b` stands for `cmp(a, b) == Ordering::Less`.  Loops run on a bound (`length`) that the theorems show to be enough: each round moves the
index strictly up or down.  Out-of-range reads, which never happen, give 0.
-/

set_option linter.unusedSectionVars false
set_option linter.unusedSimpArgs false

namespace Verif.Heap

/-- `s[i]`. -/
def at' (s : List Nat) (i : Nat) : Nat := s.getD i 0

/-- `s.swap(i, j)`. -/
def swap (s : List Nat) (i j : Nat) : List Nat := (s.set i (at' s j)).set j (at' s i)

/-- The loop of `push` (heap.rs:8-16). -/
def siftUp (lt : Nat → Nat → Bool) : Nat → List Nat → Nat → List Nat
  | 0, s, _ => s
  | f + 1, s, i =>
    if 0 < i then
      if lt (at' s i) (at' s ((i - 1) / 2)) then siftUp lt f (swap s i ((i - 1) / 2)) ((i - 1) / 2) else s
    else s

/-- `push` (heap.rs:5-17). -/
def push (lt : Nat → Nat → Bool) (s : List Nat) (x : Nat) : List Nat := siftUp lt (s.length + 1) (s ++ [x]) s.length

/-- The loop of `pop` (heap.rs:29-41). -/
def siftDown (lt : Nat → Nat → Bool) : Nat → List Nat → Nat → List Nat
  | 0, s, _ => s
  | f + 1, s, i =>
    if 2 * i + 1 < s.length then
      let j := if 2 * i + 2 < s.length && lt (at' s (2 * i + 2)) (at' s (2 * i + 1)) then 2 * i + 2 else 2 * i + 1
      if lt (at' s j) (at' s i) then siftDown lt f (swap s i j) j else s
    else s

/-- `pop` (heap.rs:19-43): the element and the rest. -/
def pop (lt : Nat → Nat → Bool) (s : List Nat) : Option (Nat × List Nat) :=
  match s with
  | [] => none
  | [x] => some (x, [])
  | x :: y :: t => some (x, siftDown lt (y :: t).length (((y :: t).getLast?.getD 0) :: (y :: t).dropLast) 0)

/-- Specification of a comparator: a strict weak order (`cmp` of a total preorder). -/
structure Weak (lt : Nat → Nat → Bool) : Prop where
  asymm : ∀ a b, lt a b = true → lt b a = false
  trans : ∀ a b c, lt b a = false → lt c b = false → lt c a = false

/-- Specification of a heap: no element is smaller than its parent. -/
def IsHeap (lt : Nat → Nat → Bool) (s : List Nat) : Prop := ∀ i, 0 < i → i < s.length → lt (at' s i) (at' s ((i - 1) / 2)) = false

variable {lt : Nat → Nat → Bool}

theorem swap_length (s : List Nat) (i j : Nat) : (swap s i j).length = s.length := by simp [swap]

theorem swap_perm {s : List Nat} {i j : Nat} (hi : i < s.length) (hj : j < s.length) : (swap s i j).Perm s := by
  have := List.set_set_perm hi hj
  simpa [swap, at', List.getD, List.getElem?_eq_getElem hi, List.getElem?_eq_getElem hj] using this

theorem at_swap {s : List Nat} {i j : Nat} (hi : i < s.length) (hj : j < s.length) (k : Nat) :
    at' (swap s i j) k = if k = j then at' s i else if k = i then at' s j else at' s k := by
  simp only [swap, at', List.getD]
  rw [List.getElem?_set, List.getElem?_set]
  by_cases h1 : j = k
  · subst h1; simp [hj]
  · have h1' : k ≠ j := fun e => h1 e.symm
    by_cases h2 : i = k
    · subst h2; simp [h1, h1', hi]
    · have h2' : k ≠ i := fun e => h2 e.symm
      simp [h1, h1', h2, h2']

/-- Heap except that the element at `i` may be too small. -/
structure UpInv (lt : Nat → Nat → Bool) (s : List Nat) (i : Nat) : Prop where
  inb : i < s.length
  ok : ∀ k, 0 < k → k < s.length → k ≠ i → lt (at' s k) (at' s ((k - 1) / 2)) = false
  child : ∀ k, 0 < k → k < s.length → (k - 1) / 2 = i → 0 < i → lt (at' s k) (at' s ((i - 1) / 2)) = false

theorem siftUp_spec (hw : Weak lt) : ∀ (f : Nat) (s : List Nat) (i : Nat), i < f → UpInv lt s i → IsHeap lt (siftUp lt f s i) ∧ (siftUp lt f s i).Perm s := by
  intro f
  induction f with
  | zero => intro s i h; omega
  | succ f ih =>
    intro s i hf h
    simp only [siftUp]
    by_cases hi : 0 < i
    · rw [if_pos hi]
      have hil := h.inb
      by_cases hc : lt (at' s i) (at' s ((i - 1) / 2)) = true
      · rw [if_pos hc]
        have hp : (i - 1) / 2 < s.length := by omega
        have hpi : (i - 1) / 2 < i := by omega
        have hne : (i - 1) / 2 ≠ i := by omega
        obtain ⟨g1, g2⟩ := ih (swap s i ((i - 1) / 2)) ((i - 1) / 2) (by omega) (by
          refine ⟨by rw [swap_length]; exact hp, ?_, ?_⟩
          · intro k hk hkl hkp
            rw [swap_length] at hkl
            rw [at_swap hil hp, at_swap hil hp, if_neg hkp]
            by_cases e1 : k = i
            · subst e1
              rw [if_pos rfl, if_pos rfl]
              exact hw.asymm _ _ hc
            · rw [if_neg e1]
              by_cases e2 : (k - 1) / 2 = (i - 1) / 2
              · rw [if_pos e2]
                have h1 := h.ok k hk hkl e1
                rw [e2] at h1
                exact hw.trans _ _ _ (hw.asymm _ _ hc) h1
              · rw [if_neg e2]
                by_cases e3 : (k - 1) / 2 = i
                · rw [if_pos e3]; exact h.child k hk hkl e3 hi
                · rw [if_neg e3]; exact h.ok k hk hkl e1
          · intro k hk hkl hkp hpos
            rw [swap_length] at hkl
            rw [at_swap hil hp, at_swap hil hp]
            have a1 : ((i - 1) / 2 - 1) / 2 ≠ (i - 1) / 2 := by omega
            have a2 : ((i - 1) / 2 - 1) / 2 ≠ i := by omega
            rw [if_neg a1, if_neg a2]
            have b1 : k ≠ (i - 1) / 2 := by omega
            rw [if_neg b1]
            have hpp := h.ok ((i - 1) / 2) hpos hp hne
            by_cases e1 : k = i
            · rw [if_pos e1]; exact hpp
            · rw [if_neg e1]
              have h1 := h.ok k hk hkl e1
              rw [hkp] at h1
              exact hw.trans _ _ _ hpp h1)
        exact ⟨g1, g2.trans (swap_perm hil hp)⟩
      · rw [if_neg hc]
        refine ⟨?_, List.Perm.refl _⟩
        intro k hk hkl
        by_cases e : k = i
        · subst e; simpa using hc
        · exact h.ok k hk hkl e
    · rw [if_neg hi]
      refine ⟨?_, List.Perm.refl _⟩
      intro k hk hkl
      exact h.ok k hk hkl (by omega)

/-- `push` keeps the heap property and adds exactly `x`. -/
theorem push_spec (hw : Weak lt) {s : List Nat} (h : IsHeap lt s) (x : Nat) : IsHeap lt (push lt s x) ∧ (push lt s x).Perm (x :: s) := by
  have hat : ∀ k, k < s.length → at' (s ++ [x]) k = at' s k := by
    intro k hk; simp [at', List.getD, List.getElem?_append_left hk]
  obtain ⟨g1, g2⟩ := siftUp_spec hw (s.length + 1) (s ++ [x]) s.length (by omega) (by
    refine ⟨by simp, ?_, ?_⟩
    · intro k hk hkl hne
      simp only [List.length_append, List.length_cons, List.length_nil] at hkl
      rw [hat k (by omega), hat _ (by omega)]
      exact h k hk (by omega)
    · intro k hk hkl hp
      simp only [List.length_append, List.length_cons, List.length_nil] at hkl
      omega)
  exact ⟨g1, g2.trans (List.perm_append_singleton x s)⟩

/-- Heap except that the element at `i` may be too large. -/
structure DownInv (lt : Nat → Nat → Bool) (s : List Nat) (i : Nat) : Prop where
  ok : ∀ k, 0 < k → k < s.length → (k - 1) / 2 ≠ i → lt (at' s k) (at' s ((k - 1) / 2)) = false
  child : ∀ k, 0 < k → k < s.length → (k - 1) / 2 = i → 0 < i → lt (at' s k) (at' s ((i - 1) / 2)) = false

theorem siftDown_spec (hw : Weak lt) : ∀ (f : Nat) (s : List Nat) (i : Nat), s.length ≤ f + i → i < s.length → DownInv lt s i →
    IsHeap lt (siftDown lt f s i) ∧ (siftDown lt f s i).Perm s := by
  intro f
  induction f with
  | zero => intro s i h1 h2; omega
  | succ f ih =>
    intro s i hf hi h
    simp only [siftDown]
    by_cases hl : 2 * i + 1 < s.length
    · rw [if_pos hl]
      generalize hj : (if (2 * i + 2 < s.length && lt (at' s (2 * i + 2)) (at' s (2 * i + 1))) = true then 2 * i + 2 else 2 * i + 1) = j
      have hj12 : j = 2 * i + 1 ∨ j = 2 * i + 2 := by rw [← hj]; split <;> simp
      have hjl : j < s.length := by
        rw [← hj]; split
        · rename_i hc; simp only [Bool.and_eq_true, decide_eq_true_eq] at hc; exact hc.1
        · exact hl
      have hmin : ∀ k, 0 < k → k < s.length → (k - 1) / 2 = i → lt (at' s k) (at' s j) = false := by
        intro k hk hkl hkp
        have hk12 : k = 2 * i + 1 ∨ k = 2 * i + 2 := by omega
        rw [← hj]
        have irr : ∀ a, lt a a = false := by
          intro a
          cases hh : lt a a with
          | false => rfl
          | true => have := hw.asymm a a hh; rw [hh] at this; cases this
        split
        · rename_i hc
          simp only [Bool.and_eq_true, decide_eq_true_eq] at hc
          rcases hk12 with rfl | rfl
          · exact hw.asymm _ _ hc.2
          · exact irr _
        · rename_i hc
          rcases hk12 with rfl | rfl
          · exact irr _
          · simpa [hkl] using hc
      by_cases hc : lt (at' s j) (at' s i) = true
      · rw [if_pos hc]
        have hij : i ≠ j := by omega
        have hjp : (j - 1) / 2 = i := by omega
        obtain ⟨g1, g2⟩ := ih (swap s i j) j (by rw [swap_length]; omega) (by rw [swap_length]; exact hjl) (by
          constructor
          · intro k hk hkl hkj
            rw [swap_length] at hkl
            rw [at_swap hi hjl, at_swap hi hjl, if_neg hkj]
            by_cases e1 : k = j
            · rw [if_pos e1]
              have : (k - 1) / 2 = i := by rw [e1]; exact hjp
              rw [if_pos this]
              exact hw.asymm _ _ hc
            · rw [if_neg e1]
              by_cases e2 : (k - 1) / 2 = i
              · rw [if_pos e2]
                have : k ≠ i := by omega
                rw [if_neg this]
                exact hmin k hk hkl e2
              · rw [if_neg e2]
                by_cases e3 : k = i
                · rw [if_pos e3]
                  subst e3
                  exact h.child j (by omega) hjl hjp hk
                · rw [if_neg e3]
                  exact h.ok k hk hkl e2
          · intro k hk hkl hkj hj0
            rw [swap_length] at hkl
            rw [at_swap hi hjl, at_swap hi hjl]
            have a1 : k ≠ j := by omega
            have a2 : k ≠ i := by omega
            rw [if_neg a1, if_neg a2, hjp, if_neg hij, if_pos rfl]
            have := h.ok k hk hkl (by omega)
            rw [hkj] at this
            exact this)
        exact ⟨g1, g2.trans (swap_perm hi hjl)⟩
      · rw [if_neg hc]
        refine ⟨?_, List.Perm.refl _⟩
        intro k hk hkl
        by_cases e : (k - 1) / 2 = i
        · rw [e]
          exact hw.trans _ _ _ (by simpa using hc) (hmin k hk hkl e)
        · exact h.ok k hk hkl e
    · rw [if_neg hl]
      refine ⟨?_, List.Perm.refl _⟩
      intro k hk hkl
      exact h.ok k hk hkl (by omega)

theorem root_min (hw : Weak lt) {s : List Nat} (h : IsHeap lt s) : ∀ i, i < s.length → lt (at' s i) (at' s 0) = false := by
  intro i
  induction i using Nat.strong_induction_on with
  | _ i ih =>
    intro hi
    by_cases h0 : i = 0
    · subst h0
      cases hh : lt (at' s 0) (at' s 0) with
      | false => rfl
      | true => have := hw.asymm _ _ hh; rw [hh] at this; cases this
    · exact hw.trans _ _ _ (ih ((i - 1) / 2) (by omega) (by omega)) (h i (by omega) hi)

/-- `pop` returns an element no other is smaller than, removes exactly it, keeps the heap property, and fails only on the empty heap. -/
theorem pop_spec (hw : Weak lt) {s : List Nat} (h : IsHeap lt s) : (s = [] ∧ pop lt s = none) ∨
    ∃ x t, pop lt s = some (x, t) ∧ s.Perm (x :: t) ∧ IsHeap lt t ∧ ∀ y ∈ s, lt y x = false := by
  have hmin : ∀ x t, s = x :: t → ∀ y ∈ s, lt y x = false := by
    intro x t hs y hy
    obtain ⟨i, hi⟩ := List.mem_iff_getElem?.1 hy
    have hl := (List.getElem?_eq_some_iff.1 hi).1
    have := root_min hw h i hl
    have e1 : at' s i = y := by simp [at', List.getD, hi]
    have e0 : at' s 0 = x := by simp [at', List.getD, hs]
    rwa [e1, e0] at this
  match s, h with
  | [], _ => left; exact ⟨rfl, rfl⟩
  | [x], _ => right; exact ⟨x, [], rfl, List.Perm.refl _, by intro i _ hi; simp at hi, hmin x [] rfl⟩
  | x :: y :: t, h =>
    right
    have hlast : (y :: t).getLast?.getD 0 = (y :: t).getLast (by simp) := by simp [List.getLast?_eq_getLast]
    have hconc := List.dropLast_append_getLast (l := y :: t) (by simp)
    generalize hd : (y :: t).dropLast = d at *
    generalize (y :: t).getLast (by simp) = z at *
    have hlen : (y :: t).length = d.length + 1 := by rw [← hconc]; simp
    obtain ⟨g1, g2⟩ := siftDown_spec hw (y :: t).length (z :: d) 0 (by simp [hlen]) (by simp) (by
      constructor
      · intro k hk hkl hne
        have hat : ∀ j, 0 < j → j < (z :: d).length → at' (z :: d) j = at' (x :: y :: t) j := by
          intro j hj hjl
          rw [← hconc]
          obtain ⟨j, rfl⟩ : ∃ m, j = m + 1 := ⟨j - 1, by omega⟩
          simp only [List.length_cons] at hjl
          simp [at', List.getD, List.getElem?_append_left (show j < d.length by omega)]
        rw [hat k hk hkl, hat _ (by omega) (by omega)]
        simp only [List.length_cons] at hkl
        exact h k hk (by simp only [List.length_cons] at hlen ⊢; omega)
      · intro k _ _ _ h0; omega)
    refine ⟨x, siftDown lt (y :: t).length (z :: d) 0, ?_, ?_, ?_, hmin x (y :: t) rfl⟩
    · simp only [pop]; rw [hlast, hd]
    · refine List.Perm.cons x ?_
      refine List.Perm.trans ?_ g2.symm
      rw [← hconc]
      exact List.perm_append_singleton z d
    · exact g1

end Verif.Heap
