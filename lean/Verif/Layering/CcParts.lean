import Verif.Layering.Parts

/-!
# Combined constraints of a context
-/

set_option linter.unusedSectionVars false
set_option linter.unusedSimpArgs false

namespace Verif.Layering

variable {F : Type} {root : Bool} {p : Prog F} {subs : List (Ctx F)}

theorem pRaw_get {i : Nat} (h : i < maxOf (pM p subs) + 3) : (pRaw p subs)[i]? = some (rawCC p (pM p subs) (pStarts p subs) (pSubCC subs) i) := by
  rw [pRaw, List.getElem?_map, List.getElem?_range h]; rfl

theorem pRaw_length : (pRaw p subs).length = maxOf (pM p subs) + 3 := by simp [pRaw]

/-- First layer with something to combine. -/
def pFirst (p : Prog F) (subs : List (Ctx F)) : Nat := (pRaw p subs).findIdx nonEmpty

/-- Entries of the merged list. -/
theorem pMerged_get {i : Nat} {x : List Nat × List Nat} (h : (pMerged root p subs)[i]? = some x) :
    i < maxOf (pM p subs) + 3 ∧ ((x = rawCC p (pM p subs) (pStarts p subs) (pSubCC subs) i ∧ (root = true → i ≤ pFirst p subs)) ∨
      (root = true ∧ pFirst p subs < i ∧ i ≤ maxOf (pM p subs) + 1 ∧ x = ((rawCC p (pM p subs) (pStarts p subs) (pSubCC subs) i).1 ++ [i - 1 - pFirst p subs + (p.nv + p.calls.length)],
        (rawCC p (pM p subs) (pStarts p subs) (pSubCC subs) i).2))) := by
  unfold pMerged at h
  cases root with
  | false =>
    simp only [Bool.false_eq_true, if_false] at h
    have hi : i < maxOf (pM p subs) + 3 := by rw [← pRaw_length (p := p) (subs := subs)]; exact (List.getElem?_eq_some_iff.1 h).1
    rw [pRaw_get hi] at h
    cases h
    exact ⟨hi, .inl ⟨rfl, by simp⟩⟩
  | true =>
    simp only [if_true] at h
    unfold rootMerge at h
    change (if pFirst p subs < (pRaw p subs).length then _ else _)[i]? = some x at h
    by_cases hf : pFirst p subs < (pRaw p subs).length
    · rw [if_pos hf, List.getElem?_mapIdx] at h
      rw [pRaw_length] at hf
      obtain ⟨y, hy, rfl⟩ := Option.map_eq_some_iff.1 h
      rw [List.getElem?_take] at hy
      split at hy
      · rename_i hi
        rw [pRaw_get (by omega)] at hy
        cases hy
        refine ⟨by omega, ?_⟩
        by_cases hfi : pFirst p subs < i
        · refine .inr ⟨rfl, hfi, by omega, ?_⟩
          rw [show (pRaw p subs).findIdx nonEmpty = pFirst p subs from rfl, if_pos hfi]
        · refine .inl ⟨?_, fun _ => by omega⟩
          rw [show (pRaw p subs).findIdx nonEmpty = pFirst p subs from rfl, if_neg hfi]
      · cases hy
    · rw [if_neg hf] at h
      have hi : i < maxOf (pM p subs) + 3 := by rw [← pRaw_length (p := p) (subs := subs)]; exact (List.getElem?_eq_some_iff.1 h).1
      rw [pRaw_get hi] at h
      cases h
      refine ⟨hi, .inl ⟨rfl, fun _ => ?_⟩⟩
      rw [pRaw_length] at hf
      omega

theorem pMerged_some {i : Nat} (hi : i < maxOf (pM p subs) + 3) (hr : root = true → i ≤ maxOf (pM p subs) + 1) :
    ∃ x, (pMerged root p subs)[i]? = some x ∧ (∀ v ∈ (rawCC p (pM p subs) (pStarts p subs) (pSubCC subs) i).1, v ∈ x.1) ∧
      x.2 = (rawCC p (pM p subs) (pStarts p subs) (pSubCC subs) i).2 := by
  unfold pMerged
  cases root with
  | false =>
    simp only [Bool.false_eq_true, if_false]
    exact ⟨_, pRaw_get hi, fun v h => h, rfl⟩
  | true =>
    simp only [if_true]
    unfold rootMerge
    dsimp only
    split
    · rw [List.getElem?_mapIdx, List.getElem?_take, if_pos (by have := hr rfl; omega), pRaw_get hi]
      refine ⟨_, rfl, ?_, ?_⟩
      · intro v hv; dsimp only; split
        · simp [hv]
        · exact hv
      · dsimp only; split <;> rfl
    · exact ⟨_, pRaw_get hi, fun v h => h, rfl⟩

theorem pCC_getD (i : Nat) : (pCC root p subs).getD i none = (pCC0 root p subs).getD i none := by
  have h1 : (pCC root p subs).getD i none = (pCC1 root p subs).getD i none := by
    unfold pCC
    split
    · rw [append_none_getD]; simp
    · rfl
  rw [h1, pCC1, popRev_getD]

/-- Number of a combined constraint. -/
def ccNum (root : Bool) (p : Prog F) (subs : List (Ctx F)) (i : Nat) : Nat := (((pMerged root p subs).take i).filter nonEmpty).length

theorem pCC_some {i : Nat} {cc : CC} : (pCC root p subs).getD i none = some cc ↔
    ∃ x, (pMerged root p subs)[i]? = some x ∧ nonEmpty x = true ∧ cc = ⟨p.nv + p.calls.length + ccNum root p subs i, x.1, x.2⟩ := by
  rw [pCC_getD, pCC0, number_getD, Option.bind_eq_some_iff]
  refine exists_congr fun x => and_congr Iff.rfl ?_
  split
  · rename_i h
    constructor
    · intro e; cases e; exact ⟨h, rfl⟩
    · rintro ⟨_, rfl⟩; rfl
  · rename_i h
    constructor
    · intro e; cases e
    · rintro ⟨h', _⟩; exact absurd h' h

theorem ccNum_succ {i : Nat} {x : List Nat × List Nat} (h : (pMerged root p subs)[i]? = some x) :
    ccNum root p subs (i + 1) = ccNum root p subs i + if nonEmpty x then 1 else 0 := by
  unfold ccNum
  rw [List.take_add_one, h, List.filter_append, List.length_append]
  congr 1
  by_cases hx : nonEmpty x = true
  · simp [hx]
  · simp [hx]

theorem ccNum_mono {i j : Nat} (h : i ≤ j) : ccNum root p subs i ≤ ccNum root p subs j := by
  unfold ccNum
  have : ((pMerged root p subs).take i).Sublist ((pMerged root p subs).take j) := by
    have := List.take_sublist i ((pMerged root p subs).take j)
    rwa [List.take_take, Nat.min_eq_left h] at this
  exact (this.filter _).length_le

theorem ccNum_inj {i j : Nat} {x y : List Nat × List Nat} (hx : (pMerged root p subs)[i]? = some x) (hy : (pMerged root p subs)[j]? = some y)
    (nx : nonEmpty x = true) (ny : nonEmpty y = true) (h : ccNum root p subs i = ccNum root p subs j) : i = j := by
  have h1 := ccNum_succ hx
  have h2 := ccNum_succ hy
  rw [if_pos nx] at h1
  rw [if_pos ny] at h2
  rcases Nat.lt_trichotomy i j with e | e | e
  · have := ccNum_mono (root := root) (p := p) (subs := subs) (show i + 1 ≤ j by omega); omega
  · exact e
  · have := ccNum_mono (root := root) (p := p) (subs := subs) (show j + 1 ≤ i by omega); omega

theorem rawCC_zero {m starts : List Nat} {sc : Nat → List (Option CC)} : rawCC p m starts sc 0 = ([], []) := by
  unfold rawCC
  simp

theorem raw_first (hf : pFirst p subs < maxOf (pM p subs) + 3) : nonEmpty (rawCC p (pM p subs) (pStarts p subs) (pSubCC subs) (pFirst p subs)) = true := by
  have hl : List.findIdx nonEmpty (pRaw p subs) < (pRaw p subs).length := by rw [pRaw_length]; exact hf
  have h := List.findIdx_getElem (xs := pRaw p subs) (p := nonEmpty) (w := hl)
  have h2 : (pRaw p subs)[List.findIdx nonEmpty (pRaw p subs)]? = some (rawCC p (pM p subs) (pStarts p subs) (pSubCC subs) (pFirst p subs)) := pRaw_get (p := p) (subs := subs) hf
  rw [List.getElem?_eq_getElem hl, Option.some.injEq] at h2
  rw [h2] at h
  exact h

theorem pFirst_pos (hf : pFirst p subs < maxOf (pM p subs) + 3) : 0 < pFirst p subs := by
  have h := raw_first hf
  by_contra hn
  have h0 : pFirst p subs = 0 := by omega
  rw [h0, rawCC_zero] at h
  simp [nonEmpty] at h

theorem raw_lt_first {i : Nat} (h : i < pFirst p subs) (hi : i < maxOf (pM p subs) + 3) : nonEmpty (rawCC p (pM p subs) (pStarts p subs) (pSubCC subs) i) = false := by
  have h1 := List.not_of_lt_findIdx (p := nonEmpty) (xs := pRaw p subs) h
  have h2 := pRaw_get (p := p) (subs := subs) hi
  rw [List.getElem?_eq_getElem (by rw [pRaw_length]; exact hi), Option.some.injEq] at h2
  rw [h2] at h1
  simpa using h1

/-- At the root, everything from the first combined constraint on is a combined constraint, numbered consecutively. -/
theorem root_nonEmpty {i : Nat} {x : List Nat × List Nat} (hx : (pMerged true p subs)[i]? = some x) : nonEmpty x = decide (pFirst p subs ≤ i) := by
  obtain ⟨hi, h⟩ := pMerged_get hx
  rcases h with ⟨rfl, hle⟩ | ⟨_, h1, _, rfl⟩
  · have hle := hle rfl
    by_cases e : i = pFirst p subs
    · subst e; rw [raw_first hi]; simp
    · rw [raw_lt_first (by omega) hi, eq_comm, decide_eq_false_iff_not]; omega
  · rw [show decide (pFirst p subs ≤ i) = true from decide_eq_true (by omega)]
    simp [nonEmpty]

theorem root_ccNum : ∀ (i : Nat), i ≤ (pMerged true p subs).length → ccNum true p subs i = i - pFirst p subs := by
  intro i
  induction i with
  | zero => intro _; simp [ccNum]
  | succ i ih =>
    intro h
    have hx : (pMerged true p subs)[i]? = some _ := List.getElem?_eq_getElem (by omega)
    rw [ccNum_succ hx, ih (by omega), root_nonEmpty hx]
    by_cases e : pFirst p subs ≤ i
    · rw [decide_eq_true e, if_pos rfl]; omega
    · rw [decide_eq_false e]; simp; omega

end Verif.Layering
