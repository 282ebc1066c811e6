import Verif.IR.Total

/-!
# Selecting the kept entries of a value vector, and renumbering

`sel flags vs` keeps the entries whose flag is set; `rank flags v` is the new position of entry `v`.
-/

namespace Verif.IR

variable {α : Type}

def sel : List Bool → List α → List α
  | true :: fs, x :: xs => x :: sel fs xs
  | false :: fs, _ :: xs => sel fs xs
  | _, _ => []

def rank (flags : List Bool) (v : Nat) : Nat := (flags.take v).count true

theorem sel_append : ∀ {f1 : List Bool} {v1 : List α} {f2 v2}, f1.length = v1.length →
    sel (f1 ++ f2) (v1 ++ v2) = sel f1 v1 ++ sel f2 v2 := by
  intro f1
  induction f1 with
  | nil => intro v1 f2 v2 h; cases v1 <;> simp_all [sel]
  | cons b f1 ih =>
    intro v1 f2 v2 h
    cases v1 with
    | nil => simp at h
    | cons x v1 =>
      have := ih (v1 := v1) (f2 := f2) (v2 := v2) (by simpa using h)
      cases b <;> simp [sel, this]

theorem sel_all_true : ∀ (xs : List α), sel (List.replicate xs.length true) xs = xs := by
  intro xs
  induction xs with
  | nil => rfl
  | cons x xs ih => simp [List.replicate_succ, sel, ih]

theorem sel_all_false : ∀ (n : Nat) (xs : List α), sel (List.replicate n false) xs = [] := by
  intro n
  induction n with
  | zero => intro xs; simp [sel]
  | succ n ih => intro xs; cases xs <;> simp [List.replicate_succ, sel, ih]

theorem sel_length : ∀ {fs : List Bool} {xs : List α}, fs.length = xs.length → (sel fs xs).length = fs.count true := by
  intro fs
  induction fs with
  | nil => intro xs h; cases xs <;> simp_all [sel]
  | cons b fs ih =>
    intro xs h
    cases xs with
    | nil => simp at h
    | cons x xs =>
      have := ih (xs := xs) (by simpa using h)
      cases b <;> simp [sel, this]

theorem sel_getElem : ∀ {fs : List Bool} {xs : List α} {v : Nat}, fs.length = xs.length → fs[v]? = some true →
    (sel fs xs)[rank fs v]? = xs[v]? := by
  intro fs
  induction fs with
  | nil => intro xs v _ h; simp at h
  | cons b fs ih =>
    intro xs v hl h
    cases xs with
    | nil => simp at hl
    | cons x xs =>
      cases v with
      | zero => simp at h; subst h; simp [sel, rank]
      | succ v =>
        have := ih (xs := xs) (v := v) (by simpa using hl) (by simpa using h)
        cases b
        · simpa [sel, rank] using this
        · simp [sel, rank] at this ⊢; exact this

theorem rank_append_left {f1 f2 : List Bool} {v : Nat} (h : v ≤ f1.length) : rank (f1 ++ f2) v = rank f1 v := by
  simp [rank, List.take_append_of_le_length h]

theorem rank_append_right {f1 f2 : List Bool} {j : Nat} : rank (f1 ++ f2) (f1.length + j) = f1.count true + rank f2 j := by
  simp [rank, List.take_append, List.take_of_length_le]

theorem rank_lt {fs : List Bool} {v : Nat} (h : fs[v]? = some true) : rank fs v < fs.count true := by
  induction fs generalizing v with
  | nil => simp at h
  | cons b fs ih =>
    cases v with
    | zero => simp at h; subst h; simp [rank]
    | succ v =>
      have := ih (v := v) (by simpa using h)
      cases b <;> simp [rank] at this ⊢ <;> omega

theorem rank_le {fs : List Bool} {v : Nat} : rank fs v ≤ fs.count true :=
  (List.take_sublist v fs).count_le true

theorem rank_mono {fs : List Bool} {v w : Nat} (h : v ≤ w) : rank fs v ≤ rank fs w := by
  unfold rank
  exact (List.take_sublist_take_left h).count_le true

theorem rank_strict {fs : List Bool} {v w : Nat} (h : v < w) (hv : fs[v]? = some true) : rank fs v < rank fs w := by
  have h1 : rank fs (v + 1) = rank fs v + 1 := by
    unfold rank
    rw [List.take_add_one, hv]
    simp
  have h2 := rank_mono (fs := fs) (show v + 1 ≤ w from h)
  omega

theorem rank_inj {fs : List Bool} {v w : Nat} (hv : fs[v]? = some true) (hw : fs[w]? = some true)
    (h : rank fs v = rank fs w) : v = w := by
  rcases Nat.lt_trichotomy v w with h1 | h1 | h1
  · have := rank_strict h1 hv; omega
  · exact h1
  · have := rank_strict h1 hw; omega

/-- Filtering a list by a predicate on positions is `sel` with the corresponding flags. -/
theorem filter_zipIdx (p : Nat → Bool) : ∀ (xs : List α) (k : Nat),
    ((xs.zipIdx k).filter (fun q => p q.2)).map (·.1) = sel ((List.range' k xs.length).map p) xs := by
  intro xs
  induction xs with
  | nil => intro k; simp [sel]
  | cons x xs ih =>
    intro k
    simp only [List.zipIdx_cons, List.length_cons, List.range'_succ, List.map_cons, List.filter_cons]
    have := ih (k + 1)
    cases hp : p k <;> simp [sel, this]

theorem sel_map {β : Type} (f : α → β) : ∀ (fs : List Bool) (xs : List α), sel fs (xs.map f) = (sel fs xs).map f := by
  intro fs
  induction fs with
  | nil => intro xs; cases xs <;> simp [sel]
  | cons b fs ih =>
    intro xs
    cases xs with
    | nil => cases b <;> simp [sel]
    | cons x xs => cases b <;> simp [sel, ih]

theorem sel_mem : ∀ {fs : List Bool} {xs : List α} {x : α}, x ∈ sel fs xs → ∃ j : Nat, xs[j]? = some x ∧ fs[j]? = some true := by
  intro fs
  induction fs with
  | nil => intro xs x h; cases xs <;> simp [sel] at h
  | cons b fs ih =>
    intro xs x h
    cases xs with
    | nil => cases b <;> simp [sel] at h
    | cons y xs =>
      cases b
      · simp [sel] at h
        obtain ⟨j, h1, h2⟩ := ih h
        exact ⟨j + 1, by simpa using h1, by simpa using h2⟩
      · simp [sel] at h
        rcases h with rfl | h
        · exact ⟨0, by simp, by simp⟩
        · obtain ⟨j, h1, h2⟩ := ih h
          exact ⟨j + 1, by simpa using h1, by simpa using h2⟩

theorem sel_sublist : ∀ (fs : List Bool) (xs : List α), (sel fs xs).Sublist xs := by
  intro fs
  induction fs with
  | nil => intro xs; cases xs <;> simp [sel]
  | cons b fs ih =>
    intro xs
    cases xs with
    | nil => cases b <;> simp [sel]
    | cons x xs =>
      cases b
      · simpa [sel] using (ih xs).cons x
      · simpa [sel] using (ih xs).cons_cons x

/-- Reading a renumbered subset of the variables from the selected vector. -/
theorem readAll_sel {fs : List Bool} {vs : List α} {f : Nat → Nat} (hl : fs.length = vs.length)
    (gs : List Bool) : ∀ (a : List Nat) (xs : List α), gs.length = a.length → readAll vs a = some xs →
    (∀ j v : Nat, gs[j]? = some true → a[j]? = some v → fs[v]? = some true ∧ f v = rank fs v) →
    readAll (sel fs vs) ((sel gs a).map f) = some (sel gs xs) := by
  induction gs with
  | nil => intro a xs h hr _; cases a with
    | nil => simp [readAll] at hr; subst hr; simp [sel, readAll]
    | cons => simp at h
  | cons g gs ih =>
    intro a xs h hr hf
    cases a with
    | nil => simp at h
    | cons v a =>
      simp only [readAll] at hr
      split at hr
      · rename_i x xs' h1 h2
        cases hr
        have ih := ih a xs' (by simpa using h) h2 (fun j w hj hw => hf (j + 1) w (by simpa using hj) (by simpa using hw))
        cases g
        · simpa [sel] using ih
        · obtain ⟨h3, h4⟩ := hf 0 v (by simp) (by simp)
          simp only [sel, List.map_cons, readAll, h4, sel_getElem hl h3, h1, ih]
      · cases hr

end Verif.IR
