import Verif.Base
import Mathlib.Data.List.Basic
import Mathlib.Data.List.Count
import Mathlib.Order.Defs.PartialOrder
import Mathlib.Algebra.Order.Ring.Nat

/-!
# Union-find (utils/union_find.rs:1-24)

`parent` is the list of parents.  `none` stands for an index out of bounds (a panic) or for a loop that does not end within
`parent.len() + 1` rounds; `find_spec` shows neither happens on a forest.
-/

set_option linter.unusedSectionVars false
set_option linter.unusedSimpArgs false

namespace Verif.UnionFind

/-- `UnionFind::new` (union_find.rs:6-9). -/
def new (n : Nat) : List Nat := List.range n

/-- The loop of `find` with path halving (union_find.rs:11-17). -/
def findLoop : Nat → List Nat → Nat → Option (Nat × List Nat)
  | 0, _, _ => none
  | f + 1, p, x =>
    match p[x]? with
    | none => none
    | some y =>
      if y = x then some (x, p)
      else
        match p[y]? with
        | none => none
        | some z => findLoop f (p.set x z) z

/-- `UnionFind::find` (union_find.rs:11-17): the representative and the new parents. -/
def find (p : List Nat) (x : Nat) : Option (Nat × List Nat) := findLoop (p.length + 1) p x

/-- `UnionFind::union` (union_find.rs:19-23). -/
def union (p : List Nat) (x y : Nat) : Option (List Nat) :=
  match find p x with
  | none => none
  | some (x, p) =>
    match find p y with
    | none => none
    | some (y, p) => some (p.set x y)

/-- `p` is a forest on `0..n` whose representatives are given by `r`. -/
structure Forest (p : List Nat) (n : Nat) (r rank : Nat → Nat) : Prop where
  len : p.length = n
  lt : ∀ x y : Nat, p[x]? = some y → y < n
  up : ∀ x y : Nat, p[x]? = some y → y ≠ x → rank x < rank y
  root : ∀ x y : Nat, p[x]? = some y → r y = r x
  fix : ∀ x : Nat, p[x]? = some x → r x = x

/-- Number of elements of larger rank. -/
def above (n : Nat) (rank : Nat → Nat) (x : Nat) : Nat := (List.range n).countP fun y => decide (rank x < rank y)

theorem above_lt {n : Nat} {rank : Nat → Nat} {x z : Nat} (hz : z < n) (h : rank x < rank z) : above n rank z < above n rank x := by
  unfold above
  have hmem : z ∈ List.range n := List.mem_range.2 hz
  revert hmem
  generalize List.range n = l
  intro hmem
  induction l with
  | nil => simp at hmem
  | cons a l ih =>
    have mono : l.countP (fun y => decide (rank z < rank y)) ≤ l.countP (fun y => decide (rank x < rank y)) :=
      List.countP_mono_left fun y _ hy => by simp only [decide_eq_true_eq] at hy ⊢; omega
    rcases List.mem_cons.1 hmem with rfl | hm
    · simp [List.countP_cons, h]; omega
    · have := ih hm
      simp only [List.countP_cons, decide_eq_true_eq]
      by_cases h1 : rank z < rank a
      · have : rank x < rank a := by omega
        simp [h1, this]; omega
      · simp [h1]
        split <;> omega

theorem above_le (n : Nat) (rank : Nat → Nat) (x : Nat) : above n rank x ≤ n := by
  unfold above
  simpa using (List.countP_le_length (p := fun y => decide (rank x < rank y)) (l := List.range n))

theorem Forest.halve {p : List Nat} {n : Nat} {r rank : Nat → Nat} (h : Forest p n r rank) {x y z : Nat} (hx : p[x]? = some y) (hne : y ≠ x)
    (hy : p[y]? = some z) : Forest (p.set x z) n r rank ∧ rank x < rank z ∧ r z = r x := by
  have h1 := h.up x y hx hne
  have h2 : rank x < rank z := by
    by_cases e : z = y
    · rw [e]; exact h1
    · exact lt_trans h1 (h.up y z hy e)
  have h3 : r z = r x := by rw [h.root y z hy, h.root x y hx]
  have key : ∀ a b : Nat, (p.set x z)[a]? = some b → (a = x ∧ b = z) ∨ p[a]? = some b := by
    intro a b hab
    rw [List.getElem?_set] at hab
    split at hab
    · rename_i e
      split at hab
      · left; exact ⟨e.symm, by cases hab; rfl⟩
      · cases hab
    · right; exact hab
  refine ⟨⟨by simp [h.len], ?_, ?_, ?_, ?_⟩, h2, h3⟩
  · intro a b hab
    rcases key a b hab with ⟨rfl, rfl⟩ | h'
    · exact h.lt _ _ hy
    · exact h.lt a b h'
  · intro a b hab hb
    rcases key a b hab with ⟨rfl, rfl⟩ | h'
    · exact h2
    · exact h.up a b h' hb
  · intro a b hab
    rcases key a b hab with ⟨rfl, rfl⟩ | h'
    · exact h3
    · exact h.root a b h'
  · intro a hab
    rcases key a a hab with ⟨rfl, rfl⟩ | h'
    · exact absurd h2 (lt_irrefl _)
    · exact h.fix a h'

theorem findLoop_spec {n : Nat} {r rank : Nat → Nat} : ∀ (f : Nat) (p : List Nat) (x : Nat), Forest p n r rank → x < n → above n rank x < f →
    ∃ p', findLoop f p x = some (r x, p') ∧ Forest p' n r rank ∧ r x < n ∧ p'[r x]? = some (r x) ∧ ∀ y : Nat, p[y]? = some y → p'[y]? = some y := by
  intro f
  induction f with
  | zero => intro p x _ _ h; omega
  | succ f ih =>
    intro p x hp hx hf
    have hl : x < p.length := by rw [hp.len]; exact hx
    have e1 := List.getElem?_eq_getElem hl
    generalize p[x] = y at e1
    simp only [findLoop, e1]
    by_cases hyx : y = x
    · subst hyx
      have := hp.fix y e1
      exact ⟨p, by simp [this], hp, by rw [this]; exact hx, by rw [this]; exact e1, fun _ h => h⟩
    · rw [if_neg hyx]
      have hy : y < p.length := by rw [hp.len]; exact hp.lt x y e1
      have e2 := List.getElem?_eq_getElem hy
      generalize p[y] = z at e2
      simp only [e2]
      obtain ⟨g1, g2, g3⟩ := hp.halve e1 hyx e2
      have hz := hp.lt y z e2
      obtain ⟨p', h1, h2, h3, h4, h5⟩ := ih (p.set x z) z g1 hz (by have := above_lt hz g2; omega)
      rw [g3] at h1 h3 h4
      refine ⟨p', h1, h2, h3, h4, ?_⟩
      intro w hw
      apply h5
      rw [List.getElem?_set]
      split
      · rename_i e; subst e; rw [e1] at hw; exact absurd (Option.some.inj hw) hyx
      · exact hw

/-- `find` returns the representative, keeps the partition, and always ends. -/
theorem find_spec {p : List Nat} {n : Nat} {r rank : Nat → Nat} (hp : Forest p n r rank) {x : Nat} (hx : x < n) :
    ∃ p', find p x = some (r x, p') ∧ Forest p' n r rank ∧ r x < n ∧ p'[r x]? = some (r x) ∧ ∀ y : Nat, p[y]? = some y → p'[y]? = some y :=
  findLoop_spec _ p x hp hx (by have := above_le n rank x; rw [hp.len]; omega)

theorem new_forest (n : Nat) : Forest (new n) n id id := by
  have key : ∀ x y : Nat, (new n)[x]? = some y → y = x ∧ x < n := by
    intro x y h
    simp only [new, List.getElem?_range', List.getElem?_eq_some_iff, List.length_range, List.getElem_range] at h
    obtain ⟨h1, h2⟩ := h
    exact ⟨h2.symm, h1⟩
  refine ⟨by simp [new], ?_, ?_, ?_, ?_⟩
  · intro x y h; obtain ⟨rfl, h⟩ := key x y h; exact h
  · intro x y h hne; exact absurd (key x y h).1 hne
  · intro x y h; rw [(key x y h).1]
  · intro x _; rfl

/-- Representatives after joining the classes of `x` and `y`. -/
def join (r : Nat → Nat) (x y : Nat) : Nat → Nat := fun z => if r z = r x then r y else r z

theorem root_of_root {p : List Nat} {n : Nat} {r rank : Nat → Nat} (hp : Forest p n r rank) {x : Nat} (hx : x < n) : r (r x) = r x := by
  obtain ⟨p', _, h2, _, h4, _⟩ := find_spec hp hx
  exact h2.fix _ h4

/-- `union` joins the two classes and no others; the representative of the joint class is the one of `y`. -/
theorem union_spec {p : List Nat} {n : Nat} {r rank : Nat → Nat} (hp : Forest p n r rank) {x y : Nat} (hx : x < n) (hy : y < n) :
    ∃ p' rank', union p x y = some p' ∧ Forest p' n (join r x y) rank' := by
  obtain ⟨p1, h1, hp1, hrx, hfx, _⟩ := find_spec hp hx
  obtain ⟨p2, h2, hp2, hry, hfy, hkeep⟩ := find_spec hp1 hy
  have hfx2 := hkeep _ hfx
  have hxx : r (r x) = r x := hp2.fix _ hfx2
  have hyy : r (r y) = r y := hp2.fix _ hfy
  have key : ∀ a b : Nat, (p2.set (r x) (r y))[a]? = some b → (a = r x ∧ b = r y) ∨ (a ≠ r x ∧ p2[a]? = some b) := by
    intro a b hab
    rw [List.getElem?_set] at hab
    split at hab
    · rename_i e
      split at hab
      · left; exact ⟨e.symm, by cases hab; rfl⟩
      · cases hab
    · rename_i e; right; exact ⟨fun h => e h.symm, hab⟩
  refine ⟨p2.set (r x) (r y), if r x = r y then rank else fun z => rank z + (if r z = r x then 0 else rank (r x) + 1), ?_, ?_⟩
  · unfold union; rw [h1]; simp only; rw [h2]
  refine ⟨by simp [hp2.len], ?_, ?_, ?_, ?_⟩
  · intro a b hab
    rcases key a b hab with ⟨_, rfl⟩ | ⟨_, h⟩
    · exact hry
    · exact hp2.lt a b h
  · intro a b hab hne
    rcases key a b hab with ⟨rfl, rfl⟩ | ⟨_, h⟩
    · rw [if_neg (fun e => hne e.symm)]
      have : ¬ r (r y) = r x := by rw [hyy]; exact hne
      simp only [hxx, if_true, this, if_false]
      omega
    · have h3 := hp2.up a b h hne
      split
      · exact h3
      · simp only
        rw [hp2.root a b h]
        omega
  · intro a b hab
    simp only [join]
    rcases key a b hab with ⟨rfl, rfl⟩ | ⟨_, h⟩
    · rw [hxx, hyy]; simp
    · rw [hp2.root a b h]
  · intro a hab
    simp only [join]
    rcases key a a hab with ⟨h4, h5⟩ | ⟨hna, h⟩
    · have hra : r a = r x := by rw [h4]; exact hxx
      rw [if_pos hra]; exact h5.symm
    · have := hp2.fix a h
      rw [this, if_neg hna]

end Verif.UnionFind
