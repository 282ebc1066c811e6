import Verif.Layered.Twins
import Mathlib.Data.List.Lex
import Mathlib.Data.List.Sort

/-!
# The order of gates

`dedup_gates` sorts the gates before it merges neighbours.  What matters about the order: gates that can be merged end up side by side.
-/

set_option linter.unusedSectionVars false
set_option linter.unusedSimpArgs false

namespace Verif.Layered

open Verif.IR (Coef)

variable {F : Type}

/-- The part of the order of gates (`Ord`, opt.rs:18-97, and the derived order of `Coef`, layered/mod.rs:18-23) that does not depend on field
elements: type, number of inputs, inputs (layer first), output, kind of the coefficient.  The lists `sort()` is called on hold gates of one kind. -/
def gateKey {F : Type} (g : Gate F) : List Nat :=
  (match g.typ with | none => 0 | some t => t + 1) :: g.inputs.length :: (g.inputs.flatMap fun i => [i.layer, i.offset]) ++
    [g.output, match g.coef with | .const _ => 0 | .random => 1 | .pub _ => 2]

/-- The function returns its list sorted. -/
def Sorts {F : Type} (srt : List (Gate F) → List (Gate F)) : Prop := ∀ l, (srt l).Perm l ∧ ((srt l).map gateKey).Pairwise (· ≤ ·)

theorem flat_inj : ∀ {a b : List Input} {x y : List Nat}, a.length = b.length → (a.flatMap fun i => [i.layer, i.offset]) ++ x = (b.flatMap fun i => [i.layer, i.offset]) ++ y → a = b ∧ x = y := by
  intro a
  induction a with
  | nil =>
    intro b x y h e
    cases b with
    | nil => exact ⟨rfl, by simpa using e⟩
    | cons _ _ => simp at h
  | cons i a ih =>
    intro b x y h e
    cases b with
    | nil => simp at h
    | cons j b =>
      simp only [List.flatMap_cons, List.cons_append, List.nil_append, List.cons.injEq] at e
      obtain ⟨e1, e2, e3⟩ := e
      obtain ⟨r1, r2⟩ := ih (by simpa using h) e3
      refine ⟨?_, r2⟩
      cases i; cases j
      simp_all

theorem gateKey_inj {g h : Gate F} (e : gateKey g = gateKey h) : g.typ = h.typ ∧ g.inputs = h.inputs ∧ g.output = h.output ∧
    ((∃ x, g.coef = .const x) → ∃ y, h.coef = .const y) := by
  simp only [gateKey, List.cons_append, List.cons.injEq] at e
  obtain ⟨e1, e2, e3⟩ := e
  obtain ⟨f1, f2⟩ := flat_inj e2 e3
  simp only [List.cons.injEq, and_true] at f2
  refine ⟨?_, f1, f2.1, ?_⟩
  · cases hg : g.typ <;> cases hh : h.typ <;> simp [hg, hh] at e1 ⊢
    exact e1
  · rintro ⟨x, hx⟩
    have := f2.2
    rw [hx] at this
    cases hc : h.coef with
    | const y => exact ⟨y, rfl⟩
    | random => rw [hc] at this; simp at this
    | pub _ => rw [hc] at this; simp at this

variable [CommRing F] [DecidableEq F]

theorem gateKey_of_merge {g h : Gate F} (e : canMerge g h = true) : gateKey g = gateKey h := by
  obtain ⟨h1, h2, h3, x, y, hx, hy⟩ := canMerge_iff.1 e
  simp only [gateKey, h1, h2, h3, hx, hy]

theorem grouped_of_sorted : ∀ {l : List (Gate F)}, (l.map gateKey).Pairwise (· ≤ ·) → Grouped l := by
  intro l
  induction l with
  | nil => intro _; trivial
  | cons g t ih =>
    intro h
    rw [List.map_cons, List.pairwise_cons] at h
    refine ⟨?_, ih h.2⟩
    rw [List.pairwise_iff_getElem]
    intro i j hi hj hij hm
    have hk := gateKey_of_merge hm
    have h1 := h.1 (gateKey t[i]) (List.mem_map.2 ⟨_, List.getElem_mem hi, rfl⟩)
    have h2 := List.pairwise_iff_getElem.1 h.2 i j (by simpa using hi) (by simpa using hj) hij
    simp only [List.getElem_map] at h2
    rw [← hk] at h2
    have e : gateKey g = gateKey t[i] := le_antisymm h1 h2
    obtain ⟨r1, r2, r3, r4⟩ := gateKey_inj e
    obtain ⟨_, _, _, x, _, hx, _⟩ := canMerge_iff.1 hm
    obtain ⟨y, hy⟩ := r4 ⟨x, hx⟩
    exact canMerge_iff.2 ⟨r1, r2, r3, x, y, hx, hy⟩

theorem Sorts.grouped {srt : List (Gate F) → List (Gate F)} (h : Sorts srt) : ∀ l, Grouped (srt l) := fun l => grouped_of_sorted (h l).2

/-- Such a function exists. -/
def sortGates {F : Type} (l : List (Gate F)) : List (Gate F) := l.insertionSort fun a b => gateKey a ≤ gateKey b

theorem sortGates_sorts {F : Type} : Sorts (sortGates (F := F)) := by
  intro l
  refine ⟨List.perm_insertionSort _ l, ?_⟩
  rw [List.pairwise_map]
  haveI : Std.Total fun a b : Gate F => gateKey a ≤ gateKey b := ⟨fun a b => le_total _ _⟩
  haveI : IsTrans (Gate F) fun a b => gateKey a ≤ gateKey b := ⟨fun a b c => le_trans⟩
  exact List.pairwise_insertionSort (fun a b : Gate F => gateKey a ≤ gateKey b) l

end Verif.Layered
