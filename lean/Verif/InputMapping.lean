import Verif.Base
import Mathlib.Data.List.Basic
import Mathlib.Data.List.Nodup

/-!
# `InputMapping` (expander_compiler/src/circuit/input_mapping.rs)

The sentinel `EMPTY = usize::MAX >> 9` is modelled by `none` (positions are always smaller than `EMPTY` because a circuit
with 2^55 inputs does not fit in memory); `Raw` below is the sentinel version and `Raw.toIM_*` relates the two.
-/

namespace Verif

/-- `struct InputMapping` (input_mapping.rs:5-9). -/
structure InputMapping where
  nextSize : Nat
  mapping : List (Option Nat)
  deriving DecidableEq

namespace InputMapping

/-- `new_identity` (input_mapping.rs:16-21). -/
def identity (n : Nat) : InputMapping := ⟨n, (List.range n).map some⟩

/-- `cur_size` (input_mapping.rs:23-25). -/
def curSize (m : InputMapping) : Nat := m.mapping.length

/-- The assignment loop of `map_inputs` (input_mapping.rs:38-42); `none` is the out-of-range panic. -/
def assign {α : Type} : List (Option Nat × α) → List α → Option (List α)
  | [], acc => some acc
  | (none, _) :: ps, acc => assign ps acc
  | (some j, x) :: ps, acc => if j < acc.length then assign ps (acc.set j x) else none

/-- `map_inputs` (input_mapping.rs:35-44); `d` is `T::default()`. -/
def mapInputs {α : Type} (m : InputMapping) (d : α) (xs : List α) : Option (List α) :=
  if xs.length = m.mapping.length then assign (m.mapping.zip xs) (List.replicate m.nextSize d) else none

/-- `validate` (input_mapping.rs:50-70): every target is in range, used at most once, and all targets are used. -/
def validate (m : InputMapping) : Bool :=
  let used := m.mapping.filterMap id
  used.all (fun j => decide (j < m.nextSize)) && decide used.Nodup && (List.range m.nextSize).all (fun j => used.contains j)

/-- One entry of `compose` (input_mapping.rs:74-80); outer `none` is the out-of-range panic. -/
def composeEntry (other : InputMapping) : Option Nat → Option (Option Nat)
  | none => some none
  | some j => other.mapping[j]?

/-- `compose` (input_mapping.rs:72-86). -/
def compose (m other : InputMapping) : Option InputMapping :=
  (mapOpt (composeEntry other) m.mapping).map (fun l => ⟨other.nextSize, l⟩)

/-- `compose_in_place` (input_mapping.rs:88-96): same loop, writing in place. -/
def composeInPlace (m other : InputMapping) : Option InputMapping := compose m other

/-- All targets are in range. -/
def InRange (m : InputMapping) : Prop := ∀ j, some j ∈ m.mapping → j < m.nextSize

/-- No two inputs go to the same position. -/
def Injective (m : InputMapping) : Prop := ∀ i1 i2 j : Nat, m.mapping[i1]? = some (some j) → m.mapping[i2]? = some (some j) → i1 = i2

/-! ### The value at a position after assignment -/

/-- Specification of `map_inputs` at one position: the last input sent to position `j`. -/
def valueAt {α : Type} : List (Option Nat × α) → Nat → α → α
  | [], _, d => d
  | (o, x) :: ps, j, d => valueAt ps j (if o = some j then x else d)

theorem assign_spec {α : Type} : ∀ (ps : List (Option Nat × α)) (acc : List α),
    (∀ p ∈ ps, ∀ j, p.1 = some j → j < acc.length) →
    ∃ r, assign ps acc = some r ∧ r.length = acc.length ∧
      ∀ j (h : j < acc.length), r[j]? = some (valueAt ps j acc[j]) := by
  intro ps
  induction ps with
  | nil => intro acc _; exact ⟨acc, rfl, rfl, fun j h => by simp [valueAt, h]⟩
  | cons p ps ih =>
    obtain ⟨o, x⟩ := p
    intro acc h
    cases o with
    | none =>
      obtain ⟨r, h1, h2, h3⟩ := ih acc (fun p hp => h p (List.mem_cons_of_mem _ hp))
      exact ⟨r, h1, h2, fun j hj => by simp [valueAt]; exact h3 j hj⟩
    | some k =>
      have hk : k < acc.length := h (some k, x) (by simp) k rfl
      obtain ⟨r, h1, h2, h3⟩ := ih (acc.set k x) (fun p hp j hj => by simpa using h p (List.mem_cons_of_mem _ hp) j hj)
      refine ⟨r, by simp [assign, hk, h1], by simpa using h2, fun j hj => ?_⟩
      rw [h3 j (by simpa using hj)]
      simp only [valueAt, List.getElem_set, Option.some.injEq]

theorem assign_none {α : Type} : ∀ (ps : List (Option Nat × α)) (acc : List α),
    (∃ p ∈ ps, ∃ j, p.1 = some j ∧ acc.length ≤ j) → assign ps acc = none := by
  intro ps
  induction ps with
  | nil => intro acc h; simp at h
  | cons p ps ih =>
    obtain ⟨o, x⟩ := p
    rintro acc ⟨q, hq, j, hj, hl⟩
    cases o with
    | none =>
      rcases List.mem_cons.1 hq with rfl | hq
      · cases hj
      · exact ih acc ⟨q, hq, j, hj, hl⟩
    | some k =>
      simp only [assign]
      split
      · rcases List.mem_cons.1 hq with rfl | hq
        · cases hj; omega
        · exact ih _ ⟨q, hq, j, hj, by simpa using hl⟩
      · rfl

theorem valueAt_none {α : Type} : ∀ (ps : List (Option Nat × α)) j d, (∀ p ∈ ps, p.1 ≠ some j) → valueAt ps j d = d := by
  intro ps
  induction ps with
  | nil => intro j d _; rfl
  | cons p ps ih =>
    intro j d h
    obtain ⟨o, x⟩ := p
    simp only [valueAt]
    rw [if_neg (h (o, x) (by simp)), ih j d (fun p hp => h p (List.mem_cons_of_mem _ hp))]

/-- With an injective mapping the value at the image of `i` is input `i`. -/
theorem valueAt_zip {α : Type} : ∀ (m : List (Option Nat)) (xs : List α) (i j : Nat) (x d : α),
    m[i]? = some (some j) → xs[i]? = some x → (∀ i', i < i' → m[i']? ≠ some (some j)) →
    valueAt (m.zip xs) j d = x := by
  intro m
  induction m with
  | nil => intro xs i j x d h; simp at h
  | cons o m ih =>
    intro xs i j x d hm hx hu
    cases xs with
    | nil => simp at hx
    | cons y xs =>
      simp only [List.zip_cons_cons, valueAt]
      cases i with
      | zero =>
        simp at hm hx
        subst hm; subst hx
        rw [if_pos rfl]
        apply valueAt_none
        intro p hp he
        have hz := (List.of_mem_zip (a := p.1) (b := p.2) hp).1
        rw [he] at hz
        obtain ⟨k, hk⟩ := List.mem_iff_getElem?.1 hz
        exact hu (k + 1) (by omega) (by simpa using hk)
      | succ i =>
        exact ih xs i j x _ (by simpa using hm) (by simpa using hx) (fun i' hi' h => hu (i' + 1) (by omega) (by simpa using h))

/-- `map_inputs` succeeds exactly on vectors of the right length when all targets are in range; position `j` of the
result holds the last input mapped to it, or the default. -/
theorem mapInputs_spec {α : Type} (m : InputMapping) (d : α) (xs : List α) (hr : m.InRange)
    (hl : xs.length = m.curSize) :
    ∃ r, m.mapInputs d xs = some r ∧ r.length = m.nextSize ∧
      ∀ j, j < m.nextSize → r[j]? = some (valueAt (m.mapping.zip xs) j d) := by
  unfold mapInputs curSize at *
  rw [if_pos hl]
  obtain ⟨r, h1, h2, h3⟩ := assign_spec (m.mapping.zip xs) (List.replicate m.nextSize d) (by
    intro p hp j hj
    have := (List.of_mem_zip (a := p.1) (b := p.2) hp).1
    rw [hj] at this
    simpa using hr j this)
  refine ⟨r, h1, by simpa using h2, fun j hj => ?_⟩
  rw [h3 j (by simpa using hj)]
  simp

/-- Composition is defined when the sizes fit. -/
theorem compose_isSome (a b : InputMapping) (hr : a.InRange) (hs : a.nextSize = b.curSize) :
    ∃ c, a.compose b = some c ∧ c.nextSize = b.nextSize ∧ c.curSize = a.curSize ∧
      ∀ (i : Nat) o, a.mapping[i]? = some o → composeEntry b o = c.mapping[i]? := by
  obtain ⟨l, hl⟩ := mapOpt_isSome (f := composeEntry b) (l := a.mapping) (by
    intro o ho
    cases o with
    | none => rfl
    | some j =>
      have := hr j ho
      rw [hs] at this
      simp only [composeEntry]
      rw [List.getElem?_eq_getElem this]; rfl)
  exact ⟨⟨b.nextSize, l⟩, by simp [compose, hl], rfl, mapOpt_length hl, fun i o ho => mapOpt_getElem? hl i o ho⟩

theorem compose_inRange {a b c : InputMapping} (hr : a.InRange) (hs : a.nextSize = b.curSize) (hb : b.InRange)
    (h : a.compose b = some c) : c.InRange := by
  obtain ⟨c', h', h1, h2, h3⟩ := compose_isSome a b hr hs
  rw [h] at h'; cases h'
  intro k hk
  obtain ⟨i, hi⟩ := List.mem_iff_getElem?.1 hk
  have hlt : i < a.mapping.length := by
    have := (List.getElem?_eq_some_iff.1 hi).1
    unfold curSize at h2; omega
  have := h3 i _ (List.getElem?_eq_getElem hlt)
  rw [hi] at this
  rw [h1]
  cases ha : a.mapping[i] with
  | none => simp [ha, composeEntry] at this
  | some j =>
    simp only [ha, composeEntry] at this
    exact hb k (List.mem_iff_getElem?.2 ⟨j, this⟩)

theorem compose_injective {a b c : InputMapping} (hr : a.InRange) (hs : a.nextSize = b.curSize)
    (ha : a.Injective) (hb : b.Injective) (h : a.compose b = some c) : c.Injective := by
  obtain ⟨c', h', h1, h2, h3⟩ := compose_isSome a b hr hs
  rw [h] at h'; cases h'
  have key : ∀ (i k : Nat), c.mapping[i]? = some (some k) → ∃ j, a.mapping[i]? = some (some j) ∧ b.mapping[j]? = some (some k) := by
    intro i k hi
    have hlt : i < a.mapping.length := by
      have := (List.getElem?_eq_some_iff.1 hi).1
      unfold curSize at h2; omega
    have := h3 i _ (List.getElem?_eq_getElem hlt)
    rw [hi] at this
    cases hx : a.mapping[i] with
    | none => simp [hx, composeEntry] at this
    | some j =>
      simp only [hx, composeEntry] at this
      exact ⟨j, by rw [List.getElem?_eq_getElem hlt, hx], this⟩
  intro i1 i2 k h1 h2
  obtain ⟨j1, e1, f1⟩ := key i1 k h1
  obtain ⟨j2, e2, f2⟩ := key i2 k h2
  have := hb j1 j2 k f1 f2
  subst this
  exact ha i1 i2 j1 e1 e2

theorem valueAt_congr {α : Type} : ∀ (ps qs : List (Option Nat × α)) j k d, ps.length = qs.length →
    (∀ (i : Nat) (p q : Option Nat × α), ps[i]? = some p → qs[i]? = some q → p.2 = q.2 ∧ (p.1 = some j ↔ q.1 = some k)) →
    valueAt ps j d = valueAt qs k d := by
  intro ps
  induction ps with
  | nil => intro qs j k d hl h; cases qs with
    | nil => rfl
    | cons => simp at hl
  | cons p ps ih =>
    intro qs j k d hl h
    cases qs with
    | nil => simp at hl
    | cons q qs =>
      obtain ⟨o, x⟩ := p
      obtain ⟨o', x'⟩ := q
      have h0 := h 0 (o, x) (o', x') rfl rfl
      simp only at h0
      obtain ⟨rfl, hiff⟩ := h0
      simp only [valueAt]
      rw [ih qs j k _ (by simpa using hl) (fun i p q hp hq => h (i + 1) p q (by simpa using hp) (by simpa using hq))]
      congr 1
      by_cases ho : o = some j
      · rw [if_pos ho, if_pos (hiff.1 ho)]
      · rw [if_neg ho, if_neg (fun h => ho (hiff.2 h))]

end InputMapping

/-! ### The sentinel representation used by the code -/

/-- `EMPTY = usize::MAX >> 9` (input_mapping.rs:3). -/
def EMPTY : Nat := (2 ^ 64 - 1) >>> 9

/-- `struct InputMapping` as stored (input_mapping.rs:5-9). -/
structure RawMapping where
  nextSize : Nat
  mapping : List Nat

namespace RawMapping

/-- Decode the sentinel. -/
def dec (m : Nat) : Option Nat := if m = EMPTY then none else some m

/-- The mapping with the sentinel decoded. -/
def toIM (m : RawMapping) : InputMapping := ⟨m.nextSize, m.mapping.map dec⟩

/-- `map_inputs` loop on raw entries (input_mapping.rs:38-42). -/
def assign {α : Type} : List (Nat × α) → List α → Option (List α)
  | [], acc => some acc
  | (m, x) :: ps, acc =>
    if m ≠ EMPTY then (if m < acc.length then assign ps (acc.set m x) else none) else assign ps acc

/-- `map_inputs` (input_mapping.rs:35-44). -/
def mapInputs {α : Type} (m : RawMapping) (d : α) (xs : List α) : Option (List α) :=
  if xs.length = m.mapping.length then assign (m.mapping.zip xs) (List.replicate m.nextSize d) else none

/-- `compose` (input_mapping.rs:72-86). -/
def compose (m other : RawMapping) : Option RawMapping :=
  (mapOpt (fun e => if e = EMPTY then some EMPTY else other.mapping[e]?) m.mapping).map (fun l => ⟨other.nextSize, l⟩)

/-- `new_identity` (input_mapping.rs:16-21). -/
def identity (n : Nat) : RawMapping := ⟨n, List.range n⟩

theorem assign_eq {α : Type} : ∀ (l : List Nat) (xs acc : List α),
    assign (l.zip xs) acc = InputMapping.assign ((l.map dec).zip xs) acc := by
  intro l
  induction l with
  | nil => intro xs acc; simp [assign, InputMapping.assign]
  | cons m l ih =>
    intro xs acc
    cases xs with
    | nil => simp [assign, InputMapping.assign]
    | cons x xs =>
      simp only [List.zip_cons_cons, List.map_cons, assign]
      by_cases h : m = EMPTY
      · simp [h, dec, InputMapping.assign, ih]
      · simp only [dec, h, if_false, InputMapping.assign, ne_eq, not_false_eq_true, if_true, ih]

theorem mapInputs_eq {α : Type} (m : RawMapping) (d : α) (xs : List α) : m.mapInputs d xs = m.toIM.mapInputs d xs := by
  simp only [mapInputs, InputMapping.mapInputs, toIM, List.length_map, assign_eq]

theorem compose_eq (m other : RawMapping) : (m.compose other).map toIM = m.toIM.compose other.toIM := by
  simp only [compose, InputMapping.compose, toIM, mapOpt_map]
  have : ∀ l, (mapOpt (fun e => if e = EMPTY then some EMPTY else other.mapping[e]?) l).map (List.map dec) =
      mapOpt (fun a => InputMapping.composeEntry ⟨other.nextSize, other.mapping.map dec⟩ (dec a)) l := by
    intro l
    induction l with
    | nil => rfl
    | cons a l ih =>
      simp only [mapOpt]
      rw [← ih]
      by_cases h : a = EMPTY
      · subst h
        simp only [if_true, dec, InputMapping.composeEntry]
        cases mapOpt (fun e => if e = EMPTY then some EMPTY else other.mapping[e]?) l <;> simp [dec]
      · simp only [if_neg h, dec, InputMapping.composeEntry, List.getElem?_map]
        cases other.mapping[a]? <;>
          cases mapOpt (fun e => if e = EMPTY then some EMPTY else other.mapping[e]?) l <;> simp
  rw [← this]
  cases mapOpt (fun e => if e = EMPTY then some EMPTY else other.mapping[e]?) m.mapping <;> simp [toIM]

theorem identity_eq (n : Nat) (h : n ≤ EMPTY) : (identity n).toIM = InputMapping.identity n := by
  simp only [identity, toIM, InputMapping.identity, InputMapping.mk.injEq, true_and]
  apply List.map_congr_left
  intro i hi
  have := List.mem_range.1 hi
  simp [dec]; omega

end RawMapping

end Verif
