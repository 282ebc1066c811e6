import Verif.InputMapping

/-!
# Buffers filled according to an input mapping

`map_inputs` fills the positions that no input is sent to with a default value.  The witness of a compiled circuit fills them with the value of
the first variable instead (compile/mod.rs:371-377), so statements about compiled circuits speak of all buffers that hold the right values in
the other positions.
-/

namespace Verif.InputMapping

variable {α : Type}

/-- `ys` holds the values `xs` at the positions given by the mapping; the other positions are arbitrary. -/
structure Placed (m : InputMapping) (xs ys : List α) : Prop where
  cur : xs.length = m.curSize
  next : ys.length = m.nextSize
  val : ∀ i p : Nat, m.mapping[i]? = some (some p) → ys[p]? = xs[i]?

/-- Every position is filled. -/
def Surjective (m : InputMapping) : Prop := ∀ j, j < m.nextSize → ∃ i : Nat, m.mapping[i]? = some (some j)

/-- `map_inputs` places the values. -/
theorem mapInputs_placed {m : InputMapping} (hr : m.InRange) (hi : m.Injective) (d : α) {xs : List α} (hl : xs.length = m.curSize) :
    ∃ ys, m.mapInputs d xs = some ys ∧ m.Placed xs ys := by
  obtain ⟨ys, h1, h2, h3⟩ := mapInputs_spec m d xs hr hl
  refine ⟨ys, h1, hl, h2, ?_⟩
  intro i p hp
  have hlt : p < m.nextSize := hr p (List.mem_of_getElem? hp)
  have hil : i < xs.length := by rw [hl]; exact (List.getElem?_eq_some_iff.1 hp).1
  rw [h3 p hlt, List.getElem?_eq_getElem hil]
  exact congrArg some (valueAt_zip m.mapping xs i p _ d hp (List.getElem?_eq_getElem hil) fun i' hlt' h' => by
    have := hi i i' p hp h'; omega)

/-- If every position is filled, there is only one way to place the values. -/
theorem Placed.unique {m : InputMapping} (hs : m.Surjective) {xs ys ys' : List α} (h : m.Placed xs ys) (h' : m.Placed xs ys') : ys = ys' := by
  apply List.ext_getElem? 
  intro p
  by_cases hp : p < m.nextSize
  · obtain ⟨i, hi⟩ := hs p hp
    rw [h.val i p hi, h'.val i p hi]
  · rw [List.getElem?_eq_none (by rw [h.next]; omega), List.getElem?_eq_none (by rw [h'.next]; omega)]

theorem Placed.mapInputs {m : InputMapping} (hr : m.InRange) (hi : m.Injective) (hs : m.Surjective) (d : α) {xs ys : List α} (h : m.Placed xs ys) :
    m.mapInputs d xs = some ys := by
  obtain ⟨ys', h1, h2⟩ := mapInputs_placed hr hi d h.cur
  rw [h1, h2.unique hs h]

theorem placed_identity (xs : List α) : (identity xs.length).Placed xs xs := by
  refine ⟨by simp [identity, curSize], by simp [identity], ?_⟩
  intro i p h
  simp only [identity, List.getElem?_map] at h
  by_cases hi : i < xs.length
  · rw [List.getElem?_range hi] at h; cases h; rfl
  · rw [List.getElem?_eq_none (by simpa using hi)] at h; cases h

theorem identity_inRange (n : Nat) : (identity n).InRange := by
  intro j h
  simp only [identity, List.mem_map, List.mem_range] at h ⊢
  obtain ⟨a, h, e⟩ := h
  cases e; exact h

theorem identity_get {n i p : Nat} : (identity n).mapping[i]? = some (some p) ↔ i = p ∧ p < n := by
  simp only [identity, List.getElem?_map]
  by_cases hi : i < n
  · rw [List.getElem?_range hi]; simp; omega
  · rw [List.getElem?_eq_none (by simpa using hi)]; simp; omega

theorem identity_injective (n : Nat) : (identity n).Injective := by
  intro i1 i2 j h1 h2
  rw [identity_get] at h1 h2; omega

theorem identity_surjective (n : Nat) : (identity n).Surjective := fun j hj => ⟨j, identity_get.2 ⟨rfl, hj⟩⟩

/-- Entries of a composed mapping. -/
theorem compose_get {a b c : InputMapping} (hr : a.InRange) (hs : a.nextSize = b.curSize) (h : a.compose b = some c) {i k : Nat} :
    c.mapping[i]? = some (some k) ↔ ∃ j, a.mapping[i]? = some (some j) ∧ b.mapping[j]? = some (some k) := by
  obtain ⟨c', h', h1, h2, h3⟩ := compose_isSome a b hr hs
  rw [h] at h'; cases h'
  constructor
  · intro hi
    have hlt : i < a.mapping.length := by
      have := (List.getElem?_eq_some_iff.1 hi).1
      unfold curSize at h2; omega
    have ho := List.getElem?_eq_getElem hlt
    have := h3 i _ ho
    rw [hi] at this
    cases hq : a.mapping[i] with
    | none => rw [hq] at this; cases this
    | some j => rw [hq] at this ho; exact ⟨j, ho, this⟩
  · rintro ⟨j, h4, h5⟩
    rw [← h3 i _ h4]; exact h5

theorem Placed.compose {a b c : InputMapping} (hr : a.InRange) (hs : a.nextSize = b.curSize) (h : a.compose b = some c) {xs ys zs : List α}
    (h1 : a.Placed xs ys) (h2 : b.Placed ys zs) : c.Placed xs zs := by
  obtain ⟨c', h', e1, e2, _⟩ := compose_isSome a b hr hs
  rw [h] at h'; cases h'
  refine ⟨by rw [h1.cur, e2], by rw [h2.next, e1], ?_⟩
  intro i p hp
  obtain ⟨j, h3, h4⟩ := (compose_get hr hs h).1 hp
  rw [h2.val j p h4, h1.val i j h3]

/-- A buffer placed by a composed mapping was placed in two steps, if the first mapping fills every position. -/
theorem Placed.decompose {a b c : InputMapping} (hr : a.InRange) (ha : a.Injective) (hsj : a.Surjective) (hs : a.nextSize = b.curSize)
    (h : a.compose b = some c) (d : α) {xs zs : List α} (hp : c.Placed xs zs) : ∃ ys, a.mapInputs d xs = some ys ∧ a.Placed xs ys ∧ b.Placed ys zs := by
  obtain ⟨c', h', e1, e2, _⟩ := compose_isSome a b hr hs
  rw [h] at h'; cases h'
  obtain ⟨ys, h1, h2⟩ := mapInputs_placed hr ha d (xs := xs) (by rw [hp.cur, e2])
  refine ⟨ys, h1, h2, by rw [h2.next, hs], by rw [hp.next, e1], ?_⟩
  intro j p hj
  have hlt : j < a.nextSize := by rw [hs]; exact (List.getElem?_eq_some_iff.1 hj).1
  obtain ⟨i, hi⟩ := hsj j hlt
  rw [h2.val i j hi]
  exact hp.val i p ((compose_get hr hs h).2 ⟨j, hi, hj⟩)

theorem compose_surjective {a b c : InputMapping} (hr : a.InRange) (hs : a.nextSize = b.curSize) (h : a.compose b = some c)
    (ha : a.Surjective) (hb : b.Surjective) : c.Surjective := by
  obtain ⟨c', h', e1, e2, _⟩ := compose_isSome a b hr hs
  rw [h] at h'; cases h'
  intro k hk
  obtain ⟨j, hj⟩ := hb k (by rw [← e1]; exact hk)
  obtain ⟨i, hi⟩ := ha j (by rw [hs]; exact (List.getElem?_eq_some_iff.1 hj).1)
  exact ⟨i, (compose_get hr hs h).2 ⟨j, hi, hj⟩⟩

/-- Every buffer of the right size is placed from some values. -/
theorem exists_placed (m : InputMapping) (hr : m.InRange) (d : α) {ys : List α} (hl : ys.length = m.nextSize) : ∃ xs, m.Placed xs ys := by
  refine ⟨m.mapping.map fun o => match o with | some p => ys.getD p d | none => d, by simp [curSize], hl, ?_⟩
  intro i p hp
  rw [List.getElem?_map, hp, Option.map_some]
  have : p < ys.length := by rw [hl]; exact hr p (List.mem_of_getElem? hp)
  simp [this]

end Verif.InputMapping
