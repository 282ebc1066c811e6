import Verif.InputMapping

/-!
# C21: input mappings compose

`map_inputs`, `compose`, `new_identity` of `InputMapping`.  Failure (`none`) is the Rust panic.
-/

namespace Verif.Props

open InputMapping

/-- What `map_inputs` does, stated per position: on a vector of the right length it succeeds; an injective mapping puts
input `i` at position `mapping[i]`, and positions that no input goes to hold the default. -/
theorem C21_mapInputs {α : Type} (m : InputMapping) (d : α) (xs : List α) (hr : m.InRange) (hi : m.Injective)
    (hl : xs.length = m.curSize) :
    ∃ r, m.mapInputs d xs = some r ∧ r.length = m.nextSize ∧
      (∀ i j : Nat, m.mapping[i]? = some (some j) → r[j]? = xs[i]?) ∧
      (∀ j, j < m.nextSize → some j ∉ m.mapping → r[j]? = some d) := by
  obtain ⟨r, h1, h2, h3⟩ := mapInputs_spec m d xs hr hl
  refine ⟨r, h1, h2, ?_, ?_⟩
  · intro i j hj
    have hjr := hr j (List.mem_iff_getElem?.2 ⟨i, hj⟩)
    have hlt : i < xs.length := by
      have := (List.getElem?_eq_some_iff.1 hj).1
      unfold curSize at hl; omega
    rw [h3 j hjr, List.getElem?_eq_getElem hlt]
    congr 1
    exact valueAt_zip _ _ i j _ d hj (List.getElem?_eq_getElem hlt)
      (fun i' hi' h => by have := hi i i' j hj h; omega)
  · intro j hj hn
    rw [h3 j hj]
    congr 1
    apply valueAt_none
    intro p hp he
    have := (List.of_mem_zip (a := p.1) (b := p.2) hp).1
    rw [he] at this
    exact hn this

/-- The mapping rejects (panics on) input vectors of the wrong length. -/
theorem C21_wrong_length {α : Type} (m : InputMapping) (d : α) (xs : List α) (hl : xs.length ≠ m.curSize) :
    m.mapInputs d xs = none := by
  unfold mapInputs; unfold curSize at hl; rw [if_neg hl]

/-- Mapping through a composed mapping equals mapping through both in turn. -/
theorem C21_compose {α : Type} (a b : InputMapping) (d : α) (xs : List α) (ha : a.InRange) (hb : b.InRange)
    (hbi : b.Injective) (hs : a.nextSize = b.curSize) (hl : xs.length = a.curSize) :
    ∃ c ys zs, a.compose b = some c ∧ a.mapInputs d xs = some ys ∧ b.mapInputs d ys = some zs ∧
      c.mapInputs d xs = some zs := by
  obtain ⟨c, hc, hc1, hc2, hc3⟩ := compose_isSome a b ha hs
  obtain ⟨ys, hy1, hy2, hy3⟩ := mapInputs_spec a d xs ha hl
  obtain ⟨zs, hz1, hz2, hz3⟩ := mapInputs_spec b d ys hb (by omega)
  obtain ⟨ws, hw1, hw2, hw3⟩ := mapInputs_spec c d xs (compose_inRange ha hs hb hc) (by omega)
  refine ⟨c, ys, zs, hc, hy1, hz1, ?_⟩
  rw [hw1]
  congr 1
  apply List.ext_getElem?
  intro k
  by_cases hk : k < b.nextSize
  swap
  · rw [List.getElem?_eq_none (by omega), List.getElem?_eq_none (by omega)]
  rw [hw3 k (by omega), hz3 k hk]
  congr 1
  have hca : c.mapping.length = a.mapping.length := hc2
  by_cases hex : ∃ j : Nat, b.mapping[j]? = some (some k)
  · obtain ⟨j, hj⟩ := hex
    have hjb : j < a.nextSize := by
      have := (List.getElem?_eq_some_iff.1 hj).1
      unfold curSize at hs; omega
    rw [valueAt_zip b.mapping ys j k _ d hj (hy3 j hjb) (fun i' hi' h => by have := hbi j i' k hj h; omega)]
    apply valueAt_congr
    · simp [hca]
    · intro i p q hp hq
      rw [List.getElem?_zip_eq_some] at hp hq
      have e := hc3 i _ hq.1
      rw [hp.1] at e
      refine ⟨by have := hp.2.symm.trans hq.2; simpa using this, ?_⟩
      cases hq1 : q.1 with
      | none => simp [hq1, composeEntry] at e; simp [← e]
      | some l =>
        rw [hq1] at e
        simp only [composeEntry] at e
        constructor
        · intro hpk
          rw [hpk] at e
          have := hbi l j k e hj
          rw [this]
        · intro hlj
          cases hlj
          rw [hj] at e
          simpa using e.symm
  · have h1 : ∀ p ∈ b.mapping.zip ys, p.1 ≠ some k := by
      intro p hp he
      have := (List.of_mem_zip (a := p.1) (b := p.2) hp).1
      rw [he] at this
      obtain ⟨j, hj⟩ := List.mem_iff_getElem?.1 this
      exact hex ⟨j, hj⟩
    rw [valueAt_none _ _ _ h1]
    apply valueAt_none
    intro p hp he
    have := (List.of_mem_zip (a := p.1) (b := p.2) hp).1
    rw [he] at this
    obtain ⟨i, hi⟩ := List.mem_iff_getElem?.1 this
    have hlt : i < a.mapping.length := by
      have := (List.getElem?_eq_some_iff.1 hi).1; omega
    have e := hc3 i _ (List.getElem?_eq_getElem hlt)
    rw [hi] at e
    cases hx : a.mapping[i] with
    | none => simp [hx, composeEntry] at e
    | some l =>
      simp only [hx, composeEntry] at e
      exact hex ⟨l, e⟩

/-- Non-vacuity: a mapping that drops input 1 followed by one that swaps. -/
example : ∃ a b : InputMapping, a.InRange ∧ b.InRange ∧ b.Injective ∧ a.nextSize = b.curSize ∧
    a.mapping = [some 0, none, some 1] ∧ b.mapping = [some 1, some 0] := by
  refine ⟨⟨2, [some 0, none, some 1]⟩, ⟨2, [some 1, some 0]⟩, ?_, ?_, ?_, rfl, rfl, rfl⟩
  · intro j hj; simp at hj; rcases hj with rfl | rfl <;> simp
  · intro j hj; simp at hj; rcases hj with rfl | rfl <;> simp
  · intro i1 i2 j h1 h2
    match i1, i2 with
    | 0, 0 => rfl
    | 1, 1 => rfl
    | 0, 1 => simp at h1 h2; omega
    | 1, 0 => simp at h1 h2; omega
    | n + 2, _ => simp at h1
    | 0, n + 2 => simp at h2
    | 1, n + 2 => simp at h2

/-- Without injectivity of the second mapping the law fails (the code never builds such mappings): test case. -/
example : let a : InputMapping := ⟨2, [some 1, some 0]⟩; let b : InputMapping := ⟨1, [some 0, some 0]⟩
    ((a.compose b).bind (fun c => c.mapInputs 0 [7, 8])) ≠ ((a.mapInputs 0 [7, 8]).bind (fun ys => b.mapInputs 0 ys)) := by
  decide

/-- The identity mapping does nothing. -/
theorem C21_identity {α : Type} (d : α) (xs : List α) : (identity xs.length).mapInputs d xs = some xs := by
  have hg : ∀ i j : Nat, (identity xs.length).mapping[i]? = some (some j) ↔ i = j ∧ i < xs.length := by
    intro i j
    rw [show (identity xs.length).mapping = (List.range xs.length).map some from rfl, List.getElem?_map]
    by_cases h : i < xs.length
    · rw [List.getElem?_range h]; simp [h]
    · rw [List.getElem?_eq_none (by simpa using h)]; simp [h]
  obtain ⟨r, h1, h2, h3, _⟩ := C21_mapInputs (identity xs.length) d xs
    (by intro j hj; obtain ⟨i, hi⟩ := List.mem_iff_getElem?.1 hj; have := (hg i j).1 hi; simp [identity]; omega)
    (by intro i1 i2 j e1 e2; have := (hg i1 j).1 e1; have := (hg i2 j).1 e2; omega)
    (by simp [identity, curSize])
  rw [h1]
  congr 1
  apply List.ext_getElem?
  intro i
  by_cases hi : i < xs.length
  · exact h3 i i ((hg i i).2 ⟨rfl, hi⟩)
  · rw [List.getElem?_eq_none (by rw [h2]; simp [identity]; omega), List.getElem?_eq_none (by omega)]

/-- The identity is neutral for composition, on both sides. -/
theorem C21_compose_identity (m : InputMapping) (hr : m.InRange) :
    m.compose (identity m.nextSize) = some m ∧ (identity m.curSize).compose m = some m := by
  constructor
  · unfold compose
    have : mapOpt (composeEntry (identity m.nextSize)) m.mapping = mapOpt (fun o => some o) m.mapping := by
      apply mapOpt_congr
      intro o ho
      cases o with
      | none => rfl
      | some j =>
        have := hr j ho
        simp [composeEntry, identity, List.getElem?_range this]
    rw [this, mapOpt_some (g := fun o => o)]
    simp [identity]
  · unfold compose
    have h : ∃ r, mapOpt (composeEntry m) (identity m.curSize).mapping = some r := by
      apply mapOpt_isSome
      intro o ho
      simp [identity] at ho
      obtain ⟨j, hj, rfl⟩ := ho
      unfold curSize at hj
      simp [composeEntry, List.getElem?_eq_getElem hj]
    obtain ⟨r, hr'⟩ := h
    rw [hr']
    have hl := mapOpt_length hr'
    have : r = m.mapping := by
      apply List.ext_getElem?
      intro i
      by_cases hi : i < m.curSize
      · have := mapOpt_getElem? hr' i (some i) (by simp [identity, List.getElem?_range hi])
        rw [← this]; rfl
      · simp [identity] at hl
        rw [List.getElem?_eq_none (by omega), List.getElem?_eq_none (by unfold curSize at hi; omega)]
    simp [this]

/-- Composition is associative. -/
theorem C21_compose_assoc (a b c : InputMapping) (ha : a.InRange) (hb : b.InRange)
    (h1 : a.nextSize = b.curSize) (h2 : b.nextSize = c.curSize) :
    (a.compose b).bind (fun m => m.compose c) = (b.compose c).bind (fun m => a.compose m) := by
  obtain ⟨ab, hab, p1, p2, p3⟩ := compose_isSome a b ha h1
  obtain ⟨bc, hbc, q1, q2, q3⟩ := compose_isSome b c hb h2
  have habr := compose_inRange ha h1 hb hab
  obtain ⟨l, hl, l1, l2, l3⟩ := compose_isSome ab c habr (by omega)
  obtain ⟨r, hr, r1, r2, r3⟩ := compose_isSome a bc ha (by omega)
  rw [hab, hbc]
  simp only [Option.bind_some, hl, hr, Option.some.injEq]
  have e : l.mapping = r.mapping := by
    apply List.ext_getElem?
    intro i
    by_cases hi : i < a.mapping.length
    · have e1 := p3 i _ (List.getElem?_eq_getElem hi)
      have hi2 : i < ab.mapping.length := by unfold curSize at p2; omega
      have e2 := l3 i _ (List.getElem?_eq_getElem hi2)
      have e3 := r3 i _ (List.getElem?_eq_getElem hi)
      rw [← e2, ← e3]
      rw [List.getElem?_eq_getElem hi2] at e1
      cases hx : a.mapping[i] with
      | none => rw [hx] at e1; simp only [composeEntry, Option.some.injEq] at e1; rw [← e1]; rfl
      | some j =>
        rw [hx] at e1
        simp only [composeEntry] at e1 ⊢
        exact q3 j _ e1
    · unfold curSize at p2 l2 r2
      rw [List.getElem?_eq_none (by omega), List.getElem?_eq_none (by omega)]
  cases l; cases r
  simp_all

/-- A dropped input stays dropped under composition. -/
theorem C21_empty_stays (a b c : InputMapping) (h : a.compose b = some c) (i : Nat) (hi : a.mapping[i]? = some none) :
    c.mapping[i]? = some none := by
  unfold compose at h
  cases hm : mapOpt (composeEntry b) a.mapping with
  | none => simp [hm] at h
  | some l =>
    simp [hm] at h
    subst h
    exact (mapOpt_getElem? hm i none hi).symm

/-- The stored (sentinel) representation behaves like the decoded one: no operation confuses a position with `EMPTY`. -/
theorem C21_sentinel {α : Type} (a b : RawMapping) (d : α) (xs : List α) :
    a.mapInputs d xs = a.toIM.mapInputs d xs ∧ (a.compose b).map RawMapping.toIM = a.toIM.compose b.toIM ∧
    ∀ n, n ≤ EMPTY → (RawMapping.identity n).toIM = InputMapping.identity n :=
  ⟨RawMapping.mapInputs_eq a d xs, RawMapping.compose_eq a b, RawMapping.identity_eq⟩

/-- `validate()` accepts exactly the mappings whose non-dropped entries are a bijection onto the positions. -/
theorem C21_validate (m : InputMapping) : m.validate = true ↔
    m.InRange ∧ (m.mapping.filterMap id).Nodup ∧ ∀ j, j < m.nextSize → some j ∈ m.mapping := by
  simp only [validate, Bool.and_eq_true, List.all_eq_true, decide_eq_true_eq, List.contains_iff_mem,
    List.mem_filterMap, id, List.mem_range, InRange]
  constructor
  · rintro ⟨⟨h1, h2⟩, h3⟩
    refine ⟨fun j hj => h1 j ⟨_, hj, rfl⟩, h2, fun j hj => ?_⟩
    obtain ⟨o, ho, he⟩ := h3 j hj
    rw [← he]; exact ho
  · rintro ⟨h1, h2, h3⟩
    refine ⟨⟨?_, h2⟩, fun j hj => ⟨_, h3 j hj, rfl⟩⟩
    rintro j ⟨o, ho, he⟩
    exact h1 j (he ▸ ho)

end Verif.Props
