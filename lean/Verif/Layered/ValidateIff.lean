import Verif.Layered.Masks

/-!
# What `validate` requires, as a condition that is also sufficient
-/

set_option linter.unusedSectionVars false
set_option linter.unusedSimpArgs false

namespace Verif.Layered

variable {F : Type}

/-- `validate` accepts if the segments, the layer ids and the layer sizes pass, and every wire read from an earlier layer (other than an
input) is written there. -/
theorem validate_intro {c : Circuit F} (hseg : ∀ (i : Nat) s, c.segments[i]? = some s → segChk c (s, i) = some true)
    (hid : ∀ id ∈ c.layerIds, id < c.segments.length) (hne : c.layerIds ≠ []) (hin : c.inputSize.isSome)
    (hshape : ∀ (i id : Nat) s, c.layerIds[i]? = some id → c.segments[id]? = some s → s.numInputs.length ≤ i + 1 ∧
      ∀ (j x : Nat), s.numInputs[j]? = some x →
        (j = i ∧ c.inputSize = some x) ∨ (j < i ∧ ∃ (k : Nat) (s' : Segment F), c.layerIds[i - 1 - j]? = some k ∧ c.segments[k]? = some s' ∧ s'.numOutputs = x))
    (hinit : ∀ (i id l j n k : Nat) (s : Segment F), c.layerIds[i]? = some id → c.segments[id]? = some s → s.numInputs[l]? = some n → l < i → j < n →
      Reads c.segments id l j → c.layerIds[i - 1 - l]? = some k → Writes c.segments k j) : c.validate = some true := by
  have hok : ∀ (i : Nat) s, c.segments[i]? = some s → SegOk c.segments i s := fun i s h => segChk_ok (hseg i s h)
  obtain ⟨n, hn⟩ := Option.isSome_iff_exists.1 hin
  obtain ⟨r, hr⟩ := mapOpt_isSome (f := fun id => (c.segments[id]?).map Segment.numOutputs) (l := c.layerIds) (by
    intro id hm
    rw [Option.isSome_map, List.getElem?_eq_getElem (hid id hm)]; rfl)
  have hsz : layerSizes c = some (n :: r) := by unfold layerSizes; rw [hn, hr]
  simp only [Circuit.validate, andThen_ok, allChk_ok]
  refine ⟨?_, fun id hm => by simpa using hid id hm, by simpa using hne, ?_⟩
  · rintro ⟨s, i⟩ hm
    rw [List.mem_zipIdx_iff_getElem?] at hm
    exact hseg i s (by simpa using hm)
  rw [hsz]
  simp only [andThen_ok, allChk_ok, chk_ok, List.all_eq_true]
  constructor
  · rintro ⟨id, i⟩ hm
    rw [List.mem_zipIdx_iff_getElem?] at hm
    have hi : c.layerIds[i]? = some id := by simpa using hm
    have hs := List.getElem?_eq_getElem (hid id (List.mem_of_getElem? hi))
    generalize c.segments[id]'(hid id (List.mem_of_getElem? hi)) = s at hs
    obtain ⟨h1, h2⟩ := hshape i id s hi hs
    simp only [layerShapeChk, hs, andThen_ok, allChk_ok]
    refine ⟨by simpa using h1, ?_⟩
    rintro ⟨x, j⟩ hx
    rw [List.mem_zipIdx_iff_getElem?] at hx
    have hx' : s.numInputs[j]? = some x := by simpa using hx
    rcases h2 j x hx' with ⟨rfl, h3⟩ | ⟨hji, k, s', hk, hs', h3⟩
    · rw [hn] at h3; cases h3; simp
    · dsimp only
      have he : i - j = (i - 1 - j) + 1 := by omega
      have hv := mapOpt_getElem? hr _ _ hk
      rw [hs'] at hv
      simp only [Option.map_some] at hv
      rw [he, List.getElem?_cons_succ, ← hv, Option.map_some]
      simp [h3]
  · rintro ⟨id, i⟩ hm
    rw [List.mem_zipIdx_iff_getElem?] at hm
    have hi : c.layerIds[i]? = some id := by simpa using hm
    have hs := List.getElem?_eq_getElem (hid id (List.mem_of_getElem? hi))
    generalize c.segments[id]'(hid id (List.mem_of_getElem? hi)) = s at hs
    simp only [Bool.or_eq_true, beq_iff_eq, hs, List.all_eq_true]
    by_cases h0 : i = 0
    · exact .inl h0
    right
    rintro ⟨n', l⟩ hx
    rw [List.mem_zipIdx_iff_getElem?] at hx
    have hx' : s.numInputs[l]? = some n' := by simpa using hx
    simp only [initChk, Bool.or_eq_true, beq_iff_eq, List.all_eq_true, List.mem_range]
    by_cases hl : i = l
    · exact .inl hl
    right
    intro j hj
    have hle := (hshape i id s hi hs).1
    have hll := (List.getElem?_eq_some_iff.1 hx').1
    have hidl := (List.getElem?_eq_some_iff.1 hi).1
    have hk : c.layerIds[i - 1 - l]? = some c.layerIds[i - 1 - l] := List.getElem?_eq_getElem (by omega)
    generalize c.layerIds[i - 1 - l] = k at hk
    have hkl : k < c.segments.length := hid k (List.mem_of_getElem? hk)
    have hm := maskTab_get c.segments c.segments id s hs
    have hm' := maskTab_get c.segments c.segments k _ (List.getElem?_eq_getElem hkl)
    generalize maskOf c.segments (maskTab c.segments (c.segments.take id)) s = m at hm
    generalize maskOf c.segments (maskTab c.segments (c.segments.take k)) c.segments[k] = m' at hm'
    change (masks c.segments)[id]? = some m at hm
    change (masks c.segments)[k]? = some m' at hm'
    rw [hm, hk]
    simp only [Option.bind_some, hm', Bool.or_eq_true, Bool.not_eq_true']
    cases hr : m.reads l j with
    | false => exact .inl rfl
    | true =>
      right
      have := ((masks_spec hok id m hm).1 l j).1 hr
      exact ((masks_spec hok k m' hm').2 j).2 (hinit i id l j n' k s hi hs hx' (by omega) hj this hk)

end Verif.Layered
