import Verif.Layered.Validate

/-!
# `validate` does not panic on single-layer inputs, and what its initialisation check guarantees
-/

set_option linter.unusedSectionVars false
set_option linter.unusedSimpArgs false

namespace Verif.Layered

variable {F : Type}

theorem andThen_ne_none {a b : Chk} (ha : a ≠ none) (hb : a = some true → b ≠ none) : a.andThen b ≠ none := by
  unfold Chk.andThen
  split
  · exact hb rfl
  · exact ha

theorem chk_ne_none {b : Bool} : chk b ≠ none := by simp [chk]

theorem allChk_ne_none {α : Type} {f : α → Chk} : ∀ {l : List α}, (∀ a ∈ l, f a ≠ none) → allChk f l ≠ none := by
  intro l
  induction l with
  | nil => simp [allChk]
  | cons a l ih => intro h; exact andThen_ne_none (h a (by simp)) (fun _ => ih (fun b hb => h b (by simp [hb])))

/-- Every gate input names a layer its segment has. -/
def LayersExist (c : Circuit F) : Prop := ∀ s ∈ c.segments, ∀ g ∈ s.allGates, ∀ i ∈ g.inputs, i.layer < s.numInputs.length

theorem offsetsChk_ne_none : ∀ (xs ys zs : List Nat), offsetsChk xs ys zs ≠ none := by
  intro xs
  induction xs with
  | nil => intro ys zs; simp [offsetsChk]
  | cons x xs ih =>
    intro ys zs
    cases ys with
    | nil => simp [offsetsChk]
    | cons y ys =>
      cases zs with
      | nil => simp [offsetsChk]
      | cons z zs => exact andThen_ne_none chk_ne_none fun _ => andThen_ne_none chk_ne_none fun _ => ih _ _

theorem offsetChk_ne_none {s : Segment F} {i : Input} (h : i.layer < s.numInputs.length) : offsetChk s i ≠ none := by
  simp [offsetChk, List.getElem?_eq_getElem h]

theorem gateChk_ne_none {c : Circuit F} {s : Segment F} {g : Gate F} (h : ∀ i ∈ g.inputs, i.layer < s.numInputs.length) : gateChk c s g ≠ none :=
  andThen_ne_none (allChk_ne_none fun _ _ => chk_ne_none) fun _ =>
    andThen_ne_none (allChk_ne_none fun i hi => offsetChk_ne_none (h i hi)) fun _ => chk_ne_none

theorem customChk_ne_none {c : Circuit F} {s : Segment F} {g : Gate F} (h : ∀ i ∈ g.inputs, i.layer < s.numInputs.length) : customChk c s g ≠ none :=
  andThen_ne_none (allChk_ne_none fun i hi => andThen_ne_none chk_ne_none fun _ => offsetChk_ne_none (h i hi)) fun _ => chk_ne_none

theorem segChk_ne_none {c : Circuit F} {s : Segment F} {i : Nat} (hs : c.segments[i]? = some s) (h : LayersExist c) : segChk c (s, i) ≠ none := by
  have hmem : s ∈ c.segments := List.mem_of_getElem? hs
  have hg : ∀ g ∈ s.allGates, ∀ i ∈ g.inputs, i.layer < s.numInputs.length := fun g hg i hi => h s hmem g hg i hi
  simp only [Segment.allGates, List.mem_append] at hg
  refine andThen_ne_none (allChk_ne_none fun _ _ => chk_ne_none) fun _ => andThen_ne_none chk_ne_none fun _ => andThen_ne_none chk_ne_none fun _ =>
    andThen_ne_none (allChk_ne_none fun g hm => gateChk_ne_none (hg g (by tauto))) fun _ =>
    andThen_ne_none (allChk_ne_none fun g hm => gateChk_ne_none (hg g (by tauto))) fun _ =>
    andThen_ne_none (allChk_ne_none fun g hm => gateChk_ne_none (hg g (by tauto))) fun _ =>
    andThen_ne_none (allChk_ne_none fun g hm => customChk_ne_none (hg g (by tauto))) fun _ => allChk_ne_none fun ch hch => ?_
  refine andThen_ne_none chk_ne_none fun hlt => ?_
  have hi : i < c.segments.length := (List.getElem?_eq_some_iff.1 hs).1
  have hlt' : ch.1 < i := by simpa using hlt
  rw [List.getElem?_eq_getElem (by omega : ch.1 < c.segments.length)]
  exact andThen_ne_none chk_ne_none fun _ => allChk_ne_none fun a _ =>
    andThen_ne_none chk_ne_none fun _ => andThen_ne_none (offsetsChk_ne_none _ _ _) fun _ => andThen_ne_none chk_ne_none fun _ => chk_ne_none

/-- `validate` returns `Ok` or `Err` as soon as every gate input names a layer its segment has. -/
theorem validate_ne_none {c : Circuit F} (h : LayersExist c) : c.validate ≠ none := by
  refine andThen_ne_none (allChk_ne_none ?_) fun hsegs => andThen_ne_none (allChk_ne_none fun _ _ => chk_ne_none) fun hids =>
    andThen_ne_none chk_ne_none fun hne => ?_
  · rintro ⟨s, i⟩ hm
    exact segChk_ne_none (by rw [List.mem_zipIdx_iff_getElem?] at hm; simpa using hm) h
  · rw [allChk_ok] at hsegs hids
    have hids' : ∀ id ∈ c.layerIds, id < c.segments.length := fun id hm => by simpa using hids id hm
    have hni : ∀ (i : Nat) s, c.segments[i]? = some s → s.numInputs.length ≠ 0 := by
      intro i s hs
      have := hsegs (s, i) (mem_zipIdx_of_getElem? hs)
      simp only [segChk, andThen_ok] at this
      simpa using this.2.1
    obtain ⟨n, hn⟩ : ∃ n, c.inputSize = some n := by
      unfold Circuit.inputSize
      cases hl : c.layerIds with
      | nil => simp [hl] at hne
      | cons x xs =>
        have hx : x < c.segments.length := hids' x (by rw [hl]; simp)
        have h1 := hni x _ (List.getElem?_eq_getElem hx)
        cases hi : (c.segments[x]).numInputs with
        | nil => simp [hi] at h1
        | cons y ys => exact ⟨y, by simp [List.getElem?_eq_getElem hx, hi]⟩
    obtain ⟨r, hr⟩ := mapOpt_isSome (f := fun id => (c.segments[id]?).map Segment.numOutputs) (l := c.layerIds)
      (fun id hm => by simp [List.getElem?_eq_getElem (hids' id hm)])
    have hrl := mapOpt_length hr
    have hsz : layerSizes c = some (n :: r) := by simp [layerSizes, hn, hr]
    rw [hsz]
    refine andThen_ne_none (allChk_ne_none ?_) fun _ => chk_ne_none
    rintro ⟨id, i⟩ hm
    rw [List.mem_zipIdx_iff_getElem?] at hm
    have hm' : c.layerIds[i]? = some id := by simpa using hm
    have hil := (List.getElem?_eq_some_iff.1 hm').1
    simp only [layerShapeChk, List.getElem?_eq_getElem (hids' id (List.mem_of_getElem? hm'))]
    refine andThen_ne_none chk_ne_none fun hle => allChk_ne_none ?_
    rintro ⟨x, j⟩ _
    have hlt : i - j < (n :: r).length := by simp [hrl]; omega
    simp [List.getElem?_eq_getElem hlt]

/-! ## The initialisation check -/

/-- Segment `i` reads position `j` of its input layer `l`. -/
inductive Reads (segs : List (Segment F)) : Nat → Nat → Nat → Prop
  | gate {i s g inp} : segs[i]? = some s → g ∈ s.allGates → inp ∈ g.inputs → Reads segs i inp.layer inp.offset
  | child {i s ch a sub l j off len} : segs[i]? = some s → ch ∈ s.childSegs → a ∈ ch.2 → segs[ch.1]? = some sub →
      a.inputOffset[l]? = some off → sub.numInputs[l]? = some len → j < len → Reads segs ch.1 l j → Reads segs i l (off + j)

/-- Some gate of segment `i` (or of a child) adds to output `j`. -/
inductive Writes (segs : List (Segment F)) : Nat → Nat → Prop
  | gate {i s g} : segs[i]? = some s → g ∈ s.allGates → Writes segs i g.output
  | child {i s ch a sub j} : segs[i]? = some s → ch ∈ s.childSegs → a ∈ ch.2 → segs[ch.1]? = some sub → j < sub.numOutputs →
      Writes segs ch.1 j → Writes segs i (a.outputOffset + j)

/-- The table built so far. -/
def maskTab (all : List (Segment F)) (segs : List (Segment F)) : List Mask := segs.foldl (fun tab s => tab ++ [maskOf all tab s]) []

theorem maskTab_snoc (all segs : List (Segment F)) (s : Segment F) :
    maskTab all (segs ++ [s]) = maskTab all segs ++ [maskOf all (maskTab all segs) s] := by simp [maskTab]

theorem maskTab_length (all : List (Segment F)) : ∀ segs : List (Segment F), (maskTab all segs).length = segs.length := by
  intro segs
  induction segs using List.reverseRecOn with
  | nil => rfl
  | append_singleton l s ih => rw [maskTab_snoc]; simp [ih]

theorem maskTab_get (all : List (Segment F)) : ∀ (segs : List (Segment F)) (i : Nat) s, segs[i]? = some s →
    (maskTab all segs)[i]? = some (maskOf all (maskTab all (segs.take i)) s) := by
  intro segs
  induction segs using List.reverseRecOn with
  | nil => intro i s h; simp at h
  | append_singleton l x ih =>
    intro i s h
    rw [maskTab_snoc]
    by_cases hi : i < l.length
    · rw [List.getElem?_append_left hi] at h
      rw [List.getElem?_append_left (by rw [maskTab_length]; exact hi), ih i s h, List.take_append_of_le_length (by omega)]
    · have hil : i = l.length := by
        have := (List.getElem?_eq_some_iff.1 h).1
        simp at this; omega
      subst hil
      rw [List.getElem?_append_right (by omega)] at h
      simp at h; subst h
      rw [List.getElem?_append_right (by rw [maskTab_length])]
      simp [maskTab_length]

theorem maskTab_prefix (all : List (Segment F)) (segs : List (Segment F)) (i k : Nat) (hk : k < i) (hi : i ≤ segs.length) :
    (maskTab all (segs.take i))[k]? = (maskTab all segs)[k]? := by
  have hk' : k < segs.length := by omega
  rw [maskTab_get all segs k _ (List.getElem?_eq_getElem hk')]
  have : (segs.take i)[k]? = some segs[k] := by rw [List.getElem?_take, if_pos hk, List.getElem?_eq_getElem hk']
  rw [maskTab_get all _ k _ this, List.take_take]
  congr 4
  omega

/-- The computed masks say exactly which wires a segment reads and writes. -/
theorem masks_spec {segs : List (Segment F)} (hseg : ∀ (i : Nat) s, segs[i]? = some s → SegOk segs i s) :
    ∀ (i : Nat) m, (masks segs)[i]? = some m → (∀ l j, m.reads l j = true ↔ Reads segs i l j) ∧ (∀ j, m.writes j = true ↔ Writes segs i j) := by
  intro i
  induction i using Nat.strong_induction_on with
  | _ i ih =>
    intro m hm
    have hil : i < segs.length := by
      have := (List.getElem?_eq_some_iff.1 hm).1
      rwa [show masks segs = maskTab segs segs from rfl, maskTab_length] at this
    have hs := List.getElem?_eq_getElem hil
    generalize segs[i] = s at hs
    rw [show masks segs = maskTab segs segs from rfl, maskTab_get segs segs i s hs] at hm
    cases hm
    have hok := hseg i s hs
    have htab : ∀ ch ∈ s.childSegs, (maskTab segs (segs.take i))[ch.1]? = (masks segs)[ch.1]? := fun ch hch =>
      maskTab_prefix segs segs i ch.1 (hok.child ch hch).1 (by omega)
    have hsome : ∀ ch ∈ s.childSegs, ∃ m, (masks segs)[ch.1]? = some m := by
      intro ch hch
      obtain ⟨h1, sub, h2, -⟩ := hok.child ch hch
      exact ⟨_, maskTab_get segs segs ch.1 sub h2⟩
    constructor
    · intro l j
      simp only [maskOf, Bool.or_eq_true, List.any_eq_true, Segment.anyChild, Bool.and_eq_true, beq_iff_eq]
      constructor
      · rintro (⟨g, hg, inp, hin, rfl, rfl⟩ | ⟨ch, hch, h⟩)
        · exact .gate hs hg hin
        · obtain ⟨h1, sub, h2, -⟩ := hok.child ch hch
          obtain ⟨m, hm⟩ := hsome ch hch
          rw [htab ch hch, h2, hm] at h
          simp only [List.any_eq_true] at h
          obtain ⟨a, ha, hr⟩ := h
          simp only [allocReads] at hr
          split at hr
          · rename_i off len ho hl
            simp only [Bool.and_eq_true, decide_eq_true_eq] at hr
            have := (ih ch.1 h1 m hm).1 l (j - off)
            have he : j = off + (j - off) := by omega
            rw [he]
            exact .child hs hch ha h2 ho hl (by omega) (this.1 hr.2)
          · cases hr
      · intro h
        cases h with
        | gate h1 h2 h3 => rw [hs] at h1; cases h1; exact Or.inl ⟨_, h2, _, h3, rfl, rfl⟩
        | child h1 h2 h3 h4 h5 h6 h7 h8 =>
          rename_i s' ch a sub j off len
          rw [hs] at h1; cases h1
          right
          refine ⟨ch, h2, ?_⟩
          obtain ⟨m, hm⟩ := hsome ch h2
          rw [htab ch h2, h4, hm]
          simp only [List.any_eq_true]
          refine ⟨a, h3, ?_⟩
          simp only [allocReads, h5, h6, Bool.and_eq_true, decide_eq_true_eq]
          have := ((ih ch.1 (hok.child ch h2).1 m hm).1 l j).2 h8
          exact ⟨by omega, by rw [Nat.add_sub_cancel_left]; exact this⟩
    · intro j
      simp only [maskOf, Bool.or_eq_true, List.any_eq_true, Segment.anyChild, Bool.and_eq_true, beq_iff_eq]
      constructor
      · rintro (⟨g, hg, rfl⟩ | ⟨ch, hch, h⟩)
        · exact .gate hs hg
        · obtain ⟨h1, sub, h2, -⟩ := hok.child ch hch
          obtain ⟨m, hm⟩ := hsome ch hch
          rw [htab ch hch, h2, hm] at h
          simp only [List.any_eq_true] at h
          obtain ⟨a, ha, hr⟩ := h
          simp only [allocWrites, Bool.and_eq_true, decide_eq_true_eq] at hr
          have := (ih ch.1 h1 m hm).2 (j - a.outputOffset)
          have he : j = a.outputOffset + (j - a.outputOffset) := by omega
          rw [he]
          exact .child hs hch ha h2 (by omega) (this.1 hr.2)
      · intro h
        cases h with
        | gate h1 h2 => rw [hs] at h1; cases h1; exact Or.inl ⟨_, h2, rfl⟩
        | child h1 h2 h3 h4 h5 h6 =>
          rename_i s' ch a sub j
          rw [hs] at h1; cases h1
          right
          refine ⟨ch, h2, ?_⟩
          obtain ⟨m, hm⟩ := hsome ch h2
          rw [htab ch h2, h4, hm]
          simp only [List.any_eq_true]
          refine ⟨a, h3, ?_⟩
          simp only [allocWrites, Bool.and_eq_true, decide_eq_true_eq]
          have := ((ih ch.1 (hok.child ch h2).1 m hm).2 j).2 h6
          exact ⟨by omega, by rw [Nat.add_sub_cancel_left]; exact this⟩

/-- In an accepted circuit every wire a layer reads (other than a circuit input) has been written by the layer it comes from. -/
theorem validate_init {c : Circuit F} (h : c.validate = some true) (i id l j n : Nat) (s : Segment F) (hi : c.layerIds[i]? = some id)
    (hs : c.segments[id]? = some s) (hn : s.numInputs[l]? = some n) (hl : l < i) (hj : j < n) (hr : Reads c.segments id l j) :
    ∃ k, c.layerIds[i - 1 - l]? = some k ∧ Writes c.segments k j := by
  have hok := validate_ok h
  simp only [Circuit.validate, andThen_ok, allChk_ok] at h
  obtain ⟨_, _, _, hrest⟩ := h
  cases hsz : layerSizes c with
  | none => rw [hsz] at hrest; cases hrest
  | some sizes =>
    rw [hsz] at hrest
    simp only [andThen_ok, chk_ok, List.all_eq_true] at hrest
    have h1 := hrest.2 (id, i) (mem_zipIdx_of_getElem? hi)
    simp only [Bool.or_eq_true, beq_iff_eq, hs, List.all_eq_true] at h1
    rcases h1 with h1 | h1
    · omega
    · have h2 := h1 (n, l) (mem_zipIdx_of_getElem? hn)
      simp only [initChk, Bool.or_eq_true, beq_iff_eq, List.all_eq_true, List.mem_range] at h2
      rcases h2 with h2 | h2
      · omega
      · have h3 := h2 j hj
        have hidl := (List.getElem?_eq_some_iff.1 hi).1
        have hk : c.layerIds[i - 1 - l]? = some c.layerIds[i - 1 - l] := List.getElem?_eq_getElem (by omega)
        generalize c.layerIds[i - 1 - l] = k at hk
        have hkl : k < c.segments.length := hok.layers k (List.mem_of_getElem? hk)
        have hm := maskTab_get c.segments c.segments id s hs
        have hm' := maskTab_get c.segments c.segments k _ (List.getElem?_eq_getElem hkl)
        generalize maskOf c.segments (maskTab c.segments (c.segments.take id)) s = m at hm
        generalize maskOf c.segments (maskTab c.segments (c.segments.take k)) c.segments[k] = m' at hm'
        change (masks c.segments)[id]? = some m at hm
        change (masks c.segments)[k]? = some m' at hm'
        rw [hm, hk] at h3
        simp only [Option.bind_some, hm', Bool.or_eq_true, Bool.not_eq_true'] at h3
        refine ⟨k, hk, ?_⟩
        rcases h3 with h3 | h3
        · have := ((masks_spec hok.seg id m hm).1 l j).2 hr
          rw [h3] at this; cases this
        · exact ((masks_spec hok.seg k m' hm').2 j).1 h3

end Verif.Layered
