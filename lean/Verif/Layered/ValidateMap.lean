import Verif.Layered.ValidateIff
import Verif.Layered.Opt

/-!
# `dedup_gates` and `sort_everything` keep a circuit valid
-/

set_option linter.unusedSectionVars false
set_option linter.unusedSimpArgs false

namespace Verif.Layered

variable {F : Type}

/-- `segChk`, with the four kinds of gates together. -/
theorem segChk_iff {c : Circuit F} {s : Segment F} {i : Nat} : segChk c (s, i) = some true ↔
    (∀ x ∈ s.numInputs, isPow2 x = true) ∧ s.numInputs ≠ [] ∧ isPow2 s.numOutputs = true ∧
    (∀ g ∈ s.allGates, (∀ inp ∈ g.inputs, inp.layer < c.layerIds.length) ∧ g.Ok s) ∧ ∀ ch ∈ s.childSegs, childChk c i s ch = some true := by
  simp only [segChk, andThen_ok, allChk_ok, chk_ok, gateChk_ok, customChk_ok, Segment.allGates, List.mem_append, decide_eq_true_eq, ne_eq, List.length_eq_zero_iff]
  constructor
  · rintro ⟨h1, h2, h3, h4, h5, h6, h7, h8⟩
    refine ⟨h1, h2, h3, ?_, h8⟩
    rintro g (((h | h) | h) | h)
    · exact h4 g h
    · exact h5 g h
    · exact h6 g h
    · exact h7 g h
  · rintro ⟨h1, h2, h3, h4, h5⟩
    exact ⟨h1, h2, h3, fun g h => h4 g (by tauto), fun g h => h4 g (by tauto), fun g h => h4 g (by tauto), fun g h => h4 g (by tauto), h5⟩

/-- A change of the segments that keeps what `validate` looks at. -/
structure Keeps (φ : Segment F → Segment F) : Prop where
  ni : ∀ s, (φ s).numInputs = s.numInputs
  no : ∀ s, (φ s).numOutputs = s.numOutputs
  ch : ∀ s ch, ch ∈ (φ s).childSegs ↔ ch ∈ s.childSegs
  back : ∀ s, ∀ g ∈ (φ s).allGates, (∃ g0 ∈ s.allGates, g.output = g0.output) ∧ ∀ inp ∈ g.inputs, ∃ g1 ∈ s.allGates, inp ∈ g1.inputs
  fwd : ∀ s, ∀ g ∈ s.allGates, g.output < s.numOutputs → ∃ g0 ∈ (φ s).allGates, g0.output = g.output

theorem Keeps.reads {φ : Segment F → Segment F} (hφ : Keeps φ) {segs : List (Segment F)} {i l j : Nat} (h : Reads (segs.map φ) i l j) : Reads segs i l j := by
  induction h with
  | gate h1 h2 h3 =>
    rw [List.getElem?_map] at h1
    obtain ⟨s, hs, rfl⟩ := Option.map_eq_some_iff.1 h1
    obtain ⟨g1, h4, h5⟩ := (hφ.back s _ h2).2 _ h3
    exact .gate hs h4 h5
  | child h1 h2 h3 h4 h5 h6 h7 _ ih =>
    rw [List.getElem?_map] at h1 h4
    obtain ⟨s, hs, rfl⟩ := Option.map_eq_some_iff.1 h1
    obtain ⟨s', hs', rfl⟩ := Option.map_eq_some_iff.1 h4
    rw [hφ.ni] at h6
    exact .child hs ((hφ.ch s _).1 h2) h3 hs' h5 h6 h7 ih

theorem Keeps.writes {φ : Segment F → Segment F} (hφ : Keeps φ) {segs : List (Segment F)} (hok : ∀ (i : Nat) s, segs[i]? = some s → SegOk segs i s) {i j : Nat}
    (h : Writes segs i j) : Writes (segs.map φ) i j := by
  induction h with
  | gate h1 h2 =>
    obtain ⟨g0, h4, h5⟩ := hφ.fwd _ _ h2 ((hok _ _ h1).gates _ h2).2
    rw [← h5]
    exact .gate (by rw [List.getElem?_map, h1]; rfl) h4
  | @child i s ch a sub j h1 h2 h3 h4 h5 _ ih =>
    exact .child (s := φ s) (sub := φ sub) (by rw [List.getElem?_map, h1]; rfl) ((hφ.ch s _).2 h2) h3 (by rw [List.getElem?_map, h4]; rfl) (by rw [hφ.no]; exact h5) ih

theorem Keeps.valid {φ : Segment F → Segment F} (hφ : Keeps φ) {c c' : Circuit F} (h : c.validate = some true) (hs : c'.segments = c.segments.map φ) (hl : c'.layerIds = c.layerIds) :
    c'.validate = some true := by
  have hok := validate_ok h
  have hin : c'.inputSize = c.inputSize := by
    unfold Circuit.inputSize
    rw [hl, hs]
    cases c.layerIds.head? with
    | none => rfl
    | some id =>
      simp only [Option.bind_some, List.getElem?_map]
      cases c.segments[id]? with
      | none => rfl
      | some s => simp [hφ.ni]
  have hinit := fun i id l j n s => validate_init h i id l j n s
  simp only [Circuit.validate, andThen_ok, allChk_ok] at h
  obtain ⟨h1, _, h3, _⟩ := h
  refine validate_intro ?_ ?_ ?_ ?_ ?_ ?_
  · intro i s' hs'
    rw [hs, List.getElem?_map] at hs'
    obtain ⟨s, hs0, rfl⟩ := Option.map_eq_some_iff.1 hs'
    obtain ⟨a1, a2, a3, a4, a5⟩ := segChk_iff.1 (h1 (s, i) (mem_zipIdx_of_getElem? hs0))
    refine segChk_iff.2 ⟨by rw [hφ.ni]; exact a1, by rw [hφ.ni]; exact a2, by rw [hφ.no]; exact a3, ?_, ?_⟩
    · intro g hg
      obtain ⟨⟨g0, b1, b2⟩, b3⟩ := hφ.back s g hg
      refine ⟨?_, ?_, ?_⟩
      · intro inp hi
        obtain ⟨g1, c1, c2⟩ := b3 inp hi
        rw [hl]; exact (a4 g1 c1).1 inp c2
      · intro inp hi
        obtain ⟨g1, c1, c2⟩ := b3 inp hi
        rw [hφ.ni]; exact (a4 g1 c1).2.1 inp c2
      · rw [b2, hφ.no]; exact (a4 g0 b1).2.2
    · intro ch hch
      have := a5 ch ((hφ.ch s ch).1 hch)
      simp only [childChk, andThen_ok] at this ⊢
      refine ⟨this.1, ?_⟩
      have h2 := this.2
      rw [hs, List.getElem?_map]
      cases hsub : c.segments[ch.1]? with
      | none => rw [hsub] at h2; cases h2
      | some sub =>
        rw [hsub] at h2
        rw [Option.map_some]
        simp only [andThen_ok, allChk_ok, allocChk, hφ.ni, hφ.no] at h2 ⊢
        exact h2
  · intro id hm
    rw [hs, List.length_map]
    rw [hl] at hm
    exact hok.layers id hm
  · rw [hl]; simpa using h3
  · rw [hin]; exact hok.input
  · intro i id s' hi hs'
    rw [hl] at hi
    rw [hs, List.getElem?_map] at hs'
    obtain ⟨s, hs0, rfl⟩ := Option.map_eq_some_iff.1 hs'
    obtain ⟨b1, b2⟩ := hok.shape i id s hi hs0
    rw [hφ.ni]
    refine ⟨b1, ?_⟩
    intro j x hx
    rcases b2 j x hx with ⟨c1, c2⟩ | ⟨c1, k, s', c2, c3, c4⟩
    · exact .inl ⟨c1, by rw [hin]; exact c2⟩
    · exact .inr ⟨c1, k, φ s', by rw [hl]; exact c2, by rw [hs, List.getElem?_map, c3]; rfl, by rw [hφ.no]; exact c4⟩
  · intro i id l j n k s' hi hs' hn hli hj hr hk
    rw [hl] at hi hk
    rw [hs, List.getElem?_map] at hs'
    obtain ⟨s, hs0, rfl⟩ := Option.map_eq_some_iff.1 hs'
    rw [hφ.ni] at hn
    rw [hs] at hr ⊢
    obtain ⟨k', d1, d2⟩ := hinit i id l j n s hi hs0 hn hli hj (hφ.reads hr)
    rw [hk] at d1; cases d1
    exact hφ.writes hok.seg d2

variable [CommRing F] [DecidableEq F]

theorem keeps_dedup {srt : List (Gate F) → List (Gate F)} (hs : ∀ l, (srt l).Perm l) : Keeps (Segment.dedup srt) where
  ni := fun _ => rfl
  no := fun _ => rfl
  ch := fun _ _ => Iff.rfl
  back := by
    intro s g hm
    have lift : ∀ {trim : Bool} {gs : List (Gate F)}, (∀ x ∈ gs, x ∈ s.allGates) → g ∈ dedupGates srt trim gs →
        (∃ g0 ∈ s.allGates, g.output = g0.output) ∧ ∀ inp ∈ g.inputs, ∃ g1 ∈ s.allGates, inp ∈ g1.inputs := by
      intro trim gs hsub hx
      obtain ⟨y, hy, _, h2, h3⟩ := mem_dedupGates hs hx
      exact ⟨⟨y, hsub y hy, h3⟩, fun inp hi => ⟨y, hsub y hy, by rw [← h2]; exact hi⟩⟩
    simp only [Segment.allGates, Segment.dedup, List.mem_append] at hm
    rcases hm with ((hm | hm) | hm) | hm
    · exact lift (fun x hx => by simp [Segment.allGates, hx]) hm
    · exact lift (fun x hx => by simp [Segment.allGates, hx]) hm
    · rw [(hs _).mem_iff, List.mem_append] at hm
      rcases hm with hm | hm
      · exact lift (fun x hx => by simp [Segment.allGates, hx]) hm
      · obtain ⟨i, hi, rfl⟩ := List.mem_map.1 hm
        simp only [lostOutputs, List.mem_filter, Bool.and_eq_true, List.any_eq_true, beq_iff_eq] at hi
        obtain ⟨_, ⟨y, hy, rfl⟩, _⟩ := hi
        exact ⟨⟨y, hy, rfl⟩, fun inp hi => by cases hi⟩
    · exact lift (fun x hx => by simp [Segment.allGates, hx]) hm
  fwd := by
    intro s g hg hlt
    by_cases hex : ∃ g0 ∈ dedupGates srt true s.gateMuls ++ dedupGates srt true s.gateAdds ++ dedupGates srt false s.gateConsts ++ dedupGates srt true s.gateCustoms, g0.output = g.output
    · obtain ⟨g0, h1, h2⟩ := hex
      refine ⟨g0, ?_, h2⟩
      simp only [Segment.allGates, Segment.dedup, List.mem_append, (hs _).mem_iff] at h1 ⊢
      tauto
    · refine ⟨⟨none, [], g.output, .const 0⟩, ?_, rfl⟩
      simp only [Segment.allGates, Segment.dedup, List.mem_append, (hs _).mem_iff]
      refine .inl (.inr (.inr (List.mem_map.2 ⟨g.output, ?_, rfl⟩)))
      simp only [lostOutputs, List.mem_filter, List.mem_range, Bool.and_eq_true, List.any_eq_true, beq_iff_eq, Bool.not_eq_true', List.any_eq_false]
      refine ⟨hlt, ⟨g, hg, rfl⟩, fun x hx hxe => hex ⟨x, hx, ?_⟩⟩
      simpa using hxe

theorem keeps_sortAll {srt : List (Gate F) → List (Gate F)} {srtC : List (Nat × List Alloc) → List (Nat × List Alloc)} (hs : ∀ l, (srt l).Perm l) (hsC : ∀ l, (srtC l).Perm l) :
    Keeps (Segment.sortAll (F := F) srt srtC) where
  ni := fun _ => rfl
  no := fun _ => rfl
  ch := fun s _ => (hsC s.childSegs).mem_iff
  back := by
    intro s g hm
    have : g ∈ s.allGates := by
      simpa only [Segment.allGates, Segment.sortAll, List.mem_append, (hs _).mem_iff] using hm
    exact ⟨⟨g, this, rfl⟩, fun inp hi => ⟨g, this, hi⟩⟩
  fwd := by
    intro s g hm _
    exact ⟨g, by simpa only [Segment.allGates, Segment.sortAll, List.mem_append, (hs _).mem_iff] using hm, rfl⟩

theorem dedup_valid {srt : List (Gate F) → List (Gate F)} (hs : ∀ l, (srt l).Perm l) {c : Circuit F} (h : c.validate = some true) : (c.dedup srt).validate = some true :=
  (keeps_dedup hs).valid h rfl rfl

theorem sortAll_valid {srt : List (Gate F) → List (Gate F)} {srtC : List (Nat × List Alloc) → List (Nat × List Alloc)} (hs : ∀ l, (srt l).Perm l) (hsC : ∀ l, (srtC l).Perm l)
    {c : Circuit F} (h : c.validate = some true) : (c.sortAll srt srtC).validate = some true :=
  (keeps_sortAll hs hsC).valid h rfl rfl

end Verif.Layered
