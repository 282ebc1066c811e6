import Verif.Layered.ValidateMap
import Verif.Layered.PubCommon
import Verif.Layering.ValidSeg

/-!
# `expand_small_segments` and `find_common_parts` keep a circuit valid
-/

set_option linter.unusedSectionVars false
set_option linter.unusedSimpArgs false

namespace Verif.Layered

variable {F : Type}

/-- The segment calls segment `id` at `a`. -/
def Segment.Has (s : Segment F) (id : Nat) (a : Alloc) : Prop := ∃ ch ∈ s.childSegs, ch.1 = id ∧ a ∈ ch.2

/-- The offsets of the allocation are multiples of the sizes of `sub`. -/
def AllocAligned (sub : Segment F) (a : Alloc) : Prop :=
  (∀ l x y : Nat, a.inputOffset[l]? = some x → sub.numInputs[l]? = some y → x % y = 0) ∧ a.outputOffset % sub.numOutputs = 0

/-- All children of the segments are aligned. -/
def SegsAligned (segs : List (Segment F)) : Prop :=
  ∀ s ∈ segs, ∀ id a, s.Has id a → ∀ sub, segs[id]? = some sub → AllocAligned sub a

/-- All gates of the segments read existing layers. -/
def LayersBelow (n : Nat) (segs : List (Segment F)) : Prop := ∀ s ∈ segs, ∀ g ∈ s.allGates, ∀ inp ∈ g.inputs, inp.layer < n

theorem pow2_isPow2 {x : Nat} (h : ∃ k, x = 2 ^ k) : isPow2 x = true := by
  obtain ⟨k, rfl⟩ := h
  exact Layering.isPow2_pow k

theorem offsetsChk_intro : ∀ (xs ys zs : List Nat), (∀ l x y : Nat, xs[l]? = some x → ys[l]? = some y → x % y = 0) →
    (∀ l x y z : Nat, xs[l]? = some x → ys[l]? = some y → zs[l]? = some z → x + y ≤ z) → offsetsChk xs ys zs = some true := by
  intro xs
  induction xs with
  | nil => intros; rfl
  | cons x xs ih =>
    intro ys zs h1 h2
    cases ys with
    | nil => rfl
    | cons y ys =>
      cases zs with
      | nil => rfl
      | cons z zs =>
        simp only [offsetsChk, andThen_ok, chk_ok, decide_eq_true_eq]
        exact ⟨h1 0 x y rfl rfl, h2 0 x y z rfl rfl rfl, ih ys zs (fun l => h1 (l + 1)) (fun l => h2 (l + 1))⟩

theorem offsetsChk_aligned : ∀ (xs ys zs : List Nat), ys.length ≤ zs.length → offsetsChk xs ys zs = some true →
    ∀ l x y : Nat, xs[l]? = some x → ys[l]? = some y → x % y = 0 := by
  intro xs
  induction xs with
  | nil => intro ys zs _ _ l x y h; simp at h
  | cons x xs ih =>
    intro ys zs hl h l a b ha hb
    cases ys with
    | nil => simp at hb
    | cons y ys =>
      cases zs with
      | nil => simp at hl
      | cons z zs =>
        simp only [offsetsChk, andThen_ok, chk_ok, decide_eq_true_eq] at h
        cases l with
        | zero =>
          simp only [List.getElem?_cons_zero, Option.some.injEq] at ha hb
          subst ha hb
          exact h.1
        | succ l => exact ih ys zs (by simpa using hl) h.2.2 l a b (by simpa using ha) (by simpa using hb)

/-- An accepted circuit is aligned and reads existing layers. -/
theorem validate_aligned {c : Circuit F} (h : c.validate = some true) : SegsAligned c.segments ∧ LayersBelow c.layerIds.length c.segments := by
  simp only [Circuit.validate, andThen_ok, allChk_ok] at h
  obtain ⟨h1, _⟩ := h
  have key : ∀ s ∈ c.segments, ∃ i, segChk c (s, i) = some true := fun s hs => by
    obtain ⟨i, hi⟩ := List.mem_iff_getElem?.1 hs
    exact ⟨i, h1 (s, i) (mem_zipIdx_of_getElem? hi)⟩
  constructor
  · rintro s hs id a ⟨ch, hch, rfl, ha⟩ sub hsub
    obtain ⟨_, hk⟩ := key s hs
    obtain ⟨_, _, _, _, h5⟩ := segChk_iff.1 hk
    have := h5 ch hch
    simp only [childChk, andThen_ok, hsub, allChk_ok, chk_ok, decide_eq_true_eq] at this
    have h6 := this.2.2 a ha
    simp only [allocChk, andThen_ok, chk_ok, decide_eq_true_eq] at h6
    exact ⟨offsetsChk_aligned _ _ _ this.2.1 h6.2.1, h6.2.2.1⟩
  · intro s hs g hg inp hi
    obtain ⟨_, hk⟩ := key s hs
    obtain ⟨_, _, _, h4, _⟩ := segChk_iff.1 hk
    exact (h4 g hg).1 inp hi

/-- A circuit that refers only to existing things, aligned, with power-of-two sizes, is accepted when its layers read and write like those of an
accepted circuit. -/
theorem carry_valid {c c' : Circuit F} (h : c.validate = some true) (hok : c'.Ok) (hp : ∀ s ∈ c'.segments, s.Pow2Sizes) (ha : SegsAligned c'.segments)
    (hb : LayersBelow c'.layerIds.length c'.segments) (m : Nat → Nat) (hl : c'.layerIds = c.layerIds.map m)
    (hcar : ∀ id ∈ c.layerIds, (∀ l j, Reads c'.segments (m id) l j → Reads c.segments id l j) ∧ (∀ j, Writes c.segments id j → Writes c'.segments (m id) j) ∧
      ∀ s s', c.segments[id]? = some s → c'.segments[m id]? = some s' → s'.numInputs = s.numInputs) : c'.validate = some true := by
  have hinit := fun i id l j n s => validate_init h i id l j n s
  have hok0 := validate_ok h
  simp only [Circuit.validate, andThen_ok, allChk_ok] at h
  obtain ⟨h1, h2, h3, _⟩ := h
  refine validate_intro ?_ hok.layers ?_ hok.input hok.shape ?_
  · intro i s hi
    have hm := List.mem_of_getElem? hi
    obtain ⟨p1, p2, p3⟩ := hp s hm
    obtain ⟨g1, g2⟩ := hok.seg i s hi
    refine segChk_iff.2 ⟨fun x hx => pow2_isPow2 (p2 x hx), p1, pow2_isPow2 p3, fun g hg => ⟨hb s hm g hg, g1 g hg⟩, ?_⟩
    intro ch hch
    obtain ⟨q1, sub, q2, q3, q4⟩ := g2 ch hch
    simp only [childChk, andThen_ok, q2, allChk_ok, chk_ok, decide_eq_true_eq]
    refine ⟨q1, q3, fun a ham => ?_⟩
    obtain ⟨r1, r2, r3⟩ := q4 a ham
    obtain ⟨t1, t2⟩ := ha s hm ch.1 a ⟨ch, hch, rfl, ham⟩ sub q2
    simp only [allocChk, andThen_ok, chk_ok, decide_eq_true_eq]
    exact ⟨r1, offsetsChk_intro _ _ _ t1 r2, t2, r3⟩
  · rw [hl]
    simpa using h3
  · intro i id' l j n k' s' hi hs' hn hli hj hr hk
    rw [hl, List.getElem?_map] at hi hk
    obtain ⟨id, hid, rfl⟩ := Option.map_eq_some_iff.1 hi
    obtain ⟨k, hkk, rfl⟩ := Option.map_eq_some_iff.1 hk
    have hidm := List.mem_of_getElem? hid
    obtain ⟨u1, _, u3⟩ := hcar id hidm
    have hs := List.getElem?_eq_getElem (hok0.layers id hidm)
    have e := u3 _ s' hs hs'
    rw [e] at hn
    obtain ⟨k2, v1, v2⟩ := hinit i id l j n _ hid hs hn hli hj (u1 l j hr)
    rw [hkk] at v1; cases v1
    exact (hcar k (List.mem_of_getElem? hkk)).2.1 j v2

/-! ## Expansion of segments -/

theorem mem_listSum {A : Type} {x : A} : ∀ {l : List (Multiset A)}, x ∈ l.sum ↔ ∃ m ∈ l, x ∈ m := by
  intro l
  induction l with
  | nil => simp
  | cons m l ih => simp [ih]

theorem mem_chSum {chs : List (Nat × List Alloc)} {x : Nat × Alloc} :
    x ∈ chSum (fun id a => ({(id, a)} : Multiset (Nat × Alloc))) chs ↔ ∃ ch ∈ chs, ch.1 = x.1 ∧ x.2 ∈ ch.2 := by
  unfold chSum
  rw [mem_listSum]
  constructor
  · rintro ⟨m, hm, hx⟩
    obtain ⟨ch, hch, rfl⟩ := List.mem_map.1 hm
    obtain ⟨m, hm, hx⟩ := mem_listSum.1 hx
    obtain ⟨a, ha, rfl⟩ := List.mem_map.1 hm
    rw [Multiset.mem_singleton] at hx
    subst hx
    exact ⟨ch, hch, rfl, ha⟩
  · rintro ⟨ch, hch, h1, h2⟩
    refine ⟨_, List.mem_map.2 ⟨ch, hch, rfl⟩, mem_listSum.2 ⟨_, List.mem_map.2 ⟨x.2, h2, rfl⟩, ?_⟩⟩
    rw [Multiset.mem_singleton, h1]

section
variable {srtA : List Alloc → List Alloc} {ordH : List (Nat × List Alloc) → List (Nat × List Alloc)} {prev : List (Segment F)} {should : Nat → Bool} {s : Segment F}

theorem has_chSum {s : Segment F} {id : Nat} {a : Alloc} : s.Has id a ↔ (id, a) ∈ chSum (fun id a => ({(id, a)} : Multiset (Nat × Alloc))) s.childSegs := (mem_chSum (x := (id, a))).symm

/-- The children of an expanded segment. -/
theorem has_expand (hsA : ∀ l, (srtA l).Perm l) (hoH : ∀ l, (ordH l).Perm l) {id : Nat} {a' : Alloc} : (expandSegment srtA ordH prev should s).Has id a' ↔
    ∃ ch ∈ s.childSegs, (should ch.1 = false ∧ ch.1 = id ∧ a' ∈ ch.2) ∨
      (should ch.1 = true ∧ ∃ sub, prev[ch.1]? = some sub ∧ ∃ a ∈ ch.2, ∃ sa, sub.Has id sa ∧ a' = sa.compose a) := by
  rw [has_chSum]
  simp only [expandSegment]
  rw [chSum_perm _ (hoH _), chSum_srt _ hsA, expandChild_sum, chSum_nil, zero_add, mem_listSum]
  constructor
  · rintro ⟨m, hm, hx⟩
    obtain ⟨ch, hch, rfl⟩ := List.mem_map.1 hm
    refine ⟨ch, hch, ?_⟩
    unfold childRest at hx
    split at hx
    · rename_i hsh
      refine .inr ⟨hsh, ?_⟩
      cases hp : prev[ch.1]? with
      | none => rw [hp] at hx; simp at hx
      | some sub =>
        rw [hp] at hx
        obtain ⟨m, hm, hx⟩ := mem_listSum.1 hx
        obtain ⟨a, ha, rfl⟩ := List.mem_map.1 hm
        obtain ⟨m, hm, hx⟩ := mem_listSum.1 hx
        obtain ⟨sc, hsc, rfl⟩ := List.mem_map.1 hm
        obtain ⟨m, hm, hx⟩ := mem_listSum.1 hx
        obtain ⟨sa, hsa, rfl⟩ := List.mem_map.1 hm
        rw [Multiset.mem_singleton] at hx
        cases hx
        exact ⟨sub, rfl, a, ha, sa, ⟨sc, hsc, rfl, hsa⟩, rfl⟩
    · rename_i hsh
      obtain ⟨m, hm, hx⟩ := mem_listSum.1 hx
      obtain ⟨a, ha, rfl⟩ := List.mem_map.1 hm
      rw [Multiset.mem_singleton] at hx
      cases hx
      exact .inl ⟨by simpa using hsh, rfl, ha⟩
  · rintro ⟨ch, hch, h⟩
    refine ⟨_, List.mem_map.2 ⟨ch, hch, rfl⟩, ?_⟩
    unfold childRest
    rcases h with ⟨h1, rfl, h3⟩ | ⟨h1, sub, h2, a, ha, sa, ⟨sc, hsc, rfl, hsa⟩, rfl⟩
    · rw [if_neg (by simp [h1])]
      exact mem_listSum.2 ⟨_, List.mem_map.2 ⟨a', h3, rfl⟩, Multiset.mem_singleton.2 rfl⟩
    · rw [if_pos h1, h2]
      exact mem_listSum.2 ⟨_, List.mem_map.2 ⟨a, ha, rfl⟩, mem_listSum.2 ⟨_, List.mem_map.2 ⟨sc, hsc, rfl⟩,
        mem_listSum.2 ⟨_, List.mem_map.2 ⟨sa, hsa, rfl⟩, Multiset.mem_singleton.2 rfl⟩⟩⟩

theorem mem_expandGates {get : Segment F → List (Gate F)} {g : Gate F} : g ∈ expandGates prev should get s ↔ g ∈ get s ∨
    ∃ ch ∈ s.childSegs, should ch.1 = true ∧ ∃ sub, prev[ch.1]? = some sub ∧ ∃ a ∈ ch.2, ∃ g0 ∈ get sub, g = g0.addOffset a := by
  simp only [expandGates, List.mem_append, List.mem_flatMap]
  refine or_congr Iff.rfl (exists_congr fun ch => and_congr Iff.rfl ?_)
  by_cases h : should ch.1 = true
  · rw [if_pos h]
    cases hp : prev[ch.1]? with
    | none => simp
    | some sub =>
      simp only [List.mem_flatMap, List.mem_map, h, true_and, Option.some.injEq, exists_eq_left']
      exact exists_congr fun a => and_congr Iff.rfl (exists_congr fun g0 => and_congr Iff.rfl eq_comm)
  · rw [if_neg h]
    simp [h]

/-- The gates of an expanded segment. -/
theorem mem_expand_gates {g : Gate F} : g ∈ (expandSegment srtA ordH prev should s).allGates ↔ g ∈ s.allGates ∨
    ∃ ch ∈ s.childSegs, should ch.1 = true ∧ ∃ sub, prev[ch.1]? = some sub ∧ ∃ a ∈ ch.2, ∃ g0 ∈ sub.allGates, g = g0.addOffset a := by
  simp only [Segment.allGates, expandSegment, List.mem_append, mem_expandGates]
  constructor
  · intro h
    rcases h with (((h | ⟨ch, h1, h2, sub, h3, a, h4, g0, h5, h6⟩) | (h | ⟨ch, h1, h2, sub, h3, a, h4, g0, h5, h6⟩)) | (h | ⟨ch, h1, h2, sub, h3, a, h4, g0, h5, h6⟩)) | (h | ⟨ch, h1, h2, sub, h3, a, h4, g0, h5, h6⟩)
    · exact .inl (by tauto)
    · exact .inr ⟨ch, h1, h2, sub, h3, a, h4, g0, by tauto, h6⟩
    · exact .inl (by tauto)
    · exact .inr ⟨ch, h1, h2, sub, h3, a, h4, g0, by tauto, h6⟩
    · exact .inl (by tauto)
    · exact .inr ⟨ch, h1, h2, sub, h3, a, h4, g0, by tauto, h6⟩
    · exact .inl (by tauto)
    · exact .inr ⟨ch, h1, h2, sub, h3, a, h4, g0, by tauto, h6⟩
  · rintro ((((h | h) | h) | h) | h)
    · exact .inl (.inl (.inl (.inl h)))
    · exact .inl (.inl (.inr (.inl h)))
    · exact .inl (.inr (.inl h))
    · exact .inr (.inl h)
    · obtain ⟨ch, h1, h2, sub, h3, a, h4, g0, h5, h6⟩ := h
      rcases h5 with ((h5 | h5) | h5) | h5
      · exact .inl (.inl (.inl (.inr ⟨ch, h1, h2, sub, h3, a, h4, g0, h5, h6⟩)))
      · exact .inl (.inl (.inr (.inr ⟨ch, h1, h2, sub, h3, a, h4, g0, h5, h6⟩)))
      · exact .inl (.inr (.inr ⟨ch, h1, h2, sub, h3, a, h4, g0, h5, h6⟩))
      · exact .inr (.inr ⟨ch, h1, h2, sub, h3, a, h4, g0, h5, h6⟩)

theorem Reads.has {segs : List (Segment F)} {i id : Nat} {s sub : Segment F} {a : Alloc} {l j off len : Nat} (h1 : segs[i]? = some s) (h2 : s.Has id a) (h3 : segs[id]? = some sub)
    (h4 : a.inputOffset[l]? = some off) (h5 : sub.numInputs[l]? = some len) (h6 : j < len) (h : Reads segs id l j) : Reads segs i l (off + j) := by
  obtain ⟨ch, hch, rfl, ha⟩ := h2
  exact .child h1 hch ha h3 h4 h5 h6 h

theorem Writes.has {segs : List (Segment F)} {i id : Nat} {s sub : Segment F} {a : Alloc} {j : Nat} (h1 : segs[i]? = some s) (h2 : s.Has id a) (h3 : segs[id]? = some sub)
    (h6 : j < sub.numOutputs) (h : Writes segs id j) : Writes segs i (a.outputOffset + j) := by
  obtain ⟨ch, hch, rfl, ha⟩ := h2
  exact .child h1 hch ha h3 h6 h

end

section
variable {c : Circuit F} {srtA : List Alloc → List Alloc} {ordH : List (Nat × List Alloc) → List (Nat × List Alloc)}

theorem expanded_writes (hc : c.Ok) (hsA : ∀ l, (srtA l).Perm l) (hoH : ∀ l, (ordH l).Perm l) {i j : Nat} (h : Writes c.segments i j) : Writes (c.expandedSegs srtA ordH) i j := by
  induction h with
  | gate h1 h2 =>
    refine .gate (expandedSegs_get h1) ?_
    split
    · exact mem_expand_gates.2 (.inl h2)
    · exact h2
  | @child i s ch a sub j h1 h2 h3 h4 h5 _ ih =>
    have hlt := child_lt hc i s h1 ch h2
    obtain ⟨sub', g1, g2, g3⟩ := expandedSegs_shape (srtA := srtA) (ordH := ordH) h4
    have hg := expandedSegs_get (srtA := srtA) (ordH := ordH) h1
    by_cases hu : 0 < c.usedCount i
    swap
    · rw [if_neg hu] at hg
      exact .child hg h2 h3 g1 (by rw [g3]; exact h5) ih
    rw [if_pos hu] at hg
    have hprev : ((c.expandedSegs srtA ordH).take i)[ch.1]? = some sub' := by rw [List.getElem?_take, if_pos hlt]; exact g1
    by_cases hsh : c.expandable ch.1 = true
    swap
    · exact Writes.has hg ((has_expand hsA hoH).2 ⟨ch, h2, .inl ⟨by simpa using hsh, rfl, h3⟩⟩) g1 (by rw [g3]; exact h5) ih
    cases ih with
    | @gate _ _ g k1 k2 =>
      rw [g1] at k1; cases k1
      have := Writes.gate hg (mem_expand_gates.2 (.inr ⟨ch, h2, hsh, sub', hprev, a, h3, g, k2, rfl⟩))
      simpa [Gate.addOffset, Nat.add_comm] using this
    | @child _ _ sc sa ssub jj k1 k2 k3 k4 k5 k6 =>
      rw [g1] at k1; cases k1
      have := Writes.has hg ((has_expand hsA hoH).2 ⟨ch, h2, .inr ⟨hsh, sub', hprev, a, h3, sa, ⟨sc, k2, rfl, k3⟩, rfl⟩⟩) k4 k5 k6
      have e : (sa.compose a).outputOffset + jj = a.outputOffset + (sa.outputOffset + jj) := by simp only [Alloc.compose]; omega
      rwa [e] at this

theorem expanded_reads (hc : c.Ok) (hsA : ∀ l, (srtA l).Perm l) (hoH : ∀ l, (ordH l).Perm l) : ∀ (i l j : Nat), Reads (c.expandedSegs srtA ordH) i l j → Reads c.segments i l j := by
  intro i
  induction i using Nat.strong_induction_on with
  | _ i ih =>
    intro l j h
    have hok := expandedSegs_ok hc hsA hoH
    -- reads through a child of the original segment
    have down : ∀ {s : Segment F} {ch : Nat × List Alloc} {a : Alloc} {l j off : Nat}, c.segments[i]? = some s → ch ∈ s.childSegs → a ∈ ch.2 → a.inputOffset[l]? = some off →
        ∀ {sub : Segment F} {len}, (c.expandedSegs srtA ordH)[ch.1]? = some sub → sub.numInputs[l]? = some len → j < len →
        Reads (c.expandedSegs srtA ordH) ch.1 l j → Reads c.segments i l (off + j) := by
      intro s ch a l j off h1 h2 h3 h4 sub len h5 h6 h7 h8
      obtain ⟨q1, sub0, q2, _, _⟩ := (hc.seg i s h1).child ch h2
      obtain ⟨sub', g1, g2, g3⟩ := expandedSegs_shape (srtA := srtA) (ordH := ordH) q2
      rw [h5] at g1; cases g1
      exact .child h1 h2 h3 q2 h4 (by rw [← g2]; exact h6) h7 (ih ch.1 q1 l j h8)
    have hlen : ∀ {t : Segment F}, (c.expandedSegs srtA ordH)[i]? = some t → ∃ s, c.segments[i]? = some s ∧
        t = if 0 < c.usedCount i then expandSegment srtA ordH ((c.expandedSegs srtA ordH).take i) c.expandable s else s := by
      intro t ht
      have hlt : i < c.segments.length := by
        have := (List.getElem?_eq_some_iff.1 ht).1
        rwa [expandedSegs_length] at this
      have hs := List.getElem?_eq_getElem hlt
      refine ⟨_, hs, ?_⟩
      rw [expandedSegs_get hs] at ht
      cases ht; rfl
    have take : ∀ {s : Segment F} {ch : Nat × List Alloc} {sub : Segment F}, c.segments[i]? = some s → ch ∈ s.childSegs → ((c.expandedSegs srtA ordH).take i)[ch.1]? = some sub →
        (c.expandedSegs srtA ordH)[ch.1]? = some sub := by
      intro s ch sub h1 h2 h3
      rwa [List.getElem?_take, if_pos (child_lt hc i s h1 ch h2)] at h3
    cases h with
    | gate h1 h2 h3 =>
      obtain ⟨s, hs, rfl⟩ := hlen h1
      by_cases hu : 0 < c.usedCount i
      swap
      · rw [if_neg hu] at h2; exact .gate hs h2 h3
      rw [if_pos hu] at h2
      rcases mem_expand_gates.1 h2 with h2 | ⟨ch, hch, _, sub, hsub, a, ha, g0, hg0, rfl⟩
      · exact .gate hs h2 h3
      · have hsub := take hs hch hsub
        obtain ⟨inp0, hi0, rfl⟩ := List.mem_map.1 h3
        obtain ⟨n, hn, hlt⟩ := ((hok ch.1 sub hsub).gates g0 hg0).1 inp0 hi0
        obtain ⟨_, sub0, q2, _, q4⟩ := (hc.seg i s hs).child ch hch
        obtain ⟨sub', g1, g2, g3⟩ := expandedSegs_shape (srtA := srtA) (ordH := ordH) q2
        rw [hsub] at g1; cases g1
        have hl2 : inp0.layer < a.inputOffset.length := by
          rw [(q4 a ha).1, ← g2]; exact (List.getElem?_eq_some_iff.1 hn).1
        have := down hs hch ha (List.getElem?_eq_getElem hl2) hsub hn hlt (.gate hsub hg0 hi0)
        simp only [List.getD, List.getElem?_eq_getElem hl2, Option.getD_some]
        rwa [Nat.add_comm] at this
    | @child _ t ch' a' ssub _ jj off len h1 h2 h3 h4 h5 h6 h7 h8 =>
      obtain ⟨s, hs, rfl⟩ := hlen h1
      by_cases hu : 0 < c.usedCount i
      swap
      · rw [if_neg hu] at h2; exact down hs h2 h3 h5 h4 h6 h7 h8
      rw [if_pos hu] at h2
      obtain ⟨ch, hch, hc2⟩ := (has_expand hsA hoH).1 (⟨ch', h2, rfl, h3⟩ : (expandSegment srtA ordH ((c.expandedSegs srtA ordH).take i) c.expandable s).Has ch'.1 a')
      rcases hc2 with ⟨_, e, ha⟩ | ⟨_, sub, hsub, a, ha, sa, hsa, rfl⟩
      · exact down hs hch ha h5 (by rw [e]; exact h4) h6 h7 (by rw [e]; exact h8)
      · have hsub := take hs hch hsub
        simp only [Alloc.compose] at h5
        obtain ⟨x, y, e1, e2, rfl⟩ := zipWith_get h5
        have hr := Reads.has hsub hsa h4 e1 h6 h7 h8
        obtain ⟨sc, hsc, e3, hsam⟩ := hsa
        obtain ⟨_, ssub', q2, q3, q4⟩ := (hok ch.1 sub hsub).child sc hsc
        rw [e3] at q2
        rw [h4] at q2; cases q2
        have hl3 : l < sub.numInputs.length := by
          have := (List.getElem?_eq_some_iff.1 h6).1
          omega
        have hfit := (q4 sa hsam).2.1 l x len _ e1 h6 (List.getElem?_eq_getElem hl3)
        have := down hs hch ha e2 hsub (List.getElem?_eq_getElem hl3) (by omega) hr
        have e : x + y + jj = y + (x + jj) := by omega
        rw [e]; exact this

theorem pow2_pos {x : Nat} (h : ∃ k, x = 2 ^ k) : 0 < x := by
  obtain ⟨k, rfl⟩ := h
  exact Nat.pos_of_ne_zero (by positivity)

theorem pow2_dvd {x y : Nat} (hx : ∃ k, x = 2 ^ k) (hy : ∃ k, y = 2 ^ k) (h : x ≤ y) : x ∣ y := by
  obtain ⟨k, rfl⟩ := hx
  obtain ⟨m, rfl⟩ := hy
  exact pow_dvd_pow 2 ((Nat.pow_le_pow_iff_right (by omega)).1 h)

theorem expanded_aligned (hc : c.Ok) (hp : ∀ s ∈ c.segments, s.Pow2Sizes) (ha : SegsAligned c.segments) (hsA : ∀ l, (srtA l).Perm l) (hoH : ∀ l, (ordH l).Perm l) :
    SegsAligned (c.expandedSegs srtA ordH) := by
  have hok := expandedSegs_ok hc hsA hoH
  have hp' : ∀ t ∈ c.expandedSegs srtA ordH, t.Pow2Sizes := by
    intro t ht
    obtain ⟨i, hi⟩ := List.mem_iff_getElem?.1 ht
    have hlt : i < c.segments.length := by
      have := (List.getElem?_eq_some_iff.1 hi).1
      rwa [expandedSegs_length] at this
    obtain ⟨t', g1, g2, g3⟩ := expandedSegs_shape (srtA := srtA) (ordH := ordH) (List.getElem?_eq_getElem hlt)
    rw [hi] at g1; cases g1
    have := hp _ (List.getElem_mem hlt)
    unfold Segment.Pow2Sizes at this ⊢
    rw [g2, g3]; exact this
  have key : ∀ (i : Nat) t, (c.expandedSegs srtA ordH)[i]? = some t → ∀ id a, t.Has id a → ∀ sub, (c.expandedSegs srtA ordH)[id]? = some sub → AllocAligned sub a := by
    intro i
    induction i using Nat.strong_induction_on with
    | _ i ih =>
      intro t ht id a' hh sub hsub
      have hlt : i < c.segments.length := by
        have := (List.getElem?_eq_some_iff.1 ht).1
        rwa [expandedSegs_length] at this
      have hs := List.getElem?_eq_getElem hlt
      generalize c.segments[i] = s at hs
      have base : ∀ ch ∈ s.childSegs, ∀ a ∈ ch.2, ∀ sub, (c.expandedSegs srtA ordH)[ch.1]? = some sub → AllocAligned sub a := by
        intro ch hch a hma sub hsub
        obtain ⟨_, sub0, q2, _, _⟩ := (hc.seg i s hs).child ch hch
        obtain ⟨sub', g1, g2, g3⟩ := expandedSegs_shape (srtA := srtA) (ordH := ordH) q2
        rw [hsub] at g1; cases g1
        have := ha s (List.mem_of_getElem? hs) ch.1 a ⟨ch, hch, rfl, hma⟩ sub0 q2
        unfold AllocAligned at this ⊢
        rw [g2, g3]; exact this
      rw [expandedSegs_get hs] at ht
      cases ht
      by_cases hu : 0 < c.usedCount i
      swap
      · rw [if_neg hu] at hh
        obtain ⟨ch, hch, rfl, hma⟩ := hh
        exact base ch hch a' hma sub hsub
      rw [if_pos hu] at hh
      obtain ⟨ch, hch, hc2⟩ := (has_expand hsA hoH).1 hh
      rcases hc2 with ⟨_, rfl, hma⟩ | ⟨_, mid, hmid, a, hma, sa, hsa, rfl⟩
      · exact base ch hch a' hma sub hsub
      · have hlt := child_lt hc i s hs ch hch
        rw [List.getElem?_take, if_pos hlt] at hmid
        obtain ⟨u1, u2⟩ := ih ch.1 hlt mid hmid id sa hsa sub hsub
        obtain ⟨w1, w2⟩ := base ch hch a hma mid hmid
        obtain ⟨sc, hsc, rfl, hsam⟩ := hsa
        obtain ⟨_, sub', q2, q3, q4⟩ := (hok ch.1 mid hmid).child sc hsc
        rw [hsub] at q2; cases q2
        obtain ⟨r1, r2, r3⟩ := q4 sa hsam
        obtain ⟨_, m2, m3⟩ := hp' mid (List.mem_of_getElem? hmid)
        obtain ⟨_, s2, s3⟩ := hp' sub (List.mem_of_getElem? hsub)
        constructor
        · intro l x y hx hy
          simp only [Alloc.compose] at hx
          obtain ⟨x1, x2, e1, e2, rfl⟩ := zipWith_get hx
          have hl : l < mid.numInputs.length := by
            have := (List.getElem?_eq_some_iff.1 hy).1
            omega
          have hm := List.getElem?_eq_getElem hl
          have hfit := r2 l x1 y _ e1 hy hm
          have d1 := Nat.dvd_of_mod_eq_zero (u1 l x1 y e1 hy)
          have d2 := Nat.dvd_of_mod_eq_zero (w1 l x2 _ e2 hm)
          have d3 := pow2_dvd (s2 y (List.mem_of_getElem? hy)) (m2 _ (List.mem_of_getElem? hm)) (by omega)
          exact Nat.mod_eq_zero_of_dvd (Nat.dvd_add d1 (d3.trans d2))
        · have d1 := Nat.dvd_of_mod_eq_zero u2
          have d2 := Nat.dvd_of_mod_eq_zero w2
          have d3 := pow2_dvd s3 m3 (by omega)
          exact Nat.mod_eq_zero_of_dvd (Nat.dvd_add d1 (d3.trans d2))
  intro t ht
  obtain ⟨i, hi⟩ := List.mem_iff_getElem?.1 ht
  exact key i t hi

theorem expanded_layers (hc : c.Ok) {n : Nat} (hb : LayersBelow n c.segments) (hsA : ∀ l, (srtA l).Perm l) (hoH : ∀ l, (ordH l).Perm l) : LayersBelow n (c.expandedSegs srtA ordH) := by
  have key : ∀ (i : Nat) t, (c.expandedSegs srtA ordH)[i]? = some t → ∀ g ∈ t.allGates, ∀ inp ∈ g.inputs, inp.layer < n := by
    intro i
    induction i using Nat.strong_induction_on with
    | _ i ih =>
      intro t ht g hg inp hi
      have hlt : i < c.segments.length := by
        have := (List.getElem?_eq_some_iff.1 ht).1
        rwa [expandedSegs_length] at this
      have hs := List.getElem?_eq_getElem hlt
      generalize c.segments[i] = s at hs
      rw [expandedSegs_get hs] at ht
      cases ht
      have hm := hb s (List.mem_of_getElem? hs)
      by_cases hu : 0 < c.usedCount i
      swap
      · rw [if_neg hu] at hg; exact hm g hg inp hi
      rw [if_pos hu] at hg
      rcases mem_expand_gates.1 hg with hg | ⟨ch, hch, _, sub, hsub, a, ha, g0, hg0, rfl⟩
      · exact hm g hg inp hi
      · have hlt := child_lt hc i s hs ch hch
        rw [List.getElem?_take, if_pos hlt] at hsub
        obtain ⟨inp0, hi0, rfl⟩ := List.mem_map.1 hi
        exact ih ch.1 hlt sub hsub g0 hg0 inp0 hi0
  intro t ht
  obtain ⟨i, hi⟩ := List.mem_iff_getElem?.1 ht
  exact key i t hi

/-! ## The segments that stay -/

variable [CommRing F] [DecidableEq F] {srt : List (Gate F) → List (Gate F)}

theorem has_kept {k id' : Nat} {s : Segment F} {a : Alloc} : ((s.renum c.newId).dedup srt).Has id' a ↔ ∃ id, s.Has id a ∧ c.newId id = id' := by
  constructor
  · rintro ⟨ch, hch, rfl, ha⟩
    obtain ⟨ch0, h0, rfl⟩ := List.mem_map.1 hch
    exact ⟨ch0.1, ⟨ch0, h0, rfl, ha⟩, rfl⟩
  · rintro ⟨id, ⟨ch, hch, rfl, ha⟩, rfl⟩
    exact ⟨(c.newId ch.1, ch.2), List.mem_map.2 ⟨ch, hch, rfl⟩, rfl, ha⟩

theorem kept_writes (hc : c.Ok) (hne : c.NoEmptyAllocs) (hs : ∀ l, (srt l).Perm l) (hsA : ∀ l, (srtA l).Perm l) (hoH : ∀ l, (ordH l).Perm l) {k j : Nat}
    (h : Writes (c.expandedSegs srtA ordH) k j) : c.keeps k = true → Writes (c.keptSegs srt srtA ordH) (c.newId k) j := by
  have hok := expandedSegs_ok hc hsA hoH
  induction h with
  | @gate i s g h1 h2 =>
    intro hk
    obtain ⟨g0, e1, e2⟩ := (keeps_dedup hs).fwd (s.renum c.newId) g h2 ((hok i s h1).gates g h2).2
    rw [← e2]
    exact .gate (keptSegs_get hk h1) e1
  | @child i s ch a sub j h1 h2 h3 h4 h5 _ ih =>
    intro hk
    have hu : 0 < c.usedCount i := by simp [Circuit.keeps] at hk; exact hk.1
    have hkept := expanded_children_kept hc hne hoH i s h1 hu ch h2
    exact Writes.has (keptSegs_get hk h1) (has_kept (k := i).2 ⟨ch.1, ⟨ch, h2, rfl, h3⟩, rfl⟩) (keptSegs_get hkept h4) h5 (ih hkept)

theorem newId_inj {j k : Nat} (hj : c.keeps j = true) (hk : c.keeps k = true) (h : c.newId j = c.newId k) : j = k := by
  rcases Nat.lt_trichotomy j k with h1 | h1 | h1
  · have := newId_lt hj hk h1; omega
  · exact h1
  · have := newId_lt hk hj h1; omega

theorem kept_reads (hc : c.Ok) (hne : c.NoEmptyAllocs) (hs : ∀ l, (srt l).Perm l) (hsA : ∀ l, (srtA l).Perm l) (hoH : ∀ l, (ordH l).Perm l) {i l j : Nat}
    (h : Reads (c.keptSegs srt srtA ordH) i l j) : ∀ k, c.keeps k = true → c.newId k = i → Reads (c.expandedSegs srtA ordH) k l j := by
  induction h with
  | gate h1 h2 h3 =>
    intro k hk e
    obtain ⟨k', s, hk', hse, e', rfl⟩ := keptSegs_get_rev h1
    have := newId_inj hk hk' (e.trans e'.symm)
    subst this
    obtain ⟨g1, e1, e2⟩ := ((keeps_dedup hs).back _ _ h2).2 _ h3
    exact .gate hse e1 e2
  | @child i t ch a sub l j off len h1 h2 h3 h4 h5 h6 h7 _ ih =>
    intro k hk e
    obtain ⟨k', s, hk', hse, e', rfl⟩ := keptSegs_get_rev h1
    have := newId_inj hk hk' (e.trans e'.symm)
    subst this
    obtain ⟨ch0, hch0, rfl⟩ := List.mem_map.1 h2
    have hu : 0 < c.usedCount k := by simp [Circuit.keeps] at hk; exact hk.1
    have hkept := expanded_children_kept hc hne hoH k s hse hu ch0 hch0
    obtain ⟨_, sub0, q2, _, _⟩ := (expandedSegs_ok hc hsA hoH k s hse).child ch0 hch0
    have hsub := keptSegs_get (srt := srt) hkept q2
    rw [h4] at hsub; cases hsub
    exact .child hse hch0 h3 q2 h5 h6 h7 (ih ch0.1 hkept rfl)

theorem expandSmall_valid (hs : ∀ l, (srt l).Perm l) (hg : ∀ l, Grouped (srt l)) (hsA : ∀ l, (srtA l).Perm l) (hoH : ∀ l, (ordH l).Perm l) (hv : c.validate = some true)
    (ht : c.Tidy) : (c.expandSmall srt srtA ordH).validate = some true := by
  have htidy := expandSmall_tidy hs hg hsA hoH ht
  obtain ⟨ha, hb⟩ := validate_aligned hv
  by_cases ho : c.optimized = true
  swap
  · unfold Circuit.expandSmall
    rw [if_neg ho]; exact hv
  have e1 : (c.expandSmall srt srtA ordH).segments = c.keptSegs srt srtA ordH := by unfold Circuit.expandSmall; rw [if_pos ho]; rfl
  have e2 : (c.expandSmall srt srtA ordH).layerIds = c.layerIds.map c.newId := by unfold Circuit.expandSmall; rw [if_pos ho]
  refine carry_valid hv htidy.ok htidy.pow2 ?_ ?_ c.newId e2 ?_
  · rw [e1]
    intro t hm id' a hh sub hsub
    obtain ⟨i, hi⟩ := List.mem_iff_getElem?.1 hm
    obtain ⟨k, s, hk, hse, _, rfl⟩ := keptSegs_get_rev hi
    obtain ⟨id, hid, rfl⟩ := (has_kept (k := k)).1 hh
    have hid' := hid
    obtain ⟨ch, hch, rfl, _⟩ := hid'
    have hu : 0 < c.usedCount k := by simp [Circuit.keeps] at hk; exact hk.1
    have hkept := expanded_children_kept ht.ok ht.noEmpty hoH k s hse hu ch hch
    obtain ⟨_, sub0, q2, _, _⟩ := (expandedSegs_ok ht.ok hsA hoH k s hse).child ch hch
    rw [keptSegs_get hkept q2] at hsub; cases hsub
    exact expanded_aligned ht.ok ht.pow2 ha hsA hoH s (List.mem_of_getElem? hse) _ a hid sub0 q2
  · rw [e1, e2, List.length_map]
    intro t hm g hgm inp hi
    obtain ⟨i, hi'⟩ := List.mem_iff_getElem?.1 hm
    obtain ⟨k, s, hk, hse, _, rfl⟩ := keptSegs_get_rev hi'
    obtain ⟨g1, u1, u2⟩ := ((keeps_dedup hs).back _ _ hgm).2 _ hi
    exact expanded_layers ht.ok hb hsA hoH s (List.mem_of_getElem? hse) g1 u1 inp u2
  · intro id hid
    have hk := keeps_layer hid
    rw [e1]
    refine ⟨fun l j h => expanded_reads ht.ok hsA hoH id l j (kept_reads ht.ok ht.noEmpty hs hsA hoH h id hk rfl),
      fun j h => kept_writes ht.ok ht.noEmpty hs hsA hoH (expanded_writes ht.ok hsA hoH h) hk, ?_⟩
    intro s s' h1 h2
    obtain ⟨s'', g1, g2, _⟩ := keptSegs_shape (srt := srt) (srtA := srtA) (ordH := ordH) ht.ok h1 hk
    rw [h2] at g1; cases g1
    exact g2

end

/-! ## Common parts -/

section
variable [CommRing F] [DecidableEq F] {srt : List (Gate F) → List (Gate F)} {p : List Nat} {groups : List (List (UniGate F))} {reps : List Nat} {segs : List (Segment F)}

theorem fromUni_mem (hs : ∀ l, (srt l).Perm l) {gs : List (UniGate F)} {k : Nat} {g : Gate F} (hk : k < 4) (h : (k, g) ∈ gs) : g ∈ (fromUni srt gs).allGates := by
  simp only [fromUni, Segment.allGates, List.mem_append, (hs _).mem_iff, mem_ofKind]
  have : k = 0 ∨ k = 1 ∨ k = 2 ∨ k = 3 := by omega
  rcases this with rfl | rfl | rfl | rfl <;> tauto

theorem new_writes (hs : ∀ l, (srt l).Perm l) (hctx : CCtx segs p groups reps) (hok : ∀ (i : Nat) s, segs[i]? = some s → SegOk segs i s) {i j : Nat} (h : Writes segs i j) :
    Writes (newSegs srt segs p groups reps) (reps.length + i) j := by
  induction h with
  | @gate i s g h1 h2 =>
    have hlt := ((hok i s h1).gates g h2).2
    have own : g ∈ (commonPre srt p groups reps s i).allGates → Writes (newSegs srt segs p groups reps) (reps.length + i) g.output := by
      intro hm
      have hn : (commonPre srt p groups reps s i).numOutputs = s.numOutputs := by unfold commonPre; split <;> rfl
      obtain ⟨g0, e1, e2⟩ := (keeps_dedup hs).fwd _ g hm (by rw [hn]; exact hlt)
      rw [← e2]
      exact .gate (newSegs_seg h1) (by rw [commonSeg_eq]; exact e1)
    by_cases hc : reps.contains (repOf p i) = true
    swap
    · refine own ?_
      unfold commonPre
      rw [if_neg hc]; exact h2
    obtain ⟨q1, q2⟩ := idxOf_get hc
    have shared : ∀ k < 4, (k, g) ∈ groups.getD (repOf p i) [] → Writes (newSegs srt segs p groups reps) (reps.length + i) g.output := by
      intro k hk hmem
      have hfm := fromUni_mem hs hk hmem
      have hw := Writes.gate (newSegs_common (srt := srt) (segs := segs) (p := p) (groups := groups) q1) hfm
      have hsok := (fromUni_segOk hs (groups.getD (repOf p i) []) segs 0).gates g hfm
      have := Writes.has (s := commonSeg srt p groups reps s i) (newSegs_seg h1) (a := zeroAlloc (fromUni srt (groups.getD (repOf p i) []))) (id := reps.idxOf (repOf p i))
        ⟨(reps.idxOf (repOf p i), [zeroAlloc (fromUni srt (groups.getD (repOf p i) []))]), by
          rw [commonSeg_eq]
          show _ ∈ (commonPre srt p groups reps s i).childSegs
          unfold commonPre
          rw [if_pos hc]
          simp, rfl, by simp⟩ (newSegs_common q1) hsok.2 hw
      simpa [zeroAlloc] using this
    simp only [Segment.allGates, List.mem_append] at h2
    have pick : ∀ k < 4, ((k, g) ∉ groups.getD (repOf p i) [] → g ∈ (commonPre srt p groups reps s i).allGates) →
        Writes (newSegs srt segs p groups reps) (reps.length + i) g.output := by
      intro k hk hpre
      by_cases hm : (k, g) ∈ groups.getD (repOf p i) []
      · exact shared k hk hm
      · exact own (hpre hm)
    have hpre : commonPre srt p groups reps s i = ⟨s.numInputs, s.numOutputs, (s.childSegs.map fun ch => (reps.length + ch.1, ch.2)) ++
        [(reps.idxOf (repOf p i), [zeroAlloc (fromUni srt (groups.getD (repOf p i) []))])],
      (s.removeGates (groups.getD (repOf p i) [])).gateMuls, (s.removeGates (groups.getD (repOf p i) [])).gateAdds,
      (s.removeGates (groups.getD (repOf p i) [])).gateConsts, (s.removeGates (groups.getD (repOf p i) [])).gateCustoms⟩ := by
      unfold commonPre; rw [if_pos hc]
    rcases h2 with ((h2 | h2) | h2) | h2
    · refine pick 0 (by omega) fun hn => ?_
      rw [hpre]; simp only [Segment.allGates, Segment.removeGates, List.mem_append, List.mem_filter]
      exact .inl (.inl (.inl ⟨h2, by simpa using hn⟩))
    · refine pick 1 (by omega) fun hn => ?_
      rw [hpre]; simp only [Segment.allGates, Segment.removeGates, List.mem_append, List.mem_filter]
      exact .inl (.inl (.inr ⟨h2, by simpa using hn⟩))
    · refine pick 2 (by omega) fun hn => ?_
      rw [hpre]; simp only [Segment.allGates, Segment.removeGates, List.mem_append, List.mem_filter]
      exact .inl (.inr ⟨h2, by simpa using hn⟩)
    · refine pick 3 (by omega) fun hn => ?_
      rw [hpre]; simp only [Segment.allGates, Segment.removeGates, List.mem_append, List.mem_filter]
      exact .inr ⟨h2, by simpa using hn⟩
  | @child i s ch a sub j h1 h2 h3 h4 h5 _ ih =>
    refine Writes.has (id := reps.length + ch.1) (newSegs_seg h1) ⟨(reps.length + ch.1, ch.2), ?_, rfl, h3⟩ (newSegs_seg h4) (by rw [(commonSeg_shape _ _ _ _ _ _).2]; exact h5) ih
    rw [commonSeg_eq]
    show _ ∈ (commonPre srt p groups reps s i).childSegs
    unfold commonPre
    split
    · exact List.mem_append_left _ (List.mem_map.2 ⟨ch, h2, rfl⟩)
    · exact List.mem_map.2 ⟨ch, h2, rfl⟩

/-- The gates of a rewritten segment are gates of the segment. -/
theorem commonPre_gates {s : Segment F} {i : Nat} {g : Gate F} (h : g ∈ (commonPre srt p groups reps s i).allGates) : g ∈ s.allGates := by
  unfold commonPre at h
  split at h
  · simp only [Segment.allGates, Segment.removeGates, List.mem_append, List.mem_filter] at h ⊢
    tauto
  · exact h

/-- The children of a rewritten segment. -/
theorem has_common {s : Segment F} {i id' : Nat} {a : Alloc} : (commonSeg srt p groups reps s i).Has id' a →
    (∃ id, s.Has id a ∧ id' = reps.length + id) ∨
      (reps.contains (repOf p i) = true ∧ id' = reps.idxOf (repOf p i) ∧ a = zeroAlloc (fromUni srt (groups.getD (repOf p i) []))) := by
  rintro ⟨ch, hch, rfl, ha⟩
  rw [commonSeg_eq] at hch
  change ch ∈ (commonPre srt p groups reps s i).childSegs at hch
  unfold commonPre at hch
  split at hch
  · rename_i hc
    simp only [List.mem_append, List.mem_singleton] at hch
    rcases hch with hch | rfl
    · obtain ⟨ch0, h0, rfl⟩ := List.mem_map.1 hch
      exact .inl ⟨ch0.1, ⟨ch0, h0, rfl, ha⟩, rfl⟩
    · exact .inr ⟨hc, rfl, by simpa using ha⟩
  · obtain ⟨ch0, h0, rfl⟩ := List.mem_map.1 hch
    exact .inl ⟨ch0.1, ⟨ch0, h0, rfl, ha⟩, rfl⟩

theorem new_reads (hs : ∀ l, (srt l).Perm l) (hctx : CCtx segs p groups reps) (hok : ∀ (i : Nat) s, segs[i]? = some s → SegOk segs i s) {x l j : Nat}
    (h : Reads (newSegs srt segs p groups reps) x l j) : ∀ i, x = reps.length + i → Reads segs i l j := by
  have seg : ∀ {i : Nat} {t : Segment F}, (newSegs srt segs p groups reps)[reps.length + i]? = some t → ∃ s, segs[i]? = some s ∧ t = commonSeg srt p groups reps s i := by
    intro i t ht
    rcases newSegs_rev ht with ⟨r, hr, _⟩ | ⟨i', s, hi, e, rfl⟩
    · have := (List.getElem?_eq_some_iff.1 hr).1; omega
    · have : i = i' := by omega
      subst this
      exact ⟨s, hi, rfl⟩
  induction h with
  | gate h1 h2 h3 =>
    rintro i rfl
    obtain ⟨s, hi, rfl⟩ := seg h1
    rw [commonSeg_eq] at h2
    obtain ⟨g1, e1, e2⟩ := ((keeps_dedup hs).back _ _ h2).2 _ h3
    exact .gate hi (commonPre_gates e1) e2
  | @child x t ch a sub l j off len h1 h2 h3 h4 h5 h6 h7 hr ih =>
    rintro i rfl
    obtain ⟨s, hi, rfl⟩ := seg h1
    rcases has_common ⟨ch, h2, rfl, h3⟩ with ⟨id, hh, e⟩ | ⟨hc, e, rfl⟩
    · rw [e] at h4
      obtain ⟨sub0, hsub, rfl⟩ := seg h4
      exact Reads.has hi hh hsub h5 (by rw [← (commonSeg_shape srt p groups reps sub0 id).1]; exact h6) h7 (ih id e)
    · obtain ⟨q1, _⟩ := idxOf_get hc
      have hoff : off = 0 := by
        simp only [zeroAlloc, List.getElem?_replicate] at h5
        split at h5
        · cases h5; rfl
        · cases h5
      subst hoff
      obtain ⟨_, hsub⟩ := hctx.grp i s hi hc
      rw [e] at hr
      rw [Nat.zero_add]
      cases hr with
      | gate k1 k2 k3 =>
        rw [newSegs_common q1] at k1; cases k1
        obtain ⟨k, hk⟩ := fromUni_gates hs (by simpa [Segment.allGates, fromUni] using k2)
        exact .gate hi (mem_uni (hsub _ hk)).1 k3
      | child k1 k2 =>
        rw [newSegs_common q1] at k1; cases k1
        simp [fromUni] at k2

theorem findCommon_valid (hs : ∀ l, (srt l).Perm l) (hg : ∀ l, Grouped (srt l)) {srtE : List (Nat × Nat × Nat) → List (Nat × Nat × Nat)} (hsE : ∀ l, (srtE l).Perm l)
    (sample : List (Segment F) → List (List (UniGate F))) {c : Circuit F} (hv : c.validate = some true) (h : c.Tidy) {c' : Circuit F} (hc : c.findCommon srt srtE sample = some c') :
    c'.validate = some true := by
  have htidy := findCommon_tidy hs hg hsE sample h hc
  obtain ⟨ha, hb⟩ := validate_aligned hv
  obtain ⟨st, r, rank, h1, h2⟩ := grouping_inv (segs := c.segments) (edges := srtE (commonEdges c.segments (sample c.segments)))
    (fun e he => commonEdges_lt _ _ e ((hsE _).mem_iff.1 he))
  simp only [Circuit.findCommon, h1, Option.some.injEq] at hc
  have hctx := cctx_of_inv h2 (commonReps c.segments.length st.uf st.groups)
  have hreps : ∀ q ∈ commonReps c.segments.length st.uf st.groups, q < c.segments.length ∧ repOf st.uf q = q := by
    intro q hq
    simp only [commonReps, List.mem_filter, List.mem_range, Bool.and_eq_true, beq_iff_eq] at hq
    exact ⟨hq.1, hq.2.1.1⟩
  generalize commonReps c.segments.length st.uf st.groups = reps at *
  have e1 : c'.segments = newSegs srt c.segments st.uf st.groups reps := by rw [← hc]; rfl
  have e2 : c'.layerIds = c.layerIds.map (reps.length + ·) := by rw [← hc]
  refine carry_valid hv htidy.ok htidy.pow2 ?_ ?_ (reps.length + ·) e2 ?_
  · rw [e1]
    intro t hm id' a hh sub hsub
    obtain ⟨j, hj⟩ := List.mem_iff_getElem?.1 hm
    rcases newSegs_rev hj with ⟨q, hq, rfl⟩ | ⟨i, s, hi, rfl, rfl⟩
    · obtain ⟨ch, hch, _⟩ := hh
      simp [fromUni] at hch
    · rcases has_common hh with ⟨id, hq, rfl⟩ | ⟨hc, rfl, rfl⟩
      · have hh' := hq
        obtain ⟨ch, hch, rfl, _⟩ := hh'
        obtain ⟨_, sub0, q2, _, _⟩ := (h.ok.seg i s hi).child ch hch
        rw [newSegs_seg q2] at hsub; cases hsub
        have := ha s (List.mem_of_getElem? hi) ch.1 a hq sub0 q2
        unfold AllocAligned at this ⊢
        rw [(commonSeg_shape srt st.uf st.groups reps sub0 ch.1).1, (commonSeg_shape srt st.uf st.groups reps sub0 ch.1).2]
        exact this
      · refine ⟨fun l x y hx _ => ?_, by simp [zeroAlloc]⟩
        simp only [zeroAlloc, List.getElem?_replicate] at hx
        split at hx
        · cases hx; simp
        · cases hx
  · rw [e1, e2, List.length_map]
    intro t hm g hgm inp hi
    obtain ⟨j, hj⟩ := List.mem_iff_getElem?.1 hm
    rcases newSegs_rev hj with ⟨q, hq, rfl⟩ | ⟨i, s, his, rfl, rfl⟩
    · obtain ⟨q1, q2⟩ := hreps q (List.mem_of_getElem? hq)
      obtain ⟨_, hsub⟩ := hctx.grp q _ (List.getElem?_eq_getElem q1) (by rw [q2]; simpa using List.mem_of_getElem? hq)
      rw [q2] at hsub
      obtain ⟨k, hk⟩ := fromUni_gates hs (by simpa [Segment.allGates, fromUni] using hgm)
      exact hb _ (List.getElem_mem q1) g (mem_uni (hsub _ hk)).1 inp hi
    · rw [commonSeg_eq] at hgm
      obtain ⟨g1, u1, u2⟩ := ((keeps_dedup hs).back _ _ hgm).2 _ hi
      exact hb s (List.mem_of_getElem? his) g1 (commonPre_gates u1) inp u2
  · intro id hid
    rw [e1]
    refine ⟨fun l j hr => new_reads hs hctx h.ok.seg hr id rfl, fun j hw => new_writes hs hctx h.ok.seg hw, ?_⟩
    intro s s' h1 h2
    rw [newSegs_seg h1] at h2; cases h2
    exact (commonSeg_shape srt st.uf st.groups reps s id).1

end

end Verif.Layered
