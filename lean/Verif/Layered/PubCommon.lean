import Verif.Layered.Twins

/-!
# `find_common_parts` keeps the counts of public inputs, and the invariant of the optimization loop
-/

set_option linter.unusedSectionVars false
set_option linter.unusedSimpArgs false

namespace Verif.Layered

open Verif.IR (Coef)

variable {F : Type} [CommRing F] [DecidableEq F]
variable {c : Circuit F} {srt : List (Gate F) → List (Gate F)} {p : List Nat} {groups : List (List (UniGate F))} {reps : List Nat}

theorem uni_snd (s : Segment F) : s.uni.map Prod.snd = s.allGates := by
  simp [Segment.uni, Segment.allGates, Function.comp_def]

theorem pubAt_ofKind : ∀ (gs : List (UniGate F)), (∀ x ∈ gs, x.1 < 4) →
    pubAt (ofKind 0 gs) + pubAt (ofKind 1 gs) + pubAt (ofKind 2 gs) + pubAt (ofKind 3 gs) = pubAt (gs.map Prod.snd) := by
  intro gs
  induction gs with
  | nil => intro _; rfl
  | cons x gs ih =>
    intro h
    obtain ⟨j, g⟩ := x
    have hj : j < 4 := h (j, g) (by simp)
    have ih' := ih (fun x hx => h x (by simp [hx]))
    rw [List.map_cons, pubAt_cons, ← ih']
    simp only [ofKind_cons]
    have : j = 0 ∨ j = 1 ∨ j = 2 ∨ j = 3 := by omega
    rcases this with rfl | rfl | rfl | rfl
    · simp only [if_true, zero_ne_one, if_false, OfNat.zero_ne_ofNat]; rw [pubAt_cons g (ofKind 0 gs)]; abel
    · simp only [if_true, one_ne_zero, if_false, OfNat.one_ne_ofNat]; rw [pubAt_cons g (ofKind 1 gs)]; abel
    · simp only [if_true, if_false, OfNat.ofNat_ne_zero, OfNat.ofNat_ne_one, Nat.reduceEqDiff]; rw [pubAt_cons g (ofKind 2 gs)]; abel
    · simp only [if_true, if_false, OfNat.ofNat_ne_zero, OfNat.ofNat_ne_one, Nat.reduceEqDiff]; rw [pubAt_cons g (ofKind 3 gs)]; abel

theorem pubAt_fromUni (hs : ∀ l, (srt l).Perm l) {gs : List (UniGate F)} (h4 : ∀ x ∈ gs, x.1 < 4) : pubAt (fromUni srt gs).allGates = pubAt (gs.map Prod.snd) := by
  rw [← pubAt_ofKind gs h4]
  simp only [fromUni, Segment.allGates, pubAt_append, pubAt_perm (hs _)]

theorem pubAt_uniDedup : ∀ (l : List (UniGate F)), (l.Pairwise fun a b => a = b → a.2.coef = .random) → pubAt (l.dedup.map Prod.snd) = pubAt (l.map Prod.snd) := by
  intro l
  induction l with
  | nil => intro _; rfl
  | cons x l ih =>
    intro h
    obtain ⟨h1, h2⟩ := List.pairwise_cons.1 h
    by_cases hx : x ∈ l
    · rw [List.dedup_cons_of_mem hx, ih h2, List.map_cons, pubAt_cons]
      have : pubAt [x.2] = 0 := pubAt_none (by
        intro g hg; rw [List.mem_singleton] at hg; subst hg; simp [Gate.isPub, h1 x hx rfl])
      rw [this, zero_add]
    · rw [List.dedup_cons_of_notMem hx, List.map_cons, List.map_cons, pubAt_cons, ih h2, ← pubAt_cons]

theorem pubAt_remove {s : Segment F} (hnd : s.NoTwins) {gs : List (UniGate F)} (hgn : gs.Nodup) (hsub : ∀ x ∈ gs, x ∈ s.uni) :
    pubAt (s.removeGates gs).allGates + pubAt (gs.map Prod.snd) = pubAt s.allGates := by
  rw [← uni_snd, ← uni_snd, removeGates_uni]
  have h1 : (s.uni.filter fun x => gs.contains x).dedup.Perm gs := by
    rw [List.perm_ext_iff_of_nodup (List.nodup_dedup _) hgn]
    intro x
    simp only [List.mem_dedup, List.mem_filter, List.contains_iff_mem]
    exact ⟨fun h => h.2, fun h => ⟨hsub x h, h⟩⟩
  rw [← pubAt_perm (h1.map Prod.snd), pubAt_uniDedup _ (hnd.filter _), add_comm, ← pubAt_append, ← List.map_append]
  exact pubAt_perm ((List.filter_append_perm (fun x => gs.contains x) s.uni).map Prod.snd)

theorem nodup_ofKind {gs : List (UniGate F)} (h : gs.Nodup) (k : Nat) : (ofKind k gs).Nodup := by
  unfold ofKind
  refine (List.nodup_map_iff_inj_on (h.filter _)).2 ?_
  rintro ⟨a, x⟩ ha ⟨b, y⟩ hb e
  simp only [List.mem_filter, beq_iff_eq] at ha hb
  simp only at e
  rw [e, ha.2, hb.2]

theorem fromUni_noTwins (hs : ∀ l, (srt l).Perm l) {gs : List (UniGate F)} (h : gs.Nodup) : (fromUni srt gs).NoTwins := by
  have hA : ∀ k, Apart (srt (ofKind k gs)) := fun k => ((hs _).nodup_iff.2 (nodup_ofKind h k)).imp fun h e => absurd e h
  exact uni_noTwins (hA 0) (hA 1) (hA 2) (hA 3)

theorem pow2_fromUni (srt : List (Gate F) → List (Gate F)) (gs : List (UniGate F)) : (fromUni srt gs).Pow2Sizes := by
  refine ⟨?_, ?_, ?_⟩
  · simp only [fromUni, ne_eq, List.map_eq_nil_iff]
    split
    · simp
    · rename_i h; simpa using h
  · intro n hn
    simp only [fromUni, List.mem_map] at hn
    obtain ⟨x, _, rfl⟩ := hn
    exact (Pow2.next_spec _).1
  · exact (Pow2.next_spec _).1

theorem pow2_dedup {s : Segment F} (h : s.Pow2Sizes) : (s.dedup srt).Pow2Sizes := h

section
variable (hs : ∀ l, (srt l).Perm l) {segs : List (Segment F)} (hctx : CCtx segs p groups reps) (hok : ∀ (i : Nat) s, segs[i]? = some s → SegOk segs i s)
  (hp : ∀ s ∈ segs, s.Pow2Sizes) (hnd : ∀ s ∈ segs, s.NoTwins)
include hs hctx hok hp hnd

theorem newSegs_pub : ∀ (i : Nat) (s : Segment F), segs[i]? = some s →
    pubCount (newSegs srt segs p groups reps) (reps.length + i + 1) (commonSeg srt p groups reps s i) = pubCount segs (i + 1) s := by
  intro i
  induction i using Nat.strong_induction_on with
  | _ i ih =>
    intro s hi
    have hN := newSegs_ok hs hctx hok hp
    have hb : Below' (newSegs srt segs p groups reps) := fun i s hs ch hch => ((hN i s hs).child ch hch).1
    have hb0 : Below' segs := fun i s hs ch hch => ((hok i s hs).child ch hch).1
    have hold : chSum (childPub (newSegs srt segs p groups reps) (pubCount (newSegs srt segs p groups reps) (reps.length + i))) (s.childSegs.map fun ch => (reps.length + ch.1, ch.2)) =
        chSum (childPub segs (pubCount segs i)) s.childSegs := by
      rw [chSum, List.map_map, chSum]
      congr 1
      apply List.map_congr_left
      intro ch hch
      simp only [Function.comp]
      congr 1
      apply List.map_congr_left
      intro a _
      obtain ⟨h1, sub, h2, _⟩ := (hok i s hi).child ch hch
      have hg := newSegs_seg (srt := srt) (p := p) (groups := groups) (reps := reps) h2
      simp only [childPub, h2, hg]
      rw [pubCount_fuel hb _ _ hg (reps.length + i) (reps.length + ch.1 + 1) (by omega) (by omega), ih ch.1 h1 sub h2,
        pubCount_fuel hb0 _ _ h2 (ch.1 + 1) i (by omega) h1]
    simp only [pubCount]
    rw [commonSeg_eq, pubAt_dedup hs]
    have hcs : ((commonPre srt p groups reps s i).dedup srt).childSegs = (commonPre srt p groups reps s i).childSegs := rfl
    rw [hcs, ← hold]
    unfold commonPre
    split
    · rename_i hc
      obtain ⟨hn, hsub⟩ := hctx.grp i s hi hc
      obtain ⟨h1, h2⟩ := idxOf_get hc
      rw [← pubAt_remove (hnd s (List.mem_of_getElem? hi)) hn hsub]
      have e1 : ∀ (a b : List (Nat × List Alloc)) (w : Nat → Alloc → Nat → Nat), chSum w (a ++ b) = chSum w a + chSum w b := by
        intro a b w; simp [chSum]
      simp only [e1]
      have e2 : chSum (childPub (newSegs srt segs p groups reps) (pubCount (newSegs srt segs p groups reps) (reps.length + i)))
          [(reps.idxOf (repOf p i), [zeroAlloc (fromUni srt (groups.getD (repOf p i) []))])] = pubAt ((groups.getD (repOf p i) []).map Prod.snd) := by
        simp only [chSum, List.map_cons, List.map_nil, List.sum_cons, List.sum_nil, add_zero, childPub, newSegs_common h1]
        have : reps.length + i = reps.length + i - 1 + 1 := by omega
        rw [this]
        simp only [pubCount]
        have e3 : (fromUni srt (groups.getD (repOf p i) [])).childSegs = [] := rfl
        rw [e3, chSum_nil, add_zero, pubAt_fromUni hs (fun x hx => (mem_uni (k := x.1) (g := x.2) (hsub x hx)).2)]
        exact shiftN_zero' _
      rw [e2]
      have e4 : ∀ a b c : Nat → Nat, a + (b + c) = a + c + b := fun a b c => by abel
      exact e4 _ _ _
    · rfl

end

/-- What the optimization loop keeps. -/
structure Circuit.Tidy (c : Circuit F) : Prop where
  ok : c.Ok
  noEmpty : c.NoEmptyAllocs
  pow2 : ∀ s ∈ c.segments, s.Pow2Sizes
  pub : c.PubOnce
  twins : ∀ s ∈ c.segments, s.NoTwins

theorem pubAt_le {segs : List (Segment F)} {f : Nat} {s : Segment F} {o : Nat} (h : pubCount segs (f + 1) s o ≤ 1) : pubAt s.allGates o ≤ 1 := by
  simp only [pubCount, Pi.add_apply] at h
  omega

/-- A circuit of merged segments has no twins. -/
theorem noTwins_of_pub (hs : ∀ l, (srt l).Perm l) (hg : ∀ l, Grouped (srt l)) {c : Circuit F} (hp : c.PubOnce) {s t : Segment F} (h : s ∈ c.segments) (e : s = t.dedup srt) : s.NoTwins := by
  obtain ⟨i, hi⟩ := List.mem_iff_getElem?.1 h
  subst e
  refine dedup_noTwins hs hg fun o => ?_
  rw [← pubAt_dedup hs t]
  exact pubAt_le (hp i _ hi o)

theorem expandSmall_tidy (hs : ∀ l, (srt l).Perm l) (hg : ∀ l, Grouped (srt l)) {srtA : List Alloc → List Alloc} (hsA : ∀ l, (srtA l).Perm l)
    {ordH : List (Nat × List Alloc) → List (Nat × List Alloc)} (hoH : ∀ l, (ordH l).Perm l) (h : c.Tidy) : (c.expandSmall srt srtA ordH).Tidy := by
  have hpub := expandSmall_pubOnce h.ok h.noEmpty hs hsA hoH h.pub
  refine ⟨(expandSmall_ok h.ok h.noEmpty hs hsA hoH).1, expandSmall_noEmpty h.noEmpty hsA hoH, expandSmall_pow2 h.pow2, hpub, ?_⟩
  by_cases hk : (c.expandSmall srt srtA ordH) = c
  · rw [hk]; exact h.twins
  · intro s hsm
    have : ∃ t : Segment F, s = t.dedup srt := by
      unfold Circuit.expandSmall at hsm hk
      split at hk
      · rename_i hc
        rw [if_pos hc] at hsm
        obtain ⟨i, hi⟩ := List.mem_iff_getElem?.1 hsm
        obtain ⟨k, t, _, _, _, rfl⟩ := keptSegs_get_rev hi
        exact ⟨_, rfl⟩
      · exact absurd rfl hk
    obtain ⟨t, e⟩ := this
    exact noTwins_of_pub hs hg hpub hsm e

theorem findCommon_tidy (hs : ∀ l, (srt l).Perm l) (hg : ∀ l, Grouped (srt l)) {srtE : List (Nat × Nat × Nat) → List (Nat × Nat × Nat)} (hsE : ∀ l, (srtE l).Perm l)
    (sample : List (Segment F) → List (List (UniGate F))) (h : c.Tidy) {c' : Circuit F} (hc : c.findCommon srt srtE sample = some c') : c'.Tidy := by
  obtain ⟨c'', e, hok, _⟩ := findCommon_spec hs hsE sample h.ok h.pow2
  rw [hc] at e; cases e
  obtain ⟨st, r, rank, h1, h2⟩ := grouping_inv (segs := c.segments) (edges := srtE (commonEdges c.segments (sample c.segments)))
    (fun e he => commonEdges_lt _ _ e ((hsE _).mem_iff.1 he))
  simp only [Circuit.findCommon, h1, Option.some.injEq] at hc
  have hctx := cctx_of_inv h2 (commonReps c.segments.length st.uf st.groups)
  have hreps : ∀ q ∈ commonReps c.segments.length st.uf st.groups, q < c.segments.length ∧ repOf st.uf q = q := by
    intro q hq
    simp only [commonReps, List.mem_filter, List.mem_range, Bool.and_eq_true, beq_iff_eq] at hq
    exact ⟨hq.1, hq.2.1.1⟩
  generalize commonReps c.segments.length st.uf st.groups = reps at *
  have hseg : c'.segments = newSegs srt c.segments st.uf st.groups reps := by rw [← hc]; rfl
  have hgrp : ∀ q ∈ reps, ∃ s, c.segments[q]? = some s ∧ (st.groups.getD q []).Nodup ∧ ∀ x ∈ st.groups.getD q [], x ∈ s.uni := by
    intro q hq
    obtain ⟨q1, q2⟩ := hreps q hq
    have hs0 := List.getElem?_eq_getElem q1
    have := hctx.grp q _ hs0 (by rw [q2]; simpa using hq)
    rw [q2] at this
    exact ⟨_, hs0, this⟩
  have hpub : c'.PubOnce := by
    intro j x hx o
    rw [hseg] at hx ⊢
    rcases newSegs_rev hx with ⟨q, hq, rfl⟩ | ⟨i, s, hi, rfl, rfl⟩
    · obtain ⟨s, hs0, hn, hsub⟩ := hgrp q (List.mem_of_getElem? hq)
      simp only [pubCount]
      have e3 : (fromUni srt (st.groups.getD q [])).childSegs = [] := rfl
      rw [e3, chSum_nil, add_zero, pubAt_fromUni hs (fun x hx => (mem_uni (k := x.1) (g := x.2) (hsub x hx)).2)]
      have hr := pubAt_remove (h.twins s (List.mem_of_getElem? hs0)) hn hsub
      have hle := pubAt_le (h.pub q s hs0 o)
      rw [← hr] at hle
      simp only [Pi.add_apply] at hle
      omega
    · have := newSegs_pub hs hctx h.ok.seg h.pow2 h.twins i s hi
      rw [this]
      exact h.pub i s hi o
  refine ⟨hok, ?_, ?_, hpub, ?_⟩
  · intro x hx ch hch
    rw [hseg] at hx
    obtain ⟨j, hj⟩ := List.mem_iff_getElem?.1 hx
    rcases newSegs_rev hj with ⟨q, hq, rfl⟩ | ⟨i, s, hi, rfl, rfl⟩
    · simp [fromUni] at hch
    · rw [commonSeg_eq] at hch
      change ch ∈ (commonPre srt st.uf st.groups reps s i).childSegs at hch
      have hold : ∀ ch ∈ s.childSegs.map (fun ch => (reps.length + ch.1, ch.2)), ch.2 ≠ [] := by
        intro ch hch
        obtain ⟨ch0, h0, rfl⟩ := List.mem_map.1 hch
        exact h.noEmpty s (List.mem_of_getElem? hi) ch0 h0
      unfold commonPre at hch
      split at hch
      · simp only [List.mem_append, List.mem_singleton] at hch
        rcases hch with hch | rfl
        · exact hold _ hch
        · simp
      · exact hold _ hch
  · intro x hx
    rw [hseg] at hx
    obtain ⟨j, hj⟩ := List.mem_iff_getElem?.1 hx
    rcases newSegs_rev hj with ⟨q, hq, rfl⟩ | ⟨i, s, hi, rfl, rfl⟩
    · exact pow2_fromUni _ _
    · have := h.pow2 s (List.mem_of_getElem? hi)
      obtain ⟨g1, g2⟩ := commonSeg_shape srt st.uf st.groups reps s i
      unfold Segment.Pow2Sizes at this ⊢
      rw [g1, g2]; exact this
  · intro x hx
    have hx' := hx
    rw [hseg] at hx
    obtain ⟨j, hj⟩ := List.mem_iff_getElem?.1 hx
    rcases newSegs_rev hj with ⟨q, hq, rfl⟩ | ⟨i, s, hi, rfl, rfl⟩
    · obtain ⟨s, hs0, hn, hsub⟩ := hgrp q (List.mem_of_getElem? hq)
      exact fromUni_noTwins hs hn
    · exact noTwins_of_pub hs hg hpub hx' (commonSeg_eq _ _ _ _ _ _)

end Verif.Layered
