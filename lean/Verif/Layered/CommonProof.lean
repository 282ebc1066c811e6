import Verif.Layered.Common
import Mathlib.Data.List.Perm.Basic
import Mathlib.Data.List.Nodup
import Mathlib.Tactic.Positivity

/-!
# `find_common_parts` keeps every wire of every layer
-/

set_option linter.unusedSectionVars false
set_option linter.unusedSimpArgs false

namespace Verif.Layered

open Verif.IR (Coef)
open scoped Pointwise

variable {F R : Type} [CommRing F] [DecidableEq F] [CommRing R]

/-! ## Grouping -/

/-- Every group only holds gates of each of its members. -/
structure GInv (segs : List (Segment F)) (st : GroupSt F) (r rank : Nat → Nat) : Prop where
  forest : UnionFind.Forest st.uf segs.length r rank
  len : st.groups.length = segs.length
  sub : ∀ (z : Nat) s, segs[z]? = some s → ∃ g, st.groups[r z]? = some g ∧ g.Nodup ∧ ∀ x ∈ g, x ∈ s.uni

theorem groupStep_union {segs : List (Segment F)} {p : List Nat} {groups : List (List (UniGate F))} {r rank : Nat → Nat}
    (h : GInv segs ⟨p, groups⟩ r rank) {x y : Nat} (hx : x < segs.length) (hy : y < segs.length) (hrx : r x = x) (hry : r y = y)
    {gx gy merged : List (UniGate F)} (hgx : groups[x]? = some gx) (hgy : groups[y]? = some gy)
    (hm : ∀ a ∈ merged, a ∈ gx ∧ a ∈ gy) (hnd : merged.Nodup) :
    ∃ p1 p2 z r' rank', UnionFind.union p x y = some p1 ∧ UnionFind.find p1 x = some (z, p2) ∧ GInv segs ⟨p2, groups.set z merged⟩ r' rank' := by
  obtain ⟨p1, rank', h1, hf1⟩ := UnionFind.union_spec h.forest hx hy
  obtain ⟨p2, h2, hf2, _⟩ := UnionFind.find_spec hf1 hx
  refine ⟨p1, p2, _, _, rank', h1, h2, hf2, by simp [h.len], ?_⟩
  intro z s hs
  have ezx : UnionFind.join r x y x = y := by simp [UnionFind.join, hry]
  rw [ezx]
  obtain ⟨g, hg1, hg2, hg3⟩ := h.sub z s hs
  have hylt : y < groups.length := by have := h.len; simp only at this; omega
  by_cases e1 : r z = x
  · have : UnionFind.join r x y z = y := by simp [UnionFind.join, e1, hrx, hry]
    rw [this]
    refine ⟨merged, by simp [hylt], hnd, ?_⟩
    intro a ha
    simp only [e1] at hg1
    rw [hgx] at hg1; cases hg1
    exact hg3 a (hm a ha).1
  · by_cases e2 : r z = y
    · have : UnionFind.join r x y z = y := by simp [UnionFind.join, e2, hrx, hry]
      rw [this]
      refine ⟨merged, by simp [hylt], hnd, ?_⟩
      intro a ha
      simp only [e2] at hg1
      rw [hgy] at hg1; cases hg1
      exact hg3 a (hm a ha).2
    · have : UnionFind.join r x y z = r z := by simp [UnionFind.join, hrx, e1]
      rw [this]
      refine ⟨g, ?_, hg2, hg3⟩
      rw [List.getElem?_set, if_neg (fun e => e2 e.symm)]
      exact hg1

theorem groupStep_inv {segs : List (Segment F)} {st : GroupSt F} {r rank : Nat → Nat} (h : GInv segs st r rank) {e : Nat × Nat × Nat}
    (h1 : e.2.1 < segs.length) (h2 : e.2.2 < segs.length) : ∃ st' r' rank', groupStep (some st) e = some st' ∧ GInv segs st' r' rank' := by
  obtain ⟨p1, f1, hf1, hr1, hfix1, _⟩ := UnionFind.find_spec h.forest h1
  obtain ⟨p2, f2, hf2, hr2, hfix2, hk2⟩ := UnionFind.find_spec hf1 h2
  have hg2 : GInv segs ⟨p2, st.groups⟩ r rank := ⟨hf2, h.len, h.sub⟩
  have hrr1 : r (r e.2.1) = r e.2.1 := UnionFind.root_of_root hf1 h1
  have hrr2 : r (r e.2.2) = r e.2.2 := UnionFind.root_of_root hf1 h2
  simp only [groupStep, f1, f2]
  split
  · exact ⟨_, r, rank, rfl, hg2⟩
  · have l1 : r e.2.1 < st.groups.length := by rw [h.len]; exact hr1
    have l2 : r e.2.2 < st.groups.length := by rw [h.len]; exact hr2
    have nd : ∀ (z : Nat) (hz : z < segs.length) g, st.groups[r z]? = some g → g.Nodup := by
      intro z hz g hg
      obtain ⟨g', a, b, _⟩ := h.sub z _ (List.getElem?_eq_getElem hz)
      rw [hg] at a; cases a; exact b
    have e1 := List.getElem?_eq_getElem l1
    have e2 := List.getElem?_eq_getElem l2
    have n1 := nd _ h1 _ e1
    have n2 := nd _ h2 _ e2
    simp only [e1, e2]
    generalize st.groups[r e.2.1] = gx at *
    generalize st.groups[r e.2.2] = gy at *
    by_cases hsw : gx.length < gy.length
    · simp only [hsw, decide_true, if_true]
      split
      · exact ⟨_, r, rank, rfl, hg2⟩
      · obtain ⟨q1, q2, z, r', rank', u1, u2, u3⟩ := groupStep_union hg2 hr2 hr1 hrr2 hrr1 e2 e1 (merged := gy.filter fun g => gx.contains g)
          (by intro a ha; simp at ha; exact ha) (n2.filter _)
        simp only [u1, u2]
        exact ⟨_, r', rank', rfl, u3⟩
    · simp only [hsw, decide_false, Bool.false_eq_true, if_false]
      split
      · exact ⟨_, r, rank, rfl, hg2⟩
      · obtain ⟨q1, q2, z, r', rank', u1, u2, u3⟩ := groupStep_union hg2 hr1 hr2 hrr1 hrr2 e1 e2 (merged := gx.filter fun g => gy.contains g)
          (by intro a ha; simp at ha; exact ha) (n1.filter _)
        simp only [u1, u2]
        exact ⟨_, r', rank', rfl, u3⟩

theorem grouping_inv {segs : List (Segment F)} {edges : List (Nat × Nat × Nat)} (he : ∀ e ∈ edges, e.2.1 < segs.length ∧ e.2.2 < segs.length) :
    ∃ st r rank, grouping segs edges = some st ∧ GInv segs st r rank := by
  unfold grouping
  have h0 : GInv segs ⟨UnionFind.new segs.length, segs.map Segment.uniSet⟩ id id := by
    refine ⟨UnionFind.new_forest _, by simp, ?_⟩
    intro z s hs
    exact ⟨s.uniSet, by simp [hs], List.nodup_dedup _, fun x hx => List.mem_dedup.1 hx⟩
  revert h0
  generalize (id : Nat → Nat) = rank0
  generalize (⟨UnionFind.new segs.length, segs.map Segment.uniSet⟩ : GroupSt F) = st0
  intro h0
  have gen : ∀ (es : List (Nat × Nat × Nat)), (∀ e ∈ es, e.2.1 < segs.length ∧ e.2.2 < segs.length) → ∀ (st : GroupSt F) (r rank : Nat → Nat), GInv segs st r rank →
      ∃ st' r' rank', es.foldl groupStep (some st) = some st' ∧ GInv segs st' r' rank' := by
    intro es
    induction es with
    | nil => intro _ st r rank h; exact ⟨st, r, rank, rfl, h⟩
    | cons e es ih =>
      intro hes st r rank h
      obtain ⟨st', r', rank', h1, h2⟩ := groupStep_inv h (hes e (by simp)).1 (hes e (by simp)).2
      rw [List.foldl_cons, h1]
      exact ih (fun x hx => hes x (by simp [hx])) st' r' rank' h2
  exact gen edges he st0 _ _ h0

theorem commonEdges_lt (segs : List (Segment F)) (sampled : List (List (UniGate F))) : ∀ e ∈ commonEdges segs sampled, e.2.1 < segs.length ∧ e.2.2 < segs.length := by
  intro e he
  simp only [commonEdges, List.mem_flatMap] at he
  obtain ⟨⟨s, i⟩, hp, ⟨q, j⟩, hq, he⟩ := he
  have hi : i < segs.length := by
    have := List.mem_zipIdx hp
    omega
  have hj : j < segs.length := by
    have := List.mem_zipIdx hq
    have h2 := this.2.1
    simp only [List.length_take] at h2
    omega
  simp only at he
  split at he
  · simp only [List.mem_singleton] at he
    subst he
    exact ⟨hi, hj⟩
  · simp at he

theorem repOf_eq {p : List Nat} {n : Nat} {r rank : Nat → Nat} (h : UnionFind.Forest p n r rank) {i : Nat} (hi : i < n) : repOf p i = r i := by
  obtain ⟨p', h1, _⟩ := UnionFind.find_spec h hi
  simp [repOf, h1]

/-! ## The common segment fits -/

theorem maxInput_get (m : List Nat) (i : Input) : (∃ x, (maxInput m i)[i.layer]? = some x ∧ i.offset ≤ x) ∧
    ∀ (l x : Nat), m[l]? = some x → ∃ y, (maxInput m i)[l]? = some y ∧ x ≤ y := by
  unfold maxInput
  constructor
  · have hl : i.layer < (m ++ List.replicate (i.layer + 1 - m.length) 0).length := by simp; omega
    rw [List.getElem?_modify, List.getElem?_eq_getElem hl]
    refine ⟨_, rfl, ?_⟩
    simp
  · intro l x hx
    have hl := (List.getElem?_eq_some_iff.1 hx).1
    rw [List.getElem?_modify, List.getElem?_append_left hl, hx]
    refine ⟨_, rfl, ?_⟩
    simp only
    split <;> simp

theorem foldl_maxInput_get : ∀ (is : List Input) (m : List Nat),
    (∀ i ∈ is, ∃ x, (is.foldl maxInput m)[i.layer]? = some x ∧ i.offset ≤ x) ∧
    ∀ (l x : Nat), m[l]? = some x → ∃ y, (is.foldl maxInput m)[l]? = some y ∧ x ≤ y := by
  intro is
  induction is with
  | nil => intro m; exact ⟨by simp, fun l x h => ⟨x, h, le_refl _⟩⟩
  | cons i is ih =>
    intro m
    obtain ⟨h1, h2⟩ := ih (maxInput m i)
    obtain ⟨g1, g2⟩ := maxInput_get m i
    rw [List.foldl_cons]
    refine ⟨?_, ?_⟩
    · intro j hj
      rcases List.mem_cons.1 hj with rfl | hj
      · obtain ⟨x, hx, hle⟩ := g1
        obtain ⟨y, hy, hle2⟩ := h2 _ x hx
        exact ⟨y, hy, by omega⟩
      · exact h1 j hj
    · intro l x hx
      obtain ⟨y, hy, hle⟩ := g2 l x hx
      obtain ⟨z, hz, hle2⟩ := h2 l y hy
      exact ⟨z, hz, by omega⟩

/-- Bounded by the sizes `N`. -/
def Below (N m : List Nat) : Prop := m.length ≤ N.length ∧ ∀ (l x n : Nat), m[l]? = some x → N[l]? = some n → x < n

theorem maxInput_below {N m : List Nat} (hN : ∀ n ∈ N, 0 < n) (h : Below N m) {i : Input} (hi : ∃ n, N[i.layer]? = some n ∧ i.offset < n) :
    Below N (maxInput m i) := by
  obtain ⟨n, hn, hlt⟩ := hi
  have hl := (List.getElem?_eq_some_iff.1 hn).1
  unfold maxInput
  constructor
  · have := h.1; simp; omega
  · intro l x n' hx hn'
    rw [List.getElem?_modify] at hx
    have hbase : ∀ y, (m ++ List.replicate (i.layer + 1 - m.length) 0)[l]? = some y → y < n' := by
      intro y hy
      rw [List.getElem?_append] at hy
      split at hy
      · exact h.2 l y n' hy hn'
      · rw [List.getElem?_replicate] at hy
        split at hy
        · cases hy; exact hN n' (List.mem_of_getElem? hn')
        · cases hy
    obtain ⟨y, hy, rfl⟩ := Option.map_eq_some_iff.1 hx
    have hy' := hbase y hy
    split
    · rename_i e
      subst e
      rw [hn] at hn'; cases hn'
      exact max_lt hy' hlt
    · exact hy'

theorem foldl_maxInput_below {N : List Nat} (hN : ∀ n ∈ N, 0 < n) : ∀ (is : List Input), (∀ i ∈ is, ∃ n, N[i.layer]? = some n ∧ i.offset < n) →
    ∀ m : List Nat, Below N m → Below N (is.foldl maxInput m) := by
  intro is
  induction is with
  | nil => intro _ m h; exact h
  | cons i is ih =>
    intro hi m h
    rw [List.foldl_cons]
    exact ih (fun j hj => hi j (by simp [hj])) _ (maxInput_below hN h (hi i (by simp)))

theorem foldl_max_le : ∀ (l : List Nat) (a : Nat), a ≤ l.foldl max a ∧ ∀ x ∈ l, x ≤ l.foldl max a := by
  intro l
  induction l with
  | nil => intro a; simp
  | cons b l ih =>
    intro a
    obtain ⟨h1, h2⟩ := ih (max a b)
    rw [List.foldl_cons]
    refine ⟨le_trans (le_max_left _ _) h1, ?_⟩
    intro x hx
    rcases List.mem_cons.1 hx with rfl | hx
    · exact le_trans (le_max_right _ _) h1
    · exact h2 x hx

theorem foldl_max_lt {n : Nat} : ∀ (l : List Nat) (a : Nat), a < n → (∀ x ∈ l, x < n) → l.foldl max a < n := by
  intro l
  induction l with
  | nil => intro a ha _; exact ha
  | cons b l ih =>
    intro a ha h
    rw [List.foldl_cons]
    exact ih _ (max_lt ha (h b (by simp))) (fun x hx => h x (by simp [hx]))

/-- Sizes are powers of two (part of `validate`). -/
def Segment.Pow2Sizes {F : Type} (s : Segment F) : Prop := s.numInputs ≠ [] ∧ (∀ n ∈ s.numInputs, ∃ k, n = 2 ^ k) ∧ ∃ k, s.numOutputs = 2 ^ k

theorem mem_ofKind {k : Nat} {gs : List (UniGate F)} {g : Gate F} : g ∈ ofKind k gs ↔ (k, g) ∈ gs := by
  simp only [ofKind, List.mem_map, List.mem_filter, beq_iff_eq]
  constructor
  · rintro ⟨⟨k', g'⟩, ⟨h1, h2⟩, rfl⟩
    simp only at h2; subst h2; exact h1
  · intro h; exact ⟨(k, g), ⟨h, rfl⟩, rfl⟩

theorem mem_uni {s : Segment F} {k : Nat} {g : Gate F} (h : (k, g) ∈ s.uni) : g ∈ s.allGates ∧ k < 4 := by
  simp only [Segment.uni, List.mem_append, List.mem_map, Prod.mk.injEq] at h
  simp only [Segment.allGates, List.mem_append]
  rcases h with ((⟨a, h, rfl, rfl⟩ | ⟨a, h, rfl, rfl⟩) | ⟨a, h, rfl, rfl⟩) | ⟨a, h, rfl, rfl⟩ <;> simp [h]

theorem fromUni_gates {srt : List (Gate F) → List (Gate F)} (hs : ∀ l, (srt l).Perm l) {gs : List (UniGate F)} {g : Gate F}
    (hg : g ∈ (fromUni srt gs).allGates) : ∃ k, (k, g) ∈ gs := by
  simp only [fromUni, Segment.allGates, List.mem_append, (hs _).mem_iff, mem_ofKind] at hg
  rcases hg with ((h | h) | h) | h <;> exact ⟨_, h⟩

theorem fromUni_segOk {srt : List (Gate F) → List (Gate F)} (hs : ∀ l, (srt l).Perm l) (gs : List (UniGate F)) (segs : List (Segment F)) (i : Nat) :
    SegOk segs i (fromUni srt gs) := by
  constructor
  · intro g hg
    have hgm : g ∈ srt (ofKind 0 gs) ++ srt (ofKind 1 gs) ++ srt (ofKind 2 gs) ++ srt (ofKind 3 gs) := hg
    constructor
    · intro j hj
      obtain ⟨h1, _⟩ := foldl_maxInput_get ((srt (ofKind 0 gs) ++ srt (ofKind 1 gs) ++ srt (ofKind 2 gs) ++ srt (ofKind 3 gs)).flatMap Gate.inputs) []
      obtain ⟨x, hx, hle⟩ := h1 j (List.mem_flatMap.2 ⟨g, hgm, hj⟩)
      simp only [fromUni]
      have hne : (((srt (ofKind 0 gs) ++ srt (ofKind 1 gs) ++ srt (ofKind 2 gs) ++ srt (ofKind 3 gs)).flatMap Gate.inputs).foldl maxInput []).isEmpty = false := by
        cases hm : ((srt (ofKind 0 gs) ++ srt (ofKind 1 gs) ++ srt (ofKind 2 gs) ++ srt (ofKind 3 gs)).flatMap Gate.inputs).foldl maxInput [] with
        | nil => rw [hm] at hx; simp at hx
        | cons => rfl
      rw [hne]
      simp only [Bool.false_eq_true, if_false, List.getElem?_map, hx, Option.map_some, Option.some.injEq, exists_eq_left']
      have := (Pow2.next_spec (x + 1)).2.1
      omega
    · have := (foldl_max_le ((srt (ofKind 0 gs) ++ srt (ofKind 1 gs) ++ srt (ofKind 2 gs) ++ srt (ofKind 3 gs)).map Gate.output) 0).2 g.output
        (List.mem_map.2 ⟨g, hgm, rfl⟩)
      have h2 := (Pow2.next_spec (((srt (ofKind 0 gs) ++ srt (ofKind 1 gs) ++ srt (ofKind 2 gs) ++ srt (ofKind 3 gs)).map Gate.output).foldl max 0 + 1)).2.1
      simp only [fromUni]
      omega
  · intro ch hch; simp [fromUni] at hch

/-- The allocation with all offsets zero. -/
def zeroAlloc {F : Type} (sub : Segment F) : Alloc := ⟨List.replicate sub.numInputs.length 0, 0⟩

theorem fromUni_fits {srt : List (Gate F) → List (Gate F)} (hs : ∀ l, (srt l).Perm l) {gs : List (UniGate F)} {segs : List (Segment F)} {i : Nat} {s : Segment F}
    (hok : ∀ g ∈ s.allGates, g.Ok s) (hp : s.Pow2Sizes) (hsub : ∀ x ∈ gs, x ∈ s.uni) :
    (fromUni srt gs).numInputs.length ≤ s.numInputs.length ∧ Alloc.Ok s (fromUni srt gs) (zeroAlloc (fromUni srt gs)) := by
  have hgok : ∀ g ∈ srt (ofKind 0 gs) ++ srt (ofKind 1 gs) ++ srt (ofKind 2 gs) ++ srt (ofKind 3 gs), g.Ok s := by
    intro g hg
    obtain ⟨k, hk⟩ := fromUni_gates hs (srt := srt) (gs := gs) (g := g) hg
    exact hok g (mem_uni (hsub _ hk)).1
  have hpos : ∀ n ∈ s.numInputs, 0 < n := by
    intro n hn
    obtain ⟨k, rfl⟩ := hp.2.1 n hn
    positivity
  have hb0 := foldl_maxInput_below hpos ((srt (ofKind 0 gs) ++ srt (ofKind 1 gs) ++ srt (ofKind 2 gs) ++ srt (ofKind 3 gs)).flatMap Gate.inputs)
    (by
      intro i hi
      obtain ⟨g, hg, hi⟩ := List.mem_flatMap.1 hi
      exact (hgok g hg).1 i hi) [] ⟨by simp, by simp⟩
  have hb : Below s.numInputs (if (((srt (ofKind 0 gs) ++ srt (ofKind 1 gs) ++ srt (ofKind 2 gs) ++ srt (ofKind 3 gs)).flatMap Gate.inputs).foldl maxInput []).isEmpty then [0]
      else ((srt (ofKind 0 gs) ++ srt (ofKind 1 gs) ++ srt (ofKind 2 gs) ++ srt (ofKind 3 gs)).flatMap Gate.inputs).foldl maxInput []) := by
    split
    · refine ⟨?_, ?_⟩
      · have := List.length_pos_iff.2 hp.1; simp; omega
      · intro l x n hx hn
        have : x = 0 := by cases l with
          | zero => simp at hx; exact hx.symm
          | succ l => simp at hx
        subst this
        exact hpos n (List.mem_of_getElem? hn)
    · exact hb0
  refine ⟨by simp only [fromUni, List.length_map]; exact hb.1, by simp [zeroAlloc], ?_, ?_⟩
  · intro l x y z hx hy hz
    have hx0 : x = 0 := by
      simp only [zeroAlloc, List.getElem?_replicate] at hx
      split at hx
      · cases hx; rfl
      · cases hx
    subst hx0
    simp only [fromUni, List.getElem?_map, Option.map_eq_some_iff] at hy
    obtain ⟨m, hm, rfl⟩ := hy
    have := hb.2 l m z hm hz
    obtain ⟨k, rfl⟩ := hp.2.1 z (List.mem_of_getElem? hz)
    have := (Pow2.next_spec (m + 1)).2.2 k (by omega)
    omega
  · obtain ⟨k, hk⟩ := hp.2.2
    simp only [zeroAlloc, fromUni, Nat.zero_add]
    rw [hk]
    apply (Pow2.next_spec _).2.2
    rw [← hk]
    exact foldl_max_lt _ _ (by rw [hk]; positivity) (by
      intro x hx
      obtain ⟨g, hg, rfl⟩ := List.mem_map.1 hx
      exact (hgok g hg).2)

/-! ## Sums -/

section sums
variable {V : LEnv F R} {n : Nat} {cur : List (List R)}

theorem uni_sum (s : Segment F) : gatesSet V n cur s.gateMuls + gatesSet V n cur s.gateAdds + gatesSet V n cur s.gateConsts + gatesSet V n cur s.gateCustoms =
    gatesSet V n cur (s.uni.map Prod.snd) := by
  simp only [Segment.uni, List.map_append, List.map_map, gatesSet_append]
  simp [Function.comp_def]

theorem ofKind_cons (k j : Nat) (g : Gate F) (gs : List (UniGate F)) : ofKind k ((j, g) :: gs) = if j = k then g :: ofKind k gs else ofKind k gs := by
  simp only [ofKind, List.filter_cons, beq_iff_eq]
  split <;> simp

theorem ofKind_sum : ∀ (gs : List (UniGate F)), (∀ x ∈ gs, x.1 < 4) →
    gatesSet V n cur (ofKind 0 gs) + gatesSet V n cur (ofKind 1 gs) + gatesSet V n cur (ofKind 2 gs) + gatesSet V n cur (ofKind 3 gs) =
      gatesSet V n cur (gs.map Prod.snd) := by
  intro gs
  induction gs with
  | nil => intro _; simp [ofKind, gatesSet_nil]
  | cons x gs ih =>
    intro h
    obtain ⟨j, g⟩ := x
    have hj : j < 4 := h (j, g) (by simp)
    have ih' := ih (fun x hx => h x (by simp [hx]))
    rw [List.map_cons, gatesSet_cons, ← ih']
    simp only [ofKind_cons]
    have : j = 0 ∨ j = 1 ∨ j = 2 ∨ j = 3 := by omega
    rcases this with rfl | rfl | rfl | rfl
    · simp only [if_true, zero_ne_one, if_false, OfNat.zero_ne_ofNat]; rw [gatesSet_cons g (ofKind 0 gs)]; abel
    · simp only [if_true, one_ne_zero, if_false, OfNat.one_ne_ofNat]; rw [gatesSet_cons g (ofKind 1 gs)]; abel
    · simp only [if_true, if_false, OfNat.ofNat_ne_zero, OfNat.ofNat_ne_one, Nat.reduceEqDiff]; rw [gatesSet_cons g (ofKind 2 gs)]; abel
    · simp only [if_true, if_false, OfNat.ofNat_ne_zero, OfNat.ofNat_ne_one, Nat.reduceEqDiff]; rw [gatesSet_cons g (ofKind 3 gs)]; abel

theorem removeGates_uni (gs : List (UniGate F)) (s : Segment F) : (s.removeGates gs).uni = s.uni.filter fun x => !gs.contains x := by
  simp only [Segment.uni, Segment.removeGates, List.filter_append, List.filter_map]
  rfl

/-- Two equal gates of a segment are random gates. -/
def Segment.NoTwins {F : Type} (s : Segment F) : Prop := s.uni.Pairwise fun a b => a = b → a.2.coef = .random

theorem Segment.noTwins_of_nodup {F : Type} {s : Segment F} (h : s.uni.Nodup) : s.NoTwins := h.imp fun h e => absurd e h

/-- Two random gates with the same wires can do what one of them can do. -/
theorem random_twice {g : Gate F} (h : g.coef = .random) : gatesSet V n cur [g] + gatesSet V n cur [g] = gatesSet V n cur [g] := by
  ext t
  rw [Set.mem_add]
  simp only [mem_gatesSet_one, h, CoefVal]
  constructor
  · rintro ⟨u, ⟨vs, c, hvs, -, hlt, rfl⟩, w, ⟨vs', c', hvs', -, _, rfl⟩, rfl⟩
    rw [hvs] at hvs'; cases hvs'
    refine ⟨vs, c + c', hvs, trivial, hlt, ?_⟩
    funext i
    by_cases e : i = g.output
    · simp [e, mul_add]
    · simp [e]
  · rintro ⟨vs, c, hvs, -, hlt, rfl⟩
    refine ⟨_, ⟨vs, c, hvs, trivial, hlt, rfl⟩, _, ⟨vs, 0, hvs, trivial, hlt, rfl⟩, ?_⟩
    funext i
    by_cases e : i = g.output
    · simp [e]
    · simp [e]

theorem gatesSet_mem_split {l : List (UniGate F)} {x : UniGate F} (h : x ∈ l) : gatesSet V n cur (l.map Prod.snd) = gatesSet V n cur [x.2] + gatesSet V n cur ((l.erase x).map Prod.snd) := by
  rw [← gatesSet_cons]
  apply gatesSet_perm
  exact (List.perm_cons_erase h).map Prod.snd

theorem gatesSet_dedup : ∀ (l : List (UniGate F)), (l.Pairwise fun a b => a = b → a.2.coef = .random) → gatesSet V n cur (l.dedup.map Prod.snd) = gatesSet V n cur (l.map Prod.snd) := by
  intro l
  induction l with
  | nil => intro _; rfl
  | cons x l ih =>
    intro h
    obtain ⟨h1, h2⟩ := List.pairwise_cons.1 h
    by_cases hx : x ∈ l
    · rw [List.dedup_cons_of_mem hx, ih h2, List.map_cons, gatesSet_cons, gatesSet_mem_split hx, ← add_assoc, random_twice (h1 x hx rfl)]
    · rw [List.dedup_cons_of_notMem hx, List.map_cons, List.map_cons, gatesSet_cons, ih h2, ← gatesSet_cons]

theorem remove_sum {s : Segment F} (hnd : s.NoTwins) {gs : List (UniGate F)} (hgn : gs.Nodup) (hsub : ∀ x ∈ gs, x ∈ s.uni) :
    gatesSet V n cur ((s.removeGates gs).uni.map Prod.snd) + gatesSet V n cur (gs.map Prod.snd) = gatesSet V n cur (s.uni.map Prod.snd) := by
  rw [removeGates_uni]
  have h1 : (s.uni.filter fun x => gs.contains x).dedup.Perm gs := by
    rw [List.perm_ext_iff_of_nodup (List.nodup_dedup _) hgn]
    intro x
    simp only [List.mem_dedup, List.mem_filter, List.contains_iff_mem]
    exact ⟨fun h => h.2, fun h => ⟨hsub x h, h⟩⟩
  rw [← gatesSet_perm (h1.map Prod.snd), gatesSet_dedup _ (hnd.filter _), add_comm, ← gatesSet_append, ← List.map_append]
  exact gatesSet_perm ((List.filter_append_perm (fun x => gs.contains x) s.uni).map Prod.snd)

theorem addOffset_zero {sub : Segment F} {g : Gate F} (h : g.Ok sub) : g.addOffset (zeroAlloc sub) = g := by
  obtain ⟨t, is, o, co⟩ := g
  simp only [Gate.addOffset, zeroAlloc, Nat.add_zero, Gate.mk.injEq, true_and, and_true]
  conv_rhs => rw [← List.map_id is]
  apply List.map_congr_left
  intro i hi
  obtain ⟨m, hm, _⟩ := h.1 i hi
  have := (List.getElem?_eq_some_iff.1 hm).1
  simp [List.getD, List.getElem?_replicate, this]

/-- The call of the common segment adds exactly the common gates. -/
theorem common_child {segs : List (Segment F)} {rec : Segment F → Nat → List (List R) → Set (Nat → R)} {srt : List (Gate F) → List (Gate F)} (hs : ∀ l, (srt l).Perm l)
    {gs : List (UniGate F)} {i k : Nat} (hfix : FixedUpTo V segs rec i) (hk : k < i) {s : Segment F} (hsk : segs[k]? = some (fromUni srt gs))
    (hok : ∀ g ∈ s.allGates, g.Ok s) (hp : s.Pow2Sizes) (hsub : ∀ x ∈ gs, x ∈ s.uni) (hcur : cur.map List.length = s.numInputs) :
    opSet V segs rec s.numOutputs cur (.child k (zeroAlloc (fromUni srt gs))) = gatesSet V s.numOutputs cur (gs.map Prod.snd) := by
  obtain ⟨h1, h2⟩ := fromUni_fits hs (segs := segs) (i := k) hok hp hsub
  have hfo := fromUni_segOk hs gs segs k
  rw [opSet_child_expand hfix hk hsk hfo h2 h1 hcur]
  have e : (fromUni srt gs).ops.map (opShift (zeroAlloc (fromUni srt gs))) = (fromUni srt gs).ops := by
    conv_rhs => rw [← List.map_id (fromUni srt gs).ops]
    apply List.map_congr_left
    intro op hop
    rcases mem_ops hop with ⟨g, hg, rfl⟩ | ⟨ch, hch, _⟩
    · simp only [opShift, addOffset_zero (hfo.gates g hg), id]
    · simp [fromUni] at hch
  rw [e, ops_eq]
  have e2 : (fromUni srt gs).childSegs = [] := rfl
  rw [e2, List.flatMap_nil, opsSet_nil, add_zero, ← ofKind_sum gs (fun x hx => (mem_uni (k := x.1) (g := x.2) (hsub x hx)).2)]
  simp only [fromUni]
  rw [gatesSet_perm (hs _), gatesSet_perm (hs _), gatesSet_perm (hs _), gatesSet_perm (hs _)]

end sums

/-! ## The whole circuit -/

/-- What the grouping guarantees about the chosen common parts. -/
structure CCtx (segs : List (Segment F)) (p : List Nat) (groups : List (List (UniGate F))) (reps : List Nat) : Prop where
  grp : ∀ (i : Nat) s, segs[i]? = some s → reps.contains (repOf p i) = true → (groups.getD (repOf p i) []).Nodup ∧ ∀ x ∈ groups.getD (repOf p i) [], x ∈ s.uni

theorem cctx_of_inv {segs : List (Segment F)} {st : GroupSt F} {r rank : Nat → Nat} (h : GInv segs st r rank) (reps : List Nat) :
    CCtx segs st.uf st.groups reps := by
  constructor
  intro i s hs _
  have hi := (List.getElem?_eq_some_iff.1 hs).1
  rw [repOf_eq h.forest hi]
  obtain ⟨g, h1, h2, h3⟩ := h.sub i s hs
  simp only [List.getD, h1, Option.getD_some]
  exact ⟨h2, h3⟩

variable {c : Circuit F} {srt : List (Gate F) → List (Gate F)} {p : List Nat} {groups : List (List (UniGate F))} {reps : List Nat}

/-- The new list of segments. -/
def newSegs (srt : List (Gate F) → List (Gate F)) (segs : List (Segment F)) (p : List Nat) (groups : List (List (UniGate F))) (reps : List Nat) : List (Segment F) :=
  reps.map (fun r => fromUni srt (groups.getD r [])) ++ segs.zipIdx.map (fun q => commonSeg srt p groups reps q.1 q.2)

theorem newSegs_common {segs : List (Segment F)} {k : Nat} {r : Nat} (h : reps[k]? = some r) :
    (newSegs srt segs p groups reps)[k]? = some (fromUni srt (groups.getD r [])) := by
  have hl := (List.getElem?_eq_some_iff.1 h).1
  unfold newSegs
  rw [List.getElem?_append_left (by simpa using hl), List.getElem?_map, h]
  rfl

theorem newSegs_seg {segs : List (Segment F)} {i : Nat} {s : Segment F} (h : segs[i]? = some s) :
    (newSegs srt segs p groups reps)[reps.length + i]? = some (commonSeg srt p groups reps s i) := by
  unfold newSegs
  rw [List.getElem?_append_right (by simp), List.getElem?_map, List.getElem?_zipIdx]
  simp [h]

theorem newSegs_rev {segs : List (Segment F)} {j : Nat} {x : Segment F} (h : (newSegs srt segs p groups reps)[j]? = some x) :
    (∃ r, reps[j]? = some r ∧ x = fromUni srt (groups.getD r [])) ∨
    ∃ i s, segs[i]? = some s ∧ j = reps.length + i ∧ x = commonSeg srt p groups reps s i := by
  unfold newSegs at h
  rw [List.getElem?_append] at h
  split at h
  · rw [List.getElem?_map, Option.map_eq_some_iff] at h
    obtain ⟨r, hr, rfl⟩ := h
    left; exact ⟨r, hr, rfl⟩
  · rename_i hj
    rw [List.getElem?_map, Option.map_eq_some_iff] at h
    obtain ⟨⟨s, i⟩, hi, rfl⟩ := h
    rw [List.getElem?_zipIdx, Option.map_eq_some_iff] at hi
    obtain ⟨s', hs', he⟩ := hi
    simp only [List.length_map] at hj hs' he
    cases he
    right
    exact ⟨_, _, hs', by omega, by simp⟩

theorem commonSeg_shape (srt : List (Gate F) → List (Gate F)) (p groups reps) (s : Segment F) (i : Nat) :
    (commonSeg srt p groups reps s i).numInputs = s.numInputs ∧ (commonSeg srt p groups reps s i).numOutputs = s.numOutputs := by
  simp only [commonSeg]
  split <;> exact ⟨rfl, rfl⟩

/-- The rewritten segment before the final clean-up. -/
def commonPre (srt : List (Gate F) → List (Gate F)) (p : List Nat) (groups : List (List (UniGate F))) (reps : List Nat) (s : Segment F) (i : Nat) : Segment F :=
  if reps.contains (repOf p i) then
    ⟨s.numInputs, s.numOutputs, (s.childSegs.map fun ch => (reps.length + ch.1, ch.2)) ++
        [(reps.idxOf (repOf p i), [zeroAlloc (fromUni srt (groups.getD (repOf p i) []))])],
      (s.removeGates (groups.getD (repOf p i) [])).gateMuls, (s.removeGates (groups.getD (repOf p i) [])).gateAdds,
      (s.removeGates (groups.getD (repOf p i) [])).gateConsts, (s.removeGates (groups.getD (repOf p i) [])).gateCustoms⟩
  else s.renum (reps.length + ·)

theorem commonSeg_eq (srt : List (Gate F) → List (Gate F)) (p groups reps) (s : Segment F) (i : Nat) :
    commonSeg srt p groups reps s i = (commonPre srt p groups reps s i).dedup srt := by
  simp only [commonSeg, commonPre]
  split <;> rfl

theorem idxOf_get {l : List Nat} {a : Nat} (h : l.contains a = true) : l[l.idxOf a]? = some a ∧ l.idxOf a < l.length := by
  have : a ∈ l := by simpa using h
  have hl := List.idxOf_lt_length_iff.2 this
  exact ⟨by rw [List.getElem?_eq_getElem hl]; simp, hl⟩

theorem commonPre_ok (hs : ∀ l, (srt l).Perm l) {segs : List (Segment F)} (hctx : CCtx segs p groups reps) {i : Nat} {s : Segment F} (hi : segs[i]? = some s)
    (hok : SegOk segs i s) (hp : s.Pow2Sizes) : SegOk (newSegs srt segs p groups reps) (reps.length + i) (commonPre srt p groups reps s i) := by
  have hchild : ∀ ch ∈ s.childSegs, reps.length + ch.1 < reps.length + i ∧ ∃ sub, (newSegs srt segs p groups reps)[reps.length + ch.1]? = some sub ∧
      sub.numInputs.length ≤ s.numInputs.length ∧ ∀ a ∈ ch.2, Alloc.Ok s sub a := by
    intro ch hch
    obtain ⟨h1, sub, h2, h3, h4⟩ := hok.child ch hch
    obtain ⟨g1, g2⟩ := commonSeg_shape srt p groups reps sub ch.1
    refine ⟨by omega, _, newSegs_seg h2, by rw [g1]; exact h3, fun a ha => ?_⟩
    obtain ⟨a1, a2, a3⟩ := h4 a ha
    exact ⟨by rw [g1]; exact a1, by rw [g1]; exact a2, by rw [g2]; exact a3⟩
  unfold commonPre
  split
  · rename_i hc
    obtain ⟨hn, hsub⟩ := hctx.grp i s hi hc
    constructor
    · intro g hg
      have : g ∈ s.allGates := by
        simp only [Segment.allGates, Segment.removeGates, List.mem_append, List.mem_filter] at hg ⊢
        tauto
      exact hok.gates g this
    · intro ch hch
      simp only [List.mem_append, List.mem_map, List.mem_singleton] at hch
      rcases hch with ⟨ch, hch, rfl⟩ | rfl
      · exact hchild ch hch
      · obtain ⟨h1, h2⟩ := idxOf_get hc
        obtain ⟨f1, f2⟩ := fromUni_fits hs (segs := segs) (i := i) hok.gates hp hsub
        refine ⟨by simp only; omega, _, newSegs_common h1, f1, ?_⟩
        intro a ha
        simp only [List.mem_singleton] at ha
        subst ha
        exact f2
  · constructor
    · exact hok.gates
    · intro ch hch
      simp only [Segment.renum, List.mem_map] at hch
      obtain ⟨ch, hch, rfl⟩ := hch
      exact hchild ch hch

theorem newSegs_ok (hs : ∀ l, (srt l).Perm l) {segs : List (Segment F)} (hctx : CCtx segs p groups reps) (hok : ∀ (i : Nat) s, segs[i]? = some s → SegOk segs i s)
    (hp : ∀ s ∈ segs, s.Pow2Sizes) : ∀ (j : Nat) (x : Segment F), (newSegs srt segs p groups reps)[j]? = some x → SegOk (newSegs srt segs p groups reps) j x := by
  intro j x hx
  rcases newSegs_rev hx with ⟨r, hr, rfl⟩ | ⟨i, s, hi, rfl, rfl⟩
  · exact fromUni_segOk hs _ _ _
  · rw [commonSeg_eq]
    exact dedup_segOk hs (commonPre_ok hs hctx hi (hok i s hi) (hp s (List.mem_of_getElem? hi)))

theorem newSegs_den {V : LEnv F R} (hV : V.Lawful) (hs : ∀ l, (srt l).Perm l) {segs : List (Segment F)} (hctx : CCtx segs p groups reps)
    (hok : ∀ (i : Nat) s, segs[i]? = some s → SegOk segs i s) (hp : ∀ s ∈ segs, s.Pow2Sizes) (hnd : ∀ s ∈ segs, s.NoTwins) : ∀ (i : Nat) (s : Segment F),
    segs[i]? = some s → ∀ cur : List (List R), cur.map List.length = s.numInputs →
      den V (newSegs srt segs p groups reps) (reps.length + i + 1) (commonSeg srt p groups reps s i) s.numOutputs cur = den V segs (i + 1) s s.numOutputs cur := by
  intro i
  induction i using Nat.strong_induction_on with
  | _ i ih =>
    intro s hi cur hcur
    have hN := newSegs_ok hs hctx hok hp
    have hpre := commonPre_ok hs hctx hi (hok i s hi) (hp s (List.mem_of_getElem? hi))
    have hfix : FixedUpTo V (newSegs srt segs p groups reps) (den V (newSegs srt segs p groups reps) (reps.length + i)) (reps.length + i) :=
      den_fixed fun j t _ ht => hN j t ht
    have hlen : reps.length + i < (newSegs srt segs p groups reps).length := (List.getElem?_eq_some_iff.1 (newSegs_seg (srt := srt) (p := p) (groups := groups) (reps := reps) hi)).1
    simp only [den]
    generalize hrec : den V (newSegs srt segs p groups reps) (reps.length + i) = rec at *
    have hshape : (commonPre srt p groups reps s i).numInputs = s.numInputs ∧ (commonPre srt p groups reps s i).numOutputs = s.numOutputs := by
      unfold commonPre; split <;> exact ⟨rfl, rfl⟩
    have e1 : opsSet V (newSegs srt segs p groups reps) rec s.numOutputs cur (commonSeg srt p groups reps s i).ops =
        opsSet V (newSegs srt segs p groups reps) rec s.numOutputs cur (commonPre srt p groups reps s i).ops := by
      have := (dedup_segMap hV hs).ops (newSegs srt segs p groups reps) rec _ _ cur hpre (by rw [hshape.1]; exact hcur)
      rw [hshape.2] at this
      rw [commonSeg_eq]
      exact this
    have hrenlt : ∀ ch ∈ s.childSegs.map (fun ch => (reps.length + ch.1, ch.2)), ch.1 < (newSegs srt segs p groups reps).length := by
      intro ch hch
      obtain ⟨ch0, hch0, rfl⟩ := List.mem_map.1 hch
      have := ((hok i s hi).child ch0 hch0).1
      simp only; omega
    have e2 : opsSet V (newSegs srt segs p groups reps) rec s.numOutputs cur (commonPre srt p groups reps s i).ops =
        opsSet V (newSegs srt segs p groups reps) rec s.numOutputs cur (s.renum (reps.length + ·)).ops := by
      unfold commonPre
      split
      · rename_i hc
        obtain ⟨hn, hsub⟩ := hctx.grp i s hi hc
        obtain ⟨h1, h2⟩ := idxOf_get hc
        rw [ops_eq, ops_eq]
        simp only [Segment.renum, List.flatMap_append, opsSet_append]
        have hcc := common_child (V := V) (cur := cur) hs hfix (show reps.idxOf (repOf p i) < reps.length + i by omega) (newSegs_common (srt := srt) (segs := segs) (p := p) (groups := groups) h1)
          (hok i s hi).gates (hp s (List.mem_of_getElem? hi)) hsub hcur
        have hlast : opsSet V (newSegs srt segs p groups reps) rec s.numOutputs cur
            ([(reps.idxOf (repOf p i), [zeroAlloc (fromUni srt (groups.getD (repOf p i) []))])].flatMap (specOps F)) =
            gatesSet V s.numOutputs cur ((groups.getD (repOf p i) []).map Prod.snd) := by
          rw [specs_sum _ (by intro ch hch; simp at hch; subst hch; simp only; omega)]
          simp only [chSum, List.map_cons, List.map_nil, List.sum_cons, List.sum_nil, add_zero]
          exact hcc
        rw [hlast, uni_sum s, ← remove_sum (hnd s (List.mem_of_getElem? hi)) hn hsub]
        have := uni_sum (V := V) (n := s.numOutputs) (cur := cur) (s.removeGates (groups.getD (repOf p i) []))
        rw [this]
        abel
      · rfl
    rw [e1, e2, ops_renum]
    simp only [opsSet, List.map_map]
    congr 1
    apply List.map_congr_left
    intro op hop
    rcases mem_ops hop with ⟨g, hg, rfl⟩ | ⟨ch, hch, rfl | ⟨a, ha, rfl⟩⟩
    · rfl
    · obtain ⟨h1, sub, h2, h3, h4⟩ := (hok i s hi).child ch hch
      have l1 := (List.getElem?_eq_some_iff.1 h2).1
      have l2 : reps.length + ch.1 < (newSegs srt segs p groups reps).length := by omega
      simp [opSet, l1, l2]
    · obtain ⟨h1, sub, h2, h3, h4⟩ := (hok i s hi).child ch hch
      have hg := newSegs_seg (srt := srt) (p := p) (groups := groups) (reps := reps) h2
      obtain ⟨g1, g2⟩ := commonSeg_shape srt p groups reps sub ch.1
      have hao := h4 a ha
      obtain ⟨ins, hins, hil⟩ := childIn_isSome hcur hao.1 h3 hao.2.1
      have hden : rec (commonSeg srt p groups reps sub ch.1) sub.numOutputs ins = den V segs i sub sub.numOutputs ins := by
        have f1 := den_fuel (V := V) (reps.length + ch.1) (fun j t _ ht => hN j t ht) _ hg (reps.length + i) (reps.length + ch.1 + 1) (by omega) (by omega) ins (by rw [g1]; exact hil)
        have f2 := den_fuel (V := V) ch.1 (fun j t _ ht => hok j t ht) sub h2 i (ch.1 + 1) h1 (by omega) ins hil
        rw [g2] at f1
        rw [← hrec, f1, f2]
        exact ih ch.1 h1 sub h2 ins hil
      ext t
      simp only [Function.comp, opSet, Set.mem_setOf_eq]
      constructor
      · rintro ⟨sub', ins', u, q1, q2, q3, q4, rfl⟩
        rw [hg] at q1; cases q1
        rw [g1, hins] at q2; cases q2
        rw [g2] at q3 q4
        refine ⟨sub, ins, u, h2, hins, q3, ?_, by rw [g2]⟩
        rw [← hden]; exact q4
      · rintro ⟨sub', ins', u, q1, q2, q3, q4, rfl⟩
        rw [h2] at q1; cases q1
        rw [hins] at q2; cases q2
        refine ⟨_, ins, u, hg, by rw [g1]; exact hins, by rw [g2]; exact q3, ?_, by rw [g2]⟩
        rw [g2, hden]; exact q4

/-- The result exists, keeps every wire, and everything it refers to exists. -/
theorem findCommon_spec (hs : ∀ l, (srt l).Perm l) {srtE : List (Nat × Nat × Nat) → List (Nat × Nat × Nat)} (hsE : ∀ l, (srtE l).Perm l)
    (sample : List (Segment F) → List (List (UniGate F))) (hc : c.Ok) (hp : ∀ s ∈ c.segments, s.Pow2Sizes) :
    ∃ c', c.findCommon srt srtE sample = some c' ∧ c'.Ok ∧ c'.inputSize = c.inputSize ∧ c'.numActualOutputs = c.numActualOutputs ∧
      c'.expectedNumOutputZeroes = c.expectedNumOutputZeroes ∧
      ((∀ s ∈ c.segments, s.NoTwins) → ∀ (R : Type) [CommRing R] (V : LEnv F R), V.Lawful → ∀ inputs, Traces V c' inputs = Traces V c inputs) := by
  obtain ⟨st, r, rank, h1, h2⟩ := grouping_inv (segs := c.segments) (edges := srtE (commonEdges c.segments (sample c.segments)))
    (fun e he => commonEdges_lt _ _ e ((hsE _).mem_iff.1 he))
  have hctx := cctx_of_inv h2 (commonReps c.segments.length st.uf st.groups)
  simp only [Circuit.findCommon, h1]
  generalize commonReps c.segments.length st.uf st.groups = reps at *
  refine ⟨_, rfl, ?_⟩
  change (⟨c.numPublicInputs, c.numActualOutputs, c.expectedNumOutputZeroes, newSegs srt c.segments st.uf st.groups reps, c.layerIds.map (reps.length + ·)⟩ : Circuit F).Ok ∧
    (⟨c.numPublicInputs, c.numActualOutputs, c.expectedNumOutputZeroes, newSegs srt c.segments st.uf st.groups reps, c.layerIds.map (reps.length + ·)⟩ : Circuit F).inputSize = c.inputSize ∧ _ ∧ _ ∧ _
  have hN := newSegs_ok hs hctx hc.seg hp
  have hshape : ∀ (id : Nat) s, c.segments[id]? = some s → ∃ s', (newSegs srt c.segments st.uf st.groups reps)[reps.length + id]? = some s' ∧
      s'.numInputs = s.numInputs ∧ s'.numOutputs = s.numOutputs := fun id s h => ⟨_, newSegs_seg h, commonSeg_shape _ _ _ _ _ _⟩
  have hin : (⟨c.numPublicInputs, c.numActualOutputs, c.expectedNumOutputZeroes, newSegs srt c.segments st.uf st.groups reps, c.layerIds.map (reps.length + ·)⟩ : Circuit F).inputSize = c.inputSize := by
    unfold Circuit.inputSize
    simp only
    cases hl : c.layerIds with
    | nil => rfl
    | cons id ids =>
      have hid : id ∈ c.layerIds := by rw [hl]; simp
      obtain ⟨s', h1, h2, h3⟩ := hshape id _ (List.getElem?_eq_getElem (hc.layers id hid))
      simp [h1, h2, List.getElem?_eq_getElem (hc.layers id hid)]
  refine ⟨⟨hN, ?_, ?_, by rw [hin]; exact hc.input⟩, hin, rfl, rfl, ?_⟩
  · intro id' h
    simp only [List.mem_map] at h
    obtain ⟨id, hid, rfl⟩ := h
    obtain ⟨s', h1, _, _⟩ := hshape id _ (List.getElem?_eq_getElem (hc.layers id hid))
    exact (List.getElem?_eq_some_iff.1 h1).1
  · intro i id' s' hi hs'
    simp only [List.getElem?_map, Option.map_eq_some_iff] at hi
    obtain ⟨id, hi, rfl⟩ := hi
    have hid := List.mem_of_getElem? hi
    have hseg := List.getElem?_eq_getElem (hc.layers id hid)
    obtain ⟨s'', h1, h2, h3⟩ := hshape id _ hseg
    simp only at hs'
    rw [h1] at hs'; cases hs'
    obtain ⟨g1, g2⟩ := hc.shape i id _ hi hseg
    refine ⟨by rw [h2]; exact g1, ?_⟩
    intro j x hx
    rw [h2] at hx
    rcases g2 j x hx with ⟨hj, hz⟩ | ⟨hj, k, t, hk, ht, hto⟩
    · left; exact ⟨hj, by rw [hin]; exact hz⟩
    · right
      obtain ⟨t', q1, q2, q3⟩ := hshape k t ht
      exact ⟨hj, reps.length + k, t', by simp [hk], q1, by rw [q3]; exact hto⟩
  · intro hnd R _ V hV inputs
    apply traces_congr hc
    simp only
    rw [List.forall₂_map_right_iff, List.forall₂_same]
    intro id hid
    have hlt := hc.layers id hid
    have hseg := List.getElem?_eq_getElem hlt
    generalize c.segments[id] = s at hseg
    have hg := newSegs_seg (srt := srt) (p := st.uf) (groups := st.groups) (reps := reps) hseg
    obtain ⟨g1, g2⟩ := commonSeg_shape srt st.uf st.groups reps s id
    refine ⟨s, _, hseg, hg, g1, g2, ?_⟩
    intro cur hcur
    have hl2 := (List.getElem?_eq_some_iff.1 hg).1
    have f1 := den_fuel (V := V) (reps.length + id) (fun j t _ ht => hN j t ht) _ hg ((newSegs srt c.segments st.uf st.groups reps).length + 1) (reps.length + id + 1) (by omega) (by omega) cur (by rw [g1]; exact hcur)
    have f4 := newSegs_den (V := V) hV hs hctx hc.seg hp hnd id s hseg cur hcur
    have f5 := den_fuel (V := V) id (fun j t _ ht => hc.seg j t ht) s hseg (c.segments.length + 1) (id + 1) (by omega) (by omega) cur hcur
    rw [g2] at f1
    rw [f5, ← f4]
    exact f1

end Verif.Layered
