import Verif.Layered.Flow
import Verif.Layered.DedupFix
import Verif.Layered.PubCommon

/-!
# `expand_small_segments`: what it does to the number of uses, of occurrences and of gates
-/

set_option linter.unusedSectionVars false
set_option linter.unusedSimpArgs false

namespace Verif.Layered

open Verif.IR (Coef)
open Finset (range sum_congr mem_range)

/-- The sum of `x` over the calls of a segment. -/
def callSum {F : Type} (x : Nat → Nat) (s : Segment F) : Nat := (s.childSegs.map fun ch => ch.2.length * x ch.1).sum

/-- How often a segment calls segment `k`. -/
def calls {F : Type} (k : Nat) (s : Segment F) : Nat := callSum (fun id => if id = k then 1 else 0) s

/-- A function of segment `i`. -/
def atSeg {F : Type} (segs : List (Segment F)) (f : Segment F → Nat) (i : Nat) : Nat := match segs[i]? with | none => 0 | some s => f s

theorem atSeg_some {F : Type} {segs : List (Segment F)} {f : Segment F → Nat} {i : Nat} {s : Segment F} (h : segs[i]? = some s) : atSeg segs f i = f s := by simp [atSeg, h]

theorem callSum_eq {F : Type} {n : Nat} (x : Nat → Nat) {s : Segment F} (h : ∀ ch ∈ s.childSegs, ch.1 < n) : callSum x s = ∑ k ∈ range n, calls k s * x k := by
  simp only [calls, callSum]
  generalize s.childSegs = chs at h
  induction chs with
  | nil => simp
  | cons ch chs ih =>
    simp only [List.map_cons, List.sum_cons, Nat.add_mul, Finset.sum_add_distrib]
    rw [ih (fun c hc => h c (by simp [hc]))]
    congr 1
    rw [Finset.sum_eq_single ch.1]
    · simp
    · intro b _ hb
      rw [if_neg (fun e => hb e.symm)]; simp
    · intro hn
      exact absurd (mem_range.2 (h ch (by simp))) hn

theorem callSum_chSum {F : Type} (x : Nat → Nat) (s : Segment F) : callSum x s = chSum (fun id _ => x id) s.childSegs := by
  simp only [callSum, chSum]
  congr 1
  apply List.map_congr_left
  intro ch _
  simp

theorem callSum_congr {F : Type} {x y : Nat → Nat} {s : Segment F} (h : ∀ ch ∈ s.childSegs, x ch.1 = y ch.1) : callSum x s = callSum y s := by
  unfold callSum
  congr 1
  apply List.map_congr_left
  intro ch hch
  rw [h ch hch]

theorem callSum_add {F : Type} (x y : Nat → Nat) (s : Segment F) : callSum (fun k => x k + y k) s = callSum x s + callSum y s := by
  unfold callSum
  rw [← sum_map_add']
  congr 1
  apply List.map_congr_left
  intro ch _
  rw [Nat.mul_add]

theorem calls_zero {F : Type} {k : Nat} {s : Segment F} (h : ∀ ch ∈ s.childSegs, ch.1 ≠ k) : calls k s = 0 := by
  unfold calls
  rw [callSum_congr (y := fun _ => 0) (fun ch hch => if_neg (h ch hch))]
  simp [callSum]

theorem calls_pos {F : Type} {s : Segment F} {ch : Nat × List Alloc} (h : ch ∈ s.childSegs) (hne : ch.2 ≠ []) : 0 < calls ch.1 s := by
  unfold calls callSum
  have h1 : ch.2.length * (if ch.1 = ch.1 then 1 else 0) ≤ (s.childSegs.map fun c => c.2.length * (if c.1 = ch.1 then 1 else 0)).sum :=
    List.single_le_sum (fun _ _ => Nat.zero_le _) _ (List.mem_map.2 ⟨ch, h, rfl⟩)
  have h2 := List.length_pos_iff.2 hne
  have e : ch.2.length * (if ch.1 = ch.1 then 1 else 0) = ch.2.length := by simp
  rw [e] at h1
  exact lt_of_lt_of_le h2 h1

/-! ## Uses -/

theorem addUses_eq {F : Type} {s : Segment F} (u : Nat → Nat) (k : Nat) : addUses u s.childSegs k = u k + calls k s := by
  unfold calls callSum
  generalize s.childSegs = chs
  induction chs generalizing u with
  | nil => simp [addUses]
  | cons ch chs ih =>
    have e : addUses u (ch :: chs) k = addUses (fun j => if j = ch.1 then u j + ch.2.length else u j) chs k := rfl
    rw [e, ih]
    simp only [List.map_cons, List.sum_cons]
    by_cases h : k = ch.1
    · rw [if_pos h, if_pos h.symm]; omega
    · rw [if_neg h, if_neg (fun e => h e.symm)]; omega

theorem usedLoop_eq {F : Type} {segs : List (Segment F)} (hc : ∀ (i : Nat) s, segs[i]? = some s → ∀ ch ∈ s.childSegs, ch.1 < i) : ∀ (n : Nat) (u : Nat → Nat) (k : Nat),
    usedLoop segs n u k = u k + ∑ i ∈ range n, if 0 < usedLoop segs n u i then atSeg segs (calls k) i else 0 := by
  intro n
  induction n with
  | zero => intro u k; simp [usedLoop]
  | succ n ih =>
    intro u k
    rw [Finset.sum_range_succ, usedLoop_high hc (n + 1) u n (le_refl _)]
    simp only [usedLoop]
    by_cases h : 0 < u n
    · simp only [if_pos h]
      cases hs : segs[n]? with
      | none =>
        rw [ih u k]
        simp [atSeg, hs]
      | some s =>
        simp only
        rw [ih _ k, addUses_eq, atSeg_some hs]
        omega
    · simp only [if_neg h]
      rw [ih u k]
      simp

variable {F : Type} {c : Circuit F}

/-- How often segment `i` of the circuit calls segment `k`. -/
def Circuit.calls (c : Circuit F) (i k : Nat) : Nat := atSeg c.segments (Layered.calls k) i

def Circuit.layer (c : Circuit F) (k : Nat) : Nat := c.layerIds.count k

theorem calls_lt' (hb : ∀ (i : Nat) s, c.segments[i]? = some s → ∀ ch ∈ s.childSegs, ch.1 < i) (i k : Nat) (h : c.calls i k ≠ 0) : k < i := by
  unfold Circuit.calls at h
  cases hs : c.segments[i]? with
  | none => simp [atSeg, hs] at h
  | some s =>
    rw [atSeg_some hs] at h
    by_contra hk
    exact h (calls_zero fun ch hch e => hk (e ▸ hb i s hs ch hch))

theorem used_eq (hb : ∀ (i : Nat) s, c.segments[i]? = some s → ∀ ch ∈ s.childSegs, ch.1 < i) (k : Nat) :
    c.usedCount k = 2 * c.layer k + ∑ i ∈ range c.segments.length, if 0 < c.usedCount i then c.calls i k else 0 := usedLoop_eq hb _ _ k

/-- The number of occurrences of a segment. -/
def Circuit.occ (c : Circuit F) : Nat → Nat := occur c.segments.length c.calls c.layer

theorem occ_counts (hb : ∀ (i : Nat) s, c.segments[i]? = some s → ∀ ch ∈ s.childSegs, ch.1 < i) : Counts c.segments.length c.calls c.layer c.occ := occur_counts (calls_lt' hb)

theorem occ_pos (hb : ∀ (i : Nat) s, c.segments[i]? = some s → ∀ ch ∈ s.childSegs, ch.1 < i) : ∀ k < c.segments.length, (0 < c.occ k ↔ 0 < c.usedCount k) := by
  have key : ∀ d k, c.segments.length - k = d → k < c.segments.length → (0 < c.occ k ↔ 0 < c.usedCount k) := by
    intro d
    induction d using Nat.strongRecOn with
    | _ d ih =>
      intro k hd hk
      rw [occ_counts hb k hk, used_eq hb k]
      have e : 0 < ∑ i ∈ range c.segments.length, c.occ i * c.calls i k ↔ 0 < ∑ i ∈ range c.segments.length, if 0 < c.usedCount i then c.calls i k else 0 := by
        rw [Nat.pos_iff_ne_zero, Nat.pos_iff_ne_zero, ne_eq, ne_eq, not_iff_not, Finset.sum_eq_zero_iff, Finset.sum_eq_zero_iff]
        refine forall_congr' fun i => forall_congr' fun hi => ?_
        have hi := mem_range.1 hi
        by_cases h0 : c.calls i k = 0
        · simp [h0]
        · have h1 := calls_lt' hb i k h0
          have h2 := ih (c.segments.length - i) (by omega) i rfl hi
          rw [Nat.mul_eq_zero]
          by_cases h3 : 0 < c.usedCount i
          · have := h2.2 h3
            rw [if_pos h3]
            exact ⟨fun h => absurd h (by rintro (h | h); exacts [by omega, h0 h]), fun h => absurd h h0⟩
          · have := mt h2.1 h3
            rw [if_neg h3]
            exact ⟨fun _ => rfl, fun _ => .inl (by omega)⟩
      constructor
      · intro h
        rcases Nat.eq_zero_or_pos (c.layer k) with h0 | h0
        · rw [h0, Nat.zero_add] at h
          exact lt_of_lt_of_le (e.1 h) (Nat.le_add_left _ _)
        · omega
      · intro h
        rcases Nat.eq_zero_or_pos (c.layer k) with h0 | h0
        · rw [h0, Nat.mul_zero, Nat.zero_add] at h
          exact lt_of_lt_of_le (e.2 h) (Nat.le_add_left _ _)
        · omega
  exact fun k hk => key _ k rfl hk

/-! ## The expanded segments -/

variable [CommRing F] [DecidableEq F] {srt : List (Gate F) → List (Gate F)} {srtA : List Alloc → List Alloc} {ordH : List (Nat × List Alloc) → List (Nat × List Alloc)}

theorem length_expandGates (prev : List (Segment F)) (should : Nat → Bool) (get : Segment F → List (Gate F)) (s : Segment F) :
    (expandGates prev should get s).length = (get s).length + callSum (fun id => if should id then atSeg prev (fun t => (get t).length) id else 0) s := by
  unfold expandGates callSum
  rw [List.length_append, List.length_flatMap]
  congr 2
  apply List.map_congr_left
  intro ch _
  by_cases h : should ch.1 = true
  · simp only [h, if_true, atSeg]
    cases prev[ch.1]? with
    | none => simp
    | some sub => simp [List.length_flatMap]
  · simp [h]

theorem callSum_mul {F : Type} (n : Nat) (x : Nat → Nat) (s : Segment F) : callSum (fun k => n * x k) s = n * callSum x s := by
  unfold callSum
  rw [← List.sum_map_mul_left]
  congr 1
  apply List.map_congr_left
  intro ch _
  ring

theorem own_expand (prev : List (Segment F)) (should : Nat → Bool) (s : Segment F) :
    (expandSegment srtA ordH prev should s).own = s.own + callSum (fun id => if should id then atSeg prev Segment.own id else 0) s := by
  simp only [expandSegment, Segment.own, length_expandGates]
  have e : (fun id => if should id then atSeg prev Segment.own id else 0) = fun id =>
      ((if should id then atSeg prev (fun t => t.gateMuls.length) id else 0) + (if should id then atSeg prev (fun t => t.gateAdds.length) id else 0)) +
      ((if should id then atSeg prev (fun t => t.gateConsts.length) id else 0) + (if should id then atSeg prev (fun t => t.gateCustoms.length) id else 0)) := by
    funext id
    by_cases h : should id = true
    · simp only [h, if_true, atSeg]
      cases prev[id]? with
      | none => rfl
      | some t => simp only [Segment.own]; omega
    · simp [h]
  have e' : callSum (fun id => if should id then atSeg prev Segment.own id else 0) s = _ := congrArg (fun f => callSum f s) e
  rw [e', callSum_add, callSum_add, callSum_add]
  omega

theorem weight_expand (prev : List (Segment F)) (should : Nat → Bool) (s : Segment F) :
    (expandSegment srtA ordH prev should s).weight = s.weight + callSum (fun id => if should id then atSeg prev Segment.weight id else 0) s := by
  simp only [expandSegment, Segment.weight, length_expandGates]
  have e : (fun id => if should id then atSeg prev Segment.weight id else 0) = fun id =>
      (2 * (((if should id then atSeg prev (fun t => t.gateMuls.length) id else 0) + (if should id then atSeg prev (fun t => t.gateAdds.length) id else 0)) +
        (if should id then atSeg prev (fun t => t.gateCustoms.length) id else 0))) + (if should id then atSeg prev (fun t => t.gateConsts.length) id else 0) := by
    funext id
    by_cases h : should id = true
    · simp only [h, if_true, atSeg]
      cases prev[id]? with
      | none => rfl
      | some t => simp only [Segment.weight]
    · simp [h]
  have e' : callSum (fun id => if should id then atSeg prev Segment.weight id else 0) s = _ := congrArg (fun f => callSum f s) e
  rw [e', callSum_add, callSum_mul, callSum_add, callSum_add]
  omega

theorem calls_expand (hsA : ∀ l, (srtA l).Perm l) (hoH : ∀ l, (ordH l).Perm l) (prev : List (Segment F)) (should : Nat → Bool) (s : Segment F) (k : Nat) (hk : should k = false) :
    calls k (expandSegment srtA ordH prev should s) = calls k s + callSum (fun id => if should id then atSeg prev (calls k) id else 0) s := by
  unfold calls
  rw [callSum_chSum, ← callSum_add]
  simp only [expandSegment]
  rw [chSum_perm _ (hoH _), chSum_srt _ hsA, expandChild_sum, chSum_nil, zero_add]
  unfold callSum
  congr 1
  apply List.map_congr_left
  intro ch _
  unfold childRest
  by_cases h : should ch.1 = true
  · have hne : ch.1 ≠ k := fun e => by rw [e, hk] at h; cases h
    simp only [h, if_true, if_neg hne, atSeg, Nat.zero_add]
    cases prev[ch.1]? with
    | none => simp
    | some sub =>
      simp only [← callSum_chSum]
      simp [callSum]
  · simp [h]

/-- A function of segments that adds up. -/
theorem expanded_at (hc : c.Ok) {f : Segment F → Nat}
    (hf : ∀ (prev : List (Segment F)) s, f (expandSegment srtA ordH prev c.expandable s) = f s + callSum (fun id => if c.expandable id then atSeg prev f id else 0) s)
    {i : Nat} (hi : i < c.segments.length) (hu : 0 < c.usedCount i) :
    atSeg (c.expandedSegs srtA ordH) f i = atSeg c.segments f i + ∑ e ∈ range c.segments.length, if c.expandable e then c.calls i e * atSeg (c.expandedSegs srtA ordH) f e else 0 := by
  have hs := List.getElem?_eq_getElem hi
  have h1 := expandedSegs_get (srtA := srtA) (ordH := ordH) hs
  rw [if_pos hu] at h1
  rw [atSeg_some h1, atSeg_some hs, hf]
  congr 1
  rw [callSum_eq (n := c.segments.length) _ (fun ch hch => lt_trans (child_lt hc i _ hs ch hch) hi)]
  apply sum_congr rfl
  intro e _
  have e1 : c.calls i e = calls e c.segments[i] := atSeg_some hs
  by_cases h0 : c.calls i e = 0
  · rw [← e1, h0]; simp
  · have hlt := calls_lt' (child_lt hc) i e h0
    have e2 : atSeg ((c.expandedSegs srtA ordH).take i) f e = atSeg (c.expandedSegs srtA ordH) f e := by
      unfold atSeg
      rw [List.getElem?_take, if_pos hlt]
    rw [e1, e2]
    by_cases hx : c.expandable e = true <;> simp [hx]

end Verif.Layered
