import Verif.Layered.LoopExpand
import Verif.Layered.ValidKeep

/-!
# A measure for the loop of `compile_step_3`: `expand_small_segments`

Some of the segments are marked: the ones `find_common_parts` has made.  A marked segment is never a layer and always used at least twice.
-/

set_option linter.unusedSectionVars false
set_option linter.unusedSimpArgs false

namespace Verif.Layered

open Verif.IR (Coef)
open Finset (range sum_congr mem_range sum_le_sum)

variable {F : Type}

/-- Marked segments with at least five gates. -/
def Circuit.big (c : Circuit F) (ext : Nat → Bool) (i : Nat) : Nat := if ext i && decide (5 ≤ atSeg c.segments Segment.own i) then 1 else 0

/-- Number of segments that are not marked. -/
def Circuit.mO (c : Circuit F) (ext : Nat → Bool) : Nat := ∑ i ∈ range c.segments.length, if ext i then 0 else 1
/-- Weight of all gates when everything is expanded. -/
def Circuit.mT (c : Circuit F) : Nat := ∑ i ∈ range c.segments.length, c.occ i * atSeg c.segments Segment.weight i
/-- Number of occurrences of marked segments with at least five gates. -/
def Circuit.mQ (c : Circuit F) (ext : Nat → Bool) : Nat := ∑ i ∈ range c.segments.length, c.occ i * c.big ext i
/-- Number of marked segments with at least five gates. -/
def Circuit.mS (c : Circuit F) (ext : Nat → Bool) : Nat := ∑ i ∈ range c.segments.length, c.big ext i

/-- What holds of the marked segments. -/
def Circuit.Marks (c : Circuit F) (ext : Nat → Bool) : Prop := ∀ i < c.segments.length, ext i = true → i ∉ c.layerIds ∧ 2 ≤ c.usedCount i

/-- The measure gets smaller; `d` and `d'` are the last components. -/
def Smaller (d' : Nat) (c' : Circuit F) (ext' : Nat → Bool) (d : Nat) (c : Circuit F) (ext : Nat → Bool) : Prop :=
  c'.mO ext' < c.mO ext ∨ c'.mO ext' = c.mO ext ∧ (c'.mT < c.mT ∨ c'.mT = c.mT ∧ (c.mQ ext < c'.mQ ext' ∨ c'.mQ ext' = c.mQ ext ∧
    (c'.mS ext' < c.mS ext ∨ c'.mS ext' = c.mS ext ∧ (c'.segments.length < c.segments.length ∨ c'.segments.length = c.segments.length ∧ d' < d))))

theorem mQ_le (c : Circuit F) (ext : Nat → Bool) : c.mQ ext ≤ c.mT := by
  refine sum_le_sum fun i _ => Nat.mul_le_mul_left _ ?_
  unfold Circuit.big
  split
  · rename_i h
    simp only [Bool.and_eq_true, decide_eq_true_eq] at h
    have : atSeg c.segments Segment.own i ≤ atSeg c.segments Segment.weight i := by
      unfold atSeg
      split
      · exact le_refl _
      · exact own_le_weight _
    omega
  · exact Nat.zero_le _

/-- Two sums of which the terms are comparable and which are equal have equal terms. -/
theorem eq_of_sum_eq {n : Nat} {f g : Nat → Nat} (h : ∀ i < n, f i ≤ g i) (e : ∑ i ∈ range n, f i = ∑ i ∈ range n, g i) : ∀ i < n, f i = g i := by
  intro i hi
  by_contra hne
  have : ∑ i ∈ range n, f i < ∑ i ∈ range n, g i :=
    Finset.sum_lt_sum (fun j hj => h j (mem_range.1 hj)) ⟨i, mem_range.2 hi, lt_of_le_of_ne (h i hi) hne⟩
  omega

variable [CommRing F] [DecidableEq F] {c : Circuit F} {srt : List (Gate F) → List (Gate F)} {srtA : List Alloc → List Alloc}
  {ordH : List (Nat × List Alloc) → List (Nat × List Alloc)}

section expand

variable (hc : c.Ok) (hne : c.NoEmptyAllocs) (hs : ∀ l, (srt l).Perm l) (hsA : ∀ l, (srtA l).Perm l) (hoH : ∀ l, (ordH l).Perm l)

/-- The circuit after the pass, when something was found. -/
def Circuit.exp (srt : List (Gate F) → List (Gate F)) (srtA : List Alloc → List Alloc) (ordH : List (Nat × List Alloc) → List (Nat × List Alloc)) (c : Circuit F) : Circuit F :=
  ⟨c.numPublicInputs, c.numActualOutputs, c.expectedNumOutputZeroes, c.keptSegs srt srtA ordH, c.layerIds.map c.newId⟩

theorem keptSegs_length : (c.keptSegs srt srtA ordH).length = (List.range c.segments.length).countP c.keeps := by
  unfold Circuit.keptSegs
  rw [List.length_map, ← List.countP_eq_length_filter]
  have := zipIdx_countP c.keeps (c.expandedSegs srtA ordH) _ (le_refl _)
  rw [List.take_of_length_le (by simp), expandedSegs_length] at this
  exact this

theorem newId_lt_length {k : Nat} (hk : k < c.segments.length) (hkk : c.keeps k = true) : c.newId k < (c.exp srt srtA ordH).segments.length := by
  have e : (c.exp srt srtA ordH).segments.length = (List.range c.segments.length).countP c.keeps := keptSegs_length
  rw [e]
  simp only [Circuit.newId, hkk, if_true]
  have : List.range c.segments.length = List.range (k + 1) ++ (List.range (c.segments.length - (k + 1))).map (k + 1 + ·) := by
    rw [← List.range_add]; congr 1; omega
  rw [this, List.countP_append, List.range_succ, List.countP_append]
  simp only [List.countP_cons, hkk, if_true, List.countP_nil]
  omega

theorem sum_exp (f : Nat → Nat) : ∑ j ∈ range (c.exp srt srtA ordH).segments.length, f j = ∑ i ∈ range c.segments.length, if c.keeps i then f (c.newId i) else 0 := by
  have e : (c.exp srt srtA ordH).segments.length = (List.range c.segments.length).countP c.keeps := keptSegs_length
  rw [e, sum_kept]
  apply sum_congr rfl
  intro i _
  by_cases h : c.keeps i = true
  · simp [h, Circuit.newId]
  · simp [h]

theorem atSeg_exp {i : Nat} (hk : c.keeps i = true) (f : Segment F → Nat) :
    atSeg (c.exp srt srtA ordH).segments f (c.newId i) = atSeg (c.expandedSegs srtA ordH) (fun s => f ((s.renum c.newId).dedup srt)) i := by
  cases h : (c.expandedSegs srtA ordH)[i]? with
  | some s =>
    rw [atSeg_some h, atSeg_some (show (c.exp srt srtA ordH).segments[c.newId i]? = _ from keptSegs_get hk h)]
  | none =>
    have h1 : c.expandable i = false ∧ c.segments[i]? = none := by
      have h0 := List.getElem?_eq_none_iff.1 h
      rw [expandedSegs_length] at h0
      have h2 := List.getElem?_eq_none_iff.2 h0
      exact ⟨by simp [Circuit.expandable, h2], h2⟩
    have h3 : (c.exp srt srtA ordH).segments[c.newId i]? = none := by
      rw [List.getElem?_eq_none_iff]
      have e : (c.exp srt srtA ordH).segments.length = (List.range c.segments.length).countP c.keeps := keptSegs_length
      rw [e]
      simp only [Circuit.newId, hk, if_true]
      exact (List.range_sublist.2 (List.getElem?_eq_none_iff.1 h1.2)).countP_le
    simp [atSeg, h, h3]

include hc hne in
theorem calls_exp (hoH : ∀ l, (ordH l).Perm l) {i k : Nat} (hi : c.keeps i = true) (hk : c.keeps k = true) :
    (c.exp srt srtA ordH).calls (c.newId i) (c.newId k) = atSeg (c.expandedSegs srtA ordH) (Layered.calls k) i := by
  unfold Circuit.calls
  rw [atSeg_exp hi]
  cases h : (c.expandedSegs srtA ordH)[i]? with
  | none => simp [atSeg, h]
  | some s =>
    rw [atSeg_some h, atSeg_some h]
    have hu : 0 < c.usedCount i := by simp [Circuit.keeps] at hi; exact hi.1
    have hkept := expanded_children_kept hc hne hoH i s h hu
    unfold Layered.calls callSum
    simp only [Segment.dedup, Segment.renum, List.map_map]
    congr 1
    apply List.map_congr_left
    intro ch hch
    simp only [Function.comp_apply]
    congr 1
    by_cases e : ch.1 = k
    · rw [if_pos e, e, if_pos rfl]
    · rw [if_neg e, if_neg (fun e' => e (newId_inj (hkept ch hch) hk e'))]

theorem layer_exp {k : Nat} (hk : c.keeps k = true) : (c.exp srt srtA ordH).layer (c.newId k) = c.layer k := by
  unfold Circuit.layer Circuit.exp
  have : ∀ l : List Nat, (∀ id ∈ l, c.keeps id = true) → (l.map c.newId).count (c.newId k) = l.count k := by
    intro l
    induction l with
    | nil => intro _; rfl
    | cons a l ih =>
      intro h
      rw [List.map_cons, List.count_cons, List.count_cons, ih (fun id hid => h id (by simp [hid]))]
      congr 1
      by_cases e : a = k
      · simp [e]
      · have e' : c.newId a ≠ c.newId k := fun e' => e (newId_inj (h a (by simp)) hk e')
        simp [e, e']
  exact this c.layerIds fun id hid => keeps_layer hid

theorem keeps_iff {i : Nat} : c.keeps i = true ↔ 0 < c.usedCount i ∧ c.expandable i = false := by simp [Circuit.keeps]

theorem expandable_lt {i : Nat} (h : c.expandable i = true) : i < c.segments.length ∧ c.layer i = 0 := by
  unfold Circuit.expandable at h
  split at h
  · cases h
  · rename_i s hs
    simp only [Bool.and_eq_true, Bool.not_eq_true'] at h
    refine ⟨(List.getElem?_eq_some_iff.1 hs).1, ?_⟩
    have := h.1.2
    simp only [List.contains_eq_mem, decide_eq_false_iff_not] at this
    exact List.count_eq_zero.2 this

include hc in
theorem expandable_calls {e : Nat} (h : c.expandable e = true) : ∃ i < c.segments.length, 0 < c.usedCount i ∧ c.calls i e ≠ 0 := by
  have h1 := expandable_used h
  rw [used_eq (child_lt hc) e, (expandable_lt h).2, Nat.mul_zero, Nat.zero_add] at h1
  obtain ⟨i, hi, hn⟩ := Finset.exists_ne_zero_of_sum_ne_zero (Nat.pos_iff_ne_zero.1 h1)
  by_cases hu : 0 < c.usedCount i
  · rw [if_pos hu] at hn
    exact ⟨i, mem_range.1 hi, hu, hn⟩
  · rw [if_neg hu] at hn
    exact absurd rfl hn

include hc in
/-- Sums weighted by the occurrences. -/
theorem occ_flow {f : Segment F → Nat}
    (hf : ∀ (prev : List (Segment F)) s, f (expandSegment srtA ordH prev c.expandable s) = f s + callSum (fun id => if c.expandable id then atSeg prev f id else 0) s) :
    (∑ i ∈ range c.segments.length, if c.keeps i then c.occ i * atSeg (c.expandedSegs srtA ordH) f i else 0) = ∑ i ∈ range c.segments.length, c.occ i * atSeg c.segments f i := by
  have h := flow (n := c.segments.length) (a := c.calls) (m := c.occ) (w := atSeg c.segments f) (w' := atSeg (c.expandedSegs srtA ordH) f) (x := c.expandable)
    (fun e he hx => by rw [occ_counts (child_lt hc) e he, (expandable_lt hx).2, Nat.zero_add])
    (fun i hi h0 => expanded_at hc hf hi ((occ_pos (child_lt hc) i hi).1 (Nat.pos_of_ne_zero h0)))
  rw [← h]
  apply sum_congr rfl
  intro i hi
  by_cases hx : c.expandable i = true
  · have : c.keeps i = false := by simp [Circuit.keeps, hx]
    simp [hx, this]
  · by_cases hu : 0 < c.usedCount i
    · have : c.keeps i = true := keeps_iff.2 ⟨hu, by simpa using hx⟩
      simp [hx, this]
    · have h0 : c.occ i = 0 := by
        by_contra h0
        exact hu ((occ_pos (child_lt hc) i (mem_range.1 hi)).1 (Nat.pos_of_ne_zero h0))
      simp [h0]

include hc hne hs hsA hoH in
theorem exp_below : ∀ (i : Nat) s, (c.exp srt srtA ordH).segments[i]? = some s → ∀ ch ∈ s.childSegs, ch.1 < i :=
  fun i s h ch hch => ((keptSegs_ok (srt := srt) (srtA := srtA) (ordH := ordH) hc hne hs hsA hoH i s h).child ch hch).1

include hc hne hs hsA hoH in
theorem occ_exp : ∀ k < c.segments.length, c.keeps k = true → (c.exp srt srtA ordH).occ (c.newId k) = c.occ k := by
  have hb' := exp_below (srt := srt) (srtA := srtA) (ordH := ordH) hc hne hs hsA hoH
  have key : ∀ d k, c.segments.length - k = d → k < c.segments.length → c.keeps k = true → (c.exp srt srtA ordH).occ (c.newId k) = c.occ k := by
    intro d
    induction d using Nat.strongRecOn with
    | _ d ih =>
      intro k hd hk hkk
      have hlt : c.newId k < (c.exp srt srtA ordH).segments.length := newId_lt_length hk hkk
      rw [occ_counts hb' _ hlt, occ_counts (child_lt hc) k hk, layer_exp hkk, sum_exp]
      congr 1
      refine Eq.trans ?_ (occ_flow (srtA := srtA) (ordH := ordH) (f := Layered.calls k) hc (fun prev s => calls_expand hsA hoH prev _ s k (keeps_iff.1 hkk).2))
      apply sum_congr rfl
      intro i hi
      have hi := mem_range.1 hi
      by_cases hki : c.keeps i = true
      · rw [if_pos hki, if_pos hki, calls_exp hc hne hoH hki hkk]
        by_cases h0 : atSeg (c.expandedSegs srtA ordH) (Layered.calls k) i = 0
        · rw [h0, Nat.mul_zero, Nat.mul_zero]
        · have : k < i := by
            by_contra hle
            apply h0
            cases h : (c.expandedSegs srtA ordH)[i]? with
            | none => simp [atSeg, h]
            | some s =>
              rw [atSeg_some h]
              refine calls_zero fun ch hch e => ?_
              have := ((expandedSegs_ok (srtA := srtA) (ordH := ordH) hc hsA hoH i s h).child ch hch).1
              omega
          rw [ih (c.segments.length - i) (by omega) i rfl hi hki]
      · rw [if_neg hki, if_neg hki]
  exact fun k hk => key _ k rfl hk

include hc hne hs hsA hoH in
theorem used_exp {k : Nat} (hk : k < c.segments.length) (hkk : c.keeps k = true) : c.usedCount k ≤ (c.exp srt srtA ordH).usedCount (c.newId k) := by
  have hb' := exp_below (srt := srt) (srtA := srtA) (ordH := ordH) hc hne hs hsA hoH
  rw [used_eq (child_lt hc) k, used_eq hb', layer_exp hkk, sum_exp]
  apply Nat.add_le_add_left
  have h := uses_flow (n := c.segments.length) (a := c.calls) (a' := fun i k => atSeg (c.expandedSegs srtA ordH) (Layered.calls k) i) (x := c.expandable)
    (u := fun i => decide (0 < c.usedCount i)) (calls_lt' (child_lt hc))
    (fun e _ hx => by
      obtain ⟨i, hi, h1, h2⟩ := expandable_calls hc hx
      exact ⟨by simpa using expandable_used hx, i, hi, by simpa using h1, h2⟩)
    (fun i hi hu k hxk => expanded_at hc (fun prev s => calls_expand hsA hoH prev _ s k hxk) hi (by simpa using hu))
    k (keeps_iff.1 hkk).2
  simp only [decide_eq_true_eq] at h
  refine le_trans h (sum_le_sum fun i hi => ?_)
  by_cases hki : c.keeps i = true
  · obtain ⟨h1, h2⟩ := keeps_iff.1 hki
    have h3 : 0 < (c.exp srt srtA ordH).usedCount (c.newId i) := by
      have hlt : c.newId i < (c.exp srt srtA ordH).segments.length := newId_lt_length (mem_range.1 hi) hki
      rw [← occ_pos hb' _ hlt, occ_exp hc hne hs hsA hoH i (mem_range.1 hi) hki, occ_pos (child_lt hc) i (mem_range.1 hi)]
      exact h1
    rw [if_pos hki, if_pos h3, calls_exp hc hne hoH hki hkk]
    simp [h1, h2]
  · have : (decide (0 < c.usedCount i) && !(c.expandable i)) = false := by
      rw [Bool.eq_false_iff]
      intro h
      simp only [Bool.and_eq_true, decide_eq_true_eq, Bool.not_eq_true'] at h
      exact hki (keeps_iff.2 h)
    simp [this]

/-- The marks after the pass. -/
def Circuit.expMarks (c : Circuit F) (ext : Nat → Bool) (j : Nat) : Bool := (List.range c.segments.length).any fun i => c.keeps i && c.newId i == j && ext i

theorem expMarks_newId {ext : Nat → Bool} {i : Nat} (hi : i < c.segments.length) (hk : c.keeps i = true) : c.expMarks ext (c.newId i) = ext i := by
  rw [Bool.eq_iff_iff]
  simp only [Circuit.expMarks, List.any_eq_true, List.mem_range, Bool.and_eq_true, beq_iff_eq]
  constructor
  · rintro ⟨j, _, ⟨h1, h2⟩, h3⟩
    rwa [newId_inj h1 hk h2] at h3
  · exact fun h => ⟨i, hi, ⟨hk, rfl⟩, h⟩

include hc hne hs hsA hoH in
theorem exp_marks {ext : Nat → Bool} (h : c.Marks ext) : (c.exp srt srtA ordH).Marks (c.expMarks ext) := by
  intro j hj hext
  simp only [Circuit.expMarks, List.any_eq_true, List.mem_range, Bool.and_eq_true, beq_iff_eq] at hext
  obtain ⟨i, hi, ⟨h1, rfl⟩, h3⟩ := hext
  obtain ⟨h4, h5⟩ := h i hi h3
  refine ⟨?_, le_trans h5 (used_exp hc hne hs hsA hoH hi h1)⟩
  have := layer_exp (srt := srt) (srtA := srtA) (ordH := ordH) h1
  rw [show c.layer i = 0 from List.count_eq_zero.2 h4] at this
  exact List.count_eq_zero.1 this

theorem sum_exp' (f : Nat → Nat) (g : Nat → Nat) (h : ∀ i < c.segments.length, c.keeps i = true → f (c.newId i) = g i) :
    ∑ j ∈ range (c.exp srt srtA ordH).segments.length, f j = ∑ i ∈ range c.segments.length, if c.keeps i then g i else 0 := by
  rw [sum_exp]
  apply sum_congr rfl
  intro i hi
  by_cases hk : c.keeps i = true
  · rw [if_pos hk, if_pos hk, h i (mem_range.1 hi) hk]
  · rw [if_neg hk, if_neg hk]

include hc hne hs hsA hoH in
theorem exp_smaller {ext : Nat → Bool} (h : c.Marks ext) (ho : c.optimized = true) (d d' : Nat) : Smaller d' (c.exp srt srtA ordH) (c.expMarks ext) d c ext := by
  have hocc := occ_exp (srt := srt) (srtA := srtA) (ordH := ordH) hc hne hs hsA hoH
  have hpos : ∀ i < c.segments.length, c.keeps i = true → 0 < c.occ i := fun i hi hk => (occ_pos (child_lt hc) i hi).2 (keeps_iff.1 hk).1
  -- fewer segments
  have hlen : (c.exp srt srtA ordH).segments.length < c.segments.length := by
    have e : (c.exp srt srtA ordH).segments.length = (List.range c.segments.length).countP c.keeps := keptSegs_length
    rw [e]
    simp only [Circuit.optimized, List.any_eq_true, List.mem_range, Bool.or_eq_true, beq_iff_eq] at ho
    obtain ⟨i, hi, ho⟩ := ho
    have hk : ¬ c.keeps i = true := by
      rw [keeps_iff]
      rintro ⟨h1, h2⟩
      rcases ho with ho | ho
      · omega
      · rw [h2] at ho; cases ho
    refine lt_of_le_of_ne (by simpa using List.countP_le_length (p := c.keeps) (l := List.range c.segments.length)) fun e => hk ?_
    have e' : (List.range c.segments.length).countP c.keeps = (List.range c.segments.length).length := by simpa using e
    exact (List.countP_eq_length.1 e') i (List.mem_range.2 hi)
  have hO : (c.exp srt srtA ordH).mO (c.expMarks ext) = ∑ i ∈ range c.segments.length, if c.keeps i then (if ext i then 0 else 1) else 0 :=
    sum_exp' _ _ fun i hi hk => by rw [expMarks_newId hi hk]
  have hT : (c.exp srt srtA ordH).mT = ∑ i ∈ range c.segments.length, if c.keeps i then c.occ i * atSeg (c.expandedSegs srtA ordH) (fun s => ((s.renum c.newId).dedup srt).weight) i else 0 :=
    sum_exp' _ _ fun i hi hk => by rw [hocc i hi hk, atSeg_exp hk]
  have hQ : (c.exp srt srtA ordH).mQ (c.expMarks ext) = ∑ i ∈ range c.segments.length, if c.keeps i then c.occ i * (c.exp srt srtA ordH).big (c.expMarks ext) (c.newId i) else 0 :=
    sum_exp' _ _ fun i hi hk => by rw [hocc i hi hk]
  have hS : (c.exp srt srtA ordH).mS (c.expMarks ext) = ∑ i ∈ range c.segments.length, if c.keeps i then (c.exp srt srtA ordH).big (c.expMarks ext) (c.newId i) else 0 :=
    sum_exp' _ _ fun i hi hk => rfl
  have hOle : ∀ i < c.segments.length, (if c.keeps i then (if ext i then 0 else 1) else 0) ≤ (if ext i then 0 else 1) := by
    intro i _
    split
    · exact le_refl _
    · exact Nat.zero_le _
  have hwd : ∀ i, atSeg (c.expandedSegs srtA ordH) (fun s => ((s.renum c.newId).dedup srt).weight) i ≤ atSeg (c.expandedSegs srtA ordH) Segment.weight i ∧
      atSeg (c.expandedSegs srtA ordH) Segment.own i + atSeg (c.expandedSegs srtA ordH) (fun s => ((s.renum c.newId).dedup srt).weight) i ≤
        atSeg (c.expandedSegs srtA ordH) (fun s => ((s.renum c.newId).dedup srt).own) i + atSeg (c.expandedSegs srtA ordH) Segment.weight i := by
    intro i
    cases hx : (c.expandedSegs srtA ordH)[i]? with
    | none => simp [atSeg, hx]
    | some s =>
      simp only [atSeg_some hx]
      exact dedup_weight hs (s.renum c.newId)
  have hTf := occ_flow (srtA := srtA) (ordH := ordH) (f := Segment.weight) hc (fun prev s => weight_expand prev _ s)
  have hTle : ∀ i < c.segments.length, (if c.keeps i then c.occ i * atSeg (c.expandedSegs srtA ordH) (fun s => ((s.renum c.newId).dedup srt).weight) i else 0) ≤
      if c.keeps i then c.occ i * atSeg (c.expandedSegs srtA ordH) Segment.weight i else 0 := by
    intro i _
    split
    · exact Nat.mul_le_mul_left _ (hwd i).1
    · exact le_refl _
  have hTle' : (c.exp srt srtA ordH).mT ≤ c.mT := by
    rw [hT, Circuit.mT, ← hTf]
    exact sum_le_sum fun i hi => hTle i (mem_range.1 hi)
  have hOle' : (c.exp srt srtA ordH).mO (c.expMarks ext) ≤ c.mO ext := by
    rw [hO]
    exact sum_le_sum fun i hi => hOle i (mem_range.1 hi)
  unfold Smaller
  rcases Nat.lt_or_eq_of_le hOle' with h1 | h1
  · exact .inl h1
  refine .inr ⟨h1, ?_⟩
  rcases Nat.lt_or_eq_of_le hTle' with h2 | h2
  · exact .inl h2
  refine .inr ⟨h2, ?_⟩
  -- only marked segments are expanded, they are small
  have hsmall : ∀ i < c.segments.length, c.keeps i = false → c.big ext i = 0 := by
    intro i hi hk
    have h3 := eq_of_sum_eq hOle (hO.symm.trans h1) i hi
    rw [hk] at h3
    by_cases he : ext i = true
    · obtain ⟨_, h4⟩ := h i hi he
      have hx : c.expandable i = true := by
        cases hx : c.expandable i with
        | true => rfl
        | false => rw [keeps_iff.2 ⟨by omega, hx⟩] at hk; cases hk
      have h5 : atSeg c.segments Segment.own i ≤ 4 := by
        unfold Circuit.expandable at hx
        rw [List.getElem?_eq_getElem hi] at hx
        simp only [Bool.and_eq_true, Bool.or_eq_true, decide_eq_true_eq] at hx
        rw [atSeg_some (List.getElem?_eq_getElem hi)]
        rcases hx.2 with h6 | h6
        · omega
        · simp only [Segment.gateCount] at h6
          simp only [Segment.own]
          omega
      unfold Circuit.big
      rw [if_neg]
      simp only [Bool.and_eq_true, decide_eq_true_eq, not_and]
      intro _
      omega
    · simp [Circuit.big, he]
  have hwe : ∀ i < c.segments.length, c.keeps i = true → atSeg (c.expandedSegs srtA ordH) (fun s => ((s.renum c.newId).dedup srt).weight) i = atSeg (c.expandedSegs srtA ordH) Segment.weight i := by
    intro i hi hk
    have h3 := eq_of_sum_eq hTle ((hT.symm.trans h2).trans hTf.symm) i hi
    rw [if_pos hk, if_pos hk] at h3
    exact Nat.eq_of_mul_eq_mul_left (hpos i hi hk) h3
  have hown : ∀ i < c.segments.length, c.keeps i = true → atSeg c.segments Segment.own i ≤ atSeg (c.exp srt srtA ordH).segments Segment.own (c.newId i) := by
    intro i hi hk
    rw [atSeg_exp hk]
    have h3 := (hwd i).2
    rw [hwe i hi hk] at h3
    have h4 := expanded_at (srtA := srtA) (ordH := ordH) (f := Segment.own) hc (fun prev s => own_expand prev _ s) hi (keeps_iff.1 hk).1
    omega
  have hbig : ∀ i < c.segments.length, c.keeps i = true → c.big ext i ≤ (c.exp srt srtA ordH).big (c.expMarks ext) (c.newId i) := by
    intro i hi hk
    unfold Circuit.big
    rw [expMarks_newId hi hk]
    have := hown i hi hk
    by_cases h3 : (ext i && decide (5 ≤ atSeg c.segments Segment.own i)) = true
    · rw [if_pos h3, if_pos]
      simp only [Bool.and_eq_true, decide_eq_true_eq] at h3 ⊢
      exact ⟨h3.1, by omega⟩
    · rw [if_neg h3]; exact Nat.zero_le _
  have hQle : ∀ i < c.segments.length, c.occ i * c.big ext i ≤ if c.keeps i then c.occ i * (c.exp srt srtA ordH).big (c.expMarks ext) (c.newId i) else 0 := by
    intro i hi
    by_cases hk : c.keeps i = true
    · rw [if_pos hk]; exact Nat.mul_le_mul_left _ (hbig i hi hk)
    · rw [hsmall i hi (by simpa using hk)]; simp
  have hQle' : c.mQ ext ≤ (c.exp srt srtA ordH).mQ (c.expMarks ext) := by
    rw [hQ]
    exact sum_le_sum fun i hi => hQle i (mem_range.1 hi)
  rcases Nat.lt_or_eq_of_le hQle' with h3 | h3
  · exact .inl h3
  refine .inr ⟨h3.symm, .inr ⟨?_, .inl hlen⟩⟩
  rw [hS, Circuit.mS]
  apply sum_congr rfl
  intro i hi
  have hi := mem_range.1 hi
  by_cases hk : c.keeps i = true
  · rw [if_pos hk]
    have h4 := eq_of_sum_eq hQle (h3.trans hQ) i hi
    rw [if_pos hk] at h4
    exact (Nat.eq_of_mul_eq_mul_left (hpos i hi hk) h4).symm
  · rw [if_neg hk, hsmall i hi (by simpa using hk)]

/-- After the pass every segment is used. -/
theorem exp_used : ∀ j < (c.exp srt srtA ordH).segments.length, c.Ok → c.NoEmptyAllocs → (∀ l, (srt l).Perm l) → (∀ l, (srtA l).Perm l) → (∀ l, (ordH l).Perm l) →
    0 < (c.exp srt srtA ordH).usedCount j := by
  intro j hj hc hne hs hsA hoH
  obtain ⟨i, s, hk, h1, rfl, _⟩ := keptSegs_get_rev (List.getElem?_eq_getElem (l := c.keptSegs srt srtA ordH) hj)
  have hi : i < c.segments.length := by
    have := (List.getElem?_eq_some_iff.1 h1).1
    rwa [expandedSegs_length] at this
  exact lt_of_lt_of_le (keeps_iff.1 hk).1 (used_exp hc hne hs hsA hoH hi hk)

end expand

end Verif.Layered
