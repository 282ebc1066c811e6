import Verif.Layered.LoopMeasure

/-!
# A measure for the loop of `compile_step_3`: `find_common_parts`
-/

set_option linter.unusedSectionVars false
set_option linter.unusedSimpArgs false

namespace Verif.Layered

open Verif.IR (Coef)
open Finset (range sum_congr mem_range sum_le_sum)

variable {F : Type} [CommRing F] [DecidableEq F] {c : Circuit F} {srt : List (Gate F) → List (Gate F)} {p : List Nat} {groups : List (List (UniGate F))} {reps : List Nat}

/-! ## Gates -/

theorem filter_not_length {A : Type} [DecidableEq A] {l gs : List A} (hnd : gs.Nodup) (hsub : ∀ x ∈ gs, x ∈ l) : (l.filter fun x => !gs.contains x).length + gs.length ≤ l.length := by
  have h1 : gs ⊆ l.filter fun x => gs.contains x := fun x hx => List.mem_filter.2 ⟨hsub x hx, by simpa using hx⟩
  have h2 := (List.subperm_of_subset hnd h1).length_le
  have h3 := List.length_eq_length_filter_add (l := l) (fun x => gs.contains x)
  omega

theorem ofKind_contains {k : Nat} {gs : List (UniGate F)} (g : Gate F) : (ofKind k gs).contains g = gs.contains (k, g) := by
  rw [Bool.eq_iff_iff, List.contains_iff_mem, List.contains_iff_mem]
  exact mem_ofKind

theorem removeGates_weight (hs : ∀ l, (srt l).Perm l) {s : Segment F} {gs : List (UniGate F)} (hnd : gs.Nodup) (hsub : ∀ x ∈ gs, x ∈ s.uni) :
    (s.removeGates gs).weight + (fromUni srt gs).weight ≤ s.weight := by
  have key : ∀ (k : Nat) (l : List (Gate F)), (∀ g, (k, g) ∈ s.uni → g ∈ l) → (l.filter fun g => !gs.contains (k, g)).length + (ofKind k gs).length ≤ l.length := by
    intro k l hl
    have h := filter_not_length (l := l) (nodup_ofKind hnd k) (fun g hg => hl g (hsub _ (mem_ofKind.1 hg)))
    simpa only [ofKind_contains] using h
  have h0 := key 0 s.gateMuls (fun g hg => by simpa [Segment.uni] using hg)
  have h1 := key 1 s.gateAdds (fun g hg => by simpa [Segment.uni] using hg)
  have h2 := key 2 s.gateConsts (fun g hg => by simpa [Segment.uni] using hg)
  have h3 := key 3 s.gateCustoms (fun g hg => by simpa [Segment.uni] using hg)
  simp only [Segment.weight, Segment.removeGates, fromUni, (hs _).length_eq]
  omega

theorem fromUni_own (hs : ∀ l, (srt l).Perm l) {gs : List (UniGate F)} (h4 : ∀ x ∈ gs, x.1 < 4) : (fromUni srt gs).own = gs.length := by
  have key : ∀ gs : List (UniGate F), (∀ x ∈ gs, x.1 < 4) → (ofKind 0 gs).length + (ofKind 1 gs).length + (ofKind 2 gs).length + (ofKind 3 gs).length = gs.length := by
    intro gs
    induction gs with
    | nil => intro _; rfl
    | cons x gs ih =>
      intro h
      have h1 := ih (fun y hy => h y (by simp [hy]))
      have h2 := h x (by simp)
      obtain ⟨j, g⟩ := x
      simp only at h2
      simp only [ofKind_cons, List.length_cons]
      obtain rfl | rfl | rfl | rfl : j = 0 ∨ j = 1 ∨ j = 2 ∨ j = 3 := by omega
      all_goals simp; omega
  simp only [Segment.own, fromUni, (hs _).length_eq]
  exact key gs h4

/-! ## The new circuit -/

/-- What is known about the chosen common parts. -/
structure RepsOk (c : Circuit F) (p : List Nat) (groups : List (List (UniGate F))) (reps : List Nat) : Prop where
  grp : CCtx c.segments p groups reps
  two : ∀ r ∈ reps, 2 ≤ (List.range c.segments.length).countP fun j => repOf p j == r
  ten : ∀ r ∈ reps, 10 ≤ (groups.getD r []).length
  nodup : reps.Nodup

/-- The circuit after the pass. -/
def Circuit.com (srt : List (Gate F) → List (Gate F)) (p : List Nat) (groups : List (List (UniGate F))) (reps : List Nat) (c : Circuit F) : Circuit F :=
  ⟨c.numPublicInputs, c.numActualOutputs, c.expectedNumOutputZeroes, newSegs srt c.segments p groups reps, c.layerIds.map (reps.length + ·)⟩

theorem com_length : (c.com srt p groups reps).segments.length = reps.length + c.segments.length := by simp [Circuit.com, newSegs]

theorem sum_com (f : Nat → Nat) : ∑ j ∈ range (c.com srt p groups reps).segments.length, f j =
    ∑ k ∈ range reps.length, f k + ∑ i ∈ range c.segments.length, f (reps.length + i) := by rw [com_length, Finset.sum_range_add]

theorem atSeg_com (f : Segment F → Nat) {i : Nat} (hi : i < c.segments.length) :
    atSeg (c.com srt p groups reps).segments f (reps.length + i) = f ((commonPre srt p groups reps c.segments[i] i).dedup srt) := by
  rw [atSeg_some (show (c.com srt p groups reps).segments[reps.length + i]? = _ from newSegs_seg (List.getElem?_eq_getElem hi)), commonSeg_eq]

theorem atSeg_com_low (f : Segment F → Nat) {k : Nat} (hk : k < reps.length) :
    atSeg (c.com srt p groups reps).segments f k = f (fromUni srt (groups.getD reps[k] [])) :=
  atSeg_some (show (c.com srt p groups reps).segments[k]? = _ from newSegs_common (List.getElem?_eq_getElem hk))

/-- The segment shares a common part. -/
def member (p reps : List Nat) (i : Nat) : Bool := reps.contains (repOf p i)

/-- The number of the common part. -/
def partOf (p reps : List Nat) (i : Nat) : Nat := reps.idxOf (repOf p i)

theorem calls_com_old {i j : Nat} (hi : i < c.segments.length) : (c.com srt p groups reps).calls (reps.length + i) (reps.length + j) = c.calls i j := by
  unfold Circuit.calls
  rw [atSeg_com _ hi, atSeg_some (List.getElem?_eq_getElem hi)]
  have e : ∀ chs : List (Nat × List Alloc), (chs.map ((fun ch : Nat × List Alloc => ch.2.length * if ch.1 = reps.length + j then 1 else 0) ∘ fun ch => (reps.length + ch.1, ch.2))).sum =
      (chs.map fun ch => ch.2.length * if ch.1 = j then 1 else 0).sum := by
    intro chs
    congr 1
    apply List.map_congr_left
    intro ch _
    simp
  unfold commonPre
  by_cases h : reps.contains (repOf p i) = true
  · have hlt := (idxOf_get h).2
    rw [if_pos h]
    simp only [Layered.calls, callSum, Segment.dedup, List.map_append, List.sum_append, List.map_map, e, List.map_cons, List.map_nil, List.sum_cons, List.sum_nil]
    rw [if_neg (by omega)]
    simp
  · rw [if_neg h]
    simp only [Layered.calls, callSum, Segment.dedup, Segment.renum, List.map_map]
    exact e _

theorem calls_com_new {i k : Nat} (hi : i < c.segments.length) (hk : k < reps.length) :
    (c.com srt p groups reps).calls (reps.length + i) k = if member p reps i && partOf p reps i == k then 1 else 0 := by
  unfold Circuit.calls
  rw [atSeg_com _ hi]
  have e : ∀ chs : List (Nat × List Alloc), (chs.map ((fun ch : Nat × List Alloc => ch.2.length * if ch.1 = k then 1 else 0) ∘ fun ch => (reps.length + ch.1, ch.2))).sum = 0 := by
    intro chs
    rw [List.sum_eq_zero]
    intro x hx
    obtain ⟨ch, _, rfl⟩ := List.mem_map.1 hx
    simp only [Function.comp_apply]
    rw [if_neg (by omega), Nat.mul_zero]
  unfold commonPre member partOf
  by_cases h : reps.contains (repOf p i) = true
  · rw [if_pos h]
    simp only [Layered.calls, callSum, Segment.dedup, List.map_append, List.sum_append, List.map_map, e, List.map_cons, List.map_nil, List.sum_cons, List.sum_nil, h, Bool.true_and]
    by_cases hk' : reps.idxOf (repOf p i) = k <;> simp [hk']
  · rw [if_neg h]
    have h' : reps.contains (repOf p i) = false := by simpa using h
    simp only [Layered.calls, callSum, Segment.dedup, Segment.renum, List.map_map, h', Bool.false_and]
    exact e _

theorem calls_com_low {k j : Nat} (hk : k < reps.length) : (c.com srt p groups reps).calls k j = 0 := by
  unfold Circuit.calls
  rw [atSeg_com_low _ hk]
  rfl

theorem layer_com_old (i : Nat) : (c.com srt p groups reps).layer (reps.length + i) = c.layer i := by
  unfold Circuit.layer Circuit.com
  exact List.count_map_of_injective _ _ (fun a b h => by simpa using h) _

theorem layer_com_new {k : Nat} (hk : k < reps.length) : (c.com srt p groups reps).layer k = 0 := by
  unfold Circuit.layer Circuit.com
  rw [List.count_eq_zero]
  intro h
  obtain ⟨i, _, e⟩ := List.mem_map.1 h
  omega

theorem partOf_lt {i : Nat} (h : member p reps i = true) : partOf p reps i < reps.length := (idxOf_get h).2

theorem member_iff (hr : reps.Nodup) {i k : Nat} (hk : k < reps.length) : (member p reps i && partOf p reps i == k) = (repOf p i == reps[k]) := by
  rw [Bool.eq_iff_iff]
  simp only [member, partOf, Bool.and_eq_true, beq_iff_eq]
  constructor
  · rintro ⟨h1, h2⟩
    have h3 := (idxOf_get h1).1
    rw [h2, List.getElem?_eq_getElem hk] at h3
    exact (Option.some.inj h3).symm
  · intro h
    rw [h]
    exact ⟨by simp, hr.idxOf_getElem k hk⟩

section pass

variable (hr : RepsOk c p groups reps) (hb : ∀ (i : Nat) s, c.segments[i]? = some s → ∀ ch ∈ s.childSegs, ch.1 < i)
  (hb' : ∀ (i : Nat) s, (c.com srt p groups reps).segments[i]? = some s → ∀ ch ∈ s.childSegs, ch.1 < i) (hu : ∀ j < c.segments.length, 0 < c.usedCount j)

include hb hb' in
theorem occ_com : (∀ i < c.segments.length, (c.com srt p groups reps).occ (reps.length + i) = c.occ i) ∧
    ∀ k < reps.length, (c.com srt p groups reps).occ k = ∑ i ∈ range c.segments.length, if member p reps i && partOf p reps i == k then c.occ i else 0 := by
  let m : Nat → Nat := fun j => if j < reps.length then ∑ i ∈ range c.segments.length, if member p reps i && partOf p reps i == j then c.occ i else 0 else c.occ (j - reps.length)
  have m1 : ∀ i, m (reps.length + i) = c.occ i := by
    intro i
    simp only [m]
    rw [if_neg (by omega)]
    congr 1
    omega
  have hm : Counts (c.com srt p groups reps).segments.length (c.com srt p groups reps).calls (c.com srt p groups reps).layer m := by
    intro j hj
    rw [sum_com, Finset.sum_eq_zero (s := range reps.length) (fun k hk => by rw [calls_com_low (mem_range.1 hk), Nat.mul_zero]), Nat.zero_add]
    by_cases hk : j < reps.length
    · have mj : m j = ∑ i ∈ range c.segments.length, if member p reps i && partOf p reps i == j then c.occ i else 0 := by
        simp only [m]
        rw [if_pos hk]
      rw [layer_com_new hk, Nat.zero_add, mj]
      apply sum_congr rfl
      intro i hi
      rw [m1, calls_com_new (mem_range.1 hi) hk]
      by_cases h : (member p reps i && partOf p reps i == j) = true <;> simp [h]
    · obtain ⟨i, rfl⟩ : ∃ i, j = reps.length + i := ⟨j - reps.length, by omega⟩
      rw [com_length] at hj
      rw [layer_com_old, m1, occ_counts hb i (by omega)]
      congr 1
      apply sum_congr rfl
      intro i' hi'
      rw [m1, calls_com_old (mem_range.1 hi')]
  have hq := Counts.unique (calls_lt' hb') (occ_counts hb') hm
  rw [com_length] at hq
  constructor
  · intro i hi
    rw [hq _ (by omega), m1]
  · intro k hk
    rw [hq _ (by omega)]
    simp only [m, if_pos hk]

include hr in
theorem part_members {k : Nat} (hk : k < reps.length) : 2 ≤ ∑ i ∈ range c.segments.length, if member p reps i && partOf p reps i == k then 1 else 0 := by
  have h := hr.two reps[k] (List.getElem_mem hk)
  refine le_trans h (le_of_eq ?_)
  have : ∀ n, (List.range n).countP (fun j => repOf p j == reps[k]) = ∑ i ∈ range n, if member p reps i && partOf p reps i == k then 1 else 0 := by
    intro n
    induction n with
    | zero => rfl
    | succ n ih =>
      rw [List.range_succ, List.countP_append, Finset.sum_range_succ, ih, member_iff hr.nodup hk]
      simp [List.countP_cons]
  exact this _

include hr hb hb' hu in
theorem used_com : (∀ i < c.segments.length, (c.com srt p groups reps).usedCount (reps.length + i) = c.usedCount i) ∧
    (∀ k < reps.length, 2 ≤ (c.com srt p groups reps).usedCount k) ∧ ∀ j < (c.com srt p groups reps).segments.length, 0 < (c.com srt p groups reps).usedCount j := by
  obtain ⟨o1, o2⟩ := occ_com (srt := srt) (p := p) (groups := groups) (reps := reps) hb hb'
  have hpos : ∀ i < c.segments.length, 0 < c.occ i := fun i hi => (occ_pos hb i hi).2 (hu i hi)
  have hall : ∀ j < (c.com srt p groups reps).segments.length, 0 < (c.com srt p groups reps).usedCount j := by
    intro j hj
    rw [← occ_pos hb' j hj]
    by_cases hk : j < reps.length
    · rw [o2 j hk]
      have h2 := part_members hr hk
      obtain ⟨i, hi, hn⟩ := Finset.exists_ne_zero_of_sum_ne_zero (show ∑ i ∈ range c.segments.length, (if member p reps i && partOf p reps i == j then 1 else 0) ≠ 0 by omega)
      have hm : (member p reps i && partOf p reps i == j) = true := by
        by_contra h
        exact hn (if_neg h)
      refine lt_of_lt_of_le ?_ (Finset.single_le_sum (f := fun i => if member p reps i && partOf p reps i == j then c.occ i else 0) (fun _ _ => Nat.zero_le _) hi)
      simp only [hm, if_true]
      exact hpos i (mem_range.1 hi)
    · obtain ⟨i, rfl⟩ : ∃ i, j = reps.length + i := ⟨j - reps.length, by omega⟩
      rw [com_length] at hj
      rw [o1 i (by omega)]
      exact hpos i (by omega)
  have hsum : ∀ k, (∑ i ∈ range (c.com srt p groups reps).segments.length, if 0 < (c.com srt p groups reps).usedCount i then (c.com srt p groups reps).calls i k else 0) =
      ∑ i ∈ range c.segments.length, (c.com srt p groups reps).calls (reps.length + i) k := by
    intro k
    have : (∑ i ∈ range (c.com srt p groups reps).segments.length, if 0 < (c.com srt p groups reps).usedCount i then (c.com srt p groups reps).calls i k else 0) =
        ∑ i ∈ range (c.com srt p groups reps).segments.length, (c.com srt p groups reps).calls i k :=
      sum_congr rfl fun i hi => if_pos (hall i (mem_range.1 hi))
    rw [this, sum_com, Finset.sum_eq_zero (s := range reps.length) (fun k' hk' => calls_com_low (mem_range.1 hk')), Nat.zero_add]
  refine ⟨?_, ?_, hall⟩
  · intro i _
    rw [used_eq hb', used_eq hb, layer_com_old, hsum]
    congr 1
    apply sum_congr rfl
    intro j hj
    rw [if_pos (hu j (mem_range.1 hj)), calls_com_old (mem_range.1 hj)]
  · intro k hk
    rw [used_eq hb', hsum, layer_com_new hk]
    refine le_trans (part_members hr hk) ?_
    rw [Nat.mul_zero, Nat.zero_add]
    exact le_of_eq (sum_congr rfl fun i hi => (calls_com_new (mem_range.1 hi) hk).symm)

/-- The marks after the pass. -/
def comMarks (n : Nat) (ext : Nat → Bool) (j : Nat) : Bool := decide (j < n) || ext (j - n)

include hr hb hb' hu in
theorem com_marks {ext : Nat → Bool} (h : c.Marks ext) : (c.com srt p groups reps).Marks (comMarks reps.length ext) := by
  obtain ⟨u1, u2, _⟩ := used_com (srt := srt) hr hb hb' hu
  intro j hj hext
  by_cases hk : j < reps.length
  · exact ⟨List.count_eq_zero.1 (layer_com_new (c := c) (srt := srt) (p := p) (groups := groups) hk), u2 j hk⟩
  · obtain ⟨i, rfl⟩ : ∃ i, j = reps.length + i := ⟨j - reps.length, by omega⟩
    rw [com_length] at hj
    have e : reps.length + i - reps.length = i := by omega
    simp only [comMarks, e, Bool.or_eq_true, decide_eq_true_eq] at hext
    obtain ⟨h1, h2⟩ := h i (by omega) (hext.resolve_left hk)
    refine ⟨?_, by rw [u1 i (by omega)]; exact h2⟩
    have := layer_com_old (c := c) (srt := srt) (p := p) (groups := groups) (reps := reps) i
    rw [show c.layer i = 0 from List.count_eq_zero.2 h1] at this
    exact List.count_eq_zero.1 this

/-- A sum over the common parts, weighted by occurrences. -/
theorem part_sum (g : Nat → Nat) {n : Nat} (o : Nat → Nat) : (∑ k ∈ range reps.length, (∑ i ∈ range n, if member p reps i && partOf p reps i == k then o i else 0) * g k) =
    ∑ i ∈ range n, o i * if member p reps i then g (partOf p reps i) else 0 := by
  have : ∀ k ∈ range reps.length, (∑ i ∈ range n, if member p reps i && partOf p reps i == k then o i else 0) * g k =
      ∑ i ∈ range n, if member p reps i && partOf p reps i == k then o i * g k else 0 := by
    intro k _
    rw [Finset.sum_mul]
    apply sum_congr rfl
    intro i _
    by_cases h : (member p reps i && partOf p reps i == k) = true <;> simp [h]
  rw [sum_congr rfl this, Finset.sum_comm]
  apply sum_congr rfl
  intro i _
  by_cases h : member p reps i = true
  · rw [Finset.sum_eq_single (partOf p reps i)]
    · simp [h]
    · intro b _ hne
      rw [if_neg]
      simp only [h, Bool.true_and, beq_iff_eq]
      exact fun e => hne e.symm
    · intro hn
      exact absurd (mem_range.2 (partOf_lt h)) hn
  · simp [h]

include hr hb hb' hu in
theorem com_smaller (hs : ∀ l, (srt l).Perm l) {ext : Nat → Bool} (d d' : Nat) (hd : reps ≠ [] ∨ d' < d) :
    Smaller d' (c.com srt p groups reps) (comMarks reps.length ext) d c ext := by
  obtain ⟨o1, o2⟩ := occ_com (srt := srt) (p := p) (groups := groups) (reps := reps) hb hb'
  have hpos : ∀ i < c.segments.length, 0 < c.occ i := fun i hi => (occ_pos hb i hi).2 (hu i hi)
  let pw : Nat → Nat := fun k => atSeg (c.com srt p groups reps).segments Segment.weight k
  let nw : Nat → Nat := fun i => atSeg (c.com srt p groups reps).segments Segment.weight (reps.length + i)
  let nb : Nat → Nat := fun i => (c.com srt p groups reps).big (comMarks reps.length ext) (reps.length + i)
  have hmk : ∀ i, comMarks reps.length ext (reps.length + i) = ext i := by
    intro i
    have e : reps.length + i - reps.length = i := by omega
    simp [comMarks, e]
  have hO : (c.com srt p groups reps).mO (comMarks reps.length ext) = c.mO ext := by
    unfold Circuit.mO
    rw [sum_com, Finset.sum_eq_zero (s := range reps.length) (fun k hk => by simp [comMarks, mem_range.1 hk]), Nat.zero_add]
    exact sum_congr rfl fun i _ => by rw [hmk]
  have hT : (c.com srt p groups reps).mT = ∑ i ∈ range c.segments.length, c.occ i * ((if member p reps i then pw (partOf p reps i) else 0) + nw i) := by
    unfold Circuit.mT
    rw [sum_com]
    rw [sum_congr rfl (fun k hk => by rw [o2 k (mem_range.1 hk)]), part_sum pw c.occ, ← Finset.sum_add_distrib]
    apply sum_congr rfl
    intro i hi
    rw [o1 i (mem_range.1 hi), Nat.mul_add]
  have hbp : ∀ k < reps.length, (c.com srt p groups reps).big (comMarks reps.length ext) k = 1 := by
    intro k hk
    unfold Circuit.big
    rw [if_pos]
    have h10 := hr.ten reps[k] (List.getElem_mem hk)
    have h4 : ∀ x ∈ groups.getD reps[k] [], x.1 < 4 := by
      have h2 := part_members hr hk
      obtain ⟨i, hi, hn⟩ := Finset.exists_ne_zero_of_sum_ne_zero (show ∑ i ∈ range c.segments.length, (if member p reps i && partOf p reps i == k then 1 else 0) ≠ 0 by omega)
      have hm : (member p reps i && partOf p reps i == k) = true := by
        by_contra h
        exact hn (if_neg h)
      rw [member_iff hr.nodup hk, beq_iff_eq] at hm
      have h3 := (hr.grp.grp i _ (List.getElem?_eq_getElem (mem_range.1 hi)) (by rw [hm]; simp)).2
      rw [hm] at h3
      exact fun x hx => (mem_uni (k := x.1) (g := x.2) (h3 x hx)).2
    rw [atSeg_com_low _ hk, fromUni_own hs h4]
    simp only [comMarks, hk, decide_true, Bool.true_or, Bool.true_and, decide_eq_true_eq]
    omega
  have hQ : (c.com srt p groups reps).mQ (comMarks reps.length ext) = ∑ i ∈ range c.segments.length, c.occ i * ((if member p reps i then 1 else 0) + nb i) := by
    unfold Circuit.mQ
    rw [sum_com]
    rw [sum_congr rfl (fun k hk => by rw [o2 k (mem_range.1 hk), hbp k (mem_range.1 hk)]), part_sum (fun _ => 1) c.occ, ← Finset.sum_add_distrib]
    apply sum_congr rfl
    intro i hi
    rw [o1 i (mem_range.1 hi), Nat.mul_add]
  have hS : (c.com srt p groups reps).mS (comMarks reps.length ext) = reps.length + ∑ i ∈ range c.segments.length, nb i := by
    unfold Circuit.mS
    rw [sum_com, sum_congr rfl (fun k hk => hbp k (mem_range.1 hk))]
    simp [nb]
  -- weights
  have hwle : ∀ i < c.segments.length, (if member p reps i then pw (partOf p reps i) else 0) + nw i ≤ atSeg c.segments Segment.weight i ∧
      (member p reps i = false → atSeg c.segments Segment.own i + nw i ≤ atSeg (c.com srt p groups reps).segments Segment.own (reps.length + i) + atSeg c.segments Segment.weight i) := by
    intro i hi
    have e1 : nw i = _ := atSeg_com (srt := srt) (p := p) (groups := groups) (reps := reps) Segment.weight hi
    have hs' := List.getElem?_eq_getElem hi
    have hd1 := dedup_weight hs (commonPre srt p groups reps c.segments[i] i)
    by_cases hm : member p reps i = true
    · have e2 : pw (partOf p reps i) = (fromUni srt (groups.getD (repOf p i) [])).weight := by
        have := atSeg_com_low (c := c) (srt := srt) (p := p) (groups := groups) Segment.weight (partOf_lt hm)
        simp only [pw]
        rw [this]
        have h3 : reps[partOf p reps i]? = some (repOf p i) := (idxOf_get hm).1
        rw [List.getElem?_eq_getElem (partOf_lt hm)] at h3
        have h4 : reps[partOf p reps i]'(partOf_lt hm) = repOf p i := Option.some.inj h3
        rw [h4]
      obtain ⟨g1, g2⟩ := hr.grp.grp i _ hs' hm
      have h5 := removeGates_weight hs g1 g2
      have e3 : (commonPre srt p groups reps c.segments[i] i).weight = (c.segments[i].removeGates (groups.getD (repOf p i) [])).weight := by
        have hm' : reps.contains (repOf p i) = true := hm
        unfold commonPre
        rw [if_pos hm']
        rfl
      refine ⟨?_, fun h => by rw [h] at hm; cases hm⟩
      rw [if_pos hm, e1, e2, atSeg_some hs']
      rw [e3] at hd1
      omega
    · have e3 : (commonPre srt p groups reps c.segments[i] i) = c.segments[i].renum (reps.length + ·) := by
        have hm' : ¬ reps.contains (repOf p i) = true := hm
        unfold commonPre
        rw [if_neg hm']
      rw [if_neg hm, e1, atSeg_com Segment.own hi, atSeg_some hs', atSeg_some hs', Nat.zero_add]
      rw [e3] at hd1 ⊢
      exact ⟨hd1.1, fun _ => hd1.2⟩
  have hTle : ∀ i < c.segments.length, c.occ i * ((if member p reps i then pw (partOf p reps i) else 0) + nw i) ≤ c.occ i * atSeg c.segments Segment.weight i :=
    fun i hi => Nat.mul_le_mul_left _ (hwle i hi).1
  have hTle' : (c.com srt p groups reps).mT ≤ c.mT := by
    rw [hT]
    exact sum_le_sum fun i hi => hTle i (mem_range.1 hi)
  refine .inr ⟨hO, ?_⟩
  rcases Nat.lt_or_eq_of_le hTle' with h2 | h2
  · exact .inl h2
  refine .inr ⟨h2, ?_⟩
  have hb1 : ∀ i, c.big ext i ≤ 1 := by
    intro i
    unfold Circuit.big
    split <;> omega
  have hq : ∀ i < c.segments.length, c.big ext i ≤ (if member p reps i then 1 else 0) + nb i := by
    intro i hi
    by_cases hm : member p reps i = true
    · rw [if_pos hm]
      have := hb1 i
      omega
    · rw [if_neg hm, Nat.zero_add]
      have h3 := eq_of_sum_eq hTle (hT.symm.trans h2) i hi
      have h4 := Nat.eq_of_mul_eq_mul_left (hpos i hi) h3
      rw [if_neg hm, Nat.zero_add] at h4
      have h5 := (hwle i hi).2 (by simpa using hm)
      simp only [nb, Circuit.big, hmk]
      by_cases h6 : (ext i && decide (5 ≤ atSeg c.segments Segment.own i)) = true
      · rw [if_pos h6, if_pos]
        simp only [Bool.and_eq_true, decide_eq_true_eq] at h6 ⊢
        exact ⟨h6.1, by omega⟩
      · rw [if_neg h6]; exact Nat.zero_le _
  have hQle : ∀ i < c.segments.length, c.occ i * c.big ext i ≤ c.occ i * ((if member p reps i then 1 else 0) + nb i) := fun i hi => Nat.mul_le_mul_left _ (hq i hi)
  have hQle' : c.mQ ext ≤ (c.com srt p groups reps).mQ (comMarks reps.length ext) := by
    rw [hQ]
    exact sum_le_sum fun i hi => hQle i (mem_range.1 hi)
  rcases Nat.lt_or_eq_of_le hQle' with h3 | h3
  · exact .inl h3
  refine .inr ⟨h3.symm, ?_⟩
  have hbe : c.mS ext = ∑ i ∈ range c.segments.length, ((if member p reps i then 1 else 0) + nb i) := by
    unfold Circuit.mS
    apply sum_congr rfl
    intro i hi
    have hi := mem_range.1 hi
    exact Nat.eq_of_mul_eq_mul_left (hpos i hi) (eq_of_sum_eq hQle (h3.trans hQ) i hi)
  have hmem : 2 * reps.length ≤ ∑ i ∈ range c.segments.length, if member p reps i then 1 else 0 := by
    have h4 := part_sum (p := p) (reps := reps) (n := c.segments.length) (fun _ => 1) (fun _ => 1)
    simp only [Nat.one_mul, Nat.mul_one] at h4
    rw [← h4]
    calc 2 * reps.length = ∑ k ∈ range reps.length, 2 := by simp [Nat.mul_comm]
      _ ≤ _ := sum_le_sum fun k hk => part_members hr (mem_range.1 hk)
  rw [Finset.sum_add_distrib] at hbe
  rcases hd with hd | hd
  · have := List.length_pos_iff.2 hd
    left
    rw [hS, hbe]
    omega
  · by_cases hd0 : reps = []
    · right
      subst hd0
      refine ⟨?_, .inr ⟨by rw [com_length]; simp, hd⟩⟩
      rw [hS, hbe]
      have : ∀ i, member p [] i = false := fun i => rfl
      simp [this]
    · have := List.length_pos_iff.2 hd0
      left
      rw [hS, hbe]
      omega

end pass

end Verif.Layered
