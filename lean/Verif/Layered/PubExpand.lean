import Verif.Layered.PubCount

/-!
# `expand_small_segments` keeps the numbers of public-input gates
-/

set_option linter.unusedSectionVars false
set_option linter.unusedSimpArgs false

namespace Verif.Layered

open Verif.IR (Coef)

variable {F : Type}

theorem pubAt_expandGates {prev : List (Segment F)} {should : Nat → Bool} (get : Segment F → List (Gate F)) (s : Segment F) :
    pubAt (expandGates prev should get s) = pubAt (get s) + (s.childSegs.map fun ch => pubAt (childGates prev should get ch)).sum := by
  unfold expandGates
  rw [pubAt_append, pubAt_flatMap]
  rfl

theorem allGates_pubAt (s : Segment F) : pubAt s.allGates = pubAt s.gateMuls + pubAt s.gateAdds + pubAt s.gateConsts + pubAt s.gateCustoms := by
  simp only [Segment.allGates, pubAt_append]

/-- `expand_segment`. -/
theorem expandSegment_pub {srtA : List Alloc → List Alloc} (hsA : ∀ l, (srtA l).Perm l) {ordH : List (Nat × List Alloc) → List (Nat × List Alloc)} (hoH : ∀ l, (ordH l).Perm l)
    {segs prev : List (Segment F)} {should : Nat → Bool} {i : Nat} {s : Segment F} (hx : ExpCtx segs prev should i s) (hb : Below' segs) :
    pubCount segs (i + 1) (expandSegment srtA ordH prev should s) = pubCount segs (i + 1) s := by
  simp only [pubCount, allGates_pubAt]
  simp only [expandSegment]
  rw [chSum_perm _ (hoH _), chSum_srt _ hsA, expandChild_sum, chSum_nil, zero_add]
  simp only [pubAt_expandGates]
  generalize hw : childPub segs (pubCount segs i) = w
  have key : chSum w s.childSegs = (s.childSegs.map fun ch => pubAt (childGates prev should Segment.gateMuls ch)).sum +
      (s.childSegs.map fun ch => pubAt (childGates prev should Segment.gateAdds ch)).sum +
      (s.childSegs.map fun ch => pubAt (childGates prev should Segment.gateConsts ch)).sum +
      (s.childSegs.map fun ch => pubAt (childGates prev should Segment.gateCustoms ch)).sum +
      (s.childSegs.map (childRest w prev should)).sum := by
    rw [← sum_map_add', ← sum_map_add', ← sum_map_add', ← sum_map_add', chSum]
    congr 1
    apply List.map_congr_left
    intro ch hch
    obtain ⟨h1, sub, h2, h3, h4⟩ := hx.ok.child ch hch
    unfold childGates childRest
    rw [hx.look ch hch, h2]
    split
    · simp only [pubAt_flatMap, pubAt_shift]
      rw [← sum_map_add', ← sum_map_add', ← sum_map_add', ← sum_map_add']
      congr 1
      apply List.map_congr_left
      intro a ha
      have e : w ch.1 a = shiftN a.outputOffset (pubCount segs (i + 1) sub) := by
        rw [← hw]
        simp only [childPub, h2]
        rw [pubCount_fuel hb ch.1 sub h2 i (i + 1) h1 (by omega)]
      rw [e]
      simp only [pubCount, allGates_pubAt, shiftN_add, shiftN_chSum]
      congr 1
      apply chSum_congr
      intro sc _ sa _
      rw [← hw]
      unfold childPub
      cases segs[sc.1]? with
      | none => exact shiftN_zero _
      | some ss => simp only; rw [shiftN_shiftN]; rfl
    · simp [pubAt_nil]
  rw [key]
  abel

theorem below_of_ok {c : Circuit F} (hc : c.Ok) : Below' c.segments := fun i s hs ch hch => ((hc.seg i s hs).child ch hch).1

theorem expandedSegs_below {c : Circuit F} (hc : c.Ok) {srtA : List Alloc → List Alloc} (hsA : ∀ l, (srtA l).Perm l) {ordH : List (Nat × List Alloc) → List (Nat × List Alloc)} (hoH : ∀ l, (ordH l).Perm l) :
    Below' (c.expandedSegs srtA ordH) := fun i s hs ch hch => ((expandedSegs_ok hc hsA hoH i s hs).child ch hch).1

theorem expandedSegs_pub {c : Circuit F} (hc : c.Ok) {srtA : List Alloc → List Alloc} (hsA : ∀ l, (srtA l).Perm l) {ordH : List (Nat × List Alloc) → List (Nat × List Alloc)} (hoH : ∀ l, (ordH l).Perm l) :
    ∀ (i : Nat) (s s' : Segment F), c.segments[i]? = some s → (c.expandedSegs srtA ordH)[i]? = some s' → pubCount (c.expandedSegs srtA ordH) (i + 1) s' = pubCount c.segments (i + 1) s := by
  intro i
  induction i using Nat.strong_induction_on with
  | _ i ih =>
    intro s s' hs hs'
    have hok := expandedSegs_ok hc hsA hoH
    have hb := expandedSegs_below hc hsA hoH
    have hx := expCtx (srtA := srtA) (ordH := ordH) hc hs (fun j t _ ht => hok j t ht)
    have e1 : pubCount (c.expandedSegs srtA ordH) (i + 1) s' = pubCount (c.expandedSegs srtA ordH) (i + 1) s := by
      rw [expandedSegs_get hs] at hs'
      cases hs'
      split
      · exact expandSegment_pub hsA hoH hx hb
      · rfl
    rw [e1]
    simp only [pubCount]
    congr 1
    apply chSum_congr
    intro ch hch a _
    have hlt := child_lt hc i s hs ch hch
    obtain ⟨h1, sub, h2, h3, h4⟩ := (hc.seg i s hs).child ch hch
    obtain ⟨sub', g1, g2, g3⟩ := expandedSegs_shape (srtA := srtA) (ordH := ordH) h2
    simp only [childPub, h2, g1]
    rw [pubCount_fuel hb ch.1 sub' g1 i (ch.1 + 1) hlt (by omega), pubCount_fuel (below_of_ok hc) ch.1 sub h2 i (ch.1 + 1) hlt (by omega), ih ch.1 hlt sub sub' h2 g1]

section
variable [CommRing F] [DecidableEq F] {c : Circuit F} {srt : List (Gate F) → List (Gate F)} {srtA : List Alloc → List Alloc} {ordH : List (Nat × List Alloc) → List (Nat × List Alloc)}

theorem keptSegs_pub (hc : c.Ok) (hne : c.NoEmptyAllocs) (hs : ∀ l, (srt l).Perm l) (hsA : ∀ l, (srtA l).Perm l) (hoH : ∀ l, (ordH l).Perm l) :
    ∀ (f k : Nat) (s : Segment F), c.keeps k = true → (c.expandedSegs srtA ordH)[k]? = some s →
      pubCount (c.keptSegs srt srtA ordH) f ((s.renum c.newId).dedup srt) = pubCount (c.expandedSegs srtA ordH) f s := by
  intro f
  induction f with
  | zero => intros; rfl
  | succ f ih =>
    intro k s hk hse
    simp only [pubCount, pubAt_dedup hs]
    have e1 : pubAt (s.renum c.newId).allGates = pubAt s.allGates := rfl
    rw [e1]
    congr 1
    have e2 : ((s.renum c.newId).dedup srt).childSegs = s.childSegs.map fun ch => (c.newId ch.1, ch.2) := rfl
    rw [e2, chSum, List.map_map, chSum]
    congr 1
    apply List.map_congr_left
    intro ch hch
    simp only [Function.comp]
    congr 1
    apply List.map_congr_left
    intro a _
    have hok := expandedSegs_ok hc hsA hoH k s hse
    have hu : 0 < c.usedCount k := by simp [Circuit.keeps] at hk; exact hk.1
    have hkept := expanded_children_kept hc hne hoH k s hse hu
    obtain ⟨h1, sub, h2, _⟩ := hok.child ch hch
    simp only [childPub, h2, keptSegs_get (srt := srt) (hkept ch hch) h2]
    rw [ih ch.1 sub (hkept ch hch) h2]

theorem expandSmall_pubOnce (hc : c.Ok) (hne : c.NoEmptyAllocs) (hs : ∀ l, (srt l).Perm l) (hsA : ∀ l, (srtA l).Perm l) (hoH : ∀ l, (ordH l).Perm l) (h : c.PubOnce) :
    (c.expandSmall srt srtA ordH).PubOnce := by
  unfold Circuit.expandSmall
  split
  swap
  · exact h
  intro i s hi o
  change (c.keptSegs srt srtA ordH)[i]? = some s at hi
  change pubCount (c.keptSegs srt srtA ordH) (i + 1) s o ≤ 1
  have hkok := keptSegs_ok (srt := srt) hc hne hs hsA hoH
  have hi' := hi
  obtain ⟨k, t, hk, hse, rfl, rfl⟩ := keptSegs_get_rev hi
  have hbk : Below' (c.keptSegs srt srtA ordH) := fun i s hs ch hch => ((hkok i s hs).child ch hch).1
  rw [pubCount_fuel hbk _ _ hi' (c.newId k + 1) (c.newId k + k + 1) (by omega) (by omega), keptSegs_pub hc hne hs hsA hoH _ k t hk hse,
    pubCount_fuel (expandedSegs_below hc hsA hoH) k t hse (c.newId k + k + 1) (k + 1) (by omega) (by omega)]
  have hlt : k < c.segments.length := by
    have := (List.getElem?_eq_some_iff.1 hse).1
    rwa [expandedSegs_length] at this
  have hs0 := List.getElem?_eq_getElem hlt
  rw [expandedSegs_pub hc hsA hoH k _ t hs0 hse]
  exact h k _ hs0 o

/-- The list of children stays free of empty entries. -/
theorem expandedSegs_noEmpty (hne : c.NoEmptyAllocs) (hsA : ∀ l, (srtA l).Perm l) (hoH : ∀ l, (ordH l).Perm l) :
    ∀ (i : Nat) (s' : Segment F), (c.expandedSegs srtA ordH)[i]? = some s' → ∀ ch ∈ s'.childSegs, ch.2 ≠ [] := by
  intro i
  induction i using Nat.strong_induction_on with
  | _ i ih =>
    intro s' hs' ch hch
    have hlt : i < c.segments.length := by
      have := (List.getElem?_eq_some_iff.1 hs').1
      rwa [expandedSegs_length] at this
    have hs := List.getElem?_eq_getElem hlt
    generalize c.segments[i] = s at hs
    have hnes := hne s (List.mem_of_getElem? hs)
    rw [expandedSegs_get hs] at hs'
    cases hs'
    split at hch
    swap
    · exact hnes ch hch
    simp only [expandSegment] at hch
    rw [(hoH _).mem_iff, List.mem_map] at hch
    obtain ⟨p, hp, rfl⟩ := hch
    have key : ∀ (chs : List (Nat × List Alloc)), (∀ ch ∈ chs, ch ∈ s.childSegs) → ∀ m : List (Nat × List Alloc), (∀ p ∈ m, p.2 ≠ []) →
        ∀ p ∈ chs.foldl (expandChild ((c.expandedSegs srtA ordH).take i) c.expandable) m, p.2 ≠ [] := by
      intro chs
      induction chs with
      | nil => intro _ m hm; exact hm
      | cons ch chs ihc =>
        intro hc' m hm
        rw [List.foldl_cons]
        apply ihc (fun x h => hc' x (by simp [h]))
        unfold expandChild
        split
        · cases hpv : ((c.expandedSegs srtA ordH).take i)[ch.1]? with
          | none => exact hm
          | some sub =>
            simp only
            have hsub : ∀ sc ∈ sub.childSegs, sc.2 ≠ [] := by
              rw [List.getElem?_take] at hpv
              split at hpv
              · rename_i hl; exact fun sc hsc => ih ch.1 hl sub hpv sc hsc
              · cases hpv
            have hch2 := hnes ch (hc' ch (by simp))
            have : ∀ (scs : List (Nat × List Alloc)), (∀ sc ∈ scs, sc ∈ sub.childSegs) → ∀ m : List (Nat × List Alloc), (∀ p ∈ m, p.2 ≠ []) →
                ∀ p ∈ scs.foldl (fun m sc => mapExtend m sc.1 (sc.2.flatMap fun sa => ch.2.map fun a => sa.compose a)) m, p.2 ≠ [] := by
              intro scs
              induction scs with
              | nil => intro _ m hm; exact hm
              | cons sc scs ihs =>
                intro hsc m hm
                rw [List.foldl_cons]
                apply ihs (fun x h => hsc x (by simp [h]))
                refine mapExtend_inv (P := fun p => p.2 ≠ []) ?_ (fun l hl => by simp [hl]) hm
                obtain ⟨sa, sas, e1⟩ := List.exists_cons_of_ne_nil (hsub sc (hsc sc (by simp)))
                obtain ⟨a, as, e2⟩ := List.exists_cons_of_ne_nil hch2
                rw [e1, e2]; simp
            exact this sub.childSegs (fun _ h => h) m hm
        · exact mapExtend_inv (P := fun p => p.2 ≠ []) (hnes ch (hc' ch (by simp))) (fun l hl => by simp [hl]) hm
    have h1 := key s.childSegs (fun _ h => h) [] (by simp) p hp
    simp only
    intro e
    have := (hsA p.2).length_eq
    rw [e] at this
    exact h1 (List.length_eq_zero_iff.1 this.symm)

theorem expandSmall_noEmpty (hne : c.NoEmptyAllocs) (hsA : ∀ l, (srtA l).Perm l) (hoH : ∀ l, (ordH l).Perm l) : (c.expandSmall srt srtA ordH).NoEmptyAllocs := by
  unfold Circuit.expandSmall
  split
  swap
  · exact hne
  intro s hs ch hch
  obtain ⟨i, hi⟩ := List.mem_iff_getElem?.1 hs
  change (c.keptSegs srt srtA ordH)[i]? = some s at hi
  obtain ⟨k, t, hk, hse, rfl, rfl⟩ := keptSegs_get_rev hi
  change ch ∈ t.childSegs.map fun ch => (c.newId ch.1, ch.2) at hch
  obtain ⟨ch', h1, rfl⟩ := List.mem_map.1 hch
  exact expandedSegs_noEmpty hne hsA hoH k t hse ch' h1

theorem expandSmall_pow2 (h : ∀ s ∈ c.segments, s.Pow2Sizes) : ∀ s ∈ (c.expandSmall srt srtA ordH).segments, s.Pow2Sizes := by
  unfold Circuit.expandSmall
  split
  swap
  · exact h
  intro s hs
  obtain ⟨i, hi⟩ := List.mem_iff_getElem?.1 hs
  change (c.keptSegs srt srtA ordH)[i]? = some s at hi
  obtain ⟨k, t, hk, hse, rfl, rfl⟩ := keptSegs_get_rev hi
  have hlt : k < c.segments.length := by
    have := (List.getElem?_eq_some_iff.1 hse).1
    rwa [expandedSegs_length] at this
  obtain ⟨t', h1, h2, h3⟩ := expandedSegs_shape (srtA := srtA) (ordH := ordH) (List.getElem?_eq_getElem hlt)
  rw [hse] at h1; cases h1
  obtain ⟨q1, q2, q3⟩ := h _ (List.getElem_mem hlt)
  exact ⟨by change t.numInputs ≠ []; rw [h2]; exact q1, by change ∀ n ∈ t.numInputs, _; rw [h2]; exact q2, by change ∃ k, t.numOutputs = _; rw [h3]; exact q3⟩

end

end Verif.Layered
