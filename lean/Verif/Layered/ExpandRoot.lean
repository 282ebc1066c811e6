import Verif.Layered.ExpandProof

/-!
# `expand_small_segments` keeps every wire of every layer
-/

set_option linter.unusedSectionVars false
set_option linter.unusedSimpArgs false

namespace Verif.Layered

open Verif.IR (Coef)
open scoped Pointwise

variable {F R : Type} [CommRing R]

/-! ## Lists built by appending -/

theorem foldl_build {A B : Type} (g : List B → A → B) : ∀ (l : List A) (init : List B),
    (l.foldl (fun prev p => prev ++ [g prev p]) init).length = init.length + l.length ∧
    (l.foldl (fun prev p => prev ++ [g prev p]) init).take init.length = init ∧
    ∀ (i : Nat) p, l[i]? = some p → (l.foldl (fun prev p => prev ++ [g prev p]) init)[init.length + i]? =
      some (g ((l.foldl (fun prev p => prev ++ [g prev p]) init).take (init.length + i)) p) := by
  intro l
  induction l with
  | nil => intro init; simp
  | cons a l ih =>
    intro init
    rw [List.foldl_cons]
    obtain ⟨h1, h2, h3⟩ := ih (init ++ [g init a])
    generalize l.foldl (fun prev p => prev ++ [g prev p]) (init ++ [g init a]) = r at *
    simp only [List.length_append, List.length_cons, List.length_nil] at h1 h2 h3
    have ht : r.take init.length = init := by
      have := congrArg (List.take init.length) h2
      rw [List.take_take, min_eq_left (by omega)] at this
      simpa using this
    refine ⟨by simp [h1]; omega, ht, ?_⟩
    intro i p hp
    cases i with
    | zero =>
      simp only [List.getElem?_cons_zero, Option.some.injEq] at hp
      subst hp
      rw [Nat.add_zero, ht]
      have := congrArg (fun x : List B => x[init.length]?) h2
      simpa [List.getElem?_take] using this
    | succ i =>
      have := h3 i p (by simpa using hp)
      rw [show init.length + (0 + 1) + i = init.length + (i + 1) by omega] at this
      exact this

theorem filter_getElem? {A : Type} (p : A → Bool) : ∀ (l : List A) (k : Nat) x, l[k]? = some x → p x = true →
    (l.filter p)[(l.take k).countP p]? = some x := by
  intro l
  induction l with
  | nil => intro k x h; simp at h
  | cons a l ih =>
    intro k x h hp
    cases k with
    | zero => simp at h; subst h; simp [hp]
    | succ k =>
      simp only [List.getElem?_cons_succ] at h
      have := ih k x h hp
      by_cases ha : p a = true
      · simp [List.filter_cons, ha, List.countP_cons, this]
      · simp [List.filter_cons, ha, List.countP_cons, this]

theorem filter_getElem?_rev {A : Type} (p : A → Bool) : ∀ (l : List A) (j : Nat) x, (l.filter p)[j]? = some x →
    ∃ k : Nat, l[k]? = some x ∧ p x = true ∧ (l.take k).countP p = j := by
  intro l
  induction l with
  | nil => intro j x h; simp at h
  | cons a l ih =>
    intro j x h
    by_cases ha : p a = true
    · simp only [List.filter_cons, ha, if_true] at h
      cases j with
      | zero => simp at h; subst h; exact ⟨0, by simp, ha, by simp⟩
      | succ j =>
        simp only [List.getElem?_cons_succ] at h
        obtain ⟨k, h1, h2, h3⟩ := ih j x h
        exact ⟨k + 1, by simpa using h1, h2, by simp [List.countP_cons, ha, h3]⟩
    · simp only [List.filter_cons, ha, if_false, Bool.false_eq_true] at h
      obtain ⟨k, h1, h2, h3⟩ := ih j x h
      exact ⟨k + 1, by simpa using h1, h2, by simp [List.countP_cons, ha, h3]⟩

theorem zipIdx_countP {A : Type} (p : Nat → Bool) (l : List A) (k : Nat) (hk : k ≤ l.length) :
    (l.zipIdx.take k).countP (fun q => p q.2) = (List.range k).countP p := by
  have : (List.range k) = (l.zipIdx.take k).map Prod.snd := by
    apply List.ext_getElem?
    intro i
    simp only [List.getElem?_map, List.getElem?_take, List.getElem?_zipIdx]
    by_cases h : i < k
    · have : i < l.length := by omega
      simp [h, List.getElem?_range h, List.getElem?_eq_getElem this]
    · simp [h]
  rw [this, List.countP_map]
  rfl

/-! ## Used segments -/

theorem addUses_mono : ∀ (chs : List (Nat × List Alloc)) (u : Nat → Nat) (k : Nat), u k ≤ addUses u chs k := by
  intro chs
  induction chs with
  | nil => intro u k; exact le_refl _
  | cons ch chs ih =>
    intro u k
    refine le_trans ?_ (ih _ k)
    simp only; split <;> omega

theorem addUses_pos : ∀ (chs : List (Nat × List Alloc)) (u : Nat → Nat), ∀ ch ∈ chs, ch.2 ≠ [] → 0 < addUses u chs ch.1 := by
  intro chs
  induction chs with
  | nil => intro u ch h; simp at h
  | cons c chs ih =>
    intro u ch h hne
    rcases List.mem_cons.1 h with rfl | h
    · refine lt_of_lt_of_le ?_ (addUses_mono chs _ ch.1)
      simp only [if_true]
      have := List.length_pos_iff.2 hne
      omega
    · exact ih _ ch h hne

theorem addUses_other : ∀ (chs : List (Nat × List Alloc)) (u : Nat → Nat) (k : Nat), (∀ ch ∈ chs, ch.1 ≠ k) → addUses u chs k = u k := by
  intro chs
  induction chs with
  | nil => intro u k _; rfl
  | cons c chs ih =>
    intro u k h
    have e : addUses u (c :: chs) k = addUses (fun j => if j = c.1 then u j + c.2.length else u j) chs k := rfl
    rw [e, ih _ k (fun ch hch => h ch (by simp [hch]))]
    rw [if_neg (fun e => h c (by simp) e.symm)]

theorem usedLoop_mono (segs : List (Segment F)) : ∀ (n : Nat) (u : Nat → Nat) (k : Nat), u k ≤ usedLoop segs n u k := by
  intro n
  induction n with
  | zero => intro u k; exact le_refl _
  | succ n ih =>
    intro u k
    refine le_trans ?_ (ih _ k)
    split
    · cases segs[n]? with
      | none => exact le_refl _
      | some s => exact addUses_mono _ _ _
    · exact le_refl _

theorem usedLoop_high {segs : List (Segment F)} (hc : ∀ (i : Nat) s, segs[i]? = some s → ∀ ch ∈ s.childSegs, ch.1 < i) : ∀ (n : Nat) (u : Nat → Nat) (k : Nat),
    n ≤ k + 1 → usedLoop segs n u k = u k := by
  intro n
  induction n with
  | zero => intro u k _; rfl
  | succ n ih =>
    intro u k hk
    simp only [usedLoop]
    rw [ih _ k (by omega)]
    split
    · cases hs : segs[n]? with
      | none => rfl
      | some s =>
        simp only
        exact addUses_other _ _ _ (fun ch hch => by have := hc n s hs ch hch; omega)
    · rfl

theorem usedLoop_closed {segs : List (Segment F)} (hc : ∀ (i : Nat) s, segs[i]? = some s → ∀ ch ∈ s.childSegs, ch.1 < i) : ∀ (n : Nat) (u : Nat → Nat) (i : Nat) (s : Segment F),
    i < n → segs[i]? = some s → 0 < usedLoop segs n u i → ∀ ch ∈ s.childSegs, ch.2 ≠ [] → 0 < usedLoop segs n u ch.1 := by
  intro n
  induction n with
  | zero => intro u i s h; omega
  | succ n ih =>
    intro u i s hi hs hu ch hch hne
    by_cases he : i = n
    · subst he
      rw [usedLoop_high hc _ _ _ (le_refl _)] at hu
      simp only [usedLoop, hu, if_true, hs]
      exact lt_of_lt_of_le (addUses_pos _ _ ch hch hne) (usedLoop_mono _ _ _ _)
    · simp only [usedLoop] at hu ⊢
      exact ih _ i s (by omega) hs hu ch hch hne

/-- No child entry has an empty list of allocations. -/
def Circuit.NoEmptyAllocs (c : Circuit F) : Prop := ∀ s ∈ c.segments, ∀ ch ∈ s.childSegs, ch.2 ≠ []

variable {c : Circuit F}

theorem child_lt (hc : c.Ok) : ∀ (i : Nat) s, c.segments[i]? = some s → ∀ ch ∈ s.childSegs, ch.1 < i :=
  fun i s hs ch hch => ((hc.seg i s hs).child ch hch).1

theorem used_child (hc : c.Ok) (hne : c.NoEmptyAllocs) {i : Nat} {s : Segment F} (hs : c.segments[i]? = some s) (hu : 0 < c.usedCount i)
    {ch : Nat × List Alloc} (hch : ch ∈ s.childSegs) : 0 < c.usedCount ch.1 :=
  usedLoop_closed (child_lt hc) _ _ i s (List.getElem?_eq_some_iff.1 hs).1 hs hu ch hch (hne s (List.mem_of_getElem? hs) ch hch)

theorem used_layer {id : Nat} (h : id ∈ c.layerIds) : 0 < c.usedCount id := by
  refine lt_of_lt_of_le ?_ (usedLoop_mono _ _ _ _)
  have := List.count_pos_iff.2 h
  simp only [initUses]; omega

theorem keeps_layer {id : Nat} (h : id ∈ c.layerIds) : c.keeps id = true := by
  simp only [Circuit.keeps, Bool.and_eq_true, decide_eq_true_eq, Bool.not_eq_true']
  refine ⟨used_layer h, ?_⟩
  unfold Circuit.expandable
  split
  · rfl
  · simp [h]

theorem expandable_used {i : Nat} (h : c.expandable i = true) : 0 < c.usedCount i := by
  unfold Circuit.expandable at h
  split at h
  · cases h
  · simp only [Bool.and_eq_true, decide_eq_true_eq] at h; exact h.1.1

/-! ## The expanded list -/

variable {srtA : List Alloc → List Alloc} {ordH : List (Nat × List Alloc) → List (Nat × List Alloc)}

theorem expandedSegs_length : (c.expandedSegs srtA ordH).length = c.segments.length := by
  have := (foldl_build (fun prev (p : Segment F × Nat) => if 0 < c.usedCount p.2 then expandSegment srtA ordH prev c.expandable p.1 else p.1) c.segments.zipIdx []).1
  simpa [Circuit.expandedSegs] using this

theorem expandedSegs_get {i : Nat} {s : Segment F} (hs : c.segments[i]? = some s) : (c.expandedSegs srtA ordH)[i]? =
    some (if 0 < c.usedCount i then expandSegment srtA ordH ((c.expandedSegs srtA ordH).take i) c.expandable s else s) := by
  have := (foldl_build (fun prev (p : Segment F × Nat) => if 0 < c.usedCount p.2 then expandSegment srtA ordH prev c.expandable p.1 else p.1) c.segments.zipIdx []).2.2 i (s, i)
    (by simp [List.getElem?_zipIdx, hs])
  simpa [Circuit.expandedSegs] using this

theorem expandedSegs_shape {i : Nat} {s : Segment F} (hs : c.segments[i]? = some s) : ∃ s', (c.expandedSegs srtA ordH)[i]? = some s' ∧
    s'.numInputs = s.numInputs ∧ s'.numOutputs = s.numOutputs := by
  refine ⟨_, expandedSegs_get hs, ?_, ?_⟩ <;> split <;> rfl

theorem SegOk.shapes {segs segs' : List (Segment F)} {i : Nat} {s : Segment F} (h : SegOk segs i s)
    (hsh : ∀ (k : Nat) sub, k < i → segs[k]? = some sub → ∃ sub', segs'[k]? = some sub' ∧ sub'.numInputs = sub.numInputs ∧ sub'.numOutputs = sub.numOutputs) :
    SegOk segs' i s := by
  refine ⟨h.gates, fun ch hch => ?_⟩
  obtain ⟨h1, sub, h2, h3, h4⟩ := h.child ch hch
  obtain ⟨sub', g1, g2, g3⟩ := hsh ch.1 sub h1 h2
  refine ⟨h1, sub', g1, by rw [g2]; exact h3, fun a ha => ?_⟩
  obtain ⟨a1, a2, a3⟩ := h4 a ha
  exact ⟨by rw [g2]; exact a1, by rw [g2]; exact a2, by rw [g3]; exact a3⟩

theorem expCtx (hc : c.Ok) {i : Nat} {s : Segment F} (hs : c.segments[i]? = some s) (hok : OkUpTo (c.expandedSegs srtA ordH) i) :
    ExpCtx (c.expandedSegs srtA ordH) ((c.expandedSegs srtA ordH).take i) c.expandable i s := by
  refine ⟨(hc.seg i s hs).shapes fun k sub _ h => expandedSegs_shape h, ?_, fun k sub hk h => hok k sub hk h⟩
  intro ch hch
  rw [List.getElem?_take, if_pos (child_lt hc i s hs ch hch)]

theorem expandedSegs_ok (hc : c.Ok) (hsA : ∀ l, (srtA l).Perm l) (hoH : ∀ l, (ordH l).Perm l) : ∀ (i : Nat) (s : Segment F),
    (c.expandedSegs srtA ordH)[i]? = some s → SegOk (c.expandedSegs srtA ordH) i s := by
  intro i
  induction i using Nat.strong_induction_on with
  | _ i ih =>
    intro s' hs'
    have hlt : i < c.segments.length := by
      have := (List.getElem?_eq_some_iff.1 hs').1
      rwa [expandedSegs_length] at this
    have hs := List.getElem?_eq_getElem hlt
    generalize c.segments[i] = s at hs
    have hx := expCtx (srtA := srtA) (ordH := ordH) hc hs (fun j t hj ht => ih j hj t ht)
    rw [expandedSegs_get hs] at hs'
    cases hs'
    split
    · exact expandSegment_ok hsA hoH hx
    · exact hx.ok

theorem expandedSegs_den {V : LEnv F R} (hc : c.Ok) (hsA : ∀ l, (srtA l).Perm l) (hoH : ∀ l, (ordH l).Perm l) : ∀ (i : Nat) (s s' : Segment F),
    c.segments[i]? = some s → (c.expandedSegs srtA ordH)[i]? = some s' → ∀ cur : List (List R), cur.map List.length = s.numInputs →
      den V (c.expandedSegs srtA ordH) (i + 1) s' s.numOutputs cur = den V c.segments (i + 1) s s.numOutputs cur := by
  intro i
  induction i using Nat.strong_induction_on with
  | _ i ih =>
    intro s s' hs hs' cur hcur
    have hok := expandedSegs_ok hc hsA hoH
    have hoki : OkUpTo (c.expandedSegs srtA ordH) i := fun j t _ ht => hok j t ht
    have hx := expCtx (srtA := srtA) (ordH := ordH) hc hs hoki
    have hlt := (List.getElem?_eq_some_iff.1 hs).1
    have e1 : opsSet V (c.expandedSegs srtA ordH) (den V (c.expandedSegs srtA ordH) i) s.numOutputs cur s'.ops =
        opsSet V (c.expandedSegs srtA ordH) (den V (c.expandedSegs srtA ordH) i) s.numOutputs cur s.ops := by
      rw [expandedSegs_get hs] at hs'
      cases hs'
      split
      · exact expandSegment_sum hsA hoH (by rw [expandedSegs_length]; exact hlt) (den_fixed hoki) hx hcur
      · rfl
    simp only [den]
    rw [e1]
    apply opsSet_congr
    apply opSet_congr (hc.seg i s hs) hcur
    intro ch hch sub hsub
    have hlt2 := child_lt hc i s hs ch hch
    obtain ⟨sub', g1, g2, g3⟩ := expandedSegs_shape (srtA := srtA) (ordH := ordH) hsub
    refine ⟨sub', g1, g2, g3, ?_⟩
    intro ins hins
    have hi2 : ins.map List.length = sub'.numInputs := by rw [g2]; exact hins
    have f1 := den_fuel (V := V) ch.1 (fun j t _ ht => hok j t ht) sub' g1 i (ch.1 + 1) hlt2 (by omega) ins hi2
    have f2 := den_fuel (V := V) ch.1 (fun j t _ ht => hc.seg j t ht) sub hsub i (ch.1 + 1) hlt2 (by omega) ins hins
    rw [g3] at f1
    rw [f1, f2]
    exact ih ch.1 hlt2 sub sub' hsub g1 ins hins

/-! ## Children that remain are kept -/

theorem fold_sub_keep {K : Nat → Prop} {as : List Alloc} : ∀ (scs : List (Nat × List Alloc)), (∀ sc ∈ scs, K sc.1) →
    ∀ m : List (Nat × List Alloc), (∀ p ∈ m, K p.1) →
      ∀ p ∈ scs.foldl (fun m sc => mapExtend m sc.1 (sc.2.flatMap fun sa => as.map fun a => sa.compose a)) m, K p.1 := by
  intro scs
  induction scs with
  | nil => intro _ m hm; exact hm
  | cons sc scs ih =>
    intro hsc m hm
    rw [List.foldl_cons]
    apply ih (fun x hx => hsc x (by simp [hx]))
    have h1 : K sc.1 := hsc sc (by simp)
    refine mapExtend_inv (P := fun p => K p.1) (id := sc.1) ?_ ?_ hm
    · exact h1
    · intro _ _; exact h1

theorem expandChild_keep {K : Nat → Prop} {prev : List (Segment F)} {should : Nat → Bool} : ∀ (chs : List (Nat × List Alloc)),
    (∀ ch ∈ chs, should ch.1 = false → K ch.1) → (∀ ch ∈ chs, should ch.1 = true → ∀ sub, prev[ch.1]? = some sub → ∀ sc ∈ sub.childSegs, K sc.1) →
    ∀ m : List (Nat × List Alloc), (∀ p ∈ m, K p.1) → ∀ p ∈ chs.foldl (expandChild prev should) m, K p.1 := by
  intro chs
  induction chs with
  | nil => intro _ _ m hm; exact hm
  | cons ch chs ih =>
    intro h1 h2 m hm
    rw [List.foldl_cons]
    apply ih (fun x h => h1 x (by simp [h])) (fun x h => h2 x (by simp [h]))
    unfold expandChild
    split
    · rename_i hs
      cases hp : prev[ch.1]? with
      | none => exact hm
      | some sub => exact fold_sub_keep _ (h2 ch (by simp) hs sub hp) m hm
    · rename_i hs
      exact mapExtend_inv (P := fun p => K p.1) (h1 ch (by simp) (by simpa using hs)) (fun _ h => h) hm

theorem expanded_children_kept (hc : c.Ok) (hne : c.NoEmptyAllocs) (hoH : ∀ l, (ordH l).Perm l) : ∀ (i : Nat) (s' : Segment F),
    (c.expandedSegs srtA ordH)[i]? = some s' → 0 < c.usedCount i → ∀ ch ∈ s'.childSegs, c.keeps ch.1 = true := by
  intro i
  induction i using Nat.strong_induction_on with
  | _ i ih =>
    intro s' hs' hu ch hch
    have hlt : i < c.segments.length := by
      have := (List.getElem?_eq_some_iff.1 hs').1
      rwa [expandedSegs_length] at this
    have hs := List.getElem?_eq_getElem hlt
    generalize c.segments[i] = s at hs
    rw [expandedSegs_get hs, if_pos hu] at hs'
    cases hs'
    simp only [expandSegment] at hch
    rw [(hoH _).mem_iff, List.mem_map] at hch
    obtain ⟨p, hp, rfl⟩ := hch
    refine expandChild_keep (K := fun k => c.keeps k = true) s.childSegs ?_ ?_ [] (by simp) p hp
    · intro ch hch hsh
      simp [Circuit.keeps, used_child hc hne hs hu hch, hsh]
    · intro ch hch hsh sub hsub sc hsc
      have hl := child_lt hc i s hs ch hch
      rw [List.getElem?_take, if_pos hl] at hsub
      exact ih ch.1 hl sub hsub (expandable_used hsh) sc hsc

/-! ## Renumbering -/

theorem newId_lt {j k : Nat} (hj : c.keeps j = true) (hk : c.keeps k = true) (h : j < k) : c.newId j < c.newId k := by
  simp only [Circuit.newId, hj, hk, if_true]
  obtain ⟨d, rfl⟩ : ∃ d, k = j + 1 + d := ⟨k - (j + 1), by omega⟩
  have e : List.range (j + 1 + d) = List.range j ++ [j] ++ (List.range d).map (j + 1 + ·) := by
    rw [List.range_add, List.range_succ]
  rw [e, List.countP_append, List.countP_append]
  simp [hj]
  omega

end Verif.Layered

namespace Verif.Layered
open scoped Pointwise

variable {F R : Type} [CommRing F] [DecidableEq F] [CommRing R]
variable {c : Circuit F} {srt : List (Gate F) → List (Gate F)} {srtA : List Alloc → List Alloc} {ordH : List (Nat × List Alloc) → List (Nat × List Alloc)}

/-- The segments of the result. -/
def Circuit.keptSegs (srt : List (Gate F) → List (Gate F)) (srtA : List Alloc → List Alloc) (ordH : List (Nat × List Alloc) → List (Nat × List Alloc))
    (c : Circuit F) : List (Segment F) :=
  ((c.expandedSegs srtA ordH).zipIdx.filter fun p => c.keeps p.2).map fun p => (p.1.renum c.newId).dedup srt

theorem keptSegs_get {k : Nat} {s : Segment F} (hk : c.keeps k = true) (hs : (c.expandedSegs srtA ordH)[k]? = some s) :
    (c.keptSegs srt srtA ordH)[c.newId k]? = some ((s.renum c.newId).dedup srt) := by
  unfold Circuit.keptSegs
  have hz : (c.expandedSegs srtA ordH).zipIdx[k]? = some (s, k) := by simp [List.getElem?_zipIdx, hs]
  have hf := filter_getElem? (fun p : Segment F × Nat => c.keeps p.2) _ k (s, k) hz hk
  rw [zipIdx_countP c.keeps _ k (le_of_lt (List.getElem?_eq_some_iff.1 hs).1)] at hf
  simp only [Circuit.newId, hk, if_true, List.getElem?_map]
  rw [hf]
  rfl

theorem keptSegs_get_rev {j : Nat} {x : Segment F} (h : (c.keptSegs srt srtA ordH)[j]? = some x) :
    ∃ k s, c.keeps k = true ∧ (c.expandedSegs srtA ordH)[k]? = some s ∧ c.newId k = j ∧ x = (s.renum c.newId).dedup srt := by
  unfold Circuit.keptSegs at h
  rw [List.getElem?_map, Option.map_eq_some_iff] at h
  obtain ⟨⟨s, k⟩, hf, rfl⟩ := h
  obtain ⟨k', hz, hk, hcnt⟩ := filter_getElem?_rev _ _ j _ hf
  rw [List.getElem?_zipIdx] at hz
  obtain ⟨s', hs', he⟩ := Option.map_eq_some_iff.1 hz
  simp only [Nat.zero_add, Prod.mk.injEq] at he
  obtain ⟨rfl, rfl⟩ := he
  refine ⟨k', s', hk, hs', ?_, rfl⟩
  rw [zipIdx_countP c.keeps _ _ (le_of_lt (List.getElem?_eq_some_iff.1 hs').1)] at hcnt
  simp only at hk
  simp [Circuit.newId, hk, hcnt]

theorem keptSegs_shape (hc : c.Ok) {k : Nat} {s : Segment F} (hs : c.segments[k]? = some s) (hk : c.keeps k = true) :
    ∃ s', (c.keptSegs srt srtA ordH)[c.newId k]? = some s' ∧ s'.numInputs = s.numInputs ∧ s'.numOutputs = s.numOutputs := by
  obtain ⟨t, h1, h2, h3⟩ := expandedSegs_shape (srtA := srtA) (ordH := ordH) hs
  exact ⟨_, keptSegs_get hk h1, h2, h3⟩

/-- Before the final clean-up the renumbered segment is in range. -/
theorem renum_ok (hc : c.Ok) (hne : c.NoEmptyAllocs) (hsA : ∀ l, (srtA l).Perm l) (hoH : ∀ l, (ordH l).Perm l) {k : Nat} {s : Segment F}
    (hk : c.keeps k = true) (hs : (c.expandedSegs srtA ordH)[k]? = some s) : SegOk (c.keptSegs srt srtA ordH) (c.newId k) (s.renum c.newId) := by
  have hok := expandedSegs_ok hc hsA hoH k s hs
  have hu : 0 < c.usedCount k := by simp [Circuit.keeps] at hk; exact hk.1
  have hkept := expanded_children_kept hc hne hoH k s hs hu
  refine ⟨fun g hg => hok.gates g hg, fun ch hch => ?_⟩
  simp only [Segment.renum, List.mem_map] at hch
  obtain ⟨ch, hch, rfl⟩ := hch
  obtain ⟨h1, sub, h2, h3, h4⟩ := hok.child ch hch
  exact ⟨newId_lt (hkept ch hch) hk h1, _, keptSegs_get (hkept ch hch) h2, h3, h4⟩

theorem dedup_segOk {srt : List (Gate F) → List (Gate F)} (hs : ∀ l, (srt l).Perm l) {segs : List (Segment F)} {i : Nat} {s : Segment F} (h : SegOk segs i s) :
    SegOk segs i (s.dedup srt) := by
  refine ⟨?_, h.child⟩
  intro g hm
  have lift : ∀ {trim : Bool} {gs : List (Gate F)}, (∀ x ∈ gs, x ∈ s.allGates) → g ∈ dedupGates srt trim gs → g.Ok s := by
    intro trim gs hsub hx
    obtain ⟨y, hy, _, h2, h3⟩ := mem_dedupGates hs hx
    have := h.gates y (hsub y hy)
    exact ⟨by rw [h2]; exact this.1, by rw [h3]; exact this.2⟩
  simp only [Segment.allGates, Segment.dedup, List.mem_append] at hm
  rcases hm with ((hm | hm) | hm) | hm
  · exact lift (by intro x hx; simp [Segment.allGates, hx]) hm
  · exact lift (by intro x hx; simp [Segment.allGates, hx]) hm
  · rw [(hs _).mem_iff, List.mem_append] at hm
    rcases hm with hm | hm
    · exact lift (by intro x hx; simp [Segment.allGates, hx]) hm
    · simp only [List.mem_map, lostOutputs, List.mem_filter, List.mem_range] at hm
      obtain ⟨i, ⟨hi, _⟩, rfl⟩ := hm
      exact ⟨by simp, hi⟩
  · exact lift (by intro x hx; simp [Segment.allGates, hx]) hm

theorem keptSegs_ok (hc : c.Ok) (hne : c.NoEmptyAllocs) (hs : ∀ l, (srt l).Perm l) (hsA : ∀ l, (srtA l).Perm l) (hoH : ∀ l, (ordH l).Perm l) :
    ∀ (i : Nat) (s : Segment F), (c.keptSegs srt srtA ordH)[i]? = some s → SegOk (c.keptSegs srt srtA ordH) i s := by
  intro i x hx
  obtain ⟨k, s, hk, hse, rfl, rfl⟩ := keptSegs_get_rev hx
  exact dedup_segOk hs (renum_ok hc hne hsA hoH hk hse)

theorem ops_renum (m : Nat → Nat) (s : Segment F) : (s.renum m).ops = s.ops.map fun op =>
    match op with
    | .gate g => .gate g
    | .look id => .look (m id)
    | .child id a => .child (m id) a := by
  simp only [Segment.ops, Segment.renum, List.map_append, List.map_map, List.map_flatMap, List.flatMap_map, specOps, List.map_cons]
  rfl

theorem keptSegs_den {V : LEnv F R} (hV : V.Lawful) (hc : c.Ok) (hne : c.NoEmptyAllocs) (hs : ∀ l, (srt l).Perm l) (hsA : ∀ l, (srtA l).Perm l)
    (hoH : ∀ l, (ordH l).Perm l) : ∀ (f k : Nat) (s : Segment F), c.keeps k = true → (c.expandedSegs srtA ordH)[k]? = some s →
      ∀ cur : List (List R), cur.map List.length = s.numInputs →
        den V (c.keptSegs srt srtA ordH) f ((s.renum c.newId).dedup srt) s.numOutputs cur = den V (c.expandedSegs srtA ordH) f s s.numOutputs cur := by
  intro f
  induction f with
  | zero => intros; rfl
  | succ f ih =>
    intro k s hk hse cur hcur
    simp only [den]
    have hr := renum_ok (srt := srt) hc hne hsA hoH hk hse
    have e1 := (dedup_segMap hV hs).ops _ (den V (c.keptSegs srt srtA ordH) f) _ _ cur hr (show cur.map List.length = (s.renum c.newId).numInputs from hcur)
    rw [show s.numOutputs = (s.renum c.newId).numOutputs from rfl, e1, ops_renum]
    simp only [opsSet, List.map_map]
    congr 1
    apply List.map_congr_left
    intro op hop
    have hok := expandedSegs_ok hc hsA hoH k s hse
    have hu : 0 < c.usedCount k := by simp [Circuit.keeps] at hk; exact hk.1
    have hkept := expanded_children_kept hc hne hoH k s hse hu
    rcases mem_ops hop with ⟨g, hg, rfl⟩ | ⟨ch, hch, rfl | ⟨a, ha, rfl⟩⟩
    · rfl
    · obtain ⟨h1, sub, h2, h3, h4⟩ := hok.child ch hch
      have l1 := (List.getElem?_eq_some_iff.1 h2).1
      have l2 := (List.getElem?_eq_some_iff.1 (keptSegs_get (srt := srt) (hkept ch hch) h2)).1
      simp [opSet, l1, l2]
    · obtain ⟨h1, sub, h2, h3, h4⟩ := hok.child ch hch
      have hg := keptSegs_get (srt := srt) (hkept ch hch) h2
      have hao := h4 a ha
      obtain ⟨ins, hins, hil⟩ := childIn_isSome hcur hao.1 h3 hao.2.1
      have hden := ih ch.1 sub (hkept ch hch) h2 ins hil
      ext t
      simp only [Function.comp, opSet, Set.mem_setOf_eq]
      constructor
      · rintro ⟨sub', ins', u, g1, g2, g3, g4, rfl⟩
        rw [hg] at g1; cases g1
        have e : childIn cur a.inputOffset sub.numInputs = some ins' := g2
        rw [hins] at e; cases e
        refine ⟨sub, ins, u, h2, hins, g3, ?_, rfl⟩
        rw [← hden]; exact g4
      · rintro ⟨sub', ins', u, g1, g2, g3, g4, rfl⟩
        rw [h2] at g1; cases g1
        rw [hins] at g2; cases g2
        refine ⟨_, ins, u, hg, hins, g3, ?_, rfl⟩
        rw [← hden] at g4; exact g4

theorem expandSmall_traces {V : LEnv F R} (hV : V.Lawful) (hc : c.Ok) (hne : c.NoEmptyAllocs) (hs : ∀ l, (srt l).Perm l) (hsA : ∀ l, (srtA l).Perm l)
    (hoH : ∀ l, (ordH l).Perm l) (inputs : List R) : Traces V (c.expandSmall srt srtA ordH) inputs = Traces V c inputs := by
  unfold Circuit.expandSmall
  split
  swap
  · rfl
  apply traces_congr hc
  simp only
  rw [List.forall₂_map_right_iff, List.forall₂_same]
  intro id hid
  have hlt := hc.layers id hid
  have hseg := List.getElem?_eq_getElem hlt
  generalize c.segments[id] = s at hseg
  obtain ⟨s', he, hi, ho⟩ := expandedSegs_shape (srtA := srtA) (ordH := ordH) hseg
  have hk := keeps_layer hid
  have hg := keptSegs_get (srt := srt) hk he
  refine ⟨s, _, hseg, hg, hi, ho, ?_⟩
  intro cur hcur
  have hcur' : cur.map List.length = s'.numInputs := by rw [hi]; exact hcur
  have hkok := keptSegs_ok (srt := srt) hc hne hs hsA hoH
  have heok := expandedSegs_ok hc hsA hoH
  have hl2 := (List.getElem?_eq_some_iff.1 hg).1
  have hl3 := (List.getElem?_eq_some_iff.1 he).1
  change den V (c.keptSegs srt srtA ordH) ((c.keptSegs srt srtA ordH).length + 1) _ _ _ = _
  have f1 := den_fuel (V := V) (c.newId id) (fun j t _ ht => hkok j t ht) _ hg ((c.keptSegs srt srtA ordH).length + 1) (c.newId id + id + 1) (by omega) (by omega) cur hcur'
  have f2 := keptSegs_den hV hc hne hs hsA hoH (c.newId id + id + 1) id s' hk he cur hcur'
  have f3 := den_fuel (V := V) id (fun j t _ ht => heok j t ht) s' he (c.newId id + id + 1) (id + 1) (by omega) (by omega) cur hcur'
  have f4 := expandedSegs_den (V := V) hc hsA hoH id s s' hseg he cur hcur
  have f5 := den_fuel (V := V) id (fun j t _ ht => hc.seg j t ht) s hseg (c.segments.length + 1) (id + 1) (by omega) (by omega) cur hcur
  rw [f5, ← f4, ← ho, ← f3, ← f2]
  exact f1

theorem expandSmall_ok (hc : c.Ok) (hne : c.NoEmptyAllocs) (hs : ∀ l, (srt l).Perm l) (hsA : ∀ l, (srtA l).Perm l)
    (hoH : ∀ l, (ordH l).Perm l) : (c.expandSmall srt srtA ordH).Ok ∧ (c.expandSmall srt srtA ordH).inputSize = c.inputSize := by
  unfold Circuit.expandSmall
  split
  swap
  · exact ⟨hc, rfl⟩
  change (⟨c.numPublicInputs, c.numActualOutputs, c.expectedNumOutputZeroes, c.keptSegs srt srtA ordH, c.layerIds.map c.newId⟩ : Circuit F).Ok ∧
    (⟨c.numPublicInputs, c.numActualOutputs, c.expectedNumOutputZeroes, c.keptSegs srt srtA ordH, c.layerIds.map c.newId⟩ : Circuit F).inputSize = c.inputSize
  have hshape : ∀ id ∈ c.layerIds, ∀ s, c.segments[id]? = some s → ∃ s', (c.keptSegs srt srtA ordH)[c.newId id]? = some s' ∧
      s'.numInputs = s.numInputs ∧ s'.numOutputs = s.numOutputs := fun id hid s h => keptSegs_shape hc h (keeps_layer hid)
  have hin : (⟨c.numPublicInputs, c.numActualOutputs, c.expectedNumOutputZeroes, c.keptSegs srt srtA ordH, c.layerIds.map c.newId⟩ : Circuit F).inputSize = c.inputSize := by
    unfold Circuit.inputSize
    simp only
    cases hl : c.layerIds with
    | nil => rfl
    | cons id ids =>
      have hid : id ∈ c.layerIds := by rw [hl]; simp
      obtain ⟨s', h1, h2, h3⟩ := hshape id hid _ (List.getElem?_eq_getElem (hc.layers id hid))
      simp [h1, h2, List.getElem?_eq_getElem (hc.layers id hid)]
  refine ⟨⟨keptSegs_ok hc hne hs hsA hoH, ?_, ?_, by rw [hin]; exact hc.input⟩, hin⟩
  · intro id' h
    simp only [List.mem_map] at h
    obtain ⟨id, hid, rfl⟩ := h
    obtain ⟨s', h1, _, _⟩ := hshape id hid _ (List.getElem?_eq_getElem (hc.layers id hid))
    exact (List.getElem?_eq_some_iff.1 h1).1
  · intro i id' s' hi hs'
    simp only [List.getElem?_map, Option.map_eq_some_iff] at hi
    obtain ⟨id, hi, rfl⟩ := hi
    have hid := List.mem_of_getElem? hi
    have hseg := List.getElem?_eq_getElem (hc.layers id hid)
    obtain ⟨s'', h1, h2, h3⟩ := hshape id hid _ hseg
    simp only at hs'
    rw [h1] at hs'; cases hs'
    obtain ⟨g1, g2⟩ := hc.shape i id _ hi hseg
    refine ⟨by rw [h2]; exact g1, ?_⟩
    intro j x hx
    rw [h2] at hx
    rcases g2 j x hx with ⟨hj, hz⟩ | ⟨hj, k, t, hk, ht, hto⟩
    · left; exact ⟨hj, by rw [hin]; exact hz⟩
    · right
      obtain ⟨t', q1, q2, q3⟩ := hshape k (List.mem_of_getElem? hk) t ht
      exact ⟨hj, c.newId k, t', by simp [hk], q1, by rw [q3]; exact hto⟩

end Verif.Layered
