import Verif.Layered.Shift
import Mathlib.Tactic.Abel

/-!
# `expand_segment` keeps the meaning of a segment
-/

set_option linter.unusedSectionVars false
set_option linter.unusedSimpArgs false

namespace Verif.Layered

open Verif.IR (Coef)
open scoped Pointwise

variable {F R : Type} [CommRing R]

/-! ## Sums over allocations -/

section chsum
variable {M : Type} [AddCommMonoid M]

/-- Sum over all allocations of a child list. -/
def chSum (w : Nat → Alloc → M) (chs : List (Nat × List Alloc)) : M := (chs.map fun ch => (ch.2.map (w ch.1)).sum).sum

@[simp] theorem chSum_nil (w : Nat → Alloc → M) : chSum w [] = 0 := rfl

theorem chSum_cons (w : Nat → Alloc → M) (ch : Nat × List Alloc) (chs) : chSum w (ch :: chs) = (ch.2.map (w ch.1)).sum + chSum w chs := by simp [chSum]

theorem chSum_perm (w : Nat → Alloc → M) {a b : List (Nat × List Alloc)} (h : a.Perm b) : chSum w a = chSum w b := (h.map _).sum_eq

theorem chSum_srt (w : Nat → Alloc → M) {srtA : List Alloc → List Alloc} (hs : ∀ l, (srtA l).Perm l) (m : List (Nat × List Alloc)) :
    chSum w (m.map fun p => (p.1, srtA p.2)) = chSum w m := by
  unfold chSum
  rw [List.map_map]
  congr 1
  apply List.map_congr_left
  intro p _
  exact ((hs p.2).map _).sum_eq

theorem chSum_mapExtend (w : Nat → Alloc → M) (m : List (Nat × List Alloc)) (id : Nat) (as : List Alloc) :
    chSum w (mapExtend m id as) = chSum w m + (as.map (w id)).sum := by
  induction m with
  | nil => simp [mapExtend, chSum]
  | cons p m ih =>
    obtain ⟨k, l⟩ := p
    simp only [mapExtend]
    split
    · rename_i h; subst h
      simp only [chSum_cons, List.map_append, List.sum_append]
      exact add_right_comm _ _ _
    · simp only [chSum_cons, ih, add_assoc]

theorem sum_flatMap' {A : Type} (f : A → List M) (l : List A) : (l.flatMap f).sum = (l.map fun a => (f a).sum).sum := by
  induction l with
  | nil => rfl
  | cons a l ih => simp [List.flatMap_cons, ih]

theorem sum_map_add' {A : Type} (f g : A → M) (l : List A) : (l.map fun a => f a + g a).sum = (l.map f).sum + (l.map g).sum := by
  induction l with
  | nil => simp
  | cons a l ih => simp only [List.map_cons, List.sum_cons, ih]; exact add_add_add_comm _ _ _ _

theorem sum_map_zero' {A : Type} (l : List A) : (l.map fun _ => (0 : M)).sum = 0 := by
  induction l with
  | nil => rfl
  | cons a l ih => simp [ih]

theorem sum_comm' {A B : Type} (f : A → B → M) (l : List A) (l' : List B) :
    (l.map fun a => (l'.map (f a)).sum).sum = (l'.map fun b => (l.map fun a => f a b).sum).sum := by
  induction l with
  | nil => simp [sum_map_zero']
  | cons a l ih => simp only [List.map_cons, List.sum_cons, ih, ← sum_map_add']

/-- Children of an expanded child, seen from the parent. -/
theorem chSum_fold_sub (w : Nat → Alloc → M) (as : List Alloc) : ∀ (scs : List (Nat × List Alloc)) (m : List (Nat × List Alloc)),
    chSum w (scs.foldl (fun m sc => mapExtend m sc.1 (sc.2.flatMap fun sa => as.map fun a => sa.compose a)) m) =
      chSum w m + (as.map fun a => chSum (fun id sa => w id (sa.compose a)) scs).sum := by
  intro scs
  induction scs with
  | nil => intro m; simp [sum_map_zero']
  | cons sc scs ih =>
    intro m
    rw [List.foldl_cons, ih, chSum_mapExtend, add_assoc]
    congr 1
    simp only [chSum_cons]
    rw [sum_map_add']
    congr 1
    rw [List.map_flatMap, sum_flatMap', ← sum_comm' (fun (sa a : Alloc) => w sc.1 (sa.compose a))]
    simp only [List.map_map]
    rfl

end chsum

/-- Contribution of the children list of a segment to its meaning. -/
theorem specs_sum {V : LEnv F R} {segs : List (Segment F)} {rec : Segment F → Nat → List (List R) → Set (Nat → R)} {n : Nat} {cur : List (List R)} :
    ∀ (chs : List (Nat × List Alloc)), (∀ ch ∈ chs, ch.1 < segs.length) →
      opsSet V segs rec n cur (chs.flatMap (specOps F)) = chSum (fun id a => opSet V segs rec n cur (.child id a)) chs := by
  intro chs
  induction chs with
  | nil => intro _; rfl
  | cons ch chs ih =>
    intro h
    rw [List.flatMap_cons, opsSet_append, ih (fun x hx => h x (by simp [hx])), chSum_cons]
    congr 1
    simp only [specOps, opsSet_cons]
    have : opSet V segs rec n cur (.look ch.1 : Op F) = 0 := by
      ext t; simp [opSet, h ch (by simp), Set.mem_zero]
    rw [this, zero_add, opsSet, List.map_map]
    rfl

/-- Every child entry is in range. -/
def ChOk (segs : List (Segment F)) (i : Nat) (s : Segment F) (ch : Nat × List Alloc) : Prop :=
  ch.1 < i ∧ ∃ sub, segs[ch.1]? = some sub ∧ sub.numInputs.length ≤ s.numInputs.length ∧ ∀ a ∈ ch.2, Alloc.Ok s sub a

theorem mapExtend_inv {P : Nat × List Alloc → Prop} {id : Nat} {as : List Alloc} (hnew : P (id, as)) (hext : ∀ l, P (id, l) → P (id, l ++ as)) :
    ∀ {m : List (Nat × List Alloc)}, (∀ p ∈ m, P p) → ∀ p ∈ mapExtend m id as, P p := by
  intro m
  induction m with
  | nil => intro _ p hp; simp [mapExtend] at hp; subst hp; exact hnew
  | cons q m ih =>
    obtain ⟨k, l⟩ := q
    intro h p hp
    simp only [mapExtend] at hp
    split at hp
    · rename_i hk; subst hk
      rcases List.mem_cons.1 hp with rfl | hp
      · exact hext l (h _ (by simp))
      · exact h p (by simp [hp])
    · rcases List.mem_cons.1 hp with rfl | hp
      · exact h _ (by simp)
      · exact ih (fun x hx => h x (by simp [hx])) p hp

theorem mapExtend_chOk {segs : List (Segment F)} {i : Nat} {s : Segment F} {id : Nat} {as : List Alloc} (h : ChOk segs i s (id, as))
    {m : List (Nat × List Alloc)} (hm : ∀ p ∈ m, ChOk segs i s p) : ∀ p ∈ mapExtend m id as, ChOk segs i s p := by
  refine mapExtend_inv h ?_ hm
  rintro l ⟨h1, sub, h2, h3, h4⟩
  obtain ⟨_, sub', h2', _, h4'⟩ := h
  simp only at h2 h2' h4 h4'
  rw [h2] at h2'; cases h2'
  refine ⟨h1, sub, h2, h3, ?_⟩
  intro a ha
  rcases List.mem_append.1 ha with ha | ha
  · exact h4 a ha
  · exact h4' a ha

theorem zipWith_get {xs ys : List Nat} {l x : Nat} (h : (xs.zipWith (· + ·) ys)[l]? = some x) : ∃ a b, xs[l]? = some a ∧ ys[l]? = some b ∧ x = a + b := by
  rw [List.getElem?_zipWith] at h
  cases hx : xs[l]? with
  | none => simp [hx] at h
  | some a =>
    cases hy : ys[l]? with
    | none => simp [hx, hy] at h
    | some b => simp [hx, hy] at h; exact ⟨a, b, rfl, rfl, h.symm⟩

/-- An allocation inside an allocation. -/
theorem Alloc.Ok.compose {s sub ssub : Segment F} {a sa : Alloc} (h : Alloc.Ok s sub a) (hs : Alloc.Ok sub ssub sa)
    (hl1 : sub.numInputs.length ≤ s.numInputs.length) (hl2 : ssub.numInputs.length ≤ sub.numInputs.length) : Alloc.Ok s ssub (sa.compose a) := by
  refine ⟨?_, ?_, ?_⟩
  · simp only [Alloc.compose, List.length_zipWith, hs.1, h.1]; omega
  · intro l x y z hx hy hz
    obtain ⟨a1, a2, h1, h2, rfl⟩ := zipWith_get hx
    have hlt : l < ssub.numInputs.length := (List.getElem?_eq_some_iff.1 hy).1
    have hlt2 : l < sub.numInputs.length := by omega
    have e := List.getElem?_eq_getElem hlt2
    have := hs.2.1 l a1 y _ h1 hy e
    have := h.2.1 l a2 _ z h2 e hz
    omega
  · have := hs.2.2
    have := h.2.2
    simp only [Alloc.compose]; omega

theorem fold_sub_chOk {segs : List (Segment F)} {i k : Nat} {s sub : Segment F} (hk : k < i) (hsub : SegOk segs k sub)
    (hle : sub.numInputs.length ≤ s.numInputs.length) {as : List Alloc} (has : ∀ a ∈ as, Alloc.Ok s sub a) :
    ∀ (scs : List (Nat × List Alloc)), (∀ sc ∈ scs, sc ∈ sub.childSegs) → ∀ m : List (Nat × List Alloc), (∀ p ∈ m, ChOk segs i s p) →
      ∀ p ∈ scs.foldl (fun m sc => mapExtend m sc.1 (sc.2.flatMap fun sa => as.map fun a => sa.compose a)) m, ChOk segs i s p := by
  intro scs
  induction scs with
  | nil => intro _ m hm; exact hm
  | cons sc scs ih =>
    intro hsc m hm
    rw [List.foldl_cons]
    apply ih (fun x hx => hsc x (by simp [hx]))
    apply mapExtend_chOk _ hm
    obtain ⟨h1, ssub, h2, h3, h4⟩ := hsub.child sc (hsc sc (by simp))
    refine ⟨by simp only; omega, ssub, h2, by omega, ?_⟩
    intro a ha
    simp only [List.mem_flatMap, List.mem_map] at ha
    obtain ⟨sa, hsa, a', ha', rfl⟩ := ha
    exact (has a' ha').compose (h4 sa hsa) hle h3

/-! ## One segment -/

/-- The environment of one call of `expand_segment`. -/
structure ExpCtx (segs prev : List (Segment F)) (should : Nat → Bool) (i : Nat) (s : Segment F) : Prop where
  ok : SegOk segs i s
  look : ∀ ch ∈ s.childSegs, prev[ch.1]? = segs[ch.1]?
  sub : ∀ (k : Nat) sub, k < i → segs[k]? = some sub → SegOk segs k sub

variable {segs prev : List (Segment F)} {should : Nat → Bool} {i : Nat} {s : Segment F}

theorem Gate.Ok.addOffset {sub : Segment F} {g : Gate F} (hg : g.Ok sub) {a : Alloc} (ha : Alloc.Ok s sub a)
    (hle : sub.numInputs.length ≤ s.numInputs.length) : (g.addOffset a).Ok s := by
  refine ⟨?_, ?_⟩
  · intro j hj
    simp only [Gate.addOffset, List.mem_map] at hj
    obtain ⟨j, hj, rfl⟩ := hj
    obtain ⟨n, hn, hlt⟩ := hg.1 j hj
    have hl : j.layer < sub.numInputs.length := (List.getElem?_eq_some_iff.1 hn).1
    have hl2 : j.layer < a.inputOffset.length := by rw [ha.1]; exact hl
    have hl3 : j.layer < s.numInputs.length := by omega
    refine ⟨s.numInputs[j.layer], List.getElem?_eq_getElem hl3, ?_⟩
    have := ha.2.1 j.layer _ n _ (List.getElem?_eq_getElem hl2) hn (List.getElem?_eq_getElem hl3)
    simp only [List.getD, List.getElem?_eq_getElem hl2, Option.getD_some]
    omega
  · have := hg.2
    have := ha.2.2
    simp only [Gate.addOffset]; omega

theorem expandGates_ok (hx : ExpCtx segs prev should i s) {get : Segment F → List (Gate F)} (hget : ∀ (t : Segment F), ∀ g ∈ get t, g ∈ t.allGates) :
    ∀ g ∈ expandGates prev should get s, g.Ok s := by
  intro g hg
  simp only [expandGates, List.mem_append, List.mem_flatMap] at hg
  rcases hg with hg | ⟨ch, hch, hg⟩
  · exact hx.ok.gates g (hget s g hg)
  · obtain ⟨h1, sub, h2, h3, h4⟩ := hx.ok.child ch hch
    rw [hx.look ch hch, h2] at hg
    split at hg
    · simp only [List.mem_flatMap, List.mem_map] at hg
      obtain ⟨a, ha, g', hg', rfl⟩ := hg
      exact Gate.Ok.addOffset ((hx.sub ch.1 sub h1 h2).gates g' (hget sub g' hg')) (h4 a ha) h3
    · simp at hg

theorem expandChild_chOk (hx : ExpCtx segs prev should i s) : ∀ (chs : List (Nat × List Alloc)), (∀ ch ∈ chs, ch ∈ s.childSegs) →
    ∀ m : List (Nat × List Alloc), (∀ p ∈ m, ChOk segs i s p) → ∀ p ∈ chs.foldl (expandChild prev should) m, ChOk segs i s p := by
  intro chs
  induction chs with
  | nil => intro _ m hm; exact hm
  | cons ch chs ih =>
    intro hc m hm
    rw [List.foldl_cons]
    apply ih (fun x h => hc x (by simp [h]))
    have hch := hc ch (by simp)
    obtain ⟨h1, sub, h2, h3, h4⟩ := hx.ok.child ch hch
    unfold expandChild
    split
    · rw [hx.look ch hch, h2]
      exact fold_sub_chOk h1 (hx.sub ch.1 sub h1 h2) h3 h4 _ (fun _ h => h) m hm
    · exact mapExtend_chOk ⟨h1, sub, h2, h3, h4⟩ hm

theorem expandSegment_ok {srtA : List Alloc → List Alloc} (hsA : ∀ l, (srtA l).Perm l) {ordH : List (Nat × List Alloc) → List (Nat × List Alloc)}
    (hoH : ∀ l, (ordH l).Perm l) (hx : ExpCtx segs prev should i s) : SegOk segs i (expandSegment srtA ordH prev should s) := by
  constructor
  · intro g hg
    simp only [Segment.allGates, expandSegment, List.mem_append] at hg
    have : g.Ok s := by
      rcases hg with ((hg | hg) | hg) | hg
      · exact expandGates_ok hx (get := Segment.gateMuls) (by intro t g h; simp [Segment.allGates, h]) g hg
      · exact expandGates_ok hx (get := Segment.gateAdds) (by intro t g h; simp [Segment.allGates, h]) g hg
      · exact expandGates_ok hx (get := Segment.gateConsts) (by intro t g h; simp [Segment.allGates, h]) g hg
      · exact expandGates_ok hx (get := Segment.gateCustoms) (by intro t g h; simp [Segment.allGates, h]) g hg
    exact this
  · intro ch hch
    simp only [expandSegment] at hch
    rw [(hoH _).mem_iff, List.mem_map] at hch
    obtain ⟨p, hp, rfl⟩ := hch
    obtain ⟨h1, sub, h2, h3, h4⟩ := expandChild_chOk hx s.childSegs (fun _ h => h) [] (by simp) p hp
    exact ⟨h1, sub, h2, h3, fun a ha => h4 a ((hsA _).mem_iff.1 ha)⟩

/-- Extra gates of one kind coming from one child. -/
def childGates (prev : List (Segment F)) (should : Nat → Bool) (get : Segment F → List (Gate F)) (ch : Nat × List Alloc) : List (Gate F) :=
  if should ch.1 then
    match prev[ch.1]? with
    | none => []
    | some sub => ch.2.flatMap fun a => (get sub).map (Gate.addOffset a)
  else []

theorem gatesSet_flatMap {V : LEnv F R} {n : Nat} {cur : List (List R)} {A : Type} (f : A → List (Gate F)) (l : List A) :
    gatesSet V n cur (l.flatMap f) = (l.map fun a => gatesSet V n cur (f a)).sum := by
  induction l with
  | nil => rfl
  | cons a l ih => rw [List.flatMap_cons, gatesSet_append, ih]; simp

theorem expandGates_sum {V : LEnv F R} {n : Nat} {cur : List (List R)} (get : Segment F → List (Gate F)) (s : Segment F) :
    gatesSet V n cur (expandGates prev should get s) = gatesSet V n cur (get s) +
      (s.childSegs.map fun ch => gatesSet V n cur (childGates prev should get ch)).sum := by
  unfold expandGates
  rw [gatesSet_append, gatesSet_flatMap]
  rfl

/-- Sum over the allocations added for one child. -/
def childRest {M : Type} [AddCommMonoid M] (w : Nat → Alloc → M) (prev : List (Segment F)) (should : Nat → Bool) (ch : Nat × List Alloc) : M :=
  if should ch.1 then
    match prev[ch.1]? with
    | none => 0
    | some sub => (ch.2.map fun a => chSum (fun id sa => w id (sa.compose a)) sub.childSegs).sum
  else (ch.2.map (w ch.1)).sum

theorem expandChild_sum {M : Type} [AddCommMonoid M] (w : Nat → Alloc → M) : ∀ (chs m : List (Nat × List Alloc)),
    chSum w (chs.foldl (expandChild prev should) m) = chSum w m + (chs.map (childRest w prev should)).sum := by
  intro chs
  induction chs with
  | nil => intro m; simp
  | cons ch chs ih =>
    intro m
    rw [List.foldl_cons, ih, List.map_cons, List.sum_cons, ← add_assoc]
    congr 1
    unfold expandChild childRest
    split
    · cases prev[ch.1]? with
      | none => simp
      | some sub => exact chSum_fold_sub w _ _ _
    · exact chSum_mapExtend w _ _ _

theorem expandSegment_sum {V : LEnv F R} {srtA : List Alloc → List Alloc} (hsA : ∀ l, (srtA l).Perm l)
    {ordH : List (Nat × List Alloc) → List (Nat × List Alloc)} (hoH : ∀ l, (ordH l).Perm l) (hlen : i < segs.length)
    {rec : Segment F → Nat → List (List R) → Set (Nat → R)} (hfix : FixedUpTo V segs rec i) (hx : ExpCtx segs prev should i s)
    {cur : List (List R)} (hcur : cur.map List.length = s.numInputs) :
    opsSet V segs rec s.numOutputs cur (expandSegment srtA ordH prev should s).ops = opsSet V segs rec s.numOutputs cur s.ops := by
  have hok' := expandSegment_ok hsA hoH hx
  rw [ops_eq, ops_eq, specs_sum s.childSegs (fun ch hch => by have := (hx.ok.child ch hch).1; omega),
    specs_sum _ (fun ch hch => by have := (hok'.child ch hch).1; omega)]
  simp only [expandSegment]
  rw [chSum_perm _ (hoH _), chSum_srt _ hsA, expandChild_sum, chSum_nil, zero_add]
  simp only [expandGates_sum]
  generalize hw : (fun id a => opSet V segs rec s.numOutputs cur (Op.child (F := F) id a)) = w
  have key : chSum w s.childSegs = (s.childSegs.map fun ch => gatesSet V s.numOutputs cur (childGates prev should Segment.gateMuls ch)).sum +
      (s.childSegs.map fun ch => gatesSet V s.numOutputs cur (childGates prev should Segment.gateAdds ch)).sum +
      (s.childSegs.map fun ch => gatesSet V s.numOutputs cur (childGates prev should Segment.gateConsts ch)).sum +
      (s.childSegs.map fun ch => gatesSet V s.numOutputs cur (childGates prev should Segment.gateCustoms ch)).sum +
      (s.childSegs.map (childRest w prev should)).sum := by
    rw [← sum_map_add', ← sum_map_add', ← sum_map_add', ← sum_map_add', chSum]
    congr 1
    apply List.map_congr_left
    intro ch hch
    obtain ⟨h1, sub, h2, h3, h4⟩ := hx.ok.child ch hch
    have hsub := hx.sub ch.1 sub h1 h2
    unfold childGates childRest
    rw [hx.look ch hch, h2]
    split
    · simp only [gatesSet_flatMap]
      rw [← sum_map_add', ← sum_map_add', ← sum_map_add', ← sum_map_add']
      congr 1
      apply List.map_congr_left
      intro a ha
      rw [← hw]
      simp only
      rw [opSet_child_expand hfix h1 h2 hsub (h4 a ha) h3 hcur]
      have hm : sub.ops.map (opShift a) = (⟨sub.numInputs, sub.numOutputs, sub.childSegs.map fun sc => (sc.1, sc.2.map fun sa => sa.compose a),
          sub.gateMuls.map (Gate.addOffset a), sub.gateAdds.map (Gate.addOffset a), sub.gateConsts.map (Gate.addOffset a),
          sub.gateCustoms.map (Gate.addOffset a)⟩ : Segment F).ops := by
        simp only [Segment.ops, List.map_append, List.map_map, List.map_flatMap, List.flatMap_map, specOps, List.map_cons]
        rfl
      rw [hm, ops_eq, specs_sum]
      · simp only
        congr 1
        simp only [chSum, List.map_map, Function.comp_def]
      · intro sc hsc
        simp only [List.mem_map] at hsc
        obtain ⟨sc, hsc, rfl⟩ := hsc
        have := (hsub.child sc hsc).1
        simp only; omega
    · simp [gatesSet_nil]
  rw [key]
  abel

end Verif.Layered
