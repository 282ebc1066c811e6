import Verif.Layered.Safe

/-!
# `dedup_gates` and `sort_everything` (circuit/layered/opt.rs:100-246, 399-403; mod.rs:918-926)

`sort()` is a parameter of which only "a permutation" is needed: the field's `Ord` is defined outside the repository.
-/

set_option linter.unusedSectionVars false
set_option linter.unusedSimpArgs false

namespace Verif.Layered

open Verif.IR (Coef)
open scoped Pointwise

variable {F R : Type} [CommRing F] [DecidableEq F] [CommRing R]

/-- Constants are interpreted additively. -/
structure LEnv.Lawful (V : LEnv F R) : Prop where
  zero : V.const 0 = 0
  add : ∀ a b, V.const (a + b) = V.const a + V.const b

/-- `Coef::get_constant` (layered/mod.rs:98-103). -/
def getConst : Coef F → Option F
  | .const c => some c
  | _ => none

/-- `GateOpt::can_merge_with` (opt.rs:111-116, 139-145). -/
def canMerge (a b : Gate F) : Bool :=
  a.typ == b.typ && a.inputs == b.inputs && a.output == b.output && (getConst a.coef).isSome && (getConst b.coef).isSome

/-- `coef_add` (opt.rs:108-110, 136-138): `add_constant` of the other constant. -/
def coefAdd (a b : Gate F) : Gate F :=
  match a.coef, b.coef with
  | .const x, .const y => ⟨a.typ, a.inputs, a.output, .const (x + y)⟩
  | _, _ => a

/-- The merge loop of `dedup_gates` (opt.rs:166-177): `g` is `gates[lst]`. -/
def mergeRun : Gate F → List (Gate F) → List (Gate F)
  | g, [] => [g]
  | g, h :: t => if canMerge g h then mergeRun (coefAdd g h) t else g :: mergeRun h t

/-- Merge adjacent mergeable gates. -/
def mergeAdj : List (Gate F) → List (Gate F)
  | [] => []
  | g :: t => mergeRun g t

/-- `dedup_gates` (opt.rs:165-194). -/
def dedupGates (srt : List (Gate F) → List (Gate F)) (trim : Bool) (gs : List (Gate F)) : List (Gate F) :=
  let m := mergeAdj (srt gs)
  if trim then m.filter (fun g => !(getConst g.coef == some 0)) else m

/-- Outputs written by some gate before but by none after (opt.rs:206-243). -/
def lostOutputs (n : Nat) (before after : List (Gate F)) : List Nat :=
  (List.range n).filter fun i => before.any (fun g => g.output == i) && !(after.any fun g => g.output == i)

/-- `Segment::dedup_gates` (opt.rs:205-246). -/
def Segment.dedup (srt : List (Gate F) → List (Gate F)) (s : Segment F) : Segment F :=
  let muls := dedupGates srt true s.gateMuls
  let adds := dedupGates srt true s.gateAdds
  let consts := dedupGates srt false s.gateConsts
  let customs := dedupGates srt true s.gateCustoms
  let lost := lostOutputs s.numOutputs s.allGates (muls ++ adds ++ consts ++ customs)
  ⟨s.numInputs, s.numOutputs, s.childSegs, muls, adds, srt (consts ++ lost.map fun i => ⟨none, [], i, .const 0⟩), customs⟩

/-- `Circuit::dedup_gates` (opt.rs:399-403). -/
def Circuit.dedup (srt : List (Gate F) → List (Gate F)) (c : Circuit F) : Circuit F :=
  ⟨c.numPublicInputs, c.numActualOutputs, c.expectedNumOutputZeroes, c.segments.map (Segment.dedup srt), c.layerIds⟩

/-- One segment of `sort_everything` (layered/mod.rs:919-925). -/
def Segment.sortAll {F : Type} (srt : List (Gate F) → List (Gate F)) (srtC : List (Nat × List Alloc) → List (Nat × List Alloc)) (s : Segment F) : Segment F :=
  ⟨s.numInputs, s.numOutputs, srtC s.childSegs, srt s.gateMuls, srt s.gateAdds, srt s.gateConsts, srt s.gateCustoms⟩

/-- `sort_everything` (layered/mod.rs:918-926). -/
def Circuit.sortAll {F : Type} (srt : List (Gate F) → List (Gate F)) (srtC : List (Nat × List Alloc) → List (Nat × List Alloc)) (c : Circuit F) : Circuit F :=
  ⟨c.numPublicInputs, c.numActualOutputs, c.expectedNumOutputZeroes, c.segments.map (Segment.sortAll srt srtC), c.layerIds⟩

/-! ## Sums of steps -/

section sums
variable {F : Type} {V : LEnv F R} {segs : List (Segment F)} {rec : Segment F → Nat → List (List R) → Set (Nat → R)} {n : Nat} {cur : List (List R)}

@[simp] theorem opsSet_nil : opsSet V segs rec n cur [] = 0 := rfl

theorem opsSet_cons (op : Op F) (ops : List (Op F)) :
    opsSet V segs rec n cur (op :: ops) = opSet V segs rec n cur op + opsSet V segs rec n cur ops := by simp [opsSet]

theorem opsSet_append (a b : List (Op F)) :
    opsSet V segs rec n cur (a ++ b) = opsSet V segs rec n cur a + opsSet V segs rec n cur b := by simp [opsSet]

theorem opsSet_perm {a b : List (Op F)} (h : a.Perm b) : opsSet V segs rec n cur a = opsSet V segs rec n cur b :=
  (h.map _).sum_eq

/-- Sum of the gates of a list. -/
def gatesSet (V : LEnv F R) (n : Nat) (cur : List (List R)) (gs : List (Gate F)) : Set (Nat → R) :=
  (gs.map fun g => opSet V ([] : List (Segment F)) (fun _ _ _ => ∅) n cur (.gate g)).sum

theorem opsSet_gates (gs : List (Gate F)) : opsSet V segs rec n cur (gs.map .gate) = gatesSet V n cur gs := by
  simp only [opsSet, gatesSet, List.map_map]; rfl

@[simp] theorem gatesSet_nil : gatesSet V n cur ([] : List (Gate F)) = 0 := rfl

theorem gatesSet_cons (g : Gate F) (gs : List (Gate F)) : gatesSet V n cur (g :: gs) = gatesSet V n cur [g] + gatesSet V n cur gs := by
  simp [gatesSet]

theorem gatesSet_append (a b : List (Gate F)) : gatesSet V n cur (a ++ b) = gatesSet V n cur a + gatesSet V n cur b := by simp [gatesSet]

theorem gatesSet_perm {a b : List (Gate F)} (h : a.Perm b) : gatesSet V n cur a = gatesSet V n cur b := (h.map _).sum_eq

theorem mem_gatesSet_one {g : Gate F} {t : Nat → R} : t ∈ gatesSet V n cur [g] ↔ ∃ vs c, mapOpt (readInput cur) g.inputs = some vs ∧
    CoefVal V g.coef c ∧ g.output < n ∧ t = fun i => if i = g.output then gateVal V g vs * c else 0 := by
  simp only [gatesSet, List.map_cons, List.map_nil, List.sum_cons, List.sum_nil, add_zero]; rfl

theorem ops_eq (s : Segment F) : opsSet V segs rec n cur s.ops =
    gatesSet V n cur s.gateMuls + gatesSet V n cur s.gateAdds + gatesSet V n cur s.gateConsts + gatesSet V n cur s.gateCustoms +
      opsSet V segs rec n cur (s.childSegs.flatMap (specOps F)) := by
  simp only [Segment.ops, opsSet_append, opsSet_gates, gatesSet_append]

end sums

/-! ## Merging and trimming -/

theorem canMerge_iff {a b : Gate F} : canMerge a b = true ↔ a.typ = b.typ ∧ a.inputs = b.inputs ∧ a.output = b.output ∧
    ∃ x y, a.coef = .const x ∧ b.coef = .const y := by
  unfold canMerge
  obtain ⟨at', ai, ao, ac⟩ := a
  obtain ⟨bt, bi, bo, bc⟩ := b
  simp only [Bool.and_eq_true, beq_iff_eq]
  constructor
  · rintro ⟨⟨⟨⟨h1, h2⟩, h3⟩, h4⟩, h5⟩
    cases ac <;> simp [getConst] at h4
    cases bc <;> simp [getConst] at h5
    exact ⟨h1, h2, h3, _, _, rfl, rfl⟩
  · rintro ⟨h1, h2, h3, x, y, rfl, rfl⟩
    simp [getConst, h1, h2, h3]

theorem merge_two {V : LEnv F R} (hV : V.Lawful) {n : Nat} {cur : List (List R)} {a b : Gate F} (h : canMerge a b = true) :
    gatesSet V n cur [coefAdd a b] = gatesSet V n cur [a] + gatesSet V n cur [b] := by
  obtain ⟨ht, hi, ho, x, y, hx, hy⟩ := canMerge_iff.1 h
  have hc : coefAdd a b = ⟨a.typ, a.inputs, a.output, .const (x + y)⟩ := by simp [coefAdd, hx, hy]
  have hval : ∀ vs, gateVal V b vs = gateVal V a vs := by intro vs; simp [gateVal, ht]
  have hval' : ∀ vs, gateVal V ⟨a.typ, a.inputs, a.output, .const (x + y)⟩ vs = gateVal V a vs := fun vs => rfl
  have key : ∀ (vs : List R), (fun i => if i = a.output then gateVal V a vs * V.const x else 0) + (fun i => if i = a.output then gateVal V a vs * V.const y else 0) =
      fun i => if i = a.output then gateVal V a vs * V.const (x + y) else (0 : R) := by
    intro vs; funext i
    by_cases hio : i = a.output
    · simp [hio, hV.add, mul_add]
    · simp [hio]
  ext t
  rw [hc, mem_gatesSet_one, Set.mem_add]
  simp only [mem_gatesSet_one, hx, hy, ← hi, ← ho, hval, hval', CoefVal]
  constructor
  · rintro ⟨vs, c, hvs, rfl, hlt, rfl⟩
    exact ⟨_, ⟨vs, _, hvs, rfl, hlt, rfl⟩, _, ⟨vs, _, hvs, rfl, hlt, rfl⟩, key vs⟩
  · rintro ⟨u, ⟨vs, c, hvs, rfl, hlt, rfl⟩, w, ⟨vs', c', hvs', rfl, _, rfl⟩, rfl⟩
    rw [hvs] at hvs'; cases hvs'
    exact ⟨vs, _, hvs, rfl, hlt, key vs⟩

theorem mergeRun_sum {V : LEnv F R} (hV : V.Lawful) {n : Nat} {cur : List (List R)} : ∀ (t : List (Gate F)) (g : Gate F),
    gatesSet V n cur (mergeRun g t) = gatesSet V n cur (g :: t) := by
  intro t
  induction t with
  | nil => intro g; rfl
  | cons h t ih =>
    intro g
    simp only [mergeRun]
    by_cases hm : canMerge g h = true
    · rw [if_pos hm, ih, gatesSet_cons, merge_two hV hm, gatesSet_cons g (h :: t), gatesSet_cons h t, add_assoc]
    · rw [if_neg hm, gatesSet_cons, ih, ← gatesSet_cons]

theorem mergeAdj_sum {V : LEnv F R} (hV : V.Lawful) {n : Nat} {cur : List (List R)} (gs : List (Gate F)) :
    gatesSet V n cur (mergeAdj gs) = gatesSet V n cur gs := by
  cases gs with
  | nil => rfl
  | cons g t => exact mergeRun_sum hV t g

/-- A gate with coefficient zero whose wires exist adds nothing. -/
theorem zero_gate {V : LEnv F R} (hV : V.Lawful) {n : Nat} {cur : List (List R)} {g : Gate F} (hc : g.coef = .const 0) (ho : g.output < n)
    (hr : ∃ vs, mapOpt (readInput cur) g.inputs = some vs) : gatesSet V n cur [g] = 0 := by
  obtain ⟨vs, hvs⟩ := hr
  ext t
  rw [mem_gatesSet_one, Set.mem_zero]
  constructor
  · rintro ⟨vs', c, _, hcv, _, rfl⟩
    rw [hc] at hcv
    have : c = 0 := by rw [show c = V.const 0 from hcv, hV.zero]
    subst this
    funext i; simp
  · rintro rfl
    exact ⟨vs, 0, hvs, by rw [hc]; exact hV.zero.symm, ho, by funext i; simp⟩

/-- Wires of a gate exist. -/
def Gate.Reads (n : Nat) (cur : List (List R)) (g : Gate F) : Prop := g.output < n ∧ ∃ vs, mapOpt (readInput cur) g.inputs = some vs

theorem trim_sum {V : LEnv F R} (hV : V.Lawful) {n : Nat} {cur : List (List R)} : ∀ (gs : List (Gate F)), (∀ g ∈ gs, g.Reads n cur) →
    gatesSet V n cur (gs.filter fun g => !(getConst g.coef == some 0)) = gatesSet V n cur gs := by
  intro gs
  induction gs with
  | nil => intro _; rfl
  | cons g gs ih =>
    intro h
    have ih' := ih (fun x hx => h x (by simp [hx]))
    by_cases hz : (getConst g.coef == some 0) = true
    · rw [List.filter_cons_of_neg (by simp [hz]), ih', gatesSet_cons g]
      have hc : g.coef = .const 0 := by
        cases hc : g.coef with
        | const x => simp [getConst, hc] at hz; rw [hz]
        | random => simp [getConst, hc] at hz
        | pub i => simp [getConst, hc] at hz
      rw [zero_gate hV hc (h g (by simp)).1 (h g (by simp)).2, zero_add]
    · rw [List.filter_cons_of_pos (by simp [hz]), gatesSet_cons g, ih', ← gatesSet_cons]

theorem coefAdd_wires (a b : Gate F) : (coefAdd a b).typ = a.typ ∧ (coefAdd a b).inputs = a.inputs ∧ (coefAdd a b).output = a.output := by
  unfold coefAdd; split <;> exact ⟨rfl, rfl, rfl⟩

/-- Every gate after merging has the type, inputs and output of a gate before. -/
theorem mem_mergeRun : ∀ (t : List (Gate F)) (g : Gate F), ∀ x ∈ mergeRun g t, ∃ y ∈ g :: t, x.typ = y.typ ∧ x.inputs = y.inputs ∧ x.output = y.output := by
  intro t
  induction t with
  | nil => intro g x hx; simp [mergeRun] at hx; subst hx; exact ⟨x, by simp, rfl, rfl, rfl⟩
  | cons h t ih =>
    intro g x hx
    simp only [mergeRun] at hx
    split at hx
    · obtain ⟨y, hy, h1, h2, h3⟩ := ih _ x hx
      obtain ⟨c1, c2, c3⟩ := coefAdd_wires g h
      rcases List.mem_cons.1 hy with rfl | hy
      · exact ⟨g, by simp, by rw [h1, c1], by rw [h2, c2], by rw [h3, c3]⟩
      · exact ⟨y, by simp [hy], h1, h2, h3⟩
    · rcases List.mem_cons.1 hx with rfl | hx
      · exact ⟨x, by simp, rfl, rfl, rfl⟩
      · obtain ⟨y, hy, h1, h2, h3⟩ := ih _ x hx
        exact ⟨y, by rw [List.mem_cons] at hy ⊢; exact Or.inr (List.mem_cons.2 hy), h1, h2, h3⟩

theorem mem_mergeAdj {gs : List (Gate F)} {x : Gate F} (hx : x ∈ mergeAdj gs) : ∃ y ∈ gs, x.typ = y.typ ∧ x.inputs = y.inputs ∧ x.output = y.output := by
  cases gs with
  | nil => simp [mergeAdj] at hx
  | cons g t => exact mem_mergeRun t g x hx

theorem mem_dedupGates {srt : List (Gate F) → List (Gate F)} (hs : ∀ l, (srt l).Perm l) {trim : Bool} {gs : List (Gate F)} {x : Gate F}
    (hx : x ∈ dedupGates srt trim gs) : ∃ y ∈ gs, x.typ = y.typ ∧ x.inputs = y.inputs ∧ x.output = y.output := by
  have : x ∈ mergeAdj (srt gs) := by
    unfold dedupGates at hx
    cases trim
    · simpa using hx
    · simp only [if_true, List.mem_filter] at hx; exact hx.1
  obtain ⟨y, hy, h⟩ := mem_mergeAdj this
  exact ⟨y, (hs gs).mem_iff.1 hy, h⟩

theorem dedupGates_sum {V : LEnv F R} (hV : V.Lawful) {srt : List (Gate F) → List (Gate F)} (hs : ∀ l, (srt l).Perm l) {trim : Bool} {n : Nat}
    {cur : List (List R)} {gs : List (Gate F)} (h : ∀ g ∈ gs, g.Reads n cur) : gatesSet V n cur (dedupGates srt trim gs) = gatesSet V n cur gs := by
  unfold dedupGates
  cases trim
  · simp only [Bool.false_eq_true, if_false]; rw [mergeAdj_sum hV, gatesSet_perm (hs gs)]
  · simp only [if_true]
    rw [trim_sum hV, mergeAdj_sum hV, gatesSet_perm (hs gs)]
    intro x hx
    obtain ⟨y, hy, _, h2, h3⟩ := mem_mergeAdj hx
    have := h y ((hs gs).mem_iff.1 hy)
    exact ⟨by rw [h3]; exact this.1, by rw [h2]; exact this.2⟩

theorem zeros_sum {V : LEnv F R} (hV : V.Lawful) {n : Nat} {cur : List (List R)} : ∀ (l : List Nat), (∀ i ∈ l, i < n) →
    gatesSet V n cur (l.map fun i => (⟨none, [], i, .const 0⟩ : Gate F)) = 0 := by
  intro l
  induction l with
  | nil => intro _; rfl
  | cons i l ih =>
    intro h
    rw [List.map_cons, gatesSet_cons, ih (fun j hj => h j (by simp [hj])), zero_gate hV rfl (h i (by simp)) ⟨[], rfl⟩, add_zero]

/-! ## Mapping every segment -/

theorem Gate.Ok.reads {s : Segment F} {g : Gate F} (h : g.Ok s) {cur : List (List R)} (hcur : cur.map List.length = s.numInputs) :
    g.Reads s.numOutputs cur :=
  ⟨h.2, mapOpt_isSome fun i hi => readInput_isSome hcur (h.1 i hi)⟩

/-- Replacing the child segments by ones of the same shape and meaning. -/
theorem opSet_congr {F : Type} {V : LEnv F R} {segs segs' : List (Segment F)} {rec rec' : Segment F → Nat → List (List R) → Set (Nat → R)} {n : Nat}
    {i : Nat} {s : Segment F} (hok : SegOk segs i s) {cur : List (List R)} (hcur : cur.map List.length = s.numInputs)
    (h : ∀ ch ∈ s.childSegs, ∀ sub, segs[ch.1]? = some sub → ∃ sub', segs'[ch.1]? = some sub' ∧ sub'.numInputs = sub.numInputs ∧
      sub'.numOutputs = sub.numOutputs ∧ ∀ ins : List (List R), ins.map List.length = sub.numInputs →
        rec' sub' sub.numOutputs ins = rec sub sub.numOutputs ins) :
    ∀ op ∈ s.ops, opSet V segs' rec' n cur op = opSet V segs rec n cur op := by
  intro op hop
  rcases mem_ops hop with ⟨g, hg, rfl⟩ | ⟨ch, hch, rfl | ⟨a, ha, rfl⟩⟩
  · rfl
  · obtain ⟨_, sub, hsub, -⟩ := hok.child ch hch
    obtain ⟨sub', hsub', -⟩ := h ch hch sub hsub
    have h1 := (List.getElem?_eq_some_iff.1 hsub).1
    have h2 := (List.getElem?_eq_some_iff.1 hsub').1
    simp [opSet, h1, h2]
  · obtain ⟨_, sub, hsub, hle, hal⟩ := hok.child ch hch
    obtain ⟨sub', hsub', hi, ho, hr⟩ := h ch hch sub hsub
    obtain ⟨ha1, ha2, ha3⟩ := hal a ha
    obtain ⟨ins, hins, hil⟩ := childIn_isSome (R := R) hcur ha1 hle ha2
    ext t
    simp only [opSet, hsub, hsub', Set.mem_setOf_eq]
    constructor
    · rintro ⟨_, ins', u, h1, h2, h3, h4, rfl⟩
      cases h1
      rw [hi, hins] at h2; cases h2
      rw [ho] at h3 h4 ⊢
      rw [hr ins hil] at h4
      exact ⟨sub, ins, u, rfl, hins, h3, h4, rfl⟩
    · rintro ⟨_, ins', u, h1, h2, h3, h4, rfl⟩
      cases h1
      rw [hins] at h2; cases h2
      rw [← hr ins hil] at h4
      exact ⟨sub', ins, u, rfl, by rw [hi]; exact hins, by rw [ho]; exact h3, by rw [ho]; exact h4, by rw [ho]⟩

theorem opsSet_congr {F : Type} {V : LEnv F R} {segs segs' : List (Segment F)} {rec rec' : Segment F → Nat → List (List R) → Set (Nat → R)} {n : Nat}
    {cur : List (List R)} {ops : List (Op F)} (h : ∀ op ∈ ops, opSet V segs' rec' n cur op = opSet V segs rec n cur op) :
    opsSet V segs' rec' n cur ops = opsSet V segs rec n cur ops := by
  unfold opsSet
  rw [List.map_congr_left h]

/-- A rewriting of single segments that keeps shapes and what the steps add up to. -/
structure SegMap {F : Type} (V : LEnv F R) (φ : Segment F → Segment F) : Prop where
  ins : ∀ s, (φ s).numInputs = s.numInputs
  outs : ∀ s, (φ s).numOutputs = s.numOutputs
  ops : ∀ (segs : List (Segment F)) (rec : Segment F → Nat → List (List R) → Set (Nat → R)) i s (cur : List (List R)), SegOk segs i s → cur.map List.length = s.numInputs →
    opsSet V segs rec s.numOutputs cur (φ s).ops = opsSet V segs rec s.numOutputs cur s.ops

theorem SegOk.map {F : Type} {φ : Segment F → Segment F} (hi : ∀ s, (φ s).numInputs = s.numInputs) (ho : ∀ s, (φ s).numOutputs = s.numOutputs)
    {segs : List (Segment F)} {i : Nat} {s : Segment F} (h : SegOk segs i s) : SegOk (segs.map φ) i s := by
  refine ⟨h.gates, fun ch hch => ?_⟩
  obtain ⟨h1, sub, h2, h3, h4⟩ := h.child ch hch
  refine ⟨h1, φ sub, by simp [h2], by rw [hi]; exact h3, fun a ha => ?_⟩
  obtain ⟨a1, a2, a3⟩ := h4 a ha
  exact ⟨by rw [hi]; exact a1, by rw [hi]; exact a2, by rw [ho]; exact a3⟩

theorem SegMap.den {F : Type} {V : LEnv F R} {φ : Segment F → Segment F} (hφ : SegMap V φ) {segs : List (Segment F)}
    (hseg : ∀ (i : Nat) s, segs[i]? = some s → SegOk segs i s) : ∀ (f i : Nat) (s : Segment F), segs[i]? = some s → ∀ cur : List (List R),
      cur.map List.length = s.numInputs → den V (segs.map φ) f (φ s) s.numOutputs cur = den V segs f s s.numOutputs cur := by
  intro f
  induction f with
  | zero => intros; rfl
  | succ f ih =>
    intro i s hs cur hcur
    simp only [Verif.Layered.den]
    rw [hφ.ops _ _ i s cur ((hseg i s hs).map hφ.ins hφ.outs) hcur]
    apply opsSet_congr
    apply opSet_congr (hseg i s hs) hcur
    intro ch _ sub hsub
    exact ⟨φ sub, by simp [hsub], hφ.ins sub, hφ.outs sub, fun ins hins => ih ch.1 sub hsub ins hins⟩

theorem SegMap.traces {F : Type} {V : LEnv F R} {φ : Segment F → Segment F} (hφ : SegMap V φ) {c c' : Circuit F} (hc : c.Ok)
    (hs : c'.segments = c.segments.map φ) (hl : c'.layerIds = c.layerIds) (inputs : List R) : Traces V c' inputs = Traces V c inputs := by
  apply traces_congr hc
  rw [hl, List.forall₂_same]
  intro id hid
  have hlt := hc.layers id hid
  refine ⟨c.segments[id], φ c.segments[id], List.getElem?_eq_getElem hlt, by rw [hs]; simp [hlt], hφ.ins _, hφ.outs _, ?_⟩
  intro cur hcur
  rw [hs, List.length_map]
  exact hφ.den hc.seg _ id _ (List.getElem?_eq_getElem hlt) cur hcur

/-- Well-formedness is kept by rewritings whose gates stay in range. -/
theorem Circuit.Ok.map {F : Type} {φ : Segment F → Segment F} (hi : ∀ s, (φ s).numInputs = s.numInputs) (ho : ∀ s, (φ s).numOutputs = s.numOutputs)
    (hg : ∀ s, (∀ g ∈ s.allGates, g.Ok s) → ∀ g ∈ (φ s).allGates, g.Ok s) (hch : ∀ s, ∀ ch ∈ (φ s).childSegs, ch ∈ s.childSegs) {c c' : Circuit F}
    (hc : c.Ok) (hs : c'.segments = c.segments.map φ) (hl : c'.layerIds = c.layerIds) : c'.Ok ∧ c'.inputSize = c.inputSize := by
  have hin : c'.inputSize = c.inputSize := by
    unfold Circuit.inputSize
    rw [hl, hs]
    cases c.layerIds.head? with
    | none => rfl
    | some id =>
      simp only [Option.bind_some, List.getElem?_map]
      cases c.segments[id]? with
      | none => rfl
      | some s => simp [hi]
  refine ⟨⟨?_, ?_, ?_, by rw [hin]; exact hc.input⟩, hin⟩
  · intro i s' h'
    rw [hs, List.getElem?_map, Option.map_eq_some_iff] at h'
    obtain ⟨s, h, rfl⟩ := h'
    have hok := (hc.seg i s h).map hi ho
    rw [hs]
    refine ⟨fun g hgm => ?_, fun ch hm => ?_⟩
    · have := hg s hok.gates g hgm
      exact ⟨by rw [hi]; exact this.1, by rw [ho]; exact this.2⟩
    · obtain ⟨h1, sub, h2, h3, h4⟩ := hok.child ch (hch s ch hm)
      refine ⟨h1, sub, h2, by rw [hi]; exact h3, fun a ha => ?_⟩
      obtain ⟨a1, a2, a3⟩ := h4 a ha
      exact ⟨a1, by rw [hi]; exact a2, by rw [ho]; exact a3⟩
  · intro id hid; rw [hl] at hid; rw [hs, List.length_map]; exact hc.layers id hid
  · intro i id s' hid h'
    rw [hl] at hid
    rw [hs, List.getElem?_map, Option.map_eq_some_iff] at h'
    obtain ⟨s, h, rfl⟩ := h'
    obtain ⟨h1, h2⟩ := hc.shape i id s hid h
    refine ⟨by rw [hi]; exact h1, fun j x hx => ?_⟩
    rw [hi] at hx
    rw [hin, hl, hs]
    rcases h2 j x hx with h3 | ⟨h3, k, s'', h4, h5, h6⟩
    · exact Or.inl h3
    · exact Or.inr ⟨h3, k, φ s'', h4, by simp [h5], by rw [ho]; exact h6⟩

/-- `dedup_gates` on one segment keeps what the segment adds. -/
theorem dedup_segMap {V : LEnv F R} (hV : V.Lawful) {srt : List (Gate F) → List (Gate F)} (hs : ∀ l, (srt l).Perm l) : SegMap V (Segment.dedup srt) where
  ins _ := rfl
  outs _ := rfl
  ops := by
    intro segs rec i s cur hok hcur
    have hr : ∀ g ∈ s.allGates, g.Reads s.numOutputs cur := fun g hg => (hok.gates g hg).reads hcur
    simp only [Segment.allGates, List.mem_append] at hr
    rw [ops_eq, ops_eq]
    simp only [Segment.dedup]
    rw [dedupGates_sum hV hs (fun g hg => hr g (by tauto)), dedupGates_sum hV hs (fun g hg => hr g (by tauto)),
      dedupGates_sum hV hs (gs := s.gateCustoms) (fun g hg => hr g (by tauto)), gatesSet_perm (hs _), gatesSet_append,
      dedupGates_sum hV hs (gs := s.gateConsts) (fun g hg => hr g (by tauto)), zeros_sum hV, add_zero]
    intro j hj
    have := (List.mem_filter.1 hj).1
    simpa using this

/-- `sort_everything` on one segment keeps what the segment adds. -/
theorem sort_segMap {F : Type} {V : LEnv F R} {srt : List (Gate F) → List (Gate F)} {srtC : List (Nat × List Alloc) → List (Nat × List Alloc)}
    (hs : ∀ l, (srt l).Perm l) (hsC : ∀ l, (srtC l).Perm l) : SegMap V (Segment.sortAll srt srtC) where
  ins _ := rfl
  outs _ := rfl
  ops := by
    intro segs rec i s cur _ _
    rw [ops_eq, ops_eq]
    simp only [Segment.sortAll]
    rw [gatesSet_perm (hs _), gatesSet_perm (hs _), gatesSet_perm (hs _), gatesSet_perm (hs _), opsSet_perm ((hsC s.childSegs).flatMap_right _)]

theorem dedup_ok {srt : List (Gate F) → List (Gate F)} (hs : ∀ l, (srt l).Perm l) {c : Circuit F} (hc : c.Ok) :
    (c.dedup srt).Ok ∧ (c.dedup srt).inputSize = c.inputSize := by
  refine Circuit.Ok.map (φ := Segment.dedup srt) (fun _ => rfl) (fun _ => rfl) ?_ (fun _ _ h => h) hc rfl rfl
  intro s hg g hm
  have lift : ∀ {trim : Bool} {gs : List (Gate F)}, (∀ x ∈ gs, x ∈ s.allGates) → g ∈ dedupGates srt trim gs → g.Ok s := by
    intro trim gs hsub hx
    obtain ⟨y, hy, _, h2, h3⟩ := mem_dedupGates hs hx
    have := hg y (hsub y hy)
    exact ⟨by rw [h2]; exact this.1, by rw [h3]; exact this.2⟩
  simp only [Segment.allGates, Segment.dedup, List.mem_append] at hm
  rcases hm with ((hm | hm) | hm) | hm
  · exact lift (fun x hx => by simp [Segment.allGates, hx]) hm
  · exact lift (fun x hx => by simp [Segment.allGates, hx]) hm
  · rw [(hs _).mem_iff, List.mem_append] at hm
    rcases hm with hm | hm
    · exact lift (fun x hx => by simp [Segment.allGates, hx]) hm
    · rw [List.mem_map] at hm
      obtain ⟨i, hi, rfl⟩ := hm
      have := (List.mem_filter.1 hi).1
      exact ⟨by simp, by simpa using this⟩
  · exact lift (fun x hx => by simp [Segment.allGates, hx]) hm

theorem sort_ok {F : Type} {srt : List (Gate F) → List (Gate F)} {srtC : List (Nat × List Alloc) → List (Nat × List Alloc)}
    (hs : ∀ l, (srt l).Perm l) (hsC : ∀ l, (srtC l).Perm l) {c : Circuit F} (hc : c.Ok) :
    (c.sortAll srt srtC).Ok ∧ (c.sortAll srt srtC).inputSize = c.inputSize := by
  refine Circuit.Ok.map (φ := Segment.sortAll srt srtC) (fun _ => rfl) (fun _ => rfl) ?_ (fun s ch h => (hsC _).mem_iff.1 h) hc rfl rfl
  intro s hg g hm
  apply hg
  simp only [Segment.allGates, Segment.sortAll, List.mem_append, (hs _).mem_iff] at hm ⊢
  exact hm

end Verif.Layered
