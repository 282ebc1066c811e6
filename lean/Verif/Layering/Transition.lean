import Verif.Layering.Decomp
import Mathlib.Algebra.Group.Pointwise.Set.BigOperators

/-!
# One generated segment computes the next layer

`transition`: applied to buffers that hold the values of a trace up to layer `i`, the segment of layer `i` adds to its (empty) output exactly
the contents of layer `i + 1` of the traces that extend the given one and satisfy the equations of that layer.
-/

set_option linter.unusedSectionVars false
set_option linter.unusedSimpArgs false

namespace Verif.Layering

open Verif.IR (Expr Coef Term VarSpec Env)
open Verif.Layered (Segment Gate Input Alloc LEnv den opSet opsSet shiftOut Op specOps readInput childIn CoefVal gateVal sliceOf)
open scoped Pointwise

variable {F : Type} [Field F] [DecidableEq F]

/-- A circuit with its layouts and the segments generated for it. -/
inductive Wired (tab : Nat → Option (Ctx F)) (segs : List (Segment F)) : Nat → List Layout → List Nat → Prop
  | mk {id : Nat} {layouts : List Layout} {ids : List Nat} {c : Ctx F} {qs : List (List (Nat × Nat))} {subls : List (List (Nat × Layout))}
      {cids : List (List Nat)} {gss : List (List (Gate F))}
      (lv : Level tab id c layouts qs subls)
      (hrec : ∀ (k : Nat) (q : Call), c.prog.calls[k]? = some q → Wired tab segs q.sub ((subls.getD k []).map (·.2)) (cids.getD k []))
      (hlt : ∀ (i k a b : Nat), i < c.outL → ids[i]? = some a → b ∈ cids.getD k [] → b < a)
      (hg : ∀ i < c.outL, layerGates tab c qs (fun k j => (subls.getD k [])[j]?) i = some (gss.getD i []))
      (hseg : ∀ i < c.outL, ∃ a : Nat, ids[i]? = some a ∧ segs[a]? = some (mkSegment c layouts i (childrenAt tab c subls cids i) (gss.getD i [])))
      : Wired tab segs id layouts ids

theorem Wired.tree {tab : Nat → Option (Ctx F)} {segs : List (Segment F)} {id : Nat} {layouts : List Layout} {ids : List Nat} (h : Wired tab segs id layouts ids) : Tree tab id := by
  induction h with
  | mk lv hrec hlt hg hseg ih => exact .mk lv.hc ih

theorem childIn_range (B : Nat → List F) (O Z : Nat → Nat) : ∀ (m' s m : Nat), m' ≤ m → (∀ l, s ≤ l → l < s + m' → O l + Z l ≤ (B l).length) →
    childIn ((List.range' s m).map B) ((List.range' s m').map O) ((List.range' s m').map Z) =
      some ((List.range' s m').map fun l => ((B l).drop (O l)).take (Z l)) := by
  intro m'
  induction m' with
  | zero => intro s m _ _; cases m <;> rfl
  | succ m' ih =>
    intro s m hm hr
    obtain ⟨m, rfl⟩ : ∃ k, m = k + 1 := ⟨m - 1, by omega⟩
    simp only [List.range'_succ, List.map_cons, childIn, sliceOf, if_pos (hr s (le_refl _) (by omega)), ih (s + 1) m (by omega) (fun l h1 h2 => hr l (by omega) (by omega))]

/-- The numbers of inputs and outputs of the segments. -/
theorem mkSegment_numInputs (c : Ctx F) (layouts : List Layout) (i : Nat) (ch : List (Nat × Alloc)) (gs : List (Gate F)) :
    (mkSegment c layouts i ch gs).numInputs = (List.range (i + 1 - c.mu.getD (i + 1) 0)).map fun l => ((layouts[i - l]?).map Layout.size).getD 0 := rfl

theorem mkSegment_numOutputs {c : Ctx F} {layouts : List Layout} {i : Nat} {ch : List (Nat × Alloc)} {gs : List (Gate F)} {L : Layout} (h : layouts[i + 1]? = some L) :
    (mkSegment c layouts i ch gs).numOutputs = L.size := by
  show ((layouts[i + 1]?).map Layout.size).getD 0 = _
  rw [h]; rfl

section

variable {E : Env F} {V : LEnv F F} {segs : List (Segment F)} {tab : Nat → Option (Ctx F)}

/-- What a call may contribute. -/
def childSet (E : Env F) (tab : Nat → Option (Ctx F)) (c : Ctx F) (subls : List (List (Nat × Layout))) (T : Trace F) (i k : Nat) : Set (Nat → F) :=
  {t | ∃ Tk : Trace F, (Act tab c i k → ∀ q : Call, c.prog.calls[k]? = some q → Same tab q.sub (i - c.start k) (T.sub k) Tk ∧ EqAt E tab q.sub (i + 1 - c.start k) Tk) ∧
    t = if Act tab c i k then shiftOut (nextSub c subls i k).1 (nextSub c subls i k).2.size (fill tab (nextSub c subls i k).2 Tk) else 0}

/-- The statement about one circuit, used for the calls. -/
def TransOk (E : Env F) (V : LEnv F F) (segs : List (Segment F)) (tab : Nat → Option (Ctx F)) (id : Nat) (layouts : List Layout) (ids : List Nat) : Prop :=
  ∀ (c : Ctx F), tab id = some c → ∀ (i : Nat), i < c.outL → ∀ (T : Trace F) (bufs : Nat → List F) (fuel a : Nat) (seg : Segment F),
    (∀ L ∈ layouts, LayoutOk tab L) → (∀ j ≤ i, EqAt E tab id j T) →
    (∀ (j : Nat) (L : Layout), c.mu.getD (i + 1) 0 ≤ j → j ≤ i → layouts[j]? = some L → Agrees tab L T (bufs j)) →
    ids[i]? = some a → segs[a]? = some seg → a < fuel →
    den V segs fuel seg seg.numOutputs (window c bufs i) = {f | ∃ T' : Trace F, Same tab id i T T' ∧ EqAt E tab id (i + 1) T' ∧
      ∀ L, layouts[i + 1]? = some L → f = fill tab L T'}

theorem child_set (htab : ∀ id c, tab id = some c → CtxOk tab c) {id : Nat} {c : Ctx F} {layouts : List Layout} {qs : List (List (Nat × Nat))}
    {subls : List (List (Nat × Layout))} {cids : List (List Nat)} (lv : Level tab id c layouts qs subls) (hok : ∀ L ∈ layouts, LayoutOk tab L)
    {i : Nat} (hi : i < c.outL) {T : Trace F} (hT : ∀ j ≤ i, EqAt E tab id j T) {bufs : Nat → List F}
    (hb : ∀ (j : Nat) (L : Layout), c.mu.getD (i + 1) 0 ≤ j → j ≤ i → layouts[j]? = some L → Agrees tab L T (bufs j))
    {L : Layout} (hL : layouts[i + 1]? = some L) {k : Nat} {q : Call} {s : Ctx F} (hq : c.prog.calls[k]? = some q) (hs : tab q.sub = some s)
    (hw : Wired tab segs q.sub ((subls.getD k []).map (·.2)) (cids.getD k [])) (ih : TransOk E V segs tab q.sub ((subls.getD k []).map (·.2)) (cids.getD k []))
    (ha : Act tab c i k) {fuel : Nat} (hf : ∀ b ∈ cids.getD k [], b < fuel) :
    (cids.getD k []).getD (i - c.start k) 0 < segs.length ∧
    opSet V segs (den V segs fuel) L.size (window c bufs i) (.child ((cids.getD k []).getD (i - c.start k) 0)
      (allocOf s (fun j => (((subls.getD k [])[j]?).map (·.1)).getD 0) (i - c.start k))) = childSet E tab c subls T i k := by
  have ok := htab id c lv.hc
  have oks := htab _ s hs
  have hpos := oks.outPos
  have hend := ok.callEnd k q s hq hs
  have ha' := ha
  unfold Act at ha'
  rw [depOf_of hq hs] at ha'
  obtain ⟨hlen, _⟩ := lv.sub k q s hq hs
  have hi' : i - c.start k < s.outL := by omega
  have e1 : i - c.start k + 1 = i + 1 - c.start k := by omega
  -- the segment of the called circuit
  obtain ⟨a, seg, ha1, ha2, hni, hno⟩ : ∃ (a : Nat) (seg : Segment F), (cids.getD k [])[i - c.start k]? = some a ∧ segs[a]? = some seg ∧
      seg.numInputs = (List.range (i - c.start k + 1 - s.mu.getD (i - c.start k + 1) 0)).map (fun l => ((((subls.getD k []).map (·.2))[i - c.start k - l]?).map Layout.size).getD 0) ∧
      seg.numOutputs = (((((subls.getD k []).map (·.2))[i - c.start k + 1]?).map Layout.size).getD 0) := by
    cases hw with
    | @mk _ _ _ c' qs' subls' cids' gss' lv' _ _ _ hseg =>
      have hc' := lv'.hc
      rw [hs] at hc'; cases hc'
      obtain ⟨a, h1, h2⟩ := hseg (i - c.start k) hi'
      exact ⟨a, _, h1, h2, rfl, rfl⟩
  have hid : (cids.getD k []).getD (i - c.start k) 0 = a := by rw [List.getD_eq_getElem?_getD, ha1]; rfl
  have hafuel : a < fuel := hf a (List.mem_of_getElem? ha1)
  -- the layouts of the called circuit
  have hsl : ∀ j, j ≤ s.outL → (subls.getD k [])[j]? = some (((subls.getD k [])[j]?).getD (0, .dense 0 0 [])) := by
    intro j hj
    rw [List.getElem?_eq_getElem (by omega)]; rfl
  obtain ⟨SL, hSL⟩ : ∃ SL : Nat → Nat × Layout, ∀ j, SL j = ((subls.getD k [])[j]?).getD (0, .dense 0 0 []) := ⟨_, fun _ => rfl⟩
  have hsl' : ∀ j, j ≤ s.outL → (subls.getD k [])[j]? = some (SL j) := fun j hj => by rw [hSL]; exact hsl j hj
  have hnext : nextSub c subls i k = SL (i - c.start k + 1) := by rw [nextSub, hSL, e1]
  have hno' : seg.numOutputs = (SL (i - c.start k + 1)).2.size := by
    rw [hno, List.getElem?_map, hsl' _ (by omega)]; rfl
  have hsok : ∀ j, j ≤ s.outL → LayoutOk tab (SL j).2 ∧ ∃ L, layouts[c.start k + j]? = some L ∧ (SL j).1 + (SL j).2.size ≤ L.size :=
    fun j hj => lv.sub_ok hok hq hs hpos (hsl' j hj) hend
  have hsubok : ∀ L' ∈ (subls.getD k []).map (·.2), LayoutOk tab L' := by
    intro L' hL'
    obtain ⟨sl, h1, rfl⟩ := List.mem_map.1 hL'
    obtain ⟨j, hj⟩ := List.getElem?_of_mem h1
    have hjlt := (List.getElem?_eq_some_iff.1 hj).1
    have := hsl' j (by omega)
    rw [hj] at this; cases this
    exact (hsok j (by omega)).1
  have hmuS := ok.muSub k q s i hq hs ha'.1 ha'.2
  rw [← e1] at hmuS
  have hmus := oks.mu1 (i - c.start k) hi'
  have hmu := ok.mu1 i hi
  -- the buffers of the called circuit
  obtain ⟨B', hB'⟩ : ∃ B' : Nat → List F, ∀ j, B' j = ((bufs (c.start k + j)).drop (SL j).1).take (SL j).2.size := ⟨_, fun _ => rfl⟩
  have hagr : ∀ j, s.mu.getD (i - c.start k + 1) 0 ≤ j → j ≤ i - c.start k → Agrees tab (SL j).2 (T.sub k) (B' j) := by
    intro j h1 h2
    rw [hB']
    exact lv.sub_agrees ok hok hq hs hpos (hsl' j (by omega)) (by omega) (fun L' hL' => hb _ L' (by omega) (by omega) hL') (fun _ => hT _ (by omega))
  have hin : childIn (window c bufs i) (allocOf s (fun j => (((subls.getD k [])[j]?).map (·.1)).getD 0) (i - c.start k)).inputOffset seg.numInputs =
      some (window s B' (i - c.start k)) := by
    have h1 : (allocOf s (fun j => (((subls.getD k [])[j]?).map (·.1)).getD 0) (i - c.start k)).inputOffset =
        (List.range' 0 (i - c.start k + 1 - s.mu.getD (i - c.start k + 1) 0)).map fun l => (SL (i - c.start k - l)).1 := by
      rw [← List.range_eq_range']
      apply List.map_congr_left
      intro l _
      beta_reduce
      rw [hsl' _ (by omega)]; rfl
    have h2 : seg.numInputs = (List.range' 0 (i - c.start k + 1 - s.mu.getD (i - c.start k + 1) 0)).map fun l => (SL (i - c.start k - l)).2.size := by
      rw [hni, ← List.range_eq_range']
      apply List.map_congr_left
      intro l _
      rw [List.getElem?_map, hsl' _ (by omega)]; rfl
    rw [h1, h2, window, List.range_eq_range', childIn_range]
    · rw [window, List.range_eq_range']
      congr 1
      apply List.map_congr_left
      intro l hl
      rw [List.mem_range'_1] at hl
      rw [hB', show c.start k + (i - c.start k - l) = i - l by omega]
    · omega
    · intro l h1 h2
      obtain ⟨L', hL', hle⟩ := (hsok (i - c.start k - l) (by omega)).2
      have hA := hb (i - l) L' (by omega) (by omega) (by rw [← hL']; congr 1; omega)
      cases hA with
      | mk hlen' => rw [hlen']; exact hle
  have hout : (allocOf s (fun j => (((subls.getD k [])[j]?).map (·.1)).getD 0) (i - c.start k)).outputOffset = (SL (i - c.start k + 1)).1 := by
    show (((subls.getD k [])[i - c.start k + 1]?).map (·.1)).getD 0 = _
    rw [hsl' _ (by omega)]; rfl
  have hle : (SL (i - c.start k + 1)).1 + (SL (i - c.start k + 1)).2.size ≤ L.size := by
    obtain ⟨L', hL', hle⟩ := (hsok (i - c.start k + 1) (by omega)).2
    rw [show c.start k + (i - c.start k + 1) = i + 1 by omega, hL] at hL'
    cases hL'; exact hle
  have hden := ih s hs (i - c.start k) hi' (T.sub k) B' fuel a seg hsubok (by
      intro j hj
      cases hT (c.start k + j) (by omega) with
      | @mk _ _ _ c' hc' _ _ _ hsub =>
        rw [lv.hc] at hc'; cases hc'
        have := hsub k q s hq hs (by omega) (by omega)
        rwa [show c.start k + j - c.start k = j by omega] at this) (by
      intro j L' h1 h2 hL'
      rw [List.getElem?_map, hsl' j (by omega)] at hL'
      cases hL'
      exact hagr j h1 h2) ha1 ha2 hafuel
  refine ⟨by rw [hid]; exact (List.getElem?_eq_some_iff.1 ha2).1, ?_⟩
  ext t
  simp only [opSet, Set.mem_setOf_eq, hid, ha2, childSet, if_pos ha, hnext]
  constructor
  · rintro ⟨sub, ins, u, h1, h2, h3, h4, rfl⟩
    cases h1
    rw [hin] at h2; cases h2
    rw [hden] at h4
    obtain ⟨Tk, t1, t2, t3⟩ := h4
    refine ⟨Tk, ?_, ?_⟩
    · intro _ q' hq'
      rw [hq] at hq'; cases hq'
      rw [← e1]; exact ⟨t1, t2⟩
    · rw [hout, hno', t3 _ (by rw [List.getElem?_map, hsl' _ (by omega)]; rfl)]
  · rintro ⟨Tk, t1, rfl⟩
    obtain ⟨t1, t2⟩ := t1 ha q hq
    rw [← e1] at t2
    refine ⟨seg, _, fill tab (SL (i - c.start k + 1)).2 Tk, rfl, hin, by rw [hout, hno']; exact hle, ?_, by rw [hout, hno']⟩
    rw [hden]
    refine ⟨Tk, t1, t2, ?_⟩
    intro L' hL'
    rw [List.getElem?_map, hsl' _ (by omega)] at hL'
    cases hL'; rfl

/-- All the steps of a segment, by origin. -/
theorem segment_set (hV : EnvOk E V) (htab : ∀ id c, tab id = some c → CtxOk tab c)
    (hco : ∀ id c, tab id = some c → ∀ x a, c.prog.defn x = some (.const a) → ∀ y, CoefVal V a y ↔ a.Sem E y)
    {id : Nat} {c : Ctx F} {layouts : List Layout} {qs : List (List (Nat × Nat))}
    {subls : List (List (Nat × Layout))} {cids : List (List Nat)} {gs : List (Gate F)} (lv : Level tab id c layouts qs subls) (hok : ∀ L ∈ layouts, LayoutOk tab L)
    {i : Nat} (hi : i < c.outL) {T : Trace F} (hT : ∀ j ≤ i, EqAt E tab id j T) {bufs : Nat → List F}
    (hb : ∀ (j : Nat) (L : Layout), c.mu.getD (i + 1) 0 ≤ j → j ≤ i → layouts[j]? = some L → Agrees tab L T (bufs j))
    {L : Layout} (hL : layouts[i + 1]? = some L)
    (hw : ∀ (k : Nat) (q : Call), c.prog.calls[k]? = some q → Wired tab segs q.sub ((subls.getD k []).map (·.2)) (cids.getD k []))
    (ih : ∀ (k : Nat) (q : Call), c.prog.calls[k]? = some q → TransOk E V segs tab q.sub ((subls.getD k []).map (·.2)) (cids.getD k []))
    {fuel : Nat} (hf : ∀ k, ∀ b ∈ cids.getD k [], b < fuel) (hg : layerGates tab c qs (fun k j => (subls.getD k [])[j]?) i = some gs) :
    opsSet V segs (den V segs fuel) L.size (window c bufs i) (mkSegment c layouts i (childrenAt tab c subls cids i) gs).ops =
      ((∑ x ∈ Finset.range c.prog.nv, (firstSet E c qs T i x + {relayPart c qs T i x})) + ccSet tab c qs T i) +
        ∑ k ∈ Finset.range c.prog.calls.length, childSet E tab c subls T i k := by
  have ok := htab id c lv.hc
  have hreads := lv.reads hi hb
  have hmu := ok.mu1 i hi
  have hLok := hok L (List.mem_of_getElem? hL)
  obtain ⟨g1, g2⟩ := layer_set (segs := segs) (rec := den V segs fuel) (n := L.size) (E := E) (V := V) ok hV hi hreads
    (fun x p h => ⟨lv.lookup_lt hL hLok h, lv.lookup_vars hL h⟩) (hco id c lv.hc) (by
      intro k s sl a hs hsl hcp
      obtain ⟨q, hq, hqs⟩ := subCtx_some hs
      have oks := htab _ s hqs
      unfold ccPos at hcp
      cases hcc : s.cc.getD (i - c.start k) none with
      | none => rw [hcc] at hcp; cases hcp
      | some cc =>
        rw [hcc] at hcp
        simp only at hcp
        cases hv : posOf (s.vars.getD (i - c.start k) []) cc.id with
        | none => rw [hv] at hcp; cases hcp
        | some v =>
          rw [hv] at hcp
          simp only at hcp
          obtain ⟨⟨p, v'⟩, hp1, rfl⟩ := Option.map_eq_some_iff.1 hcp
          have hslot := List.mem_of_find?_eq_some hp1
          have hv' : v' = v := by simpa using List.find?_some hp1
          subst hv'
          -- the call has started and has not finished
          have hvar := posOf_spec hv
          obtain ⟨hlen, _⟩ := lv.sub k q s hq hqs
          have hjlt : i - c.start k < s.outL + 1 := by rw [← hlen]; exact (List.getElem?_eq_some_iff.1 hsl).1
          have hend := ok.callEnd k q s hq hqs
          obtain ⟨L', hL', _, hcase⟩ := lv.sub_cases hok hq hqs oks.outPos hsl hend
          have hstart : i - c.start k ≠ 0 := by
            intro e; rw [e, oks.cc0] at hcc; cases hcc
          have hne : i - c.start k < s.outL := by
            rcases hcase with ⟨_, h, _⟩ | ⟨h, _, _, h4⟩ | ⟨h, _⟩
            · exact h
            · exfalso
              have hLok' := hok L' (List.mem_of_getElem? hL')
              have hLok'' := hLok'
              cases hLok' with
              | mk c' hc' hp hs' hn hk hsub hr hd hdd hm =>
                obtain ⟨N, hN⟩ := hp
                have hps : ∀ x p, (qs.getD (c.start k + (i - c.start k)) []).lookup x = some p → p < 2 ^ N := fun x p hx => hN ▸ lv.lookup_lt hL' hLok'' hx
                obtain ⟨pl, q1, _, _, q4, _⟩ := query_spec hps q.outputs s.prog.outs (s.varsOf (i - c.start k)) q.sub (i - c.start k)
                rw [h4, q1] at hslot
                obtain ⟨j, x, w, _, r2, _, r4⟩ := q4 p v' (dense_slots.1 hslot)
                have := posOf_spec r4
                rw [show s.varsOf (i - c.start k) = s.vars.getD (i - c.start k) [] from rfl, hvar] at this
                cases this
                have h1 := oks.occRange _ _ (oks.outsOcc _ (List.mem_of_getElem? r2))
                have h2 := oks.ccId _ cc hcc
                omega
            · omega
          have hA := lv.sub_agrees (E := E) ok hok hq hqs oks.outPos hsl hne (T := T) (b := bufs i) (fun L'' hL'' => hb i L'' hmu (le_refl _) (by
            rw [← hL'']; congr 1; omega)) (fun e => absurd e hstart)
          obtain ⟨L'', hL'', hle⟩ := (lv.sub_ok hok hq hqs oks.outPos hsl hend).2
          have hcirc : sl.2.circ = q.sub ∧ sl.2.layer = i - c.start k := by
            rcases hcase with ⟨_, _, h3⟩ | ⟨h, _, _, h4⟩ | ⟨h, _⟩
            · have hLok' := hok L' (List.mem_of_getElem? hL')
              obtain ⟨hlay, hci⟩ := lv.lay _ L' hL'
              cases hLok' with
              | mk c' hc' hp hs' hn hk hsub hr hd hdd hm =>
                rw [hci, lv.hc] at hc'; cases hc'
                obtain ⟨off, S⟩ := sl
                obtain ⟨q', s', e1, e2, e3, _, _, e4⟩ := hm k off S (lookup_mem h3)
                rw [hq] at e1; cases e1
                refine ⟨e3, ?_⟩
                show S.layer = _
                rw [e4, hlay]; omega
            · omega
            · omega
          have hlv : lvars tab sl.2 = s.varsOf (i - c.start k) := by
            rw [lvars, hcirc.1, hqs, hcirc.2]; rfl
          cases hA with
          | mk hl hs' _ _ =>
            have hr := hs' p v' hslot
            rw [hlv, List.getD_eq_getElem?_getD, show s.varsOf (i - c.start k) = s.vars.getD (i - c.start k) [] from rfl, hvar, Option.getD_some] at hr
            have hplt : p < sl.2.size := by
              have := (List.getElem?_eq_some_iff.1 hr).1
              rw [List.length_take] at this; omega
            rw [List.getElem?_take, if_pos hplt, List.getElem?_drop] at hr
            rw [hr]
            show some (T [k] cc.id) = _
            rw [Ctx.ccId, hcc]; rfl) hg
  have hchild : ∀ k ∈ Finset.range c.prog.calls.length, ∀ s, subCtx tab c k = some s → Act tab c i k →
      (cids.getD k []).getD (i - c.start k) 0 < segs.length ∧
      opSet V segs (den V segs fuel) L.size (window c bufs i) (.child ((cids.getD k []).getD (i - c.start k) 0)
        (allocOf s (fun j => (((subls.getD k [])[j]?).map (·.1)).getD 0) (i - c.start k))) = childSet E tab c subls T i k := by
    intro k hk s hs ha
    obtain ⟨q, hq, hqs⟩ := subCtx_some hs
    exact child_set htab lv hok hi hT hb hL hq hqs (hw k q hq) (ih k q hq) ha (hf k)
  have hact : ∀ k s, subCtx tab c k = some s → ((c.starts.getD k 0 ≤ i ∧ i < c.starts.getD k 0 + s.outL) ↔ Act tab c i k) := by
    intro k s hs
    unfold Act depOf
    rw [hs]; rfl
  have hids : ∀ p ∈ childrenAt tab c subls cids i, p.1 < segs.length := by
    intro p hp
    obtain ⟨k, hk, hk'⟩ := List.mem_filterMap.1 hp
    cases hs : subCtx tab c k with
    | none => rw [hs] at hk'; cases hk'
    | some s =>
      rw [hs] at hk'
      simp only at hk'
      split at hk'
      · rename_i hif
        cases hk'
        exact (hchild k (Finset.mem_range.2 (List.mem_range.1 hk)) s hs ((hact k s hs).1 hif)).1
      · cases hk'
  rw [mkSegment_ops V segs (den V segs fuel) L.size (window c bufs i) c layouts i _ gs g2 hids, g1]
  congr 1
  unfold childrenAt
  rw [sum_filterMap, list_range_sum]
  apply Finset.sum_congr rfl
  intro k hk
  obtain ⟨q, hq⟩ := calls_lt (Finset.mem_range.1 hk)
  obtain ⟨s, hs⟩ := ok.sub k q hq
  have hsc := subCtx_of hq hs
  rw [hsc]
  simp only
  by_cases ha : Act tab c i k
  · rw [if_pos ((hact k s hsc).2 ha)]
    simp only [Option.map_some, Option.getD_some]
    exact (hchild k hk s hsc ha).2
  · rw [if_neg (fun h => ha ((hact k s hsc).1 h))]
    ext t
    simp only [Option.map_none, Option.getD_none, Set.mem_zero, childSet, Set.mem_setOf_eq, if_neg ha]
    constructor
    · rintro rfl; exact ⟨T.sub k, fun h => absurd h ha, rfl⟩
    · rintro ⟨_, _, rfl⟩; rfl

/-- One segment computes the next layer. -/
theorem transition (hV : EnvOk E V) (htab : ∀ id c, tab id = some c → CtxOk tab c)
    (hco : ∀ id c, tab id = some c → ∀ x a, c.prog.defn x = some (.const a) → ∀ y, CoefVal V a y ↔ a.Sem E y)
    {id : Nat} {layouts : List Layout} {ids : List Nat} (hw : Wired tab segs id layouts ids) : TransOk E V segs tab id layouts ids := by
  induction hw with
  | @mk id layouts ids c qs subls cids gss lv hrec hlt hg hseg ih =>
    intro c' hc' i hi T bufs fuel a seg hok hT hb ha hs hf
    rw [lv.hc] at hc'; cases hc'
    have ok := htab id c lv.hc
    obtain ⟨L, hL⟩ := lv.get (i := i + 1) (by omega)
    obtain ⟨a', ha', hs'⟩ := hseg i hi
    rw [ha] at ha'; cases ha'
    rw [hs] at hs'; cases hs'
    obtain ⟨fuel, rfl⟩ : ∃ f, fuel = f + 1 := ⟨fuel - 1, by omega⟩
    rw [mkSegment_numOutputs hL]
    show opsSet V segs (den V segs fuel) L.size (window c bufs i) _ = _
    rw [segment_set hV htab hco lv hok hi hT hb hL hrec ih (fun k b hb' => by have := hlt i k a b hi ha hb'; omega) (hg i hi)]
    have hEq := hT i (le_refl _)
    ext f
    rw [Set.mem_add]
    constructor
    · rintro ⟨u, hu, w, hw', rfl⟩
      obtain ⟨u1, hu1, u2, hu2, rfl⟩ := Set.mem_add.1 hu
      obtain ⟨g1, hg1, rfl⟩ := (Set.mem_finset_sum _ _ _).1 hu1
      obtain ⟨g2, hg2, rfl⟩ := (Set.mem_finset_sum _ _ _).1 hw'
      obtain ⟨yc, hyc, rfl⟩ := hu2
      have hy : ∀ x, ∃ y, x < c.prog.nv → ((c.lay x = i + 1 → match c.prog.defn x with
          | some (.expr e) => Expr.Sem E (fun v => some (T [] v)) e y
          | some (.const a) => a.Sem E y
          | _ => True) ∧
          g1 x = (if c.lay x = i + 1 ∧ isCE c x = true then (((qs.getD (i + 1) []).lookup x).map fun p => single p y).getD 0 else 0) + relayPart c qs T i x) := by
        intro x
        by_cases hx : x < c.prog.nv
        · obtain ⟨v, ⟨y, h1, h2⟩, r, hr, he⟩ := Set.mem_add.1 (hg1 (Finset.mem_range.2 hx))
          rw [Set.mem_singleton_iff] at hr
          exact ⟨y, fun _ => ⟨h1, by rw [← he, h2, hr]⟩⟩
        · exact ⟨0, fun h => absurd h hx⟩
      choose y hy using hy
      have hk : ∀ k, ∃ Tk : Trace F, k < c.prog.calls.length →
          ((Act tab c i k → ∀ q : Call, c.prog.calls[k]? = some q → Same tab q.sub (i - c.start k) (T.sub k) Tk ∧ EqAt E tab q.sub (i + 1 - c.start k) Tk) ∧
          g2 k = if Act tab c i k then shiftOut (nextSub c subls i k).1 (nextSub c subls i k).2.size (fill tab (nextSub c subls i k).2 Tk) else 0) := by
        intro k
        by_cases hk : k < c.prog.calls.length
        · obtain ⟨Tk, h1, h2⟩ := hg2 (Finset.mem_range.2 hk)
          exact ⟨Tk, fun _ => ⟨h1, h2⟩⟩
        · exact ⟨T, fun h => absurd h hk⟩
      choose Tk hTk using hk
      -- values of the variables that appear at layer `i + 1`
      obtain ⟨base, hbase⟩ : ∃ base : Nat → F, ∀ v, base v =
          if (∃ cc, c.cc.getD (i + 1) none = some cc ∧ v = cc.id) then yc
          else if c.lay v = i + 1 then
            (match c.prog.defn v with
              | some (.out k j) => Tk k [] (((subCtx tab c k).map fun s => s.prog.outs.getD j 0).getD 0)
              | _ => y v)
          else T [] v := ⟨_, fun _ => rfl⟩
      have hb1 : ∀ v, v < c.prog.nv → c.lay v ≠ i + 1 → base v = T [] v := by
        intro v h1 h2
        rw [hbase, if_neg, if_neg h2]
        rintro ⟨cc, h3, h4⟩
        have := ok.ccId _ cc h3; omega
      have hb2 : ∀ v, v < c.prog.nv → c.lay v = i + 1 → base v = (match c.prog.defn v with
              | some (.out k j) => Tk k [] (((subCtx tab c k).map fun s => s.prog.outs.getD j 0).getD 0)
              | _ => y v) := by
        intro v h1 h2
        rw [hbase, if_neg, if_pos h2]
        rintro ⟨cc, h3, h4⟩
        have := ok.ccId _ cc h3; omega
      have hb3 : ∀ cc, c.cc.getD (i + 1) none = some cc → base cc.id = yc := by
        intro cc h; rw [hbase, if_pos ⟨cc, h, rfl⟩]
      have h0 : ∀ k : Nat, ∃ T0 : Trace F, ∀ q : Call, c.prog.calls[k]? = some q → (∀ (j z : Nat), q.inputs[j]? = some z → T0 [] (j + 1) = base z) ∧ EqAt E tab q.sub 0 T0 := by
        intro k
        cases hq : c.prog.calls[k]? with
        | none => exact ⟨T, fun q h => by cases h⟩
        | some q =>
          obtain ⟨T0, t1, t2⟩ := ext0 (E := E) htab (hrec k q hq).tree (fun v => base (q.inputs.getD (v - 1) 0))
          refine ⟨T0, fun q' e => ?_⟩
          cases e
          refine ⟨fun j z hz => ?_, t2⟩
          rw [t1]
          simp [List.getD_eq_getElem?_getD, hz]
      choose T0 hT0 using h0
      obtain ⟨T', hT'0, hT'k⟩ : ∃ T' : Trace F, (∀ v, T' [] v = base v) ∧ ∀ k, T'.sub k = if c.start k = i + 1 then T0 k else if Act tab c i k then Tk k else T.sub k :=
        ⟨fun p v => match p with
          | [] => base v
          | k :: p => (if c.start k = i + 1 then T0 k else if Act tab c i k then Tk k else T.sub k) p v, fun _ => rfl, fun _ => rfl⟩
      have hactk : ∀ k, Act tab c i k → T'.sub k = Tk k := by
        intro k h
        have := h.1
        rw [hT'k, if_neg (by omega), if_pos h]
      -- agreement below
      have hsub : ∀ (k : Nat) (q : Call), c.prog.calls[k]? = some q → c.start k ≤ i → Same tab q.sub (i - c.start k) (T.sub k) (T'.sub k) := by
        intro k q hq hst
        by_cases hac : Act tab c i k
        · rw [hactk k hac]
          exact ((hTk k ((List.getElem?_eq_some_iff.1 hq).1)).1 hac q hq).1
        · rw [hT'k, if_neg (by omega), if_neg hac]
          exact Same.refl (hrec k q hq).tree _ _
      have hlow : ∀ x, 1 ≤ x → x < c.prog.nv → c.lay x ≤ i → T' [] x = T [] x := by
        intro x _ h2 h3
        rw [hT'0]; exact hb1 x h2 (by omega)
      have hlowcc : ∀ j cc, j ≤ i → c.cc.getD j none = some cc → T' [] cc.id = T [] cc.id := by
        intro j cc hj hcc
        rw [hT'0, hbase, if_neg]
        · by_cases hl : c.lay cc.id = i + 1
          · have : c.prog.nv ≤ cc.id := ok.ccId j cc hcc
            rw [ok.layBig cc.id this] at hl; omega
          · rw [if_neg hl]
        · rintro ⟨cc', h1, h2⟩
          have := ok.ccInj j (i + 1) cc cc' hcc h1 h2; omega
      have hsame : Same tab id i T T' := .mk lv.hc hlow hlowcc hsub
      have hout : ∀ (k : Nat) (q : Call) (s : Ctx F) (j x z : Nat), c.prog.calls[k]? = some q → tab q.sub = some s → c.start k + s.outL = i + 1 → q.outputs[j]? = some x →
          s.prog.outs[j]? = some z → T' [] x = T' [k] z := by
        intro k q s j x z hq hs hend hx hz
        have hpos := (htab _ s hs).outPos
        have hd := (ok.defOut x k j).2 ⟨q, hq, hx⟩
        have hl := ok.outLay k q s x hq hs (List.mem_of_getElem? hx)
        obtain ⟨x1, x2⟩ := ok.defLt x _ hd
        rw [hT'0, hb2 x x2 (by omega), hd]
        dsimp only
        rw [subCtx_of hq hs]
        have hac : Act tab c i k := by unfold Act; rw [depOf_of hq hs]; omega
        have := congrFun (congrFun (hactk k hac) []) z
        simp only [Option.map_some, Option.getD_some, List.getD_eq_getElem?_getD, hz]
        exact this.symm
      refine ⟨T', hsame, .mk lv.hc ?_ ?_ ?_ ?_, ?_⟩
      · intro x h1 h2 h3
        unfold VarEq
        cases hd : c.prog.defn x with
        | none => trivial
        | some d =>
          have hyx := (hy x h2).1 h3
          rw [hd] at hyx
          have hbx := hb2 x h2 h3
          rw [hd] at hbx
          cases d with
          | expr e =>
            simp only at hyx hbx ⊢
            rw [hT'0 x, hbx]
            refine expr_congr ?_ hyx
            intro v hv
            obtain ⟨p1, p2, p3⟩ := ok.exprUse x e v hd hv
            exact (hlow v p1 p2 (by have := ok.lay_le p3; omega)).symm
          | const a => simp only at hyx hbx ⊢; rw [hT'0 x, hbx]; exact hyx
          | out k j =>
            simp only
            intro q s z hq hs hz
            obtain ⟨q', hq', hx⟩ := (ok.defOut x k j).1 hd
            rw [hq] at hq'; cases hq'
            have hl := ok.outLay k q s x hq hs (List.mem_of_getElem? hx)
            exact hout k q s j x z hq hs (by omega) hx hz
      · intro cc hcc
        obtain ⟨ys, h1, h2⟩ := hyc cc hcc
        refine ⟨ys, ?_, ?_⟩
        · have hvs : ∀ v ∈ cc.vars, T' [] v = T [] v := by
            intro v hvv
            rcases ok.ccVars i cc v hcc hvv with ⟨p1, p2, p3⟩ | ⟨cc', hc2, rfl⟩
            · exact hlow v p1 p2 (by have := ok.lay_le p3; omega)
            · exact hlowcc i cc' (le_refl _) hc2
          clear h2 hcc
          generalize cc.vars = vs at h1 hvs
          induction h1 with
          | nil => exact .nil
          | @cons v z vs' ys' hvy hrest ih' =>
            refine .cons ?_ (ih' fun w hw => hvs w (by simp [hw]))
            rw [hvs v (by simp)]; exact hvy
        · rw [hT'0, hb3 cc hcc, h2]
          congr 2
          apply List.map_congr_left
          intro k hk
          obtain ⟨q, s, cc', hq, hs', hst, hcs⟩ := ok.ccSubs i cc k hcc hk
          rw [subCtx_of hq hs']
          cases hsub k q hq hst with
          | @mk _ _ _ _ c'' hc'' sv' scc' _ =>
            rw [hs'] at hc''; cases hc''
            simp only [Option.map_some, Option.getD_some, Ctx.ccId, Nat.add_sub_cancel, hcs]
            exact (scc' (i - c.start k) cc' (le_refl _) hcs).symm
      · intro k q hq hst j z hz
        have := congrFun (congrFun (hT'k k) []) (j + 1)
        rw [if_pos hst] at this
        rw [hT'0]
        exact this.trans ((hT0 k q hq).1 j z hz)
      · intro k q s hq hs h1 h2
        by_cases hst : c.start k = i + 1
        · rw [hT'k, if_pos hst, hst, Nat.sub_self]
          exact (hT0 k q hq).2
        · have hac : Act tab c i k := by unfold Act; rw [depOf_of hq hs]; omega
          rw [hactk k hac]
          exact ((hTk k ((List.getElem?_eq_some_iff.1 hq).1)).1 hac q hq).2
      · intro L' hL'
        rw [hL] at hL'; cases hL'
        rw [fill_decomp lv htab hok hi hL hlow hout]
        congr 1
        · congr 1
          · apply Finset.sum_congr rfl
            intro x hx
            have hx' := Finset.mem_range.1 hx
            rw [(hy x hx').2]
            congr 1
            unfold firstPart
            by_cases hce : c.lay x = i + 1 ∧ isCE c x = true
            · rw [if_pos hce, if_pos hce]
              have : T' [] x = y x := by
                rw [hT'0, hb2 x hx' hce.1]
                have h2 := hce.2
                unfold isCE at h2
                split at h2
                · rename_i e he; rw [he]
                · rename_i e he; rw [he]
                · cases h2
              rw [this]
            · rw [if_neg hce, if_neg hce]
          · unfold ccPart
            cases hcc : c.cc.getD (i + 1) none with
            | none => rfl
            | some cc => simp only; rw [hT'0, hb3 cc hcc]
        · apply Finset.sum_congr rfl
          intro k hk
          rw [(hTk k (Finset.mem_range.1 hk)).2]
          unfold childPart
          by_cases hac : Act tab c i k
          · rw [if_pos hac, if_pos hac, hactk k hac]
          · rw [if_neg hac, if_neg hac]
    · rintro ⟨T', hsame, heq, hfill⟩
      cases hsame with
      | @mk _ _ _ _ c' hc' sv scc ssub =>
        rw [lv.hc] at hc'; cases hc'
        cases heq with
        | @mk _ _ _ c' hc' ev ecc ein esub =>
          rw [lv.hc] at hc'; cases hc'
          rw [hfill L hL, fill_decomp lv htab hok hi hL sv (by
            intro k q s j x z hq hs hend hx hz
            have hd := (ok.defOut x k j).2 ⟨q, hq, hx⟩
            have hl := ok.outLay k q s x hq hs (List.mem_of_getElem? hx)
            obtain ⟨x1, x2⟩ := ok.defLt x _ hd
            have := ev x x1 x2 (by omega)
            unfold VarEq at this
            rw [hd] at this
            exact this q s z hq hs hz)]
          refine ⟨_, Set.add_mem_add ?_ ?_, _, ?_, rfl⟩
          · refine (Set.mem_finset_sum _ _ _).2 ⟨_, fun {x} hx => Set.add_mem_add (?_ : firstPart c qs T' i x ∈ _) (Set.mem_singleton _), rfl⟩
            refine ⟨T' [] x, ?_, rfl⟩
            intro hl
            have hx' := Finset.mem_range.1 hx
            cases hd : c.prog.defn x with
            | none => trivial
            | some d =>
              obtain ⟨x1, x2⟩ := ok.defLt x _ hd
              have := ev x x1 x2 hl
              unfold VarEq at this
              rw [hd] at this
              cases d with
              | expr e =>
                simp only at this ⊢
                refine expr_congr ?_ this
                intro v hv
                obtain ⟨p1, p2, p3⟩ := ok.exprUse x e v hd hv
                exact sv v p1 p2 (by have := ok.lay_le p3; omega)
              | const a => exact this
              | out k j => trivial
          · cases hcc : c.cc.getD (i + 1) none with
            | none =>
              refine ⟨0, fun cc h => ?_, ?_⟩
              · rw [hcc] at h; cases h
              · unfold ccPart; rw [hcc]
            | some cc =>
              refine ⟨T' [] cc.id, fun cc' h => ?_, ?_⟩
              · rw [hcc] at h; cases h
                obtain ⟨ys, h1, h2⟩ := ecc cc hcc
                refine ⟨ys, ?_, ?_⟩
                · have hvs : ∀ v ∈ cc.vars, T' [] v = T [] v := by
                    intro v hvv
                    rcases ok.ccVars i cc v hcc hvv with ⟨p1, p2, p3⟩ | ⟨cc', hc2, rfl⟩
                    · exact sv v p1 p2 (by have := ok.lay_le p3; omega)
                    · exact scc i cc' (le_refl _) hc2
                  clear h2 hcc
                  generalize cc.vars = vs at h1 hvs
                  induction h1 with
                  | nil => exact .nil
                  | @cons v z vs' ys' hvy hrest ih' =>
                    refine .cons ?_ (ih' fun w hw => hvs w (by simp [hw]))
                    rw [← hvs v (by simp)]; exact hvy
                · rw [h2]
                  congr 2
                  apply List.map_congr_left
                  intro k hk
                  obtain ⟨q, s, cc', hq, hs', hst, hcs⟩ := ok.ccSubs i cc k hcc hk
                  rw [subCtx_of hq hs']
                  cases ssub k q hq hst with
                  | @mk _ _ _ _ c'' hc'' sv' scc' _ =>
                    rw [hs'] at hc''; cases hc''
                    simp only [Option.map_some, Option.getD_some, Ctx.ccId, Nat.add_sub_cancel, hcs]
                    exact scc' (i - c.start k) cc' (le_refl _) hcs
              · unfold ccPart; rw [hcc]
          · refine (Set.mem_finset_sum _ _ _).2 ⟨_, fun {k} hk => (?_ : childPart tab c subls T' i k ∈ _), rfl⟩
            refine ⟨T'.sub k, ?_, rfl⟩
            intro hac q hq
            obtain ⟨s, hs⟩ := ok.sub k q hq
            unfold Act at hac
            rw [depOf_of hq hs] at hac
            exact ⟨ssub k q hq hac.1, esub k q s hq hs (by omega) (by omega)⟩

end

end Verif.Layering
