import Verif.Layering.GateShape
import Verif.Layering.RootOk

/-!
# The segments made by `connect_wires` pass the checks of `Circuit::validate`
-/

set_option linter.unusedSectionVars false
set_option linter.unusedSimpArgs false

namespace Verif.Layering

open Verif.IR (Expr Coef Term VarSpec Env)
open Verif.Layered (Segment Gate Input Alloc Reads Writes)

variable {F : Type} [Field F] [DecidableEq F]
variable {tab : Nat → Option (Ctx F)}

/-! ## Where the segments come from -/

/-- One call of `connect_wires`. -/
theorem connect_step {f : Nat} {layouts : List Layout} {segs segs' : List (Segment F)} {ids : List Nat} (h : connect tab (f + 1) layouts segs = some (ids, segs')) :
    ∃ l0 c qs subls cids segs1 gss, layouts.head? = some l0 ∧ Level tab l0.circ c layouts qs subls ∧ subls.length = c.prog.calls.length ∧
      connAll (connect tab f) (subls.map fun l => l.map (·.2)) segs = some (cids, segs1) ∧ ids = (List.range c.outL).map (segs1.length + ·) ∧
      segs' = segs1 ++ (List.range c.outL).map fun i => mkSegment c layouts i (childrenAt tab c subls cids i) (List.getD gss i []) := by
  unfold connect at h
  cases layouts with
  | nil => cases h
  | cons l0 rest =>
    simp only at h
    generalize hls : l0 :: rest = layouts at *
    cases hc : tab l0.circ with
    | none => rw [hc] at h; cases h
    | some c =>
      rw [hc] at h
      simp only at h
      split at h
      · cases h
      · rename_i hchk
        rw [Decidable.not_not] at hchk
        obtain ⟨hlen, hlay⟩ := hchk
        cases hqs : mapOpt (fun i => ((layouts[i]?).map (layoutQuery (c.vars.getD i []))).getD none) (List.range (c.outL + 1)) with
        | none => rw [hqs] at h; cases h
        | some qs =>
          rw [hqs] at h
          simp only at h
          split at h
          · cases h
          · rename_i hfull
            rw [Decidable.not_not] at hfull
            cases hsl : mapOpt (callLayouts tab c layouts qs) (List.range c.prog.calls.length) with
            | none => rw [hsl] at h; cases h
            | some subls =>
              rw [hsl] at h
              simp only at h
              cases hca : connAll (connect tab f) (subls.map fun l => l.map (·.2)) segs with
              | none => rw [hca] at h; cases h
              | some x =>
                obtain ⟨cids, segs1⟩ := x
                rw [hca] at h
                simp only at h
                cases hgs : mapOpt (layerGates tab c qs (fun k j => (subls.getD k [])[j]?)) (List.range c.outL) with
                | none => rw [hgs] at h; cases h
                | some gss =>
                  rw [hgs] at h
                  simp only [Option.some.injEq, Prod.mk.injEq] at h
                  obtain ⟨rfl, rfl⟩ := h
                  refine ⟨l0, c, qs, subls, cids, segs1, gss, by rw [← hls]; rfl, ⟨hc, hlen, ?_, ?_, ?_, ?_⟩, by simpa using mapOpt_length hsl, hca, rfl, rfl⟩
                  · intro i L hL
                    have hi : i < layouts.length := (List.getElem?_eq_some_iff.1 hL).1
                    have := List.all_eq_true.1 hlay i (List.mem_range.2 hi)
                    rw [hL] at this
                    simpa using this
                  · intro i L hL
                    have hi : i < layouts.length := (List.getElem?_eq_some_iff.1 hL).1
                    obtain ⟨y, hy, hy'⟩ := mapOpt_get hqs (show (List.range (c.outL + 1))[i]? = some i from List.getElem?_range (by omega))
                    rw [hL] at hy
                    simp only [Option.map_some, Option.getD_some] at hy
                    rw [List.getD_eq_getElem?_getD, hy']
                    exact hy
                  · intro i hi x hx
                    have := List.all_eq_true.1 hfull i (List.mem_range.2 hi)
                    exact List.all_eq_true.1 this x hx
                  · intro k q s hq hs
                    have hk : k < c.prog.calls.length := (List.getElem?_eq_some_iff.1 hq).1
                    obtain ⟨y, hy, hy'⟩ := mapOpt_get hsl (show (List.range c.prog.calls.length)[k]? = some k from List.getElem?_range hk)
                    unfold callLayouts at hy
                    rw [hq] at hy
                    simp only [hs] at hy
                    rw [List.getD_eq_getElem?_getD, hy', Option.getD_some]
                    have hylen := mapOpt_length hy
                    rw [List.length_range] at hylen
                    refine ⟨hylen, ?_⟩
                    intro j sl hj
                    have hjl : j < s.outL + 1 := by rw [← hylen]; exact (List.getElem?_eq_some_iff.1 hj).1
                    obtain ⟨z, hz, hz'⟩ := mapOpt_get hy (show (List.range (s.outL + 1))[j]? = some j from List.getElem?_range hjl)
                    rw [hj] at hz'; cases hz'
                    exact hz

/-- Usable layouts. -/
def Good (tab : Nat → Option (Ctx F)) (layouts : List Layout) : Prop := ∀ L ∈ layouts, LayoutOk tab L ∧ Aligned L

/-- Segment number `a` is the transition between two layers of some circuit with at most `M` layers. -/
def Piece (tab : Nat → Option (Ctx F)) (segs : List (Segment F)) (M a : Nat) : Prop :=
  ∃ id c layouts ids, ∃ i : Nat, Wired tab segs id layouts ids ∧ tab id = some c ∧ i < c.outL ∧ ids[i]? = some a ∧ c.outL ≤ M ∧ Good tab layouts

theorem Piece.mono {segs : List (Segment F)} {M a : Nat} (h : Piece tab segs M a) (ext : List (Segment F)) : Piece tab (segs ++ ext) M a := by
  obtain ⟨id, c, layouts, ids, i, h1, h2⟩ := h
  exact ⟨id, c, layouts, ids, i, h1.mono ext, h2⟩

theorem connAll_all {rec : List Layout → List (Segment F) → Option (List Nat × List (Segment F))} {P : List Layout → Prop} {Q : List (Segment F) → Nat → Prop}
    (hmono : ∀ s a ext, Q s a → Q (s ++ ext) a)
    (hrec : ∀ l sg ids sg', P l → rec l sg = some (ids, sg') → (∃ ext, sg' = sg ++ ext) ∧ ∀ a, sg.length ≤ a → a < sg'.length → Q sg' a) :
    ∀ (ls : List (List Layout)) (sg : List (Segment F)) (r : List (List Nat)) (sg' : List (Segment F)), (∀ l ∈ ls, P l) → connAll rec ls sg = some (r, sg') →
      (∃ ext, sg' = sg ++ ext) ∧ ∀ a, sg.length ≤ a → a < sg'.length → Q sg' a := by
  intro ls
  induction ls with
  | nil => intro sg r sg' _ h; simp [connAll] at h; obtain ⟨rfl, rfl⟩ := h; exact ⟨⟨[], by simp⟩, by intro a h1 h2; omega⟩
  | cons l ls ih =>
    intro sg r sg' hP h
    unfold connAll at h
    cases h1 : rec l sg with
    | none => rw [h1] at h; cases h
    | some x =>
      obtain ⟨ids, sg1⟩ := x
      rw [h1] at h
      simp only at h
      cases h2 : connAll rec ls sg1 with
      | none => rw [h2] at h; cases h
      | some y =>
        obtain ⟨r2, sg2⟩ := y
        rw [h2] at h
        simp only [Option.some.injEq, Prod.mk.injEq] at h
        obtain ⟨rfl, rfl⟩ := h
        obtain ⟨⟨e1, rfl⟩, a2⟩ := hrec l sg ids sg1 (hP l (by simp)) h1
        obtain ⟨⟨e2, rfl⟩, b2⟩ := ih _ _ _ (fun l hl => hP l (by simp [hl])) h2
        refine ⟨⟨e1 ++ e2, by simp⟩, ?_⟩
        intro a ha hb
        by_cases hlt : a < (sg ++ e1).length
        · exact hmono _ _ _ (a2 a ha hlt)
        · exact b2 a (by omega) hb

/-- Every segment that `connect_wires` adds is a transition between two layers of a circuit. -/
theorem connect_all (htab : ∀ id c, tab id = some c → CtxOk tab c) (M : Nat) : ∀ (f : Nat) (layouts : List Layout) (segs : List (Segment F)) (ids : List Nat) (segs' : List (Segment F)),
    Good tab layouts → (∀ l0 c, layouts.head? = some l0 → tab l0.circ = some c → c.outL ≤ M) → connect tab f layouts segs = some (ids, segs') →
    (∃ ext, segs' = segs ++ ext) ∧ ∀ a, segs.length ≤ a → a < segs'.length → Piece tab segs' M a := by
  intro f
  induction f with
  | zero => intro layouts segs ids segs' _ _ h; cases h
  | succ f ih =>
    intro layouts segs ids segs' hgood hM h
    obtain ⟨l0, c, qs, subls, cids, segs1, gss, h0, lv, hslen, hca, hids, hsegs⟩ := connect_step h
    have ok := htab _ c lv.hc
    have hok : ∀ L ∈ layouts, LayoutOk tab L := fun L hL => (hgood L hL).1
    have hcM := hM l0 c h0 lv.hc
    obtain ⟨hext', _, hw⟩ := connect_spec htab (f + 1) layouts segs ids segs' hok h
    refine ⟨hext', ?_⟩
    have hsub : ∀ l ∈ subls.map fun l => l.map (·.2), Good tab l ∧ ∀ l0 c, l.head? = some l0 → tab l0.circ = some c → c.outL ≤ M := by
      intro l hl
      obtain ⟨sl, h1, rfl⟩ := List.mem_map.1 hl
      obtain ⟨k, hk⟩ := List.getElem?_of_mem h1
      have hklt : k < c.prog.calls.length := by rw [← hslen]; exact (List.getElem?_eq_some_iff.1 hk).1
      obtain ⟨q, hq⟩ := calls_lt hklt
      obtain ⟨s, hs⟩ := ok.sub k q hq
      have hsd : subls.getD k [] = sl := by rw [List.getD_eq_getElem?_getD, hk]; rfl
      have hend := ok.callEnd k q s hq hs
      have hpos := (htab _ s hs).outPos
      have key : ∀ x ∈ sl, LayoutOk tab x.2 ∧ Aligned x.2 ∧ x.2.circ = q.sub := by
        intro x hx
        obtain ⟨j, hj⟩ := List.getElem?_of_mem hx
        rw [← hsd] at hj
        exact ⟨(lv.sub_ok hok hq hs hpos hj hend).1, (lv.sub_aligned hok (fun L hL => (hgood L hL).2) hq hs hpos hj hend).2, lv.sub_circ hok hq hs hpos hj hend⟩
      refine ⟨?_, ?_⟩
      · intro L hL
        obtain ⟨x, hx, rfl⟩ := List.mem_map.1 hL
        exact ⟨(key x hx).1, (key x hx).2.1⟩
      · intro l0' c' hl0 hc'
        obtain ⟨x, hx, rfl⟩ := List.mem_map.1 (List.mem_of_mem_head? hl0)
        rw [(key x hx).2.2, hs] at hc'
        cases hc'
        omega
    obtain ⟨⟨ext1, hext1⟩, hall⟩ := connAll_all (P := fun l => Good tab l ∧ ∀ l0 c, l.head? = some l0 → tab l0.circ = some c → c.outL ≤ M) (Q := fun sg a => Piece tab sg M a)
      (fun s a ext hp => hp.mono ext) (fun l sg ids sg' hp hr => ih l sg ids sg' hp.1 hp.2 hr) _ _ _ _ hsub hca
    intro a ha hb
    by_cases hlt : a < segs1.length
    · rw [hsegs]; exact (hall a ha hlt).mono _
    · rw [hsegs] at hb
      simp only [List.length_append, List.length_map, List.length_range] at hb
      refine ⟨l0.circ, c, layouts, ids, a - segs1.length, hw l0 h0, lv.hc, by omega, ?_, hcM, hgood⟩
      rw [hids, List.getElem?_map, List.getElem?_range (by omega), Option.map_some]
      congr 1
      omega

/-! ## Children and gates of a segment -/

theorem mem_addChild {cs : List (Nat × List Alloc)} {p : Nat × Alloc} {b : Nat} {al : Alloc} :
    (∃ ch ∈ addChild cs p, ch.1 = b ∧ al ∈ ch.2) ↔ (∃ ch ∈ cs, ch.1 = b ∧ al ∈ ch.2) ∨ (b, al) = p := by
  induction cs with
  | nil =>
    obtain ⟨p1, p2⟩ := p
    simp only [addChild, List.mem_singleton, Prod.mk.injEq]
    constructor
    · rintro ⟨ch, rfl, h1, h2⟩
      simp at h1 h2
      exact .inr ⟨h1.symm, h2⟩
    · rintro (⟨ch, h, _⟩ | ⟨rfl, rfl⟩)
      · cases h
      · exact ⟨_, rfl, rfl, by simp⟩
  | cons e cs ih =>
    unfold addChild
    split
    · rename_i he
      simp only [List.mem_cons, exists_eq_or_imp, List.mem_append, List.mem_singleton]
      obtain ⟨p1, p2⟩ := p
      simp only [Prod.mk.injEq] at he ⊢
      subst he
      constructor
      · rintro (⟨h1, h2 | h2⟩ | h)
        · exact .inl (.inl ⟨h1, h2⟩)
        · exact .inr ⟨h1.symm, by simpa using h2⟩
        · exact .inl (.inr h)
      · rintro ((⟨h1, h2⟩ | h) | ⟨h1, h2⟩)
        · exact .inl ⟨h1, .inl h2⟩
        · exact .inr h
        · exact .inl ⟨h1.symm, .inr (by simpa using h2)⟩
    · simp only [List.mem_cons, exists_eq_or_imp]
      rw [ih, or_assoc]

theorem mem_children {ps : List (Nat × Alloc)} : ∀ {cs : List (Nat × List Alloc)} {b : Nat} {al : Alloc},
    (∃ ch ∈ ps.foldl addChild cs, ch.1 = b ∧ al ∈ ch.2) ↔ (∃ ch ∈ cs, ch.1 = b ∧ al ∈ ch.2) ∨ (b, al) ∈ ps := by
  induction ps with
  | nil => simp
  | cons p ps ih =>
    intro cs b al
    rw [List.foldl_cons, ih, mem_addChild, List.mem_cons, or_assoc]

theorem mkSegment_gate {c : Ctx F} {layouts : List Layout} {i : Nat} {ch : List (Nat × Alloc)} {gs : List (Gate F)} {g : Gate F}
    (h : g ∈ (mkSegment c layouts i ch gs).allGates) : g ∈ gs := by
  simp only [Segment.allGates, mkSegment, List.mem_append, List.mem_filter] at h
  tauto

theorem mkSegment_gate' {c : Ctx F} {layouts : List Layout} {i : Nat} {ch : List (Nat × Alloc)} {gs : List (Gate F)} {g : Gate F}
    (h : g ∈ gs) (h2 : g.typ = none → g.inputs.length ≤ 2) : g ∈ (mkSegment c layouts i ch gs).allGates := by
  simp only [Segment.allGates, mkSegment, List.mem_append, List.mem_filter]
  cases ht : g.typ with
  | some t => simp [h]
  | none =>
    have := h2 ht
    have : g.inputs.length = 0 ∨ g.inputs.length = 1 ∨ g.inputs.length = 2 := by omega
    rcases this with e | e | e <;> simp [h, e]

theorem mem_childrenAt {c : Ctx F} {subls : List (List (Nat × Layout))} {ids : List (List Nat)} {i b : Nat} {al : Alloc} :
    (b, al) ∈ childrenAt tab c subls ids i ↔ ∃ k s, subCtx tab c k = some s ∧ c.start k ≤ i ∧ i < c.start k + s.outL ∧
      b = (ids.getD k []).getD (i - c.start k) 0 ∧ al = allocOf s (fun j => (((subls.getD k [])[j]?).map (·.1)).getD 0) (i - c.start k) := by
  unfold childrenAt
  rw [List.mem_filterMap]
  have hst : ∀ k, c.starts.getD k 0 = c.start k := fun _ => rfl
  constructor
  · rintro ⟨k, hk, h⟩
    split at h
    · cases h
    · rename_i s hs
      split at h
      · rename_i hc
        simp only [Option.some.injEq, Prod.mk.injEq] at h
        exact ⟨k, s, hs, hc.1, hc.2, h.1.symm, h.2.symm⟩
      · cases h
  · rintro ⟨k, s, hs, h1, h2, rfl, rfl⟩
    have hk : k < c.prog.calls.length := by
      obtain ⟨q, hq, _⟩ := subCtx_some hs
      exact (List.getElem?_eq_some_iff.1 hq).1
    refine ⟨k, List.mem_range.2 hk, ?_⟩
    simp only [hs, hst]
    rw [if_pos ⟨h1, h2⟩]

/-- What a child of a segment is: the transition of an active call. -/
structure ChildOk (tab : Nat → Option (Ctx F)) (segs : List (Segment F)) (c : Ctx F) (subls : List (List (Nat × Layout))) (cids : List (List Nat)) (i b : Nat) (al : Alloc)
    (k : Nat) (q : Call) (s : Ctx F) (SL : Nat → Nat × Layout) (seg : Segment F) : Prop where
  hq : c.prog.calls[k]? = some q
  hs : tab q.sub = some s
  start : c.start k ≤ i
  act : i < c.start k + s.outL
  hid : (cids.getD k [])[i - c.start k]? = some b
  hseg : segs[b]? = some seg
  sl : ∀ j, j ≤ s.outL → (subls.getD k [])[j]? = some (SL j)
  ni : seg.numInputs = (List.range (i - c.start k + 1 - s.mu.getD (i - c.start k + 1) 0)).map fun l => (SL (i - c.start k - l)).2.size
  no : seg.numOutputs = (SL (i + 1 - c.start k)).2.size
  ins : al.inputOffset = (List.range (i - c.start k + 1 - s.mu.getD (i - c.start k + 1) 0)).map fun l => (SL (i - c.start k - l)).1
  out : al.outputOffset = (SL (i + 1 - c.start k)).1

section

variable {segs : List (Segment F)} {id : Nat} {c : Ctx F} {layouts : List Layout} {qs : List (List (Nat × Nat))} {subls : List (List (Nat × Layout))} {cids : List (List Nat)}

theorem child_of_call (htab : ∀ id c, tab id = some c → CtxOk tab c) (lv : Level tab id c layouts qs subls)
    (hrec : ∀ (k : Nat) (q : Call), c.prog.calls[k]? = some q → Wired tab segs q.sub ((subls.getD k []).map (·.2)) (cids.getD k []))
    {i k : Nat} {q : Call} {s : Ctx F} (hq : c.prog.calls[k]? = some q) (hs : tab q.sub = some s) (h1 : c.start k ≤ i) (h2 : i < c.start k + s.outL) :
    ∃ SL seg, ChildOk tab segs c subls cids i ((cids.getD k []).getD (i - c.start k) 0) (allocOf s (fun j => (((subls.getD k [])[j]?).map (·.1)).getD 0) (i - c.start k)) k q s SL seg := by
  obtain ⟨hlen, _⟩ := lv.sub k q s hq hs
  have hi' : i - c.start k < s.outL := by omega
  have e1 : i - c.start k + 1 = i + 1 - c.start k := by omega
  obtain ⟨SL, hSL⟩ : ∃ SL : Nat → Nat × Layout, ∀ j, SL j = ((subls.getD k [])[j]?).getD (0, .dense 0 0 []) := ⟨_, fun _ => rfl⟩
  have hsl : ∀ j, j ≤ s.outL → (subls.getD k [])[j]? = some (SL j) := by
    intro j hj
    rw [hSL, List.getElem?_eq_getElem (by omega)]; rfl
  obtain ⟨a, seg, ha1, ha2, hni, hno⟩ : ∃ (a : Nat) (seg : Segment F), (cids.getD k [])[i - c.start k]? = some a ∧ segs[a]? = some seg ∧
      seg.numInputs = (List.range (i - c.start k + 1 - s.mu.getD (i - c.start k + 1) 0)).map (fun l => ((((subls.getD k []).map (·.2))[i - c.start k - l]?).map Layout.size).getD 0) ∧
      seg.numOutputs = (((((subls.getD k []).map (·.2))[i - c.start k + 1]?).map Layout.size).getD 0) := by
    cases hrec k q hq with
    | @mk _ _ _ c' qs' subls' cids' gss' lv' _ _ _ hseg =>
      have hc' := lv'.hc
      rw [hs] at hc'; cases hc'
      obtain ⟨a, h1, h2⟩ := hseg (i - c.start k) hi'
      exact ⟨a, _, h1, h2, rfl, rfl⟩
  have hid : (cids.getD k []).getD (i - c.start k) 0 = a := by
    generalize cids.getD k [] = cl at ha1
    rw [List.getD_eq_getElem?_getD, ha1]; rfl
  rw [hid]
  refine ⟨SL, seg, ⟨hq, hs, h1, h2, ha1, ha2, hsl, ?_, ?_, ?_, ?_⟩⟩
  · rw [hni]
    apply List.map_congr_left
    intro l _
    rw [List.getElem?_map, hsl _ (by omega)]; rfl
  · rw [hno, List.getElem?_map, hsl _ (by omega), e1]; rfl
  · unfold allocOf
    apply List.map_congr_left
    intro l _
    dsimp only
    rw [hsl _ (by omega)]; rfl
  · unfold allocOf
    simp only
    rw [hsl _ (by omega), e1]; rfl

theorem child_of_mem (htab : ∀ id c, tab id = some c → CtxOk tab c) (lv : Level tab id c layouts qs subls)
    (hrec : ∀ (k : Nat) (q : Call), c.prog.calls[k]? = some q → Wired tab segs q.sub ((subls.getD k []).map (·.2)) (cids.getD k []))
    {i : Nat} {gs : List (Gate F)} {ch : Nat × List Alloc} {al : Alloc} (hch : ch ∈ (mkSegment c layouts i (childrenAt tab c subls cids i) gs).childSegs) (hal : al ∈ ch.2) :
    ∃ k q s SL seg, ChildOk tab segs c subls cids i ch.1 al k q s SL seg := by
  have := (mem_children (cs := [])).1 ⟨ch, hch, rfl, hal⟩
  rcases this with ⟨_, h, _⟩ | h
  · cases h
  · obtain ⟨k, s, hs, h1, h2, e1, e2⟩ := mem_childrenAt.1 h
    obtain ⟨q, hq, hs⟩ := subCtx_some hs
    obtain ⟨SL, seg, hc⟩ := child_of_call htab lv hrec hq hs h1 h2
    rw [← e1, ← e2] at hc
    exact ⟨k, q, s, SL, seg, hc⟩

end

end Verif.Layering
