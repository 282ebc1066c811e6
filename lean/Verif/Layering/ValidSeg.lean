import Verif.Layering.ValidOut

/-!
# `Circuit::validate` accepts what `layering::compile` returns
-/

set_option linter.unusedSectionVars false
set_option linter.unusedSimpArgs false

namespace Verif.Layering

open Verif.IR (Expr Coef Term VarSpec Env)
open Verif.Layered (Segment Gate Input Alloc Reads Writes)
open Verif.Layered (andThen_ok allChk_ok gateChk_ok customChk_ok offsetsChk_ok chk_ok segChk childChk allocChk isPow2)

variable {F : Type} [Field F] [DecidableEq F]
variable {tab : Nat → Option (Ctx F)}

theorem isPow2_pow (m : Nat) : isPow2 (2 ^ m) = true := by
  have : 2 ^ m ≠ 0 := (Nat.two_pow_pos m).ne'
  simp [isPow2, this, two_pow_and]

/-- The checks of a single segment. -/
theorem piece_chk (htab : ∀ id c, tab id = some c → CtxOk tab c) {lc : Layered.Circuit F} {M a : Nat} (hM : M ≤ lc.layerIds.length) (hp : Piece tab lc.segments M a) {seg : Segment F}
    (hseg : lc.segments[a]? = some seg) : segChk lc (seg, a) = some true := by
  obtain ⟨id, c, layouts, ids, i, hw, hc, hi, hia, hcM, hgood⟩ := hp
  have hok : ∀ L ∈ layouts, LayoutOk tab L := fun L hL => (hgood L hL).1
  have hal : ∀ L ∈ layouts, Aligned L := fun L hL => (hgood L hL).2
  cases hw with
  | @mk _ _ _ c' qs subls cids gss lv hrec hlt hg hsg =>
    have e := lv.hc
    rw [hc] at e; cases e
    obtain ⟨a', e1, e2⟩ := hsg i hi
    rw [hia] at e1; cases e1
    rw [hseg] at e2; cases e2
    have ok := htab id c hc
    have hmu := ok.mu1 i hi
    have hget : ∀ j, j ≤ c.outL → ∃ L, layouts[j]? = some L ∧ LayoutOk tab L ∧ ∃ m, L.size = 2 ^ m := by
      intro j hj
      obtain ⟨L, hL⟩ := lv.get hj
      have hLok := hok L (List.mem_of_getElem? hL)
      refine ⟨L, hL, hLok, ?_⟩
      cases hLok with
      | mk c hc hp => exact hp
    obtain ⟨L1, hL1, hL1ok, hL1p⟩ := hget (i + 1) (by omega)
    have hni : ∀ l, l < i + 1 - c.mu.getD (i + 1) 0 → ∃ L, layouts[i - l]? = some L ∧ LayoutOk tab L ∧
        (mkSegment c layouts i (childrenAt tab c subls cids i) (gss.getD i [])).numInputs[l]? = some L.size := by
      intro l hl
      obtain ⟨L, hL, hLok, _⟩ := hget (i - l) (by omega)
      refine ⟨L, hL, hLok, ?_⟩
      rw [mkSegment_numInputs, List.getElem?_map, List.getElem?_range hl, Option.map_some, hL]; rfl
    have hgates := layerGates_ok htab lv hok hi (hg i hi)
    have hgok : ∀ g ∈ gss.getD i [], (∀ inp ∈ g.inputs, inp.layer < lc.layerIds.length) ∧ g.Ok (mkSegment c layouts i (childrenAt tab c subls cids i) (gss.getD i [])) := by
      intro g hgm
      have hgo := hgates g hgm
      refine ⟨?_, ?_, ?_⟩
      · intro inp hin
        have := (hgo.ins inp hin).1
        omega
      · intro inp hin
        obtain ⟨f1, L, f2, f3⟩ := hgo.ins inp hin
        obtain ⟨L', f4, f5, f6⟩ := hni inp.layer f1
        rw [f2] at f4; cases f4
        exact ⟨_, f6, f3.lt f5⟩
      · rw [mkSegment_numOutputs hL1]
        obtain ⟨x, hx⟩ := hgo.out
        exact lv.lookup_lt hL1 hL1ok hx
    simp only [segChk, andThen_ok, allChk_ok]
    refine ⟨?_, ?_, ?_, ?_, ?_, ?_, ?_, ?_⟩
    · intro x hx
      rw [mkSegment_numInputs] at hx
      obtain ⟨l, hl, rfl⟩ := List.mem_map.1 hx
      obtain ⟨L, hL, _, m, hm⟩ := hget (i - l) (by omega)
      rw [hL, Option.map_some, Option.getD_some, hm, chk_ok, isPow2_pow]
    · rw [mkSegment_numInputs, List.length_map, List.length_range]
      simp only [chk_ok, decide_eq_true_eq]
      omega
    · rw [mkSegment_numOutputs hL1]
      obtain ⟨m, hm⟩ := hL1p
      rw [hm, chk_ok, isPow2_pow]
    · intro g hgm; exact gateChk_ok.2 (hgok g (mkSegment_gate (by simp only [Segment.allGates, List.mem_append]; tauto)))
    · intro g hgm; exact gateChk_ok.2 (hgok g (mkSegment_gate (by simp only [Segment.allGates, List.mem_append]; tauto)))
    · intro g hgm; exact gateChk_ok.2 (hgok g (mkSegment_gate (by simp only [Segment.allGates, List.mem_append]; tauto)))
    · intro g hgm; exact customChk_ok.2 (hgok g (mkSegment_gate (by simp only [Segment.allGates, List.mem_append]; tauto)))
    · intro ch hch
      have hkey : ∃ al, (ch.1, al) ∈ childrenAt tab c subls cids i := by
        rcases foldl_addChild_keys _ [] ch hch with ⟨⟨b, al⟩, h1, h2⟩ | ⟨_, h, _⟩
        · exact ⟨al, by rw [← h2]; exact h1⟩
        · cases h
      obtain ⟨al, hkey⟩ := hkey
      have hone : ∀ al, (ch.1, al) ∈ childrenAt tab c subls cids i → ∃ sub, ch.1 < a ∧ lc.segments[ch.1]? = some sub ∧
          sub.numInputs.length ≤ (mkSegment c layouts i (childrenAt tab c subls cids i) (gss.getD i [])).numInputs.length ∧
          allocChk (mkSegment c layouts i (childrenAt tab c subls cids i) (gss.getD i [])) sub al = some true := by
        intro al hal'
        obtain ⟨k, s, hs, h1, h2, e1, e2⟩ := mem_childrenAt.1 hal'
        obtain ⟨q, hq, hs⟩ := subCtx_some hs
        obtain ⟨SL, sub, hc'⟩ := child_of_call htab lv hrec hq hs h1 h2
        rw [← e1, ← e2] at hc'
        have oks := htab _ s hs
        have hend := ok.callEnd k q s hq hs
        have hmuS := ok.muSub k q s i hq hs h1 h2
        have e3 : i + 1 - c.start k = i - c.start k + 1 := by omega
        rw [e3] at hmuS
        have hmu2 := oks.mu1 (i - c.start k) (by omega)
        have hsub : ∀ j, j ≤ s.outL → (SL j).2.size ∣ (SL j).1 ∧ ∃ L, layouts[c.start k + j]? = some L ∧ (SL j).1 + (SL j).2.size ≤ L.size := by
          intro j hj
          exact ⟨(lv.sub_aligned hok hal hq hs oks.outPos (hc'.sl j hj) hend).1, (lv.sub_ok hok hq hs oks.outPos (hc'.sl j hj) hend).2⟩
        refine ⟨sub, hlt i k a ch.1 hi hia (List.mem_of_getElem? hc'.hid), hc'.hseg, ?_, ?_⟩
        · rw [hc'.ni, mkSegment_numInputs]
          simp only [List.length_map, List.length_range]
          omega
        · simp only [allocChk, andThen_ok, offsetsChk_ok, chk_ok, decide_eq_true_eq]
          refine ⟨by rw [hc'.ins, hc'.ni]; simp, ?_, ?_, ?_⟩
          · intro l x y z hx hy hz
            rw [hc'.ins] at hx
            rw [hc'.ni] at hy
            have hl : l < i - c.start k + 1 - s.mu.getD (i - c.start k + 1) 0 := by
              have := (List.getElem?_eq_some_iff.1 hx).1
              simpa using this
            rw [List.getElem?_map, List.getElem?_range hl, Option.map_some] at hx hy
            cases hx; cases hy
            obtain ⟨L, hL, _, hz'⟩ := hni l (by omega)
            rw [hz] at hz'; cases hz'
            obtain ⟨d1, L', hL', d2⟩ := hsub (i - c.start k - l) (by omega)
            have e4 : c.start k + (i - c.start k - l) = i - l := by omega
            rw [e4, hL] at hL'; cases hL'
            exact ⟨Nat.mod_eq_zero_of_dvd d1, d2⟩
          · obtain ⟨d1, _⟩ := hsub (i + 1 - c.start k) (by omega)
            rw [hc'.out, hc'.no]
            exact Nat.mod_eq_zero_of_dvd d1
          · obtain ⟨_, L', hL', d2⟩ := hsub (i + 1 - c.start k) (by omega)
            have e4 : c.start k + (i + 1 - c.start k) = i + 1 := by omega
            rw [e4, hL1] at hL'; cases hL'
            rw [hc'.out, hc'.no, mkSegment_numOutputs hL1]
            exact d2
      obtain ⟨sub, h1, h2, h3, _⟩ := hone al hkey
      simp only [childChk, andThen_ok, chk_ok, decide_eq_true_eq]
      refine ⟨h1, ?_⟩
      rw [h2]
      simp only [andThen_ok, chk_ok, decide_eq_true_eq, allChk_ok]
      refine ⟨h3, ?_⟩
      intro al' hal'
      rcases (mem_children (cs := [])).1 ⟨ch, hch, rfl, hal'⟩ with ⟨_, h, _⟩ | h
      · cases h
      · obtain ⟨sub', _, g2, _, g4⟩ := hone al' h
        rw [h2] at g2; cases g2
        exact g4

/-! ## Which wires are read and written -/

/-- A segment reads only occupied positions. -/
theorem reads_occ (htab : ∀ id c, tab id = some c → CtxOk tab c) {segs : List (Segment F)} {id : Nat} {layouts : List Layout} {ids : List Nat} (hw : Wired tab segs id layouts ids) :
    ∀ (c : Ctx F), tab id = some c → (∀ L ∈ layouts, LayoutOk tab L) → ∀ i a l p : Nat, i < c.outL → ids[i]? = some a → Reads segs a l p →
      l ≤ i ∧ ∃ L, layouts[i - l]? = some L ∧ Occ L p := by
  induction hw with
  | @mk id layouts ids c qs subls cids gss lv hrec hlt hg hsg ih =>
    intro c0 hc hok i a l p hi hia hr
    have e := lv.hc
    rw [hc] at e; cases e
    have ok := htab id _ hc
    obtain ⟨a', e1, e2⟩ := hsg i hi
    rw [hia] at e1; cases e1
    cases hr with
    | gate h1 h2 h3 =>
      rw [e2] at h1; cases h1
      have hgo := layerGates_ok htab lv hok hi (hg i hi) _ (mkSegment_gate h2)
      obtain ⟨f1, f2⟩ := hgo.ins _ h3
      exact ⟨by omega, f2⟩
    | @child _ s0 ch al sub _ j off len h1 h2 h3 h4 h5 h6 h7 h8 =>
      rw [e2] at h1; cases h1
      obtain ⟨k, q, s, SL, seg, hco⟩ := child_of_mem htab lv hrec h2 h3
      have oks := htab _ s hco.hs
      have hend := ok.callEnd k q s hco.hq hco.hs
      have hst := hco.start
      have hact := hco.act
      have hsub : ∀ L ∈ (subls.getD k []).map (·.2), LayoutOk tab L := by
        intro L hL
        obtain ⟨sl, g1, rfl⟩ := List.mem_map.1 hL
        obtain ⟨j', hj'⟩ := List.getElem?_of_mem g1
        exact (lv.sub_ok hok hco.hq hco.hs oks.outPos hj' hend).1
      obtain ⟨g1, L, g2, g3⟩ := ih k q hco.hq s hco.hs hsub (i - c.start k) ch.1 l j (by omega) hco.hid h8
      rw [List.getElem?_map, hco.sl _ (by omega), Option.map_some] at g2
      cases g2
      rw [hco.ins] at h5
      have hl : l < i - c.start k + 1 - s.mu.getD (i - c.start k + 1) 0 := by
        have := (List.getElem?_eq_some_iff.1 h5).1
        simpa using this
      rw [List.getElem?_map, List.getElem?_range hl, Option.map_some] at h5
      cases h5
      refine ⟨by omega, ?_⟩
      obtain ⟨L, f1, f2⟩ := lv.sub_occ hok hco.hq hco.hs oks.outPos (hco.sl (i - c.start k - l) (by omega)) hend g3
      have e4 : c.start k + (i - c.start k - l) = i - l := by omega
      rw [e4] at f1
      exact ⟨L, f1, f2⟩

/-- A segment writes all occupied positions. -/
theorem occ_writes (htab : ∀ id c, tab id = some c → CtxOk tab c) (hne : ∀ id c, tab id = some c → ∀ x e, c.prog.defn x = some (.expr e) → e ≠ [])
    (hcc : ∀ id c, tab id = some c → ∀ j cc, c.cc.getD j none = some cc → cc.vars ≠ [] ∨ cc.subs ≠ [])
    {segs : List (Segment F)} {id : Nat} {layouts : List Layout} {ids : List Nat} (hw : Wired tab segs id layouts ids) :
    ∀ (c : Ctx F), tab id = some c → (∀ L ∈ layouts, LayoutOk tab L) → ∀ (i a p : Nat) (L : Layout), i < c.outL → ids[i]? = some a → layouts[i + 1]? = some L → Occ L p →
      Writes segs a p := by
  induction hw with
  | @mk id layouts ids c qs subls cids gss lv hrec hlt hg hsg ih =>
    intro c0 hc hok i a p L hi hia hL ho
    have e := lv.hc
    rw [hc] at e; cases e
    have ok := htab id _ hc
    obtain ⟨a', e1, e2⟩ := hsg i hi
    rw [hia] at e1; cases e1
    have hLok := hok L (List.mem_of_getElem? hL)
    -- what a call writes
    have hcall : ∀ (k : Nat) (q : Call) (s : Ctx F) (sl : Nat × Layout) (p : Nat), c.prog.calls[k]? = some q → tab q.sub = some s → c.start k ≤ i → i < c.start k + s.outL →
        (subls.getD k [])[i + 1 - c.start k]? = some sl → Occ sl.2 p → Writes segs a (sl.1 + p) := by
      intro k q s sl p hq hs h1 h2 hsl hocc
      obtain ⟨SL, sub, hco⟩ := child_of_call htab lv hrec hq hs h1 h2
      have oks := htab _ s hs
      have hend := ok.callEnd k q s hq hs
      have hsub : ∀ L ∈ (subls.getD k []).map (·.2), LayoutOk tab L := by
        intro L hL
        obtain ⟨sl, g1, rfl⟩ := List.mem_map.1 hL
        obtain ⟨j', hj'⟩ := List.getElem?_of_mem g1
        exact (lv.sub_ok hok hq hs oks.outPos hj' hend).1
      have e3 : i + 1 - c.start k = i - c.start k + 1 := by omega
      have hget : ((subls.getD k []).map (·.2))[i - c.start k + 1]? = some sl.2 := by
        rw [List.getElem?_map, ← e3, hsl]; rfl
      have hwr := ih k q hq s hs hsub (i - c.start k) _ p sl.2 (by omega) hco.hid hget hocc
      have hm := hco.sl (i + 1 - c.start k) (by omega)
      rw [hsl] at hm
      have hsl' := Option.some.inj hm
      have hmem := (mem_childrenAt (subls := subls) (ids := cids)).2 ⟨k, s, subCtx_of hq hs, h1, h2, rfl, rfl⟩
      obtain ⟨ch, hch, hch1, hch2⟩ := (mem_children (cs := [])).2 (.inr hmem)
      have hsz := hocc.lt (hsub sl.2 (List.mem_of_getElem? hget))
      have hout := hco.out
      rw [← hsl'] at hout
      rw [← hout]
      rw [← hch1] at hwr
      exact .child e2 hch hch2 (by rw [hch1]; exact hco.hseg) (by rw [hco.no, ← hsl']; exact hsz) hwr
    cases ho with
    | @slot _ _ idx hm =>
      obtain ⟨x, hx1, hx2⟩ := lv.slot_lookup hL hm
      rcases layerGates_writes lv ok (hne id c hc) (hcc id c hc) hi (hg i hi) hL hx2 with ⟨g, hgm, rfl⟩ | ⟨k, j, hd, hlay⟩
      · exact .gate e2 (mkSegment_gate' hgm (layerGates_ok htab lv hok hi (hg i hi) g hgm).two)
      · obtain ⟨q, hq, hj⟩ := (ok.defOut x k j).1 hd
        obtain ⟨s, hs⟩ := ok.sub k q hq
        have oks := htab _ s hs
        have hend := ok.callEnd k q s hq hs
        have hpos := oks.outPos
        have hl2 := ok.outLay k q s x hq hs (List.mem_of_getElem? hj)
        obtain ⟨hlen, _⟩ := lv.sub k q s hq hs
        have e5 : i + 1 - c.start k = s.outL := by omega
        have hsl : (subls.getD k [])[s.outL]? = some ((subls.getD k [])[s.outL]'(by omega)) := List.getElem?_eq_getElem (by omega)
        generalize (subls.getD k [])[s.outL]'(by omega) = sl at hsl
        obtain ⟨L', f1, _, hcase⟩ := lv.sub_cases hok hq hs hpos hsl hend
        have e6 : c.start k + s.outL = i + 1 := by omega
        rw [e6] at f1
        rw [hL] at f1; cases f1
        rcases hcase with ⟨_, h, _⟩ | ⟨_, _, hle, hqe⟩ | ⟨h, _⟩
        · omega
        · rw [e6] at hqe
          have hp := hLok
          cases hp with
          | mk c2 hc2 hp hs2 =>
            obtain ⟨N, hN⟩ := hp
            have hps : ∀ x p, (qs.getD (i + 1) []).lookup x = some p → p < 2 ^ N := fun x p hx => hN ▸ lv.lookup_lt hL hLok hx
            obtain ⟨pl, h1, h2, h3, h4, h5⟩ := query_spec hps q.outputs s.prog.outs (s.varsOf s.outL) q.sub s.outL
            rw [← hqe] at h1 h3 h4 h5
            have hjl : j < s.prog.outs.length := by have := (List.getElem?_eq_some_iff.1 hj).1; omega
            have hv := List.getElem?_eq_getElem hjl
            generalize s.prog.outs[j] = v at hv
            obtain ⟨g1, g2, g3⟩ := h5 j x v p hj hv hx2
            have g4 := g3 (by
              intro j' x' v' a1 a2 a3
              have := lv.lookup_inj hL hLok hx2 a3
              subst this
              have : j = j' := (List.getElem?_inj (List.getElem?_eq_some_iff.1 hj).1 (ok.outNodup k q hq)).1 (by rw [hj, a1])
              subst this
              rw [hv] at a2
              exact (Option.some.inj a2).symm)
            have hvm : v ∈ s.varsOf s.outL := (oks.mem_vars (le_refl _)).2 (.inr (.inl ⟨rfl, List.mem_of_getElem? hv⟩))
            obtain ⟨idx', hidx'⟩ := posOf_mem hvm
            rw [hidx'] at g4
            have hocc : Occ sl.2 (p - sl.1) := by
              have : sl.2 = .dense q.sub s.outL pl := by rw [h1]
              rw [this]
              exact .slot (dense_slots.2 g4)
            have := hcall k q s sl (p - sl.1) hq hs (by omega) (by omega) (by rw [e5]; exact hsl) hocc
            have e7 : sl.1 + (p - sl.1) = p := by omega
            rw [e7] at this
            exact this
        · omega
    | @sub _ S k off p' hm hS =>
      obtain ⟨hlay, hcirc⟩ := lv.lay _ L hL
      cases hLok with
      | mk c2 hc2 hp hs2 hn hk hsub hr hd hdd hmm =>
        obtain ⟨q, s, f1, f2, f3, f4, f5, f6⟩ := hmm k off S hm
        rw [hcirc, hc] at hc2; cases hc2
        rw [hlay] at f4 f5
        obtain ⟨hlen, hsl2⟩ := lv.sub k q s f1 f2
        have hsl : (subls.getD k [])[i + 1 - c.start k]? = some ((subls.getD k [])[i + 1 - c.start k]'(by omega)) := List.getElem?_eq_getElem (by omega)
        generalize (subls.getD k [])[i + 1 - c.start k]'(by omega) = sl at hsl
        have oks := htab _ s f2
        obtain ⟨L', g1, _, hcase⟩ := lv.sub_cases hok f1 f2 oks.outPos hsl (ok.callEnd k q s f1 f2)
        have e6 : c.start k + (i + 1 - c.start k) = i + 1 := by omega
        rw [e6, hL] at g1; cases g1
        have hlk := lookup_of_mem hk hm
        rcases hcase with ⟨_, _, h⟩ | ⟨_, h, _⟩ | ⟨_, h, _⟩
        · rw [hlk] at h; cases h
          exact hcall k q s (off, S) p' f1 f2 (by omega) (by omega) hsl hS
        · rw [hlk] at h; cases h
        · rw [hlk] at h; cases h

end Verif.Layering
