import Verif.Layering.Aligned
import Verif.Layering.ConnectTotal
import Verif.Layered.Masks

/-!
# Which positions the gates of a transition read and write
-/

set_option linter.unusedSectionVars false
set_option linter.unusedSimpArgs false

namespace Verif.Layering

open Verif.IR (Expr Coef Term VarSpec Env)
open Verif.Layered (Segment Gate Input Alloc)

variable {F : Type} [Field F] [DecidableEq F]
variable {tab : Nat → Option (Ctx F)}

/-- Positions of a layer that hold a variable of the circuit or of a circuit it calls. -/
inductive Occ : Layout → Nat → Prop
  | slot {L : Layout} {p idx : Nat} : (p, idx) ∈ L.slots → Occ L p
  | sub {L S : Layout} {k off p : Nat} : (k, off, S) ∈ L.subs → Occ S p → Occ L (off + p)

theorem Occ.lt {L : Layout} {p : Nat} (h : Occ L p) (hok : LayoutOk tab L) : p < L.size := by
  induction h with
  | slot hm => cases hok with | mk c hc hp hs => exact hs _ _ hm
  | sub hm _ ih =>
    cases hok with
    | mk c hc hp hs hn hk hsub hr =>
      have h1 := ih (hsub _ _ _ hm)
      have h2 := hr _ _ _ hm
      omega

namespace Level

variable {id : Nat} {c : Ctx F} {layouts : List Layout} {qs : List (List (Nat × Nat))} {subls : List (List (Nat × Layout))}

/-- A stored variable is found. -/
theorem slot_lookup (lv : Level tab id c layouts qs subls) {i : Nat} {L : Layout} (hL : layouts[i]? = some L) {p idx : Nat} (h : (p, idx) ∈ L.slots) :
    ∃ x, (c.varsOf i)[idx]? = some x ∧ (qs.getD i []).lookup x = some p := by
  have hq := lv.hquery i L hL
  unfold layoutQuery at hq
  split at hq
  · cases hq
  · rename_i q hm
    split at hq
    · rename_i hn
      obtain rfl := Option.some.inj hq
      obtain ⟨j, hj⟩ := List.getElem?_of_mem h
      obtain ⟨y, h1, h2⟩ := mapOpt_get hm hj
      obtain ⟨v, hv, rfl⟩ := Option.map_eq_some_iff.1 h1
      exact ⟨v, hv, lookup_of_mem hn (List.mem_of_getElem? h2)⟩
    · cases hq

/-- A position occupied in a called circuit is occupied in the caller. -/
theorem sub_occ (lv : Level tab id c layouts qs subls) (hok : ∀ L ∈ layouts, LayoutOk tab L) {k : Nat} {q : Call} {s : Ctx F}
    (hq : c.prog.calls[k]? = some q) (hs : tab q.sub = some s) (hpos : 1 ≤ s.outL) {j : Nat} {sl : Nat × Layout} (hsl : (subls.getD k [])[j]? = some sl)
    (hend : c.start k + s.outL ≤ c.outL) {p : Nat} (h : Occ sl.2 p) : ∃ L, layouts[c.start k + j]? = some L ∧ Occ L (sl.1 + p) := by
  obtain ⟨L, hL, hj, hcase⟩ := lv.sub_cases hok hq hs hpos hsl hend
  refine ⟨L, hL, ?_⟩
  have hLok := hok L (List.mem_of_getElem? hL)
  have hLok' := hLok
  cases hLok with
  | mk c' hc' hp hs' hn hk hsub hr hd hdd hm =>
    obtain ⟨N, hN⟩ := hp
    have hps : ∀ x p, (qs.getD (c.start k + j) []).lookup x = some p → p < 2 ^ N := fun x p hx => hN ▸ lv.lookup_lt hL hLok' hx
    rcases hcase with ⟨_, _, hl⟩ | ⟨rfl, _, _, rfl⟩ | ⟨rfl, _, rfl⟩
    · obtain ⟨off, S⟩ := sl
      exact .sub (lookup_mem hl) h
    · obtain ⟨pl, h1, h2, h3, h4, _⟩ := query_spec hps q.outputs s.prog.outs (s.varsOf s.outL) q.sub s.outL
      generalize query (qs.getD (c.start k + s.outL) []) q.outputs s.prog.outs (s.varsOf s.outL) q.sub s.outL = sl at h1 h3 h4 h
      obtain ⟨off, S⟩ := sl
      simp only at h1 h3 h4
      obtain rfl : S = .dense q.sub s.outL pl := by cases h1; rfl
      cases h with
      | slot hm' =>
        obtain ⟨_, x, _, _, _, e, _⟩ := h4 _ _ (dense_slots.1 hm')
        obtain ⟨idx, f, _⟩ := lv.lookup_slot hL e
        exact .slot f
      | sub hm' => simp [Layout.subs] at hm'
    · obtain ⟨pl, h1, h2, h3, h4, _⟩ := query_spec (pos := qs.getD (c.start k) []) (by simpa using hps) q.inputs ((List.range q.inputs.length).map (· + 1)) (s.varsOf 0) q.sub 0
      generalize query (qs.getD (c.start k) []) q.inputs ((List.range q.inputs.length).map (· + 1)) (s.varsOf 0) q.sub 0 = sl at h1 h3 h4 h
      obtain ⟨off, S⟩ := sl
      simp only at h1 h3 h4
      obtain rfl : S = .dense q.sub 0 pl := by cases h1; rfl
      cases h with
      | slot hm' =>
        obtain ⟨_, x, _, _, _, e, _⟩ := h4 _ _ (dense_slots.1 hm')
        obtain ⟨idx, f, _⟩ := lv.lookup_slot (i := c.start k) (by simpa using hL) e
        exact .slot f
      | sub hm' => simp [Layout.subs] at hm'

/-- The layouts of a called circuit name it. -/
theorem sub_circ (lv : Level tab id c layouts qs subls) (hok : ∀ L ∈ layouts, LayoutOk tab L) {k : Nat} {q : Call} {s : Ctx F}
    (hq : c.prog.calls[k]? = some q) (hs : tab q.sub = some s) (hpos : 1 ≤ s.outL) {j : Nat} {sl : Nat × Layout} (hsl : (subls.getD k [])[j]? = some sl)
    (hend : c.start k + s.outL ≤ c.outL) : sl.2.circ = q.sub := by
  obtain ⟨L, hL, hj, hcase⟩ := lv.sub_cases hok hq hs hpos hsl hend
  have hLok := hok L (List.mem_of_getElem? hL)
  obtain ⟨hlay, hcirc⟩ := lv.lay _ L hL
  have hqc : ∀ (pos : List (Nat × Nat)) (vs names tv : List Nat) (cid lid : Nat), (query pos vs names tv cid lid).2.circ = cid := by
    intro pos vs names tv cid lid
    unfold query
    split <;> rfl
  rcases hcase with ⟨_, _, hl⟩ | ⟨rfl, _, _, rfl⟩ | ⟨rfl, _, rfl⟩
  · obtain ⟨off, S⟩ := sl
    cases hLok with
    | mk c' hc' hp hs' hn hk hsub hr hd hdd hm =>
      obtain ⟨q', s', e1, e2, e3, _⟩ := hm k off S (lookup_mem hl)
      rw [hcirc, lv.hc] at hc'; cases hc'
      rw [hq] at e1; cases e1
      exact e3
  · exact hqc _ _ _ _ _ _
  · exact hqc _ _ _ _ _ _

/-- The layouts of a called circuit are aligned. -/
theorem sub_aligned (lv : Level tab id c layouts qs subls) (hok : ∀ L ∈ layouts, LayoutOk tab L) (hal : ∀ L ∈ layouts, Aligned L) {k : Nat} {q : Call} {s : Ctx F}
    (hq : c.prog.calls[k]? = some q) (hs : tab q.sub = some s) (hpos : 1 ≤ s.outL) {j : Nat} {sl : Nat × Layout} (hsl : (subls.getD k [])[j]? = some sl)
    (hend : c.start k + s.outL ≤ c.outL) : sl.2.size ∣ sl.1 ∧ Aligned sl.2 := by
  obtain ⟨L, hL, hj, hcase⟩ := lv.sub_cases hok hq hs hpos hsl hend
  have hLal := hal L (List.mem_of_getElem? hL)
  rcases hcase with ⟨_, _, hl⟩ | ⟨rfl, _, _, rfl⟩ | ⟨rfl, _, rfl⟩
  · obtain ⟨off, S⟩ := sl
    cases hLal with
    | mk h1 h2 => exact ⟨h1 _ _ _ (lookup_mem hl), h2 _ _ _ (lookup_mem hl)⟩
  · exact query_aligned _ _ _ _ _ _
  · exact query_aligned _ _ _ _ _ _

end Level

/-- What holds of each gate: it has at most two inputs if it is not custom, its output is the position of a variable, its inputs are occupied positions
of layers of the segment. -/
structure GateOk (c : Ctx F) (layouts : List Layout) (qs : List (List (Nat × Nat))) (i : Nat) (g : Gate F) : Prop where
  two : g.typ = none → g.inputs.length ≤ 2
  out : ∃ x, (qs.getD (i + 1) []).lookup x = some g.output
  ins : ∀ inp ∈ g.inputs, inp.layer < i + 1 - c.mu.getD (i + 1) 0 ∧ ∃ L, layouts[i - inp.layer]? = some L ∧ Occ L inp.offset

theorem termGate_shape {aq : Nat → Option Nat} {pos : Nat} {t : Term F} {g : Gate F} (h : termGate aq pos t = some g) :
    (g.typ = none → g.inputs.length ≤ 2) ∧ g.output = pos ∧ ∀ inp ∈ g.inputs, inp.layer = 0 ∧ ∃ v, aq v = some inp.offset := by
  unfold termGate at h
  split at h
  · cases h; simp
  · obtain ⟨a, ha, rfl⟩ := Option.map_eq_some_iff.1 h
    simp; exact ⟨_, ha⟩
  · split at h
    · rename_i a b ha hb
      cases h
      dsimp only
      split
      · simp; exact ⟨⟨_, ha⟩, ⟨_, hb⟩⟩
      · simp; exact ⟨⟨_, hb⟩, ⟨_, ha⟩⟩
    · cases h
  · obtain ⟨as, ha, rfl⟩ := Option.map_eq_some_iff.1 h
    refine ⟨by simp, rfl, ?_⟩
    intro inp hin
    obtain ⟨a, h1, rfl⟩ := List.mem_map.1 hin
    obtain ⟨v, _, h2⟩ := mapOpt_mem ha a h1
    exact ⟨rfl, v, h2⟩
  · obtain ⟨a, ha, rfl⟩ := Option.map_eq_some_iff.1 h
    simp; exact ⟨_, ha⟩

section

variable {id : Nat} {c : Ctx F} {layouts : List Layout} {qs : List (List (Nat × Nat))} {subls : List (List (Nat × Layout))}

theorem layerGates_split {subl : Nat → Nat → Option (Nat × Layout)} {i : Nat} {gs : List (Gate F)} (h : layerGates tab c qs subl i = some gs) :
    ∃ (gss : List (List (Gate F))) (g : List (Gate F)), (∀ x, x < c.prog.nv → ∃ a b, firstGates c qs i x = some a ∧ relayGates c qs i x = some b ∧ gss[x]? = some (a ++ b)) ∧ gss.length = c.prog.nv ∧
      ccGates tab c qs subl i = some g ∧ gs = gss.flatten ++ g := by
  unfold layerGates at h
  split at h
  · rename_i gss g hgs hgc
    cases h
    refine ⟨gss, g, ?_, by simpa using mapOpt_length hgs, hgc, rfl⟩
    intro x hx
    obtain ⟨y, h1, h2⟩ := mapOpt_get hgs (show (List.range c.prog.nv)[x]? = some x from List.getElem?_range hx)
    split at h1
    · split at h1
      · rename_i a b ha hb
        cases h1
        exact ⟨a, b, ha, hb, h2⟩
      · cases h1
    · cases h1
  · cases h

/-- Every gate of a transition is as it should be. -/
theorem layerGates_ok (htab : ∀ id c, tab id = some c → CtxOk tab c) (lv : Level tab id c layouts qs subls) (hok : ∀ L ∈ layouts, LayoutOk tab L)
    {i : Nat} (hi : i < c.outL) {gs : List (Gate F)} (h : layerGates tab c qs (fun k j => (subls.getD k [])[j]?) i = some gs) :
    ∀ g ∈ gs, GateOk c layouts qs i g := by
  have ok := htab id c lv.hc
  have hmu := ok.mu1 i hi
  have hcur : ∀ v a, (qs.getD i []).lookup v = some a → ∃ L, layouts[i]? = some L ∧ Occ L a := by
    intro v a ha
    obtain ⟨L, hL⟩ := lv.get (i := i) (by omega)
    obtain ⟨idx, h1, _⟩ := lv.lookup_slot hL ha
    exact ⟨L, hL, .slot h1⟩
  obtain ⟨gss, gc, h1, h2, h3, rfl⟩ := layerGates_split h
  intro g hg
  rcases List.mem_append.1 hg with hg | hg
  · obtain ⟨gl, hgl, hg⟩ := List.mem_flatten.1 hg
    obtain ⟨x, hx⟩ := List.getElem?_of_mem hgl
    obtain ⟨a, b, ha, hb, e⟩ := h1 x (by rw [← h2]; exact (List.getElem?_eq_some_iff.1 hx).1)
    rw [hx] at e; cases e
    rcases List.mem_append.1 hg with hg | hg
    · unfold firstGates at ha
      split at ha
      · cases ha; cases hg
      · split at ha
        · split at ha
          · cases ha; cases hg
          · cases ha
        · rename_i pos hpos
          split at ha
          · cases ha
            simp only [List.mem_singleton] at hg
            subst hg
            exact ⟨by simp, ⟨x, hpos⟩, by simp⟩
          · obtain ⟨t, _, ht⟩ := mapOpt_mem ha g hg
            obtain ⟨t1, t2, t3⟩ := termGate_shape ht
            refine ⟨t1, ⟨x, by rw [t2]; exact hpos⟩, ?_⟩
            intro inp hin
            obtain ⟨e, v, hv⟩ := t3 inp hin
            rw [e]
            exact ⟨by omega, hcur v _ hv⟩
          · cases ha; cases hg
    · unfold relayGates at hb
      obtain ⟨⟨u, v⟩, hp, hm⟩ := mapOpt_mem hb g hg
      obtain ⟨hp1, hp2⟩ := List.mem_filter.1 hp
      simp only [Bool.and_eq_true, beq_iff_eq] at hp2
      obtain ⟨rfl, hp2⟩ := hp2
      have hlt := pairs_lt (ok.occSorted x) hp1
      have hmu' := ok.muOcc x u i hi hp1
      simp only at hm
      split at hm
      · rename_i a b ha hb'
        cases hm
        refine ⟨by simp, ⟨x, hb'⟩, ?_⟩
        intro inp hin
        simp only [List.mem_singleton] at hin
        subst hin
        dsimp only
        refine ⟨by omega, ?_⟩
        have : i - (i + 1 - u - 1) = u := by omega
        rw [this]
        obtain ⟨L, hL⟩ := lv.get (i := u) (by omega)
        obtain ⟨idx, f1, _⟩ := lv.lookup_slot hL ha
        exact ⟨L, hL, .slot f1⟩
      · cases hm
  · unfold ccGates at h3
    cases hcc : c.cc.getD (i + 1) none with
    | none => rw [hcc] at h3; cases h3; cases hg
    | some cc =>
      rw [hcc] at h3
      simp only at h3
      split at h3
      · cases h3
      · rename_i pos hpos
        split at h3
        · rename_i g1 g2 hg1 hg2
          cases h3
          rcases List.mem_append.1 hg with hg | hg
          · obtain ⟨v, _, hv⟩ := mapOpt_mem hg1 g hg
            obtain ⟨a, ha, rfl⟩ := Option.map_eq_some_iff.1 hv
            refine ⟨by simp, ⟨_, hpos⟩, ?_⟩
            intro inp hin
            simp only [List.mem_singleton] at hin
            subst hin
            exact ⟨by dsimp only; omega, hcur v a ha⟩
          · obtain ⟨k, hk, hv⟩ := mapOpt_mem hg2 g hg
            obtain ⟨q, s, cc', e1, e2, e3, e4⟩ := ok.ccSubs i cc k hcc hk
            have oks := htab _ s e2
            split at hv
            · rename_i s' sl hs' hsl
              rw [subCtx_of e1 e2] at hs'; cases hs'
              obtain ⟨a, ha, rfl⟩ := Option.map_eq_some_iff.1 hv
              refine ⟨by simp, ⟨_, hpos⟩, ?_⟩
              intro inp hin
              simp only [List.mem_singleton] at hin
              subst hin
              refine ⟨by dsimp only; omega, ?_⟩
              unfold ccPos at ha
              split at ha
              · cases ha
              · split at ha
                · cases ha
                · obtain ⟨⟨p, idx⟩, hp, rfl⟩ := Option.map_eq_some_iff.1 ha
                  have hmem := List.mem_of_find?_eq_some hp
                  obtain ⟨L, f1, f2⟩ := lv.sub_occ hok e1 e2 oks.outPos hsl (ok.callEnd k q s e1 e2) (Occ.slot hmem)
                  refine ⟨L, ?_, f2⟩
                  have : c.start k + (i - c.starts.getD k 0) = i := by
                    have : c.starts.getD k 0 = c.start k := rfl
                    omega
                  rw [this] at f1
                  exact f1
            · cases hv
        · cases h3

/-- A stored variable of the next layer is written by a gate, or it is the output of a call that ends there. -/
theorem layerGates_writes (lv : Level tab id c layouts qs subls) (ok : CtxOk tab c)
    (hne : ∀ x e, c.prog.defn x = some (.expr e) → e ≠ []) (hcc : ∀ j cc, c.cc.getD j none = some cc → cc.vars ≠ [] ∨ cc.subs ≠ [])
    {i : Nat} (hi : i < c.outL) {gs : List (Gate F)} (h : layerGates tab c qs (fun k j => (subls.getD k [])[j]?) i = some gs)
    {L : Layout} (hL : layouts[i + 1]? = some L) {x p : Nat} (hx : (qs.getD (i + 1) []).lookup x = some p) :
    (∃ g ∈ gs, g.output = p) ∨ ∃ k j, c.prog.defn x = some (.out k j) ∧ c.lay x = i + 1 := by
  have hxv := lv.lookup_vars hL hx
  obtain ⟨gss, gc, h1, h2, h3, rfl⟩ := layerGates_split h
  have hocc : (∃ cc, c.cc.getD (i + 1) none = some cc ∧ x = cc.id) ∨ i + 1 ∈ c.occOf x := by
    rcases (ok.mem_vars (by omega)).1 hxv with h | ⟨h, h'⟩ | h
    · exact .inl h
    · exact .inr (by rw [h]; exact ok.outsOcc x h')
    · exact .inr h
  rcases hocc with ⟨cc, hc1, rfl⟩ | hocc
  · left
    unfold ccGates at h3
    rw [hc1] at h3
    simp only [hx] at h3
    split at h3
    · rename_i g1 g2 hg1 hg2
      cases h3
      rcases hcc _ _ hc1 with hv | hv
      · obtain ⟨v, hv⟩ := List.exists_mem_of_ne_nil _ hv
        obtain ⟨j, hj⟩ := List.getElem?_of_mem hv
        obtain ⟨y, e1, e2⟩ := mapOpt_get hg1 hj
        obtain ⟨a, _, rfl⟩ := Option.map_eq_some_iff.1 e1
        exact ⟨_, by simp only [List.mem_append]; exact .inr (.inl (List.mem_of_getElem? e2)), rfl⟩
      · obtain ⟨k, hv⟩ := List.exists_mem_of_ne_nil _ hv
        obtain ⟨j, hj⟩ := List.getElem?_of_mem hv
        obtain ⟨y, e1, e2⟩ := mapOpt_get hg2 hj
        split at e1
        · obtain ⟨a, _, rfl⟩ := Option.map_eq_some_iff.1 e1
          exact ⟨_, by simp only [List.mem_append]; exact .inr (.inr (List.mem_of_getElem? e2)), rfl⟩
        · cases e1
    · cases h3
  · obtain ⟨hx1, hx2⟩ := ok.occRange x _ hocc
    obtain ⟨a, b, ha, hb, hg⟩ := h1 x hx2
    have hmem : ∀ g, g ∈ a ∨ g ∈ b → g ∈ gss.flatten ++ gc := by
      intro g hg'
      exact List.mem_append.2 (.inl (List.mem_flatten.2 ⟨_, List.mem_of_getElem? hg, List.mem_append.2 hg'⟩))
    have hle := ok.lay_le hocc
    by_cases hlay : c.lay x = i + 1
    · cases hd : c.prog.defn x with
      | none =>
        have := ok.layIn x hx1 hx2 hd
        have := (ok.lay0 x this).2
        omega
      | some d =>
        unfold firstGates at ha
        have hm : ¬ c.minL.getD x 0 ≠ i + 1 := by rw [not_not]; exact hlay
        rw [if_neg hm] at ha
        simp only [hx, hd] at ha
        cases d with
        | const v =>
          simp only [Option.some.injEq] at ha
          subst ha
          exact .inl ⟨_, hmem _ (.inl (List.mem_singleton.2 rfl)), rfl⟩
        | out k j => exact .inr ⟨k, j, rfl, hlay⟩
        | expr e =>
          left
          simp only at ha
          obtain ⟨t, ht⟩ := List.exists_mem_of_ne_nil _ (hne x e hd)
          obtain ⟨j, hj⟩ := List.getElem?_of_mem ht
          obtain ⟨g, e1, e2⟩ := mapOpt_get ha hj
          exact ⟨g, hmem _ (.inl (List.mem_of_getElem? e2)), (termGate_shape e1).2.1⟩
    · left
      have hh := ok.occHead x hx1 hx2
      have hs := ok.occSorted x
      cases ho : c.occOf x with
      | nil => rw [ho] at hocc; cases hocc
      | cons y l =>
        rw [ho] at hh hs hocc
        simp at hh
        have hl : i + 1 ∈ l := by
          rcases List.mem_cons.1 hocc with e | e
          · omega
          · exact e
        obtain ⟨u, f1, f2, f3⟩ := pairs_filter hs hl
        unfold relayGates at hb
        have hu : (u, i + 1) ∈ (pairs (c.occ.getD x [])).filter fun p => p.2 == i + 1 && ((qs.getD p.2 []).lookup x).isSome := by
          have hmem : (u, i + 1) ∈ pairs (y :: l) := (List.mem_filter.1 (by rw [f1]; simp : (u, i + 1) ∈ (pairs (y :: l)).filter fun p => p.2 == i + 1)).1
          have : c.occ.getD x [] = y :: l := ho
          rw [this]
          exact List.mem_filter.2 ⟨hmem, by rw [hx]; simp⟩
        obtain ⟨j, hj⟩ := List.getElem?_of_mem hu
        obtain ⟨g, e1, e2⟩ := mapOpt_get hb hj
        simp only [hx] at e1
        split at e1
        · rename_i a' b' _ hb'
          cases hb'
          cases e1
          exact ⟨_, hmem _ (.inr (List.mem_of_getElem? e2)), rfl⟩
        · cases e1

end

end Verif.Layering
