import Verif.Layering.Connect
import Verif.Layering.SolveTotal

/-!
# `connect_wires` does not fail on complete layouts
-/

set_option linter.unusedSectionVars false
set_option linter.unusedSimpArgs false

namespace Verif.Layering

open Verif.IR (Expr Coef Term VarSpec Env)
open Verif.Layered (Segment Gate Input Alloc)

variable {F : Type} [Field F] [DecidableEq F]
variable {tab : Nat → Option (Ctx F)}

/-- A layout of layer `i` of circuit `id` that `connect_wires` can use: it stores variables of the layer at most once, and all of them before the
last layer. -/
structure Fit (tab : Nat → Option (Ctx F)) (id : Nat) (c : Ctx F) (i : Nat) (L : Layout) : Prop where
  lay : L.layer = i
  circ : L.circ = id
  ok : LayoutOk tab L
  nodup : (L.slots.map (·.2)).Nodup
  lt : ∀ p idx, (p, idx) ∈ L.slots → idx < (c.varsOf i).length
  all : i < c.outL ∨ (c.cc.getD i none).isSome → ∀ idx, idx < (c.varsOf i).length → ∃ p, (p, idx) ∈ L.slots
  mid : ∀ k ∈ midCalls tab c i, ∃ off S, (k, off, S) ∈ L.subs
  sub : ∀ k off S, (k, off, S) ∈ L.subs → Full tab S

theorem Fit.of_full {id i : Nat} {c : Ctx F} {L : Layout} (hc : tab id = some c) (ok : LayoutOk tab L) (hf : Full tab L) (h1 : L.circ = id) (h2 : L.layer = i) :
    Fit tab id c i L := by
  cases hf with
  | mk c' hc' hall hmid hsub =>
    rw [h1, hc] at hc'; cases hc'
    rw [h2] at hall hmid
    refine ⟨h2, h1, ok, hall.nodup_iff.2 List.nodup_range, ?_, ?_, hmid, hsub⟩
    · intro p idx h
      exact List.mem_range.1 (hall.mem_iff.1 (List.mem_map.2 ⟨_, h, rfl⟩))
    · intro _ idx h
      obtain ⟨⟨p, idx'⟩, h3, rfl⟩ := List.mem_map.1 (hall.mem_iff.2 (List.mem_range.2 h))
      exact ⟨p, h3⟩

theorem layoutQuery_total {id i : Nat} {c : Ctx F} {L : Layout} (h : Fit tab id c i L) (hv : (c.varsOf i).Nodup) :
    ∃ q, layoutQuery (c.varsOf i) L = some q ∧ (i < c.outL ∨ (c.cc.getD i none).isSome → ∀ x ∈ c.varsOf i, (q.lookup x).isSome) := by
  obtain ⟨q, hq⟩ := mapOpt_isSome (f := fun s : Nat × Nat => ((c.varsOf i)[s.2]?).map fun v => (v, s.1)) (l := L.slots) (by
    intro s hs
    have := h.lt s.1 s.2 hs
    rw [List.getElem?_eq_getElem this]; rfl)
  have hfst : q.map (·.1) = (L.slots.map (·.2)).map fun j => (c.varsOf i).getD j 0 := by
    clear h
    revert hq
    generalize L.slots = sl
    intro hq
    induction sl generalizing q with
    | nil => simp [mapOpt] at hq; subst hq; rfl
    | cons a sl ih =>
      obtain ⟨y, ys, h1, h2, rfl⟩ := mapOpt_cons.1 hq
      obtain ⟨v, h3, rfl⟩ := Option.map_eq_some_iff.1 h1
      simp only [List.map_cons, ih _ h2]
      rw [List.getD_eq_getElem?_getD, h3, Option.getD_some]
  have hn : (q.map (·.1)).Nodup := by
    rw [hfst]
    refine List.Nodup.map_on ?_ h.nodup
    intro a ha b hb e
    obtain ⟨⟨p, _⟩, h1, rfl⟩ := List.mem_map.1 ha
    obtain ⟨⟨p', _⟩, h2, rfl⟩ := List.mem_map.1 hb
    have l1 := h.lt _ _ h1
    have l2 := h.lt _ _ h2
    dsimp only at e ⊢
    rw [List.getD_eq_getElem?_getD, List.getD_eq_getElem?_getD, List.getElem?_eq_getElem l1, List.getElem?_eq_getElem l2] at e
    exact (List.Nodup.getElem_inj_iff hv).1 e
  refine ⟨q, ?_, ?_⟩
  · unfold layoutQuery
    rw [hq]
    simp only
    rw [if_pos hn]
  · intro hi x hx
    obtain ⟨idx, hidx⟩ := List.getElem?_of_mem hx
    have hlt := (List.getElem?_eq_some_iff.1 hidx).1
    obtain ⟨p, hp⟩ := h.all hi idx hlt
    obtain ⟨j, hj⟩ := List.getElem?_of_mem hp
    obtain ⟨y, h1, h2⟩ := mapOpt_get hq hj
    simp only [hidx, Option.map_some, Option.some.injEq] at h1
    subst h1
    rw [lookup_of_mem hn (List.mem_of_getElem? h2)]; rfl

theorem connAll_total {rec : List Layout → List (Segment F) → Option (List Nat × List (Segment F))} : ∀ (ls : List (List Layout)) (sg : List (Segment F)),
    (∀ l ∈ ls, ∀ sg, ∃ x, rec l sg = some x) → ∃ x, connAll rec ls sg = some x := by
  intro ls
  induction ls with
  | nil => intro sg _; exact ⟨_, rfl⟩
  | cons l ls ih =>
    intro sg h
    obtain ⟨⟨ids, sg1⟩, h1⟩ := h l (by simp) sg
    obtain ⟨⟨r, sg2⟩, h2⟩ := ih sg1 (fun l hl => h l (by simp [hl]))
    unfold connAll
    rw [h1]
    simp only
    rw [h2]
    exact ⟨_, rfl⟩

theorem pairs_lt : ∀ {l : List Nat} {u v : Nat}, l.Pairwise (· < ·) → (u, v) ∈ pairs l → u < v := by
  intro l
  induction l with
  | nil => intro u v _ h; simp [pairs] at h
  | cons a l ih =>
    intro u v hp h
    cases l with
    | nil => simp [pairs] at h
    | cons b l =>
      rw [List.pairwise_cons] at hp
      have h' : (u, v) = (a, b) ∨ (u, v) ∈ pairs (b :: l) := by simpa [pairs] using h
      rcases h' with e | e
      · cases e; exact hp.1 _ (by simp)
      · exact ih hp.2 e

theorem termGate_total {aq : Nat → Option Nat} {pos : Nat} {t : Term F} (h : ∀ v ∈ t.vars.vars, (aq v).isSome) : (termGate aq pos t).isSome := by
  unfold termGate
  cases ht : t.vars with
  | const => rfl
  | linear v =>
    rw [ht] at h
    have := h v (by simp [VarSpec.vars])
    simp only [Option.isSome_map, this]
  | quad v w =>
    rw [ht] at h
    have h1 := h v (by simp [VarSpec.vars])
    have h2 := h w (by simp [VarSpec.vars])
    obtain ⟨a, ha⟩ := Option.isSome_iff_exists.1 h1
    obtain ⟨b, hb⟩ := Option.isSome_iff_exists.1 h2
    simp only [ha, hb]; rfl
  | custom g xs =>
    rw [ht] at h
    obtain ⟨r, hr⟩ := mapOpt_isSome (f := aq) (l := xs) (fun v hv => h v (by simpa [VarSpec.vars] using hv))
    simp only [hr]; rfl
  | randomLinear v =>
    rw [ht] at h
    have := h v (by simp [VarSpec.vars])
    simp only [Option.isSome_map, this]

/-- The gates of a transition exist when the queries cover what they must. -/
theorem layerGates_total {id : Nat} {c : Ctx F} {layouts : List Layout} {qs : List (List (Nat × Nat))} {subls : List (List (Nat × Layout))}
    (ok : CtxOk tab c) (lv : Level tab id c layouts qs subls)
    (hcc : ∀ j cc, c.cc.getD j none = some cc → ((qs.getD j []).lookup cc.id).isSome)
    (hsub : ∀ (k : Nat) (q : Call) (s : Ctx F) (j : Nat) (cc : CC), c.prog.calls[k]? = some q → tab q.sub = some s → s.cc.getD j none = some cc →
      ∃ sl, (subls.getD k [])[j]? = some sl ∧ (ccPos s sl j).isSome)
    {i : Nat} (hi : i < c.outL) : ∃ gs, layerGates tab c qs (fun k j => (subls.getD k [])[j]?) i = some gs := by
  have hlook : ∀ j x, j < c.outL → j ∈ c.occOf x → ((qs.getD j []).lookup x).isSome := by
    intro j x hj hx
    exact lv.full j hj x ((ok.mem_vars (by omega)).2 (.inr (.inr hx)))
  have hfirst : ∀ x, x < c.prog.nv → ∃ a, firstGates c qs i x = some a := by
    intro x hx
    unfold firstGates
    by_cases hm : c.minL.getD x 0 ≠ i + 1
    · rw [if_pos hm]; exact ⟨_, rfl⟩
    · rw [if_neg hm]
      have hm : c.lay x = i + 1 := not_not.1 hm
      have hx1 : 1 ≤ x := by
        rcases Nat.eq_zero_or_pos x with e | e
        · have := (ok.lay0 x (by omega)).2; omega
        · exact e
      cases hl : (qs.getD (i + 1) []).lookup x with
      | none =>
        simp only
        by_cases e : i + 1 = c.outL
        · rw [if_pos e]; exact ⟨_, rfl⟩
        · have h1 := ok.occHead x hx1 hx
          have h2 := hlook (i + 1) x (by omega) (by rw [← hm]; exact List.mem_of_mem_head? h1)
          rw [hl] at h2; cases h2
      | some pos =>
        simp only
        cases hd : c.prog.defn x with
        | none => exact ⟨_, rfl⟩
        | some d =>
          cases d with
          | const v => exact ⟨_, rfl⟩
          | out k j => exact ⟨_, rfl⟩
          | expr e =>
            simp only
            apply mapOpt_isSome
            intro t ht
            apply termGate_total
            intro v hv
            obtain ⟨_, _, h3⟩ := ok.exprUse x e v hd (List.mem_flatMap.2 ⟨t, ht, hv⟩)
            rw [hm, Nat.add_sub_cancel] at h3
            exact hlook i v hi h3
  have hrelay : ∀ x, ∃ b, relayGates c qs i x = some b := by
    intro x
    unfold relayGates
    apply mapOpt_isSome
    rintro ⟨u, v⟩ hp
    obtain ⟨h1, h2⟩ := List.mem_filter.1 hp
    simp only [Bool.and_eq_true, beq_iff_eq] at h2
    obtain ⟨rfl, h2⟩ := h2
    have hlt := pairs_lt (ok.occSorted x) h1
    have ha := hlook u x (by omega) (pairs_mem h1).1
    obtain ⟨a, ha⟩ := Option.isSome_iff_exists.1 ha
    obtain ⟨b, hb⟩ := Option.isSome_iff_exists.1 h2
    simp only [ha, hb]; rfl
  have hrok : ∀ x, relayOk c qs i x = true := by
    intro x
    unfold relayOk
    rw [List.all_eq_true]
    rintro ⟨u, v⟩ hp
    by_cases e : v = i + 1
    · subst e
      by_cases e2 : i + 1 = c.outL
      · simp [e2]
      · have := hlook (i + 1) x (by omega) (pairs_mem hp).2
        simp only [Bool.or_eq_true]
        exact .inl (.inr this)
    · simp [e]
  have hccg : ∃ g, ccGates tab c qs (fun k j => (subls.getD k [])[j]?) i = some g := by
    unfold ccGates
    cases hc1 : c.cc.getD (i + 1) none with
    | none => exact ⟨_, rfl⟩
    | some cc =>
      simp only
      obtain ⟨pos, hpos⟩ := Option.isSome_iff_exists.1 (hcc _ _ hc1)
      rw [hpos]
      simp only
      obtain ⟨g1, h1⟩ := mapOpt_isSome (f := fun v => ((qs.getD i []).lookup v).map fun a =>
          (⟨none, [⟨0, a⟩], pos, if c.prog.nv ≤ v then .const 1 else .random⟩ : Gate F)) (l := cc.vars) (by
        intro v hv
        rw [Option.isSome_map]
        rcases ok.ccVars i cc v hc1 hv with ⟨_, _, h⟩ | ⟨cc', h, rfl⟩
        · exact hlook i v hi h
        · exact hcc _ _ h)
      rw [h1]
      generalize hm2 : (mapOpt _ cc.subs : Option (List (Gate F))) = m2
      obtain ⟨g2, rfl⟩ : ∃ g2, m2 = some g2 := by
        rw [← hm2]
        apply mapOpt_isSome
        intro k hk
        obtain ⟨q, s, cc', e1, e2, e3, e4⟩ := ok.ccSubs i cc k hc1 hk
        obtain ⟨sl, f1, f2⟩ := hsub k q s _ cc' e1 e2 e4
        have hst : c.starts.getD k 0 = c.start k := rfl
        simp only [subCtx_of e1 e2, hst, f1, Option.isSome_map, f2]
      exact ⟨_, rfl⟩
  unfold layerGates
  generalize hm2 : (mapOpt _ (List.range c.prog.nv) : Option (List (List (Gate F)))) = m2
  obtain ⟨g2, rfl⟩ : ∃ g2, m2 = some g2 := by
    rw [← hm2]
    apply mapOpt_isSome
    intro x hx
    obtain ⟨a, ha⟩ := hfirst x (List.mem_range.1 hx)
    obtain ⟨b, hb⟩ := hrelay x
    simp only [hrok x, ha, hb, if_true]; rfl
  obtain ⟨g, hg⟩ := hccg
  rw [hg]
  exact ⟨_, rfl⟩

/-- The layouts of a called circuit can be used when those of the caller can. -/
theorem sub_fit {r : Nat → Nat} (htab : RankOk tab r) {id : Nat} {c : Ctx F} {layouts : List Layout} {qs : List (List (Nat × Nat))} {subls : List (List (Nat × Layout))}
    (lv : Level tab id c layouts qs subls) (hfit : ∀ (i : Nat) (L : Layout), layouts[i]? = some L → Fit tab id c i L)
    {k : Nat} {q : Call} {s : Ctx F} (hq : c.prog.calls[k]? = some q) (hs : tab q.sub = some s) (hnr : ∀ j cc, s.cc.getD j none = some cc → j < s.outL)
    {j : Nat} {sl : Nat × Layout} (hsl : (subls.getD k [])[j]? = some sl) : Fit tab q.sub s j sl.2 := by
  have ok := htab.ctx _ _ lv.hc
  have oks := htab.ctx _ _ hs
  have hend := ok.callEnd k q s hq hs
  have hok : ∀ L ∈ layouts, LayoutOk tab L := by
    intro L hL
    obtain ⟨i, hi⟩ := List.getElem?_of_mem hL
    exact (hfit i L hi).ok
  have hlok := (lv.sub_ok hok hq hs oks.outPos hsl hend).1
  obtain ⟨L, hL, hj, h⟩ := lv.sub_cases hok hq hs oks.outPos hsl hend
  have hf := hfit _ L hL
  have hLok' := hf.ok
  have hLok := hf.ok
  cases hLok with
  | mk c' hc' hp hs' hn hk hsub hr hd hdd hm =>
    obtain ⟨N, hN⟩ := hp
    have hps : ∀ x p, (qs.getD (c.start k + j) []).lookup x = some p → p < 2 ^ N := fun x p hx => hN ▸ lv.lookup_lt hL hLok' hx
    have dense : ∀ (pl : List (Option Nat)) (off : Nat) (pos : List (Nat × Nat)) (vs names : List Nat), names.Nodup →
        (∀ p idx, pl[p]? = some (some idx) → ∃ (j' x v : Nat), vs[j']? = some x ∧ names[j']? = some v ∧
          pos.lookup x = some (off + p) ∧ posOf (s.varsOf j) v = some idx) →
        ((Layout.dense q.sub j pl).slots.map (·.2)).Nodup ∧ ∀ p idx, (p, idx) ∈ (Layout.dense q.sub j pl).slots → idx < (s.varsOf j).length := by
      intro pl off pos vs names hnames hspec
      constructor
      · refine List.Nodup.map_on ?_ (List.Nodup.of_map _ (dense_nodup _ _ pl))
        rintro ⟨p, idx⟩ hp ⟨p', idx'⟩ hp' e
        simp only at e
        subst e
        obtain ⟨j1, x1, v1, a1, a2, a3, a4⟩ := hspec p idx (dense_slots.1 hp)
        obtain ⟨j2, x2, v2, b1, b2, b3, b4⟩ := hspec p' idx (dense_slots.1 hp')
        have e1 := posOf_spec a4
        have e2 := posOf_spec b4
        rw [e1] at e2
        obtain rfl := Option.some.inj e2
        have : j1 = j2 := (List.getElem?_inj (List.getElem?_eq_some_iff.1 a2).1 hnames).1 (by rw [a2, b2])
        subst this
        rw [a1] at b1
        obtain rfl := Option.some.inj b1
        rw [a3] at b3
        have := Option.some.inj b3
        have : p = p' := by omega
        rw [this]
      · intro p idx hp
        obtain ⟨j1, x1, v1, a1, a2, a3, a4⟩ := hspec p idx (dense_slots.1 hp)
        exact (List.getElem?_eq_some_iff.1 (posOf_spec a4)).1
    have nomid : j = 0 ∨ j = s.outL → midCalls tab s j = [] := by
      intro h
      rw [List.eq_nil_iff_forall_not_mem]
      intro k' hk'
      obtain ⟨q', s', h1, h2, h3, h4⟩ := mem_midCalls hk'
      have := oks.callEnd k' q' s' h1 h2
      rcases h with h | h <;> omega
    rcases h with ⟨_, _, h⟩ | ⟨rfl, _, _, rfl⟩ | ⟨rfl, _, rfl⟩
    · obtain ⟨off, S⟩ := sl
      obtain ⟨q', s', e1, e2, e3, e4, e5, e6⟩ := hm k off S (lookup_mem h)
      rw [hf.circ, lv.hc] at hc'; cases hc'
      rw [hq] at e1; cases e1
      refine Fit.of_full hs hlok (hf.sub k off S (lookup_mem h)) e3 ?_
      rw [e6, hf.lay]; omega
    · obtain ⟨pl, h1, h2, h3, h4, h5⟩ := query_spec hps q.outputs s.prog.outs (s.varsOf s.outL) q.sub s.outL
      have hS : (query (qs.getD (c.start k + s.outL) []) q.outputs s.prog.outs (s.varsOf s.outL) q.sub s.outL).2 = .dense q.sub s.outL pl := by rw [h1]
      obtain ⟨d1, d2⟩ := dense pl _ _ _ _ (htab.outs _ _ hs) h4
      rw [hS] at hlok ⊢
      refine ⟨rfl, rfl, hlok, d1, d2, ?_, ?_, ?_⟩
      · rintro (h | h)
        · omega
        · obtain ⟨cc, hcc⟩ := Option.isSome_iff_exists.1 h
          have := hnr _ _ hcc
          omega
      · intro k' hk'; rw [nomid (.inr rfl)] at hk'; cases hk'
      · intro k' off S hm; simp [Layout.subs] at hm
    · obtain ⟨pl, h1, h2, h3, h4, h5⟩ := query_spec (pos := qs.getD (c.start k) []) (by simpa using hps) q.inputs ((List.range q.inputs.length).map (· + 1)) (s.varsOf 0) q.sub 0
      have hS : (query (qs.getD (c.start k) []) q.inputs ((List.range q.inputs.length).map (· + 1)) (s.varsOf 0) q.sub 0).2 = .dense q.sub 0 pl := by rw [h1]
      have hnames : ((List.range q.inputs.length).map (· + 1)).Nodup := List.Nodup.map (fun a b h => by simpa using h) List.nodup_range
      obtain ⟨d1, d2⟩ := dense pl _ _ _ _ hnames h4
      rw [hS] at hlok ⊢
      refine ⟨rfl, rfl, hlok, d1, d2, ?_, ?_, ?_⟩
      · intro _ idx hidx
        have hv := oks.varsNodup (j := 0) (by omega)
        have hx : (s.varsOf 0)[idx]? = some ((s.varsOf 0)[idx]) := List.getElem?_eq_getElem hidx
        generalize (s.varsOf 0)[idx] = x at hx
        have hmem := List.mem_of_getElem? hx
        have hocc : 0 ∈ s.occOf x := by
          rcases (oks.mem_vars (by omega)).1 hmem with ⟨cc, e, _⟩ | ⟨e, _⟩ | e
          · rw [oks.cc0] at e; cases e
          · have := oks.outPos; omega
          · exact e
        obtain ⟨hx1, hx2⟩ := oks.occRange x 0 hocc
        have hl := oks.lay_le hocc
        have hd : s.prog.defn x = none := by
          cases hd : s.prog.defn x with
          | none => rfl
          | some d => have := oks.layPos x d hd; omega
        have hin := oks.layIn x hx1 hx2 hd
        have hlen := ok.inLen k q s hq hs
        have hlt : x - 1 < q.inputs.length := by omega
        have hy : q.inputs[x - 1]? = some (q.inputs[x - 1]) := List.getElem?_eq_getElem hlt
        generalize q.inputs[x - 1] = y at hy
        have hname : ((List.range q.inputs.length).map (· + 1))[x - 1]? = some x := by
          rw [List.getElem?_map, List.getElem?_range hlt]; simp; omega
        obtain ⟨_, _, hocc'⟩ := ok.inUse k q y hq (List.mem_of_getElem? hy)
        have hst : c.start k < c.outL := by have := oks.outPos; omega
        have hful := lv.full (c.start k) hst y ((ok.mem_vars (by omega)).2 (.inr (.inr hocc')))
        obtain ⟨P, hP⟩ := Option.isSome_iff_exists.1 hful
        obtain ⟨g1, g2, g3⟩ := h5 (x - 1) y x P hy hname hP
        have g4 := g3 (by
          intro j' x' v' f1 f2 f3
          have hL' : layouts[c.start k]? = some L := by simpa using hL
          have := lv.lookup_inj hL' hLok' hP f3
          subst this
          have : x - 1 = j' := (List.getElem?_inj hlt (htab.ins _ _ k q lv.hc hq)).1 (by rw [hy, f1])
          subst this
          rw [hname] at f2
          exact (Option.some.inj f2).symm)
        rw [(posOf_iff hv).2 hx] at g4
        exact ⟨_, dense_slots.2 g4⟩
      · intro k' hk'; rw [nomid (.inl rfl)] at hk'; cases hk'
      · intro k' off S hm; simp [Layout.subs] at hm

/-- `connect_wires` succeeds on usable layouts.  `R` holds of the circuits that can be reached. -/
theorem connect_total {r : Nat → Nat} (htab : RankOk tab r) {R : Nat → Prop}
    (hR : ∀ (id : Nat) (c : Ctx F) (k : Nat) (q : Call) (s : Ctx F), R id → tab id = some c → c.prog.calls[k]? = some q → tab q.sub = some s →
      R q.sub ∧ ∀ j cc, s.cc.getD j none = some cc → j < s.outL) :
    ∀ (f id : Nat) (c : Ctx F) (layouts : List Layout) (segs : List (Segment F)), r id < f → tab id = some c → R id → layouts.length = c.outL + 1 →
      (∀ (i : Nat) (L : Layout), layouts[i]? = some L → Fit tab id c i L) → ∃ x, connect tab f layouts segs = some x := by
  intro f
  induction f with
  | zero => intro id c layouts segs h; omega
  | succ f ih =>
    intro id c layouts segs hrf hc hRid hlen hfit
    have ok := htab.ctx _ _ hc
    have hok : ∀ L ∈ layouts, LayoutOk tab L := by
      intro L hL
      obtain ⟨i, hi⟩ := List.getElem?_of_mem hL
      exact (hfit i L hi).ok
    unfold connect
    cases hlay : layouts with
    | nil => rw [hlay] at hlen; simp at hlen
    | cons l0 rest =>
      simp only
      rw [← hlay]
      have h0 : l0.circ = id := (hfit 0 l0 (by rw [hlay]; rfl)).circ
      rw [h0, hc]
      simp only
      rw [if_neg (by
        rw [not_not]
        refine ⟨hlen, List.all_eq_true.2 ?_⟩
        intro i hi
        have hi := List.mem_range.1 hi
        have hf := hfit i _ (List.getElem?_eq_getElem hi)
        rw [List.getElem?_eq_getElem hi]
        simp [hf.lay, hf.circ])]
      have hget : ∀ i, i < c.outL + 1 → ∃ L, layouts[i]? = some L := fun i hi => ⟨_, List.getElem?_eq_getElem (by omega)⟩
      obtain ⟨qs, hqs⟩ := mapOpt_isSome (f := fun i => ((layouts[i]?).map (layoutQuery (c.vars.getD i []))).getD none) (l := List.range (c.outL + 1)) (by
        intro i hi
        have hi := List.mem_range.1 hi
        obtain ⟨L, hL⟩ := hget i hi
        obtain ⟨q, hq, _⟩ := layoutQuery_total (hfit i L hL) (ok.varsNodup (by omega))
        change layoutQuery (c.vars.getD i []) L = some q at hq
        rw [hL, Option.map_some, Option.getD_some, hq]; rfl)
      rw [hqs]
      simp only
      have hquery : ∀ (i : Nat) (L : Layout), layouts[i]? = some L → layoutQuery (c.varsOf i) L = some (qs.getD i []) := by
        intro i L hL
        have hi : i < layouts.length := (List.getElem?_eq_some_iff.1 hL).1
        obtain ⟨y, hy, hy'⟩ := mapOpt_get hqs (show (List.range (c.outL + 1))[i]? = some i from List.getElem?_range (by omega))
        rw [hL] at hy
        simp only [Option.map_some, Option.getD_some] at hy
        rw [List.getD_eq_getElem?_getD, hy']
        exact hy
      have hall : ∀ i, i ≤ c.outL → (i < c.outL ∨ (c.cc.getD i none).isSome) → ∀ x ∈ c.varsOf i, ((qs.getD i []).lookup x).isSome := by
        intro i hi h x hx
        obtain ⟨L, hL⟩ := hget i (by omega)
        obtain ⟨q, hq, hq2⟩ := layoutQuery_total (hfit i L hL) (ok.varsNodup (by omega))
        rw [hquery i L hL] at hq
        obtain rfl := Option.some.inj hq
        exact hq2 h x hx
      rw [if_neg (by
        rw [not_not, List.all_eq_true]
        intro i hi
        rw [List.all_eq_true]
        have hi := List.mem_range.1 hi
        exact hall i (by omega) (.inl hi))]
      obtain ⟨subls, hsl⟩ := mapOpt_isSome (f := callLayouts tab c layouts qs) (l := List.range c.prog.calls.length) (by
        intro k hk
        have hk := List.mem_range.1 hk
        obtain ⟨q, hq⟩ := calls_lt hk
        obtain ⟨s, hs⟩ := ok.sub k q hq
        have hend := ok.callEnd k q s hq hs
        unfold callLayouts
        rw [hq]
        simp only [hs]
        rw [Option.isSome_iff_exists]
        apply mapOpt_isSome
        intro j hj
        have hj := List.mem_range.1 hj
        obtain ⟨L, hL⟩ := hget (c.start k + j) (by omega)
        have hst : c.starts.getD k 0 = c.start k := rfl
        unfold subLayout
        simp only [hst, hL, Option.map_some, Option.getD_some]
        cases hl : L.subs.lookup k with
        | some x => rfl
        | none =>
          simp only
          by_cases e1 : j = s.outL
          · rw [if_pos e1, if_pos (by rw [ok.outLen k q s hq hs])]; rfl
          · rw [if_neg e1]
            by_cases e2 : j = 0
            · rw [if_pos e2]; rfl
            · have hf := hfit _ L hL
              obtain ⟨off, S, hm⟩ := hf.mid k (by
                unfold midCalls
                refine List.mem_filter.2 ⟨List.mem_range.2 hk, ?_⟩
                rw [subCtx_of hq hs]
                simp only [hst, Bool.and_eq_true, decide_eq_true_eq]
                omega)
              cases hf.ok with
              | mk c' hc' hp hs' hn hk' => rw [lookup_of_mem hk' hm] at hl; cases hl)
      rw [hsl]
      simp only
      have lv : Level tab id c layouts qs subls := by
        refine ⟨hc, hlen, fun i L hL => ⟨(hfit i L hL).lay, (hfit i L hL).circ⟩, hquery, fun i hi => hall i (by omega) (.inl hi), ?_⟩
        intro k q s hq hs
        have hk : k < c.prog.calls.length := (List.getElem?_eq_some_iff.1 hq).1
        obtain ⟨y, hy, hy'⟩ := mapOpt_get hsl (show (List.range c.prog.calls.length)[k]? = some k from List.getElem?_range hk)
        unfold callLayouts at hy
        rw [hq] at hy
        simp only [hs] at hy
        rw [List.getD_eq_getElem?_getD, hy', Option.getD_some]
        have hylen := mapOpt_length hy
        rw [List.length_range] at hylen
        refine ⟨hylen, ?_⟩
        intro j sl hj
        have hjl : j < s.outL + 1 := by rw [← hylen]; exact (List.getElem?_eq_some_iff.1 hj).1
        obtain ⟨z, hz, hz'⟩ := mapOpt_get hy (show (List.range (s.outL + 1))[j]? = some j from List.getElem?_range hjl)
        rw [hj] at hz'; cases hz'
        exact hz
      have hslen : subls.length = c.prog.calls.length := by
        have := mapOpt_length hsl
        simpa using this
      obtain ⟨⟨cids, segs1⟩, hca⟩ := connAll_total (rec := connect tab f) (subls.map fun l => l.map (·.2)) segs (by
        intro l hl sg
        obtain ⟨sl, h1, rfl⟩ := List.mem_map.1 hl
        obtain ⟨k, hk⟩ := List.getElem?_of_mem h1
        have hklt : k < c.prog.calls.length := by rw [← hslen]; exact (List.getElem?_eq_some_iff.1 hk).1
        obtain ⟨q, hq⟩ := calls_lt hklt
        obtain ⟨s, hs⟩ := ok.sub k q hq
        obtain ⟨hR', hnr⟩ := hR id c k q s hRid hc hq hs
        have hsd : subls.getD k [] = sl := by rw [List.getD_eq_getElem?_getD, hk]; rfl
        refine ih q.sub s _ sg (by have := htab.rank id c k q hc hq; omega) hs hR' ?_ ?_
        · rw [List.length_map, ← hsd]; exact (lv.sub k q s hq hs).1
        · intro j L hL
          rw [List.getElem?_map] at hL
          obtain ⟨x, hx, rfl⟩ := Option.map_eq_some_iff.1 hL
          exact sub_fit htab lv hfit hq hs hnr (by rw [hsd]; exact hx))
      rw [hca]
      simp only
      obtain ⟨gss, hgs⟩ := mapOpt_isSome (f := layerGates tab c qs (fun k j => (subls.getD k [])[j]?)) (l := List.range c.outL) (by
        intro i hi
        have hi := List.mem_range.1 hi
        rw [Option.isSome_iff_exists]
        refine layerGates_total ok lv ?_ ?_ hi
        · intro j cc hcc
          have hj : j ≤ c.outL := by
            by_contra h
            rw [ok.ccLen j (by omega)] at hcc; cases hcc
          exact hall j hj (.inr (by rw [hcc]; rfl)) _ ((ok.mem_vars hj).2 (.inl ⟨cc, hcc, rfl⟩))
        · intro k q s j cc hq hs hcc
          have oks := htab.ctx _ _ hs
          have hj : j ≤ s.outL := by
            by_contra h
            rw [oks.ccLen j (by omega)] at hcc; cases hcc
          obtain ⟨h1, _⟩ := lv.sub k q s hq hs
          have hsl : (subls.getD k [])[j]? = some ((subls.getD k [])[j]'(by omega)) := List.getElem?_eq_getElem (by omega)
          generalize ((subls.getD k [])[j]'(by omega)) = sl at hsl
          refine ⟨sl, hsl, ?_⟩
          obtain ⟨_, hnr⟩ := hR id c k q s hRid hc hq hs
          have hf := sub_fit htab lv hfit hq hs hnr hsl
          have hm := (oks.mem_vars hj).2 (.inl ⟨cc, hcc, rfl⟩)
          obtain ⟨v, hv⟩ := posOf_mem hm
          obtain ⟨p, hp⟩ := hf.all (.inr (by rw [hcc]; rfl)) v (List.getElem?_eq_some_iff.1 (posOf_spec hv)).1
          unfold ccPos
          rw [hcc]
          simp only
          change (match posOf (s.varsOf j) cc.id with | none => none | some v => _).isSome = true
          rw [hv]
          simp only [Option.isSome_map, List.find?_isSome]
          exact ⟨_, hp, by simp⟩)
      rw [hgs]
      exact ⟨_, rfl⟩

end Verif.Layering
