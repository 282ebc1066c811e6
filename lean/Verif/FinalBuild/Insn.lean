import Verif.FinalBuild.Step

/-!
# `final_build_opt.rs`: every instruction
-/

set_option linter.unusedSectionVars false
set_option linter.unusedSimpArgs false

namespace Verif.FinalBuild

open Verif.IR Verif.Builder

variable {F : Type} [Field F] [DecidableEq F]

/-- Instructions that are kept as such: their results become variables of their own. -/
theorem own_step {E : Env F} {npi : Option Nat} {n k : Nat} {st : St F} {i : HintLess.Insn F} {ms' : Mids F} (layer : Nat) {x : Dest.Insn F} (hst : StOk n st)
    (h1 : i.numOutputs = k) (hx1 : x.numOutputs = k) (he : Ext st.mids ms') (hin : ∀ t ∈ x.inputs, t < ms'.length ∧ t ≠ 0)
    (hval : validAt (dest E true) npi x = true)
    (hcalls : ∀ d m k, (∃ a, x.asCall = some (d, a, m) ∧ a.length = k) ↔ ∃ a, i.asCall = some (d, a, m) ∧ a.length = k)
    (hni : ∀ e, x ≠ .internal e) (hrnd : x = .constantLike .random → i = .constantLike .random)
    (hv : ∀ (get : Nat → Option (Circuit (hintLess E))) (get' : Nat → Option (Circuit (dest E true))), CallSpec get get' i →
      ∀ vs ws, Rel E ms' st.exprs vs ws → ∃ Q : List F → Bool → Prop,
        (∀ vs' b, Run (L := hintLess E) get [i] vs vs' b ↔ ∃ res, vs' = vs ++ res ∧ res.length = k ∧ Q res b) ∧
        (∀ ws' b, Run (L := dest E true) get' [x] ws ws' b ↔ ∃ res, ws' = ws ++ res ∧ res.length = k ∧ Q res b)) :
    ∃ st', addInVars ⟨ms', st.exprs, st.outs ++ [(ms'.length, x)]⟩ layer k = some st' ∧ Step E npi n st st' i (internals st.mids ms' ++ [x]) := by
  obtain ⟨i1, i2⟩ := internals_insns (E := E) (npi := npi) hst.wf.pos he
  have hx : ∀ e ∈ st.exprs, GOk ms'.length e := fun e h => (hst.exprs e h).mono he.len
  have hwf := he.wf hst.wf
  have hpos := hwf.pos
  obtain ⟨st', a1, a2, a3, a4, a5, a6, a7, a8, a9, a10⟩ := addInVars_spec (E := E) (m := n) layer k ⟨ms', st.exprs, st.outs ++ [(ms'.length, x)]⟩ hwf hx
  simp only at a3 a4 a5 a6 a7 a9 a10
  obtain ⟨o1, o2⟩ := emitted_out (hst.outs.ext he) x
  obtain ⟨b1, b2⟩ := a9 o2
  refine ⟨st', a1, ⟨a2, a8, b1⟩, ?_, by rw [a4, h1], a6, ?_, ?_, ?_, ?_, ?_, ?_, ?_⟩
  · rw [b2, o1, emitted_ext hst.outs he, List.append_assoc]
  · refine (Chains.insnsOk_append (L := dest E true) _ _ _).2 ⟨i1, ?_⟩
    rw [i2]
    refine ⟨fun t ht => ?_, hval, Or.inl rfl, trivial⟩
    have := hin t ht
    exact ⟨by omega, this.2⟩
  · rw [numVars_append (L := dest E true), i2, a3]
    simp only [numVars, List.foldl_cons, List.foldl_nil]
    omega
  · intro d m k'
    rw [← hcalls d m k']
    constructor
    · rintro ⟨j, hj, a, ha, hl⟩
      rcases List.mem_append.1 hj with hj | hj
      · rw [internals_asCall j hj] at ha; cases ha
      · rw [List.mem_singleton.1 hj] at ha; exact ⟨a, ha, hl⟩
    · rintro ⟨a, ha, hl⟩
      exact ⟨x, by simp, a, ha, hl⟩
  · intro get get' hcs vs ws hr
    obtain ⟨⟨w1, hw1⟩, hall⟩ := ext_run (get := get') hst.wf he hr.len hr.mids
    constructor
    · intro vs' b h
      obtain ⟨_, ⟨t, rfl⟩, hl, hm⟩ := hall _ _ hw1
      have hr' := hr.ext hst.exprs hl hm
      obtain ⟨Q, q1, q2⟩ := hv get get' hcs _ _ hr'
      obtain ⟨res, rfl, hres, hq⟩ := (q1 _ _).1 h
      exact ⟨ws ++ t ++ res, (run_append_iff (L := dest E true)).2 ⟨_, true, b, hw1, (q2 _ _).2 ⟨res, rfl, hres, hq⟩, by simp⟩, a10 _ _ res hr' hres⟩
    · intro ws' b h
      obtain ⟨w2, c1, c2, r1, r2, rfl⟩ := (run_append_iff (L := dest E true)).1 h
      obtain ⟨rfl, ⟨t, rfl⟩, hl, hm⟩ := hall _ _ r1
      have hr' := hr.ext hst.exprs hl hm
      obtain ⟨Q, q1, q2⟩ := hv get get' hcs _ _ hr'
      obtain ⟨res, rfl, hres, hq⟩ := (q2 _ _).1 r2
      exact ⟨vs ++ res, by rw [Bool.true_and]; exact (q1 _ _).2 ⟨res, rfl, hres, hq⟩, a10 _ _ res hr' hres⟩
  · intro e h
    rcases List.mem_append.1 h with h | h
    · exact internals_norand he e h
    · exact absurd (List.mem_singleton.1 h).symm (hni e)
  · intro h
    rcases List.mem_append.1 h with h | h
    · exact absurd h (internals_rnd _ _)
    · exact hrnd (List.mem_singleton.1 h).symm
  · intro get hcalls vs ws hr vs' b h
    obtain ⟨⟨w1, hw1⟩, hall⟩ := ext_run (get := fun _ => none) hst.wf he hr.len hr.mids
    obtain ⟨_, ⟨t, rfl⟩, hl, hm⟩ := hall _ _ hw1
    have hr' := hr.ext hst.exprs hl hm
    obtain ⟨res, rfl⟩ := h.prefix
    have hres := Run.length (hintLess_lawful E) hcalls h _ rfl
    simp only [numVars, List.foldl_cons, List.foldl_nil, List.length_append] at hres
    exact ⟨_, a10 _ _ res hr' (by omega)⟩

/-- `add_and_check_if_should_make_single` keeps the value whatever it decides. -/
theorem addCheck_spec {E : Env F} (cs : Costs) (ref : Nat → Ref) {npi : Option Nat} {n : Nat} {st : St F} {i : HintLess.Insn F} {ms' : Mids F} {e : Expr F} (hst : StOk n st)
    (hi : i.asCall = none) (h1 : i.numOutputs = 1) (he : Ext st.mids ms') (hg : GOk ms'.length e)
    (hv : ∀ (ms'' : Mids F), Ext ms' ms'' → ∀ vs ws, Rel E ms'' st.exprs vs ws → ∀ outs, (hintLess E).prim i (fun v => vs[v]?) outs ↔ outs = [value E (asg ws) e]) :
    ∃ st' js, addCheck cs ref st ms' e = some st' ∧ Step E npi n st st' i js := by
  unfold addCheck
  split
  · obtain ⟨p', r, s1, s2, s3, _, s5⟩ := makeSingle_spec (he.wf hst.wf) hg
    rw [s1]
    refine ⟨_, _, rfl, pure_step hst hi h1 (he.trans s2) s3 ?_⟩
    intro vs ws hr outs
    rw [s5 E (asg ws) hr.mids]
    exact hv p' s2 vs ws hr outs
  · exact ⟨_, _, rfl, pure_step hst hi h1 he hg (hv ms' (Ext.refl _))⟩

theorem linArgs_spec {n : Nat} {exprs : List (Expr F)} (hx : ∀ e ∈ exprs, GOk n e) (lc : LinComb F) (h : ∀ x ∈ lc.vars, x < exprs.length) :
    ∃ vs, linArgs exprs lc = some vs ∧ (∀ x ∈ vs, GOk n x.1) ∧
      ∀ E ms ins ws, Rel E ms exprs ins ws → ∃ args, mapOpt (fun x => ins[x]?) lc.vars = some args ∧ lc.evalArgs args = (vs.map (fun x => value E (asg ws) x.1 * x.2)).sum := by
  have key : ∀ (ts : List (Nat × F)), (∀ x ∈ ts.map (·.1), x < exprs.length) → ∃ vs, mapOpt (fun t : Nat × F => (exprs[t.1]?).map (fun e => (e, t.2))) ts = some vs ∧
      (∀ x ∈ vs, GOk n x.1) ∧ ∀ E ms ins ws, Rel E ms exprs ins ws → ∃ args, mapOpt (fun x => ins[x]?) (ts.map (·.1)) = some args ∧
        (List.zipWith (fun (t : Nat × F) a => a * t.2) ts args).sum = (vs.map (fun x => value E (asg ws) x.1 * x.2)).sum := by
    intro ts
    induction ts with
    | nil => intro _; exact ⟨[], rfl, by simp, fun _ _ _ _ _ => ⟨[], rfl, rfl⟩⟩
    | cons t ts ih =>
      intro h
      obtain ⟨vs, k1, k2, k3⟩ := ih (fun x hx => h x (by simp only [List.map_cons, List.mem_cons]; exact Or.inr hx))
      have hlt : t.1 < exprs.length := h t.1 (by simp)
      have hg : exprs[t.1]? = some exprs[t.1] := List.getElem?_eq_getElem hlt
      refine ⟨(exprs[t.1], t.2) :: vs, by simp [mapOpt, hg, k1], ?_, ?_⟩
      · intro x hxm
        rcases List.mem_cons.1 hxm with rfl | hxm
        · exact hx _ (List.getElem_mem _)
        · exact k2 x hxm
      · intro E ms ins ws hr
        obtain ⟨args, b1, b2⟩ := k3 E ms ins ws hr
        refine ⟨value E (asg ws) exprs[t.1] :: args, by simp [mapOpt, hr.val t.1 _ hg, b1], ?_⟩
        simp [b2]
  obtain ⟨vs, k1, k2, k3⟩ := key lc.terms h
  unfold linArgs
  rw [k1]
  by_cases hc : lc.const = 0
  · refine ⟨vs, by simp [hc], k2, fun E ms ins ws hr => ?_⟩
    obtain ⟨args, b1, b2⟩ := k3 E ms ins ws hr
    exact ⟨args, b1, by rw [LinComb.evalArgs, hc, b2, zero_add]⟩
  · refine ⟨vs ++ [([⟨lc.const, .const⟩], 1)], by simp [hc], ?_, fun E ms ins ws hr => ?_⟩
    · intro x hxm
      rcases List.mem_append.1 hxm with hxm | hxm
      · exact k2 x hxm
      · rw [List.mem_singleton.1 hxm]; exact gok_const n _
    · obtain ⟨args, b1, b2⟩ := k3 E ms ins ws hr
      refine ⟨args, b1, ?_⟩
      rw [LinComb.evalArgs, b2]
      simp [Builder.value_const, add_comm]

/-- What validation says about an instruction. -/
structure InsnIn (npi : Nat) (st : St F) (ol : Nat → Option Nat) (i : HintLess.Insn F) : Prop where
  inputs : ∀ t ∈ i.inputs, t < st.exprs.length
  valid : i.valid npi = true
  layers : ∀ d a m, i.asCall = some (d, a, m) → (ol d).isSome

theorem readAll_mapOpt (vs : List F) : ∀ xs, readAll vs xs = mapOpt (fun x => vs[x]?) xs := by
  intro xs
  induction xs with
  | nil => rfl
  | cons x xs ih =>
    simp only [readAll, mapOpt, ih]
    cases vs[x]? <;> cases mapOpt (fun x => vs[x]?) xs <;> rfl

theorem readAll_asg {ws : List F} : ∀ {is : List Nat}, (∀ i ∈ is, i < ws.length) → readAll ws is = some (is.map (asg ws)) := by
  intro is
  induction is with
  | nil => intro _; rfl
  | cons i is ih =>
    intro h
    simp only [readAll, get_asg (h i (by simp)), ih (fun j hj => h j (by simp [hj])), List.map_cons]

theorem prim_of_read {E : Env F} {i : HintLess.Insn F} {vs args : List F} {y : F} (hr : mapOpt (fun x => vs[x]?) i.inputs = some args)
    (hs : ∀ outs, i.sem E args outs ↔ outs = [y]) (outs : List F) : (hintLess E).prim i (fun v => vs[v]?) outs ↔ outs = [y] := by
  constructor
  · rintro ⟨args', h1, h2⟩
    rw [hr] at h1; cases h1
    exact (hs outs).1 h2
  · intro h
    exact ⟨args, hr, (hs outs).2 h⟩

theorem procInsn_spec {E : Env F} {cs : Costs} (hcs : CostOk cs) (ltE : Expr F → Expr F → Bool) (ref : Nat → Ref) (ol : Nat → Option Nat) {npi n : Nat} {st : St F}
    {i : HintLess.Insn F} (hst : StOk n st) (hi : InsnIn npi st ol i) :
    ∃ st' js, procInsn cs ltE ref ol st i = some st' ∧ Step E (some npi) n st st' i js := by
  cases i with
  | linComb lc =>
    obtain ⟨vs, l1, l2, l3⟩ := linArgs_spec hst.exprs lc hi.inputs
    obtain ⟨ms, e, m1, m2, m3, m4⟩ := linCombInner_spec hst.wf l2
    simp only [procInsn, l1, m1]
    refine addCheck_spec cs ref hst rfl rfl m2 m3 ?_
    intro ms'' hx ins ws hr outs
    obtain ⟨args, b1, b2⟩ := l3 E ms'' ins ws hr
    refine prim_of_read b1 (fun outs => ?_) outs
    simp only [HintLess.Insn.sem, b2, m4 E (asg ws) (hr.mids.prefix hx.pre)]
  | mul xs =>
    obtain ⟨es, l1, l2, l3, l4⟩ := args_spec hst.exprs xs hi.inputs
    have h2 : 2 ≤ es.length := by
      have := hi.valid
      simp only [HintLess.Insn.valid, decide_eq_true_eq] at this
      omega
    obtain ⟨ms, e, m1, m2, m3, m4⟩ := mulVec_spec hcs ltE hst.wf h2 l2
    simp only [procInsn, l1, m1]
    refine addCheck_spec cs ref hst rfl rfl m2 m3 ?_
    intro ms'' hx ins ws hr outs
    refine prim_of_read (l4 E ms'' ins ws hr) (fun outs => ?_) outs
    simp only [HintLess.Insn.sem, m4 E (asg ws) (hr.mids.prefix hx.pre)]
  | constantLike c =>
    cases c with
    | const c =>
      refine ⟨_, _, rfl, pure_step hst rfl rfl (Ext.refl _) (gok_const _ c) ?_⟩
      intro vs ws hr outs
      refine prim_of_read (args := []) rfl (fun outs => ?_) outs
      simp [HintLess.Insn.sem, Coef.Sem, Builder.value_const]
    | random =>
      have := own_step (E := E) (npi := some npi) (k := 1) (i := .constantLike .random) 1 (x := .constantLike .random) hst rfl rfl (Ext.refl _)
        (by simp [Dest.Insn.inputs]) rfl (by intro d m k; simp [Dest.Insn.asCall, HintLess.Insn.asCall]) (by intro e h; cases h) (by intro h; cases h; try rfl) ?_
      · obtain ⟨st', h1, h2⟩ := this
        exact ⟨st', _, h1, h2⟩
      · intro get get' _ vs ws hr
        refine ⟨fun res b => b = true ∧ res.length = 1, fun vs' b => ?_, fun ws' b => ?_⟩
        · rw [run_prim_iff (L := hintLess E) rfl]
          constructor
          · rintro ⟨o, ⟨args, h1, y, _, rfl⟩, h⟩
            rw [run_nil_iff (L := hintLess E)] at h
            exact ⟨[y], h.1, rfl, h.2, rfl⟩
          · rintro ⟨res, rfl, hl, rfl, _⟩
            match res, hl with
            | [y], _ => exact ⟨[y], ⟨[], rfl, y, trivial, rfl⟩, Run.nil _⟩
        · rw [run_prim_iff (L := dest E true) rfl]
          constructor
          · rintro ⟨o, ⟨y, _, rfl⟩, h⟩
            rw [run_nil_iff (L := dest E true)] at h
            exact ⟨[y], h.1, rfl, h.2, rfl⟩
          · rintro ⟨res, rfl, hl, rfl, _⟩
            match res, hl with
            | [y], _ => exact ⟨[y], ⟨y, trivial, rfl⟩, Run.nil _⟩
    | pub p =>
      have hvp := hi.valid
      have := own_step (E := E) (npi := some npi) (k := 1) (i := .constantLike (.pub p)) 1 (x := .constantLike (.pub p)) hst rfl rfl (Ext.refl _)
        (by simp [Dest.Insn.inputs]) hvp (by intro d m k; simp [Dest.Insn.asCall, HintLess.Insn.asCall]) (by intro e h; cases h) (by intro h; cases h; try rfl) ?_
      · obtain ⟨st', h1, h2⟩ := this
        exact ⟨st', _, h1, h2⟩
      · intro get get' _ vs ws hr
        refine ⟨fun res b => b = true ∧ res = [E.pub p], fun vs' b => ?_, fun ws' b => ?_⟩
        · rw [run_prim_iff (L := hintLess E) rfl]
          constructor
          · rintro ⟨o, ⟨args, h1, y, hy, rfl⟩, h⟩
            rw [run_nil_iff (L := hintLess E)] at h
            have hy : y = E.pub p := hy
            subst hy
            exact ⟨_, h.1, rfl, h.2, rfl⟩
          · rintro ⟨res, rfl, hl, rfl, rfl⟩
            exact ⟨_, ⟨[], rfl, _, rfl, rfl⟩, Run.nil _⟩
        · rw [run_prim_iff (L := dest E true) rfl]
          constructor
          · rintro ⟨o, ⟨y, hy, rfl⟩, h⟩
            rw [run_nil_iff (L := dest E true)] at h
            have hy : y = E.pub p := hy
            subst hy
            exact ⟨_, h.1, rfl, h.2, rfl⟩
          · rintro ⟨res, rfl, hl, rfl, rfl⟩
            exact ⟨_, ⟨_, rfl, rfl⟩, Run.nil _⟩
  | call c xs k =>
    obtain ⟨l, hl⟩ := Option.isSome_iff_exists.1 (hi.layers c xs k rfl)
    obtain ⟨es, l1, l2, l3, l4⟩ := args_spec hst.exprs xs hi.inputs
    obtain ⟨ms, is, m1, m2, m3, m4, m5⟩ := singles_spec es hst.wf l2
    simp only [procInsn, hl, l1, m1]
    have := own_step (E := E) (npi := some npi) (k := k) (i := .call c xs k) ((if is.isEmpty then 1 else layerOfVars ms is) + l) (x := .call c is k) hst rfl rfl m2
      (fun t ht => ⟨(m3 t ht).2, (m3 t ht).1⟩) rfl ?_ (by intro e h; cases h) (by intro h; cases h) ?_
    · obtain ⟨st', h1, h2⟩ := this
      exact ⟨st', _, h1, h2⟩
    · intro d m k'
      simp only [Dest.Insn.asCall, HintLess.Insn.asCall, Option.some.injEq, Prod.mk.injEq]
      constructor
      · rintro ⟨a, ⟨rfl, rfl, rfl⟩, rfl⟩; exact ⟨xs, ⟨rfl, rfl, rfl⟩, by rw [m4, l3]⟩
      · rintro ⟨a, ⟨rfl, rfl, rfl⟩, rfl⟩; exact ⟨is, ⟨rfl, rfl, rfl⟩, by rw [m4, l3]⟩
    · intro get get' hcsp vs ws hr
      obtain ⟨sub, sub', g1, g2, g3, g4, g5⟩ := hcsp c xs k rfl
      have hargs : readAll vs xs = some (es.map (value E (asg ws))) := by rw [readAll_mapOpt]; exact l4 E ms vs ws hr
      have hargs' : readAll ws is = some (es.map (value E (asg ws))) := by
        rw [readAll_asg (fun i hi => by rw [hr.len]; exact (m3 i hi).2), m5 E (asg ws) hr.mids]
      have hlen : (es.map (value E (asg ws))).length = xs.length := by simp [l3]
      refine ⟨fun res b => EvalSub get sub (es.map (value E (asg ws))) res b, fun vs' b => ?_, fun ws' b => ?_⟩
      · rw [run_call_iff (L := hintLess E) rfl]
        constructor
        · rintro ⟨circ, args, res, sb, b', h1, h2, h3, h4, rfl⟩
          rw [g1] at h1; cases h1
          rw [hargs] at h2; cases h2
          rw [run_nil_iff (L := hintLess E)] at h4
          obtain ⟨rfl, rfl⟩ := h4
          exact ⟨res, rfl, by rw [h3.length, g3], by rw [Bool.and_true]; exact h3⟩
        · rintro ⟨res, rfl, _, h⟩
          exact ⟨sub, _, res, b, true, g1, hargs, h, Run.nil _, by simp⟩
      · rw [run_call_iff (L := dest E true) rfl]
        constructor
        · rintro ⟨circ, args, res, sb, b', h1, h2, h3, h4, rfl⟩
          rw [g2] at h1; cases h1
          rw [hargs'] at h2; cases h2
          rw [run_nil_iff (L := dest E true)] at h4
          obtain ⟨rfl, rfl⟩ := h4
          exact ⟨res, rfl, by rw [h3.length, g4], by rw [Bool.and_true]; exact (g5 _ hlen _ _).2 h3⟩
        · rintro ⟨res, rfl, _, h⟩
          exact ⟨sub', _, res, b, true, g2, hargs', (g5 _ hlen _ _).1 h, Run.nil _, by simp⟩
  | customGate g xs =>
    obtain ⟨es, l1, l2, l3, l4⟩ := args_spec hst.exprs xs hi.inputs
    obtain ⟨ms, is, m1, m2, m3, m4, m5⟩ := singles_spec es hst.wf l2
    simp only [procInsn, l1, m1]
    have hg : GOk ms.length ([⟨1, .custom g is⟩] : Expr F) := by
      refine ⟨⟨by simp, by simp, ?_, Or.inr (by simp), ?_, ?_⟩, ?_⟩
      · intro t ht; rw [List.mem_singleton.1 ht]; rfl
      · intro t ht; rw [List.mem_singleton.1 ht]; simp
      · intro v hv; exact (m3 v (by simpa [Expr.getVars, VarSpec.vars] using hv)).2
      · intro v hv; exact (m3 v (by simpa [Expr.getVars, VarSpec.vars] using hv)).1
    refine addCheck_spec cs ref hst rfl rfl m2 hg ?_
    intro ms'' hx ins ws hr outs
    refine prim_of_read (l4 E ms'' ins ws hr) (fun outs => ?_) outs
    have := m5 E (asg ws) (hr.mids.prefix hx.pre)
    simp [HintLess.Insn.sem, value, Expr.lin, Expr.mon, ← this, Function.comp_def]

end Verif.FinalBuild
