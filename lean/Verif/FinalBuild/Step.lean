import Verif.FinalBuild.Emit
import Verif.IR.ChainsProof

/-!
# One instruction of `final_build_opt.rs`: simulation in both directions
-/

set_option linter.unusedSectionVars false
set_option linter.unusedSimpArgs false

namespace Verif.FinalBuild

open Verif.IR Verif.Builder

variable {F : Type} [Field F] [DecidableEq F]

structure StOk (n : Nat) (st : St F) : Prop where
  wf : MidsWF st.mids
  exprs : ∀ e ∈ st.exprs, GOk st.mids.length e
  outs : OutsOk n st.mids st.outs

/-- Values of the original circuit against values of the new one. -/
structure Rel (E : Env F) (ms : Mids F) (exprs : List (Expr F)) (vs ws : List F) : Prop where
  len : ws.length = ms.length
  mids : MidsOk E (asg ws) ms
  vlen : vs.length = exprs.length
  val : ∀ (v : Nat) e, exprs[v]? = some e → vs[v]? = some (value E (asg ws) e)

theorem Rel.ext {E : Env F} {ms ms' : Mids F} {exprs : List (Expr F)} {vs ws t : List F} (h : Rel E ms exprs vs ws) (hx : ∀ e ∈ exprs, GOk ms.length e)
    (hl : (ws ++ t).length = ms'.length) (hm : MidsOk E (asg (ws ++ t)) ms') : Rel E ms' exprs vs (ws ++ t) :=
  ⟨hl, hm, h.vlen, fun v e he => by
    rw [value_append E (by rw [h.len]; exact hx e (List.mem_of_getElem? he))]
    exact h.val v e he⟩

theorem Rel.push {E : Env F} {ms : Mids F} {exprs : List (Expr F)} {vs ws : List F} (h : Rel E ms exprs vs ws) (e : Expr F) :
    Rel E ms (exprs ++ [e]) (vs ++ [value E (asg ws) e]) ws := by
  refine ⟨h.len, h.mids, by simp [h.vlen], fun v e' he => ?_⟩
  by_cases hv : v < exprs.length
  · rw [List.getElem?_append_left hv] at he
    rw [List.getElem?_append_left (by rw [h.vlen]; exact hv)]
    exact h.val v e' he
  · have := (List.getElem?_eq_some_iff.1 he).1
    simp only [List.length_append, List.length_singleton] at this
    have hv : v = exprs.length := by omega
    subst hv
    simp at he
    subst he
    rw [← h.vlen]; simp

/-- Reading variables. -/
theorem args_spec {n : Nat} {exprs : List (Expr F)} (hx : ∀ e ∈ exprs, GOk n e) : ∀ (xs : List Nat), (∀ x ∈ xs, x < exprs.length) →
    ∃ es, mapOpt (fun x => exprs[x]?) xs = some es ∧ (∀ e ∈ es, GOk n e) ∧ es.length = xs.length ∧
      ∀ E ms vs ws, Rel E ms exprs vs ws → mapOpt (fun x => vs[x]?) xs = some (es.map (value E (asg ws))) := by
  intro xs
  induction xs with
  | nil => intro _; exact ⟨[], rfl, by simp, rfl, fun _ _ _ _ _ => rfl⟩
  | cons x xs ih =>
    intro h
    obtain ⟨es, h1, h2, h3, h4⟩ := ih (fun y hy => h y (by simp [hy]))
    have hlt := h x (by simp)
    have hg : exprs[x]? = some exprs[x] := List.getElem?_eq_getElem hlt
    refine ⟨exprs[x] :: es, ?_, ?_, by simp [h3], ?_⟩
    · simp [mapOpt, hg, h1]
    · intro e he
      rcases List.mem_cons.1 he with rfl | he
      · exact hx _ (List.getElem_mem _)
      · exact h2 e he
    · intro E ms vs ws hr
      simp [mapOpt, hr.val x _ hg, h4 E ms vs ws hr]

theorem singles_spec : ∀ (es : List (Expr F)) {p : Mids F}, MidsWF p → (∀ e ∈ es, GOk p.length e) →
    ∃ p' is, singles p es = some (p', is) ∧ Ext p p' ∧ (∀ i ∈ is, i ≠ 0 ∧ i < p'.length) ∧ is.length = es.length ∧
      ∀ E ρ, MidsOk E ρ p' → is.map ρ = es.map (value E ρ) := by
  intro es
  induction es with
  | nil => intro p hp _; exact ⟨p, [], rfl, Ext.refl p, by simp, rfl, fun _ _ _ => rfl⟩
  | cons e es ih =>
    intro p hp h
    obtain ⟨p1, i, a1, a2, a3, a4, a5⟩ := makeReallySingle_spec hp (h e (by simp))
    obtain ⟨p2, is, b1, b2, b3, b4, b5⟩ := ih (a2.wf hp) (fun e' he => (h e' (by simp [he])).mono a2.len)
    refine ⟨p2, i :: is, by simp [singles, a1, b1], a2.trans b2, ?_, by simp [b4], ?_⟩
    · intro j hj
      rcases List.mem_cons.1 hj with rfl | hj
      · exact ⟨a3, lt_of_lt_of_le a4 b2.len⟩
      · exact b3 j hj
    · intro E ρ hm
      simp only [List.map_cons, b5 E ρ hm, a5 E ρ (hm.prefix b2.pre)]

/-- What the callee of a call must satisfy. -/
def CallSpec {E : Env F} (get : Nat → Option (Circuit (hintLess E))) (get' : Nat → Option (Circuit (dest E true))) (i : HintLess.Insn F) : Prop :=
  ∀ d a m, i.asCall = some (d, a, m) → ∃ sub sub', get d = some sub ∧ get' d = some sub' ∧ sub.outputs.length = m ∧ sub'.outputs.length = m ∧
    ∀ ins : List F, ins.length = a.length → ∀ outs b, EvalSub get sub ins outs b ↔ EvalSub get' sub' ins outs b

/-- The effect of processing one instruction. -/
structure Step (E : Env F) (npi : Option Nat) (n : Nat) (st st' : St F) (i : HintLess.Insn F) (js : List (Dest.Insn F)) : Prop where
  ok : StOk n st'
  emits : emitted n st'.mids st'.outs = emitted n st.mids st.outs ++ js
  cnt : st'.exprs.length = st.exprs.length + i.numOutputs
  pre : st.exprs <+: st'.exprs
  insns : InsnsOk (dest E true) npi (st.mids.length - 1) js
  nv : numVars (L := dest E true) (st.mids.length - 1) js = st'.mids.length - 1
  calls : ∀ d m k, (∃ j ∈ js, ∃ a, j.asCall = some (d, a, m) ∧ a.length = k) ↔ ∃ a, i.asCall = some (d, a, m) ∧ a.length = k
  sim : ∀ (get : Nat → Option (Circuit (hintLess E))) (get' : Nat → Option (Circuit (dest E true))), CallSpec get get' i →
    ∀ vs ws, Rel E st.mids st.exprs vs ws →
      (∀ vs' b, Run (L := hintLess E) get [i] vs vs' b → ∃ ws', Run (L := dest E true) get' js ws ws' b ∧ Rel E st'.mids st'.exprs vs' ws') ∧
      (∀ ws' b, Run (L := dest E true) get' js ws ws' b → ∃ vs', Run (L := hintLess E) get [i] vs vs' b ∧ Rel E st'.mids st'.exprs vs' ws')
  norand : ∀ e, (.internal e : Dest.Insn F) ∈ js → Expr.NoRandom e ∧ e ≠ []
  rnd : (.constantLike .random : Dest.Insn F) ∈ js → i = .constantLike .random
  rel : ∀ (get : Nat → Option (Circuit (hintLess E))), CallsOk (L := hintLess E) get [i] → ∀ vs ws, Rel E st.mids st.exprs vs ws →
    ∀ vs' b, Run (L := hintLess E) get [i] vs vs' b → ∃ ws', Rel E st'.mids st'.exprs vs' ws'

theorem internals_insns {E : Env F} {npi : Option Nat} {ms ms' : Mids F} (h0 : 0 < ms.length) (he : Ext ms ms') :
    InsnsOk (dest E true) npi (ms.length - 1) (internals ms ms') ∧ numVars (L := dest E true) (ms.length - 1) (internals ms ms') = ms'.length - 1 := by
  refine he.ind (P := fun q => InsnsOk (dest E true) npi (ms.length - 1) (internals ms q) ∧ numVars (L := dest E true) (ms.length - 1) (internals ms q) = q.length - 1) ?_ ?_
  · rw [internals_self]; exact ⟨trivial, rfl⟩
  · rintro q m hq hm ⟨h1, h2⟩
    have hl := hq.len
    rw [internals_push m hq.len]
    constructor
    · refine (Chains.insnsOk_append (L := dest E true) _ _ _).2 ⟨h1, ?_⟩
      rw [h2]
      refine ⟨fun t ht => ?_, ?_, Or.inl rfl, trivial⟩
      · obtain ⟨g, _⟩ := internalExpr_spec hm
        have a1 := g.vars t ht
        have a2 := g.nz t ht
        exact ⟨by omega, a2⟩
      · cases npi <;> rfl
    · rw [numVars_append (L := dest E true), h2]
      simp only [numVars, List.foldl_cons, List.foldl_nil, Dest.Insn.numOutputs, List.length_append, List.length_singleton]
      omega

theorem internals_asCall {ms ms' : Mids F} : ∀ j ∈ internals ms ms', j.asCall = none := by
  intro j hj
  obtain ⟨m, _, rfl⟩ := List.mem_map.1 hj
  rfl

theorem internals_norand {ms ms' : Mids F} (he : Ext ms ms') : ∀ e, (.internal e : Dest.Insn F) ∈ internals ms ms' → Expr.NoRandom e ∧ e ≠ [] := by
  refine he.ind (P := fun q => ∀ e, (.internal e : Dest.Insn F) ∈ internals ms q → Expr.NoRandom e ∧ e ≠ []) (by simp [internals_self]) ?_
  intro q m hq hm ih e h
  rw [internals_push m hq.len] at h
  rcases List.mem_append.1 h with h | h
  · exact ih e h
  · rw [List.mem_singleton] at h
    cases h
    exact ⟨(internalExpr_spec hm).1.norandom, (internalExpr_spec hm).1.ne⟩

theorem internals_rnd (ms ms' : Mids F) : (.constantLike .random : Dest.Insn F) ∉ internals ms ms' := by
  intro h
  obtain ⟨m, _, h⟩ := List.mem_map.1 h
  cases h

/-- Instructions that only produce an expression. -/
theorem pure_step {E : Env F} {npi : Option Nat} {n : Nat} {st : St F} {i : HintLess.Insn F} {ms' : Mids F} {e : Expr F} (hst : StOk n st) (hi : i.asCall = none)
    (h1 : i.numOutputs = 1) (he : Ext st.mids ms') (hg : GOk ms'.length e)
    (hv : ∀ vs ws, Rel E ms' st.exprs vs ws → ∀ outs, (hintLess E).prim i (fun v => vs[v]?) outs ↔ outs = [value E (asg ws) e]) :
    Step E npi n st ⟨ms', st.exprs ++ [e], st.outs⟩ i (internals st.mids ms') := by
  obtain ⟨i1, i2⟩ := internals_insns (E := E) (npi := npi) hst.wf.pos he
  refine ⟨⟨he.wf hst.wf, ?_, hst.outs.ext he⟩, emitted_ext hst.outs he, by simp [h1], List.prefix_append _ _, i1, i2, ?_, ?_, fun e he' => internals_norand he e he', fun h => absurd h (internals_rnd st.mids ms'), ?_⟩
  · intro e' h'
    rcases List.mem_append.1 h' with h' | h'
    · exact (hst.exprs e' h').mono he.len
    · rw [List.mem_singleton.1 h']; exact hg
  · intro d m k
    constructor
    · rintro ⟨j, hj, a, ha, _⟩; rw [internals_asCall j hj] at ha; cases ha
    · rintro ⟨a, ha, _⟩; rw [hi] at ha; cases ha
  · intro get get' _ vs ws hr
    obtain ⟨⟨w1, hw1⟩, hall⟩ := ext_run (get := get') hst.wf he hr.len hr.mids
    have hrun : ∀ vs' b, Run (L := hintLess E) get [i] vs vs' b ↔ ∃ outs, (hintLess E).prim i (fun v => vs[v]?) outs ∧ vs' = vs ++ outs ∧ b = true := by
      intro vs' b
      rw [run_prim_iff (L := hintLess E) hi]
      constructor
      · rintro ⟨o, ho, h⟩; exact ⟨o, ho, (run_nil_iff (L := hintLess E)).1 h⟩
      · rintro ⟨o, ho, h⟩; exact ⟨o, ho, (run_nil_iff (L := hintLess E)).2 h⟩
    constructor
    · intro vs' b h
      obtain ⟨o, ho, rfl, rfl⟩ := (hrun _ _).1 h
      obtain ⟨_, ⟨t, rfl⟩, hl, hm⟩ := hall _ _ hw1
      have hr' := hr.ext hst.exprs hl hm
      rw [(hv _ _ hr' o).1 ho]
      exact ⟨_, hw1, hr'.push e⟩
    · intro ws' b h
      obtain ⟨rfl, ⟨t, rfl⟩, hl, hm⟩ := hall _ _ h
      have hr' := hr.ext hst.exprs hl hm
      exact ⟨_, (hrun _ _).2 ⟨_, (hv _ _ hr' _).2 rfl, rfl, rfl⟩, hr'.push e⟩
  · intro get _ vs ws hr vs' b h
    obtain ⟨⟨w1, hw1⟩, hall⟩ := ext_run (get := fun _ => none) hst.wf he hr.len hr.mids
    obtain ⟨_, ⟨t, rfl⟩, hl, hm⟩ := hall _ _ hw1
    have hr' := hr.ext hst.exprs hl hm
    obtain ⟨o, ho, h⟩ := (run_prim_iff (L := hintLess E) hi).1 h
    obtain ⟨rfl, _⟩ := (run_nil_iff (L := hintLess E)).1 h
    rw [(hv _ _ hr' o).1 ho]
    exact ⟨_, hr'.push e⟩

theorem find_own_none {ms : Mids F} (h : MidsWF ms) : find ms [⟨1, .linear ms.length⟩] false = none := by
  cases hf : find ms [⟨1, .linear ms.length⟩] false with
  | none => rfl
  | some i =>
    obtain ⟨m, h1, h2, _⟩ := find_some hf
    have hi := find_ne_zero h (by simp) hf
    have hlt := (List.getElem?_eq_some_iff.1 h1).1
    rcases h.ok i m h1 hi with hin | ho
    · have := hin.1.vars ms.length (by rw [h2]; simp [Expr.getVars, VarSpec.vars])
      omega
    · rw [ho.1] at h2
      simp at h2
      omega

/-- The own variables added at the end. -/
def ownMids (k layer : Nat) : Nat → Mids F
  | 0 => []
  | n + 1 => ⟨[⟨1, .linear k⟩], false, 1, 1, 0, layer⟩ :: ownMids (k + 1) layer n

theorem ownMids_length (layer : Nat) : ∀ (n k : Nat), (ownMids (F := F) k layer n).length = n := by
  intro n
  induction n with
  | zero => intro k; rfl
  | succ n ih => intro k; simp [ownMids, ih]

/-- The linear expressions of own variables. -/
def ownExprs (k n : Nat) : List (Expr F) := (List.range' k n).map (fun x => [⟨1, .linear x⟩])

theorem own_wf {ms : Mids F} (h : MidsWF ms) (layer : Nat) : MidsWF (ms ++ [⟨[⟨1, .linear ms.length⟩], false, 1, 1, 0, layer⟩]) := by
  refine ⟨?_, fun i m hm hi => ?_⟩
  · obtain ⟨m, h0, h1⟩ := h.zero
    exact ⟨m, by rw [List.getElem?_append_left h.pos]; exact h0, h1⟩
  · by_cases hlt : i < ms.length
    · rw [List.getElem?_append_left hlt] at hm
      exact h.ok i m hm hi
    · have := (List.getElem?_eq_some_iff.1 hm).1
      simp only [List.length_append, List.length_singleton] at this
      have : i = ms.length := by omega
      subst this
      rw [get_push] at hm
      cases hm
      exact Or.inr ⟨rfl, rfl, rfl, rfl, rfl⟩

/-- `add_in_vars` never fails; it adds variables of their own. -/
theorem addInVars_spec {E : Env F} {m : Nat} (layer : Nat) : ∀ (n : Nat) (st : St F), MidsWF st.mids → (∀ e ∈ st.exprs, GOk st.mids.length e) →
    ∃ st', addInVars st layer n = some st' ∧ MidsWF st'.mids ∧ st'.mids.length = st.mids.length + n ∧ st'.exprs.length = st.exprs.length + n ∧
      st.mids <+: st'.mids ∧ st.exprs <+: st'.exprs ∧ st'.outs = st.outs ∧
      (∀ e ∈ st'.exprs, GOk st'.mids.length e) ∧
      (OutsOk m st.mids st.outs → OutsOk m st'.mids st'.outs ∧ emitted m st'.mids st'.outs = emitted m st.mids st.outs) ∧
      (∀ vs ws res, Rel E st.mids st.exprs vs ws → res.length = n → Rel E st'.mids st'.exprs (vs ++ res) (ws ++ res)) := by
  intro n
  induction n with
  | zero =>
    intro st hw hx
    refine ⟨st, rfl, hw, rfl, rfl, List.prefix_rfl, List.prefix_rfl, rfl, hx, fun h => ⟨h, rfl⟩, fun vs ws res hr hl => ?_⟩
    rw [List.length_eq_zero_iff.1 hl]; simpa using hr
  | succ n ih =>
    intro st hw hx
    have hfn := find_own_none hw
    have hpos := hw.pos
    have hadd : addInVar st layer = some ⟨st.mids ++ [⟨[⟨1, .linear st.mids.length⟩], false, 1, 1, 0, layer⟩], st.exprs ++ [[⟨1, .linear st.mids.length⟩]], st.outs⟩ := by
      simp only [addInVar, hfn]
    have hx1 : ∀ e ∈ st.exprs ++ [([⟨1, .linear st.mids.length⟩] : Expr F)], GOk (st.mids ++ [(⟨[⟨1, .linear st.mids.length⟩], false, 1, 1, 0, layer⟩ : Mid F)]).length e := by
      intro e he
      rcases List.mem_append.1 he with he | he
      · exact (hx e he).mono (by simp)
      · rw [List.mem_singleton.1 he]; exact gok_linear (by simp) (by omega) one_ne_zero
    obtain ⟨st', a1, a2, a3, a4, a5, a6, a7, a8, a9, a10⟩ := ih ⟨_, _, st.outs⟩ (own_wf hw layer) hx1
    refine ⟨st', by rw [addInVars, hadd]; exact a1, a2, by rw [a3]; simp; omega, by rw [a4]; simp; omega, (List.prefix_append _ _).trans a5, (List.prefix_append _ _).trans a6, a7, a8, ?_, ?_⟩
    · intro ho
      have ho1 : OutsOk m (st.mids ++ [(⟨[⟨1, .linear st.mids.length⟩], false, 1, 1, 0, layer⟩ : Mid F)]) st.outs :=
        ⟨lt_of_lt_of_le ho.len (by simp), ho.sorted, fun o h => ⟨(ho.bound o h).1, le_trans (ho.bound o h).2 (by simp)⟩⟩
      obtain ⟨b1, b2⟩ := a9 ho1
      refine ⟨b1, b2.trans ?_⟩
      simp only
      rw [emitted_push ho]; simp
    · intro vs ws res hr hl
      match res, hl with
      | x :: res, hl =>
        have hv : value E (asg (ws ++ [x])) [⟨1, .linear st.mids.length⟩] = x := by
          rw [Builder.value_linear, ← hr.len, mul_one]
          exact asg_of_get (by simp)
        have h1 : Rel E (st.mids ++ [⟨[⟨1, .linear st.mids.length⟩], false, 1, 1, 0, layer⟩]) st.exprs vs (ws ++ [x]) := by
          refine hr.ext hx (by simp [hr.len]) ?_
          intro i mm hi h0
          by_cases hlt : i < st.mids.length
          · rw [List.getElem?_append_left hlt] at hi
            exact hr.mids.append _ hw hr.len i mm hi h0
          · have := (List.getElem?_eq_some_iff.1 hi).1
            simp only [List.length_append, List.length_singleton] at this
            have : i = st.mids.length := by omega
            subst this
            rw [get_push] at hi
            cases hi
            simp only
            rw [Builder.value_linear]; ring
        have h2 := h1.push [⟨1, .linear st.mids.length⟩]
        rw [hv] at h2
        have h3 := a10 _ _ res h2 (by simpa using hl)
        simpa using h3

end Verif.FinalBuild
