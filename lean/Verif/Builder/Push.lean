import Verif.Builder.Basic

/-!
# Pushing an instruction: the emitted instruction computes what was pushed
-/

set_option linter.unusedSectionVars false
set_option linter.unusedSimpArgs false

namespace Verif.Builder

open Verif.IR

variable {F : Type} [Field F] [DecidableEq F]

theorem Sem.congr {E : Env F} {ρ ρ' : Nat → F} {bd : Nat} {st : St F} {ws : List F} (hw : Wf bd st) (h : Sem E ρ st ws)
    (he : ∀ i, i < st.pool.length → ρ' i = ρ i) : Sem E ρ' st ws := by
  refine ⟨h.pool.congr hw.pool he, h.len, fun i e hi => ?_⟩
  rw [h.val i e hi]
  congr 1
  exact value_congr E ρ ρ' e (fun v hv => (he v ((hw.exprs i e hi).vars v hv)).symm)

/-- Everything a client of `push_insn` needs to know. -/
structure Pushed (st : St F) (i : HintNorm.Insn F) (st' : St F) (j : HintNorm.Insn F) : Prop where
  wf : Wf st'.exprs.length st'
  full : EtoFull st'
  pre : st.exprs <+: st'.exprs
  len : st'.exprs.length = st.exprs.length + i.numOutputs
  cons : st'.cons = st.cons
  over : st'.overwrote = st.overwrote
  insns : st'.insns = st.insns ++ [j]
  inputs : ∀ x ∈ j.inputs, x ≠ 0 ∧ x < st.exprs.length
  numOutputs : j.numOutputs = i.numOutputs
  valid : ∀ npi, i.valid npi = true → j.valid npi = true
  call : ∀ t, i.asCall = some t → j = i
  notcall : i.asCall = none → j.asCall = none
  const : ∀ c, i = .constantLike (.const c) → st'.exprs = st.exprs ++ [[⟨c, .const⟩]]
  prim : ∀ E ws, (∃ ρ, Sem E ρ st ws) → i.asCall = none →
    ∀ outs, (hintNorm E).prim i (fun v => ws[v]?) outs ↔ (hintNorm E).prim j (fun v => ws[v]?) outs
  next : ∀ (E : Env F) ws, (∃ ρ, Sem E ρ st ws) → ∀ outs, (i.asCall = none → (hintNorm E).prim i (fun v => ws[v]?) outs) →
    outs.length = i.numOutputs → ∃ ρ', Sem E ρ' st' (ws ++ outs)

theorem Wf.setInsns {bd : Nat} {st : St F} (h : Wf bd st) (is : List (HintNorm.Insn F)) : Wf bd { st with insns := is } :=
  ⟨h.pool, h.head, h.exprs, h.mto, h.eto, h.bd⟩

theorem Sem.setInsns {E : Env F} {ρ : Nat → F} {st : St F} {ws : List F} (h : Sem E ρ st ws) (is : List (HintNorm.Insn F)) :
    Sem E ρ { st with insns := is } ws := ⟨h.pool, h.len, h.val⟩

/-- Pushing an instruction with a single result that has an expression. -/
theorem expr_push {st : St F} (hw : Wf st.exprs.length st) (hf : EtoFull st) {i : HintNorm.Insn F}
    (hin : ∀ x ∈ i.inputs, x ≠ 0 ∧ x < st.exprs.length) (hc : i.asCall = none) (hn : i.numOutputs = 1)
    {p : Pool F} {e : Expr F} (hx : Ext st.pool p) (he : EOk p.length e)
    (hk : ∀ c, i = .constantLike (.const c) → e = [⟨c, .const⟩])
    (hprim : ∀ E ρ ws, Sem E ρ st ws → PoolOk E ρ p → ∀ outs, (hintNorm E).prim i (fun v => ws[v]?) outs ↔ outs = [value E ρ e]) :
    ∃ st' j, addExpr { st with insns := st.insns ++ [i] } (some (p, e)) = some st' ∧ Pushed st i st' j := by
  obtain ⟨st', j, h1, h2, h3, h4, h5, h6, h7, h8, h9⟩ := addExpr_spec (st := { st with insns := st.insns ++ [i] }) (hw.setInsns _) hf hx he rfl
  simp only at h4 h5 h6 h7
  have key : ∀ (E : Env F) ws, (∃ ρ, Sem E ρ st ws) → ∃ ρ', Sem E ρ' st ws ∧ PoolOk E ρ' st'.pool := by
    rintro E ws ⟨ρ, hs⟩
    obtain ⟨ρ', g1, g2⟩ := (hx.trans h8).extend E hw.pool hs.pool
    exact ⟨ρ', hs.congr hw g1, g2⟩
  refine ⟨st', j, h1, ⟨h2, h3, ?_, ?_, h5, h6, h7, ?_, ?_, ?_, ?_, ?_, ?_, ?_, ?_⟩⟩
  · rw [h4]; exact List.prefix_append _ _
  · rw [h4, hn]; simp
  · rcases h9 with rfl | h9
    · exact hin
    · exact h9.1
  · rcases h9 with rfl | h9
    · rfl
    · rw [h9.2.2.1, hn]
  · intro npi hv
    rcases h9 with rfl | h9
    · exact hv
    · exact h9.2.2.2.1 npi
  · intro t ht; rw [hc] at ht; cases ht
  · intro _
    rcases h9 with rfl | h9
    · exact hc
    · exact h9.2.1
  · intro c hic; rw [h4, hk c hic]
  · intro E ws hs _ outs
    rcases h9 with rfl | h9
    · rfl
    · obtain ⟨ρ', g1, g2⟩ := key E ws hs
      rw [hprim E ρ' ws g1 (g2.prefix h8.pre), h9.2.2.2.2 E ρ' ws (g1.setInsns _) g2]
  · intro E ws hs outs ho _
    obtain ⟨ρ', g1, g2⟩ := key E ws hs
    have := (hprim E ρ' ws g1 (g2.prefix h8.pre) outs).1 (ho hc)
    subst this
    refine ⟨ρ', g2, ?_, ?_⟩
    · rw [h4]; simp [g1.len]
    · intro n d hd
      rw [h4] at hd
      by_cases hlt : n < st.exprs.length
      · rw [List.getElem?_append_left hlt] at hd
        rw [List.getElem?_append_left (by rw [g1.len]; exact hlt)]
        exact g1.val n d hd
      · have hl := (List.getElem?_eq_some_iff.1 hd).1
        simp only [List.length_append, List.length_singleton] at hl
        have hn' : n = st.exprs.length := by omega
        subst hn'
        simp at hd
        subst hd
        rw [List.getElem?_append_right (by rw [g1.len])]
        simp [g1.len]

/-- Pushing an instruction whose results are fresh variables. -/
theorem fresh_push {st : St F} (hw : Wf st.exprs.length st) (hf : EtoFull st) {i : HintNorm.Insn F}
    (hin : ∀ x ∈ i.inputs, x ≠ 0 ∧ x < st.exprs.length) (hk : ∀ c, i ≠ .constantLike (.const c))
    {p : Pool F} (hx : Ext st.pool p) :
    ∃ st', addOutVars i.numOutputs { st with insns := st.insns ++ [i], pool := p } = some st' ∧ Pushed st i st' i := by
  have hw' : Wf st.exprs.length { st with insns := st.insns ++ [i], pool := p } := by
    refine ⟨hx.wf hw.pool, hw.head, fun n e he => (hw.exprs n e he).mono hx.len, ?_, hw.eto, hw.bd⟩
    intro m x k b hm
    obtain ⟨g1, g2, g3, g4, d, co, cc, g5, g6, g7, g8, g9⟩ := hw.mto _ _ _ _ hm
    exact ⟨g1, lt_of_lt_of_le g2 hx.len, g3, g4, d, co, cc, g5, g6, g7, g8, fun E ρ hρ => g9 E ρ (hρ.prefix hx.pre)⟩
  obtain ⟨st', h1, h2, h3, h4, h5, h6, h7, h8⟩ := addOutVars_spec (st := { st with insns := st.insns ++ [i], pool := p }) hw' hf i.numOutputs
  simp only at h4 h5 h6 h7 h8
  refine ⟨st', h1, ⟨h2, h3, ?_, ?_, h6, h7, h8, hin, rfl, fun _ h => h, fun _ _ => rfl, fun h => h, fun c hc => absurd hc (hk c), fun _ _ _ _ _ => Iff.rfl, ?_⟩⟩
  · rw [h4]; exact List.prefix_append _ _
  · rw [h4]; simp [fakes_length]
  · rintro E ws ⟨ρ, hs⟩ outs _ hl
    obtain ⟨ρ1, g1, g2⟩ := hx.extend E hw.pool hs.pool
    have hs1 := hs.congr hw g1
    refine ⟨fun v => if p.length ≤ v then (outs[v - p.length]?).getD 0 else ρ1 v, ?_, ?_, ?_⟩
    · rw [h5]
      have hok := g2.congr (ρ' := fun v => if p.length ≤ v then (outs[v - p.length]?).getD 0 else ρ1 v) (hx.wf hw.pool) (fun v hv => by
        have : ¬ p.length ≤ v := by omega
        simp only [this, if_false])
      intro n e he h0
      by_cases hlt : n < p.length
      · rw [List.getElem?_append_left hlt] at he
        exact hok n e he h0
      · rw [List.getElem?_append_right (by omega), fakes_get] at he
        obtain ⟨hlt', rfl⟩ := he
        rw [value_linear, mul_one]
        have : p.length + (n - p.length) = n := by omega
        rw [this]
    · rw [h4]; simp [fakes_length, hs.len, hl]
    · intro n e he
      rw [h4] at he
      by_cases hlt : n < st.exprs.length
      · rw [List.getElem?_append_left hlt] at he
        rw [List.getElem?_append_left (by rw [hs.len]; exact hlt), hs1.val n e he]
        congr 1
        refine value_congr E _ _ e (fun v hv => ?_)
        have h1 := (hw.exprs n e he).vars v hv
        have h2 := hx.len
        have : ¬ p.length ≤ v := by omega
        simp only [this, if_false]
      · rw [List.getElem?_append_right (by omega), fakes_get] at he
        obtain ⟨hlt', rfl⟩ := he
        rw [List.getElem?_append_right (by rw [hs.len]; omega), value_linear, mul_one, hs.len]
        have e1 : p.length ≤ p.length + (n - st.exprs.length) := by omega
        have e2 : p.length + (n - st.exprs.length) - p.length = n - st.exprs.length := by omega
        simp only [e1, if_true, e2]
        have : n - st.exprs.length < outs.length := by omega
        rw [List.getElem?_eq_getElem this]
        rfl

/-! ## The kinds of instructions -/

theorem exprs_read {st : St F} {xs : List Nat} (h : ∀ x ∈ xs, x ≠ 0 ∧ x < st.exprs.length) :
    ∃ es, mapOpt (fun x => st.exprs[x]?) xs = some es :=
  mapOpt_isSome (fun x hx => by simp [(h x hx).2])

theorem mem_mapOpt {α β : Type} {f : α → Option β} : ∀ {l : List α} {r : List β}, mapOpt f l = some r → ∀ b ∈ r, ∃ a ∈ l, f a = some b := by
  intro l
  induction l with
  | nil => intro r h; simp [mapOpt] at h; subst h; simp
  | cons a l ih =>
    intro r h
    obtain ⟨b, r', h1, h2, rfl⟩ := mapOpt_cons.1 h
    intro b' hb'
    rcases List.mem_cons.1 hb' with rfl | hb'
    · exact ⟨a, by simp, h1⟩
    · obtain ⟨a', ha', e⟩ := ih h2 b' hb'
      exact ⟨a', by simp [ha'], e⟩

theorem vals_read {E : Env F} {ρ : Nat → F} {st : St F} {ws : List F} (hs : Sem E ρ st ws) : ∀ {xs : List Nat} {es : List (Expr F)},
    mapOpt (fun x => st.exprs[x]?) xs = some es → mapOpt (fun x => ws[x]?) xs = some (es.map (value E ρ)) := by
  intro xs
  induction xs with
  | nil => intro es h; simp [mapOpt] at h; subst h; rfl
  | cons x xs ih =>
    intro es h
    obtain ⟨e, es', h1, h2, rfl⟩ := mapOpt_cons.1 h
    exact mapOpt_cons.2 ⟨_, _, hs.val x e h1, ih h2, rfl⟩

theorem mulLoop_spec : ∀ (es : List (Expr F)) {p : Pool F} {cur : Expr F}, PoolWF p → EOk p.length cur → (∀ e ∈ es, EOk p.length e) →
    ∃ p' r, mulLoop p cur es = some (p', r) ∧ Ext p p' ∧ EOk p'.length r ∧
      ∀ E ρ, PoolOk E ρ p' → value E ρ r = value E ρ cur * (es.map (value E ρ)).prod := by
  intro es
  induction es with
  | nil => intro p cur _ hc _; exact ⟨p, cur, rfl, Ext.refl p, hc, fun E ρ _ => by simp⟩
  | cons e es ih =>
    intro p cur hp hc he
    obtain ⟨p1, r1, h1, h2, h3, h4⟩ := mulTwo_spec hp hc (he e (by simp))
    obtain ⟨p2, r2, g1, g2, g3, g4⟩ := ih (h2.wf hp) h3 (fun d hd => (he d (by simp [hd])).mono h2.len)
    refine ⟨p2, r2, ?_, h2.trans g2, g3, fun E ρ hρ => ?_⟩
    · rw [mulLoop, h1]; exact g1
    · rw [g4 E ρ hρ, h4 E ρ (hρ.prefix g2.pre), List.map_cons, List.prod_cons, mul_assoc]

theorem foldReally_spec : ∀ (es : List (Expr F)) {p : Pool F}, PoolWF p → (∀ e ∈ es, EOk p.length e) → Ext p (es.foldl toReallySingle p) := by
  intro es
  induction es with
  | nil => intro p _ _; exact Ext.refl p
  | cons e es ih =>
    intro p hp he
    have h1 := toReallySingle_spec hp (he e (by simp))
    exact h1.trans (ih (h1.wf hp) (fun d hd => (he d (by simp [hd])).mono h1.len))

variable {srt : List (Expr F) → List (Expr F)}

theorem push_spec (hsrt : ∀ l, (srt l).Perm l) {st : St F} (hw : Wf st.exprs.length st) (hf : EtoFull st) {i : HintNorm.Insn F}
    (hin : ∀ x ∈ i.inputs, x ≠ 0 ∧ x < st.exprs.length) (hm : ∀ xs, i = .mul xs → 2 ≤ xs.length) :
    ∃ st' j, pushInsn srt st i = some st' ∧ Pushed st i st' j := by
  unfold pushInsn
  cases i with
  | hint h xs n =>
    obtain ⟨st', h1, h2⟩ := fresh_push hw hf hin (by simp) (Ext.refl st.pool)
    exact ⟨st', _, h1, h2⟩
  | customGate g xs =>
    obtain ⟨st', h1, h2⟩ := fresh_push hw hf hin (by simp) (Ext.refl st.pool)
    exact ⟨st', _, h1, h2⟩
  | call c xs n =>
    obtain ⟨es, hes⟩ := exprs_read hin
    have hok : ∀ e ∈ es, EOk st.pool.length e := by
      intro e he
      obtain ⟨x, _, hx⟩ := mem_mapOpt hes e he
      exact hw.exprs x e hx
    obtain ⟨st', h1, h2⟩ := fresh_push (i := .call c xs n) hw hf hin (by simp) (foldReally_spec es hw.pool hok)
    refine ⟨st', _, ?_, h2⟩
    simp only [executeOut, subCircuitCall]
    simp only [HintNorm.Insn.inputs] at hes
    rw [hes]
    exact h1
  | constantLike c =>
    cases c with
    | random =>
      obtain ⟨st', h1, h2⟩ := fresh_push hw hf hin (by simp) (Ext.refl st.pool)
      exact ⟨st', _, h1, h2⟩
    | pub k =>
      obtain ⟨st', h1, h2⟩ := fresh_push hw hf hin (by simp) (Ext.refl st.pool)
      exact ⟨st', _, h1, h2⟩
    | const c =>
      refine expr_push hw hf hin rfl rfl (Ext.refl _) (eok_const _ c) (fun c' h => by cases h; rfl) ?_
      intro E ρ ws _ _ outs
      rw [value_const]
      show readPrim _ _ _ _ _ ↔ _
      unfold readPrim
      simp [HintNorm.Insn.inputs, mapOpt, HintNorm.Insn.sem, Coef.Sem]
  | mul xs =>
    obtain ⟨es, hes⟩ := exprs_read hin
    have hes' : mapOpt (fun x => st.exprs[x]?) xs = some es := hes
    have hl : es.length = xs.length := mapOpt_length hes
    have hok : ∀ e ∈ srt es, EOk st.pool.length e := by
      intro e he
      obtain ⟨x, _, hx⟩ := mem_mapOpt hes e ((hsrt es).mem_iff.1 he)
      exact hw.exprs x e hx
    have hl2 : 2 ≤ (srt es).length := by rw [(hsrt es).length_eq, hl]; exact hm xs rfl
    have hpm := hsrt es
    simp only [executeOut, addMulVec, hes']
    revert hok hl2 hpm
    generalize srt es = s
    intro hok hl2 hpm
    rcases s with _ | ⟨a, _ | ⟨b, rest⟩⟩
    · simp at hl2
    · simp at hl2
    · simp only
      obtain ⟨p1, r1, h1, h2, h3, h4⟩ := mulTwo_spec hw.pool (hok a (by simp)) (hok b (by simp))
      obtain ⟨p2, r2, g1, g2, g3, g4⟩ := mulLoop_spec rest (h2.wf hw.pool) h3 (fun d hd => (hok d (by simp [hd])).mono h2.len)
      rw [h1]
      simp only [g1]
      refine expr_push hw hf hin rfl rfl (h2.trans g2) g3 (fun c' h => by cases h) ?_
      intro E ρ ws hs hρ outs
      have hv : value E ρ r2 = (es.map (value E ρ)).prod := by
        rw [g4 E ρ hρ, h4 E ρ (hρ.prefix g2.pre), ← (hpm.map (value E ρ)).prod_eq]
        simp only [List.map_cons, List.prod_cons, mul_assoc]
      rw [hv]
      show readPrim _ _ _ _ _ ↔ _
      unfold readPrim
      simp only [HintNorm.Insn.inputs, vals_read hs hes', HintNorm.Insn.sem]
      constructor
      · rintro ⟨args, h, rfl⟩; cases h; rfl
      · rintro rfl; exact ⟨_, rfl, rfl⟩
  | linComb lc =>
    have hvs : ∃ vs, mapOpt (readTerm st.exprs) lc.terms = some vs := by
      refine mapOpt_isSome (fun t ht => ?_)
      have := (hin t.1 (by simp only [HintNorm.Insn.inputs, LinComb.vars]; exact List.mem_map_of_mem ht)).2
      rw [readTerm, List.getElem?_eq_getElem this]
      rfl
    obtain ⟨vs, hvs⟩ := hvs
    have hok : ∀ x ∈ vs, EOk st.pool.length x.1 := by
      intro x hx
      obtain ⟨t, _, ht⟩ := mem_mapOpt hvs x hx
      revert ht
      unfold readTerm
      cases he : st.exprs[t.1]? with
      | none => intro ht; cases ht
      | some e => intro ht; cases ht; exact hw.exprs _ _ he
    obtain ⟨p, r, h1, h2, h3, h4⟩ := linCombInner_spec (vs := vs ++ (if lc.const = 0 then [] else [([⟨lc.const, .const⟩], 1)])) hw.pool (by
      intro x hx
      rcases List.mem_append.1 hx with hx | hx
      · exact hok x hx
      · split at hx
        · simp at hx
        · simp at hx; rw [hx]; exact eok_const _ _)
    simp only [executeOut, addLinComb]
    rw [hvs]
    simp only [h1]
    refine expr_push hw hf hin rfl rfl h2 h3 (fun c' h => by cases h) ?_
    intro E ρ ws hs hρ outs
    have hread : ∀ {ts : List (Nat × F)} {vs : List (Expr F × F)},
        mapOpt (readTerm st.exprs) ts = some vs →
        ∃ args, mapOpt (fun v => ws[v]?) (ts.map (·.1)) = some args ∧
          (List.zipWith (fun t a => a * t.2) ts args).sum = (vs.map (fun x => value E ρ x.1 * x.2)).sum := by
      intro ts
      induction ts with
      | nil => intro vs h; simp [mapOpt] at h; subst h; exact ⟨[], rfl, by simp⟩
      | cons t ts ih =>
        intro vs h
        obtain ⟨v, vs', k1, k2, rfl⟩ := mapOpt_cons.1 h
        obtain ⟨args, a1, a2⟩ := ih k2
        revert k1
        unfold readTerm
        cases he : st.exprs[t.1]? with
        | none => intro k1; cases k1
        | some e =>
          intro k1
          cases k1
          refine ⟨value E ρ e :: args, mapOpt_cons.2 ⟨_, _, hs.val _ _ he, a1, rfl⟩, ?_⟩
          simp [a2]
    obtain ⟨args, a1, a2⟩ := hread hvs
    have hv : value E ρ r = lc.evalArgs args := by
      rw [h4 E ρ hρ, LinComb.evalArgs, a2, List.map_append, List.sum_append, add_comm]
      congr 1
      split
      · rename_i h0; simp [h0]
      · simp [value_const]
    rw [hv]
    show readPrim _ _ _ _ _ ↔ _
    unfold readPrim
    simp only [HintNorm.Insn.inputs, LinComb.vars, a1, HintNorm.Insn.sem]
    constructor
    · rintro ⟨args', h, rfl⟩; cases h; rfl
    · rintro rfl; exact ⟨_, rfl, rfl⟩

end Verif.Builder
