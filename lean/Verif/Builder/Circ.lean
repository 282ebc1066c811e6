import Verif.Builder.ExpandOk

/-!
# Processing the instructions of a circuit
-/

set_option linter.unusedSectionVars false
set_option linter.unusedSimpArgs false
set_option linter.unusedVariables false

namespace Verif.Builder

open Verif.IR Verif.Hints Verif.IR.HintExport

variable {F : Type} [Field F] [DecidableEq F]

/-! ## The adversarial source language is lawful -/

theorem semAdv_replace (E : Env F) (i : Source.Insn F) (f : Nat → Nat) (a o : List F) :
    semAdv E (i.replaceVars f) a o ↔ semAdv E i a o := by
  cases i with
  | linComb lc => exact Source.sem_replace E (.linComb lc) f a o
  | mul xs => exact Source.sem_replace E (.mul xs) f a o
  | constantLike c => exact Source.sem_replace E (.constantLike c) f a o
  | call c xs n => exact Source.sem_replace E (.call c xs n) f a o
  | customGate g xs => exact Source.sem_replace E (.customGate g xs) f a o
  | isZero x => exact Source.sem_replace E (.isZero x) f a o
  | boolBinOp x y op => exact Source.sem_replace E (.boolBinOp x y op) f a o
  | hint h xs n => rfl
  | commit xs => rfl
  | div x y c => rcases a with _ | ⟨a, _ | ⟨b, _ | ⟨d, t⟩⟩⟩ <;> simp only [Source.Insn.replaceVars, semAdv, Source.Insn.sem]
  | unconstrainedBinOp x y c => rcases a with _ | ⟨a, _ | ⟨b, _ | ⟨d, t⟩⟩⟩ <;> simp only [Source.Insn.replaceVars, semAdv, Source.Insn.sem]
  | unconstrainedSelect x y c => rcases a with _ | ⟨a, _ | ⟨b, _ | ⟨d, _ | ⟨e, t⟩⟩⟩⟩ <;> simp only [Source.Insn.replaceVars, semAdv, Source.Insn.sem]
  | toBinary x n => rcases a with _ | ⟨a, _ | ⟨b, t⟩⟩ <;> simp only [Source.Insn.replaceVars, semAdv, Source.Insn.sem]

theorem adv_prim_replace (E : Env F) (i : Source.Insn F) (f : Nat → Nat) (val : Nat → Option F) (outs : List F) :
    (sourceAdv E).prim (i.replaceVars f) val outs ↔ (sourceAdv E).prim i (fun v => val (f v)) outs := by
  refine readPrim_replace ?_ (semAdv_replace E i f) val outs
  cases i <;> simp [Source.Insn.replaceVars, Source.Insn.inputs, LinComb.vars_replace]

/-! ## The state while processing -/

/-- What holds of the builder between two instructions. -/
structure PsOk (ps : PSt F) : Prop where
  wf : Wf ps.st.exprs.length ps.st
  full : EtoFull ps.st
  cok : ConsOk ps.st
  ito : ∀ v, v ≠ 0 → v < ps.ito.length → vmGet ps.ito v ≠ 0 ∧ vmGet ps.ito v < ps.st.exprs.length

/-- One processed instruction. -/
structure Step (cn : Canon F) (srt : List (Expr F) → List (Expr F)) (npi : Nat) (ps : PSt F) (i : Source.Insn F) (ps' : PSt F) (js : List (HintNorm.Insn F))
    (es : List (Ev F)) (vars : List Nat) : Prop where
  ok : PsOk ps
  ok' : PsOk ps'
  inp : ∀ x ∈ i.inputs, x ≠ 0 ∧ x < ps.ito.length
  exp : expand cn (constOf ps.st) ps.st.exprs.length (i.replaceVars (vmGet ps.ito)) = some (es, vars)
  eok : ExpOk npi ps.st.exprs.length (i.replaceVars (vmGet ps.ito)) es vars
  exe : exec srt ps.st es = some ps'.st
  exd : Execd npi ps.st es ps'.st js
  ito : ps'.ito = ps.ito ++ vars

/-- A processed list of instructions. -/
inductive Steps (cn : Canon F) (srt : List (Expr F) → List (Expr F)) (npi : Nat) : PSt F → List (Source.Insn F) → PSt F → List (HintNorm.Insn F) → Prop
  | nil (ps : PSt F) (h : PsOk ps) : Steps cn srt npi ps [] ps []
  | cons {ps i ps1 j1 es vars is ps2 j2} (h : Step cn srt npi ps i ps1 j1 es vars) (hs : Steps cn srt npi ps1 is ps2 j2) :
      Steps cn srt npi ps (i :: is) ps2 (j1 ++ j2)

variable {cn : Canon F} {srt : List (Expr F) → List (Expr F)} {npi : Nat}

theorem vmGet_append_right {a b : List Nat} {v : Nat} (h : a.length ≤ v) : vmGet (a ++ b) v = vmGet b (v - a.length) := by
  simp only [vmGet]; rw [List.getElem?_append_right h]

theorem vmGet_mem {b : List Nat} {v : Nat} (h : v < b.length) : vmGet b v ∈ b := by
  simp only [vmGet, List.getElem?_eq_getElem h, Option.getD_some]; exact List.getElem_mem h

theorem PsOk.grow {ps : PSt F} {st' : St F} {vars : List Nat} (h : PsOk ps) (hw : Wf st'.exprs.length st') (hf : EtoFull st') (hc : ConsOk st')
    (hl : ps.st.exprs.length ≤ st'.exprs.length) (hv : ∀ v ∈ vars, v ≠ 0 ∧ v < st'.exprs.length) : PsOk ⟨st', ps.ito ++ vars⟩ := by
  refine ⟨hw, hf, hc, fun v h0 hv' => ?_⟩
  simp only [List.length_append] at hv'
  by_cases hlt : v < ps.ito.length
  · rw [vmGet_append_left hlt]
    have := h.ito v h0 hlt
    exact ⟨this.1, by simp only; omega⟩
  · rw [vmGet_append_right (by omega)]
    exact hv _ (vmGet_mem (by omega))

theorem processInsn_spec (hsrt : ∀ l, (srt l).Perm l) {ps : PSt F} (hp : PsOk ps) {i : Source.Insn F} (hin : ∀ x ∈ i.inputs, x ≠ 0 ∧ x < ps.ito.length)
    (hv : i.valid npi = true) : processInsn cn srt ps i = .userError ∨ ∃ ps' es vars js, processInsn cn srt ps i = .ok ps' ∧ Step cn srt npi ps i ps' js es vars := by
  unfold processInsn
  have hlaw := source_lawful (F := F) ⟨fun _ => 0, fun _ _ => 0, fun _ _ n o => o.length = n, cn⟩ (fun _ _ _ _ h => h)
  cases he : expand cn (constOf ps.st) ps.st.exprs.length (i.replaceVars (vmGet ps.ito)) with
  | none => left; rfl
  | some r =>
    obtain ⟨es, vars⟩ := r
    right
    have hin' : ∀ x ∈ (i.replaceVars (vmGet ps.ito)).inputs, x ≠ 0 ∧ x < ps.st.exprs.length := by
      intro x hx
      have := hlaw.inputs_replace i (vmGet ps.ito)
      simp only at this
      rw [this] at hx
      obtain ⟨y, hy, rfl⟩ := List.mem_map.1 hx
      exact hp.ito y (hin y hy).1 (hin y hy).2
    have hv' : (i.replaceVars (vmGet ps.ito)).valid npi = true := by
      have := hlaw.valid_replace npi i (vmGet ps.ito)
      simp only at this
      rw [this]; exact hv
    have heok := expand_ok hp.wf.pos hin' hv' he
    obtain ⟨st', js, h1, h2⟩ := exec_spec hsrt es hp.wf hp.full hp.cok heok.evs
    have hnum : vars.length = i.numOutputs := by
      rw [heok.len]; exact hlaw.numOutputs_replace i (vmGet ps.ito)
    refine ⟨⟨st', ps.ito ++ vars⟩, es, vars, js, ?_, ?_⟩
    · simp only [h1, hnum, if_true]
    · exact ⟨hp, hp.grow h2.wf h2.full h2.cok h2.pre.length_le (fun v hv => by rw [h2.len]; exact heok.res v hv), hin, he, heok, h1, h2, rfl⟩

theorem Step.len {ps ps' : PSt F} {i : Source.Insn F} {js es vars} (h : Step cn srt npi ps i ps' js es vars) :
    ps'.ito.length = ps.ito.length + i.numOutputs := by
  rw [h.ito, List.length_append, h.eok.len]
  congr 1
  cases i <;> rfl

theorem processInsns_spec (hsrt : ∀ l, (srt l).Perm l) {E : Env F} : ∀ (is : List (Source.Insn F)) {ps : PSt F}, PsOk ps → 0 < ps.ito.length →
    InsnsOk (source E) (some npi) (ps.ito.length - 1) is →
    processInsns cn srt ps is = .userError ∨ ∃ ps' js, processInsns cn srt ps is = .ok ps' ∧ Steps cn srt npi ps is ps' js := by
  intro is
  induction is with
  | nil => intro ps hp _ _; right; exact ⟨ps, [], rfl, .nil ps hp⟩
  | cons i is ih =>
    intro ps hp hpos ho
    obtain ⟨h1, h2, _, h4⟩ := ho
    have hin : ∀ x ∈ i.inputs, x ≠ 0 ∧ x < ps.ito.length := by
      intro x hx
      have := h1 x hx
      exact ⟨this.2, by omega⟩
    rcases processInsn_spec (cn := cn) (npi := npi) hsrt hp hin h2 with he | ⟨ps1, es, vars, j1, he, hs⟩
    · left; simp only [processInsns, he]
    · have hl := hs.len
      rcases ih hs.ok' (by omega) (by
        have e : ps1.ito.length - 1 = ps.ito.length - 1 + i.numOutputs := by omega
        rw [e]; exact h4) with he2 | ⟨ps2, j2, he2, hs2⟩
      · left; simp only [processInsns, he, he2]
      · right; exact ⟨ps2, j1 ++ j2, by simp only [processInsns, he, he2], .cons hs hs2⟩

/-- The requests of a processed list. -/
theorem Steps.execd {ps ps' : PSt F} {is : List (Source.Insn F)} {js : List (HintNorm.Insn F)} (h : Steps cn srt npi ps is ps' js) :
    PsOk ps ∧ PsOk ps' ∧ ∃ es, Execd npi ps.st es ps'.st js ∧
      ∀ c xs k, HintNorm.Insn.call c xs k ∈ pushes es → ∃ ys, Source.Insn.call c ys k ∈ is ∧ xs.length = ys.length := by
  induction h with
  | nil ps h => exact ⟨h, h, [], .nil h.wf h.full h.cok, by simp [pushes]⟩
  | cons h hs ih =>
    rename_i ps i ps1 j1 es vars is ps2 j2
    obtain ⟨_, h2, es2, h3, h4⟩ := ih
    refine ⟨h.ok, h2, es ++ es2, h.exd.trans h.ok.wf.pos h3, ?_⟩
    intro c xs k hm
    rw [pushes_append] at hm
    rcases List.mem_append.1 hm with hm | hm
    · cases hc : i.asCall with
      | none =>
        have : (i.replaceVars (vmGet ps.ito)).asCall = none := by cases i <;> first | rfl | simp [Source.Insn.asCall] at hc
        have := h.eok.prim this _ hm
        simp [HintNorm.Insn.asCall] at this
      | some t =>
        obtain ⟨c', ys, k'⟩ := t
        cases i with
        | call c'' ys'' k'' =>
          obtain ⟨rfl, _⟩ := h.eok.call c'' (ys''.map (vmGet ps.ito)) k'' rfl
          simp only [pushes, List.mem_singleton, HintNorm.Insn.call.injEq] at hm
          obtain ⟨rfl, rfl, rfl⟩ := hm
          exact ⟨ys'', by simp, by simp⟩
        | _ => simp [Source.Insn.asCall] at hc
    · obtain ⟨ys, h5, h6⟩ := h4 c xs k hm
      exact ⟨ys, by simp [h5], h6⟩

theorem Steps.len {ps ps' : PSt F} {is : List (Source.Insn F)} {js : List (HintNorm.Insn F)} (h : Steps cn srt npi ps is ps' js) (E : Env F) :
    ps'.ito.length = numVars (L := source E) ps.ito.length is := by
  induction h with
  | nil ps h => rfl
  | cons h hs ih => rw [ih, h.len]; rfl

theorem Steps.itoPrefix {ps ps' : PSt F} {is : List (Source.Insn F)} {js : List (HintNorm.Insn F)} (h : Steps cn srt npi ps is ps' js) :
    ps.ito <+: ps'.ito := by
  induction h with
  | nil ps h => exact List.prefix_rfl
  | cons h hs ih => exact List.IsPrefix.trans ⟨_, h.ito.symm⟩ ih

/-! ## Values -/

/-- The variables with expression `e` are zero. -/
def Zero0 (st : St F) (ws : List F) (e : Expr F) : Prop := ∀ v : Nat, st.exprs[v]? = some e → ws[v]? = some 0

/-- Every recorded constraint holds. -/
def AllZero (st : St F) (ws : List F) : Prop := ∀ e s, st.cons.lookup e = some s → Zero0 st ws e

/-- The marked constraints hold. -/
def MarkZero (st : St F) (ws : List F) : Prop := ∀ e, st.cons.lookup e = some false → Zero0 st ws e

/-- Every constraint that will be emitted holds, and if an assertion has been overwritten, so do the marked ones. -/
def Fin (st : St F) (ws : List F) : Prop :=
  ∀ e, (st.cons.lookup e = some true ∨ (st.cons.lookup e = some false ∧ st.overwrote = true)) → Zero0 st ws e

theorem zero_of_var {E : Env F} {st : St F} {ws : List F} (hs : ∃ ρ, Sem E ρ st ws) {e : Expr F} {m : Nat} (hm : st.exprs[m]? = some e)
    (h0 : ws[m]? = some 0) : Zero0 st ws e := by
  obtain ⟨ρ, hs⟩ := hs
  intro v hv
  rw [hs.val v e hv, ← hs.val m e hm, h0]

/-- A later state gives the same meaning to an expression. -/
theorem Zero0.fwd {E : Env F} {es : List (Ev F)} {st st' : St F} {js} {ws t : List F} (h : Execd npi st es st' js) (hc : ConsOk st) {e : Expr F} {s : Bool}
    (he : st.cons.lookup e = some s) (hz : Zero0 st ws e) (hs : ∃ ρ, Sem E ρ st' (ws ++ t)) : Zero0 st' (ws ++ t) e := by
  obtain ⟨v, h0, hv⟩ := hc.var e s (lookup_mem he)
  exact zero_of_var hs (prefix_get h.pre hv) (getElem?_app_some (hz v hv))

theorem Fin.back {E : Env F} {es : List (Ev F)} {st st' : St F} {js} {ws t : List F} (h : Execd npi st es st' js) (hl : ws.length = st.exprs.length)
    (hf : Fin st' (ws ++ t)) : Fin st ws := by
  intro e he v hv
  have hlt := (List.getElem?_eq_some_iff.1 hv).1
  have hz : (ws ++ t)[v]? = some 0 := by
    refine hf e ?_ v (prefix_get h.pre hv)
    rcases he with he | ⟨he, ho⟩
    · rcases h.persTrue e he with g | g
      · exact .inl g
      · exact .inr g
    · right
      refine ⟨h.persFalse e he, ?_⟩
      cases hov : st'.overwrote with
      | true => rfl
      | false => rw [h.over hov] at ho; cases ho
  rw [List.getElem?_append_left (by omega)] at hz
  exact hz

theorem AllZero.step {E : Env F} {es : List (Ev F)} {st st' : St F} {js} {ws t : List F} (h : Execd npi st es st' js) (hc : ConsOk st)
    (hs : ∃ ρ, Sem E ρ st' (ws ++ t)) (hz : AllZero st ws) (hnew : ∀ v, v ∈ asserts es ∨ v ∈ marks es → (ws ++ t)[v]? = some 0) : AllZero st' (ws ++ t) := by
  intro e s he
  rcases h.origin e s he with g | ⟨_, v, hv, _, hx⟩ | ⟨_, v, hv, _, hx⟩
  · exact (hz e s g).fwd h hc g hs
  · exact zero_of_var hs hx (hnew v (.inl hv))
  · exact zero_of_var hs hx (hnew v (.inr hv))

theorem MarkZero.step {E : Env F} {es : List (Ev F)} {st st' : St F} {js} {ws t : List F} (h : Execd npi st es st' js) (hc : ConsOk st)
    (hs : ∃ ρ, Sem E ρ st' (ws ++ t)) (hz : MarkZero st ws) (hnew : ∀ v ∈ marks es, (ws ++ t)[v]? = some 0) : MarkZero st' (ws ++ t) := by
  intro e he
  rcases h.origin e false he with g | ⟨h, _⟩ | ⟨_, v, hv, _, hx⟩
  · exact (hz e g).fwd h hc g hs
  · cases h
  · exact zero_of_var hs hx (hnew v hv)

theorem exec_append (st : St F) (a b : List (Ev F)) : exec srt st (a ++ b) = (exec srt st a).bind (fun s => exec srt s b) := by
  induction a generalizing st with
  | nil => rfl
  | cons e a ih =>
    simp only [List.cons_append, exec]
    cases exec1 srt st e with
    | none => rfl
    | some s => exact ih s

/-- If what is emitted holds, all assertions of the requests hold. -/
theorem asserts_zero (hsrt : ∀ l, (srt l).Perm l) {E : Env F} {st st' : St F} {js} {es : List (Ev F)} {ws t : List F} (hw : Wf st.exprs.length st) (hf : EtoFull st) (hc : ConsOk st)
    (h : Execd npi st es st' js) (hev : EvsOk npi st.exprs.length es) (hex : exec srt st es = some st')
    (hsplit : ∃ e1 e2, es = e1 ++ e2 ∧ marks e1 = [] ∧ asserts e2 = []) (hs : ∃ ρ, Sem E ρ st' (ws ++ t)) (hm : MarkZero st ws) (hfin : Fin st' (ws ++ t)) :
    ∀ v ∈ asserts es, (ws ++ t)[v]? = some 0 := by
  obtain ⟨e1, e2, rfl, m1, a2⟩ := hsplit
  obtain ⟨o1, o2⟩ := evsOk_append.1 hev
  obtain ⟨sa, ja, x1, d1⟩ := exec_spec hsrt e1 hw hf hc o1
  rw [← d1.len] at o2
  obtain ⟨sb, jb, x2, d2⟩ := exec_spec hsrt e2 d1.wf d1.full d1.cok o2
  have : sb = st' := by
    rw [exec_append, x1] at hex
    simp only [Option.bind_some] at hex
    rw [x2] at hex
    exact Option.some.inj hex
  subst this
  intro v hv
  rw [asserts_append, a2, List.append_nil] at hv
  have hlt := d1.inRange v (.inl hv)
  have hx : sa.exprs[v]? = some sa.exprs[v] := List.getElem?_eq_getElem hlt
  generalize sa.exprs[v] = e at hx
  have hx' := prefix_get d2.pre hx
  rcases d1.asserted m1 v hv e hx with g | g
  · refine hfin e ?_ v hx'
    rcases d2.persTrue e g with g | g
    · exact .inl g
    · exact .inr g
  · exact (hm e g).fwd h hc g hs v hx'

theorem Rel.vars {ito vars : List Nat} {vs ws outs : List F} (h : Rel ito vs ws) (hr : readAll ws vars = some outs) : Rel (ito ++ vars) (vs ++ outs) ws := by
  have hl := readAll_length hr
  refine ⟨by simp [h.len, hl], fun v hv => ?_⟩
  simp only [List.length_append] at hv
  by_cases hlt : v < vs.length
  · rw [vmGet_append_left (by rw [h.len]; exact hlt), h.val v hlt, List.getElem?_append_left hlt]
  · rw [vmGet_append_right (by rw [h.len]; omega), List.getElem?_append_right (by omega), h.len]
    obtain ⟨_, h2⟩ := readAll_eq_some_iff.1 hr
    have hv' : v - vs.length < vars.length := by omega
    have := (h2 (v - vs.length) vars[v - vs.length] (List.getElem?_eq_getElem hv')).2
    rw [this]
    simp [vmGet, List.getElem?_eq_getElem hv']

theorem constOf_val {E : Env F} {st : St F} {ws : List F} (hs : ∃ ρ, Sem E ρ st ws) : ∀ v c, constOf st v = some c → ws[v]? = some c := by
  obtain ⟨ρ, hs⟩ := hs
  intro v c h
  unfold constOf at h
  obtain ⟨e, he, hc⟩ := Option.bind_eq_some_iff.1 h
  rw [hs.val v e he, value_constValue E ρ hc]

section Complete
variable {E : Env F} {getS : Nat → Option (Circuit (source E))} {get : Nat → Option (Circuit (hintNorm E))}

/-- The calls of a list have callees whose images behave the same. -/
def SubComplete (getS : Nat → Option (Circuit (source E))) (get : Nat → Option (Circuit (hintNorm E))) (is : List (Source.Insn F)) : Prop :=
  ∀ c xs k, Source.Insn.call c xs k ∈ is → ∀ circ, getS c = some circ → ∃ circ', get c = some circ' ∧ circ'.outputs.length = k ∧
    ∀ ins outs b, ins.length = xs.length → EvalSub getS circ ins outs b → EvalSub get circ' ins outs b

theorem steps_complete (hE : E.HintLen) (hB : E.Builtin) {ps ps' : PSt F} {is : List (Source.Insn F)} {js : List (HintNorm.Insn F)}
    (h : Steps E.canon srt npi ps is ps' js) (hsub : SubComplete getS get is)
    (hlen : ∀ c xs k, Source.Insn.call c xs k ∈ is → ∀ circ', get c = some circ' → circ'.outputs.length = k) :
    ∀ {vs ws vs' : List F} {b : Bool}, (∃ ρ, Sem E ρ ps.st ws) → Rel ps.ito vs ws → AllZero ps.st ws → Run getS is vs vs' b →
    ∃ ws', Run get js ws ws' b ∧ (∃ ρ, Sem E ρ ps'.st ws') ∧ Rel ps'.ito vs' ws' ∧ AllZero ps'.st ws' := by
  have hlaw := source_lawful E hE
  induction h with
  | nil ps hp =>
    intro vs ws vs' b hs hr hz hrun
    obtain ⟨rfl, rfl⟩ := run_nil_iff.1 hrun
    exact ⟨ws, .nil _, hs, hr, hz⟩
  | cons hst hs ih =>
    rename_i ps i ps1 j1 es vars is ps2 j2
    intro vs ws vs' b hsem hr hz hrun
    have ih' := fun {vs ws vs' : List F} {b : Bool} => ih (fun c xs k hm => hsub c xs k (by simp [hm])) (fun c xs k hm => hlen c xs k (by simp [hm])) (vs := vs) (ws := ws) (vs' := vs') (b := b)
    have hwl : ws.length = ps.st.exprs.length := by obtain ⟨ρ, hs⟩ := hsem; exact hs.len
    cases hc : i.asCall with
    | none =>
      obtain ⟨outs, hp, hrun⟩ := (run_prim_iff (L := source E) hc).1 hrun
      have hc' : (i.replaceVars (vmGet ps.ito)).asCall = none := by cases i <;> first | rfl | simp [Source.Insn.asCall] at hc
      have hp' : (source E).prim (i.replaceVars (vmGet ps.ito)) (fun v => ws[v]?) outs := by
        refine (hlaw.prim_replace i _ _ _ hc).2 (hlaw.prim_local i _ _ _ hc ?_ hp)
        intro v hv
        exact (hr.val v (by rw [← hr.len]; exact (hst.inp v hv).2)).symm
      have hexp := hst.exp
      rw [← hwl] at hexp
      obtain ⟨t, g1, g2, g3⟩ := expand_complete (get := get) hE hB hc' (constOf_val hsem) hexp hp'
      have hrr := hst.exd.run E get ws hE hsem (fun c xs k hm => by
        have := hst.eok.prim hc' _ hm
        simp [HintNorm.Insn.asCall] at this) (ws ++ t) true
      have g1' := hrr.1.1 g1
      have hsem1 := hrr.2 g1'
      have hr1 : Rel ps1.ito (vs ++ outs) (ws ++ t) := by rw [hst.ito]; exact Rel.vars hr.extend g2
      obtain ⟨ws', q1, q2, q3, q4⟩ := ih' hsem1 hr1 (hz.step hst.exd hst.ok.cok hsem1 g3) hrun
      exact ⟨ws', run_append_iff.2 ⟨_, true, b, g1', q1, by simp⟩, q2, q3, q4⟩
    | some tt =>
      cases i with
      | call c xs k =>
        obtain ⟨circ, args, res, sb, b', r1, r2, r3, r4, rfl⟩ := (run_call_iff (L := source E) (i := Source.Insn.call c xs k) rfl).1 hrun
        obtain ⟨circ', s1, s2, s3⟩ := hsub c xs k (by simp) circ r1
        obtain ⟨rfl, rfl⟩ := hst.eok.call c (xs.map (vmGet ps.ito)) k rfl
        have hread : readAll ws (xs.map (vmGet ps.ito)) = some args := by
          rw [hr.reads (fun v hv => by rw [← hr.len]; exact (hst.inp v hv).2)]; exact r2
        have g1 : Run get (pushes [Ev.push (HintNorm.Insn.call c (xs.map (vmGet ps.ito)) k)]) ws (ws ++ res) sb :=
          (run_call_iff (L := hintNorm E) rfl).2 ⟨circ', args, res, sb, true, s1, hread, s3 _ _ _ (readAll_length r2) r3, .nil _, by simp⟩
        have hrr := hst.exd.run E get ws hE hsem (fun c' xs' k' hm => by
          simp only [pushes, List.mem_singleton, HintNorm.Insn.call.injEq] at hm
          obtain ⟨rfl, rfl, rfl⟩ := hm
          exact hlen _ xs _ (by simp)) (ws ++ res) sb
        have g1' := hrr.1.1 g1
        have hsem1 := hrr.2 g1'
        have hres : res.length = k := by rw [(s3 _ _ _ (readAll_length r2) r3).length, s2]
        have hr1 : Rel ps1.ito (vs ++ res) (ws ++ res) := by
          rw [hst.ito]
          refine Rel.vars hr.extend ?_
          have := read_new ws res []
          rw [List.append_nil, hres, hwl] at this
          exact this
        obtain ⟨ws', q1, q2, q3, q4⟩ := ih' hsem1 hr1 (hz.step hst.exd hst.ok.cok hsem1 (by simp [asserts, marks])) r4
        exact ⟨ws', run_append_iff.2 ⟨_, sb, b', g1', q1, rfl⟩, q2, q3, q4⟩
      | _ => simp [Source.Insn.asCall] at hc

end Complete

section Sound
variable {E : Env F} {getS : Nat → Option (Circuit (sourceAdv E))} {get : Nat → Option (Circuit (hintNorm E))}

/-- The calls of a list have callees whose images satisfy no more than they do. -/
def SubSound (getS : Nat → Option (Circuit (sourceAdv E))) (get : Nat → Option (Circuit (hintNorm E))) (is : List (Source.Insn F)) : Prop :=
  ∀ c xs k, Source.Insn.call c xs k ∈ is → ∀ circ', get c = some circ' → circ'.outputs.length = k ∧ ∃ circ, getS c = some circ ∧
    ∀ ins outs, ins.length = xs.length → EvalSub get circ' ins outs true → EvalSub getS circ ins outs true

/-- In fields where every element is a bit, the marked constraints hold whatever the prover does. -/
theorem steps_gf2 (h2 : ∀ x : F, x * x = x) (hE : E.HintLen) {ps ps' : PSt F} {is : List (Source.Insn F)} {js : List (HintNorm.Insn F)}
    (h : Steps cn srt npi ps is ps' js) (hlen : ∀ c xs k, Source.Insn.call c xs k ∈ is → ∀ circ', get c = some circ' → circ'.outputs.length = k) :
    ∀ {ws ws' : List F} {b : Bool}, (∃ ρ, Sem E ρ ps.st ws) → MarkZero ps.st ws → Run get js ws ws' b →
    (∃ ρ, Sem E ρ ps'.st ws') ∧ MarkZero ps'.st ws' := by
  induction h with
  | nil ps hp =>
    intro ws ws' b hs hz hrun
    obtain ⟨rfl, rfl⟩ := run_nil_iff.1 hrun
    exact ⟨hs, hz⟩
  | cons hst hs ih =>
    rename_i ps i ps1 j1 es vars is ps2 j2
    intro ws ws' b hsem hz hrun
    have hwl : ws.length = ps.st.exprs.length := by obtain ⟨ρ, hs⟩ := hsem; exact hs.len
    obtain ⟨w1, b1, b2, r1, r2, rfl⟩ := run_append_iff.1 hrun
    obtain ⟨t, rfl⟩ := r1.prefix
    refine ih (fun c xs k hm => hlen c xs k (by simp [hm])) ?_ ?_ r2
    · refine (hst.exd.run E get ws hE hsem (fun c' xs' k' hm => ?_) (ws ++ t) b1).2 r1
      cases hc : i.asCall with
      | none =>
        have hc' : (i.replaceVars (vmGet ps.ito)).asCall = none := by cases i <;> first | rfl | simp [Source.Insn.asCall] at hc
        have := hst.eok.prim hc' _ hm
        simp [HintNorm.Insn.asCall] at this
      | some tt =>
        cases i with
        | call c xs k =>
          obtain ⟨rfl, rfl⟩ := hst.eok.call c (xs.map (vmGet ps.ito)) k rfl
          simp only [pushes, List.mem_singleton, HintNorm.Insn.call.injEq] at hm
          obtain ⟨rfl, rfl, rfl⟩ := hm
          exact hlen _ xs _ (by simp)
        | _ => simp [Source.Insn.asCall] at hc
    · cases hc : i.asCall with
      | none =>
        have hc' : (i.replaceVars (vmGet ps.ito)).asCall = none := by cases i <;> first | rfl | simp [Source.Insn.asCall] at hc
        have hrr := hst.exd.run E get ws hE hsem (fun c xs k hm => by
          have := hst.eok.prim hc' _ hm
          simp [HintNorm.Insn.asCall] at this) (ws ++ t) b1
        have hexp := hst.exp
        rw [← hwl] at hexp
        have hin' : ∀ x ∈ (i.replaceVars (vmGet ps.ito)).inputs, x < ws.length := by
          intro x hx
          have e := (source_lawful E hE).inputs_replace i (vmGet ps.ito)
          simp only at e
          rw [e] at hx
          obtain ⟨y, hy, rfl⟩ := List.mem_map.1 hx
          rw [hwl]
          exact (hst.ok.ito y (hst.inp y hy).1 (hst.inp y hy).2).2
        have := (expand_sound (get := get) hE cn hc' hin' (constOf_val hsem) hexp (hrr.1.2 r1)).2.1 h2
        exact hz.step hst.exd hst.ok.cok (hrr.2 r1) this
      | some tt =>
        cases i with
        | call c xs k =>
          obtain ⟨rfl, rfl⟩ := hst.eok.call c (xs.map (vmGet ps.ito)) k rfl
          have hrr := hst.exd.run E get ws hE hsem (fun c' xs' k' hm => by
            simp only [pushes, List.mem_singleton, HintNorm.Insn.call.injEq] at hm
            obtain ⟨rfl, rfl, rfl⟩ := hm
            exact hlen _ xs _ (by simp)) (ws ++ t) b1
          exact hz.step hst.exd hst.ok.cok (hrr.2 r1) (by simp [marks])
        | _ => simp [Source.Insn.asCall] at hc

theorem steps_sound (hsrt : ∀ l, (srt l).Perm l) (hE : E.HintLen) {ps ps' : PSt F} {is : List (Source.Insn F)} {js : List (HintNorm.Insn F)}
    (h : Steps cn srt npi ps is ps' js) (hsub : SubSound getS get is) :
    ∀ {vs ws ws' : List F}, (∃ ρ, Sem E ρ ps.st ws) → Rel ps.ito vs ws → MarkZero ps.st ws → Run get js ws ws' true → Fin ps'.st ws' →
    ∃ vs', Run getS is vs vs' true ∧ (∃ ρ, Sem E ρ ps'.st ws') ∧ Rel ps'.ito vs' ws' ∧ MarkZero ps'.st ws' := by
  have hlaw := source_lawful E hE
  induction h with
  | nil ps hp =>
    intro vs ws ws' hs hr hz hrun _
    obtain ⟨rfl, _⟩ := run_nil_iff.1 hrun
    exact ⟨vs, .nil _, hs, hr, hz⟩
  | cons hst hs ih =>
    rename_i ps i ps1 j1 es vars is ps2 j2
    intro vs ws ws' hsem hr hz hrun hfin
    have ih' := fun {vs ws ws' : List F} => ih (fun c xs k hm => hsub c xs k (by simp [hm])) (vs := vs) (ws := ws) (ws' := ws')
    have hwl : ws.length = ps.st.exprs.length := by obtain ⟨ρ, hs⟩ := hsem; exact hs.len
    obtain ⟨w1, b1, b2, r1, r2, hb⟩ := run_append_iff.1 hrun
    have hb' : b1 = true ∧ b2 = true := by simpa using hb.symm
    obtain ⟨rfl, rfl⟩ := hb'
    obtain ⟨t, rfl⟩ := r1.prefix
    obtain ⟨t2, rfl⟩ := r2.prefix
    obtain ⟨_, _, es2, d2, _⟩ := hs.execd
    cases hc : i.asCall with
    | none =>
      have hc' : (i.replaceVars (vmGet ps.ito)).asCall = none := by cases i <;> first | rfl | simp [Source.Insn.asCall] at hc
      have hrr := hst.exd.run E get ws hE hsem (fun c xs k hm => by
        have := hst.eok.prim hc' _ hm
        simp [HintNorm.Insn.asCall] at this) (ws ++ t) true
      have hsem1 := hrr.2 r1
      have hwl1 : (ws ++ t).length = ps1.st.exprs.length := by obtain ⟨ρ, hs⟩ := hsem1; exact hs.len
      have hfin1 : Fin ps1.st (ws ++ t) := Fin.back (E := E) d2 hwl1 hfin
      have has := asserts_zero hsrt hst.ok.wf hst.ok.full hst.ok.cok hst.exd hst.eok.evs hst.exe hst.eok.split hsem1 hz hfin1
      have hexp := hst.exp
      rw [← hwl] at hexp
      have hin' : ∀ x ∈ (i.replaceVars (vmGet ps.ito)).inputs, x < ws.length := by
        intro x hx
        have e := hlaw.inputs_replace i (vmGet ps.ito)
        simp only at e
        rw [e] at hx
        obtain ⟨y, hy, rfl⟩ := List.mem_map.1 hx
        rw [hwl]
        exact (hst.ok.ito y (hst.inp y hy).1 (hst.inp y hy).2).2
      obtain ⟨outs, g1, g2, g3⟩ := (expand_sound (get := get) hE cn hc' hin' (constOf_val hsem) hexp (hrr.1.2 r1)).2.2 has
      have hp : (sourceAdv E).prim i (fun v => vs[v]?) outs := by
        have := (adv_prim_replace E i _ _ _).1 g1
        refine readPrim_local ?_ this
        intro v hv
        exact hr.val v (by rw [← hr.len]; exact (hst.inp v hv).2)
      have hr1 : Rel ps1.ito (vs ++ outs) (ws ++ t) := by rw [hst.ito]; exact Rel.vars hr.extend g2
      obtain ⟨vs', q1, q2, q3, q4⟩ := ih' hsem1 hr1 (hz.step hst.exd hst.ok.cok hsem1 g3) r2 hfin
      exact ⟨vs', .prim hc hp q1, q2, q3, q4⟩
    | some tt =>
      cases i with
      | call c xs k =>
        obtain ⟨rfl, rfl⟩ := hst.eok.call c (xs.map (vmGet ps.ito)) k rfl
        have hrr := hst.exd.run E get ws hE hsem (fun c' xs' k' hm => by
          simp only [pushes, List.mem_singleton, HintNorm.Insn.call.injEq] at hm
          obtain ⟨rfl, rfl, rfl⟩ := hm
          exact fun circ' hg => (hsub _ xs _ (by simp) circ' hg).1) (ws ++ t) true
        have g1 := hrr.1.2 r1
        obtain ⟨circ', args, res, sb, b', s1, s2, s3, s4, s5⟩ := (run_call_iff (L := hintNorm E) (i := HintNorm.Insn.call c (xs.map (vmGet ps.ito)) k) rfl).1 g1
        have hsb : sb = true := by
          have := s5.symm
          simp only [Bool.and_eq_true] at this
          exact this.1
        subst hsb
        obtain ⟨rt, _⟩ := run_nil_iff.1 s4
        have : t = res := List.append_cancel_left rt
        subst this
        obtain ⟨k1, circ, k2, k3⟩ := hsub c xs k (by simp) circ' s1
        have hres : t.length = k := by rw [s3.length, k1]
        have hsem1 := hrr.2 r1
        have hr1 : Rel ps1.ito (vs ++ t) (ws ++ t) := by
          rw [hst.ito]
          refine Rel.vars hr.extend ?_
          have := read_new ws t []
          rw [List.append_nil, hres, hwl] at this
          exact this
        have hread : readAll vs xs = some args := by
          rw [← hr.reads (fun v hv => by rw [← hr.len]; exact (hst.inp v hv).2)]; exact s2
        obtain ⟨vs', q1, q2, q3, q4⟩ := ih' hsem1 hr1 (hz.step hst.exd hst.ok.cok hsem1 (by simp [marks])) r2 hfin
        exact ⟨vs', (run_call_iff (L := sourceAdv E) (i := Source.Insn.call c xs k) rfl).2 ⟨circ, args, t, true, true, k2, hread, k3 _ _ (readAll_length hread) s3, q1, rfl⟩, q2, q3, q4⟩
      | _ => simp [Source.Insn.asCall] at hc

end Sound

end Verif.Builder
