import Verif.Builder.Process

/-!
# Adversarial completeness of hint normalisation

The converse of soundness: every adversarial behaviour of the source circuit is accepted by the normalised circuit, for circuits without the unconstrained operations that
the normaliser may fold (`Exact`).  Together with soundness: the normalised circuit accepts exactly the adversarial behaviours.
-/
set_option linter.unusedSectionVars false
set_option linter.unusedSimpArgs false
set_option linter.unusedVariables false
namespace Verif.Builder
open Verif.IR Verif.Hints Verif.IR.HintExport Verif.Utils

variable {F : Type} [Field F] [DecidableEq F]
variable {cn : Canon F} {srt : List (Expr F) → List (Expr F)} {npi : Nat}

/-- Instructions whose normal form accepts exactly their adversarial semantics: all except unchecked division and the `unconstrained_*` operations, which are computed at
compile time for constant operands, and commitments. -/
def Exact : Source.Insn F → Prop
  | .div _ _ checked => checked = true
  | .unconstrainedBinOp _ _ _ | .unconstrainedSelect _ _ _ | .commit _ => False
  | _ => True

theorem Exact.replace {i : Source.Insn F} (h : Exact i) (f : Nat → Nat) : Exact (i.replaceVars f) := by
  cases i <;> exact h

/-- All circuits use only exact instructions. -/
def ExactRc {E : Env F} (rc : RootCircuit (source E)) : Prop := ∀ c circ, rc.get c = some circ → ∀ i ∈ (circ.instructions : List (Source.Insn F)), Exact i

theorem adv_checkCons' {E0 E : Env F} {vs : List F} {cs : List (Constraint (source E0))} {cb : Bool}
    (h : checkCons (L := sourceAdv E) vs (cs.map fun k => ⟨k.typ, k.var⟩) = some cb) :
    cb = true ↔ ∀ k ∈ cs.map (fun k => (k.typ, k.var)), ∃ x, vs[k.2]? = some x ∧ k.1.verify x = true := by
  have e : ∀ cs : List (Constraint (source E0)), checkCons (L := sourceAdv E) vs (cs.map fun k => ⟨k.typ, k.var⟩) = checkCons (L := source E0) vs cs := by
    intro cs
    induction cs with
    | nil => rfl
    | cons k cs ih =>
      simp only [List.map_cons, checkCons, ih]
  rw [e] at h
  exact src_checkCons h

section
variable {E : Env F} {get : Nat → Option (Circuit (hintNorm E))} {ws : List F} {cv : Nat → Option F}

theorem adv_expand_complete (hE : E.HintLen) (hB : E.Builtin) (hA : ∀ id ins n outs, outs.length = n → E.hint id ins n outs) {i : Source.Insn F} (hc : i.asCall = none)
    (hx : Exact i)
    (hcv : ∀ v c, cv v = some c → ws[v]? = some c) {es : List (Ev F)} {vars : List Nat} (h : expand E.canon cv ws.length i = some (es, vars))
    {outs : List F} (hp : (sourceAdv E).prim i (fun v => ws[v]?) outs) :
    ∃ t, Run get (pushes es) ws (ws ++ t) true ∧ readAll (ws ++ t) vars = some outs ∧
      ∀ v, v ∈ asserts es ∨ v ∈ marks es → (ws ++ t)[v]? = some 0 := by
  have same : (∀ args, semAdv E i args outs → i.sem E args outs) → ∃ t, Run get (pushes es) ws (ws ++ t) true ∧ readAll (ws ++ t) vars = some outs ∧
      ∀ v, v ∈ asserts es ∨ v ∈ marks es → (ws ++ t)[v]? = some 0 := by
    intro hs
    obtain ⟨args, h1, h2⟩ := hp
    exact expand_complete hE hB hc hcv h ⟨args, h1, hs args h2⟩
  cases i with
  | div x y ch =>
    have : ch = true := hx
    subst this
    exact same (fun args hs => by
      rcases args with _ | ⟨a, _ | ⟨b, _ | ⟨c, l⟩⟩⟩ <;> simp_all [semAdv, Source.Insn.sem])
  | hint id xs n => exact same (fun args hs => hA _ _ _ _ hs)
  | toBinary x k =>
    obtain ⟨args, ha, hs⟩ := hp
    obtain ⟨vx, rfl, hvx⟩ := args1 ha
    simp only [semAdv] at hs
    simp only [expand, Option.some.injEq, Prod.mk.injEq] at h; obtain ⟨rfl, rfl⟩ := h
    obtain ⟨b1, b2, b3⟩ := hs
    subst b1
    obtain ⟨s, h1, h2, h3⟩ := run_toBin (get := get) hvx (outs := outs) (by
      rw [← readAll_mapOpt, List.append_assoc]; exact read_new ws outs [0])
    refine ⟨outs ++ s, ?_, read_new ws outs s, ?_⟩
    · simp only [pushes_append, pushes, List.cons_append, List.nil_append, List.append_nil]
      rw [hintI, app_nil_run, step_hint (args := [vx]) (by simp [mapOpt, hvx])]
      refine ⟨outs, hA _ [vx] _ _ rfl, ?_⟩
      exact (h1 _ _).2 ⟨rfl, rfl⟩
    · have h4 := h2.2 ⟨b2, b3⟩
      intro v hv
      simp only [asserts_append, marks_append, asserts, marks, h3, List.append_nil, List.nil_append, List.mem_append, List.mem_cons,
        List.not_mem_nil, or_false] at hv
      rcases hv with hv | rfl
      · exact h4.1 v hv
      · exact h4.2
  | commit => exact absurd hx (by simp [Exact])
  | unconstrainedBinOp => exact absurd hx (by simp [Exact])
  | unconstrainedSelect => exact absurd hx (by simp [Exact])
  | call => simp [Source.Insn.asCall] at hc
  | _ => exact same (fun args hs => hs)

end

section
variable {E : Env F} {getS : Nat → Option (Circuit (sourceAdv E))} {get : Nat → Option (Circuit (hintNorm E))}

/-- The calls of a list have callees whose images accept everything they accept. -/
def AdvSubComplete (getS : Nat → Option (Circuit (sourceAdv E))) (get : Nat → Option (Circuit (hintNorm E))) (is : List (Source.Insn F)) : Prop :=
  ∀ c xs k, Source.Insn.call c xs k ∈ is → ∀ circ, getS c = some circ → ∃ circ', get c = some circ' ∧ circ'.outputs.length = k ∧
    ∀ ins outs b, ins.length = xs.length → EvalSub getS circ ins outs b → EvalSub get circ' ins outs b

theorem adv_steps_complete (hE : E.HintLen) (hB : E.Builtin) (hA : ∀ id ins n outs, outs.length = n → E.hint id ins n outs) {ps ps' : PSt F} {is : List (Source.Insn F)} {js : List (HintNorm.Insn F)}
    (h : Steps E.canon srt npi ps is ps' js) (hex : ∀ i ∈ is, Exact i) (hsub : AdvSubComplete getS get is)
    (hlen : ∀ c xs k, Source.Insn.call c xs k ∈ is → ∀ circ', get c = some circ' → circ'.outputs.length = k) :
    ∀ {vs ws vs' : List F} {b : Bool}, (∃ ρ, Sem E ρ ps.st ws) → Rel ps.ito vs ws → AllZero ps.st ws → Run getS is vs vs' b →
    ∃ ws', Run get js ws ws' b ∧ (∃ ρ, Sem E ρ ps'.st ws') ∧ Rel ps'.ito vs' ws' ∧ AllZero ps'.st ws' := by
  induction h with
  | nil ps hp =>
    intro vs ws vs' b hs hr hz hrun
    obtain ⟨rfl, rfl⟩ := run_nil_iff.1 hrun
    exact ⟨ws, .nil _, hs, hr, hz⟩
  | cons hst hs ih =>
    rename_i ps i ps1 j1 es vars is ps2 j2
    intro vs ws vs' b hsem hr hz hrun
    have ih' := fun {vs ws vs' : List F} {b : Bool} => ih (fun i hi => hex i (by simp [hi])) (fun c xs k hm => hsub c xs k (by simp [hm])) (fun c xs k hm => hlen c xs k (by simp [hm])) (vs := vs) (ws := ws) (vs' := vs') (b := b)
    have hwl : ws.length = ps.st.exprs.length := by obtain ⟨ρ, hs⟩ := hsem; exact hs.len
    cases hc : i.asCall with
    | none =>
      obtain ⟨outs, hp, hrun⟩ := (run_prim_iff (L := sourceAdv E) hc).1 hrun
      have hc' : (i.replaceVars (vmGet ps.ito)).asCall = none := by cases i <;> first | rfl | simp [Source.Insn.asCall] at hc
      have hp' : (sourceAdv E).prim (i.replaceVars (vmGet ps.ito)) (fun v => ws[v]?) outs := by
        refine (adv_prim_replace E i _ _ _).2 (readPrim_local ?_ hp)
        intro v hv
        exact (hr.val v (by rw [← hr.len]; exact (hst.inp v hv).2)).symm
      have hexp := hst.exp
      rw [← hwl] at hexp
      obtain ⟨t, g1, g2, g3⟩ := adv_expand_complete (get := get) hE hB hA hc' ((hex i (by simp)).replace _) (constOf_val hsem) hexp hp'
      have hrr := hst.exd.run E get ws hE hsem (fun c xs k hm => by
        have := hst.eok.prim hc' _ hm
        simp [HintNorm.Insn.asCall] at this) (ws ++ t) true
      have g1' := hrr.1.1 g1
      have hsem1 := hrr.2 g1'
      have hr1 : Rel ps1.ito (vs ++ outs) (ws ++ t) := by rw [hst.ito]; exact Rel.vars hr.extend g2
      obtain ⟨ws', q1, q2, q3, q4⟩ := ih' hsem1 hr1 (hz.step hst.exd hst.ok.cok hsem1 g3) hrun
      exact ⟨ws', run_append_iff.2 ⟨_, true, b, g1', q1, by simp⟩, q2, q3, q4⟩
    | some tt =>
      cases i with
      | call c xs k =>
        obtain ⟨circ, args, res, sb, b', r1, r2, r3, r4, rfl⟩ := (run_call_iff (L := sourceAdv E) (i := Source.Insn.call c xs k) rfl).1 hrun
        obtain ⟨circ', s1, s2, s3⟩ := hsub c xs k (by simp) circ r1
        obtain ⟨rfl, rfl⟩ := hst.eok.call c (xs.map (vmGet ps.ito)) k rfl
        have hread : readAll ws (xs.map (vmGet ps.ito)) = some args := by
          rw [hr.reads (fun v hv => by rw [← hr.len]; exact (hst.inp v hv).2)]; exact r2
        have g1 : Run get (pushes [Ev.push (HintNorm.Insn.call c (xs.map (vmGet ps.ito)) k)]) ws (ws ++ res) sb :=
          (run_call_iff (L := hintNorm E) rfl).2 ⟨circ', args, res, sb, true, s1, hread, s3 _ _ _ (readAll_length r2) r3, .nil _, by simp⟩
        have hrr := hst.exd.run E get ws hE hsem (fun c' xs' k' hm => by
          simp only [pushes, List.mem_singleton, HintNorm.Insn.call.injEq] at hm
          obtain ⟨rfl, rfl, rfl⟩ := hm
          exact hlen _ xs _ (by simp)) (ws ++ res) sb
        have g1' := hrr.1.1 g1
        have hsem1 := hrr.2 g1'
        have hres : res.length = k := by rw [(s3 _ _ _ (readAll_length r2) r3).length, s2]
        have hr1 : Rel ps1.ito (vs ++ res) (ws ++ res) := by
          rw [hst.ito]
          refine Rel.vars hr.extend ?_
          have := read_new ws res []
          rw [List.append_nil, hres, hwl] at this
          exact this
        obtain ⟨ws', q1, q2, q3, q4⟩ := ih' hsem1 hr1 (hz.step hst.exd hst.ok.cok hsem1 (by simp [asserts, marks])) r4
        exact ⟨ws', run_append_iff.2 ⟨_, sb, b', g1', q1, rfl⟩, q2, q3, q4⟩
      | _ => simp [Source.Insn.asCall] at hc


end

section
variable {E0 E : Env F} {getS : Nat → Option (Circuit (sourceAdv E))} {get : Nat → Option (Circuit (hintNorm E))}
variable {c : Circuit (source E0)} {c' : Circuit (hintNorm E)} {ps0 ps1 ps2 : PSt F} {js1 js2 : List (HintNorm.Insn F)} {ks : List Nat}

theorem Built.adv_complete (hsrt : ∀ l, (srt l).Perm l) (hE : E.HintLen) (hB : E.Builtin) (hA : ∀ id ins n outs, outs.length = n → E.hint id ins n outs) (hc : CircOk (some npi) c)
    (h : Built E.canon srt npi c c' ps0 ps1 ps2 js1 js2 ks) (hex : ∀ i ∈ (c.instructions : List (Source.Insn F)), Exact i) (hsub : AdvSubComplete getS get c.instructions)
    (hlen : ∀ d xs k, Source.Insn.call d xs k ∈ c.instructions → ∀ circ', get d = some circ' → circ'.outputs.length = k) :
    ∀ ins outs b, ins.length = c.numInputs → EvalSub getS (advC E c) ins outs b → EvalSub get c' ins outs b := by
  rintro ins outs b hins ⟨vs, sb, cb, r1, r2, r3, rfl⟩
  obtain ⟨i2, i3, i4, i5, i6, i7, i8⟩ := h.init'
  obtain ⟨_, ok2, hito, _⟩ := h.csteps.execd
  have hrel0 : Rel ps0.ito (0 :: ins) (0 :: ins) := by
    rw [i3, ← hins]
    have := Rel.init ins ([] : List F)
    simpa using this
  obtain ⟨ws, q1, q2, q3, q4⟩ := adv_steps_complete hE hB hA h.steps hex hsub hlen (i8 E ins hins) hrel0 (by rw [AllZero, i5]; simp) r1
  have hmz : MarkZero ps1.st ws := fun e he => q4 e _ he
  have htz : TrueZero ps1.st ws := fun e he => q4 e _ he
  obtain ⟨t, p1, p2, p3, p4, p5⟩ := csteps_complete (get := get) hE hB h.csteps q2 q3 hmz
  obtain ⟨ks', k1, k2, k3⟩ := finalCons_spec hsrt ok2.wf ok2.full ok2.cok
  rw [h.fin] at k1; cases k1
  have hwl : (ws ++ t).length = ps2.st.exprs.length := by obtain ⟨ρ, hs⟩ := p2; exact hs.len
  have hcons : checkCons (L := hintNorm E) (ws ++ t) c'.constraints = some cb := by
    rw [h.eq]
    rw [hn_checkCons (fun k hk => by rw [hwl]; exact (k2 k hk).2)]
    congr 1
    rw [Bool.eq_iff_iff, decide_eq_true_iff, k3 E _ p2, p5, adv_checkCons' r2]
    exact ⟨fun h => h.2, fun h => ⟨htz, h⟩⟩
  have hout : readAll (ws ++ t) c'.outputs = some outs := by
    rw [h.eq]
    simp only
    rw [p3.reads]
    · exact r3
    · intro v hv
      rw [← p3.len, h.itoLen]
      have := hc.outs v hv
      omega
  refine ⟨ws ++ t, sb, cb, ?_, hcons, hout, rfl⟩
  rw [h.insns]
  exact run_append_iff.2 ⟨ws, sb, true, q1, p1, by simp⟩


end

theorem Processed.adv_complete_sub (hsrt : ∀ l, (srt l).Perm l) {E0 E : Env F} (hE : E.HintLen) (hB : E.Builtin) (hA : ∀ id ins n outs, outs.length = n → E.hint id ins n outs) {rc : RootCircuit (source E0)}
    {rc' : RootCircuit (hintNorm E)} (hw : WF rc) (h : Processed E.canon srt rc rc') (hex : ExactRc rc) : ∀ c circ, rc.get c = some circ → ∀ c', rc'.get c = some c' →
    ∀ ins outs b, ins.length = circ.numInputs → EvalSub (advRc E rc).get (advC E circ) ins outs b → EvalSub rc'.get c' ins outs b := by
  refine call_induction hw.wf.dag ?_
  intro c circ hg ih c' hg' ins outs b hins he
  obtain ⟨circ2, hc2, _, _, _, _, _, _, hb⟩ := h.back c c' hg'
  rw [hg] at hc2; cases hc2
  refine hb.adv_complete hsrt hE hB hA (hw.wf.circ c circ hg) (hex c circ hg) ?_ ?_ ins outs b hins he
  · intro d xs k hm sub0 hsub0
    obtain ⟨sub, hsub, rfl⟩ : ∃ sub, rc.get d = some sub ∧ advC E sub = sub0 := by
      rw [advRc_get] at hsub0; exact Option.map_eq_some_iff.1 hsub0
    obtain ⟨sub2, s1, s2, s3⟩ := hw.wf.calls c circ hg _ hm _ _ _ rfl
    rw [hsub] at s1; cases s1
    obtain ⟨sub', g1, _, _, _, _, _, _, hb'⟩ := h.image d sub hsub
    refine ⟨sub', g1, by rw [hb'.outputs]; exact s3.symm, fun ins outs b hl he => ?_⟩
    exact ih d sub ⟨circ, hg, _, hm, _, _, rfl⟩ hsub sub' g1 ins outs b (by rw [hl, s2]) he
  · intro d xs k hm sub' hsub'
    obtain ⟨sub2, s1, s2, s3⟩ := hw.wf.calls c circ hg _ hm _ _ _ rfl
    obtain ⟨sub3, g1, _, _, _, _, _, _, hb'⟩ := h.back d sub' hsub'
    rw [s1] at g1; cases g1
    rw [hb'.outputs]; exact s3.symm

theorem Processed.adv_complete (hsrt : ∀ l, (srt l).Perm l) {E0 E : Env F} (hE : E.HintLen) (hB : E.Builtin) (hA : ∀ id ins n outs, outs.length = n → E.hint id ins n outs) {rc : RootCircuit (source E0)}
    {rc' : RootCircuit (hintNorm E)} (hw : WF rc) (h : Processed E.canon srt rc rc') (hex : ExactRc rc) {ins outs : List F} {b : Bool} (he : Eval (advRc E rc) ins outs b) :
    Eval rc' ins outs b := by
  obtain ⟨root0, all, b0, e1, e2, e3, e4, e5, e6⟩ := he
  obtain ⟨root, e1', rfl⟩ : ∃ root, rc.get 0 = some root ∧ advC E root = root0 := by
    rw [advRc_get] at e1; exact Option.map_eq_some_iff.1 e1
  obtain ⟨root', g1, ps0, ps1, ps2, js1, js2, ks, hb⟩ := h.image 0 root e1'
  refine ⟨root', all, b0, g1, by rw [hb.numInputs]; exact e2, h.adv_complete_sub hsrt hE hB hA hw hex 0 root e1' root' g1 _ _ _ e2 e3, ?_, ?_, ?_⟩
  · rw [h.zeroes]; exact e4
  · rw [h.zeroes]; exact e5
  · rw [h.zeroes]; exact e6

end Verif.Builder
