import Verif.Builder.Circ

/-!
# Processing the constraints of a circuit, and the constraints emitted at the end
-/

set_option linter.unusedSectionVars false
set_option linter.unusedSimpArgs false
set_option linter.unusedVariables false

namespace Verif.Builder

open Verif.IR Verif.Hints Verif.IR.HintExport

variable {F : Type} [Field F] [DecidableEq F]
variable {cn : Canon F} {srt : List (Expr F) → List (Expr F)} {npi : Nat}

/-- One processed constraint. -/
structure CStep (srt : List (Expr F) → List (Expr F)) (npi : Nat) (ps : PSt F) (k : Source.Con × Nat) (ps' : PSt F) (js : List (HintNorm.Insn F)) : Prop where
  ok : PsOk ps
  ok' : PsOk ps'
  inp : k.2 ≠ 0 ∧ k.2 < ps.ito.length
  exe : exec srt ps.st (expandCon ps.st.exprs.length (vmGet ps.ito k.2) k.1) = some ps'.st
  exd : Execd npi ps.st (expandCon ps.st.exprs.length (vmGet ps.ito k.2) k.1) ps'.st js
  evs : EvsOk (F := F) npi ps.st.exprs.length (expandCon ps.st.exprs.length (vmGet ps.ito k.2) k.1)
  noMarks : marks (F := F) (expandCon ps.st.exprs.length (vmGet ps.ito k.2) k.1) = []
  prim : ∀ j ∈ pushes (F := F) (expandCon ps.st.exprs.length (vmGet ps.ito k.2) k.1), j.asCall = none
  ito : ps'.ito = ps.ito

/-- A processed list of constraints. -/
inductive CSteps (srt : List (Expr F) → List (Expr F)) (npi : Nat) : PSt F → List (Source.Con × Nat) → PSt F → List (HintNorm.Insn F) → Prop
  | nil (ps : PSt F) (h : PsOk ps) : CSteps srt npi ps [] ps []
  | cons {ps k ps1 j1 ks ps2 j2} (h : CStep srt npi ps k ps1 j1) (hs : CSteps srt npi ps1 ks ps2 j2) :
      CSteps srt npi ps (k :: ks) ps2 (j1 ++ j2)

theorem processCon_spec (hsrt : ∀ l, (srt l).Perm l) {ps : PSt F} (hp : PsOk ps) {t : Source.Con} {v : Nat} (hv : v ≠ 0 ∧ v < ps.ito.length) :
    ∃ ps' js, processCon srt ps t v = .ok ps' ∧ CStep srt npi ps (t, v) ps' js := by
  obtain ⟨h0, hlt⟩ := hp.ito v hv.1 hv.2
  obtain ⟨g1, g2, g3⟩ := expandCon_ok (F := F) (npi := npi) hp.wf.pos h0 hlt t
  obtain ⟨st', js, h1, h2⟩ := exec_spec hsrt _ hp.wf hp.full hp.cok g1
  refine ⟨⟨st', ps.ito⟩, js, by simp only [processCon, h1], hp, ?_, hv, h1, h2, g1, g2, g3, rfl⟩
  have := hp.grow (vars := []) h2.wf h2.full h2.cok h2.pre.length_le (by simp)
  simpa using this

theorem processCons_spec (hsrt : ∀ l, (srt l).Perm l) : ∀ (ks : List (Source.Con × Nat)) {ps : PSt F}, PsOk ps →
    (∀ k ∈ ks, k.2 ≠ 0 ∧ k.2 < ps.ito.length) → ∃ ps' js, processCons srt ps ks = .ok ps' ∧ CSteps srt npi ps ks ps' js := by
  intro ks
  induction ks with
  | nil => intro ps hp _; exact ⟨ps, [], rfl, .nil ps hp⟩
  | cons k ks ih =>
    intro ps hp hk
    obtain ⟨t, v⟩ := k
    obtain ⟨ps1, j1, h1, h2⟩ := processCon_spec (npi := npi) hsrt hp (t := t) (hk (t, v) (by simp))
    obtain ⟨ps2, j2, h3, h4⟩ := ih h2.ok' (fun k' hk' => by rw [h2.ito]; exact hk k' (by simp [hk']))
    exact ⟨ps2, j1 ++ j2, by simp only [processCons, h1, h3], .cons h2 h4⟩

theorem CSteps.execd {ps ps' : PSt F} {ks : List (Source.Con × Nat)} {js : List (HintNorm.Insn F)} (h : CSteps srt npi ps ks ps' js) :
    PsOk ps ∧ PsOk ps' ∧ ps'.ito = ps.ito ∧ ∃ es, Execd npi ps.st es ps'.st js ∧ ∀ j ∈ pushes es, j.asCall = none := by
  induction h with
  | nil ps h => exact ⟨h, h, rfl, [], .nil h.wf h.full h.cok, by simp [pushes]⟩
  | cons h hs ih =>
    obtain ⟨_, h2, h3, es2, h4, h5⟩ := ih
    refine ⟨h.ok, h2, h3.trans h.ito, _, h.exd.trans h.ok.wf.pos h4, ?_⟩
    intro j hj
    rw [pushes_append] at hj
    rcases List.mem_append.1 hj with hj | hj
    · exact h.prim j hj
    · exact h5 j hj

/-- The asserted constraints hold. -/
def TrueZero (st : St F) (ws : List F) : Prop := ∀ e, st.cons.lookup e = some true → Zero0 st ws e

variable {E : Env F} {get : Nat → Option (Circuit (hintNorm E))}

theorem noCall {es : List (Ev F)} (h : ∀ j ∈ pushes es, j.asCall = none) :
    ∀ c xs k, HintNorm.Insn.call c xs k ∈ pushes es → ∀ circ, get c = some circ → circ.outputs.length = k := by
  intro c xs k hm
  have := h _ hm
  simp [HintNorm.Insn.asCall] at this

/-- What the constraint phase adds: running it from `ws` is possible with honest hints, and at the end the asserted constraints hold
iff they held before and the source constraints hold. -/
theorem csteps_complete (hE : E.HintLen) (hB : E.Builtin) {ps ps' : PSt F} {ks : List (Source.Con × Nat)} {js : List (HintNorm.Insn F)}
    (h : CSteps srt npi ps ks ps' js) : ∀ {vs ws : List F}, (∃ ρ, Sem E ρ ps.st ws) → Rel ps.ito vs ws → MarkZero ps.st ws →
    ∃ t, Run get js ws (ws ++ t) true ∧ (∃ ρ, Sem E ρ ps'.st (ws ++ t)) ∧ Rel ps'.ito vs (ws ++ t) ∧ MarkZero ps'.st (ws ++ t) ∧
      (TrueZero ps'.st (ws ++ t) ↔ TrueZero ps.st ws ∧ ∀ k ∈ ks, ∃ x, vs[k.2]? = some x ∧ k.1.verify x = true) := by
  induction h with
  | nil ps hp =>
    intro vs ws hs hr hz
    refine ⟨[], ?_⟩
    simp only [List.append_nil]
    exact ⟨.nil _, hs, hr, hz, by simp⟩
  | cons hst hs ih =>
    rename_i ps k ps1 j1 ks ps2 j2
    intro vs ws hsem hr hz
    have hwl : ws.length = ps.st.exprs.length := by obtain ⟨ρ, hs⟩ := hsem; exact hs.len
    obtain ⟨x, hx⟩ : ∃ x, vs[k.2]? = some x := ⟨_, List.getElem?_eq_getElem (by rw [← hr.len]; exact hst.inp.2)⟩
    have hx' : ws[vmGet ps.ito k.2]? = some x := by rw [hr.val k.2 (by rw [← hr.len]; exact hst.inp.2)]; exact hx
    obtain ⟨t, g1, u, z, g2, g3, g4⟩ := (con_run (get := get) hE hx' k.1).2 hB
    rw [hwl] at g1 g2
    have hrr := hst.exd.run E get ws hE hsem (noCall hst.prim) (ws ++ t) true
    have g1' := hrr.1.1 g1
    have hsem1 := hrr.2 g1'
    have hr1 : Rel ps1.ito vs (ws ++ t) := by rw [hst.ito]; exact hr.extend
    have hz1 : MarkZero ps1.st (ws ++ t) := hz.step hst.exd hst.ok.cok hsem1 (by rw [hst.noMarks]; simp)
    obtain ⟨t2, q1, q2, q3, q4, q5⟩ := ih hsem1 hr1 hz1
    refine ⟨t ++ t2, ?_⟩
    rw [← List.append_assoc]
    refine ⟨run_append_iff.2 ⟨_, true, true, g1', q1, rfl⟩, q2, q3, q4, q5.trans ?_⟩
    have key : TrueZero ps1.st (ws ++ t) ↔ TrueZero ps.st ws ∧ z = 0 := by
      have hmem : u ∈ asserts (F := F) (expandCon ps.st.exprs.length (vmGet ps.ito k.2) k.1) := by rw [g2]; simp
      have hlt := hst.exd.inRange u (.inl hmem)
      have hue : ps1.st.exprs[u]? = some ps1.st.exprs[u] := List.getElem?_eq_getElem hlt
      generalize ps1.st.exprs[u] = eu at hue
      constructor
      · intro ht
        constructor
        · intro e he v hv
          have hvlt := (List.getElem?_eq_some_iff.1 hv).1
          have : ps1.st.cons.lookup e = some true := by
            rcases hst.exd.persTrue e he with g | ⟨g, _⟩
            · exact g
            · rcases hst.exd.origin e false g with g | ⟨g, _⟩ | ⟨_, w, hw, _⟩
              · rw [g] at he; cases he
              · cases g
              · rw [hst.noMarks] at hw; simp at hw
          have := ht e this v (prefix_get hst.exd.pre hv)
          rw [List.getElem?_append_left (by omega)] at this
          exact this
        · rcases hst.exd.asserted hst.noMarks u hmem eu hue with g | g
          · have := ht eu g u hue
            rw [g3] at this; exact Option.some.inj this
          · have := (hz eu g).fwd hst.exd hst.ok.cok g hsem1 u hue
            rw [g3] at this; exact Option.some.inj this
      · rintro ⟨ht, rfl⟩ e he
        rcases hst.exd.origin e true he with g | ⟨_, v, hv, _, hx⟩ | ⟨g, _⟩
        · exact (ht e g).fwd hst.exd hst.ok.cok g hsem1
        · rw [g2] at hv
          simp only [List.mem_singleton] at hv
          subst hv
          exact zero_of_var hsem1 hx g3
        · cases g
    rw [key, g4]
    simp only [List.forall_mem_cons, and_assoc]
    have : (∃ x', vs[k.2]? = some x' ∧ k.1.verify x' = true) ↔ k.1.verify x = true := by simp [hx]
    rw [this]

theorem csteps_sound (hsrt : ∀ l, (srt l).Perm l) (hE : E.HintLen) {ps ps' : PSt F} {ks : List (Source.Con × Nat)} {js : List (HintNorm.Insn F)}
    (h : CSteps srt npi ps ks ps' js) : ∀ {vs ws ws' : List F} {b : Bool}, (∃ ρ, Sem E ρ ps.st ws) → Rel ps.ito vs ws → MarkZero ps.st ws → Run get js ws ws' b →
    (∃ ρ, Sem E ρ ps'.st ws') ∧ Rel ps'.ito vs ws' ∧ MarkZero ps'.st ws' ∧ b = true ∧
      (TrueZero ps'.st ws' → ∀ k ∈ ks, ∃ x, vs[k.2]? = some x ∧ k.1.verify x = true) := by
  induction h with
  | nil ps hp =>
    intro vs ws ws' b hs hr hz hrun
    obtain ⟨rfl, rfl⟩ := run_nil_iff.1 hrun
    exact ⟨hs, hr, hz, rfl, by simp⟩
  | cons hst hs ih =>
    rename_i ps k ps1 j1 ks ps2 j2
    intro vs ws ws' b hsem hr hz hrun
    have hwl : ws.length = ps.st.exprs.length := by obtain ⟨ρ, hs⟩ := hsem; exact hs.len
    obtain ⟨w1, b1, b2, r1, r2, rfl⟩ := run_append_iff.1 hrun
    obtain ⟨t, rfl⟩ := r1.prefix
    obtain ⟨x, hx⟩ : ∃ x, vs[k.2]? = some x := ⟨_, List.getElem?_eq_getElem (by rw [← hr.len]; exact hst.inp.2)⟩
    have hx' : ws[vmGet ps.ito k.2]? = some x := by rw [hr.val k.2 (by rw [← hr.len]; exact hst.inp.2)]; exact hx
    have hrr := hst.exd.run E get ws hE hsem (noCall hst.prim) (ws ++ t) b1
    have hsem1 := hrr.2 r1
    have g1 := hrr.1.2 r1
    have hc := (con_run (get := get) hE hx' k.1).1 (ws ++ t) b1
    rw [hwl] at hc
    obtain ⟨rfl, _, g4⟩ := hc g1
    have hr1 : Rel ps1.ito vs (ws ++ t) := by rw [hst.ito]; exact hr.extend
    have hz1 : MarkZero ps1.st (ws ++ t) := hz.step hst.exd hst.ok.cok hsem1 (by rw [hst.noMarks]; simp)
    obtain ⟨q1, q2, q3, q4, q5⟩ := ih hsem1 hr1 hz1 r2
    subst q4
    refine ⟨q1, q2, q3, rfl, fun ht => ?_⟩
    have ht1 : TrueZero ps1.st (ws ++ t) := by
      obtain ⟨_, _, _, es2, d2, hes2⟩ := hs.execd
      obtain ⟨t2, rfl⟩ := r2.prefix
      have hwl1 : (ws ++ t).length = ps1.st.exprs.length := by obtain ⟨ρ, hs⟩ := hsem1; exact hs.len
      intro e he v hv
      have hvlt := (List.getElem?_eq_some_iff.1 hv).1
      have : (ws ++ t ++ t2)[v]? = some 0 := by
        rcases d2.persTrue e he with g | ⟨g, _⟩
        · exact ht e g v (prefix_get d2.pre hv)
        · exact q3 e g v (prefix_get d2.pre hv)
      rw [List.getElem?_append_left (by omega)] at this
      exact this
    intro k' hk'
    rcases List.mem_cons.1 hk' with rfl | hk'
    · refine ⟨x, hx, g4 (fun u hu => ?_)⟩
      have hlt := hst.exd.inRange u (.inl hu)
      have hue : ps1.st.exprs[u]? = some ps1.st.exprs[u] := List.getElem?_eq_getElem hlt
      generalize ps1.st.exprs[u] = eu at hue
      rcases hst.exd.asserted hst.noMarks u hu eu hue with g | g
      · exact ht1 eu g u hue
      · exact (hz eu g).fwd hst.exd hst.ok.cok g hsem1 u hue
    · exact q5 ht k' hk'

/-! ## The emitted constraints -/

theorem finalCons_spec (hsrt : ∀ l, (srt l).Perm l) {st : St F} (hw : Wf st.exprs.length st) (hf : EtoFull st) (hc : ConsOk st) :
    ∃ ks, finalCons srt st = some ks ∧ (∀ k ∈ ks, k ≠ 0 ∧ k < st.exprs.length) ∧
      ∀ (E : Env F) ws, (∃ ρ, Sem E ρ st ws) → ((∀ k ∈ ks, ws[k]? = some 0) ↔ TrueZero st ws) := by
  have hmem : ∀ e, e ∈ assertedKeys srt st ↔ st.cons.lookup e = some true := by
    intro e
    simp only [assertedKeys, List.mem_filter, (hsrt _).mem_iff, beq_iff_eq, and_iff_right_iff_imp]
    intro h
    exact List.mem_map.2 ⟨_, lookup_mem h, rfl⟩
  have hlook : ∀ e ∈ assertedKeys srt st, ∃ j, st.eto.lookup e = some j := by
    intro e he
    obtain ⟨v, h0, hv⟩ := hc.var e true (lookup_mem ((hmem e).1 he))
    obtain ⟨j, hj⟩ := hf v e h0 hv
    cases hl : st.eto.lookup e with
    | some j => exact ⟨j, rfl⟩
    | none =>
      rw [List.lookup_eq_none_iff] at hl
      have := hl _ hj
      simp at this
  obtain ⟨ks, hks⟩ := mapOpt_isSome (f := fun e => st.eto.lookup e) (l := assertedKeys srt st) (fun e he => by
    obtain ⟨j, hj⟩ := hlook e he; simp [hj])
  have hget : ∀ k, k ∈ ks → ∃ e ∈ assertedKeys srt st, st.eto.lookup e = some k := by
    intro k hk
    obtain ⟨n, hn, rfl⟩ := List.mem_iff_getElem.1 hk
    have hl := mapOpt_length hks
    refine ⟨(assertedKeys srt st)[n]'(by omega), List.getElem_mem _, ?_⟩
    have := mapOpt_getElem? hks n _ (List.getElem?_eq_getElem (show n < (assertedKeys srt st).length by omega))
    rw [List.getElem?_eq_getElem hn] at this
    exact this
  have hget' : ∀ e ∈ assertedKeys srt st, ∃ k ∈ ks, st.eto.lookup e = some k := by
    intro e he
    obtain ⟨n, hn, rfl⟩ := List.mem_iff_getElem.1 he
    have hl := mapOpt_length hks
    have := mapOpt_getElem? hks n _ (List.getElem?_eq_getElem hn)
    rw [List.getElem?_eq_getElem (show n < ks.length by omega)] at this
    exact ⟨ks[n]'(by omega), List.getElem_mem _, this⟩
  refine ⟨ks, hks, ?_, ?_⟩
  · intro k hk
    obtain ⟨e, he, hl⟩ := hget k hk
    obtain ⟨h0, hv⟩ := hw.eto e k (lookup_mem hl)
    exact ⟨h0, (List.getElem?_eq_some_iff.1 hv).1⟩
  · intro E ws hs
    constructor
    · intro h e he
      obtain ⟨k, hk, hl⟩ := hget' e ((hmem e).2 he)
      exact zero_of_var hs (hw.eto e k (lookup_mem hl)).2 (h k hk)
    · intro h k hk
      obtain ⟨e, he, hl⟩ := hget k hk
      exact h e ((hmem e).1 he) k (hw.eto e k (lookup_mem hl)).2

/-! ## A new builder -/

theorem init_wf : Wf (St.init : St F).exprs.length (St.init : St F) ∧ EtoFull (St.init : St F) ∧ ConsOk (St.init : St F) := by
  refine ⟨⟨⟨rfl, ?_⟩, rfl, ?_, by simp [St.init], by simp [St.init], le_refl _⟩, ?_, by simp [St.init], by simp [St.init]⟩
  · intro i e h h0
    rcases i with _ | i
    · exact absurd rfl h0
    · simp [St.init] at h
  · intro i e h
    rcases i with _ | i
    · simp only [St.init, List.getElem?_cons_zero, Option.some.injEq] at h
      subst h
      exact eok_zero _
    · simp [St.init] at h
  · intro i e h0 h
    rcases i with _ | i
    · exact absurd rfl h0
    · simp [St.init] at h

theorem initPs_spec (n : Nat) : ∃ ps : PSt F, initPs n = some ps ∧ PsOk ps ∧ ps.ito = List.range (n + 1) ∧ ps.st.exprs.length = n + 1 ∧ ps.st.cons = [] ∧
    ps.st.insns = [] ∧ ps.st.overwrote = false ∧ ∀ (E : Env F) ins, ins.length = n → ∃ ρ, Sem E ρ ps.st (0 :: ins) := by
  obtain ⟨h1, h2, h3⟩ := init_wf (F := F)
  obtain ⟨st, g1, g2, g3, g4, g5, g6, g7, g8⟩ := addOutVars_spec h1 h2 n
  have hp : (St.init : St F).pool.length = 1 := rfl
  have he : (St.init : St F).exprs = [[Term.zero]] := rfl
  rw [hp] at g4 g5
  rw [he] at g4
  have hl : st.exprs.length = n + 1 := by rw [g4]; simp [fakes_length]
  refine ⟨⟨st, List.range (n + 1)⟩, by simp only [initPs, g1], ⟨g2, g3, ⟨by rw [g6]; exact h3.nodup, by rw [g6]; simp [St.init]⟩, ?_⟩, rfl, hl, by rw [g6]; rfl, by rw [g8]; rfl, by rw [g7]; rfl, ?_⟩
  · intro v h0 hv
    simp only [List.length_range] at hv
    simp only [vmGet, List.getElem?_range hv, Option.getD_some, hl]
    exact ⟨h0, hv⟩
  · intro E ins hins
    refine ⟨fun i => ((0 :: ins : List F)[i]?).getD 0, ?_, by simp [hl, hins], ?_⟩
    · intro i e h h0
      simp only [g5] at h
      rcases i with _ | i
      · exact absurd rfl h0
      · have : (fakes 1 n : List (Expr F))[i]? = some e := by simpa [St.init] using h
        obtain ⟨hi, rfl⟩ := fakes_get.1 this
        rw [value_linear, mul_one, Nat.add_comm 1 i]
    · intro i e h
      simp only [g4] at h
      rcases i with _ | i
      · simp only [List.cons_append, List.getElem?_cons_zero, Option.some.injEq] at h
        subst h
        simp [Term.zero, value_const]
      · have : (fakes 1 n : List (Expr F))[i]? = some e := by simpa using h
        obtain ⟨hi, rfl⟩ := fakes_get.1 this
        rw [value_linear, mul_one, Nat.add_comm 1 i]
        simp [List.getElem?_eq_getElem (show i < ins.length by omega)]

end Verif.Builder
