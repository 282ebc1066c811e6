import Verif.Builder.Cons
import Verif.IR.SolveDup

/-!
# Hint normalisation of whole circuits: it never panics, and the result simulates the source circuit both ways
-/

set_option linter.unusedSectionVars false
set_option linter.unusedSimpArgs false
set_option linter.unusedVariables false

namespace Verif.Builder

open Verif.IR Verif.Hints Verif.IR.HintExport Verif.Utils

variable {F : Type} [Field F] [DecidableEq F]
variable {cn : Canon F} {srt : List (Expr F) → List (Expr F)} {npi : Nat}

/-- The same circuit, with adversarial unconstrained results. -/
def advC {E : Env F} (E' : Env F) (c : Circuit (source E)) : Circuit (sourceAdv E') :=
  ⟨c.instructions, c.constraints.map (fun k => ⟨k.typ, k.var⟩), c.outputs, c.numInputs⟩

/-- The same circuits, with adversarial unconstrained results. -/
def advGet {E : Env F} (E' : Env F) (get : Nat → Option (Circuit (source E))) : Nat → Option (Circuit (sourceAdv E')) :=
  fun c => (get c).map (advC E')

/-- The same root circuit, with adversarial unconstrained results. -/
def advRc {E : Env F} (E' : Env F) (rc : RootCircuit (source E)) : RootCircuit (sourceAdv E') :=
  ⟨rc.numPublicInputs, rc.expectedNumOutputZeroes, rc.circuits.map (fun p => (p.1, advC E' p.2))⟩

/-- How a circuit and its image are related. -/
structure Built {E E' : Env F} (cn : Canon F) (srt : List (Expr F) → List (Expr F)) (npi : Nat) (c : Circuit (source E)) (c' : Circuit (hintNorm E'))
    (ps0 ps1 ps2 : PSt F) (js1 js2 : List (HintNorm.Insn F)) (ks : List Nat) : Prop where
  build : buildCircuit cn srt c.numInputs c.instructions (consOf c) = .ok ps2
  init : initPs c.numInputs = some ps0
  steps : Steps cn srt npi ps0 c.instructions ps1 js1
  csteps : CSteps srt npi ps1 (consOf c) ps2 js2
  fin : finalCons srt ps2.st = some ks
  eq : c' = ⟨js1 ++ js2, ks.map (fun v => ⟨(), v⟩), c.outputs.map (vmGet ps2.ito), c.numInputs⟩

theorem processCircuit_spec (hsrt : ∀ l, (srt l).Perm l) {E : Env F} (E' : Env F) {c : Circuit (source E)} (hc : CircOk (some npi) c) :
    processCircuit cn srt E' c = .userError ∨ ∃ c', processCircuit cn srt E' c = .ok c' ∧ ∃ ps0 ps1 ps2 js1 js2 ks, Built cn srt npi c c' ps0 ps1 ps2 js1 js2 ks := by
  obtain ⟨ps0, i1, i2, i3, i4, i5, i6, i7, i8⟩ := initPs_spec (F := F) c.numInputs
  have hl0 : ps0.ito.length = c.numInputs + 1 := by rw [i3]; simp
  rcases processInsns_spec (cn := cn) (npi := npi) hsrt (E := E) c.instructions i2 (by omega) (by rw [hl0]; exact hc.insns) with h | ⟨ps1, js1, h1, h2⟩
  · left; simp only [processCircuit, buildCircuit, i1, h]
  · right
    have hl1 : ps1.ito.length = numVars c.numInputs c.instructions + 1 := by
      rw [h2.len E, hl0, numVars_add c.numInputs 1]
    obtain ⟨ok0, ok1, es1, d1, _⟩ := h2.execd
    obtain ⟨ps2, js2, h3, h4⟩ := processCons_spec (npi := npi) hsrt (consOf c) ok1 (fun k hk => by
      simp only [consOf, List.mem_map] at hk
      obtain ⟨k', hk', rfl⟩ := hk
      have := hc.cons k' hk'
      exact ⟨this.2, by simp only; omega⟩)
    obtain ⟨_, ok2, hi2, es2, d2, _⟩ := h4.execd
    obtain ⟨ks, k1, k2, k3⟩ := finalCons_spec hsrt ok2.wf ok2.full ok2.cok
    have hb : buildCircuit cn srt c.numInputs c.instructions (consOf c) = .ok ps2 := by simp only [buildCircuit, i1, h1, h3]
    have hins : ps2.st.insns = js1 ++ js2 := by rw [d2.insns, d1.insns, i6]; simp
    exact ⟨_, by simp only [processCircuit, hb, k1, hins], ps0, ps1, ps2, js1, js2, ks, hb, i1, h2, h4, k1, rfl⟩

section
variable {E E' : Env F} {c : Circuit (source E)} {c' : Circuit (hintNorm E')} {ps0 ps1 ps2 : PSt F} {js1 js2 : List (HintNorm.Insn F)} {ks : List Nat}

theorem Built.numInputs (h : Built cn srt npi c c' ps0 ps1 ps2 js1 js2 ks) : c'.numInputs = c.numInputs := by rw [h.eq]

theorem Built.outputs (h : Built cn srt npi c c' ps0 ps1 ps2 js1 js2 ks) : c'.outputs.length = c.outputs.length := by rw [h.eq]; simp

/-- Facts about a new builder, for the one that was used. -/
theorem Built.init' (h : Built cn srt npi c c' ps0 ps1 ps2 js1 js2 ks) : PsOk ps0 ∧ ps0.ito = List.range (c.numInputs + 1) ∧ ps0.st.exprs.length = c.numInputs + 1 ∧
    ps0.st.cons = [] ∧ ps0.st.insns = [] ∧ ps0.st.overwrote = false ∧ ∀ (E : Env F) ins, ins.length = c.numInputs → ∃ ρ, Sem E ρ ps0.st (0 :: ins) := by
  obtain ⟨ps, g1, g⟩ := initPs_spec (F := F) c.numInputs
  rw [h.init] at g1
  cases g1
  exact g

theorem Built.insns (h : Built cn srt npi c c' ps0 ps1 ps2 js1 js2 ks) : c'.instructions = js1 ++ js2 := by rw [h.eq]

theorem Built.itoLen (h : Built cn srt npi c c' ps0 ps1 ps2 js1 js2 ks) : ps2.ito.length = numVars c.numInputs c.instructions + 1 := by
  obtain ⟨i2, i3, i4, i5, i6, i7, i8⟩ := h.init'
  rw [h.csteps.execd.2.2.1, h.steps.len E, i3, List.length_range, numVars_add c.numInputs 1]

theorem Built.nv (h : Built cn srt npi c c' ps0 ps1 ps2 js1 js2 ks) : ps2.st.exprs.length = numVars (L := hintNorm E') c'.numInputs c'.instructions + 1 := by
  obtain ⟨i2, i3, i4, i5, i6, i7, i8⟩ := h.init'
  obtain ⟨_, _, es1, d1, _⟩ := h.steps.execd
  obtain ⟨_, _, _, es2, d2, _⟩ := h.csteps.execd
  rw [h.insns, h.numInputs, numVars_append, d1.nvars E', d2.nvars E', d2.len, d1.len, i4]
  omega

theorem Built.circOk (hsrt : ∀ l, (srt l).Perm l) (hc : CircOk (some npi) c) (h : Built cn srt npi c c' ps0 ps1 ps2 js1 js2 ks) : CircOk (some npi) c' := by
  obtain ⟨i2, i3, i4, i5, i6, i7, i8⟩ := h.init'
  obtain ⟨_, _, es1, d1, _⟩ := h.steps.execd
  obtain ⟨_, ok2, hito, es2, d2, _⟩ := h.csteps.execd
  obtain ⟨ks', k1, k2, k3⟩ := finalCons_spec hsrt ok2.wf ok2.full ok2.cok
  rw [h.fin] at k1; cases k1
  have hnv := h.nv
  refine ⟨?_, ?_, .inl rfl, ?_, .inl rfl⟩
  · rw [h.insns, h.numInputs]
    have a1 := d1.insnsOk E'
    have a2 := d2.insnsOk E'
    rw [i4] at a1
    refine (Verif.IR.SolveDup.insnsOk_append (L := hintNorm E') _ _ _).2 ⟨by simpa using a1, ?_⟩
    rw [d1.nvars E']
    rw [d1.len, i4] at a2
    have e : c.numInputs + 1 + outN es1 - 1 = c.numInputs + outN es1 := by omega
    rw [e] at a2
    exact a2
  · intro k hk
    rw [← Nat.lt_succ_iff, Nat.succ_eq_add_one, ← hnv]
    rw [h.eq] at hk
    simp only [List.mem_map] at hk
    obtain ⟨v, hv, rfl⟩ := hk
    exact ⟨(k2 v hv).2, (k2 v hv).1⟩
  · intro o ho
    rw [← Nat.lt_succ_iff, Nat.succ_eq_add_one, ← hnv]
    rw [h.eq] at ho
    simp only [List.mem_map] at ho
    obtain ⟨v, hv, rfl⟩ := ho
    have := hc.outs v hv
    have := ok2.ito v this.2 (by rw [h.itoLen]; omega)
    exact ⟨this.2, this.1⟩

/-- The calls of the image are calls of the original with as many arguments and results. -/
theorem Built.call (h : Built cn srt npi c c' ps0 ps1 ps2 js1 js2 ks) {d : Nat} {xs : List Nat} {k : Nat} (hm : HintNorm.Insn.call d xs k ∈ c'.instructions) :
    ∃ ys, Source.Insn.call d ys k ∈ c.instructions ∧ xs.length = ys.length := by
  obtain ⟨_, _, es1, d1, hes1⟩ := h.steps.execd
  obtain ⟨_, ok2, hito, es2, d2, hes2⟩ := h.csteps.execd
  rw [h.insns, List.mem_append] at hm
  rcases hm with hm | hm
  · exact hes1 d xs k (d1.calls _ hm _ rfl)
  · have := hes2 _ (d2.calls _ hm _ rfl)
    simp [HintNorm.Insn.asCall] at this

end

theorem hn_checkCons {E : Env F} {ws : List F} {ks : List Nat} (h : ∀ k ∈ ks, k < ws.length) :
    checkCons (L := hintNorm E) ws (ks.map (fun v => ⟨(), v⟩)) = some (decide (∀ k ∈ ks, ws[k]? = some 0)) := by
  rw [Verif.IR.SolveDup.checkCons_all (L := hintNorm E) (fun _ _ => rfl)]
  · simp only [List.all_map, Option.some.injEq]
    rw [Bool.eq_iff_iff]
    simp [List.all_eq_true]
  · intro k hk
    simp only [List.mem_map] at hk
    obtain ⟨v, hv, rfl⟩ := hk
    exact h v hv

theorem src_checkCons {E : Env F} {vs : List F} {cs : List (Constraint (source E))} {cb : Bool} (h : checkCons vs cs = some cb) :
    cb = true ↔ ∀ k ∈ cs.map (fun k => (k.typ, k.var)), ∃ x, vs[k.2]? = some x ∧ k.1.verify x = true := by
  induction cs generalizing cb with
  | nil => simp [checkCons] at h; simp [h]
  | cons k cs ih =>
    simp only [checkCons] at h
    split at h
    · rename_i x b hx hb
      cases h
      simp only [List.map_cons, List.forall_mem_cons, Bool.and_eq_true, ih hb, hx, Option.some.injEq, exists_eq_left']
    · cases h

theorem adv_checkCons {E E' : Env F} {vs : List F} {cs : List (Constraint (source E))}
    (h : ∀ k ∈ cs.map (fun k => (k.typ, k.var)), ∃ x, vs[k.2]? = some x ∧ k.1.verify x = true) :
    checkCons vs (L := sourceAdv E') (cs.map (fun k => ⟨k.typ, k.var⟩)) = some true := by
  induction cs with
  | nil => rfl
  | cons k cs ih =>
    simp only [List.map_cons, List.forall_mem_cons] at h
    obtain ⟨⟨x, hx, hv⟩, h2⟩ := h
    simp only [List.map_cons, checkCons, hx, ih h2]
    simp [sourceAdv, hv]

theorem rel_exists {ps : PSt F} (hp : PsOk ps) (h0 : vmGet ps.ito 0 = 0) {ws : List F} (hl : ws.length = ps.st.exprs.length) : ∃ vs, Rel ps.ito vs ws := by
  refine ⟨(List.range ps.ito.length).map (fun v => (ws[vmGet ps.ito v]?).getD 0), by simp, fun v hv => ?_⟩
  simp only [List.length_map, List.length_range] at hv
  simp only [List.getElem?_map, List.getElem?_range hv, Option.map_some]
  have hlt : vmGet ps.ito v < ws.length := by
    by_cases hv0 : v = 0
    · subst hv0
      rw [h0, hl]; exact hp.wf.pos
    · rw [hl]; exact (hp.ito v hv0 hv).2
  rw [List.getElem?_eq_getElem hlt]; simp

/-! ## One circuit -/

section
variable {E : Env F} {getS : Nat → Option (Circuit (source E))} {get : Nat → Option (Circuit (hintNorm E))}
variable {c : Circuit (source E)} {c' : Circuit (hintNorm E)} {ps0 ps1 ps2 : PSt F} {js1 js2 : List (HintNorm.Insn F)} {ks : List Nat}

theorem Built.complete (hsrt : ∀ l, (srt l).Perm l) (hE : E.HintLen) (hB : E.Builtin) (hc : CircOk (some npi) c)
    (h : Built E.canon srt npi c c' ps0 ps1 ps2 js1 js2 ks) (hsub : SubComplete getS get c.instructions)
    (hlen : ∀ d xs k, Source.Insn.call d xs k ∈ c.instructions → ∀ circ', get d = some circ' → circ'.outputs.length = k) :
    ∀ ins outs b, ins.length = c.numInputs → EvalSub getS c ins outs b → EvalSub get c' ins outs b := by
  rintro ins outs b hins ⟨vs, sb, cb, r1, r2, r3, rfl⟩
  obtain ⟨i2, i3, i4, i5, i6, i7, i8⟩ := h.init'
  obtain ⟨_, ok2, hito, _⟩ := h.csteps.execd
  have hrel0 : Rel ps0.ito (0 :: ins) (0 :: ins) := by
    rw [i3, ← hins]
    have := Rel.init ins ([] : List F)
    simpa using this
  obtain ⟨ws, q1, q2, q3, q4⟩ := steps_complete hE hB h.steps hsub hlen (i8 E ins hins) hrel0 (by rw [AllZero, i5]; simp) r1
  have hmz : MarkZero ps1.st ws := fun e he => q4 e _ he
  have htz : TrueZero ps1.st ws := fun e he => q4 e _ he
  obtain ⟨t, p1, p2, p3, p4, p5⟩ := csteps_complete (get := get) hE hB h.csteps q2 q3 hmz
  obtain ⟨ks', k1, k2, k3⟩ := finalCons_spec hsrt ok2.wf ok2.full ok2.cok
  rw [h.fin] at k1; cases k1
  have hwl : (ws ++ t).length = ps2.st.exprs.length := by obtain ⟨ρ, hs⟩ := p2; exact hs.len
  have hcons : checkCons (L := hintNorm E) (ws ++ t) c'.constraints = some cb := by
    rw [h.eq]
    rw [hn_checkCons (fun k hk => by rw [hwl]; exact (k2 k hk).2)]
    congr 1
    rw [Bool.eq_iff_iff, decide_eq_true_iff, k3 E _ p2, p5, src_checkCons r2]
    exact ⟨fun h => h.2, fun h => ⟨htz, h⟩⟩
  have hout : readAll (ws ++ t) c'.outputs = some outs := by
    rw [h.eq]
    simp only
    rw [p3.reads]
    · exact r3
    · intro v hv
      rw [← p3.len, h.itoLen]
      have := hc.outs v hv
      omega
  refine ⟨ws ++ t, sb, cb, ?_, hcons, hout, rfl⟩
  rw [h.insns]
  exact run_append_iff.2 ⟨ws, sb, true, q1, p1, by simp⟩

end

section
variable {E0 E : Env F} {getS : Nat → Option (Circuit (sourceAdv E))} {get : Nat → Option (Circuit (hintNorm E))}
variable {c : Circuit (source E0)} {c' : Circuit (hintNorm E)} {ps0 ps1 ps2 : PSt F} {js1 js2 : List (HintNorm.Insn F)} {ks : List Nat}

theorem Built.sound (hsrt : ∀ l, (srt l).Perm l) (hE : E.HintLen) (hc : CircOk (some npi) c)
    (h : Built cn srt npi c c' ps0 ps1 ps2 js1 js2 ks) (hsub : SubSound getS get c.instructions)
    (hok : ps2.st.overwrote = false ∨ ∀ x : F, x * x = x) :
    ∀ ins outs, ins.length = c.numInputs → EvalSub get c' ins outs true → EvalSub getS (advC E c) ins outs true := by
  rintro ins outs hins ⟨ws', sb, cb, r1, r2, r3, hb⟩
  have hb' : sb = true ∧ cb = true := by simpa using hb.symm
  obtain ⟨rfl, rfl⟩ := hb'
  obtain ⟨i2, i3, i4, i5, i6, i7, i8⟩ := h.init'
  obtain ⟨_, ok2, hito, es2, d2, _⟩ := h.csteps.execd
  have hrel0 : Rel ps0.ito (0 :: ins) (0 :: ins) := by
    rw [i3, ← hins]
    have := Rel.init ins ([] : List F)
    simpa using this
  rw [h.insns] at r1
  obtain ⟨ws, b1, b2, q1, q2, hb⟩ := run_append_iff.1 r1
  have hb' : b1 = true ∧ b2 = true := by simpa using hb.symm
  obtain ⟨rfl, rfl⟩ := hb'
  have hmz0 : MarkZero ps0.st (0 :: ins) := by rw [MarkZero, i5]; simp
  obtain ⟨_, _, es1, d1, hes1⟩ := h.steps.execd
  have hlen : ∀ c xs k, HintNorm.Insn.call c xs k ∈ pushes es1 → ∀ circ, get c = some circ → circ.outputs.length = k := by
    intro c xs k hm circ hg
    obtain ⟨ys, hy, _⟩ := hes1 c xs k hm
    exact (hsub c ys k hy circ hg).1
  have hsem1 : ∃ ρ, Sem E ρ ps1.st ws := (d1.run E get _ hE (i8 E ins hins) hlen ws true).2 q1
  obtain ⟨t, rfl⟩ := q2.prefix
  have hwl1 : ws.length = ps1.st.exprs.length := by obtain ⟨ρ, hs⟩ := hsem1; exact hs.len
  obtain ⟨_, _, _, es2', d2', hes2⟩ := h.csteps.execd
  have hsem2 : ∃ ρ, Sem E ρ ps2.st (ws ++ t) := (d2'.run E get _ hE hsem1 (noCall hes2) (ws ++ t) true).2 q2
  have hwl : (ws ++ t).length = ps2.st.exprs.length := by obtain ⟨ρ, hs⟩ := hsem2; exact hs.len
  obtain ⟨ks', k1, k2, k3⟩ := finalCons_spec hsrt ok2.wf ok2.full ok2.cok
  rw [h.fin] at k1; cases k1
  have htz : TrueZero ps2.st (ws ++ t) := by
    rw [h.eq, hn_checkCons (fun k hk => by rw [hwl]; exact (k2 k hk).2)] at r2
    exact (k3 E _ hsem2).1 (by simpa using r2)
  have hfin1 : Fin ps1.st ws := by
    rcases hok with ho | h2
    · have : Fin ps2.st (ws ++ t) := by
        intro e he
        rcases he with he | ⟨_, hov⟩
        · exact htz e he
        · rw [ho] at hov; cases hov
      exact Fin.back (E := E) d2' hwl1 this
    · obtain ⟨_, hm1⟩ := steps_gf2 h2 hE h.steps (fun c xs k hm circ' hg => (hsub c xs k hm circ' hg).1) (i8 E ins hins) hmz0 q1
      have h00 : vmGet ps1.ito 0 = 0 := by
        obtain ⟨u, hu⟩ := h.steps.itoPrefix
        rw [← hu, vmGet_append_left (by rw [i3]; simp), i3]
        simp [vmGet]
      obtain ⟨vs0, hvs0⟩ := rel_exists (h.steps.execd.2.1) h00 hwl1
      obtain ⟨_, _, hm2, _⟩ := csteps_sound (get := get) hsrt hE h.csteps hsem1 hvs0 hm1 q2
      have : Fin ps2.st (ws ++ t) := by
        intro e he
        rcases he with he | ⟨he, _⟩
        · exact htz e he
        · exact hm2 e he
      exact Fin.back (E := E) d2' hwl1 this
  obtain ⟨vs, p1, p2, p3, p4⟩ := steps_sound hsrt hE h.steps hsub (i8 E ins hins) hrel0 hmz0 q1 hfin1
  obtain ⟨_, p3', _, _, p5⟩ := csteps_sound hsrt hE h.csteps p2 p3 p4 q2
  refine ⟨vs, true, true, p1, adv_checkCons (p5 htz), ?_, rfl⟩
  rw [h.eq] at r3
  simp only at r3
  rw [p3'.reads] at r3
  · exact r3
  · intro v hv
    rw [← p3'.len, h.itoLen]
    have := hc.outs v hv
    omega

end

end Verif.Builder
