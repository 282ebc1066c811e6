import Verif.Builder.Root

/-!
# Hint normalisation of root circuits
-/

set_option linter.unusedSectionVars false
set_option linter.unusedSimpArgs false
set_option linter.unusedVariables false

namespace Verif.Builder

open Verif.IR Verif.Hints Verif.IR.HintExport Verif.Utils

variable {F : Type} [Field F] [DecidableEq F]
variable {cn : Canon F} {srt : List (Expr F) → List (Expr F)} {npi : Nat}

theorem processList_spec (hsrt : ∀ l, (srt l).Perm l) {E : Env F} (E' : Env F) {get : Nat → Option (Circuit (source E))}
    (hok : ∀ c circ, get c = some circ → CircOk (some npi) circ) : ∀ (q : List Nat), q.Nodup → (∀ c ∈ q, ∃ circ, get c = some circ) →
    processList cn srt E' get q = .userError ∨ ∃ t, processList cn srt E' get q = .ok t ∧ t.map (·.1) = q ∧
      ∀ c ∈ q, ∀ circ, get c = some circ → ∃ c', t.lookup c = some c' ∧ processCircuit cn srt E' circ = .ok c' := by
  intro q
  induction q with
  | nil => intro _ _; right; exact ⟨[], rfl, rfl, by simp⟩
  | cons c q ih =>
    intro hn hq
    rw [List.nodup_cons] at hn
    rcases ih hn.2 (fun d hd => hq d (by simp [hd])) with h | ⟨t, h1, h2, h3⟩
    · left; simp only [processList, h]
    · obtain ⟨circ, hc⟩ := hq c (by simp)
      rcases processCircuit_spec (cn := cn) hsrt E' (hok c circ hc) with h | ⟨c', h4, _⟩
      · left; simp only [processList, h1, hc, h]
      · right
        refine ⟨(c, c') :: t, by simp only [processList, h1, hc, h4], by simp [h2], ?_⟩
        intro d hd circ' hg
        rcases List.mem_cons.1 hd with rfl | hd
        · rw [hc] at hg; cases hg
          exact ⟨c', by simp [List.lookup_cons], h4⟩
        · obtain ⟨d', g1, g2⟩ := h3 d hd circ' hg
          refine ⟨d', ?_, g2⟩
          have : d ≠ c := fun e => hn.1 (e ▸ hd)
          rw [List.lookup_cons, beq_eq_false_iff_ne.2 this]
          exact g1

/-- A circuit is the image of another. -/
def Image {E E' : Env F} (cn : Canon F) (srt : List (Expr F) → List (Expr F)) (npi : Nat) (circ : Circuit (source E)) (c' : Circuit (hintNorm E')) : Prop :=
  ∃ ps0 ps1 ps2 js1 js2 ks, Built cn srt npi circ c' ps0 ps1 ps2 js1 js2 ks

/-- What `process` returns. -/
structure Processed {E E' : Env F} (cn : Canon F) (srt : List (Expr F) → List (Expr F)) (rc : RootCircuit (source E)) (rc' : RootCircuit (hintNorm E')) : Prop where
  npi : rc'.numPublicInputs = rc.numPublicInputs
  zeroes : rc'.expectedNumOutputZeroes = rc.expectedNumOutputZeroes
  verts : rc'.vertices.Nodup ∧ ∀ c, c ∈ rc'.vertices ↔ c ∈ rc.vertices
  image : ∀ c circ, rc.get c = some circ → ∃ c', rc'.get c = some c' ∧ Image cn srt rc.numPublicInputs circ c'
  back : ∀ c c', rc'.get c = some c' → ∃ circ, rc.get c = some circ ∧ Image cn srt rc.numPublicInputs circ c'

theorem process_spec (hsrt : ∀ l, (srt l).Perm l) {E : Env F} (E' : Env F) (rc : RootCircuit (source E)) (hk : rc.vertices.Nodup) (hw : WF rc) :
    process cn srt E' rc = .userError ∨ ∃ rc', process cn srt E' rc = .ok rc' ∧ Processed cn srt rc rc' := by
  obtain ⟨q, t1, t2, t3, _⟩ := topo_of_wf rc hk hw.wf
  have hok : ∀ c circ, rc.get c = some circ → CircOk (some rc.numPublicInputs) circ := hw.wf.circ
  rcases processList_spec (cn := cn) hsrt E' hok q t2 (fun c hc => (t3 c).1 hc) with h | ⟨t, h1, h2, h3⟩
  · left; simp only [process, t1, h]
  · right
    refine ⟨⟨rc.numPublicInputs, rc.expectedNumOutputZeroes, t⟩, by simp only [process, t1, h1], rfl, rfl, ⟨by rw [RootCircuit.vertices]; simp only [h2]; exact t2, fun c => ?_⟩, ?_, ?_⟩
    · rw [RootCircuit.vertices]; simp only [h2]
      rw [t3 c]
      exact mem_vertices_iff.symm
    · intro c circ hg
      obtain ⟨c', g1, g2⟩ := h3 c ((t3 c).2 ⟨circ, hg⟩) circ hg
      refine ⟨c', g1, ?_⟩
      rcases processCircuit_spec (cn := cn) hsrt E' (hok c circ hg) with h | ⟨c'', h4, h5⟩
      · rw [h] at g2; cases g2
      · rw [h4] at g2; cases g2
        exact h5
    · intro c c' hg
      have hm : c ∈ t.map (·.1) := List.mem_map.2 ⟨_, mem_of_get (L := hintNorm E') (rc := ⟨rc.numPublicInputs, rc.expectedNumOutputZeroes, t⟩) hg, rfl⟩
      rw [h2] at hm
      obtain ⟨circ, hc⟩ := (t3 c).1 hm
      obtain ⟨c'', g1, g2⟩ := h3 c hm circ hc
      have : c'' = c' := Option.some.inj (g1.symm.trans hg)
      subst this
      refine ⟨circ, hc, ?_⟩
      rcases processCircuit_spec (cn := cn) hsrt E' (hok c circ hc) with h | ⟨c3, h4, h5⟩
      · rw [h] at g2; cases g2
      · rw [h4] at g2; cases g2
        exact h5

/-- Well-formedness of the result. -/
theorem Processed.wf (hsrt : ∀ l, (srt l).Perm l) {E E' : Env F} {rc : RootCircuit (source E)} {rc' : RootCircuit (hintNorm E')} (hw : WF rc)
    (h : Processed cn srt rc rc') : WFGet (some rc'.numPublicInputs) rc'.get := by
  refine ⟨?_, ?_, ?_⟩
  · intro c c' hg
    obtain ⟨circ, hc, _, _, _, _, _, _, hb⟩ := h.back c c' hg
    rw [h.npi]
    exact hb.circOk hsrt (hw.wf.circ c circ hc)
  · intro c c' hg i hi d a n hcall
    obtain ⟨circ, hc, _, _, _, _, _, _, hb⟩ := h.back c c' hg
    cases i with
    | call d' xs k =>
      simp only [hintNorm, HintNorm.Insn.asCall, Option.some.injEq, Prod.mk.injEq] at hcall
      obtain ⟨rfl, rfl, rfl⟩ := hcall
      obtain ⟨ys, hy, hl⟩ := hb.call hi
      obtain ⟨sub, s1, s2, s3⟩ := hw.wf.calls c circ hc _ hy _ _ _ rfl
      obtain ⟨sub', g1, _, _, _, _, _, _, hb'⟩ := h.image _ sub s1
      exact ⟨sub', g1, by rw [hl, s2, hb'.numInputs], by rw [s3, hb'.outputs]⟩
    | _ => simp [hintNorm, HintNorm.Insn.asCall] at hcall
  · obtain ⟨r, hr⟩ := hw.wf.dag
    refine ⟨r, fun c d hcd => hr c d ?_⟩
    obtain ⟨c', hg, i, hi, a, n, hcall⟩ := hcd
    obtain ⟨circ, hc, _, _, _, _, _, _, hb⟩ := h.back c c' hg
    cases i with
    | call d' xs k =>
      simp only [hintNorm, HintNorm.Insn.asCall, Option.some.injEq, Prod.mk.injEq] at hcall
      obtain ⟨rfl, rfl, rfl⟩ := hcall
      obtain ⟨ys, hy, hl⟩ := hb.call hi
      exact ⟨circ, hc, _, hy, _, _, rfl⟩
    | _ => simp [hintNorm, HintNorm.Insn.asCall] at hcall

/-! ## Completeness -/

theorem Processed.complete_sub (hsrt : ∀ l, (srt l).Perm l) {E : Env F} (hE : E.HintLen) (hB : E.Builtin) {rc : RootCircuit (source E)}
    {rc' : RootCircuit (hintNorm E)} (hw : WF rc) (h : Processed E.canon srt rc rc') : ∀ c circ, rc.get c = some circ → ∀ c', rc'.get c = some c' →
    ∀ ins outs b, ins.length = circ.numInputs → EvalSub rc.get circ ins outs b → EvalSub rc'.get c' ins outs b := by
  refine call_induction hw.wf.dag ?_
  intro c circ hg ih c' hg' ins outs b hins he
  obtain ⟨circ2, hc2, _, _, _, _, _, _, hb⟩ := h.back c c' hg'
  rw [hg] at hc2; cases hc2
  refine hb.complete hsrt hE hB (hw.wf.circ c circ hg) ?_ ?_ ins outs b hins he
  · intro d xs k hm sub hsub
    obtain ⟨sub2, s1, s2, s3⟩ := hw.wf.calls c circ hg _ hm _ _ _ rfl
    rw [hsub] at s1; cases s1
    obtain ⟨sub', g1, _, _, _, _, _, _, hb'⟩ := h.image d sub hsub
    refine ⟨sub', g1, by rw [hb'.outputs]; exact s3.symm, fun ins outs b hl he => ?_⟩
    exact ih d sub ⟨circ, hg, _, hm, _, _, rfl⟩ hsub sub' g1 ins outs b (by rw [hl, s2]) he
  · intro d xs k hm sub' hsub'
    obtain ⟨sub2, s1, s2, s3⟩ := hw.wf.calls c circ hg _ hm _ _ _ rfl
    obtain ⟨sub3, g1, _, _, _, _, _, _, hb'⟩ := h.back d sub' hsub'
    rw [s1] at g1; cases g1
    rw [hb'.outputs]; exact s3.symm

theorem Processed.complete (hsrt : ∀ l, (srt l).Perm l) {E : Env F} (hE : E.HintLen) (hB : E.Builtin) {rc : RootCircuit (source E)}
    {rc' : RootCircuit (hintNorm E)} (hw : WF rc) (h : Processed E.canon srt rc rc') {ins outs : List F} {b : Bool} (he : Eval rc ins outs b) :
    Eval rc' ins outs b := by
  obtain ⟨root, all, b0, e1, e2, e3, e4, e5, e6⟩ := he
  obtain ⟨root', g1, ps0, ps1, ps2, js1, js2, ks, hb⟩ := h.image 0 root e1
  refine ⟨root', all, b0, g1, by rw [hb.numInputs]; exact e2, h.complete_sub hsrt hE hB hw 0 root e1 root' g1 _ _ _ e2 e3, ?_, ?_, ?_⟩
  · rw [h.zeroes]; exact e4
  · rw [h.zeroes]; exact e5
  · rw [h.zeroes]; exact e6

/-! ## Soundness -/

/-- No recorded assertion has been replaced by a mark, in any circuit. -/
def KeepsAsserts {E : Env F} (cn : Canon F) (srt : List (Expr F) → List (Expr F)) (rc : RootCircuit (source E)) : Prop :=
  ∀ c circ, rc.get c = some circ → ∀ ps, buildCircuit cn srt circ.numInputs circ.instructions (consOf circ) = .ok ps → ps.st.overwrote = false

theorem advRc_get {E : Env F} (E' : Env F) (rc : RootCircuit (source E)) (c : Nat) : (advRc E' rc).get c = (rc.get c).map (advC E') := by
  simp only [RootCircuit.get, advRc]
  exact lookup_map_snd (advC E') rc.circuits c

theorem Processed.sound_sub (hsrt : ∀ l, (srt l).Perm l) {E E' : Env F} (hE : E'.HintLen) {rc : RootCircuit (source E)}
    {rc' : RootCircuit (hintNorm E')} (hw : WF rc) (h : Processed cn srt rc rc') (hok : KeepsAsserts cn srt rc ∨ ∀ x : F, x * x = x) :
    ∀ c circ, rc.get c = some circ → ∀ c', rc'.get c = some c' →
    ∀ ins outs, ins.length = circ.numInputs → EvalSub rc'.get c' ins outs true → EvalSub (advRc E' rc).get (advC E' circ) ins outs true := by
  refine call_induction hw.wf.dag ?_
  intro c circ hg ih c' hg' ins outs hins he
  obtain ⟨circ2, hc2, ps0, ps1, ps2, js1, js2, ks, hb⟩ := h.back c c' hg'
  rw [hg] at hc2; cases hc2
  refine hb.sound hsrt hE (hw.wf.circ c circ hg) ?_ (hok.imp_left (fun hk => hk c circ hg ps2 hb.build)) ins outs hins he
  intro d xs k hm sub' hsub'
  obtain ⟨sub2, s1, s2, s3⟩ := hw.wf.calls c circ hg _ hm _ _ _ rfl
  obtain ⟨sub3, g1, _, _, _, _, _, _, hb'⟩ := h.back d sub' hsub'
  rw [s1] at g1; cases g1
  refine ⟨by rw [hb'.outputs]; exact s3.symm, advC E' sub2, by rw [advRc_get, s1]; rfl, fun ins outs hl he => ?_⟩
  exact ih d sub2 ⟨circ, hg, _, hm, _, _, rfl⟩ s1 sub' hsub' ins outs (by rw [hl, s2]) he

theorem Processed.sound (hsrt : ∀ l, (srt l).Perm l) {E E' : Env F} (hE : E'.HintLen) {rc : RootCircuit (source E)}
    {rc' : RootCircuit (hintNorm E')} (hw : WF rc) (h : Processed cn srt rc rc') (hok : KeepsAsserts cn srt rc ∨ ∀ x : F, x * x = x)
    {ins outs : List F} (he : Eval rc' ins outs true) : Eval (advRc E' rc) ins outs true := by
  obtain ⟨root', all, b0, e1, e2, e3, e4, e5, e6⟩ := he
  have hb6 := e6.symm
  simp only [Bool.and_eq_true] at hb6
  obtain ⟨rfl, e7⟩ := hb6
  obtain ⟨root, g1, ps0, ps1, ps2, js1, js2, ks, hb⟩ := h.back 0 root' e1
  rw [hb.numInputs] at e2
  refine ⟨advC E' root, all, true, by rw [advRc_get, g1]; rfl, e2, h.sound_sub hsrt hE hw hok 0 root g1 root' e1 _ _ e2 e3, ?_, ?_, ?_⟩
  · rw [h.zeroes] at e4; exact e4
  · rw [h.zeroes] at e5; exact e5
  · rw [h.zeroes] at e6; exact e6

end Verif.Builder
