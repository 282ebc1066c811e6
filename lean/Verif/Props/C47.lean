import Verif.Props.C24
import Verif.Layered.Degree

/-!
# C47: how often random coefficients hide a violated constraint

The compiler replaces constraints by random linear combinations.  `Circuit.randDegree` is a number that can be computed from a layered circuit: the
degree, in the random coefficients, of the values that must vanish, and how many coefficients they depend on.  On the tapes that decide the verdict, a circuit
that can reject an input accepts it at most with probability `D / |F|`.
-/

set_option linter.unusedSectionVars false

namespace Verif.Props

open Verif.IR Verif.IR.HintExport Verif.Builder Verif.Compile Verif.Witness
open Verif.Layered (Deg prefixTape)

variable {F : Type} [Field F] [DecidableEq F] {E : Env F}

/-- Specification: the number of tapes of length `n` on which the layered circuit accepts the witness. -/
noncomputable def acceptedTapes (V : Layered.LEnv F F) (lc : Layered.Circuit F) (w : List F) (n : Nat) : Nat :=
  Nat.card { r : Fin n → F // ∃ outs, lc.eval V w (prefixTape r) = some (outs, true) }

/-- The verdict of a layered circuit is decided by the first `x.bound` random coefficients. -/
theorem C47_depends (V : Layered.LEnv F F) {lc : Layered.Circuit F} {x : Deg} (hx : lc.randDegree = some x) (w : List F) (t u : Nat → F)
    (h : ∀ i < x.bound, t i = u i) : (lc.eval V w t).map Prod.snd = (lc.eval V w u).map Prod.snd :=
  Layered.verdict_depends V hx t u h

/-- If a layered circuit of degree at most `D` can be evaluated on `w`, it accepts `w` for all random coefficients, or it accepts at most
`D * |F| ^ n / |F|` of the tapes of length `n`. -/
theorem C47_bound [Fintype F] (V : Layered.LEnv F F) {lc : Layered.Circuit F} {D m n : Nat} (hx : lc.randDegree = some (.val (some D) m)) (hn : m ≤ n)
    {w : List F} (hw : ∃ t, (lc.eval V w t).isSome = true) :
    Accepts V lc w ∨ acceptedTapes V lc w n * Fintype.card F ≤ D * Fintype.card F ^ n := by
  by_cases ha : Accepts V lc w
  · exact .inl ha
  · right
    obtain ⟨t0, h0⟩ := hw
    obtain ⟨fs, _, h2⟩ := Layered.zeros_rel V hx h0
    unfold Accepts at ha
    push Not at ha
    obtain ⟨t1, h1⟩ := ha
    obtain ⟨o1, e1⟩ := h2 t1
    cases hb : fs.all fun f => decide (f t1 = 0) with
    | true => rw [hb] at e1; exact absurd e1 (h1 o1)
    | false =>
      rw [hb] at e1
      exact Layered.accept_bound V hx (.inr ⟨D, m, rfl, le_refl _⟩) hn e1

/-- A circuit without random coefficients decides the same way on every tape. -/
theorem C47_deterministic (V : Layered.LEnv F F) {lc : Layered.Circuit F} {x : Deg} (hx : lc.randDegree = some x) (h0 : x.bound = 0) (w : List F) (t u : Nat → F) :
    (lc.eval V w t).map Prod.snd = (lc.eval V w u).map Prod.snd := C47_depends V hx w t u (by simp [h0])

/-- Compiled circuits, solved witnesses: with the assumptions of `C24_exact_partial`, if the constraints of the source circuit do not hold on an assignment,
the layered circuit accepts the solved witness on at most a fraction `D / |F|` of the tapes; if they hold, it accepts on all of them. -/
theorem C47_exact_partial [Fintype F] (hE : E.HintLen) (hB : E.Builtin) (hf : E.HintFun) {P : Params F} (hP : P.Ok) {o : Options} {rc : RootCircuit (source E)}
    (hk : rc.vertices.Nodup) (hr : SrcNoRandom rc) {t : Trace E} (hc : compileTrace P o rc = some t) (ht : t.Ok P o) {V : Layered.LEnv F F}
    (hV : EnvOk E rc.numPublicInputs V) {D m n : Nat} (hx : t.lc.randDegree = some (.val (some D) m)) (hn : m ≤ n) {ins outs w : List F} {b be : Bool}
    (h : Eval rc ins outs b) (hw : Eval t.solver ins w be) :
    (b = true → acceptedTapes V t.lc w n = Fintype.card F ^ n) ∧ (b = false → acceptedTapes V t.lc w n * Fintype.card F ≤ D * Fintype.card F ^ n) := by
  obtain ⟨w', h1, h2, ⟨tape, h3⟩, h4⟩ := C24_exact_partial hE hB hf hP hk hr hc ht hV h
  obtain rfl := (h1 w).1 ⟨be, hw⟩
  constructor
  · intro hb
    have ha := h4.2 hb
    unfold acceptedTapes
    rw [Nat.card_congr (Equiv.subtypeUnivEquiv fun r => ha (prefixTape r))]
    simp
  · intro hb
    subst hb
    exact Layered.accept_bound V hx (.inr ⟨D, m, rfl, le_refl _⟩) hn h3

/-- Soundness: if the layered circuit accepts a witness, chosen by the prover before the coefficients are drawn, on more than a fraction `D / |F|` of the tapes,
the source circuit accepts some assignment (in the sense of `C24_sound_partial`). -/
theorem C47_sound_partial [Fintype F] (hE : E.HintLen) (hB : E.Builtin) {P : Params F} (hP : P.Ok) {o : Options} {rc : RootCircuit (source E)} (hk : rc.vertices.Nodup)
    {t : Trace E} (hc : compileTrace P o rc = some t) (ht : t.Ok P o) (hK : KeepsAsserts E.canon P.srt t.src ∨ ∀ x : F, x = 0 ∨ x = 1) {V : Layered.LEnv F F}
    (hV : EnvOk E rc.numPublicInputs V) {D m n : Nat} (hx : t.lc.randDegree = some (.val (some D) m)) (hn : m ≤ n) {w : List F}
    (ha : D * Fintype.card F ^ n < acceptedTapes V t.lc w n * Fintype.card F) :
    ∃ ins outs, (∃ tape, t.lc.eval V w tape = some (outs, true)) ∧ ∀ χ, Eval (fillRc χ (semAdv E.anyHint) rc) ins outs true := by
  have hex : ∃ t0, (t.lc.eval V w t0).isSome = true := by
    by_contra hne
    push Not at hne
    have : acceptedTapes V t.lc w n = 0 := by
      unfold acceptedTapes
      rw [Nat.card_eq_zero]
      left
      refine ⟨fun r => ?_⟩
      obtain ⟨outs, e⟩ := r.2
      exact hne (prefixTape r.1) (by rw [e]; rfl)
    rw [this] at ha
    omega
  rcases C47_bound V hx hn hex with h | h
  · exact C24_sound_partial hE hB hP hk hc ht hK hV h
  · omega

/-- Soundness for arithmetic circuits: a witness that the layered circuit accepts on more than a fraction `D / |F|` of the tapes shows that the
source circuit accepts some assignment. -/
theorem C47_arith_sound_partial [Fintype F] (hE : E.HintLen) (hB : E.Builtin) {P : Params F} (hP : P.Ok) {o : Options} {rc : RootCircuit (source E)} (hk : rc.vertices.Nodup)
    (hr : Arith rc) {t : Trace E} (hc : compileTrace P o rc = some t) (ht : t.Ok P o) (hK : KeepsAsserts E.canon P.srt t.src ∨ ∀ x : F, x = 0 ∨ x = 1)
    {V : Layered.LEnv F F} (hV : EnvOk E rc.numPublicInputs V) {D m n : Nat} (hx : t.lc.randDegree = some (.val (some D) m)) (hn : m ≤ n) {w : List F}
    (ha : D * Fintype.card F ^ n < acceptedTapes V t.lc w n * Fintype.card F) : ∃ ins outs, Eval rc ins outs true := by
  obtain ⟨ins, outs, _, h⟩ := C47_sound_partial hE hB hP hk hc ht hK hV hx hn ha
  exact ⟨ins, outs, arith_fill hr (h fun _ _ => 0)⟩

/-! ### Non-vacuity -/

namespace C47Ex

open C24Ex

/-- The degree of the compiled circuit. -/
def degree (rc : RootCircuit (source env)) : Option Deg := (compileTrace params opts rc).bind fun t => t.lc.randDegree

theorem arith_degree : degree arith = some (.val (some 1) 2) := by decide +kernel

/-- The assignment `1, 4` violates a constraint of the source circuit: of the 49 pairs of coefficients, at most seven make the layered circuit accept the
witness that is solved for it. -/
example : ∃ t, compileTrace params opts arith = some t ∧ ∀ w be, Eval t.solver [1, 4] w be → acceptedTapes (.withPublic custom [3]) t.lc w 2 ≤ 7 := by
  obtain ⟨t, h1, h2, h3⟩ := of_good arith_good
  have hd := arith_degree
  unfold degree at hd
  rw [h1, Option.bind_some] at hd
  refine ⟨t, h1, fun w be hw => ?_⟩
  have hr : SrcNoRandom arith := all_of (by decide)
  have := (C47_exact_partial (solveEnv_len canon custom hc [3]) (solveEnv_builtin canon custom hc [3]) (solveEnv_fun canon custom hc [3]) params_ok arith_nodup hr h1 h2
    (solveEnv_ok canon custom hc rfl) hd (le_refl 2) arith_verdicts.2 hw).2 rfl
  rw [ZMod.card] at this
  omega

/-- A witness that more than seven of the 49 pairs accept comes from an assignment that satisfies the source circuit. -/
example : ∃ t, compileTrace params opts arith = some t ∧ ∀ w, 7 < acceptedTapes (.withPublic custom [3]) t.lc w 2 → ∃ ins outs, Eval arith ins outs true := by
  obtain ⟨t, h1, h2, h3⟩ := of_good arith_good
  have hd := arith_degree
  unfold degree at hd
  rw [h1, Option.bind_some] at hd
  refine ⟨t, h1, fun w hw => ?_⟩
  refine C47_arith_sound_partial (solveEnv_len canon custom hc [3]) (solveEnv_builtin canon custom hc [3]) params_ok arith_nodup (all_of (by decide)) h1 h2
    (C24_plain (solveEnv_len canon custom hc [3]) h1 (all_of (by decide))) (solveEnv_ok canon custom hc rfl) hd (le_refl 2) (w := w) ?_
  rw [ZMod.card]
  omega

end C47Ex

end Verif.Props
