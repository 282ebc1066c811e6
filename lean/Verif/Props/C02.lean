import Verif.Props.Examples
import Verif.IR.DceRoot
import Verif.IR.Compose

/-!
# C02: dead code removal preserves meaning

`Eval rc ins outs b`: evaluating `rc` on `ins` can return the outputs `outs` with constraint verdict `b`.  Random coefficients and
hint answers are nondeterministic, so "the same result" is an equivalence of these relations.
-/

namespace Verif.Props

open Verif.IR

variable {F : Type} [Field F] [DecidableEq F]

/-- The pass succeeds; the new circuit passes validation again; the mapping goes from the old inputs to the new ones; on mapped
inputs the new circuit has exactly the results of the old one.  Languages: hint-normalised, hint-less, expression level. -/
theorem C02_hintNormalized (E : Env F) (hE : E.HintLen) (hT : E.HintTotal) (rc : RootCircuit (hintNorm E))
    (hk : rc.vertices.Nodup) (hv : rc.validate = true) (root : Circuit (hintNorm E)) (hr : rc.get 0 = some root) :
    ∃ rc' im, removeUnreachable rc = some (rc', im) ∧ rc'.vertices.Nodup ∧ rc'.validate = true ∧
      im.curSize = root.numInputs ∧ ∀ ins : List F, ins.length = root.numInputs →
        ∃ ins', im.mapInputs 0 ins = some ins' ∧ ∀ outs b, Eval rc ins outs b ↔ Eval rc' ins' outs b := by
  obtain ⟨rc', im, h1, h2, h3, h4, _, _, h5⟩ :=
    removeUnreachable_correct (hintNorm_lawful E hE) rc hk ((validate_iff rc hk).1 hv) root hr
  refine ⟨rc', im, h1, h2, (validate_iff rc' h2).2 h3, h4, fun ins hl => ?_⟩
  obtain ⟨ins', a, b, c⟩ := h5 ins hl
  exact ⟨ins', a, fun outs v => ⟨b outs v, c (hintNorm_total E hT) outs v⟩⟩

theorem C02_hintLess (E : Env F) (rc : RootCircuit (hintLess E))
    (hk : rc.vertices.Nodup) (hv : rc.validate = true) (root : Circuit (hintLess E)) (hr : rc.get 0 = some root) :
    ∃ rc' im, removeUnreachable rc = some (rc', im) ∧ rc'.vertices.Nodup ∧ rc'.validate = true ∧
      im.curSize = root.numInputs ∧ ∀ ins : List F, ins.length = root.numInputs →
        ∃ ins', im.mapInputs 0 ins = some ins' ∧ ∀ outs b, Eval rc ins outs b ↔ Eval rc' ins' outs b := by
  obtain ⟨rc', im, h1, h2, h3, h4, _, _, h5⟩ :=
    removeUnreachable_correct (hintLess_lawful E) rc hk ((validate_iff rc hk).1 hv) root hr
  refine ⟨rc', im, h1, h2, (validate_iff rc' h2).2 h3, h4, fun ins hl => ?_⟩
  obtain ⟨ins', a, b, c⟩ := h5 ins hl
  exact ⟨ins', a, fun outs v => ⟨b outs v, c (hintLess_total E) outs v⟩⟩

theorem C02_dest (E : Env F) (relaxed : Bool) (rc : RootCircuit (dest E relaxed))
    (hk : rc.vertices.Nodup) (hv : rc.validate = true) (root : Circuit (dest E relaxed)) (hr : rc.get 0 = some root) :
    ∃ rc' im, removeUnreachable rc = some (rc', im) ∧ rc'.vertices.Nodup ∧ rc'.validate = true ∧
      im.curSize = root.numInputs ∧ ∀ ins : List F, ins.length = root.numInputs →
        ∃ ins', im.mapInputs 0 ins = some ins' ∧ ∀ outs b, Eval rc ins outs b ↔ Eval rc' ins' outs b := by
  obtain ⟨rc', im, h1, h2, h3, h4, _, _, h5⟩ :=
    removeUnreachable_correct (dest_lawful E relaxed) rc hk ((validate_iff rc hk).1 hv) root hr
  refine ⟨rc', im, h1, h2, (validate_iff rc' h2).2 h3, h4, fun ins hl => ?_⟩
  obtain ⟨ins', a, b, c⟩ := h5 ins hl
  exact ⟨ins', a, fun outs v => ⟨b outs v, c (dest_total E relaxed) outs v⟩⟩

/-- Source circuits: every result of the old circuit is a result of the new one.  The converse fails, see
`C02_source_violated`: an instruction that would have returned `Err` may be removed. -/
theorem C02_source_partial (E : Env F) (hE : E.HintLen) (rc : RootCircuit (source E))
    (hk : rc.vertices.Nodup) (hv : rc.validate = true) (root : Circuit (source E)) (hr : rc.get 0 = some root) :
    ∃ rc' im, removeUnreachable rc = some (rc', im) ∧ rc'.vertices.Nodup ∧ rc'.validate = true ∧
      im.curSize = root.numInputs ∧ ∀ ins : List F, ins.length = root.numInputs →
        ∃ ins', im.mapInputs 0 ins = some ins' ∧ ∀ outs b, Eval rc ins outs b → Eval rc' ins' outs b := by
  obtain ⟨rc', im, h1, h2, h3, h4, _, _, h5⟩ :=
    removeUnreachable_correct (source_lawful E hE) rc hk ((validate_iff rc hk).1 hv) root hr
  refine ⟨rc', im, h1, h2, (validate_iff rc' h2).2 h3, h4, fun ins hl => ?_⟩
  obtain ⟨ins', a, b, _⟩ := h5 ins hl
  exact ⟨ins', a, b⟩

/-- A source circuit that computes `x / y` (checked) without using the quotient and outputs `x`. -/
def deadDiv : RootCircuit (source Ex.env) := ⟨0, 0, [(0, ⟨[.div 1 2 true], [], [1], 2⟩)]⟩

/-- The implied assertion of an unused instruction is lost: evaluating the source circuit on `(1, 0)` gives no result (`Err`,
division by zero), the circuit after dead code removal accepts that input. -/
theorem C02_source_violated : deadDiv.validate = true ∧
    ∃ rc' im, removeUnreachable deadDiv = some (rc', im) ∧
      (∀ outs b, ¬ Eval deadDiv [1, 0] outs b) ∧
      ∃ ins' outs, im.mapInputs 0 ([1, 0] : List Ex.F7) = some ins' ∧ Eval rc' ins' outs true := by
  refine ⟨by decide +kernel, _, _, rfl, ?_, [1], [1], by decide +kernel, ?_⟩
  · rintro outs b ⟨root, all, b0, hg, hl, ⟨vs, sb, cb, hrun, _⟩, _⟩
    have : root = ⟨[.div 1 2 true], [], [1], 2⟩ := by
      have h : deadDiv.get 0 = some ⟨[.div 1 2 true], [], [1], 2⟩ := rfl
      rw [h] at hg; exact (Option.some.inj hg).symm
    subst this
    obtain ⟨o, hp, _⟩ := (run_prim_iff (L := source Ex.env) rfl).1 hrun
    obtain ⟨args, h1, h2⟩ := hp
    have : args = [1, 0] := by
      have h : mapOpt (fun v => ([0, 1, 0] : List Ex.F7)[v]?) [1, 2] = some [1, 0] := rfl
      exact (Option.some.inj (h1.symm.trans h)).trans rfl
    subst this
    simp [Source.Insn.sem] at h2
  · refine ⟨_, [1], true, rfl, rfl, ⟨[0, 1], true, true, .nil _, rfl, rfl, rfl⟩, by decide, rfl, rfl⟩

/-- The hypotheses are met; the pass really removes things. -/
example : Ex.srcRc.validate = true ∧ Ex.srcRc.vertices.Nodup ∧ Ex.hlRc.validate = true ∧ Ex.destRc.validate = true ∧
    ((removeUnreachable Ex.srcRc).map (fun p => (p.2.mapping, p.1.circuits.map (fun c => c.2.instructions.length)))) =
      some ([some 0, none], [2, 3]) :=
  ⟨Ex.srcRc_valid, Ex.srcRc_nodup, Ex.hlRc_valid, Ex.destRc_valid, by decide +kernel⟩

end Verif.Props
