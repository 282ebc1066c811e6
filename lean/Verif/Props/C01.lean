import Verif.Props.Examples

/-!
# C01: validated IR circuits always evaluate

`EvalPanics` enumerates the ways the evaluator can panic (undefined variable, missing sub-circuit, wrong number of inputs, slice
out of range); `EvalFails` is an `Err` result.  Source circuits may legitimately return `Err` (checked division by zero, a
non-boolean operand of a boolean operation, ...); for the three later languages the evaluator always returns a result.
-/

set_option linter.unusedSectionVars false

namespace Verif.Props

open Verif.IR

variable {F : Type} [Field F] [DecidableEq F]

/-- Source circuits.  The `commit` instruction (unimplemented in the evaluator) counts as a failure. -/
theorem C01_source (E : Env F) (hE : E.HintLen) (rc : RootCircuit (source E)) (hk : rc.vertices.Nodup)
    (hv : rc.validate = true) :
    ∃ root, rc.get 0 = some root ∧ ∀ ins : List F, ins.length = root.numInputs →
      ¬ EvalPanics rc ins ∧ ((∃ outs b, Eval rc ins outs b) ∨ EvalFails rc ins) ∧
      (∀ outs b, Eval rc ins outs b → outs.length + rc.expectedNumOutputZeroes = root.outputs.length) := by
  have hw := (validate_iff rc hk).1 hv
  obtain ⟨root, hr, _⟩ := hw.root
  exact ⟨root, hr, fun ins hl => wf_eval (source_lawful E hE) rc hw root hr ins hl⟩

/-- Hint-normalised circuits, when every hint call with admissible arity is answered. -/
theorem C01_hintNormalized (E : Env F) (hE : E.HintLen) (hT : E.HintTotal) (rc : RootCircuit (hintNorm E))
    (hk : rc.vertices.Nodup) (hv : rc.validate = true) :
    ∃ root, rc.get 0 = some root ∧ ∀ ins : List F, ins.length = root.numInputs →
      ¬ EvalPanics rc ins ∧ (∃ outs b, Eval rc ins outs b) ∧
      (∀ outs b, Eval rc ins outs b → outs.length + rc.expectedNumOutputZeroes = root.outputs.length) := by
  have hw := (validate_iff rc hk).1 hv
  obtain ⟨root, hr, _⟩ := hw.root
  refine ⟨root, hr, fun ins hl => ?_⟩
  obtain ⟨h1, _, h3⟩ := wf_eval (hintNorm_lawful E hE) rc hw root hr ins hl
  exact ⟨h1, wf_eval_total (hintNorm_total E hT) (hintNorm_lawful E hE) rc hw root hr ins hl, h3⟩

/-- Hint-less circuits. -/
theorem C01_hintLess (E : Env F) (rc : RootCircuit (hintLess E)) (hk : rc.vertices.Nodup) (hv : rc.validate = true) :
    ∃ root, rc.get 0 = some root ∧ ∀ ins : List F, ins.length = root.numInputs →
      ¬ EvalPanics rc ins ∧ (∃ outs b, Eval rc ins outs b) ∧
      (∀ outs b, Eval rc ins outs b → outs.length + rc.expectedNumOutputZeroes = root.outputs.length) := by
  have hw := (validate_iff rc hk).1 hv
  obtain ⟨root, hr, _⟩ := hw.root
  refine ⟨root, hr, fun ins hl => ?_⟩
  obtain ⟨h1, _, h3⟩ := wf_eval (hintLess_lawful E) rc hw root hr ins hl
  exact ⟨h1, wf_eval_total (hintLess_total E) (hintLess_lawful E) rc hw root hr ins hl, h3⟩

/-- Expression-level circuits, strict and relaxed. -/
theorem C01_dest (E : Env F) (relaxed : Bool) (rc : RootCircuit (dest E relaxed)) (hk : rc.vertices.Nodup)
    (hv : rc.validate = true) :
    ∃ root, rc.get 0 = some root ∧ ∀ ins : List F, ins.length = root.numInputs →
      ¬ EvalPanics rc ins ∧ (∃ outs b, Eval rc ins outs b) ∧
      (∀ outs b, Eval rc ins outs b → outs.length + rc.expectedNumOutputZeroes = root.outputs.length) := by
  have hw := (validate_iff rc hk).1 hv
  obtain ⟨root, hr, _⟩ := hw.root
  refine ⟨root, hr, fun ins hl => ?_⟩
  obtain ⟨h1, _, h3⟩ := wf_eval (dest_lawful E relaxed) rc hw root hr ins hl
  exact ⟨h1, wf_eval_total (dest_total E relaxed) (dest_lawful E relaxed) rc hw root hr ins hl, h3⟩

/-- What `validate` accepts, declaratively: all references point backwards, every call names an existing sub-circuit with
matching arity, the call graph is acyclic, and the root exists and has an effect. -/
theorem C01_validate_iff {L : Lang F} (rc : RootCircuit L) (hk : rc.vertices.Nodup) : rc.validate = true ↔ WF rc :=
  validate_iff rc hk

/-- The hypotheses are met by circuits with sub-circuit calls in each language. -/
example : Ex.env.HintLen ∧ Ex.env.HintTotal ∧ Ex.srcRc.vertices.Nodup ∧ Ex.srcRc.validate = true ∧
    Ex.hnRc.vertices.Nodup ∧ Ex.hnRc.validate = true ∧ Ex.hlRc.vertices.Nodup ∧ Ex.hlRc.validate = true ∧
    Ex.destRc.vertices.Nodup ∧ Ex.destRc.validate = true :=
  ⟨Ex.env_len, Ex.env_total, Ex.srcRc_nodup, Ex.srcRc_valid, Ex.hnRc_nodup, Ex.hnRc_valid, Ex.hlRc_nodup, Ex.hlRc_valid,
    Ex.destRc_nodup, Ex.destRc_valid⟩

/-- `validate` rejects circuits that read an undefined variable, call a missing circuit, or recurse. -/
example : (⟨0, 0, [(0, ⟨[.mul [1, 3]], [], [2], 1⟩)]⟩ : RootCircuit (source Ex.env)).validate = false ∧
    (⟨0, 0, [(0, ⟨[.call 1 [1] 1], [], [2], 1⟩)]⟩ : RootCircuit (source Ex.env)).validate = false ∧
    (⟨0, 0, [(0, ⟨[.call 0 [1] 1], [], [2], 1⟩)]⟩ : RootCircuit (source Ex.env)).validate = false := by decide +kernel

end Verif.Props
