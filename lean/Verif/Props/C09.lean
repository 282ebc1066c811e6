import Verif.Props.Examples
import Verif.IR.HintExportRoot

/-!
# C09: hint removal and hint export agree
-/

namespace Verif.Props

open Verif.IR Verif.IR.HintExport

variable {F : Type} [Field F] [DecidableEq F]

/-- For every validated hint-normalised circuit, `remove_and_export_hints` succeeds (none of its assertions fires), returns a
hint-less circuit that satisfies every condition `validate` checks, and the two circuits agree with the original one: for all
inputs of the declared size (root circuits with at least one variable),
1. every run of the original has a run of the hint-exporting circuit, whose outputs are the inputs followed by the hint values,
   such that the hint-less circuit on that vector has the same outputs and constraint verdict;
2. whatever vector the hint-exporting circuit returns, it starts with the inputs, and the hint-less circuit on it has the outputs
   and verdict of a run of the original;
3. if no random coefficient occurs, the hint-less circuit on such a vector can have no other result. -/
theorem C09_removeAndExport (E : Env F) (hE : E.HintLen) (rc : RootCircuit (hintNorm E)) (hk : rc.vertices.Nodup)
    (hv : rc.validate = true) :
    ∃ hl ex, removeAndExport E rc = some (hl, ex) ∧ hl.vertices = rc.vertices ∧ hl.validate = true ∧
      hl.numPublicInputs = rc.numPublicInputs ∧
      ∀ root, rc.get 0 = some root → numVars root.numInputs root.instructions ≠ 0 → ∀ ins : List F, ins.length = root.numInputs →
        (∀ outs b, Eval rc ins outs b → ∃ hints be, Eval ex ins (ins ++ hints) be ∧ Eval hl (ins ++ hints) outs b) ∧
        (∀ full be, Eval ex ins full be → ∃ hints, full = ins ++ hints ∧ ∃ outs b, Eval rc ins outs b ∧ Eval hl full outs b) ∧
        (NoRandom rc → ∀ full be outs b, Eval ex ins full be → Eval hl full outs b → Eval rc ins outs b) := by
  obtain ⟨hl, ex, h1, h2, h3, h4, h5, h6, _⟩ := removeAndExport_correct hE rc hk ((validate_iff rc hk).1 hv)
  refine ⟨hl, ex, h1, h2, (validate_iff hl (by rw [h2]; exact hk)).2 h4, h5, ?_⟩
  intro root hg hn ins hlen
  obtain ⟨g1, g2, g3⟩ := h6 root hg (.inl hn) ins hlen
  refine ⟨g1, g2, fun hr full be outs b he hh => ?_⟩
  obtain ⟨hints, rfl, _⟩ := g2 full be he
  exact g3 hr hints be outs b he hh

/-- With a malicious prover, who may put any values in the place of the hints: the results the hint-less circuit can have on the
inputs followed by arbitrary values are exactly the results the original circuit can have when its hints may answer anything. -/
theorem C09_adversarial (E : Env F) (hE : E.HintLen) (rc : RootCircuit (hintNorm E)) (hk : rc.vertices.Nodup)
    (hv : rc.validate = true) :
    ∃ hl ex, removeAndExport E rc = some (hl, ex) ∧
      ∀ root, rc.get 0 = some root → ∀ ins : List F, ins.length = root.numInputs →
        ∀ outs b, (∃ hints, Eval hl (ins ++ hints) outs b) ↔ Eval (castRc rc) ins outs b := by
  obtain ⟨hl, ex, h1, _, _, _, _, _, h6⟩ := removeAndExport_correct hE rc hk ((validate_iff rc hk).1 hv)
  refine ⟨hl, ex, h1, fun root hg ins hlen outs b => ?_⟩
  exact (h6 root hg ins hlen outs b).symm

/-- Hints in the root (before and after the calls) and in a sub-circuit called twice. -/
def hintRc : RootCircuit (hintNorm Ex.env) :=
  ⟨0, 0, [
    (0, ⟨[.hint 1234567 [1] 2, .call 1 [2, 3] 1, .mul [4, 5], .hint 7654321 [6] 1, .call 1 [7, 6] 1], [⟨(), 6⟩], [8], 2⟩),
    (1, ⟨[.hint 1234567 [1, 2] 1, .mul [2, 3]], [⟨(), 3⟩], [4], 2⟩)]⟩

/-- The hypotheses are met, and the vector handed to the hint-less circuit is: inputs, own hints, hints of the calls. -/
example : hintRc.validate = true ∧ hintRc.vertices.Nodup ∧ (hintRc.get 0).map (fun c => numVars c.numInputs c.instructions) = some 8 ∧
    ((removeAndExport Ex.env hintRc).map (fun p => p.1.circuits.map (fun c => (c.1, c.2.instructions, c.2.numInputs)))) =
      some [(0, [.call 1 [2, 3, 6] 1, .mul [4, 8], .call 1 [5, 9, 7] 1], 7), (1, [.mul [2, 3]], 3)] ∧
    ((removeAndExport Ex.env hintRc).map (fun p => p.2.circuits.map (fun c => (c.1, c.2.instructions, c.2.outputs)))) =
      some [(0, [.hint 1234567 [1] 2, .call 1 [2, 3] 2, .mul [4, 5], .hint 7654321 [7] 1, .call 1 [8, 7] 2], [1, 2, 3, 4, 8, 6, 10]),
        (1, [.hint 1234567 [1, 2] 1, .mul [2, 3]], [4, 3])] :=
  ⟨by decide +kernel, by decide, by decide +kernel, by decide +kernel, by decide +kernel⟩

end Verif.Props
