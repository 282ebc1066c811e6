import Verif.Props.Examples
import Verif.IR.ReassignRoot

/-!
# C03: deduplication of sub-circuit outputs preserves meaning
-/

namespace Verif.Props

open Verif.IR

variable {F : Type} [Field F] [DecidableEq F]

/-- The generic statement: the pass succeeds, the result passes validation, has the same interface, and the same results on every
input; the outputs of the root (of every circuit, with `force`) are pairwise distinct afterwards. -/
def ReassignCorrect {L : Lang F} (rc : RootCircuit L) (force : Bool) : Prop :=
  ∃ rc', reassign rc force = some rc' ∧ rc'.vertices.Nodup ∧ rc'.validate = true ∧
    rc'.numPublicInputs = rc.numPublicInputs ∧ rc'.expectedNumOutputZeroes = rc.expectedNumOutputZeroes ∧
    (∀ (ins outs : List F) (b : Bool), Eval rc ins outs b ↔ Eval rc' ins outs b) ∧
    (∀ c circ, rc'.get c = some circ → c = 0 ∨ force = true → circ.outputs.Nodup)

theorem reassignCorrect {L : Lang F} (hL : L.Lawful) (h1 : L.allowDupInputs = true) (h2 : L.allowDupConstraints = true)
    (h3 : L.allowDupOutputs = true) (rc : RootCircuit L) (hk : rc.vertices.Nodup) (hv : rc.validate = true) (force : Bool) :
    ReassignCorrect rc force := by
  obtain ⟨rc', a, b, c, d, e, _, f, g⟩ := reassign_correct hL h1 h2 h3 rc hk ((validate_iff rc hk).1 hv) force
  exact ⟨rc', a, b, (validate_iff rc' b).2 c, d, e, f, g⟩

theorem C03_source (E : Env F) (hE : E.HintLen) (rc : RootCircuit (source E)) (hk : rc.vertices.Nodup)
    (hv : rc.validate = true) (force : Bool) : ReassignCorrect rc force :=
  reassignCorrect (source_lawful E hE) rfl rfl rfl rc hk hv force

theorem C03_hintNormalized (E : Env F) (hE : E.HintLen) (rc : RootCircuit (hintNorm E)) (hk : rc.vertices.Nodup)
    (hv : rc.validate = true) (force : Bool) : ReassignCorrect rc force :=
  reassignCorrect (hintNorm_lawful E hE) rfl rfl rfl rc hk hv force

theorem C03_hintLess (E : Env F) (rc : RootCircuit (hintLess E)) (hk : rc.vertices.Nodup)
    (hv : rc.validate = true) (force : Bool) : ReassignCorrect rc force :=
  reassignCorrect (hintLess_lawful E) rfl rfl rfl rc hk hv force

/-- Expression level (the pipeline runs the pass on the relaxed variant). -/
theorem C03_dest (E : Env F) (rc : RootCircuit (dest E true)) (hk : rc.vertices.Nodup)
    (hv : rc.validate = true) (force : Bool) : ReassignCorrect rc force :=
  reassignCorrect (dest_lawful E true) rfl rfl rfl rc hk hv force

/-- The hypotheses are met, and the pass changes the circuit. -/
example : Ex.srcRc.validate = true ∧ Ex.srcRc.vertices.Nodup ∧
    (∃ c ∈ Ex.srcRc.circuits, ¬ c.2.outputs.Nodup) ∧
    (reassign Ex.srcRc true).map (fun r => r.circuits.map (fun c => c.2.outputs)) = some [[6, 3, 9], [3, 5, 4]] :=
  ⟨Ex.srcRc_valid, Ex.srcRc_nodup, ⟨_, List.mem_cons_self .., by decide⟩, by decide +kernel⟩

end Verif.Props
