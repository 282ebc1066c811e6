import Verif.Props.Examples
import Verif.IR.ExportCons

/-!
# C12: exporting constraints as outputs is faithful
-/

namespace Verif.Props

open Verif.IR Verif.IR.ExportCons

variable {F : Type} [Field F] [DecidableEq F]

/-- For every validated relaxed expression-level circuit: `export_constraints` does not panic, its result passes `validate` again, no
circuit of the result has a constraint, and for every input vector the result can produce exactly the outputs and verdicts of the
original (a verdict includes the check that the leading expected-zero outputs are zero, so the added outputs carry all constraints). -/
theorem C12_exportConstraints (E : Env F) (rc : RootCircuit (dest E true)) (hk : rc.vertices.Nodup) (hv : rc.validate = true) :
    ∃ rc', exportConstraints rc = some rc' ∧ rc'.vertices.Nodup ∧ rc'.validate = true ∧ rc'.numPublicInputs = rc.numPublicInputs ∧
      (∀ c circ, rc'.get c = some circ → circ.constraints = []) ∧
      (∀ c, (rc'.get c).map (·.numInputs) = (rc.get c).map (·.numInputs)) ∧
      ∀ (ins outs : List F) (b : Bool), Eval rc' ins outs b ↔ Eval rc ins outs b := by
  obtain ⟨rc', h1, h2, h3, h4, h5⟩ := exportConstraints_correct (dest_lawful E true) rfl rfl (fun _ _ => rfl) rc hk ((validate_iff rc hk).1 hv)
  refine ⟨rc', h1, h2, (validate_iff rc' h2).2 ?_, h4, h5⟩
  rw [WF, h4]; exact h3

/-- A satisfied verdict of the exported circuit says that all constraint values are zero: since nothing but outputs is left, the verdict
is the conjunction over the leading outputs. -/
theorem C12_verdict (E : Env F) (rc : RootCircuit (dest E true)) (hk : rc.vertices.Nodup) (hv : rc.validate = true) :
    ∃ rc', exportConstraints rc = some rc' ∧ rc.expectedNumOutputZeroes ≤ rc'.expectedNumOutputZeroes ∧
      ∀ (ins outs : List F) (b : Bool), Eval rc ins outs b ↔ ∃ root' zeroes, rc'.get 0 = some root' ∧ ins.length = root'.numInputs ∧
        zeroes.length = rc'.expectedNumOutputZeroes ∧ EvalSub rc'.get root' ins (zeroes ++ outs) true ∧
        b = zeroes.all (fun x => decide (x = 0)) := by
  have hw := (validate_iff rc hk).1 hv
  obtain ⟨rc', add, e1, e2, e3, e4, e5, e6⟩ := exportConstraints_eq rc hk hw.wf
  refine ⟨rc', e1, by omega, fun ins outs b => ?_⟩
  rw [← eval_export (dest_lawful E true) (fun _ _ => rfl) rc rc' hw.wf e2 e6 e5]
  constructor
  · rintro ⟨root', all, b0, h1, h2, h3, h4, rfl, rfl⟩
    have hb0 : b0 = true := by
      rw [e6] at h1 h3
      simp only [exportedGet, Option.map_eq_some_iff] at h1
      obtain ⟨root, hg, rfl⟩ := h1
      exact ((export_spec (dest_lawful E true) (fun _ _ => rfl) hw.wf e2 0 root hg .refl ins h2).2 all b0 h3).1
    subst hb0
    exact ⟨root', all.take rc'.expectedNumOutputZeroes, h1, h2, by simp; omega, by rw [List.take_append_drop]; exact h3, rfl⟩
  · rintro ⟨root', zs, h1, h2, h3, h4, rfl⟩
    exact ⟨root', zs ++ outs, true, h1, h2, h4, by simp; omega, by simp [← h3], by simp [← h3]⟩

/-- The example circuit: two constraints, one in a called circuit. -/
example : Ex.destRc.validate = true ∧ Ex.destRc.vertices.Nodup ∧
    (exportConstraints Ex.destRc).map (fun r => (r.expectedNumOutputZeroes, r.circuits.map (fun c => (c.1, c.2.outputs)))) =
      some (3, [(0, [5, 6, 7, 3, 7, 8]), (1, [3, 3, 4, 1])]) ∧
    (exportConstraints Ex.destRc).map (fun r => r.circuits.map (fun c => (c.2.instructions : List (Dest.Insn Ex.F7)))) =
      some [[.call 1 [1, 2] 4, .internal [⟨2, .linear 3⟩, ⟨3, .quad 4 4⟩], .constantLike (.pub 0)],
        [.internal [⟨1, .quad 1 1⟩], .internal [⟨5, .const⟩, ⟨1, .linear 3⟩]]] :=
  ⟨by decide +kernel, by decide, by decide +kernel, by decide +kernel⟩

end Verif.Props
