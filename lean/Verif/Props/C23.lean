import Verif.Props.Examples
import Verif.IR.RenumWF

/-!
# C23: re-adding removed inputs restores the public interface
-/

namespace Verif.Props

open Verif.IR Verif.IR.AddBack

variable {F : Type} [Field F] [DecidableEq F]

/-- For every validated hint-normalised circuit and every mapping onto its inputs (`nextSize` is its number of inputs, targets in
range): `add_back_removed_inputs` does not panic, the new root takes the original number of inputs, the public inputs are unchanged, and
on every input vector of that size the new circuit has exactly the results of the old circuit on the mapped vector. -/
theorem C23_addBack (E : Env F) (hE : E.HintLen) (rc : RootCircuit (hintNorm E)) (hk : rc.vertices.Nodup) (hv : rc.validate = true)
    (im : InputMapping) (hr : im.InRange) (root) (hg : rc.get 0 = some root) (hn : im.nextSize = root.numInputs) :
    ∃ rc', addBack im rc = some rc' ∧ rc'.vertices = rc.vertices ∧ rc'.numPublicInputs = rc.numPublicInputs ∧
      (∃ root', rc'.get 0 = some root' ∧ root'.numInputs = im.curSize) ∧
      ∀ ins : List F, ins.length = im.curSize → ∃ ins', im.mapInputs 0 ins = some ins' ∧
        ∀ outs b, Eval rc' ins outs b ↔ Eval rc ins' outs b :=
  addBack_correct (hintNorm_lawful E hE) rc ((validate_iff rc hk).1 hv) im hr hg hn

/-- If moreover every input of the circuit has an original and every circuit is reachable from the root — as after removing unreachable parts —
the result validates. -/
theorem C23_valid (E : Env F) (hE : E.HintLen) (rc : RootCircuit (hintNorm E)) (hk : rc.vertices.Nodup) (hv : rc.validate = true)
    (im : InputMapping) (hr : im.InRange) (hs : im.Surjective) (root) (hg : rc.get 0 = some root) (hn : im.nextSize = root.numInputs)
    (hreach : ∀ c circ, rc.get c = some circ → Relation.ReflTransGen (Calls rc.get) 0 c) :
    ∃ rc', addBack im rc = some rc' ∧ rc'.validate = true := by
  have hL := hintNorm_lawful E hE
  have hw := (validate_iff rc hk).1 hv
  obtain ⟨rc', h1, h2, h3, _⟩ := addBack_correct hL rc hw im hr hg hn
  refine ⟨rc', h1, (validate_iff rc' (by rw [h2]; exact hk)).2 ?_⟩
  have := addBack_wf hL hw im hr hs hg hn (noCallsRoot hw.wf hreach) h1
  unfold WF
  rw [h3]
  exact this

/-- Inputs 2 and 4 of five were removed, and the two remaining ones of the example circuit were swapped. -/
example : Ex.hnRc.validate = true ∧ Ex.hnRc.vertices.Nodup ∧ (Ex.hnRc.get 0).map (·.numInputs) = some 2 ∧
    (addBack ⟨2, [none, some 1, none, some 0]⟩ Ex.hnRc).map (fun r => r.circuits.map (fun c => (c.1, c.2.instructions, c.2.outputs, c.2.numInputs))) =
      some [(0, [.call 1 [4, 2] 3, .mul [5, 6], .hint 1234567 [7] 1], [8, 5, 8], 4),
        (1, [.mul [1, 1], .linComb ⟨[(3, 1)], 5⟩], [3, 3, 4], 2)] :=
  ⟨by decide +kernel, by decide, by decide +kernel, by decide +kernel⟩

example : (addBack ⟨2, [none, some 1, none, some 0]⟩ Ex.hnRc).map (·.validate) = some true := by decide +kernel

end Verif.Props
