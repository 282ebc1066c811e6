import Verif.Props.Examples
import Verif.IR.ChainsProof
import Verif.IR.DceRoot

/-!
# C04: chain detection preserves meaning
-/

namespace Verif.Props

open Verif.IR Verif.IR.Chains

variable {F : Type} [Field F] [DecidableEq F]

/-- For every validated source circuit: the pass keeps the set of circuits and the interface of each of them, all references
stay defined and calls stay matched and acyclic (`WFAt none`), and evaluation has exactly the same results (outputs and
constraint verdict) on every input. -/
theorem C04_detectChains (E : Env F) (hE : E.HintLen) (rc : RootCircuit (source E)) (hk : rc.vertices.Nodup)
    (hv : rc.validate = true) :
    (detectChains rc).vertices = rc.vertices ∧ WFAt none (detectChains rc) ∧
    (∀ c, ((detectChains rc).get c).map (fun k => (k.numInputs, k.outputs)) = (rc.get c).map (fun k => (k.numInputs, k.outputs))) ∧
    ∀ (ins outs : List F) (b : Bool), Eval (detectChains rc) ins outs b ↔ Eval rc ins outs b := by
  obtain ⟨h1, h2, h3, h4⟩ := detectChains_correct (qok_source hE) rc ((validate_iff rc hk).1 hv)
  exact ⟨h1, h2, h3, fun i o b => (h4 i o b).symm⟩

/-- The pass can be iterated (the optimiser does): a circuit produced by it can be fed to it again, any number of times. -/
theorem C04_iterate (E : Env F) (hE : E.HintLen) (rc : RootCircuit (source E)) (hk : rc.vertices.Nodup)
    (hv : rc.validate = true) (n : Nat) :
    ∀ (ins outs : List F) (b : Bool), Eval ((detectChains^[n]) rc) ins outs b ↔ Eval rc ins outs b := by
  have hw : WFAt (some rc.numPublicInputs) rc := (validate_iff rc hk).1 hv
  have key : ∀ n, ∃ npi, WFAt npi ((detectChains^[n]) rc) ∧ ∀ (ins outs : List F) (b : Bool),
      Eval ((detectChains^[n]) rc) ins outs b ↔ Eval rc ins outs b := by
    intro n
    induction n with
    | zero => exact ⟨_, hw, fun _ _ _ => Iff.rfl⟩
    | succ n ih =>
      obtain ⟨npi, h1, h2⟩ := ih
      rw [Function.iterate_succ_apply']
      obtain ⟨_, h3, _, h4⟩ := detectChains_correct (qok_source hE) _ h1
      exact ⟨none, h3, fun i o b => (h4 i o b).symm.trans (h2 i o b)⟩
  obtain ⟨_, _, h⟩ := key n
  exact h

/-- A chain of additions and a chain of multiplications; variable 4 is used once, variable 3 twice. -/
def chainRc : RootCircuit (source Ex.env) :=
  ⟨0, 0, [(0, ⟨[.linComb ⟨[(1, 1), (2, 2)], 3⟩, .linComb ⟨[(3, 5), (1, 1)], 0⟩, .linComb ⟨[(4, 2), (3, 1)], 1⟩,
    .mul [1, 2], .mul [6, 1], .mul [7, 7]], [⟨.zero, 5⟩], [5, 8], 2⟩)]⟩

/-- The hypotheses are met and the pass merges what it may and nothing else. -/
example : chainRc.validate = true ∧ chainRc.vertices.Nodup ∧
    ((detectChains chainRc).circuits.map (fun c => c.2.instructions)) =
      [[.linComb ⟨[(1, 1), (2, 2)], 3⟩, .linComb ⟨[], 0⟩, .linComb ⟨[(3, 10), (1, 2), (3, 1)], 1⟩,
        .mul [], .mul [1, 2, 1], .mul [7, 7]]] :=
  ⟨by decide +kernel, by decide, by decide +kernel⟩

end Verif.Props
