import Verif.Props.Examples
import Verif.Layering.SplitTotal

/-!
# C14: splitting circuits at layers preserves meaning
-/

set_option linter.unusedSimpArgs false

namespace Verif.Props

open Verif.IR Verif.Layering Verif.Layering.Split

variable {F : Type} [Field F] [DecidableEq F]

/-- With random combination of constraints (all fields except GF2), for every validated expression-level circuit with at least one constraint in
a circuit reachable from the root, and every result of `split_to_single_layer`: the result validates and has no constraints left (their random
combination is the first output, which must be zero: `expected_num_output_zeroes` grows by one);
1. every outcome (outputs and verdict) of the circuit is an outcome of the result;
2. the outputs of every outcome of the result are outputs of the circuit, and if the circuit accepts there, so does the result.

Missing from the full claim: circuits without constraints (see `C14_noConstraints_violated`); circuits with so many constraints that their
number vanishes in the field (equal constraints of one circuit are added up). -/
theorem C14_split_partial (E : Env F) (relaxed : Bool) (rc : RootCircuit (dest E relaxed)) (hk : rc.vertices.Nodup) (hv : rc.validate = true) (fuel : Nat)
    (r : Prog F × List (Prog F) × Nat) (h : splitRoot true (progGet rc.get) fuel rc.expectedNumOutputZeroes = some r)
    (hchar : ∀ d circ, rc.get d = some circ → ∀ k : Nat, 0 < k → k ≤ circ.constraints.length → (k : F) ≠ 0)
    (hsome : ∃ d circ, Relation.ReflTransGen (Calls rc.get) 0 d ∧ rc.get d = some circ ∧ circ.constraints ≠ []) :
    (splitRc E rc.numPublicInputs r).validate = true ∧ (splitRc E rc.numPublicInputs r).vertices.Nodup ∧
      (splitRc E rc.numPublicInputs r).expectedNumOutputZeroes = rc.expectedNumOutputZeroes + 1 ∧
      (∀ d circ, (splitRc E rc.numPublicInputs r).get d = some circ → circ.constraints = []) ∧
      (∀ ins outs b, Eval rc ins outs b → Eval (splitRc E rc.numPublicInputs r) ins outs b) ∧
      (∀ ins outs b', Eval (splitRc E rc.numPublicInputs r) ins outs b' → ∃ b, Eval rc ins outs b ∧ (b = true → b' = true)) := by
  obtain ⟨h1, h2, h3, h4⟩ := splitRoot_correct ((validate_iff rc hk).1 hv) h (fun _ => hchar) (fun _ => hsome) (fun h => by cases h)
  refine ⟨(validate_iff _ splitRc_nodup).2 h1, splitRc_nodup, splitRoot_zeroes h, h2, h3, fun ins outs b' hb => ?_⟩
  obtain ⟨b, g1, g2, -⟩ := h4 ins outs b' hb
  exact ⟨b, g1, g2⟩

/-- Without random combination (GF2: the constraints are already outputs): the result has the same outcomes. -/
theorem C14_split_noRandom (E : Env F) (relaxed : Bool) (rc : RootCircuit (dest E relaxed)) (hk : rc.vertices.Nodup) (hv : rc.validate = true) (fuel : Nat)
    (r : Prog F × List (Prog F) × Nat) (h : splitRoot false (progGet rc.get) fuel rc.expectedNumOutputZeroes = some r)
    (hnone : ∀ d circ, rc.get d = some circ → circ.constraints = []) :
    (splitRc E rc.numPublicInputs r).validate = true ∧ (splitRc E rc.numPublicInputs r).vertices.Nodup ∧
      (splitRc E rc.numPublicInputs r).expectedNumOutputZeroes = rc.expectedNumOutputZeroes ∧
      (∀ d circ, (splitRc E rc.numPublicInputs r).get d = some circ → circ.constraints = []) ∧
      (∀ ins outs b, Eval (splitRc E rc.numPublicInputs r) ins outs b ↔ Eval rc ins outs b) := by
  obtain ⟨h1, h2, h3, h4⟩ := splitRoot_correct ((validate_iff rc hk).1 hv) h (fun h => by cases h) (fun h => by cases h) (fun _ => hnone)
  refine ⟨(validate_iff _ splitRc_nodup).2 h1, splitRc_nodup, splitRoot_zeroes h, h2, fun ins outs b => ⟨fun hb => ?_, h3 ins outs b⟩⟩
  obtain ⟨b', g1, -, g2⟩ := h4 ins outs b hb
  rw [g2 rfl] at g1
  exact g1

/-- `split_to_single_layer` never fails: on every validated circuit it reaches none of its panics (indexing, missing variables, `assert!`s about the
layers of arguments and results), whatever the call graph, with random combination of constraints or without (then there must be no constraints:
that is asserted by the code).  `fuel` bounds the recursion depth only. -/
theorem C14_total (E : Env F) (relaxed random : Bool) (rc : RootCircuit (dest E relaxed)) (hk : rc.vertices.Nodup) (hv : rc.validate = true)
    (hchar : random = true → ∀ d circ, rc.get d = some circ → ∀ k : Nat, 0 < k → k ≤ circ.constraints.length → (k : F) ≠ 0)
    (hnone : random = false → ∀ d circ, rc.get d = some circ → circ.constraints = []) :
    ∃ N, ∀ fuel, N ≤ fuel → ∃ r, splitRoot random (progGet rc.get) fuel rc.expectedNumOutputZeroes = some r := by
  obtain ⟨N, hN⟩ := splitRoot_some ((validate_iff rc hk).1 hv) hchar hnone
  exact ⟨N, fun fuel hf => Option.isSome_iff_exists.1 (hN fuel hf)⟩

/-- A circuit for this case. -/
def splRc2 : RootCircuit (dest Ex.env true) :=
  ⟨0, 1, [
    (0, ⟨[.call 1 [1, 2] 2, .internal [⟨2, .linear 3⟩, ⟨3, .quad 4 4⟩], .call 1 [5, 1] 2], [], [6, 3, 7], 2⟩),
    (1, ⟨[.internal [⟨1, .quad 1 1⟩], .internal [⟨5, .const⟩, ⟨1, .quad 3 2⟩]], [], [3, 4], 2⟩)]⟩

example : splRc2.validate = true ∧ splRc2.vertices.Nodup ∧ (∃ r, splitRoot false (progGet splRc2.get) 5 splRc2.expectedNumOutputZeroes = some r) ∧
    ∀ d circ, splRc2.get d = some circ → circ.constraints = [] := by
  refine ⟨by decide +kernel, by decide, Option.isSome_iff_exists.1 (by decide +kernel), ?_⟩
  intro d circ h
  have hm := mem_of_get h
  simp only [splRc2, List.mem_cons, Prod.mk.injEq, List.not_mem_nil, or_false] at hm
  rcases hm with ⟨_, rfl⟩ | ⟨_, rfl⟩ <;> rfl

/-- A circuit with two nested calls on different layers, constraints in all circuits, a public input and an expected zero. -/
def splRc : RootCircuit (dest Ex.env true) :=
  ⟨1, 1, [
    (0, ⟨[.call 1 [1, 2] 2, .internal [⟨2, .linear 3⟩, ⟨3, .quad 4 4⟩], .constantLike (.pub 0), .call 1 [5, 6] 2, .call 2 [7] 1], [⟨(), 5⟩], [6, 3, 8, 9], 2⟩),
    (1, ⟨[.internal [⟨1, .quad 1 1⟩], .call 2 [3] 1, .internal [⟨5, .const⟩, ⟨1, .quad 4 2⟩]], [⟨(), 1⟩, ⟨(), 4⟩], [3, 5], 2⟩),
    (2, ⟨[.internal [⟨1, .quad 1 1⟩], .internal [⟨1, .quad 2 2⟩]], [⟨(), 2⟩], [3], 1⟩)]⟩

example : splRc.validate = true ∧ splRc.vertices.Nodup ∧ (∃ r, splitRoot true (progGet splRc.get) 5 splRc.expectedNumOutputZeroes = some r) ∧
    (∀ d circ, splRc.get d = some circ → ∀ k : Nat, 0 < k → k ≤ circ.constraints.length → (k : Ex.F7) ≠ 0) ∧
    ∃ d circ, Relation.ReflTransGen (Calls splRc.get) 0 d ∧ splRc.get d = some circ ∧ circ.constraints ≠ [] := by
  refine ⟨by decide +kernel, by decide, Option.isSome_iff_exists.1 (by decide +kernel), ?_, 0, _, .refl, rfl, by simp⟩
  intro d circ h k h1 h2
  have hm := mem_of_get h
  simp only [splRc, List.mem_cons, Prod.mk.injEq, List.not_mem_nil, or_false] at hm
  have : circ.constraints.length ≤ 2 := by rcases hm with ⟨_, rfl⟩ | ⟨_, rfl⟩ | ⟨_, rfl⟩ <;> simp
  have : k = 1 ∨ k = 2 := by omega
  rcases this with rfl | rfl <;> decide

/-- One input, one output, no constraints. -/
def splNone : RootCircuit (dest Ex.env true) := ⟨0, 0, [(0, ⟨[.internal [⟨1, .quad 1 1⟩]], [], [2], 1⟩)]⟩

/-- The full claim fails for circuits without constraints: there is nothing to combine, so no output is added, but the number of outputs that must
be zero still grows.  The only output (the square of the input) is not returned any more: it must be zero. -/
theorem C14_noConstraints_violated : splNone.validate = true ∧ splNone.vertices.Nodup ∧
    ∃ r, splitRoot true (progGet splNone.get) 5 splNone.expectedNumOutputZeroes = some r ∧
      Eval splNone [3] [2] true ∧ ∀ outs b, Eval (splitRc Ex.env splNone.numPublicInputs r) [3] outs b → outs = [] := by
  refine ⟨by decide +kernel, by decide, ⟨⟨1, [.internal [⟨1, .quad 1 1⟩]], [], [2]⟩, [], 1⟩, by decide +kernel, ?_, ?_⟩
  · refine ⟨_, [2], true, rfl, rfl, ⟨[0, 3, 2], true, true, ?_, rfl, rfl, rfl⟩, by simp [splNone], rfl, by simp [splNone]⟩
    refine (run_prim_iff (L := dest Ex.env true) rfl).2 ⟨[2], ⟨2, ?_, rfl⟩, .nil _⟩
    exact ⟨2, 0, ⟨2, ⟨3, 3, rfl, rfl, by decide⟩, by decide⟩, rfl, by decide⟩
  · rintro outs b ⟨root, all, b0, hg, hl, he, -, rfl, -⟩
    rw [splitRc_zero] at hg
    cases hg
    have : all.length = 1 := EvalSub.length he
    obtain ⟨x, rfl⟩ := List.length_eq_one_iff.1 this
    rfl

end Verif.Props
