import Verif.Props.Examples
import Verif.Layering.Correct
import Verif.Layering.CompileTotal
import Verif.Layered.Uniform
import Verif.Layering.ValidRoot

/-!
# C15: lowering to layers preserves meaning
-/

set_option linter.unusedSimpArgs false

namespace Verif.Props

open Verif.IR Verif.Layering

variable {F : Type} [Field F] [DecidableEq F]

/-- For every validated expression-level circuit, both target configurations (`cross`: relays may skip layers; `reorder`: inputs may be moved)
and every result of `layering::compile`: let `V` be an evaluation environment of the layered circuit that has the constants, public inputs and
custom gates of the expression-level circuit.  The input mapping sends different inputs to different positions of the input layer.  For every
buffer that holds the input values at these positions (the other positions of the layer are padding and may hold anything)
1. every outcome (outputs and verdict) of the expression-level circuit is an outcome of the layered circuit for some random coefficients;
2. for all random coefficients the outputs of the layered circuit are outputs of the expression-level circuit, and if all constraints
   hold there the layered circuit accepts;
3. for all random coefficients evaluation of the layered circuit succeeds.
In particular a violated constraint is detected by some choice of the random coefficients (1 with `b = false`); C16 counts how many. -/
theorem C15_placed (E : Env F) (rc : RootCircuit (dest E false)) (hk : rc.vertices.Nodup) (hv : rc.validate = true)
    (cross reorder : Bool) (fuel : Nat) (lc : Layered.Circuit F) (size : Nat) (order : List (Option Nat))
    (h : compile cross reorder (progGet rc.get) fuel rc.numPublicInputs rc.expectedNumOutputZeroes = some (lc, size, order))
    (V : Layered.LEnv F F) (hconst : ∀ x, V.const x = x) (hcustom : ∀ g xs, V.custom g xs = E.custom g xs)
    (hpub : ∀ i < rc.numPublicInputs, V.pub i = some (E.pub i))
    (root : Circuit (dest E false)) (hr : rc.get 0 = some root) :
    InputMapping.InRange ⟨size, order⟩ ∧ InputMapping.Injective ⟨size, order⟩ ∧ order.length = root.numInputs ∧
    ∀ ins buf : List F, InputMapping.Placed ⟨size, order⟩ ins buf →
      (∀ outs b, Eval rc ins outs b → ∃ tape, lc.eval V buf tape = some (outs, b)) ∧
      (∀ tape outs b', lc.eval V buf tape = some (outs, b') → ∃ b, Eval rc ins outs b ∧ (b = true → b' = true)) ∧
      ∀ tape, ∃ outs b, lc.eval V buf tape = some (outs, b) := by
  have hw := (validate_iff rc hk).1 hv
  have key := fun (ins : List F) (hlen : ins.length = root.numInputs) => compile_correct (ins := ins) (.of_wf hw) ⟨hconst, hcustom⟩ hpub h hr hlen
  obtain ⟨h1, h2, h3, -⟩ := key (List.replicate root.numInputs 0) (by simp)
  refine ⟨h1, h2, h3, fun ins buf hp => ?_⟩
  have hlen : ins.length = root.numInputs := by rw [hp.cur]; exact h3
  obtain ⟨-, -, -, hb⟩ := key ins hlen
  obtain ⟨hc, hs⟩ := hb buf hp
  refine ⟨hc, hs, fun tape => ?_⟩
  obtain ⟨outs, b, he⟩ := wf_eval_total (dest_total E false) (dest_lawful E false) rc hw root hr ins hlen
  obtain ⟨t, ht⟩ := hc outs b he
  exact Layered.eval_uniform ht rfl tape

/-- `C15_placed` for the buffer that `map_inputs` returns. -/
theorem C15_layering (E : Env F) (rc : RootCircuit (dest E false)) (hk : rc.vertices.Nodup) (hv : rc.validate = true)
    (cross reorder : Bool) (fuel : Nat) (lc : Layered.Circuit F) (size : Nat) (order : List (Option Nat))
    (h : compile cross reorder (progGet rc.get) fuel rc.numPublicInputs rc.expectedNumOutputZeroes = some (lc, size, order))
    (V : Layered.LEnv F F) (hconst : ∀ x, V.const x = x) (hcustom : ∀ g xs, V.custom g xs = E.custom g xs)
    (hpub : ∀ i < rc.numPublicInputs, V.pub i = some (E.pub i))
    (root : Circuit (dest E false)) (hr : rc.get 0 = some root) (ins : List F) (hlen : ins.length = root.numInputs) :
    ∃ buf, InputMapping.mapInputs ⟨size, order⟩ (0 : F) ins = some buf ∧
      (∀ outs b, Eval rc ins outs b → ∃ tape, lc.eval V buf tape = some (outs, b)) ∧
      (∀ tape outs b', lc.eval V buf tape = some (outs, b') → ∃ b, Eval rc ins outs b ∧ (b = true → b' = true)) := by
  obtain ⟨h1, h2, h3, h4⟩ := C15_placed E rc hk hv cross reorder fuel lc size order h V hconst hcustom hpub root hr
  obtain ⟨buf, hb, hp⟩ := InputMapping.mapInputs_placed h1 h2 (0 : F) (xs := ins) (hlen.trans h3.symm)
  exact ⟨buf, hb, (h4 ins buf hp).1, (h4 ins buf hp).2.1⟩

/-- Without random values in the circuit there is one outcome: the outputs do not depend on the random coefficients, and if all constraints
hold the layered circuit accepts for all of them. -/
theorem C15_deterministic (E : Env F) (rc : RootCircuit (dest E false)) (hk : rc.vertices.Nodup) (hv : rc.validate = true)
    (cross reorder : Bool) (fuel : Nat) (lc : Layered.Circuit F) (size : Nat) (order : List (Option Nat))
    (h : compile cross reorder (progGet rc.get) fuel rc.numPublicInputs rc.expectedNumOutputZeroes = some (lc, size, order))
    (V : Layered.LEnv F F) (hconst : ∀ x, V.const x = x) (hcustom : ∀ g xs, V.custom g xs = E.custom g xs)
    (hpub : ∀ i < rc.numPublicInputs, V.pub i = some (E.pub i))
    (root : Circuit (dest E false)) (hr : rc.get 0 = some root) (ins : List F) (hlen : ins.length = root.numInputs)
    (outs : List F) (b : Bool) (he : ∀ outs' b', Eval rc ins outs' b' ↔ outs' = outs ∧ b' = b) :
    ∃ buf, InputMapping.mapInputs ⟨size, order⟩ (0 : F) ins = some buf ∧
      (∀ tape outs' b', lc.eval V buf tape = some (outs', b') → outs' = outs ∧ (b = true → b' = true)) ∧
      ∃ tape, lc.eval V buf tape = some (outs, b) := by
  obtain ⟨buf, h1, h2, h3⟩ := C15_layering E rc hk hv cross reorder fuel lc size order h V hconst hcustom hpub root hr ins hlen
  refine ⟨buf, h1, ?_, h2 outs b ((he outs b).2 ⟨rfl, rfl⟩)⟩
  intro tape outs' b' hl
  obtain ⟨b1, g1, g2⟩ := h3 tape outs' b' hl
  obtain ⟨rfl, rfl⟩ := (he _ _).1 g1
  exact ⟨rfl, g2⟩

/-- A circuit with a call, products, a public input, and constraints in both circuits. -/
def layRc : RootCircuit (dest Ex.env false) :=
  ⟨1, 1, [
    (0, ⟨[.call 1 [1, 2] 2, .internal [⟨2, .linear 3⟩, ⟨3, .quad 4 4⟩], .constantLike (.pub 0)], [⟨(), 5⟩], [6, 3, 5], 2⟩),
    (1, ⟨[.internal [⟨1, .quad 1 1⟩], .internal [⟨5, .const⟩, ⟨1, .linear 3⟩]], [⟨(), 1⟩], [3, 4], 2⟩)]⟩

/-- Both configurations return a layered circuit for it. -/
example : layRc.validate = true ∧ layRc.vertices.Nodup ∧
    (∃ r, compile false false (progGet layRc.get) 5 layRc.numPublicInputs layRc.expectedNumOutputZeroes = some r) ∧
    ∃ r, compile true true (progGet layRc.get) 5 layRc.numPublicInputs layRc.expectedNumOutputZeroes = some r :=
  ⟨by decide +kernel, by decide, Option.isSome_iff_exists.1 (by decide +kernel), Option.isSome_iff_exists.1 (by decide +kernel)⟩

/-- `layering::compile` returns: for every validated expression-level circuit in which every called circuit has inputs (checked before by
`validate_circuit_has_inputs`, dest/mod.rs:341-349), in all configurations, none of its panics is reached, and the recursion over the call graph ends. -/
theorem C15_total (E : Env F) (rc : RootCircuit (dest E false)) (hk : rc.vertices.Nodup) (hv : rc.validate = true)
    (hin : ∀ d circ, Relation.TransGen (Calls rc.get) 0 d → rc.get d = some circ → circ.numInputs ≠ 0) (cross reorder : Bool) :
    ∃ N, ∀ fuel, N ≤ fuel → ∃ r, compile cross reorder (progGet rc.get) fuel rc.numPublicInputs rc.expectedNumOutputZeroes = some r := by
  have hw := (validate_iff rc hk).1 hv
  obtain ⟨root, h0, _⟩ := hw.root
  exact compile_total hw.wf h0 hin cross reorder _ _

/-- Every circuit of the example has inputs. -/
example : ∀ d circ, Relation.TransGen (Calls layRc.get) 0 d → layRc.get d = some circ → circ.numInputs ≠ 0 := by
  intro d circ _ h
  have := mem_of_get h
  simp only [layRc, List.mem_cons, List.not_mem_nil, or_false, Prod.mk.injEq] at this
  rcases this with ⟨_, rfl⟩ | ⟨_, rfl⟩ <;> decide

/-- The layered circuit is valid: for every validated expression-level circuit in which no internal variable has the empty expression (the compiler
makes none: an empty sum is the term 0, expr.rs:245-261), `Circuit::validate` accepts what `layering::compile` returns.  So all sizes are powers of two,
all blocks are aligned, every wire that is read is written, and no wire is left out. -/
theorem C15_valid (E : Env F) (rc : RootCircuit (dest E false)) (hk : rc.vertices.Nodup) (hv : rc.validate = true)
    (hne : ∀ c circ, rc.get c = some circ → ∀ e, Dest.Insn.internal e ∈ circ.instructions → e ≠ [])
    (cross reorder : Bool) (fuel : Nat) (lc : Layered.Circuit F) (size : Nat) (order : List (Option Nat))
    (h : compile cross reorder (progGet rc.get) fuel rc.numPublicInputs rc.expectedNumOutputZeroes = some (lc, size, order)) :
    lc.validate = some true :=
  compile_valid ((validate_iff rc hk).1 hv).wf hne h

/-- No internal variable of the example has the empty expression. -/
example : ∀ c circ, layRc.get c = some circ → ∀ e, Dest.Insn.internal e ∈ circ.instructions → e ≠ [] := by
  intro c circ h e he
  have := mem_of_get h
  simp only [layRc, List.mem_cons, List.not_mem_nil, or_false, Prod.mk.injEq] at this
  rcases this with ⟨_, rfl⟩ | ⟨_, rfl⟩
  · simp only [List.mem_cons, List.not_mem_nil, or_false] at he
    rcases he with he | he | he <;> cases he
    simp
  · simp only [List.mem_cons, List.not_mem_nil, or_false] at he
    rcases he with he | he <;> cases he <;> simp

/-- The layered evaluation environment of the example. -/
example : ∀ i < layRc.numPublicInputs, (Layered.LEnv.withPublic Ex.env.custom [Ex.env.pub 0]).pub i = some (Ex.env.pub i) := by
  intro i hi
  have : i = 0 := by change i < 1 at hi; omega
  subst this; rfl

end Verif.Props
