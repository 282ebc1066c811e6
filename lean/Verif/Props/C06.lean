import Verif.Props.Examples
import Verif.Builder.Assert

/-!
# C06: hint normalisation is complete
-/

namespace Verif.Props

open Verif.IR Verif.Builder

variable {F : Type} [Field F] [DecidableEq F]

/-- Hint normalisation of a validated source circuit never panics.  It either reports a user error, which happens only if some
circuit has a division or an unconstrained operation, or returns a circuit with the same circuit ids, number of public inputs and of
zero outputs, which satisfies every reference condition `validate` checks, and which, with the built-in hint implementations, has
every outcome of the source circuit: the same outputs and the same constraint verdict. -/
theorem C06_complete (E : Env F) (hE : E.HintLen) (hB : E.Builtin) (srt : List (Expr F) → List (Expr F)) (hsrt : ∀ l, (srt l).Perm l)
    (rc : RootCircuit (source E)) (hk : rc.vertices.Nodup) (hv : rc.validate = true) :
    (process E.canon srt E rc = .userError ∧
      ∃ c circ, rc.get c = some circ ∧ ∃ i ∈ (circ.instructions : List (Source.Insn F)), (∃ x y ch, i = .div x y ch) ∨ ∃ x y op, i = .unconstrainedBinOp x y op) ∨
    ∃ rc', process E.canon srt E rc = .ok rc' ∧ rc'.vertices.Nodup ∧ (∀ c, c ∈ rc'.vertices ↔ c ∈ rc.vertices) ∧
      rc'.numPublicInputs = rc.numPublicInputs ∧ rc'.expectedNumOutputZeroes = rc.expectedNumOutputZeroes ∧
      WFGet (some rc'.numPublicInputs) rc'.get ∧
      ∀ ins outs b, Eval rc ins outs b → Eval rc' ins outs b := by
  have hw := (validate_iff rc hk).1 hv
  rcases process_spec (cn := E.canon) hsrt E rc hk hw with h | ⟨rc', h1, h2⟩
  · left
    refine ⟨h, ?_⟩
    obtain ⟨c, circ, g1, i, g2, g3⟩ := process_userError h
    refine ⟨c, circ, g1, i, g2, ?_⟩
    cases i with
    | div x y ch => exact .inl ⟨x, y, ch, rfl⟩
    | unconstrainedBinOp x y op => exact .inr ⟨x, y, op, rfl⟩
    | _ => simp [mayReject] at g3
  · right
    exact ⟨rc', h1, h2.verts.1, h2.verts.2, h2.npi, h2.zeroes, h2.wf hsrt hw, fun ins outs b he => h2.complete hsrt hE hB hw he⟩

/-- The expected use: if all constraints of the source circuit hold, the honest hints satisfy all constraints of the result. -/
theorem C06_satisfiable (E : Env F) (hE : E.HintLen) (hB : E.Builtin) (srt : List (Expr F) → List (Expr F)) (hsrt : ∀ l, (srt l).Perm l)
    (rc : RootCircuit (source E)) (hk : rc.vertices.Nodup) (hv : rc.validate = true) (rc' : RootCircuit (hintNorm E))
    (hp : process E.canon srt E rc = .ok rc') (ins outs : List F) (he : Eval rc ins outs true) : Eval rc' ins outs true := by
  rcases C06_complete E hE hB srt hsrt rc hk hv with ⟨h, _⟩ | ⟨rc2, h1, _, _, _, _, _, h2⟩
  · rw [h] at hp; cases hp
  · rw [h1] at hp; cases hp
    exact h2 ins outs true he

/-! ## The hypotheses are met -/

/-- `hint_call` may return anything of the right length, in particular what hints/builtin.rs computes. -/
theorem env_builtin : Ex.env.Builtin := fun _ _ _ _ _ h => h

/-- A circuit with every gadget: checked and unchecked division, boolean operations, is-zero, bits, all three assertions. -/
def gadgetRc : RootCircuit (source Ex.env) :=
  ⟨0, 0, [
    (0, ⟨[.div 1 2 true, .div 1 2 false, .isZero 3, .toBinary 1 3, .boolBinOp 6 7 .xor, .call 1 [6, 9] 1, .unconstrainedSelect 5 1 2], [⟨.nonZero, 2⟩, ⟨.bool, 6⟩], [3, 4, 5, 9, 10], 2⟩),
    (1, ⟨[.boolBinOp 1 2 .and, .boolBinOp 1 3 .or], [⟨.zero, 3⟩], [4], 2⟩)]⟩

theorem gadgetRc_valid : gadgetRc.validate = true := by decide +kernel
theorem gadgetRc_nodup : gadgetRc.vertices.Nodup := by decide

/-- The shape of a result: constraints, outputs, number of inputs and of instructions of each circuit. -/
def shape (o : Outcome (RootCircuit (hintNorm Ex.env))) : List (Nat × List Nat × List Nat × Nat × Nat) := match o with
  | .ok rc => rc.circuits.map (fun (c : Nat × Circuit (hintNorm Ex.env)) => (c.1, c.2.constraints.map (·.var), c.2.outputs, c.2.numInputs, c.2.instructions.length))
  | _ => []

/-- Hint normalisation succeeds on it, emitting one constraint per distinct assertion and none for the marked ones. -/
example : shape (process Ex.env.canon id Ex.env gadgetRc) =
    [(0, [56, 38, 35, 44, 59, 15, 10, 6], [7, 8, 14, 47, 51], 2, 55), (1, [10, 8, 16], [22], 2, 23)] := by decide +kernel

/-- Is it a user error? -/
def isUserError {α : Type} : Outcome α → Bool
  | .userError => true
  | _ => false

/-- Division by a constant zero is the user error. -/
example : isUserError (process Ex.env.canon id Ex.env (⟨0, 0, [(0, ⟨[.constantLike (.const 0), .div 1 2 true], [], [3], 1⟩)]⟩ : RootCircuit (source Ex.env))) = true := by
  decide +kernel

end Verif.Props
