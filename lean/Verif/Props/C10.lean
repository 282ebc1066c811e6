import Verif.Props.Examples
import Verif.FinalBuild.Root

/-!
# C10: lowering to expressions (`builder/final_build_opt.rs`)
-/

set_option linter.unusedSimpArgs false

namespace Verif.Props

open Verif.IR Verif.Builder Verif.FinalBuild

variable {F : Type} [Field F] [DecidableEq F]

/-- `final_build_opt::process` on any validated hint-less circuit, for any cost parameters as shipped (constants cost as much as additions,
additions at most as much as products, a variable at least three additions) and any order `ltE` used to break ties between factors:
it never panics.
Either it reports a constraint that is a non-zero constant, and then some circuit can never be evaluated with all constraints satisfied - and if
that circuit is reachable from the root circuit, no evaluation of the whole is accepted;
or it returns a circuit with exactly the same outcomes: the same outputs and the same verdict on every input, for every draw of random values.
The result has the same circuits, well-formed references, the same public inputs, contains no random-linear terms, draws random values only
where the original does, and validates if the root circuit has an output.  Missing from the full claim: validity when there is no output, which
fails, see `C10_empty_violated`. -/
theorem C10_finalBuild_partial (E : Env F) {cs : Costs} (hcs : CostOk cs) (ltE : Expr F → Expr F → Bool) (rc : RootCircuit (hintLess E)) (hk : rc.vertices.Nodup)
    (hv : rc.validate = true) :
    (process cs ltE E rc = .userError ∧ ∃ c circ, rc.get c = some circ ∧
      (∀ ins outs b, ins.length = circ.numInputs → EvalSub rc.get circ ins outs b → b = false) ∧
      (Relation.ReflTransGen (Calls rc.get) 0 c → ∀ (ins outs : List F) (b : Bool), Eval rc ins outs b → b = false)) ∨
    ∃ rc', process cs ltE E rc = .ok rc' ∧ rc'.vertices.Nodup ∧ (∀ c, c ∈ rc'.vertices ↔ c ∈ rc.vertices) ∧
      rc'.numPublicInputs = rc.numPublicInputs ∧ (∀ c, (rc'.get c).map (·.numInputs) = (rc.get c).map (·.numInputs)) ∧
      (∀ (ins outs : List F) (b : Bool), Eval rc' ins outs b ↔ Eval rc ins outs b) ∧
      WFGet (some rc'.numPublicInputs) rc'.get ∧
      ((∀ root, rc.get 0 = some root → root.outputs ≠ []) → rc'.validate = true) ∧
      (∀ c circ, rc'.get c = some circ → ∀ e, (.internal e : Dest.Insn F) ∈ (circ.instructions : List (Dest.Insn F)) → ∀ t ∈ e, ∀ x, t.vars ≠ .randomLinear x) ∧
      ((∀ c circ, rc.get c = some circ → (.constantLike .random : HintLess.Insn F) ∉ (circ.instructions : List (HintLess.Insn F))) →
        ∀ c circ, rc'.get c = some circ → (.constantLike .random : Dest.Insn F) ∉ (circ.instructions : List (Dest.Insn F))) := by
  have hw := (validate_iff rc hk).1 hv
  rcases process_spec (E := E) hcs ltE rc hk hw.wf with ⟨h, c, circ, hc, hn⟩ | ⟨rc', h, hp⟩
  · left
    exact ⟨h, c, circ, hc, hn, fun hr => reach_neverOk hw.wf hc hn hr⟩
  · right
    refine ⟨rc', h, hp.verts.1, hp.verts.2, hp.npi, fun c => ?_, fun ins outs b => (hp.eval hw.wf ins outs b).symm, hp.wf hw.wf, ?_, ?_, ?_⟩
    · cases hg : rc.get c with
      | none =>
        cases hg' : rc'.get c with
        | none => rfl
        | some c' => obtain ⟨circ, h1, _⟩ := hp.back c c' hg'; rw [hg] at h1; cases h1
      | some circ =>
        obtain ⟨c', h1, h2⟩ := hp.image c circ hg
        rw [h1]; simp [h2.inputs]
    · intro hne
      exact (validate_iff rc' hp.verts.1).2 (hp.wf_root hw hne)
    · intro c circ hg e he
      obtain ⟨_, _, hi⟩ := hp.back c circ hg
      exact (hi.norand e he).1
    · intro hnr c circ hg hm
      obtain ⟨c0, h1, hi⟩ := hp.back c circ hg
      exact hnr c c0 h1 (hi.rnd hm)

/-- The cost parameters of the shipped configurations (config.rs:24-28, 63): both satisfy the hypothesis. -/
example : CostOk ⟨10, 3, 3, 100⟩ ∧ CostOk ⟨200, 3, 3, 100⟩ := ⟨⟨rfl, by decide, by decide, by decide⟩, ⟨rfl, by decide, by decide, by decide⟩⟩

/-- The model runs: the example circuit lowers, and the product in the root circuit is materialised for the constraint. -/
example : ∃ rc', process ⟨10, 3, 3, 100⟩ (fun _ _ => false) Ex.env Ex.hlRc = .ok rc' ∧ rc'.validate = true := by
  have hcs : CostOk ⟨10, 3, 3, 100⟩ := ⟨rfl, by decide, by decide, by decide⟩
  rcases C10_finalBuild_partial Ex.env hcs (fun _ _ => false) Ex.hlRc Ex.hlRc_nodup Ex.hlRc_valid with ⟨h, _⟩ | ⟨rc', h, _, _, _, _, _, _, hv, _⟩
  · have : (match process (E := Ex.env) ⟨10, 3, 3, 100⟩ (fun _ _ => false) Ex.env Ex.hlRc with | .userError => true | _ => false) = false := by decide +kernel
    rw [h] at this; cases this
  · exact ⟨rc', h, hv (by intro root hr; cases hr; simp)⟩

/-- What comes out for a product, a sum, and their product with a constraint on it: three variables, the sum made a variable because it is an output. -/
example : (match procCircuit (E := Ex.env) (F := Ex.F7) ⟨10, 3, 3, 100⟩ (fun _ _ => false) Ex.env (fun _ => none)
    ⟨[.mul [1, 2], .linComb ⟨[(1, 2)], 3⟩, .mul [3, 4]], [⟨(), 5⟩], [4], 2⟩ with
    | .ok (c, l) => (c.instructions.length, c.constraints.map (·.var), c.outputs, l) | _ => (0, [], [], 0)) = (3, [4], [5], 1) := by decide +kernel

/-- A root circuit without outputs whose only constraint is on the constant zero. -/
def zeroOnly : RootCircuit (hintLess Ex.env) := ⟨0, 0, [(0, ⟨[.constantLike (.const 0)], [⟨(), 2⟩], [], 1⟩)]⟩

/-- Constraints on the constant zero are dropped; when nothing else is left the valid input circuit is lowered to an invalid one, so
compilation of a trivially satisfiable circuit fails. -/
theorem C10_empty_violated : zeroOnly.validate = true ∧ zeroOnly.vertices.Nodup ∧
    ∃ rc', process ⟨10, 3, 3, 100⟩ (fun _ _ => false) Ex.env zeroOnly = .ok rc' ∧ rc'.validate = false := by
  refine ⟨by decide +kernel, by decide, ?_⟩
  refine ⟨⟨0, 0, [(0, ⟨[], [], [], 1⟩)]⟩, rfl, by decide +kernel⟩

/-- A constraint on a non-zero constant is reported. -/
example : (match process (E := Ex.env) (F := Ex.F7) ⟨10, 3, 3, 100⟩ (fun _ _ => false) Ex.env ⟨0, 0, [(0, ⟨[.constantLike (.const 3)], [⟨(), 2⟩], [1], 1⟩)]⟩ with
    | .userError => true | _ => false) = true := by decide +kernel

end Verif.Props
