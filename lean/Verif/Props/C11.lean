import Verif.Props.Examples
import Verif.IR.MulFanoutRoot

/-!
# C11: the multiplication fan-out limit
-/

set_option linter.unusedSimpArgs false

namespace Verif.Props

open Verif.IR Verif.IR.MulFanout

variable {F : Type} [Field F] [DecidableEq F]

/-- Specification: how often variable `x` is a factor of a product in one term. -/
def termFactors (x : Nat) (t : Term F) : Nat :=
  match t.vars with
  | .quad a b => (if a = x then 1 else 0) + (if b = x then 1 else 0)
  | _ => 0

/-- Specification: how often variable `x` is a factor of a product in one instruction. -/
def insnFactors (x : Nat) : Dest.Insn F → Nat
  | .internal e => (e.map (termFactors x)).sum
  | _ => 0

/-- Specification: how often variable `x` is a factor of a product in a circuit. -/
def productUses (x : Nat) (is : List (Dest.Insn F)) : Nat := (is.map (insnFactors x)).sum

theorem productUses_eq (x : Nat) (is : List (Dest.Insn F)) : productUses x is = (is.flatMap insnQuads).count x := by
  have ht : ∀ t : Term F, termFactors x t = (termQuads t).count x := by
    rintro ⟨c, v⟩
    cases v <;> simp only [termFactors, termQuads, List.count_nil, List.count_cons, beq_iff_eq]
    omega
  have hi : ∀ i : Dest.Insn F, insnFactors x i = (insnQuads i).count x := by
    intro i
    cases i with
    | internal e =>
      simp only [insnFactors, insnQuads, quads, List.count_flatMap]
      congr 1
      exact List.map_congr_left (fun t _ => ht t)
    | call c xs n => rfl
    | constantLike c => rfl
  simp only [productUses, List.count_flatMap]
  congr 1
  exact List.map_congr_left (fun t _ => hi t)

/-- For every limit of at least 2 and every validated relaxed expression-level circuit without random-linear terms (none are built before
the layering stage): the pass does not panic; the result validates, has the same circuits with the same numbers of inputs; no variable of any circuit of the result
is a factor of more than `limit` products; every outcome of the original is an outcome of the result; and if no instruction draws a random
value both have exactly the same outcomes.  Missing from the full claim: the last part for circuits with random values, which is false, see
`C11_random_violated`. -/
theorem C11_mulFanout_partial (E : Env F) (limit : Nat) (hl : 2 ≤ limit) (rc : RootCircuit (dest E true)) (hk : rc.vertices.Nodup) (hv : rc.validate = true)
    (hrl : ∀ c circ, rc.get c = some circ → ∀ e, (.internal e : Dest.Insn F) ∈ (circ.instructions : List (Dest.Insn F)) → ∀ t ∈ e, ∀ x, t.vars ≠ .randomLinear x) :
    ∃ rc', solveRoot E limit rc = some rc' ∧ rc'.vertices = rc.vertices ∧ rc'.validate = true ∧ rc'.numPublicInputs = rc.numPublicInputs ∧
      (∀ c, (rc'.get c).map (·.numInputs) = (rc.get c).map (·.numInputs)) ∧
      (∀ c circ, rc'.get c = some circ → ∀ x, productUses x (circ.instructions : List (Dest.Insn F)) ≤ limit) ∧
      (∀ (ins outs : List F) (b : Bool), Eval rc ins outs b → Eval rc' ins outs b) ∧
      ((∀ c circ, rc.get c = some circ → (.constantLike .random : Dest.Insn F) ∉ (circ.instructions : List (Dest.Insn F))) →
        ∀ (ins outs : List F) (b : Bool), Eval rc' ins outs b ↔ Eval rc ins outs b) := by
  have hrl' : ∀ c circ, rc.get c = some circ → ∀ j ∈ (circ.instructions : List (Dest.Insn F)), NoRandomLinear j := by
    intro c circ hg j hj
    cases j with
    | internal e => exact hrl c circ hg e hj
    | call c xs n => trivial
    | constantLike c => trivial
  obtain ⟨rc', h1, h2, h3, h4, h5, h6, h7, h8⟩ := solveRoot_correct limit hl rc ((validate_iff rc hk).1 hv) hk hrl'
  refine ⟨rc', h1, h2, (validate_iff rc' (by rw [h2]; exact hk)).2 (by rw [WF, h4]; exact h3), h4, h5, ?_, h7, ?_⟩
  · intro c circ hg x
    rw [productUses_eq]; exact h6 c circ hg x
  · intro hP ins outs b
    refine ⟨h8 ?_ ins outs b, h7 ins outs b⟩
    intro c circ hg j hj
    cases j with
    | internal e => exact hrl c circ hg e hj
    | call c xs n => trivial
    | constantLike k =>
      cases k with
      | random => exact absurd hj (hP c circ hg)
      | const _ => simp [SolveDup.NoRandom]
      | pub _ => simp [SolveDup.NoRandom]

/-- A limit below 2 makes the pass panic. -/
theorem C11_limit_panic (E : Env F) (limit : Nat) (h : limit ≤ 1) (rc : RootCircuit (dest E true)) : solveRoot E limit rc = none := by
  simp [solveRoot, h]

/-- One random challenge squared twice; the difference of the squares is the output. -/
def fanRandom : RootCircuit (dest Ex.env true) :=
  ⟨0, 0, [(0, ⟨[.constantLike .random, .internal [⟨1, .quad 2 2⟩], .internal [⟨1, .quad 2 2⟩], .internal [⟨1, .linear 3⟩, ⟨6, .linear 4⟩]], [], [5], 1⟩)]⟩

/-- The full claim fails: the original always outputs 0, but with limit 2 the challenge is drawn twice and the output can be 1. -/
theorem C11_random_violated : fanRandom.validate = true ∧ fanRandom.vertices.Nodup ∧
    (∀ ins outs b, Eval fanRandom ins outs b → outs = [0]) ∧
    ∃ rc', solveRoot Ex.env 2 fanRandom = some rc' ∧ rc'.validate = true ∧ Eval rc' [0] [1] true := by
  refine ⟨by decide +kernel, by decide, ?_, ?_⟩
  · rintro ins outs b ⟨root, all, b0, hg, hl, ⟨vs, sb, cb, hr, hk, ho, rfl⟩, _, rfl, _⟩
    have e0 : fanRandom.get 0 = some ⟨[.constantLike .random, .internal [⟨1, .quad 2 2⟩], .internal [⟨1, .quad 2 2⟩], .internal [⟨1, .linear 3⟩, ⟨6, .linear 4⟩]],
      [], [5], 1⟩ := rfl
    rw [e0] at hg; cases hg
    obtain ⟨x, rfl⟩ := List.length_eq_one_iff.1 hl
    obtain ⟨o1, ⟨y, _, rfl⟩, r1⟩ := (run_prim_iff (L := dest Ex.env true) rfl).1 hr
    obtain ⟨o2, ⟨z2, ⟨a2, b2, ⟨a2', ha2, rfl⟩, rfl, rfl⟩, rfl⟩, r2⟩ := (run_prim_iff (L := dest Ex.env true) rfl).1 r1
    obtain ⟨o3, ⟨z3, ⟨a3, b3, ⟨a3', ha3, rfl⟩, rfl, rfl⟩, rfl⟩, r3⟩ := (run_prim_iff (L := dest Ex.env true) rfl).1 r2
    obtain ⟨o4, ⟨z4, ⟨a4, b4, ⟨a4', ha4, rfl⟩, ⟨a5, b5, ⟨a5', ha5, rfl⟩, rfl, rfl⟩, rfl⟩, rfl⟩, r4⟩ := (run_prim_iff (L := dest Ex.env true) rfl).1 r3
    obtain ⟨rfl, rfl⟩ := run_nil_iff.1 r4
    obtain ⟨p, q, hp, hq, rfl⟩ := ha2
    obtain ⟨p', q', hp', hq', rfl⟩ := ha3
    simp at hp hq hp' hq'
    subst hp hq hp' hq'
    simp [VarSpec.Sem] at ha4 ha5
    subst ha4 ha5
    simp [readAll] at ho
    subst ho
    have h7 : y * y + y * y * (6 : Ex.F7) = 0 := by
      have : (7 : Ex.F7) = 0 := by decide
      calc y * y + y * y * 6 = y * y * 7 := by ring
        _ = 0 := by rw [this, mul_zero]
    have hz : fanRandom.expectedNumOutputZeroes = 0 := rfl
    simp [hz, h7]
  · refine ⟨⟨0, 0, [(0, ⟨[.constantLike .random, .constantLike .random, .internal [⟨1, .quad 2 2⟩], .internal [⟨1, .quad 3 3⟩],
      .internal [⟨1, .linear 4⟩, ⟨6, .linear 5⟩]], [], [6], 1⟩)]⟩, rfl, by decide +kernel, ?_⟩
    refine ⟨_, [1], true, rfl, rfl, ?_, by simp, by simp, by simp⟩
    refine ⟨[0, 0, 1, 0, 1, 0, 1], true, true, ?_, rfl, rfl, rfl⟩
    refine (run_prim_iff (L := dest Ex.env true) rfl).2 ⟨[1], ⟨1, trivial, rfl⟩, ?_⟩
    refine (run_prim_iff (L := dest Ex.env true) rfl).2 ⟨[0], ⟨0, trivial, rfl⟩, ?_⟩
    refine (run_prim_iff (L := dest Ex.env true) rfl).2 ⟨[1], ⟨1, ⟨1, 0, ⟨1, ⟨1, 1, rfl, rfl, by simp⟩, by simp⟩, rfl, by simp⟩, rfl⟩, ?_⟩
    refine (run_prim_iff (L := dest Ex.env true) rfl).2 ⟨[0], ⟨0, ⟨0, 0, ⟨0, ⟨0, 0, rfl, rfl, by simp⟩, by simp⟩, rfl, by simp⟩, rfl⟩, ?_⟩
    refine (run_prim_iff (L := dest Ex.env true) rfl).2 ⟨[1], ⟨1, ?_, rfl⟩, Run.nil _⟩
    exact ⟨1, 0, ⟨1, rfl, by simp⟩, ⟨0, 0, ⟨0, rfl, by simp⟩, rfl, by simp⟩, by simp⟩

/-- A circuit meeting all hypotheses: an input in six products, an expression in four, a call. -/
def fanBusy : RootCircuit (dest Ex.env true) :=
  ⟨0, 1, [
    (0, ⟨[.internal [⟨3, .quad 1 1⟩], .internal [⟨2, .quad 1 2⟩, ⟨1, .quad 1 2⟩, ⟨1, .const⟩], .call 1 [2] 1, .internal [⟨1, .quad 2 4⟩, ⟨1, .quad 1 2⟩, ⟨1, .quad 1 3⟩]],
      [⟨(), 3⟩], [5, 3], 1⟩),
    (1, ⟨[.internal [⟨1, .linear 1⟩]], [], [2], 1⟩)]⟩

example : fanBusy.validate = true ∧ fanBusy.vertices.Nodup ∧
    (∀ p ∈ fanBusy.circuits, ∀ e, (.internal e : Dest.Insn Ex.F7) ∈ (p.2.instructions : List (Dest.Insn Ex.F7)) → ∀ t ∈ e, ∀ x, t.vars ≠ .randomLinear x) ∧
    (∀ p ∈ fanBusy.circuits, (.constantLike .random : Dest.Insn Ex.F7) ∉ (p.2.instructions : List (Dest.Insn Ex.F7))) ∧
    productUses 1 ((fanBusy.get 0).map (fun c => (c.instructions : List (Dest.Insn Ex.F7)))).get! = 6 ∧
    (solveRoot Ex.env 2 fanBusy).map (fun r => r.circuits.map (fun c => (c.2.instructions : List (Dest.Insn Ex.F7)).length)) = some [11, 1] := by
  refine ⟨by decide +kernel, by decide, ?_, ?_, by decide +kernel, by decide +kernel⟩
  · intro p hp e he t ht x
    simp only [fanBusy, List.mem_cons, List.not_mem_nil, or_false] at hp
    rcases hp with rfl | rfl
    · simp at he
      rcases he with rfl | rfl | rfl <;> simp at ht <;> rcases ht with rfl | rfl | rfl <;> simp
    · simp at he; subst he; simp at ht; subst ht; simp
  · intro p hp
    simp only [fanBusy, List.mem_cons, List.not_mem_nil, or_false] at hp
    rcases hp with rfl | rfl <;> simp

end Verif.Props
