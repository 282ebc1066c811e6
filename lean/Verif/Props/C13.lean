import Verif.Props.Examples
import Verif.IR.SolveDup

/-!
# C13: duplicate-variable resolution
-/

namespace Verif.Props

open Verif.IR Verif.IR.SolveDup

variable {F : Type} [Field F] [DecidableEq F]

/-- For every validated relaxed expression-level circuit without duplicate outputs, and every iteration order of the constraint set:
`solve_duplicates` does not panic; the result passes the strict `validate` (no duplicate call arguments or outputs) with the same
number of inputs; every outcome of the original circuit is an outcome of the result; and if in no circuit a call comes after an instruction
that draws a random value (`RandLast`; in particular if no instruction draws one), the two have exactly the same outcomes.  Missing from the
full claim: the last part for all circuits with random values, which is false, see `C13_random_violated`. -/
theorem C13_solveDuplicates_partial (E : Env F) (ord : List Nat → List Nat) (hord : ∀ l, (ord l).Perm l) (rc : RootCircuit (dest E true))
    (hk : rc.vertices.Nodup) (hv : rc.validate = true) (hnd : ∀ c circ, rc.get c = some circ → circ.outputs.Nodup) :
    ∃ rc', solveDuplicates E ord rc = some rc' ∧ rc'.vertices = rc.vertices ∧ rc'.validate = true ∧
      rc'.numPublicInputs = rc.numPublicInputs ∧ (∀ c, (rc'.get c).map (·.numInputs) = (rc.get c).map (·.numInputs)) ∧
      (∀ (ins outs : List F) (b : Bool), Eval rc ins outs b → Eval rc' ins outs b) ∧
      ((∀ c circ, rc.get c = some circ → RandLast (circ.instructions : List (Dest.Insn F))) →
        ∀ (ins outs : List F) (b : Bool), Eval rc' ins outs b ↔ Eval rc ins outs b) := by
  obtain ⟨rc', h1, h2, h3, h4, h5, h6, h7⟩ := solveDuplicates_correct ord hord rc hk ((validate_iff rc hk).1 hv) hnd
  refine ⟨rc', h1, h2, (validate_iff rc' (by rw [h2]; exact hk)).2 ?_, h4, h5, h6, fun hP ins outs b => ⟨h7 hP ins outs b, h6 ins outs b⟩⟩
  rw [WF, h4]; exact h3

/-- Duplicate outputs make the pass panic. -/
theorem C13_panic (E : Env F) (ord : List Nat → List Nat) (rc : RootCircuit (dest E true)) (p : Nat × Circuit (dest E true))
    (hp : p ∈ rc.circuits) (hd : ¬ p.2.outputs.Nodup) : solveDuplicates E ord rc = none := by
  unfold solveDuplicates
  rw [Option.map_eq_none_iff]
  by_contra h
  obtain ⟨cs, hcs⟩ := Option.ne_none_iff_exists'.1 h
  have hs : ∀ (l : List (Nat × Circuit (dest E true))) cs, mapOpt (fun p => (solveCircuit E ord p.2).map (fun c => (p.1, c))) l = some cs → p ∉ l := by
    intro l
    induction l with
    | nil => intro cs _ h; cases h
    | cons q l ih =>
      intro cs h hm
      simp only [mapOpt_cons] at h
      obtain ⟨b, r', h1, h2, _⟩ := h
      rcases List.mem_cons.1 hm with rfl | hm
      · simp [solveCircuit, hd] at h1
      · exact ih _ h2 hm
  exact hs _ _ hcs hp

/-- One random challenge passed twice to a circuit that subtracts its arguments. -/
def dupRandom : RootCircuit (dest Ex.env true) :=
  ⟨0, 0, [
    (0, ⟨[.constantLike .random, .call 1 [2, 2] 1], [], [3], 1⟩),
    (1, ⟨[.internal [⟨1, .linear 1⟩, ⟨6, .linear 2⟩]], [], [3], 2⟩)]⟩

/-- The full claim fails: the original always outputs 0, but after the pass the challenge is drawn twice and the output can be 1. -/
theorem C13_random_violated : dupRandom.validate = true ∧ dupRandom.vertices.Nodup ∧
    (∀ c circ, dupRandom.get c = some circ → circ.outputs.Nodup) ∧
    (∀ ins outs b, Eval dupRandom ins outs b → outs = [0]) ∧
    ∃ rc', solveDuplicates Ex.env id dupRandom = some rc' ∧ rc'.validate = true ∧ Eval rc' [0] [1] true := by
  have hget : ∀ c circ, dupRandom.get c = some circ → (c, circ) ∈ dupRandom.circuits := fun c circ h => mem_of_get h
  refine ⟨by decide +kernel, by decide, ?_, ?_, ?_⟩
  · intro c circ h
    have := hget c circ h
    simp only [dupRandom, List.mem_cons, Prod.mk.injEq, List.not_mem_nil, or_false] at this
    rcases this with ⟨_, rfl⟩ | ⟨_, rfl⟩ <;> decide
  · rintro ins outs b ⟨root, all, b0, hg, hl, ⟨vs, sb, cb, hr, hk, ho, rfl⟩, _, rfl, _⟩
    have : root = ⟨[.constantLike .random, .call 1 [2, 2] 1], [], [3], 1⟩ := by
      have e : dupRandom.get 0 = some ⟨[.constantLike .random, .call 1 [2, 2] 1], [], [3], 1⟩ := rfl
      rw [e] at hg; cases hg; rfl
    subst this
    obtain ⟨x, rfl⟩ := List.length_eq_one_iff.1 hl
    obtain ⟨o1, p1, r1⟩ := (run_prim_iff (L := dest Ex.env true) rfl).1 hr
    obtain ⟨y, _, rfl⟩ := p1
    obtain ⟨circ, args, res, sb1, b1, g1, g2, g3, g4, rfl⟩ := (run_call_iff (L := dest Ex.env true) (c := 1) (a := [2, 2]) (n := 1) rfl).1 r1
    have e : dupRandom.get 1 = some ⟨[.internal [⟨1, .linear 1⟩, ⟨6, .linear 2⟩]], [], [3], 2⟩ := rfl
    rw [e] at g1; cases g1
    simp [readAll] at g2; subst g2
    obtain ⟨vs1, s1, c1, q1, q2, q3, q4⟩ := g3
    obtain ⟨o2, p2, r2⟩ := (run_prim_iff (L := dest Ex.env true) rfl).1 q1
    obtain ⟨z, ⟨a, b, ⟨a', ha', rfl⟩, ⟨a2, b2, ⟨a3, ha3, rfl⟩, rfl, rfl⟩, rfl⟩, rfl⟩ := p2
    obtain ⟨rfl, rfl⟩ := run_nil_iff.1 r2
    obtain ⟨rfl, rfl⟩ := run_nil_iff.1 g4
    simp [VarSpec.Sem] at ha' ha3
    subst ha' ha3
    simp [readAll] at q3 ho
    subst q3
    simp at ho
    subst ho
    have h7 : y + y * (6 : Ex.F7) = 0 := by
      have : (7 : Ex.F7) = 0 := by decide
      calc y + y * 6 = y * 7 := by ring
        _ = 0 := by rw [this, mul_zero]
    have hz : dupRandom.expectedNumOutputZeroes = 0 := rfl
    simp [hz, h7]
  · refine ⟨⟨0, 0, [
      (0, ⟨[.constantLike .random, .constantLike .random, .call 1 [2, 3] 1], [], [4], 1⟩),
      (1, ⟨[.internal [⟨1, .linear 1⟩, ⟨6, .linear 2⟩]], [], [3], 2⟩)]⟩, rfl, by decide +kernel, ?_⟩
    refine ⟨_, [1], true, rfl, rfl, ?_, by simp, by simp, by simp⟩
    refine ⟨[0, 0, 1, 0, 1], true, true, ?_, rfl, rfl, rfl⟩
    refine (run_prim_iff (L := dest Ex.env false) rfl).2 ⟨[1], ⟨1, trivial, rfl⟩, ?_⟩
    refine (run_prim_iff (L := dest Ex.env false) rfl).2 ⟨[0], ⟨0, trivial, rfl⟩, ?_⟩
    refine (run_call_iff (L := dest Ex.env false) (c := 1) (a := [2, 3]) (n := 1) rfl).2 ⟨_, [1, 0], [1], true, true, rfl, rfl, ?_, Run.nil _, rfl⟩
    refine ⟨[0, 1, 0, 1], true, true, ?_, rfl, rfl, rfl⟩
    refine (run_prim_iff (L := dest Ex.env false) rfl).2 ⟨[1], ⟨1, ?_, rfl⟩, Run.nil _⟩
    exact ⟨1, 0, ⟨1, rfl, by simp⟩, ⟨0, 0, ⟨0, rfl, by simp⟩, rfl, by simp⟩, by simp⟩

/-- A circuit meeting all hypotheses: a variable passed three times, an input passed twice. -/
def dupCall : RootCircuit (dest Ex.env true) :=
  ⟨0, 1, [
    (0, ⟨[.internal [⟨3, .quad 1 1⟩], .call 1 [2, 2, 2] 1, .call 1 [1, 3, 1] 1], [⟨(), 4⟩, ⟨(), 4⟩], [4, 3], 1⟩),
    (1, ⟨[.internal [⟨1, .linear 1⟩, ⟨6, .quad 2 3⟩]], [], [4], 3⟩)]⟩

example : dupCall.validate = true ∧ dupCall.vertices.Nodup ∧ (∀ p ∈ dupCall.circuits, p.2.outputs.Nodup) ∧
    (solveDuplicates Ex.env id dupCall).map (fun r => r.circuits.map (fun c => (c.2.instructions : List (Dest.Insn Ex.F7)))) =
      some [[.internal [⟨3, .quad 1 1⟩], .internal [⟨3, .quad 1 1⟩], .internal [⟨3, .quad 1 1⟩], .call 1 [2, 3, 4] 1,
        .internal [⟨1, .linear 1⟩], .call 1 [1, 5, 6] 1], [.internal [⟨1, .linear 1⟩, ⟨6, .quad 2 3⟩]]] ∧
    (solveDuplicates Ex.env id dupCall).map (fun r => r.circuits.map (fun c => (c.2.outputs, c.2.constraints.map (·.var)))) =
      some [([7, 5], [7]), ([4], [])] :=
  ⟨by decide +kernel, by decide, by decide, by decide +kernel, by decide +kernel⟩

end Verif.Props
