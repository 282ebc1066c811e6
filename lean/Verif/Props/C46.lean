import Verif.Props.C24
import Verif.Compile.LoopEnds
import Verif.Layering.CompileMono

/-!
# C46: a valid circuit is compiled

The compiler is meant to accept every valid circuit: it may reject it only for a reason that lies in the circuit (a constraint that can
never hold, a division by a constant zero, a circuit without inputs). `C46_noInputs_violated`: it does not. There is a valid, satisfiable circuit
in which every circuit has inputs, and the compiler rejects it with "circuit has no inputs" (dest/mod.rs:341-349, called at
compile/mod.rs:252-254) at each of its optimisation levels: splitting it at layers has made a part of it that consists of constants only. With
an input type that relays across layers, it is compiled.

`C46_compiles`: what does hold, of every valid circuit and every valid choice of options, at every optimisation level. Either the compiler
stops for one of the seven reasons listed in `Compile.Refused` (five lie in the constraints and in the constants; `combine` is the bound on
the number of constraints, `noInputs` is the check above), or it returns a valid layered circuit and a solver: no stage panics, every loop ends
and every later validation succeeds.

`C46_loop_ends`: the loop of `compile_step_3` ends, whatever is sampled in each of its rounds, with a valid circuit.
-/

set_option linter.unusedSectionVars false
set_option linter.unusedSimpArgs false

namespace Verif.Props

open Verif.IR Verif.IR.HintExport Verif.Compile Verif.Witness

namespace C46Ex

open C24Ex (env params)

/-- Squares its input `x` and asks for `pub * x ^ 2 = 0`; the product is made in a sub-circuit, which reads the public input. -/
def src : RootCircuit (source env) := ⟨1, 0, [
  (0, ⟨[.mul [1, 1], .call 1 [2] 1], [⟨.zero, 3⟩], [3], 1⟩),
  (1, ⟨[.constantLike (.pub 0), .mul [1, 2]], [], [3], 1⟩)]⟩

/-- All of `compile_step_1` and `compile_step_2` up to its last check (`validate_circuit_has_inputs`, compile/mod.rs:252-254): the circuit
that is checked. -/
def upToCheck (P : Params Ex.F7) (o : Options) (rc : RootCircuit (source env)) : Option (RootCircuit (IR.dest env false)) := do
  let (_, hn, _) ← step1 P o rc
  let (hl, _) ← removeAndExport env hn
  let (hl, im) ← step2a P o hl
  let (d, im) ← step2b P o hl im
  let (d, im) ← step2c o d im
  let (d, im) ← step2d P o d im
  let d ← if o.optLevel = 1 then reassign d true else some d
  let r ← SolveDup.solveDuplicates env P.ord d
  let (r, _) ← tidy o.optLevel P.fuel r im
  checked r

/-- The check of `validate_circuit_has_inputs` (dest/mod.rs:341-349). -/
def hasInputs {L : Lang Ex.F7} (rc : RootCircuit L) : Bool := rc.circuits.all fun p => decide (p.2.numInputs ≠ 0)

end C46Ex

open C46Ex in
/-- A valid and satisfiable circuit whose circuits all have inputs is rejected at every optimisation level, with every other stage
succeeding; when layers may be skipped it is compiled. -/
theorem C46_noInputs_violated :
    src.validate = true ∧ src.vertices.Nodup ∧ hasInputs src = true ∧ Eval src [0] [0] true ∧
    (∀ lvl ∈ [1, 2, 3],
      (∃ d, upToCheck C24Ex.params ⟨none, lvl, false, true, false⟩ src = some d ∧ hasInputs d = false) ∧
      compileTrace C24Ex.params ⟨none, lvl, false, true, false⟩ src = none ∧
      (compileTrace C24Ex.params ⟨none, lvl, false, true, true⟩ src).isSome = true) := by
  refine ⟨by decide +kernel, by decide, by decide, ?_, ?_⟩
  · refine ⟨_, [0], true, rfl, rfl, ⟨[0, 0, 0, 0], true, true, ?_, by decide, by decide, rfl⟩, by decide, rfl, rfl⟩
    refine .prim (L := source C24Ex.env) (outs := [0]) rfl ⟨[0, 0], rfl, rfl⟩ ?_
    refine .call (L := source C24Ex.env) (c := 1) (a := [2]) (n := 1) (args := [0]) (svs := [0, 0, 3, 0]) (res := [0]) (b := true) (sb := true) (cb := true) rfl rfl rfl ?_ (by decide) (by decide) (.nil _)
    refine .prim (L := source C24Ex.env) (outs := [3]) rfl ⟨[], rfl, ⟨3, rfl, rfl⟩⟩ ?_
    refine .prim (L := source C24Ex.env) (outs := [0]) rfl ⟨[0, 3], rfl, rfl⟩ (.nil _)
  · intro lvl hl
    have key : ∀ o : Options, ((upToCheck C24Ex.params o src).map hasInputs = some false) → ∃ d, upToCheck C24Ex.params o src = some d ∧ hasInputs d = false := by
      intro o h
      obtain ⟨d, h1, h2⟩ := Option.map_eq_some_iff.1 h
      exact ⟨d, h1, h2⟩
    have g : ∀ o : Options, (compileTrace C24Ex.params o src).isSome = false → compileTrace C24Ex.params o src = none := fun o h => by
      cases hc : compileTrace C24Ex.params o src with
      | none => rfl
      | some t => rw [hc] at h; cases h
    simp only [List.mem_cons, List.not_mem_nil, or_false] at hl
    rcases hl with rfl | rfl | rfl
    · exact ⟨key _ (by decide +kernel), g _ (by decide +kernel), by decide +kernel⟩
    · exact ⟨key _ (by decide +kernel), g _ (by decide +kernel), by decide +kernel⟩
    · exact ⟨key _ (by decide +kernel), g _ (by decide +kernel), by decide +kernel⟩

/-- At optimisation levels 1 and 2 the compiler returns a valid layered circuit, or there is a reason in `Compile.Refused`. -/
theorem C46_compiles_low {F : Type} [Field F] [DecidableEq F] {E : Env F} (P : Params F) (hP : P.Ok) {o : Options} (ho : o.valid = true) (hl : o.optLevel ≤ 2) (hE : E.HintLen)
    {rc : RootCircuit (source E)} (hnd : rc.vertices.Nodup) (hv : rc.validate = true) :
    Refused P o rc ∨ ∃ N, ∀ n, N ≤ n → ∃ t : Trace E, compileTrace (P.at n) o rc = some t ∧ t.dest.validate = true ∧ t.lc0.validate = some true ∧ t.lc.validate = some true := by
  rcases Compile.compile_total P ho hE hP.srt hP.costs hP.ord (valid_of hnd hv) with h | ⟨d, vd, hi, N, h⟩
  · exact .inl h
  · refine .inr ⟨N, fun n hn => ?_⟩
    obtain ⟨lc0, size, order, -, h1, h2⟩ := h n hn
    obtain ⟨lc, h3, h4⟩ := step3_total (P := P.at n) hP.layered.srtG hP.layered.srtC hl h1
    obtain ⟨t, h5, rfl, rfl, rfl⟩ := h2 lc h3
    exact ⟨t, h5, (validate_iff _ vd.1).2 vd.2, h1, h4⟩

/-- The order Rust derives for gates (`v` is the order of the field elements) meets what is asked of the sort. -/
example {F : Type} [Field F] [DecidableEq F] (v : F → Nat) : Layered.Sorts (List.insertionSort (Layered.GateLe v)) ∧ Layered.Stays (List.insertionSort (Layered.GateLe v)) := Layered.gateLe_sorts v

/-- The loop of `compile_step_3` on the circuit that layering returns for a valid circuit ends with a valid circuit, whatever is sampled in each round (`smp k` is the
choice made in round `k`). -/
theorem C46_loop_ends {F : Type} [Field F] [DecidableEq F] {E : Env F} {P : Params F} (hP : P.Ok) (hst : Layered.Stays P.srtG) {d : RootCircuit (dest E false)} (hnd : d.vertices.Nodup)
    (hv : d.validate = true) {o : Options} {fuel : Nat} {lc0 : Layered.Circuit F} {size : Nat} {order : List (Option Nat)}
    (h : Layering.compile o.cross o.allowReorder (Layering.progGet d.get) fuel d.numPublicInputs d.expectedNumOutputZeroes = some (lc0, size, order))
    (h0 : lc0.validate = some true) (smp : Nat → List (Layered.Segment F) → List (List (Layered.UniGate F))) :
    ∃ N lc, lc.validate = some true ∧ ∀ n, N ≤ n → sampledLoop P smp n 0 (lc0.dedup P.srtG) = some lc := by
  obtain ⟨o1, o2⟩ := Layering.compile_once ((validate_iff d hnd).1 hv).wf h
  exact sampledLoop_ends hP.layered hst smp (Layered.dedup_valid hP.layered.srtG h0) (tidy_dedup hP.layered.sorts h0 o1 o2) 0

/-- The hypotheses are met by a circuit with a call and constraints. -/
example : C24Ex.params.Ok ∧ Layered.Stays C24Ex.params.srtG ∧ layRc.vertices.Nodup ∧ layRc.validate = true ∧ ∃ lc0 size order,
    Layering.compile false false (Layering.progGet layRc.get) 5 layRc.numPublicInputs layRc.expectedNumOutputZeroes = some (lc0, size, order) ∧ lc0.validate = some true := by
  refine ⟨C24Ex.params_ok, Layered.sortGates_stays, by decide, by decide +kernel, ?_⟩
  obtain ⟨r, h, e⟩ := Option.map_eq_some_iff.1 (show (Layering.compile false false (Layering.progGet layRc.get) 5 layRc.numPublicInputs layRc.expectedNumOutputZeroes).map
    (fun r => r.1.validate) = some (some true) by decide +kernel)
  exact ⟨r.1, r.2.1, r.2.2, h, e⟩

/-- At every optimisation level a valid circuit is compiled to a valid layered circuit, which does not depend on the bounds on loops and recursion once they are large, or
there is a reason in `Compile.Refused`. -/
theorem C46_compiles {F : Type} [Field F] [DecidableEq F] {E : Env F} (P : Params F) (hP : P.Ok) (hst : Layered.Stays P.srtG) {o : Options} (ho : o.valid = true) (hE : E.HintLen)
    {rc : RootCircuit (source E)} (hnd : rc.vertices.Nodup) (hv : rc.validate = true) :
    Refused P o rc ∨ ∃ lc : Layered.Circuit F, lc.validate = some true ∧ ∃ N, ∀ n, N ≤ n →
      ∃ t : Trace E, compileTrace (P.at n) o rc = some t ∧ t.dest.validate = true ∧ t.lc0.validate = some true ∧ t.lc = lc := by
  have h1 : 1 ≤ o.optLevel := by
    simp only [Options.valid, Bool.and_eq_true, decide_eq_true_eq] at ho
    exact ho.1.2
  rcases Compile.compile_total P ho hE hP.srt hP.costs hP.ord (valid_of hnd hv) with h | ⟨d, vd, hi, N, h⟩
  · exact .inl h
  · obtain ⟨lc0, size, order, hc, h2, -⟩ := h N (le_refl _)
    obtain ⟨o1, o2⟩ := Layering.compile_once vd.2.wf hc
    obtain ⟨lc, v, M, hM⟩ := step3_ends hP.layered hst h1 h2 o1 o2
    refine .inr ⟨lc, v, N + M, fun n hn => ?_⟩
    obtain ⟨lc0', size', order', hc', -, h3⟩ := h n (by omega)
    have hcm := Layering.compile_mono vd.2.wf (by omega : N ≤ n) hc
    rw [hc'] at hcm
    cases hcm
    obtain ⟨t, h5, rfl, rfl, rfl⟩ := h3 lc (hM n (by omega))
    exact ⟨t, h5, (validate_iff _ vd.1).2 vd.2, h2, rfl⟩

/-- The hypotheses are met by a circuit that is compiled. -/
example : C24Ex.params.Ok ∧ Layered.Stays C24Ex.params.srtG ∧ C24Ex.opts.valid = true ∧ C24Ex.src.vertices.Nodup ∧ C24Ex.src.validate = true ∧ C24Ex.env.HintLen ∧
    (compileTrace C24Ex.params C24Ex.opts C24Ex.src).isSome = true :=
  ⟨C24Ex.params_ok, Layered.sortGates_stays, by decide, by decide, by decide +kernel, solveEnv_len C24Ex.canon C24Ex.custom C24Ex.hc [3], by decide +kernel⟩

end Verif.Props
