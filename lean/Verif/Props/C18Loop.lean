import Verif.Props.C24

/-!
# C18 — the two passes on the circuits the compiler gives them

The restrictions of `C18_expand_partial` and `C18_common_partial` are met by every circuit the loop of `compile_step_3` goes through, whatever the
samples and the iteration orders are: `layering::compile` lists no child without allocations and writes at most one public input to each wire
(`C18_layered`), and the loop keeps this.  So in the compiler the passes keep all outcomes (`C18_loop`).
-/

set_option linter.unusedSectionVars false

namespace Verif.Props

open Verif.IR Verif.Compile
open Verif.Layered (Gate Segment Alloc UniGate LEnv)

variable {F : Type} [Field F] [DecidableEq F]

/-- Specification: the number of gates with a public-input coefficient that write output `o` of a segment, called segments included; calls nest at
most `n` deep. -/
def pubWrites {F : Type} (c : Layered.Circuit F) : Nat → Segment F → Nat → Nat
  | 0, _, _ => 0
  | n + 1, s, o => (s.gateMuls ++ s.gateAdds ++ s.gateConsts ++ s.gateCustoms).countP (fun g => (match g.coef with | .pub _ => true | _ => false) && g.output == o) +
      (s.childSegs.map fun ch => (ch.2.map fun a => match c.segments[ch.1]? with
        | none => 0
        | some t => if a.outputOffset ≤ o then pubWrites c n t (o - a.outputOffset) else 0).sum).sum

theorem pubWrites_eq (c : Layered.Circuit F) : ∀ (n : Nat) (s : Segment F) (o : Nat), pubWrites c n s o = Layered.pubCount c.segments n s o := by
  intro n
  induction n with
  | zero => intros; rfl
  | succ n ih =>
    intro s o
    simp only [pubWrites, Layered.pubCount, Pi.add_apply]
    congr 1
    rw [Layered.chSum, Layering.pubSum_apply]
    congr 1
    apply List.map_congr_left
    intro ch _
    rw [Layering.pubSum_apply]
    congr 1
    apply List.map_congr_left
    intro a _
    simp only [Layered.childPub]
    cases c.segments[ch.1]? with
    | none => rfl
    | some t => simp only [Layered.shiftN, ih]

/-- `layering::compile` writes at most one public input to each wire and lists no child without allocations. -/
theorem C18_layered (E : Env F) (d : RootCircuit (dest E false)) (hk : d.vertices.Nodup) (hv : d.validate = true) (cross reorder : Bool) (fuel : Nat) (lc : Layered.Circuit F)
    (size : Nat) (order : List (Option Nat)) (h : Layering.compile cross reorder (Layering.progGet d.get) fuel d.numPublicInputs d.expectedNumOutputZeroes = some (lc, size, order)) :
    (∀ (i : Nat) s, lc.segments[i]? = some s → ∀ o, pubWrites lc (i + 1) s o ≤ 1) ∧ ∀ s ∈ lc.segments, ∀ ch ∈ s.childSegs, ch.2 ≠ [] := by
  obtain ⟨h1, h2⟩ := Layering.compile_once ((validate_iff d hk).1 hv).wf h
  exact ⟨fun i s hs o => by rw [pubWrites_eq]; exact h1 i s hs o, h2⟩

/-- An accepted circuit with these two properties keeps all its outcomes in the loop of `compile_step_3` after `dedup_gates`, for every sort of the gates and all other
orders and samples. -/
theorem C18_loop {P : Params F} (hG : Layered.Sorts P.srtG) (hA : ∀ l, (P.srtA l).Perm l) (hH : ∀ l, (P.ordH l).Perm l) (hEd : ∀ l, (P.srtE l).Perm l) (hC : ∀ l, (P.srtC l).Perm l)
    {lc : Layered.Circuit F} (hv : lc.validate = some true) (hp : ∀ (i : Nat) s, lc.segments[i]? = some s → ∀ o, pubWrites lc (i + 1) s o ≤ 1)
    (hne : ∀ s ∈ lc.segments, ∀ ch ∈ s.childSegs, ch.2 ≠ []) (n : Nat) {lc' : Layered.Circuit F} (h : shrinkLoop P n (lc.dedup P.srtG) = some lc')
    (V : LEnv F F) (hV : V.Lawful) (inputs : List F) (o : List F × Bool) : (∃ tape, lc'.eval V inputs tape = some o) ↔ ∃ tape, lc.eval V inputs tape = some o := by
  have hP : P.LayeredOk := ⟨hG, hA, hH, hEd, hC⟩
  have ht := tidy_dedup hG hv (fun i s hs o => by rw [← pubWrites_eq]; exact hp i s hs o) hne
  obtain ⟨_, _, h3⟩ := shrinkLoop_ok hP hV n ht h
  have hc := Layered.validate_ok hv
  have d3 : SameOutcomes V lc (lc.dedup P.srtG) := fun i =>
    (Layered.outcomes_of_traces ((Layered.dedup_segMap hV hP.srtG).traces (c' := lc.dedup P.srtG) hc rfl rfl i) rfl rfl).symm
  exact (Set.ext_iff.1 ((d3 inputs).trans (h3 inputs)) o).symm

/-! ## The hypotheses are met -/

open LEx

/-- The parameters of the loop; `okCirc` of C18 has one gate with a public input per segment, and its segments share a part. -/
def loopParams : Params F7 := ⟨20, id, ⟨10, 3, 3, 100⟩, fun _ _ => false, id, Layered.sortGates, id, id, id, List.map Segment.uniSet, id⟩

/-- A segment without children writes no input to outputs its gates do not have. -/
theorem pubWrites_far (c : Layered.Circuit F7) (n : Nat) (s : Segment F7) (hch : s.childSegs = []) {m : Nat}
    (hm : ∀ g ∈ s.gateMuls ++ s.gateAdds ++ s.gateConsts ++ s.gateCustoms, g.output < m) {o : Nat} (h : m ≤ o) : pubWrites c (n + 1) s o = 0 := by
  simp only [pubWrites, hch, List.map_nil, List.sum_nil, Nat.add_zero]
  refine List.countP_eq_zero.2 fun g hg hc => ?_
  have := hm g hg
  simp only [Bool.and_eq_true, beq_iff_eq] at hc
  omega

example : okCirc.validate = some true ∧ (∀ (i : Nat) s, okCirc.segments[i]? = some s → ∀ o, pubWrites okCirc (i + 1) s o ≤ 1) ∧
    (∃ s ∈ okCirc.segments, pubWrites okCirc 1 s 0 = 1) ∧ (∀ s ∈ okCirc.segments, ∀ ch ∈ s.childSegs, ch.2 ≠ []) ∧
    (shrinkLoop loopParams 5 (okCirc.dedup Layered.sortGates)).map (fun c => c.segments.length) = some 3 := by
  refine ⟨by decide +kernel, fun i s hs o => ?_, by decide +kernel, by decide +kernel, by decide +kernel⟩
  have hm := List.mem_of_getElem? hs
  have hk : ∀ t ∈ okCirc.segments, t.childSegs = [] ∧ (∀ g ∈ t.gateMuls ++ t.gateAdds ++ t.gateConsts ++ t.gateCustoms, g.output < 16) ∧
      ∀ o < 16, ∀ n < 2, pubWrites okCirc (n + 1) t o ≤ 1 := by decide +kernel
  obtain ⟨h1, h2, h3⟩ := hk s hm
  by_cases ho : o < 16
  · have hi : i < 2 := (List.getElem?_eq_some_iff.1 hs).1
    exact h3 o ho i hi
  · rw [pubWrites_far _ _ _ h1 h2 (by omega)]
    omega

end Verif.Props
