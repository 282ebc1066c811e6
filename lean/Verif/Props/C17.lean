import Verif.Layered.ValidateMap
import Verif.Layered.Opt
import Verif.Props.LayeredEx

/-!
# C17 — Gate deduplication preserves meaning

English: `dedup_gates()` on a layered circuit preserves the value of every wire for every input.

`Traces V c inputs` is the set of all complete wire assignments (every layer, every position) the evaluator can produce over all runs of its
random generator; for circuits without random coefficients it has at most one element.  It is the same before and after, for every input vector (also
of the wrong length, on which both evaluations panic).  `srt` stands for `sort()`: any permutation.
-/

namespace Verif.Props

open Verif.Layered

variable {F R : Type} [CommRing F] [DecidableEq F] [CommRing R]

/-- Every wire of every layer keeps its possible values. -/
theorem C17 (srt : List (Gate F) → List (Gate F)) (hs : ∀ l, (srt l).Perm l) (c : Circuit F) (hc : c.validate = some true) (V : LEnv F R)
    (hV : V.Lawful) (inputs : List R) :
    {ws | ∃ tape, (c.dedup srt).wires V inputs tape = some ws} = {ws | ∃ tape, c.wires V inputs tape = some ws} :=
  (dedup_segMap hV hs).traces (c' := c.dedup srt) (validate_ok hc) rfl rfl inputs

/-- … hence the outputs and the verdict. -/
theorem C17_eval [DecidableEq R] (srt : List (Gate F) → List (Gate F)) (hs : ∀ l, (srt l).Perm l) (c : Circuit F) (hc : c.validate = some true)
    (V : LEnv F R) (hV : V.Lawful) (inputs : List R) (o : List R × Bool) :
    (∃ tape, (c.dedup srt).eval V inputs tape = some o) ↔ ∃ tape, c.eval V inputs tape = some o := by
  have := outcomes_of_traces (C17 srt hs c hc V hV inputs) rfl rfl
  exact Set.ext_iff.1 this o

/-- The result is valid: `validate` accepts it whenever it accepts the given circuit. -/
theorem C17_valid (srt : List (Gate F) → List (Gate F)) (hs : ∀ l, (srt l).Perm l) (c : Circuit F) (hc : c.validate = some true) :
    (c.dedup srt).validate = some true := dedup_valid hs hc

/-- The result refers to existing wires only, and every wire written before is still written (by a zero constant if need be). -/
theorem C17_wellformed (srt : List (Gate F) → List (Gate F)) (hs : ∀ l, (srt l).Perm l) (c : Circuit F) (hc : c.validate = some true) :
    (c.dedup srt).Ok ∧ ∀ s ∈ c.segments, ∀ g ∈ s.allGates, ∃ g' ∈ (s.dedup srt).allGates, g'.output = g.output := by
  refine ⟨(dedup_ok hs (validate_ok hc)).1, ?_⟩
  intro s hsm g hg
  obtain ⟨i, hi⟩ := List.mem_iff_getElem?.1 hsm
  have hout := (((validate_ok hc).seg i s hi).gates g hg).2
  by_cases h : ∃ g' ∈ (dedupGates srt true s.gateMuls ++ dedupGates srt true s.gateAdds ++ dedupGates srt false s.gateConsts ++
      dedupGates srt true s.gateCustoms), g'.output = g.output
  · obtain ⟨g', h1, h2⟩ := h
    refine ⟨g', ?_, h2⟩
    simp only [Segment.allGates, Segment.dedup, List.mem_append, (hs _).mem_iff] at h1 ⊢
    tauto
  · refine ⟨⟨none, [], g.output, .const 0⟩, ?_, rfl⟩
    simp only [Segment.allGates, Segment.dedup, List.mem_append, (hs _).mem_iff]
    left; right; right
    rw [List.mem_map]
    refine ⟨g.output, ?_, rfl⟩
    simp only [lostOutputs, List.mem_filter, List.mem_range, Bool.and_eq_true, List.any_eq_true, beq_iff_eq, Bool.not_eq_true']
    refine ⟨hout, ⟨g, by simpa [Segment.allGates] using hg, rfl⟩, ?_⟩
    rw [← Bool.not_eq_true, List.any_eq_true]
    rintro ⟨g', h1, h2⟩
    exact h ⟨g', h1, by simpa using h2⟩

/-! ## The hypotheses are met -/

open LEx

theorem V_lawful : V.Lawful := ⟨rfl, fun _ _ => rfl⟩

example : {ws | ∃ tape, (circ.dedup (fun l => l.reverse)).wires V [1, 2, 3, 5] tape = some ws} =
    {ws | ∃ tape, circ.wires V [1, 2, 3, 5] tape = some ws} :=
  C17 _ (fun l => l.reverse_perm) circ circ_valid V V_lawful _

-- the two `add` gates merge and the zero `mul` gate disappears
example : (seg1.dedup (fun l => l.reverse)).gateAdds = [⟨none, [⟨0, 0⟩], 1, .const 3⟩] ∧ (seg1.dedup (fun l => l.reverse)).gateMuls = [] := by
  decide +kernel

end Verif.Props
