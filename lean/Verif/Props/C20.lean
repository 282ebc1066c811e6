import Verif.Props.LayeredEx

/-!
# C20 — Validated layered circuits evaluate without out-of-bounds access

English: if layered `Circuit::validate()` returns `Ok`, evaluation on an input of `input_size()` elements performs no out-of-range access;
and `validate` itself returns `Ok` or `Err`, never panics.

A Rust panic is `none` in the model, so "no out-of-range access, for every run of the random generator" is "`some` for every tape".

What is proved: an accepted circuit computes all its wires (`C20_wires`), and its outputs (`C20_partial`) if the public inputs its gates mention
exist and the two output counters are in range.  The unconditional statement is false of the code: `validate` checks neither
(`C20_output_range_violated`, `C20_public_violated`).  `validate` never panics on circuits with normal (single-layer) inputs
(`C20_validate_total_normal`); on cross-layer circuits it can (`C20_validate_panics_violated`).  Acceptance also means that every wire a layer
reads has been written (`C20_initialised`).
-/

namespace Verif.Props

open Verif.Layered
open Verif.IR (Coef)

variable {F R : Type} [CommRing R]

/-- Number of values in the last layer. -/
def lastSize (c : Circuit F) : Option Nat := (c.layerIds.getLast?).bind fun id => (c.segments[id]?).map Segment.numOutputs

/-- An accepted circuit computes every wire of every layer, whatever the inputs and the random draws. -/
theorem C20_wires (c : Circuit F) (hv : c.validate = some true) (V : LEnv F R) (hpub : PubsOk V c.segments) (inputs : List R)
    (hin : c.inputSize = some inputs.length) (tape : Nat → R) : (c.wires V inputs tape).isSome := by
  obtain ⟨ws, h, -⟩ := wires_isSome (validate_ok hv) hpub hin tape
  rw [h]; rfl

/-- An accepted circuit evaluates: full statement plus the conditions `validate` does not check. -/
theorem C20_partial [DecidableEq R] (c : Circuit F) (hv : c.validate = some true) (V : LEnv F R) (hpub : PubsOk V c.segments)
    (hz : c.expectedNumOutputZeroes ≤ c.numActualOutputs) (ha : ∀ n, lastSize c = some n → c.numActualOutputs ≤ n) (inputs : List R)
    (hin : c.inputSize = some inputs.length) (tape : Nat → R) :
    ∃ outs ok, c.eval V inputs tape = some (outs, ok) ∧ outs.length = c.numActualOutputs - c.expectedNumOutputZeroes := by
  have hc := validate_ok hv
  obtain ⟨ws, h, hok⟩ := wires_isSome hc hpub hin tape
  have hpos : 0 < c.layerIds.length := by
    rcases Nat.eq_zero_or_pos c.layerIds.length with h0 | h0
    · have : c.layerIds = [] := List.length_eq_zero_iff.1 h0
      simp [Circuit.inputSize, this] at hin
    · exact h0
  obtain ⟨id, s, h1, h2, h3⟩ := hok.rest 0 hpos
  cases ws with
  | nil => simp at h3
  | cons last ws =>
    have hlen : last.length = s.numOutputs := by simpa using h3
    have hn : c.numActualOutputs ≤ s.numOutputs := by
      apply ha
      have : c.layerIds.getLast? = some id := by rw [List.getLast?_eq_getElem?]; simpa using h1
      simp [lastSize, this, h2]
    refine ⟨(last.take c.numActualOutputs).drop c.expectedNumOutputZeroes,
      (last.take c.expectedNumOutputZeroes).all fun x => decide (x = 0), ?_, ?_⟩
    · simp only [Circuit.eval, Circuit.evalRaw, h, rangeOf]
      rw [if_pos ⟨hz, by omega⟩]
      rfl
    · simp; omega

/-- `validate` never panics on circuits whose gate inputs name existing layers; in particular on all normal circuits. -/
theorem C20_validate_total (c : Circuit F) (h : ∀ s ∈ c.segments, ∀ g ∈ s.allGates, ∀ i ∈ g.inputs, i.layer < s.numInputs.length) :
    c.validate ≠ none := validate_ne_none h

/-- `NormalInputType`: inputs have no layer (it is 0) and every `InputUsize` is a single number. -/
def IsNormal (c : Circuit F) : Prop := ∀ s ∈ c.segments, s.numInputs.length = 1 ∧ ∀ g ∈ s.allGates, ∀ i ∈ g.inputs, i.layer = 0

theorem C20_validate_total_normal (c : Circuit F) (h : IsNormal c) : c.validate = some true ∨ c.validate = some false := by
  have := C20_validate_total c (fun s hs g hg i hi => by rw [(h s hs).1, (h s hs).2 g hg i hi]; omega)
  cases hv : c.validate with
  | none => exact absurd hv this
  | some b => cases b <;> simp

/-- In an accepted circuit every value a layer reads from an earlier layer has been written by a gate of that layer. -/
theorem C20_initialised (c : Circuit F) (hv : c.validate = some true) (i id l j n : Nat) (s : Segment F) (hi : c.layerIds[i]? = some id)
    (hs : c.segments[id]? = some s) (hn : s.numInputs[l]? = some n) (hl : l < i) (hj : j < n) (hr : Reads c.segments id l j) :
    ∃ k, c.layerIds[i - 1 - l]? = some k ∧ Writes c.segments k j := validate_init hv i id l j n s hi hs hn hl hj hr

/-! ## The unconditional statement fails -/

open LEx

/-- A cross-layer circuit on which `validate` panics: the gate of the second layer names input layer 1, which exists for the circuit (two
layers) but not for the segment. -/
def panicCirc : Circuit F7 :=
  ⟨0, 1, 0, [⟨[1], 1, [], [], [⟨none, [⟨0, 0⟩], 0, .const 1⟩], [], []⟩, ⟨[1], 1, [], [], [⟨none, [⟨1, 0⟩], 0, .const 1⟩], [], []⟩], [0, 1]⟩

theorem C20_validate_panics_violated : panicCirc.validate = none := by decide +kernel

/-- `validate` accepts a circuit that claims more outputs than its last layer has: `eval` panics. -/
theorem C20_output_range_violated : ∃ c : Circuit F7, c.validate = some true ∧ c.inputSize = some 1 ∧
    ∀ tape : Nat → F7, c.eval V [1] tape = none :=
  ⟨⟨0, 2, 0, [⟨[1], 1, [], [], [⟨none, [⟨0, 0⟩], 0, .const 1⟩], [], []⟩], [0]⟩, by decide +kernel, by decide +kernel, fun _ => rfl⟩

/-- `validate` accepts a gate that mentions a public input beyond `num_public_inputs`: evaluation with exactly that many panics. -/
theorem C20_public_violated : ∃ c : Circuit F7, c.validate = some true ∧ c.inputSize = some 1 ∧ c.numPublicInputs = 1 ∧
    ∀ tape : Nat → F7, c.eval V [1] tape = none :=
  ⟨⟨1, 1, 0, [⟨[1], 1, [], [], [], [⟨none, [], 0, .pub 5⟩], []⟩], [0]⟩, by decide +kernel, by decide +kernel, rfl, fun _ => rfl⟩

/-! ## The hypotheses are met -/

example : ∃ outs ok, circ.eval V [1, 2, 3, 5] (fun i => i) = some (outs, ok) ∧ outs.length = 1 :=
  C20_partial circ circ_valid V circ_pubs (by decide) (by decide +kernel) [1, 2, 3, 5] (by decide +kernel) _

example : IsNormal circ := by
  intro s hs
  simp only [circ, List.mem_cons, List.not_mem_nil, or_false] at hs
  rcases hs with rfl | rfl | rfl <;> simp [seg0, seg1, seg2, Segment.allGates]

example : Reads circ.segments 2 0 1 := .gate (s := seg2) (g := ⟨none, [⟨0, 1⟩], 1, .const 1⟩) rfl (by simp [Segment.allGates, seg2]) (inp := ⟨0, 1⟩) (by simp)

end Verif.Props
