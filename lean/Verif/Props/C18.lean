import Verif.Layered.CommonProof
import Verif.Props.LayeredEx

/-!
# C18 — Common-subsegment extraction and inlining preserve meaning

English: `find_common_parts()` and `expand_small_segments()` preserve the value of every output wire for every input.

The theorems speak about *every* wire of every layer, for every input vector.  `srt`, `srtA`, `srtE` stand for `sort()`, `ordH` for the iteration
order of a `HashMap`, `sample` for the random sample of gates: all arbitrary.

Two restrictions are needed, and both are shown to be necessary:
* `expand_small_segments` needs every child entry to have at least one allocation (otherwise it may emit the child number `!0`);
* `find_common_parts` needs the gates of a segment without random coefficients to be pairwise different (identical gates with a public-input coefficient are not merged by
  `dedup_gates`, but collapse in the `HashSet` of common gates).
-/

namespace Verif.Props

open Verif.Layered

variable {F R : Type} [CommRing F] [DecidableEq F] [CommRing R]

/-- `expand_small_segments` keeps the possible values of every wire. -/
theorem C18_expand_partial [DecidableEq R] (srt : List (Gate F) → List (Gate F)) (hs : ∀ l, (srt l).Perm l) (srtA : List Alloc → List Alloc) (hsA : ∀ l, (srtA l).Perm l)
    (ordH : List (Nat × List Alloc) → List (Nat × List Alloc)) (hoH : ∀ l, (ordH l).Perm l) (c : Circuit F) (hc : c.validate = some true)
    (hne : ∀ s ∈ c.segments, ∀ ch ∈ s.childSegs, ch.2 ≠ []) (V : LEnv F R) (hV : V.Lawful) (inputs : List R) :
    {ws | ∃ tape, (c.expandSmall srt srtA ordH).wires V inputs tape = some ws} = {ws | ∃ tape, c.wires V inputs tape = some ws} ∧
    ∀ o : List R × Bool, (∃ tape, (c.expandSmall srt srtA ordH).eval V inputs tape = some o) ↔ ∃ tape, c.eval V inputs tape = some o := by
  have h := expandSmall_traces hV (validate_ok hc) hne hs hsA hoH inputs
  refine ⟨h, fun o => Set.ext_iff.1 (outcomes_of_traces h ?_ ?_) o⟩ <;> (unfold Circuit.expandSmall; split <;> rfl)

/-- … and its result only refers to existing segments and wires. -/
theorem C18_expand_wellformed (srt : List (Gate F) → List (Gate F)) (hs : ∀ l, (srt l).Perm l) (srtA : List Alloc → List Alloc) (hsA : ∀ l, (srtA l).Perm l)
    (ordH : List (Nat × List Alloc) → List (Nat × List Alloc)) (hoH : ∀ l, (ordH l).Perm l) (c : Circuit F) (hc : c.validate = some true)
    (hne : ∀ s ∈ c.segments, ∀ ch ∈ s.childSegs, ch.2 ≠ []) :
    (c.expandSmall srt srtA ordH).Ok ∧ (c.expandSmall srt srtA ordH).inputSize = c.inputSize :=
  expandSmall_ok (validate_ok hc) hne hs hsA hoH

theorem pow2Sizes_of_validate {F : Type} {c : Circuit F} (hc : c.validate = some true) : ∀ s ∈ c.segments, s.Pow2Sizes := by
  intro s hs
  simp only [Circuit.validate, andThen_ok, allChk_ok] at hc
  obtain ⟨i, hi⟩ := List.mem_iff_getElem?.1 hs
  have hm : (s, i) ∈ c.segments.zipIdx := by rw [List.mem_zipIdx_iff_getElem?]; exact hi
  have := hc.1 _ hm
  simp only [segChk, andThen_ok, allChk_ok, chk_ok, decide_eq_true_eq, isPow2, Bool.and_eq_true, beq_iff_eq] at this
  refine ⟨fun e => this.2.1 (by rw [e]; rfl), fun n hn => Pow2.isPow2_iff (this.1 n hn).1 (this.1 n hn).2, Pow2.isPow2_iff this.2.2.1.1 this.2.2.1.2⟩

/-- `find_common_parts` always returns a circuit over existing segments and wires, and keeps the possible values of every wire when no segment
holds the same gate twice, unless the gate has a random coefficient. -/
theorem C18_common_partial [DecidableEq R] (srt : List (Gate F) → List (Gate F)) (hs : ∀ l, (srt l).Perm l) (srtE : List (Nat × Nat × Nat) → List (Nat × Nat × Nat))
    (hsE : ∀ l, (srtE l).Perm l) (sample : List (Segment F) → List (List (UniGate F))) (c : Circuit F) (hc : c.validate = some true) :
    ∃ c', c.findCommon srt srtE sample = some c' ∧ c'.Ok ∧ c'.inputSize = c.inputSize ∧
      ((∀ s ∈ c.segments, s.uni.Pairwise fun a b => a = b → a.2.coef = .random) → ∀ (V : LEnv F R), V.Lawful → ∀ inputs : List R,
        {ws | ∃ tape, c'.wires V inputs tape = some ws} = {ws | ∃ tape, c.wires V inputs tape = some ws} ∧
        ∀ o : List R × Bool, (∃ tape, c'.eval V inputs tape = some o) ↔ ∃ tape, c.eval V inputs tape = some o) := by
  obtain ⟨c', h1, h2, h3, h4, h5, h6⟩ := findCommon_spec (srt := srt) hs hsE sample (validate_ok hc) (pow2Sizes_of_validate hc)
  refine ⟨c', h1, h2, h3, ?_⟩
  intro hnd V hV inputs
  have h := h6 hnd R V hV inputs
  exact ⟨h, fun o => Set.ext_iff.1 (outcomes_of_traces h h4 h5) o⟩

/-! ## The hypotheses are met -/

open LEx

example : (∀ s ∈ circ.segments, ∀ ch ∈ s.childSegs, ch.2 ≠ []) ∧ (∀ s ∈ circ.segments, s.uni.Nodup) := by
  constructor <;> decide +kernel

/-- `seg0` is used twice but small, so it is inlined and disappears. -/
example : (circ.expandSmall id id id).segments.length = 2 := by decide +kernel

/-- Ten identical additions and twice the same addition with a public coefficient. -/
def dupGates : List (Gate F7) :=
  [⟨none, [⟨0, 0⟩], 0, .pub 0⟩, ⟨none, [⟨0, 0⟩], 0, .pub 0⟩] ++ (List.range 10).map fun j => ⟨none, [⟨0, 0⟩], j, .const 1⟩

def dupCirc : Circuit F7 := ⟨1, 1, 0, [⟨[1], 16, [], [], dupGates, [], []⟩, ⟨[16], 16, [], [], dupGates, [], []⟩], [0, 1]⟩

/-- The same without the repetition: both segments share one common part. -/
def okCirc : Circuit F7 := ⟨1, 1, 0, [⟨[1], 16, [], [], dupGates.tail, [], []⟩, ⟨[16], 16, [], [], dupGates.tail, [], []⟩], [0, 1]⟩

example : okCirc.validate = some true ∧ (∀ s ∈ okCirc.segments, s.uni.Nodup) ∧
    (okCirc.findCommon id id (List.map Segment.uniSet)).map (fun c => (c.segments.length, c.layerIds)) = some (3, [1, 2]) := by decide +kernel

/-! ## The restrictions are necessary -/

/-- The accepted circuit `dupCirc` gives 2 on input 1; after `find_common_parts` (all gates sampled, as there are fewer than 100) it gives 4. -/
theorem C18_common_violated : dupCirc.validate = some true ∧ ∃ c', dupCirc.findCommon id id (List.map Segment.uniSet) = some c' ∧
    (∀ tape, dupCirc.eval (LEnv.withPublic (fun _ _ => 0) [1]) [1] tape = some ([2], true)) ∧
    ∀ tape, c'.eval (LEnv.withPublic (fun _ _ => 0) [1]) [1] tape = some ([4], true) := by
  refine ⟨by decide +kernel, ?_⟩
  have h : ∃ c', dupCirc.findCommon id id (List.map Segment.uniSet) = some c' := by
    have : (dupCirc.findCommon id id (List.map Segment.uniSet)).isSome = true := by decide +kernel
    exact Option.isSome_iff_exists.1 this
  obtain ⟨c', hc'⟩ := h
  refine ⟨c', hc', ?_, ?_⟩
  · intro tape; rfl
  · intro tape
    have : some (c'.eval (LEnv.withPublic (fun _ _ => 0) [1]) [1] tape) = some (some ([4], true)) := by
      rw [show some (c'.eval (LEnv.withPublic (fun _ _ => (0 : F7)) [1]) [1] tape) =
        (dupCirc.findCommon id id (List.map Segment.uniSet)).map (fun c => c.eval (LEnv.withPublic (fun _ _ => 0) [1]) [1] tape) by rw [hc']; rfl]
      rfl
    exact Option.some.inj this

/-- A child entry without allocations, of a segment used nowhere else. -/
def emptyCirc : Circuit F7 := ⟨0, 1, 0, [⟨[1], 1, [], [], [], [], []⟩, ⟨[1], 1, [(0, [])], [], [⟨none, [⟨0, 0⟩], 0, .const 1⟩], [], []⟩], [1]⟩

/-- The accepted circuit `emptyCirc` evaluates; after `expand_small_segments` evaluation panics on the child number `!0`. -/
theorem C18_expand_violated : emptyCirc.validate = some true ∧
    (∀ tape, emptyCirc.eval (LEnv.withPublic (fun _ _ => 0) []) [1] tape = some ([1], true)) ∧
    ∀ tape, (emptyCirc.expandSmall id id id).eval (LEnv.withPublic (fun _ _ => 0) []) [1] tape = none := by
  refine ⟨by decide +kernel, ?_, ?_⟩ <;> (intro tape; rfl)

end Verif.Props
