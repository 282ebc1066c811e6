import Verif.Props.C09
import Verif.Witness.Solve

/-!
# C27: witness solving
-/

namespace Verif.Props

open Verif.IR Verif.IR.HintExport Verif.Witness

variable {F : Type} [Field F] [DecidableEq F]

/-- Specification: the rows of a witness, as handed out by `iter_scalar`. -/
abbrev RowsOf {P : Nat} (w : Witness P F) : Option (List (List F × List F)) := iterScalar w

/-- `solve_witness` on the hint-exporting circuit of a validated circuit `rc`: if it returns a witness, the witness has one row, whose
inputs are the user's assignment followed by hint values and whose public inputs are the given ones, and on that row the hint-less
circuit (the one that is compiled further) has the outputs and constraint verdict of `rc` itself.
(`fuel` bounds the recursion of the model's evaluator; `hc` is the hint caller, whose answers have the requested length.) -/
theorem C27_solve (P : Nat) (cn : Canon F) (custom : Nat → List F → F) (hc : Nat → List F → Nat → Option (List F)) (hH : HcLen hc)
    (pub : List F) (rc : RootCircuit (hintNorm (solveEnv cn custom hc pub))) (hk : rc.vertices.Nodup) (hv : rc.validate = true)
    (hl : RootCircuit (hintLess _)) (ex : RootCircuit (hintNorm _)) (hre : removeAndExport _ rc = some (hl, ex)) (hex : ex.validate = true)
    (root) (hg : rc.get 0 = some root) (hnv : numVars root.numInputs root.instructions ≠ 0)
    (fuel : Nat) (vars : List F) (hvars : vars.length = root.numInputs) (w : Witness P F)
    (h : solveWitness P cn hc fuel ex vars pub = some w) :
    ∃ hints, RowsOf w = some [(vars ++ hints, pub)] ∧ ∃ outs b, Eval rc vars outs b ∧ Eval hl (vars ++ hints) outs b := by
  obtain ⟨hl', ex', h1, h2, h3, _, h5, h6, _⟩ := removeAndExport_correct (solveEnv_len cn custom hc pub) rc hk ((validate_iff rc hk).1 hv)
  rw [hre] at h1
  simp only [Option.some.injEq, Prod.mk.injEq] at h1
  obtain ⟨rfl, rfl⟩ := h1
  have hkx : ex.vertices.Nodup := by rw [h3]; exact hk
  have hzx : ex.expectedNumOutputZeroes = 0 := by
    unfold removeAndExport at hre
    split at hre
    · cases hre
    · simp only at hre
      split at hre
      · cases hre
      · simp only [Option.some.injEq, Prod.mk.injEq] at hre
        rw [← hre.2]
  have hpx : ex.numPublicInputs = rc.numPublicInputs := by
    unfold removeAndExport at hre
    split at hre
    · cases hre
    · simp only at hre
      split at hre
      · cases hre
      · simp only [Option.some.injEq, Prod.mk.injEq] at hre
        rw [← hre.2]
  simp only [solveWitness, Option.map_eq_some_iff] at h
  obtain ⟨⟨vals, n⟩, hs, rfl⟩ := h
  obtain ⟨full, be, he, rfl, rfl⟩ := solveInner_sound hH ((validate_iff ex hkx).1 hex) hzx hs
  obtain ⟨hints, rfl, outs, b, e1, e2⟩ := (h6 root hg (.inl hnv) vars hvars).2.1 full be he
  refine ⟨hints, ?_, outs, b, e1, e2⟩
  have hpl : pub.length = ex.numPublicInputs := by
    unfold solveInner at hs
    split at hs
    · cases hs
    · split at hs
      · rename_i hh; exact hh.2
      · cases hs
  exact iterScalar_scalar _ [(vars ++ hints, pub)] ⟨rfl, by simp [RowsOk, hpl], by simp [flat]⟩

/-- `solve_witness` finds the witness: whenever the original circuit has a run on the assignment, with the hints the solver uses, and
contains no random coefficient and no custom gate, the solver returns a witness (for some recursion bound). -/
theorem C27_complete (P : Nat) (cn : Canon F) (custom : Nat → List F → F) (hc : Nat → List F → Nat → Option (List F))
    (pub : List F) (rc : RootCircuit (hintNorm (solveEnv cn custom hc pub))) (hk : rc.vertices.Nodup) (hv : rc.validate = true)
    (hl : RootCircuit (hintLess _)) (ex : RootCircuit (hintNorm _)) (hre : removeAndExport _ rc = some (hl, ex))
    (hsafe : ∀ c circ, ex.get c = some circ → ∀ i ∈ circ.instructions, SafeInsn pub.length i)
    (hp : pub.length = ex.numPublicInputs) (hz : ex.expectedNumOutputZeroes = 0)
    (root) (hg : rc.get 0 = some root) (hnv : numVars root.numInputs root.instructions ≠ 0)
    (vars : List F) (hvars : vars.length = root.numInputs) (outs : List F) (b : Bool) (h : Eval rc vars outs b) :
    ∃ fuel hints, Eval hl (vars ++ hints) outs b ∧ (solveWitness P cn hc fuel ex vars pub).bind RowsOf = some [(vars ++ hints, pub)] := by
  obtain ⟨hl', ex', h1, h2, h3, _, h5, h6, _⟩ := removeAndExport_correct (solveEnv_len cn custom hc pub) rc hk ((validate_iff rc hk).1 hv)
  rw [hre] at h1
  simp only [Option.some.injEq, Prod.mk.injEq] at h1
  obtain ⟨rfl, rfl⟩ := h1
  obtain ⟨hints, be, e1, e2⟩ := (h6 root hg (.inl hnv) vars hvars).1 outs b h
  obtain ⟨fuel, hf⟩ := solveInner_complete hz hp hsafe e1
  refine ⟨fuel, hints, e2, ?_⟩
  rw [solveWitness, hf]
  simp only [Option.map_some, Option.bind_some]
  exact iterScalar_scalar _ [(vars ++ hints, pub)] ⟨rfl, by simp [RowsOk, hp], by simp [flat]⟩

/-- A wrong number of inputs or of public inputs is never accepted, by `solve_witness` and by `solve_witnesses`. -/
theorem C27_lengths {E : Env F} (P : Nat) (hP : 0 < P) (cn : Canon F) (hc : Nat → List F → Nat → Option (List F)) (hH : HcLen hc) (fuel : Nat)
    (rc : RootCircuit (hintNorm E)) (hk : rc.vertices.Nodup) (hv : rc.validate = true) (root) (hg : rc.get 0 = some root) :
    (∀ vars pub : List F, vars.length ≠ root.numInputs ∨ pub.length ≠ rc.numPublicInputs → solveWitness P cn hc fuel rc vars pub = none) ∧
    (∀ asg : List (List F × List F), (∃ p ∈ asg, p.1.length ≠ root.numInputs ∨ p.2.length ≠ rc.numPublicInputs) →
      solveWitnesses P cn hc fuel rc asg = none) := by
  have key : ∀ vars pub : List F, vars.length ≠ root.numInputs ∨ pub.length ≠ rc.numPublicInputs → solveInner cn hc fuel rc vars pub = none := by
    intro vars pub h
    unfold solveInner
    rw [hg]
    simp only
    rw [if_neg]
    rintro ⟨h1, h2⟩
    rcases h with h | h
    · exact h h1
    · exact h h2
  refine ⟨fun vars pub h => by rw [solveWitness, key vars pub h]; rfl, ?_⟩
  rintro asg ⟨p, hp, hbad⟩
  by_contra hcon
  obtain ⟨w, hw⟩ := Option.ne_none_iff_exists'.1 hcon
  obtain ⟨rows, blocks, _, _, h3⟩ := solveMany_some hP (hintsLen_wf hH ((validate_iff rc hk).1 hv)) hw
  obtain ⟨i, hi, rfl⟩ := List.getElem_of_mem hp
  obtain ⟨r, _, hr⟩ := h3 i _ (List.getElem?_eq_getElem hi)
  rw [key _ _ hbad] at hr
  cases hr

/-- `solve_witnesses` succeeds exactly when `solve_witness` succeeds on every assignment, and then the witness read back row by row is the
list of the single solutions, in order; the unused lanes of the last SIMD block repeat the last solution. -/
theorem C27_many {E : Env F} (P : Nat) (hP : 0 < P) (cn : Canon F) (hc : Nat → List F → Nat → Option (List F)) (hH : HcLen hc) (fuel : Nat)
    (rc : RootCircuit (hintNorm E)) (hk : rc.vertices.Nodup) (hv : rc.validate = true) (asg : List (List F × List F)) :
    ((solveWitnesses P cn hc fuel rc asg).isSome ↔ ∀ p ∈ asg, (solveWitness P cn hc fuel rc p.1 p.2).isSome) ∧
    ∀ w, solveWitnesses P cn hc fuel rc asg = some w → ∃ rows blocks,
      RowsOf w = some rows ∧ iterSimd w = some blocks ∧ Packed rows blocks ∧ rows.length = asg.length ∧
      ∀ (i : Nat) p, asg[i]? = some p → ∃ row, rows[i]? = some row ∧ (solveWitness P cn hc fuel rc p.1 p.2).bind RowsOf = some [row] := by
  have hw := (validate_iff rc hk).1 hv
  have hL := hintsLen_wf (cn := cn) hH hw
  refine ⟨⟨?_, ?_⟩, ?_⟩
  · intro h p hp
    obtain ⟨w, hww⟩ := Option.isSome_iff_exists.1 h
    obtain ⟨rows, blocks, _, _, h3⟩ := solveMany_some hP hL hww
    obtain ⟨i, hi, rfl⟩ := List.getElem_of_mem hp
    obtain ⟨r, _, hr⟩ := h3 i _ (List.getElem?_eq_getElem hi)
    rw [solveWitness, hr]; rfl
  · intro h
    by_contra hcon
    have hn : solveWitnesses P cn hc fuel rc asg = none := by simpa using hcon
    obtain ⟨root, hg, _⟩ := hw.root
    obtain ⟨p, hp, hnp⟩ := solveMany_none hP hL hg hn
    have := h p hp
    rw [solveWitness, hnp] at this
    cases this
  · intro w hww
    obtain ⟨rows, blocks, hS, hlen, h3⟩ := solveMany_some hP hL hww
    refine ⟨rows, blocks, iterScalar_simd hP w rows blocks hS, iterSimd_simd hP w rows blocks hS, hS.2.2.2, hlen, ?_⟩
    intro i p hp
    obtain ⟨r, hr, hs⟩ := h3 i p hp
    refine ⟨_, hr, ?_⟩
    have hpl : p.2.length = rc.numPublicInputs := by
      unfold solveInner at hs
      split at hs
      · cases hs
      · split at hs
        · rename_i hh; exact hh.2
        · cases hs
    rw [solveWitness, hs]
    simp only [Option.map_some, Option.bind_some]
    exact iterScalar_scalar _ [(r, p.2)] ⟨rfl, by simp [RowsOk, hpl], by simp [flat]⟩

/-- A concrete run over the field with seven elements: hint 0xccc000000001 is division. Five assignments in lanes of two; the answer to the
unknown hint is a constant. -/
def solveRc (pub : List Ex.F7) : RootCircuit (hintNorm (solveEnv Ex.env.canon (fun _ _ => 0) (fun _ _ n => some (List.replicate n (3 : Ex.F7))) pub)) :=
  ⟨1, 0, [(0, ⟨[.hint 0xccc000000001 [1, 2] 1, .call 1 [3] 1, .constantLike (.pub 0), .mul [4, 5]], [⟨(), 6⟩], [6], 2⟩),
    (1, ⟨[.hint 12345 [1] 1, .mul [1, 2]], [], [3], 1⟩)]⟩

example : (solveRc [2]).validate = true ∧ (solveRc [2]).vertices.Nodup ∧
    (((removeAndExport _ (solveRc [2])).bind (fun p => (if p.2.validate then solveWitness 2 Ex.env.canon (fun _ _ n => some (List.replicate n (3 : Ex.F7))) 10 p.2 [5, 3] [2] else none))).bind RowsOf) =
      some [([5, 3, 4, 3], [2])] :=
  ⟨by decide +kernel, by decide, by decide +kernel⟩

example : (((removeAndExport _ (solveRc [2])).bind (fun p => solveWitnesses 2 Ex.env.canon (fun _ _ n => some (List.replicate n (3 : Ex.F7))) 10 p.2
      [([5, 3], [2]), ([1, 0], [0]), ([6, 2], [1])])).bind RowsOf) =
      some [([5, 3, 4, 3], [2]), ([1, 0, 0, 3], [0]), ([6, 2, 3, 3], [1])] := by
  decide +kernel

end Verif.Props
