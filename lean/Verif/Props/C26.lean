import Verif.Layered.Run
import Verif.Props.LayeredEx

/-!
# C26 — Witness packing is lossless and SIMD evaluation is lane-wise

English: packing `n` witnesses into SIMD lanes and iterating gives back the `n` witnesses in order (padding aside), and running the packed layered
circuit gives each witness the verdict of running it alone.

`rows` are the witnesses (inputs, public inputs).  `IsScalar w rows`: `w` stores them one after the other; `IsSimd w rows blocks`: lane `l` of block `j` is row
`j * P + l`, and lanes past the end repeat the last row.  `Holds w rows`: one of the two.
-/

namespace Verif.Props

open Verif.Layered Verif.Witness

variable {F : Type} [Field F] [DecidableEq F]

/-- Both iterators give back the rows, from either representation, and conversion keeps them. -/
theorem C26_lossless {P : Nat} (hP : 0 < P) (w : Witness P F) (rows : List (List F × List F)) (hw : IsScalar w rows) (hab : w.a + w.b ≠ 0) :
    iterScalar w = some rows ∧
    (∃ blocks, iterSimd w = some blocks ∧ Packed rows blocks) ∧
    (∃ w' blocks, convertToSimd w = some w' ∧ w'.num = w.num ∧ iterSimd w' = some blocks ∧ Packed rows blocks ∧ iterScalar w' = some rows) := by
  refine ⟨iterScalar_scalar w rows hw, ?_, ?_⟩
  · obtain ⟨b, h1, h2, -⟩ := iterSimd_scalar hP w rows hw hab
    exact ⟨b, h1, h2⟩
  · obtain ⟨w', blocks, h1, h2, h3, h4⟩ := convertToSimd_scalar hP w rows hw hab
    exact ⟨w', blocks, h1, by rw [h4.1, hw.1], iterSimd_simd hP w' rows blocks h4, h4.2.2.2, iterScalar_simd hP w' rows blocks h4⟩

/-- One lane of a SIMD evaluation is the evaluation of that lane's values: same outputs, same verdict, panics alike. -/
theorem C26_lane {P : Nat} (custom : Nat → List F → F) (c : Circuit F) (inputs pubs : List (Simd P F)) (tape : Nat → Simd P F) (l : Fin P) :
    c.evalPub custom (inputs.map (· l)) (pubs.map (· l)) (fun i => tape i l) =
      (c.evalSimd custom inputs pubs tape).map fun r => (r.1.map (· l), r.2 l) :=
  evalSimd_lane custom c inputs pubs tape l

/-- `run_with_output` on `n` witnesses returns `n` verdicts and outputs; number `k` is that of running witness `k` alone with the random numbers
of its lane. -/
theorem C26_run {P : Nat} (hP : 0 < P) (custom : Nat → List F → F) (c : Circuit F) (w : Witness P F) (rows : List (List F × List F))
    (hw : Holds w rows) (hab : w.a + w.b ≠ 0) (tapes : Nat → Nat → F) (tapesS : Nat → Nat → Simd P F) (verdicts : List Bool) (outs : List (List F))
    (h : c.runWithOutput custom w tapes tapesS = some (verdicts, outs)) :
    verdicts.length = rows.length ∧ outs.length = rows.length ∧ ∀ (k : Nat) row, rows[k]? = some row → ∃ o v, outs[k]? = some o ∧
      verdicts[k]? = some v ∧ c.evalPub custom row.1 row.2 (tapeOf hP w tapes tapesS k) = some (o, v) :=
  run_rows hP custom c w rows hw hab tapes tapesS verdicts outs h

/-- If every witness can be evaluated alone then the whole run does not panic. -/
theorem C26_run_total {P : Nat} (hP : 0 < P) (custom : Nat → List F → F) (c : Circuit F) (w : Witness P F) (rows : List (List F × List F))
    (hw : Holds w rows) (hab : w.a + w.b ≠ 0) (hne : rows ≠ []) (h : ∀ row ∈ rows, ∀ tape, (c.evalPub custom row.1 row.2 tape).isSome)
    (tapes : Nat → Nat → F) (tapesS : Nat → Nat → Simd P F) : (c.runWithOutput custom w tapes tapesS).isSome :=
  run_isSome hP custom c w rows hw hab hne h tapes tapesS

/-! ## The hypotheses are met: three witnesses, two lanes -/

open LEx

def rows3 : List (List F7 × List F7) := [([1, 2, 3, 5], [4]), ([0, 0, 0, 0], [1]), ([6, 6, 1, 2], [0])]

def wit3 : Witness 2 F7 := ⟨3, 4, 1, .scalar (flat rows3)⟩

theorem wit3_holds : IsScalar wit3 rows3 := ⟨rfl, by intro r hr; simp [rows3] at hr; rcases hr with rfl | rfl | rfl <;> exact ⟨rfl, rfl⟩, rfl⟩

example : ∃ w' blocks, convertToSimd wit3 = some w' ∧ w'.num = 3 ∧ iterSimd w' = some blocks ∧ Packed rows3 blocks ∧ iterScalar w' = some rows3 :=
  (C26_lossless (by decide) wit3 rows3 wit3_holds (by decide)).2.2

example : circ.runWithOutput (fun _ vs => vs.sum + 1) wit3 (fun _ _ => 0) (fun _ _ l => l.val) = some ([true, false, true], [[3], [1], [2]]) := by
  decide +kernel

end Verif.Props
