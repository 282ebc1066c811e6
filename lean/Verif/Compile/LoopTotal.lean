import Verif.Compile.TraceTotal
import Verif.Compile.Step3
import Verif.Layered.ValidKeep
import Verif.Layering.Once

/-!
# `compile_step_3` at every optimisation level: it never stops with an error
-/

set_option linter.unusedSectionVars false
set_option linter.unusedSimpArgs false

namespace Verif.Compile

open Verif.IR Verif.IR.HintExport

variable {F : Type} [Field F] [DecidableEq F]

/-- One round of the loop never panics and keeps a circuit valid. -/
theorem shrink_total {P : Params F} (hP : P.LayeredOk) {c : Layered.Circuit F} (hv : c.validate = some true) (ht : c.Tidy) :
    ∃ c', shrink P c = some c' ∧ c'.validate = some true ∧ c'.Tidy := by
  have h1 := Layered.expandSmall_tidy hP.srtG hP.sorts.grouped hP.srtA hP.ordH ht
  have h2 := Layered.expandSmall_valid hP.srtG hP.sorts.grouped hP.srtA hP.ordH hv ht
  unfold shrink
  dsimp only
  by_cases hl : (c.expandSmall P.srtG P.srtA P.ordH).segments.length ≤ 100
  · rw [if_pos hl]
    obtain ⟨c', e, _⟩ := Layered.findCommon_spec hP.srtG hP.srtE P.sample h1.ok h1.pow2
    exact ⟨c', e, Layered.findCommon_valid hP.srtG hP.sorts.grouped hP.srtE P.sample h2 h1 e, Layered.findCommon_tidy hP.srtG hP.sorts.grouped hP.srtE P.sample h1 e⟩
  · rw [if_neg hl]
    exact ⟨_, rfl, h2, h1⟩

/-- The loop of `compile_step_3` is still going after `n` rounds: every round so far has changed the circuit. -/
def Running (P : Params F) (n : Nat) (c : Layered.Circuit F) : Prop :=
  ∃ f : Nat → Layered.Circuit F, f 0 = c ∧ ∀ k < n, shrink P (f k) = some (f (k + 1)) ∧ f (k + 1) ≠ f k

theorem shrinkLoop_total {P : Params F} (hP : P.LayeredOk) : ∀ (n : Nat) {c : Layered.Circuit F}, c.validate = some true → c.Tidy →
    (∃ c', shrinkLoop P n c = some c' ∧ c'.validate = some true) ∨ Running P n c := by
  intro n
  induction n with
  | zero => exact fun _ _ => .inr ⟨fun _ => _, rfl, fun k hk => by omega⟩
  | succ n ih =>
    intro c hv ht
    obtain ⟨c2, e, v2, t2⟩ := shrink_total hP hv ht
    unfold shrinkLoop
    rw [e]
    dsimp only
    by_cases he : c2 = c
    · rw [if_pos he]
      exact .inl ⟨c, rfl, hv⟩
    · rw [if_neg he]
      rcases ih v2 t2 with h | ⟨f, f0, hf⟩
      · exact .inl h
      · refine .inr ⟨fun k => match k with | 0 => c | k + 1 => f k, rfl, fun k hk => ?_⟩
        cases k with
        | zero => dsimp only; rw [f0]; exact ⟨e, he⟩
        | succ k => exact hf k (by omega)

/-- `compile_step_3` on a circuit as layering returns it: a valid circuit, unless its loop does not end in time. -/
theorem step3_total' {P : Params F} (hP : P.LayeredOk) {o : Options} (h1 : 1 ≤ o.optLevel) {lc0 : Layered.Circuit F} (h : lc0.validate = some true) (hp : lc0.PubOnce)
    (hne : lc0.NoEmptyAllocs) : (∃ lc, step3 P o lc0 = some lc ∧ lc.validate = some true) ∨ (3 ≤ o.optLevel ∧ Running P P.fuel (lc0.dedup P.srtG)) := by
  have hd := Layered.dedup_valid hP.srtG h
  unfold step3
  rw [if_pos h]
  dsimp only
  rw [if_pos h1]
  by_cases h3 : 3 ≤ o.optLevel
  · rw [if_pos h3]
    rcases shrinkLoop_total hP P.fuel hd (tidy_dedup hP.sorts h hp hne) with ⟨c', e, v⟩ | hr
    · rw [e]
      dsimp only
      rw [if_pos v]
      exact .inl ⟨_, rfl, Layered.sortAll_valid hP.srtG hP.srtC v⟩
    · exact .inr ⟨h3, hr⟩
  · rw [if_neg h3]
    dsimp only
    rw [if_pos hd]
    exact .inl ⟨_, rfl, Layered.sortAll_valid hP.srtG hP.srtC hd⟩

end Verif.Compile
