import Verif.Compile.HasTerms
import Verif.Compile.Step2

/-!
# `compile_step_2` makes no empty expression
-/

set_option linter.unusedSectionVars false
set_option linter.unusedSimpArgs false

namespace Verif.Compile

open Verif.IR Verif.IR.HintExport

variable {F : Type} [Field F] [DecidableEq F]

theorem step2_hasTerms {P : Params F} {o : Options} (hcs : FinalBuild.CostOk P.costs) {E : Env F}
    {hl : RootCircuit (hintLess E)} (hk : hl.vertices.Nodup) (hw : WF hl) {relaxed : RootCircuit (dest E true)} {d : RootCircuit (dest E false)} {im : InputMapping}
    (h : step2 P o hl = some (relaxed, d, im)) : DestHasTerms d := by
  simp only [step2, Option.bind_eq_bind, Option.bind_eq_some_iff] at h
  obtain ⟨⟨r1, m1⟩, h1, ⟨r2, m2⟩, h2, ⟨r3, m3⟩, h3, ⟨r4, m4⟩, h4, ⟨r5, m5⟩, h5, h6⟩ := h
  cases h6
  have hL := dest_lawful E true
  obtain ⟨s1, _⟩ := step2a_stage (K := True) hk hw h1
  have t2 : DestHasTerms r2 := by
    simp only [step2b, Option.bind_eq_bind, Option.bind_eq_some_iff] at h2
    obtain ⟨d1, a1, ⟨d2, im2⟩, a2, d3, a3, a4⟩ := h2
    obtain ⟨rfl, hv3⟩ := checked_some.1 a3
    rw [outcomeOption_some] at a1
    have t0 : DestHasTerms d1 := by
      rcases FinalBuild.process_spec (E := E) hcs P.ltE r1 s1.valid.1 s1.valid.2.wf with ⟨e, _⟩ | ⟨d0, e, hp⟩
      · rw [e] at a1; cases a1
      · rw [e] at a1; cases a1
        intro c circ hg i hi
        obtain ⟨_, _, him⟩ := hp.back c circ hg
        cases i with
        | internal e => exact (him.norand e hi).2
        | call c xs n => trivial
        | constantLike c => trivial
    have t1 := tidy_fwd hL hasTerms_fwd a2 t0
    cases hm : o.mulFanoutLimit with
    | none => rw [hm] at a4; cases a4; exact t1
    | some l =>
      rw [hm] at a4
      simp only [Option.bind_eq_bind, Option.bind_eq_some_iff] at a4
      obtain ⟨d4, b1, d5, b2, b3⟩ := a4
      obtain ⟨rfl, _⟩ := checked_some.1 b2
      cases b3
      exact solveRoot_hasTerms b1 t1
  have t3 : DestHasTerms r3 := by
    unfold step2c at h3
    by_cases hr : o.randomComb = true
    · rw [if_pos hr] at h3; cases h3; exact t2
    · rw [if_neg hr] at h3
      simp only [Option.bind_eq_bind, Option.bind_eq_some_iff] at h3
      obtain ⟨d1, a1, d2, a2, ⟨d3, im3⟩, a3, d4, a4, a5⟩ := h3
      obtain ⟨rfl, _⟩ := checked_some.1 a4
      cases a5
      obtain ⟨m, a6, _⟩ := pruneOnce_some.1 a3
      exact removeUnreachable_fwd hL hasTerms_fwd a6 (reassign_fwd hL hasTerms_fwd a2 (exportConstraints_hasTerms a1 t2))
  have t4 : DestHasTerms r4 := by
    unfold step2d at h4
    by_cases hc : o.cross = true
    · rw [if_pos hc] at h4; cases h4; exact t3
    · rw [if_neg hc] at h4
      simp only [Option.bind_eq_bind, Option.bind_eq_some_iff] at h4
      obtain ⟨p, a1, r1, a2, a3⟩ := h4
      obtain ⟨rfl, hv⟩ := checked_some.1 a2
      exact tidy_fwd hL hasTerms_fwd a3 (splitRoot_terms a1 t3 _)
  have fin : ∀ d' : RootCircuit (dest E true), DestHasTerms d' → ∀ r1 r2 im2, SolveDup.solveDuplicates E P.ord d' = some r1 →
      tidy o.optLevel P.fuel r1 m4 = some (r2, im2) → DestHasTerms r2 := fun d' hd r1 r2 im2 g1 g2 =>
    tidy_fwd (dest_lawful E false) hasTerms_fwd g2 (solveDuplicates_hasTerms g1 hd)
  unfold step2e at h5
  by_cases h1 : o.optLevel = 1
  · simp only [if_pos h1, Option.bind_eq_bind, Option.bind_eq_some_iff] at h5
    obtain ⟨d1, g1, r1, g2, ⟨r2, im2⟩, g3, r3, g4, g5⟩ := h5
    obtain ⟨rfl, _⟩ := checked_some.1 g4
    split at g5
    · cases g5
      exact fin d1 (reassign_fwd hL hasTerms_fwd g1 t4) _ _ _ g2 g3
    · cases g5
  · simp only [if_neg h1, Option.bind_eq_bind, Option.bind_eq_some_iff] at h5
    obtain ⟨d1, g1, r1, g2, ⟨r2, im2⟩, g3, r3, g4, g5⟩ := h5
    obtain ⟨rfl, _⟩ := checked_some.1 g4
    cases g1
    split at g5
    · cases g5
      exact fin r4 t4 _ _ _ g2 g3
    · cases g5

end Verif.Compile
