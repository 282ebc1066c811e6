import Verif.Compile.Step2
import Verif.Compile.Step1

/-!
# After unreachable circuits are removed no circuit calls the root
-/

set_option linter.unusedSectionVars false
set_option linter.unusedSimpArgs false

namespace Verif.Compile

open Verif.IR

variable {F : Type} [Field F] [DecidableEq F] {L : Lang F}

/-- No circuit calls circuit 0. -/
def NoRoot (rc : RootCircuit L) : Prop := ∀ c, ¬ Calls rc.get c 0

theorem calls_derived (hL : L.Lawful) {x y : RootCircuit L} (h : DerivedRc x y) {c d : Nat} (hc : Calls y.get c d) : Calls x.get c d := by
  obtain ⟨circ', hg, i, hi, a, n, hcall⟩ := hc
  obtain ⟨circ, hg', hd⟩ := h.circ c circ' hg
  obtain ⟨j, hj, a', n', e⟩ := hd.insns.call_mem hL hi hcall
  exact ⟨circ, hg', j, hj, a', n', e⟩

theorem noRoot_fwd (hL : L.Lawful) : Fwd (NoRoot (L := L)) := fun h hx c hc => hx c (calls_derived hL h hc)

theorem usedFold_reach (rc : RootCircuit L) : ∀ (l : List Nat) (init : List Nat), (∀ x ∈ init, Relation.ReflTransGen (Calls rc.get) 0 x) →
    ∀ x ∈ l.foldl (usedStep rc) init, Relation.ReflTransGen (Calls rc.get) 0 x := by
  intro l
  induction l with
  | nil => intro init h; exact h
  | cons c l ih =>
    intro init h
    refine ih _ ?_
    intro x hx
    unfold usedStep at hx
    split at hx
    · rename_i hc
      split at hx
      · rename_i circ hg
        rcases List.mem_append.1 hx with hx | hx
        · exact h x hx
        · refine (h c hc).tail ⟨circ, hg, ?_⟩
          simp only [callees, List.mem_filterMap, Option.map_eq_some_iff] at hx
          obtain ⟨i, hi, t, ht, rfl⟩ := hx
          exact ⟨i, hi, t.2.1, t.2.2, ht⟩
      · exact h x hx
    · exact h x hx

theorem removeUnreachable_reach {rc rc' : RootCircuit L} {im : InputMapping} (h : removeUnreachable rc = some (rc', im)) {c : Nat} {circ : Circuit L}
    (hg : rc'.get c = some circ) : Relation.ReflTransGen (Calls rc.get) 0 c := by
  unfold removeUnreachable at h
  split at h
  · cases h
  · rename_i order0 ho
    simp only at h
    split at h
    · cases h
      have := mem_of_get hg
      simp only [List.mem_filterMap, List.mem_reverse, List.mem_filter, List.contains_iff_mem, Option.map_eq_some_iff, Prod.mk.injEq] at this
      obtain ⟨c', ⟨_, hu⟩, _, _, rfl, _⟩ := this
      exact usedFold_reach rc order0 [0] (by intro x hx; simp at hx; subst hx; exact .refl) c' hu
    · cases h

theorem removeUnreachable_noRoot (hL : L.Lawful) {npi : Option Nat} {rc rc' : RootCircuit L} (hw : WFGet npi rc.get) {im : InputMapping} (h : removeUnreachable rc = some (rc', im)) : NoRoot rc' := by
  intro c hc
  obtain ⟨circ, hg, _⟩ := id hc
  have hr := removeUnreachable_reach h hg
  have hc' := calls_derived hL (removeUnreachable_derived hL h) hc
  obtain ⟨r, hrr⟩ := hw.dag
  have key : ∀ x, Relation.ReflTransGen (Calls rc.get) 0 x → r x ≤ r 0 := by
    intro x hx
    induction hx with
    | refl => exact Nat.le_refl _
    | tail _ h ih => have := hrr _ _ h; omega
  have := key c hr
  have := hrr c 0 hc'
  omega

theorem cleanup_noRoot (hL : L.Lawful) {npi : Option Nat} {rc rc' : RootCircuit L} (hw : WFGet npi rc.get) {im : InputMapping} (h : cleanup rc = some (rc', im)) : NoRoot rc' := by
  unfold cleanup at h
  split at h
  · cases h
  · rename_i r im' hr
    obtain ⟨r', hr', e⟩ := Option.map_eq_some_iff.1 h
    cases e
    exact reassign_fwd hL (noRoot_fwd hL) hr' (removeUnreachable_noRoot hL hw hr)

section Loop

variable {T : Type} {eq : T → T → Bool} {f : T → Option (T × InputMapping)} {A Q : T → Prop}

theorem optLoop_last (hq : ∀ {x y im}, A x → f x = some (y, im) → A y ∧ Q y) : ∀ (n : Nat) (x y : T) (im0 im : InputMapping), A x → Q x →
    optLoop eq f n x im0 = .done (y, im) → Q y := by
  intro n
  induction n with
  | zero => intro x y im0 im _ _ h; cases h
  | succ n ih =>
    intro x y im0 im ha hx h
    simp only [optLoop] at h
    cases hf : f x with
    | none => rw [hf] at h; cases h
    | some p =>
      obtain ⟨z, imz⟩ := p
      rw [hf] at h
      simp only at h
      split at h
      · cases h; exact hx
      · split at h
        · cases h
        · exact ih _ _ _ _ (hq ha hf).1 (hq ha hf).2 h

/-- The result of the loop is a result of the pass. -/
theorem optimize_last (hq : ∀ {x y im}, A x → f x = some (y, im) → A y ∧ Q y) {fuel : Nat} {x y : T} {im0 im : InputMapping} (ha : A x)
    (h : optimizeUntilFixedPoint eq f fuel x im0 = .done (y, im)) : Q y := by
  simp only [optimizeUntilFixedPoint] at h
  cases hf : f x with
  | none => rw [hf] at h; cases h
  | some p =>
    obtain ⟨z, imz⟩ := p
    rw [hf] at h
    simp only at h
    split at h
    · cases h; exact (hq ha hf).2
    · split at h
      · cases h
      · exact optLoop_last hq _ _ _ _ _ (hq ha hf).1 (hq ha hf).2 h

end Loop

theorem tidy_noRoot [DecidableEq L.Insn] [DecidableEq L.Con] (hL : L.Lawful) (ho : ReassignOk L) {opt fuel : Nat} (h1 : 1 ≤ opt) {x y : RootCircuit L} (hx : Valid x)
    {im im' : InputMapping} (h : tidy opt fuel x im = some (y, im')) : NoRoot y := by
  unfold tidy at h
  by_cases h2 : 2 ≤ opt
  · rw [if_pos h2] at h
    refine optimize_last (A := Valid) (fun {a b m} ha hf => ⟨?_, cleanup_noRoot hL ha.2.wf hf⟩) hx (toOption_some.1 h)
    obtain ⟨b', m', e, hb, _⟩ := cleanup_keepsOk hL ho a ha
    rw [hf] at e; cases e; exact hb
  · rw [if_neg h2, if_pos h1] at h
    obtain ⟨m, g1, _⟩ := pruneOnce_some.1 h
    exact removeUnreachable_noRoot hL hx.2.wf g1

end Verif.Compile
