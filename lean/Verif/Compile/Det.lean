import Verif.Compile.NoRand
import Verif.Compile.Step4

/-!
# Circuits with one outcome

A circuit in which every instruction has at most one result has at most one outcome.
-/

set_option linter.unusedSectionVars false
set_option linter.unusedSimpArgs false

namespace Verif.Compile

open Verif.IR Verif.IR.HintExport

variable {F : Type} [Field F] [DecidableEq F] {L : Lang F}

/-- The instruction has at most one result. -/
def PrimFun (L : Lang F) (i : L.Insn) : Prop := L.asCall i = none → ∀ val o o', L.prim i val o → L.prim i val o' → o = o'

theorem run_det {get : Nat → Option (Circuit L)} (hf : ∀ c circ, get c = some circ → ∀ i ∈ circ.instructions, PrimFun L i)
    {is : List L.Insn} {vs v1 : List F} {b1 : Bool} (h1 : Run get is vs v1 b1) : (∀ i ∈ is, PrimFun L i) → ∀ {v2 b2}, Run get is vs v2 b2 → v1 = v2 ∧ b1 = b2 := by
  induction h1 with
  | nil vs => intro _ v2 b2 h2; cases h2; exact ⟨rfl, rfl⟩
  | prim hc hp hr ih =>
    intro hi v2 b2 h2
    cases h2 with
    | prim hc' hp' hr' =>
      cases hi _ (by simp) hc _ _ _ hp hp'
      exact ih (fun j hj => hi j (by simp [hj])) hr'
    | call hc' => rw [hc] at hc'; cases hc'
  | call hc hg ha hs hk ho hr ih1 ih2 =>
    intro hi v2 b2 h2
    cases h2 with
    | prim hc' => rw [hc] at hc'; cases hc'
    | call hc' hg' ha' hs' hk' ho' hr' =>
      rw [hc] at hc'; cases hc'
      rw [hg] at hg'; cases hg'
      rw [ha] at ha'; cases ha'
      obtain ⟨rfl, rfl⟩ := ih1 (hf _ _ hg) hs'
      rw [hk] at hk'; cases hk'
      rw [ho] at ho'; cases ho'
      obtain ⟨rfl, rfl⟩ := ih2 (fun j hj => hi j (by simp [hj])) hr'
      exact ⟨rfl, rfl⟩

theorem eval_det {rc : RootCircuit L} (hf : AllInsn (PrimFun L) rc) {ins o1 o2 : List F} {b1 b2 : Bool} (h1 : Eval rc ins o1 b1) (h2 : Eval rc ins o2 b2) : o1 = o2 ∧ b1 = b2 := by
  obtain ⟨root, all, b0, hg, _, ⟨vs, sb, cb, hr, hk, ho, rfl⟩, _, rfl, rfl⟩ := h1
  obtain ⟨root', all', b0', hg', _, ⟨vs', sb', cb', hr', hk', ho', rfl⟩, _, rfl, rfl⟩ := h2
  rw [hg] at hg'; cases hg'
  obtain ⟨rfl, rfl⟩ := run_det hf hr (hf _ _ hg) hr'
  rw [hk] at hk'; cases hk'
  rw [ho] at ho'; cases ho'
  exact ⟨rfl, rfl⟩

/-- Hints have one answer. -/
def _root_.Verif.IR.Env.HintFun (E : Env F) : Prop := ∀ id ins n o o', E.hint id ins n o → E.hint id ins n o' → o = o'

variable {E : Env F}

theorem hn_primFun (hf : E.HintFun) {i : HintNorm.Insn F} (hr : i ≠ .constantLike .random) : PrimFun (hintNorm E) i := by
  intro hc val o o' h h'
  cases hv : view i with
  | other j => exact other_det hv hr h h'
  | hint id xs n =>
    obtain rfl := view_hint hv
    obtain ⟨a, h1, h2⟩ := h
    obtain ⟨a', h1', h2'⟩ := h'
    rw [h1] at h1'; cases h1'
    exact hf _ _ _ _ _ h2 h2'
  | call c xs n => obtain rfl := view_call hv; cases hc

theorem hn_noRandom_replace {i : HintNorm.Insn F} (h : i ≠ .constantLike .random) (f : Nat → Nat) : i.replaceVars f ≠ .constantLike .random := by
  cases i <;> simp_all [HintNorm.Insn.replaceVars]

theorem hn_fwd : Fwd (HintExport.NoRandom (E := E)) := by
  refine fwd_all (L := hintNorm E) (R := fun i => (i : HintNorm.Insn F) ≠ .constantLike .random) ?_ ?_ ?_
  · intro i f _ h; exact hn_noRandom_replace h f
  · intro x k b h; cases h
  · intro i h e; subst e; exact h rfl

/-- Removing the hints adds no random values. -/
theorem removeInsns_noRandom {hs : Nat → Nat × Nat} : ∀ (is : List (HintNorm.Insn F)) vm a b c, (∀ i ∈ is, i ≠ .constantLike .random) →
    ∀ j ∈ (removeInsns hs is vm a b c).1, j ≠ .constantLike .random := by
  intro is
  induction is with
  | nil => intro vm a b c _ j hj; cases hj
  | cons i is ih =>
    intro vm a b c hi j hj
    have ih := fun vm a b c => ih vm a b c fun i h => hi i (by simp [h])
    simp only [removeInsns] at hj
    cases hv : view i with
    | hint id xs n => rw [hv] at hj; exact ih _ _ _ _ j hj
    | call d xs n =>
      rw [hv] at hj
      rcases List.mem_cons.1 hj with rfl | hj
      · intro h; cases h
      · exact ih _ _ _ _ j hj
    | other k =>
      rw [hv] at hj
      rcases List.mem_cons.1 hj with rfl | hj
      · have := hi i (by simp)
        intro h
        cases i <;> simp only [view] at hv <;> cases hv <;> simp_all [HintLess.Insn.replaceVars]
      · exact ih _ _ _ _ j hj

/-- Exporting the hints adds no random values. -/
theorem exportHn_noRandom {hs : Nat → Nat × Nat} : ∀ (is : List (HintNorm.Insn F)) vm a, (∀ i ∈ is, i ≠ .constantLike .random) →
    ∀ j ∈ (exportInsns hs is vm a).1, j ≠ .constantLike .random := by
  intro is
  induction is with
  | nil => intro vm a _ j hj; cases hj
  | cons i is ih =>
    intro vm a hi j hj
    have ih := fun vm a => ih vm a fun i h => hi i (by simp [h])
    simp only [exportInsns] at hj
    cases hv : view i with
    | hint id xs n =>
      rw [hv] at hj
      rcases List.mem_cons.1 hj with rfl | hj
      · intro h; cases h
      · exact ih _ _ j hj
    | call d xs n =>
      rw [hv] at hj
      rcases List.mem_cons.1 hj with rfl | hj
      · intro h; cases h
      · exact ih _ _ j hj
    | other k =>
      rw [hv] at hj
      rcases List.mem_cons.1 hj with rfl | hj
      · exact hn_noRandom_replace (hi i (by simp)) _
      · exact ih _ _ j hj

theorem removeAndExport_noRandom {rc : RootCircuit (hintNorm E)} {hl : RootCircuit (hintLess E)} {ex : RootCircuit (hintNorm E)} {npi : Option Nat} (hk : rc.vertices.Nodup)
    (hw : WFGet npi rc.get) (h : removeAndExport E rc = some (hl, ex)) (hr : HintExport.NoRandom rc) : HlNoRandom hl ∧ HintExport.NoRandom ex := by
  obtain ⟨hs, _, heq⟩ := removeAndExport_eq rc hk hw
  rw [heq] at h
  cases h
  have hget : (⟨rc.numPublicInputs, rc.expectedNumOutputZeroes, rc.circuits.map (fun p => (p.1, removeCore E hs p.1 p.2))⟩ : RootCircuit (hintLess E)).get = removedGet hs rc.get := by
    funext c; exact lookup_map_key (fun c x => removeCore E hs c x) rc.circuits c
  have hget2 : (⟨rc.numPublicInputs, 0, rc.circuits.map (fun p => (p.1, exportHints E hs (p.1 == 0) p.2))⟩ : RootCircuit (hintNorm E)).get = exportedGet hs rc.get := by
    funext c; exact lookup_map_key (fun c x => exportHints E hs (c == 0) x) rc.circuits c
  constructor
  · intro c circ hg
    rw [hget] at hg
    simp only [removedGet, Option.map_eq_some_iff] at hg
    obtain ⟨c0, hg, rfl⟩ := hg
    exact removeInsns_noRandom _ _ _ _ _ (hr c c0 hg)
  · intro c circ hg
    rw [hget2] at hg
    simp only [exportedGet, Option.map_eq_some_iff] at hg
    obtain ⟨c0, hg, rfl⟩ := hg
    exact exportHn_noRandom _ _ _ (hr c c0 hg)

theorem setOutputs_noRandom {ex ex1 : RootCircuit (hintNorm E)} {im : InputMapping} (h : setOutputs im ex = some ex1) (hr : HintExport.NoRandom ex) : HintExport.NoRandom ex1 := by
  obtain ⟨c, os, hg, ho, rfl⟩ := setOutputs_some.1 h
  intro d circ hd
  rw [withOutputs_get hg] at hd
  split at hd
  · cases hd; exact hr 0 c hg
  · exact hr d circ hd

theorem addBack_noRandom (hE : E.HintLen) {rc rc' : RootCircuit (hintNorm E)} {im : InputMapping} (h : AddBack.addBack im rc = some rc') (hr : HintExport.NoRandom rc) : HintExport.NoRandom rc' := by
  unfold AddBack.addBack at h
  cases hg : rc.get 0 with
  | none => rw [hg] at h; cases h
  | some c =>
    rw [hg] at h
    simp only [AddBack.addBackCircuit, Option.map_map, Option.map_eq_some_iff, Function.comp_def] at h
    obtain ⟨vm, _, rfl⟩ := h
    intro d circ hd
    simp only [RootCircuit.get] at hd hg
    rw [AddBack.lookup_replace, hg] at hd
    split at hd
    · cases hd
      intro i hi
      obtain ⟨j, hj, f, rfl⟩ := AddBack.renumber_calls (hintNorm_lawful E hE) _ _ _ i hi
      exact hn_noRandom_replace (hr 0 c hg j hj) f
    · exact hr d circ hd

theorem step4_noRandom (hE : E.HintLen) {P : Params F} {o : Options} {ex1 ex2 : RootCircuit (hintNorm E)} {im im' : InputMapping}
    (h : step4 P o ex1 im = some (ex2, im')) (hr : HintExport.NoRandom ex1) : HintExport.NoRandom ex2 := by
  simp only [step4, Option.bind_eq_bind, Option.bind_eq_some_iff] at h
  obtain ⟨ex1', h1, h2⟩ := h
  obtain ⟨rfl, v1⟩ := checked_some.1 h1
  split at h2
  · have := toOption_some.1 h2
    exact optimize_fwd (fun hz ha => removeUnreachable_fwd (hintNorm_lawful E hE) hn_fwd hz ha) this hr
  · cases h2; exact hr

end Verif.Compile
