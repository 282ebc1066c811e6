import Verif.IR.SolveDup

/-!
# Passes that rewrite every circuit separately

Common part of the passes that replace each circuit of a root circuit by another one with the same inputs and outputs: if the rewriting is
right for one circuit whenever it is right for the circuits it calls, it is right for the root circuit.
-/

set_option linter.unusedSectionVars false

namespace Verif.IR

variable {F : Type} [Field F] [DecidableEq F]

namespace MapCircuits

variable {L L' : Lang F}

/-- The circuits of a root circuit rewritten one by one. -/
def mapRc (T : Circuit L → Circuit L') (rc : RootCircuit L) : RootCircuit L' :=
  ⟨rc.numPublicInputs, rc.expectedNumOutputZeroes, rc.circuits.map (fun p => (p.1, T p.2))⟩

def mapGet (T : Circuit L → Circuit L') (get : Nat → Option (Circuit L)) (c : Nat) : Option (Circuit L') := (get c).map T

theorem mapRc_get (T : Circuit L → Circuit L') (rc : RootCircuit L) : (mapRc T rc).get = mapGet T rc.get := by
  funext c; exact lookup_map_snd T rc.circuits c

/-- Outcomes agree: always forward, backward when `P`. -/
def Spec (get : Nat → Option (Circuit L)) (get' : Nat → Option (Circuit L')) (P : Prop) (circ : Circuit L) (circ' : Circuit L') : Prop :=
  ∀ ins : List F, ins.length = circ.numInputs →
    (∀ outs b, EvalSub get circ ins outs b → EvalSub get' circ' ins outs b) ∧
    (P → ∀ outs b, EvalSub get' circ' ins outs b → EvalSub get circ ins outs b)

/-- The calls of the rewritten circuit are the calls of the original, up to the names of the arguments. -/
def SameCalls (is : List L.Insn) (js : List L'.Insn) : Prop :=
  ∀ d m k, (∃ j ∈ js, ∃ a, L'.asCall j = some (d, a, m) ∧ a.length = k) ↔ ∃ i ∈ is, ∃ a, L.asCall i = some (d, a, m) ∧ a.length = k

/-- What has to be shown of one circuit. -/
structure Good (npi : Option Nat) (get : Nat → Option (Circuit L)) (P : Prop) (T : Circuit L → Circuit L') (circ : Circuit L) : Prop where
  inputs : (T circ).numInputs = circ.numInputs
  outputs : (T circ).outputs.length = circ.outputs.length
  cons : circ.constraints ≠ [] → (T circ).constraints ≠ []
  calls : SameCalls circ.instructions (T circ).instructions
  ok : CircOk npi (T circ)
  spec : (∀ i ∈ circ.instructions, ∀ d a n, L.asCall i = some (d, a, n) → ∀ sub, get d = some sub → Spec get (mapGet T get) P sub (T sub)) →
    Spec get (mapGet T get) P circ (T circ)

theorem calls_iff {T : Circuit L → Circuit L'} {get : Nat → Option (Circuit L)} (h : ∀ c circ, get c = some circ → SameCalls circ.instructions (T circ).instructions)
    (c d : Nat) : Calls (mapGet T get) c d ↔ Calls get c d := by
  unfold Calls
  constructor
  · rintro ⟨circ, hg, i, hi, a, n, h'⟩
    simp only [mapGet, Option.map_eq_some_iff] at hg
    obtain ⟨c0, hg, rfl⟩ := hg
    obtain ⟨j, hj, a', h', _⟩ := (h c c0 hg d n a.length).1 ⟨i, hi, a, h', rfl⟩
    exact ⟨c0, hg, j, hj, a', n, h'⟩
  · rintro ⟨circ, hg, i, hi, a, n, h'⟩
    obtain ⟨j, hj, a', h', _⟩ := (h c circ hg d n a.length).2 ⟨i, hi, a, h', rfl⟩
    exact ⟨_, by simp only [mapGet, hg, Option.map_some], j, hj, a', n, h'⟩

variable {npi : Option Nat} {P : Prop} {T : Circuit L → Circuit L'}

theorem map_wf {get : Nat → Option (Circuit L)} (hw : WFGet npi get) (h : ∀ c circ, get c = some circ → Good npi get P T circ) :
    WFGet npi (mapGet T get) := by
  refine ⟨?_, ?_, ?_⟩
  · intro c circ hg
    simp only [mapGet, Option.map_eq_some_iff] at hg
    obtain ⟨c0, hg, rfl⟩ := hg
    exact (h c c0 hg).ok
  · intro c circ hg j hj d a m hcall
    simp only [mapGet, Option.map_eq_some_iff] at hg
    obtain ⟨c0, hg, rfl⟩ := hg
    obtain ⟨i, hi, a', h', hal⟩ := ((h c c0 hg).calls d m a.length).1 ⟨j, hj, a, hcall, rfl⟩
    obtain ⟨sub, s1, s2, s3⟩ := hw.calls c c0 hg i hi d a' m h'
    exact ⟨T sub, by simp [mapGet, s1], by rw [← hal, s2, (h d sub s1).inputs], by rw [s3, (h d sub s1).outputs]⟩
  · obtain ⟨r, hr⟩ := hw.dag
    exact ⟨r, fun c d hcd => hr c d ((calls_iff (fun c circ hg => (h c circ hg).calls) c d).1 hcd)⟩

theorem map_spec {get : Nat → Option (Circuit L)} (hw : WFGet npi get) (h : ∀ c circ, get c = some circ → Good npi get P T circ) :
    ∀ c circ, get c = some circ → Spec get (mapGet T get) P circ (T circ) := by
  apply call_induction (P := fun c circ => Spec get (mapGet T get) P circ (T circ)) hw.dag
  intro c circ hg ih
  exact (h c circ hg).spec fun i hi d a n hcall sub hs => ih d sub ⟨circ, hg, i, hi, a, n, hcall⟩ hs

theorem map_correct (rc : RootCircuit L) (hw : WFAt npi rc) (h : ∀ c circ, rc.get c = some circ → Good npi rc.get P T circ) :
    (mapRc T rc).vertices = rc.vertices ∧ WFAt npi (mapRc T rc) ∧
      (∀ c, ((mapRc T rc).get c).map (·.numInputs) = (rc.get c).map (·.numInputs)) ∧
      (∀ ins outs b, Eval rc ins outs b → Eval (mapRc T rc) ins outs b) ∧
      (P → ∀ ins outs b, Eval (mapRc T rc) ins outs b → Eval rc ins outs b) := by
  have hget := mapRc_get T rc
  refine ⟨by simp [RootCircuit.vertices, mapRc], ⟨by rw [hget]; exact map_wf hw.wf h, ?_⟩, ?_, ?_, ?_⟩
  · obtain ⟨root, hg, hz, hne⟩ := hw.root
    have hr := h 0 root hg
    refine ⟨T root, by rw [hget]; simp [mapGet, hg], by rw [hr.outputs]; exact hz, ?_⟩
    intro ho
    have ho' : root.outputs = [] := by
      have := hr.outputs; rw [ho] at this; exact List.length_eq_zero_iff.1 this.symm
    obtain ⟨d, circ, h1, h2, h3⟩ := hne ho'
    refine ⟨d, T circ, ?_, by rw [hget]; simp [mapGet, h2], (h d circ h2).cons h3⟩
    rw [hget]
    exact Relation.ReflTransGen.mono (fun a b hab => (calls_iff (fun c circ hg => (h c circ hg).calls) a b).2 hab) _ _ h1
  · intro c
    rw [hget]
    cases hg : rc.get c with
    | none => simp [mapGet, hg]
    | some circ => simp [mapGet, hg, (h c circ hg).inputs]
  · rintro ins outs b ⟨root, all, b0, h1, h2, h3, h4, rfl, rfl⟩
    exact ⟨T root, all, b0, by rw [hget]; simp [mapGet, h1], by rw [(h 0 root h1).inputs]; exact h2,
      by rw [hget]; exact (map_spec hw.wf h 0 root h1 ins h2).1 _ _ h3, h4, rfl, rfl⟩
  · rintro hP ins outs b ⟨root', all, b0, h1, h2, h3, h4, rfl, rfl⟩
    rw [hget] at h1 h3
    simp only [mapGet, Option.map_eq_some_iff] at h1
    obtain ⟨root, hg, rfl⟩ := h1
    have h2' : ins.length = root.numInputs := by rw [h2, (h 0 root hg).inputs]
    exact ⟨root, all, b0, hg, h2', (map_spec hw.wf h 0 root hg ins h2').2 hP _ _ h3, h4, rfl, rfl⟩

end MapCircuits
end Verif.IR
