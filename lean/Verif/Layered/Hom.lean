import Verif.Layered.Basic
import Mathlib.Algebra.BigOperators.Group.List.Basic

/-!
# Evaluation commutes with ring homomorphisms (in particular with taking one SIMD lane)
-/

set_option linter.unusedSectionVars false
set_option linter.unusedSimpArgs false

namespace Verif.Layered

open Verif.IR (Coef)

variable {F R S : Type} [CommSemiring R] [CommSemiring S]

/-- `W` is the image of `V` under `φ`. -/
structure EnvHom (φ : R →+* S) (V : LEnv F R) (W : LEnv F S) : Prop where
  const : ∀ c, W.const c = φ (V.const c)
  pub : ∀ i, W.pub i = (V.pub i).map φ
  custom : ∀ t vs, W.custom t (vs.map φ) = φ (V.custom t vs)

variable {φ : R →+* S} {V : LEnv F R} {W : LEnv F S}

/-- Image of an evaluator state. -/
def stMap (φ : R →+* S) (st : List R × (Nat → R)) : List S × (Nat → S) := (st.1.map φ, fun i => φ (st.2 i))

theorem draw_map (h : EnvHom φ V W) (c : Coef F) (tape : Nat → R) :
    draw W c (fun i => φ (tape i)) = (draw V c tape).map fun r => (φ r.1, fun i => φ (r.2 i)) := by
  cases c with
  | const c => simp [draw, h.const]
  | random => rfl
  | pub i => simp [draw, h.pub]; rfl

theorem readInput_map (cur : List (List R)) (i : Input) : readInput (cur.map (List.map φ)) i = (readInput cur i).map φ := by
  simp only [readInput, List.getElem?_map]
  cases cur[i.layer]? with
  | none => rfl
  | some l => simp

theorem mapOpt_readInput_map (cur : List (List R)) : ∀ is : List Input,
    mapOpt (readInput (cur.map (List.map φ))) is = (mapOpt (readInput cur) is).map (List.map φ) := by
  intro is
  induction is with
  | nil => rfl
  | cons i is ih =>
    simp only [mapOpt, readInput_map, ih]
    cases readInput cur i with
    | none => rfl
    | some v => cases mapOpt (readInput cur) is <;> rfl

theorem gateVal_map (h : EnvHom φ V W) (g : Gate F) (vs : List R) : gateVal W g (vs.map φ) = φ (gateVal V g vs) := by
  unfold gateVal
  cases g.typ with
  | none => exact (map_list_prod φ vs).symm
  | some t => exact h.custom t vs

theorem map_modify (l : List R) (k : Nat) (v : R) : (l.modify k (· + v)).map φ = (l.map φ).modify k (· + φ v) := by
  apply List.ext_getElem?
  intro i
  simp only [List.getElem?_map, List.getElem?_modify]
  by_cases hk : k = i
  · subst hk
    cases l[k]? <;> simp
  · simp [hk]

theorem stepGate_map (h : EnvHom φ V W) (cur : List (List R)) (g : Gate F) (st : List R × (Nat → R)) :
    stepGate W (cur.map (List.map φ)) g (stMap φ st) = (stepGate V cur g st).map (stMap φ) := by
  simp only [stepGate, mapOpt_readInput_map]
  cases mapOpt (readInput cur) g.inputs with
  | none => rfl
  | some vs =>
    simp only [Option.map_some, stMap, draw_map h]
    cases draw V g.coef st.2 with
    | none => rfl
    | some r =>
      obtain ⟨c, tp⟩ := r
      simp only [Option.map_some, List.length_map]
      by_cases hl : g.output < st.1.length
      · simp only [hl, if_true, Option.map_some, gateVal_map h, ← map_mul, stMap, map_modify]
      · simp [hl]

theorem sliceOf_map (l : List R) (off len : Nat) : sliceOf (l.map φ) off len = (sliceOf l off len).map (List.map φ) := by
  unfold sliceOf
  rw [List.length_map]
  split <;> simp

theorem childIn_map : ∀ (cur : List (List R)) (offs lens : List Nat),
    childIn (cur.map (List.map φ)) offs lens = (childIn cur offs lens).map (List.map (List.map φ)) := by
  intro cur offs
  induction offs generalizing cur with
  | nil => intro lens; simp [childIn]
  | cons o offs ih =>
    intro lens
    cases lens with
    | nil => simp [childIn]
    | cons n lens =>
      cases cur with
      | nil => simp [childIn]
      | cons c cs =>
        simp only [List.map_cons, childIn, sliceOf_map, ih]
        cases sliceOf c o n with
        | none => rfl
        | some s => cases childIn cs offs lens <;> rfl

theorem applySeg_map (h : EnvHom φ V W) (segs : List (Segment F)) : ∀ (f : Nat) (s : Segment F) (cur : List (List R)) (st : List R × (Nat → R)),
    applySeg W segs f s (cur.map (List.map φ)) (stMap φ st) = (applySeg V segs f s cur st).map (stMap φ) := by
  intro f
  induction f with
  | zero => intros; rfl
  | succ f ih =>
    intro s cur st
    simp only [applySeg]
    generalize s.ops = ops
    have step : ∀ op st, stepOp W segs (applySeg W segs f) (cur.map (List.map φ)) op (stMap φ st) =
        (stepOp V segs (applySeg V segs f) cur op st).map (stMap φ) := by
      intro op st
      cases op with
      | gate g => exact stepGate_map h cur g st
      | look id => simp only [stepOp]; split <;> rfl
      | child id a =>
        simp only [stepOp]
        cases segs[id]? with
        | none => rfl
        | some sub =>
          simp only [childIn_map]
          cases childIn cur a.inputOffset sub.numInputs with
          | none => rfl
          | some ins =>
            have : (stMap φ st).1 = st.1.map φ := rfl
            simp only [Option.map_some, this, sliceOf_map]
            cases sliceOf st.1 a.outputOffset sub.numOutputs with
            | none => rfl
            | some out =>
              have hr := ih sub ins (out, st.2)
              simp only [Option.map_some]
              rw [show (List.map φ out, (stMap φ st).2) = stMap φ (out, st.2) from rfl, hr]
              cases applySeg V segs f sub ins (out, st.2) with
              | none => rfl
              | some r =>
                obtain ⟨o, tp⟩ := r
                simp [stMap]
    induction ops generalizing st with
    | nil => rfl
    | cons op ops ih2 =>
      simp only [runOps, step]
      cases stepOp V segs (applySeg V segs f) cur op st with
      | none => rfl
      | some st' => simp only [Option.map_some, Option.bind_some]; exact ih2 st'

theorem runLayers_map (h : EnvHom φ V W) (segs : List (Segment F)) : ∀ (ids : List Nat) (hist : List (List R)) (tape : Nat → R),
    runLayers W segs ids (hist.map (List.map φ)) (fun i => φ (tape i)) = (runLayers V segs ids hist tape).map (List.map (List.map φ)) := by
  intro ids
  induction ids with
  | nil => intros; rfl
  | cons id ids ih =>
    intro hist tape
    simp only [runLayers]
    cases segs[id]? with
    | none => rfl
    | some s =>
      simp only [List.length_map]
      by_cases hl : s.numInputs.length ≤ hist.length
      · simp only [hl, if_true]
        have hz : (List.replicate s.numOutputs (0 : S), fun i => φ (tape i)) = stMap φ (List.replicate s.numOutputs 0, tape) := by
          simp [stMap]
        rw [hz, ← List.map_take, applySeg_map h]
        cases applySeg V segs (segs.length + 1) s (hist.take s.numInputs.length) (List.replicate s.numOutputs 0, tape) with
        | none => rfl
        | some r =>
          obtain ⟨nxt, tp⟩ := r
          simp only [Option.map_some, stMap]
          exact ih (nxt :: hist) tp
      · simp [hl]

/-- Wires of the image = image of the wires. -/
theorem wires_map (h : EnvHom φ V W) (c : Circuit F) (inputs : List R) (tape : Nat → R) :
    c.wires W (inputs.map φ) (fun i => φ (tape i)) = (c.wires V inputs tape).map (List.map (List.map φ)) := by
  simp only [Circuit.wires, List.length_map]
  split
  · exact runLayers_map h c.segments c.layerIds [inputs] tape
  · rfl

/-- Outputs and vanishing values of the image = image of those. -/
theorem evalRaw_map (h : EnvHom φ V W) (c : Circuit F) (inputs : List R) (tape : Nat → R) :
    c.evalRaw W (inputs.map φ) (fun i => φ (tape i)) = (c.evalRaw V inputs tape).map fun r => (r.1.map φ, r.2.map φ) := by
  simp only [Circuit.evalRaw, wires_map h]
  cases c.wires V inputs tape with
  | none => rfl
  | some ws =>
    cases ws with
    | nil => rfl
    | cons last ws =>
      simp only [Option.map_some, List.map_cons, rangeOf, List.length_map]
      by_cases hr : c.expectedNumOutputZeroes ≤ c.numActualOutputs ∧ c.numActualOutputs ≤ last.length
      · simp [hr]
      · simp [hr]

end Verif.Layered
