import Verif.Layered.Basic
import Mathlib.Algebra.Group.Pointwise.Set.Basic
import Mathlib.Algebra.Group.Pointwise.Set.ListOfFn
import Mathlib.Algebra.Group.Pi.Basic
import Mathlib.Algebra.BigOperators.Group.List.Basic

/-!
# What a segment can add to its output slice

The set of vectors a segment may add to its outputs, as a sum of sets over its steps; proved equal to what the in-place evaluator with its
random tape can do (`apply_den`, `den_apply`).  A step that panics denotes the empty set.
-/

set_option linter.unusedSectionVars false
set_option linter.unusedSimpArgs false

namespace Verif.Layered

open Verif.IR (Coef)
open scoped Pointwise

variable {F R : Type} [CommRing R]

/-- Values a coefficient can take. -/
def CoefVal (V : LEnv F R) : Coef F → R → Prop
  | .const c, v => v = V.const c
  | .random, _ => True
  | .pub i, v => V.pub i = some v

/-- Add a vector to a list, position by position. -/
def addVec (l : List R) (t : Nat → R) : List R := l.mapIdx fun i x => x + t i

/-- Place a vector of `len` entries at position `off`. -/
def shiftOut (off len : Nat) (u : Nat → R) : Nat → R := fun i => if off ≤ i ∧ i < off + len then u (i - off) else 0

/-- What one step may add. -/
def opSet (V : LEnv F R) (segs : List (Segment F)) (rec : Segment F → Nat → List (List R) → Set (Nat → R))
    (n : Nat) (cur : List (List R)) : Op F → Set (Nat → R)
  | .gate g => {t | ∃ vs c, mapOpt (readInput cur) g.inputs = some vs ∧ CoefVal V g.coef c ∧ g.output < n ∧
      t = fun i => if i = g.output then gateVal V g vs * c else 0}
  | .look id => {t | id < segs.length ∧ t = 0}
  | .child id a => {t | ∃ sub ins u, segs[id]? = some sub ∧ childIn cur a.inputOffset sub.numInputs = some ins ∧
      a.outputOffset + sub.numOutputs ≤ n ∧ u ∈ rec sub sub.numOutputs ins ∧ t = shiftOut a.outputOffset sub.numOutputs u}

/-- What a list of steps may add. -/
def opsSet (V : LEnv F R) (segs : List (Segment F)) (rec : Segment F → Nat → List (List R) → Set (Nat → R))
    (n : Nat) (cur : List (List R)) (ops : List (Op F)) : Set (Nat → R) := (ops.map (opSet V segs rec n cur)).sum

/-- What a segment may add to an output slice of length `n`. -/
def den (V : LEnv F R) (segs : List (Segment F)) : Nat → Segment F → Nat → List (List R) → Set (Nat → R)
  | 0, _, _, _ => ∅
  | f + 1, s, n, cur => opsSet V segs (den V segs f) n cur s.ops

@[simp] theorem addVec_length (l : List R) (t : Nat → R) : (addVec l t).length = l.length := by simp [addVec]

theorem addVec_getElem? (l : List R) (t : Nat → R) (i : Nat) : (addVec l t)[i]? = l[i]?.map (· + t i) := by
  simp [addVec, List.getElem?_mapIdx]

@[simp] theorem addVec_zero (l : List R) : addVec l 0 = l := by
  apply List.ext_getElem?; intro i; rw [addVec_getElem?]; simp

theorem addVec_add (l : List R) (t u : Nat → R) : addVec (addVec l t) u = addVec l (t + u) := by
  apply List.ext_getElem?; intro i; rw [addVec_getElem?, addVec_getElem?, addVec_getElem?, Option.map_map]
  congr 1; funext x; simp [add_assoc]

theorem modify_addVec (l : List R) (k : Nat) (v : R) :
    l.modify k (· + v) = addVec l (fun i => if i = k then v else 0) := by
  apply List.ext_getElem?; intro i; rw [addVec_getElem?, List.getElem?_modify]
  by_cases h : k = i
  · subst h; simp
  · have : ¬ i = k := fun e => h e.symm
    simp [h, this]

theorem splice_addVec (l : List R) (off len : Nat) (h : off + len ≤ l.length) (u : Nat → R) :
    l.take off ++ addVec ((l.drop off).take len) u ++ l.drop (off + len) = addVec l (shiftOut off len u) := by
  apply List.ext_getElem?; intro i
  rw [addVec_getElem?, List.append_assoc, List.getElem?_append]
  have hl : (l.take off).length = off := by simp; omega
  rw [hl]
  by_cases h1 : i < off
  · rw [if_pos h1, List.getElem?_take, if_pos h1]
    have : ¬ off ≤ i := by omega
    simp [shiftOut, this]
  · rw [if_neg h1, List.getElem?_append]
    have hl2 : (addVec ((l.drop off).take len) u).length = len := by simp; omega
    rw [hl2]
    by_cases h2 : i - off < len
    · rw [if_pos h2, addVec_getElem?, List.getElem?_take, if_pos h2, List.getElem?_drop]
      have h3 : off + (i - off) = i := by omega
      have h4 : off ≤ i ∧ i < off + len := by omega
      rw [h3]; simp [shiftOut, h4]
    · rw [if_neg h2, List.getElem?_drop]
      have h3 : off + len + (i - off - len) = i := by omega
      have h4 : ¬ (off ≤ i ∧ i < off + len) := by omega
      rw [h3]; simp [shiftOut, h4]

theorem draw_val {V : LEnv F R} {c : Coef F} {tape tape' : Nat → R} {v : R} (h : draw V c tape = some (v, tape')) : CoefVal V c v := by
  cases c with
  | const c => simp [draw] at h; exact h.1.symm
  | random => trivial
  | pub i =>
    simp only [draw, Option.map_eq_some_iff] at h
    obtain ⟨w, hw, he⟩ := h
    cases he; exact hw

theorem val_draw {V : LEnv F R} {c : Coef F} {v : R} (h : CoefVal V c v) (tape' : Nat → R) : ∃ tape, draw V c tape = some (v, tape') := by
  cases c with
  | const c => exact ⟨tape', by rw [h]; rfl⟩
  | random => exact ⟨fun i => Nat.casesOn i v tape', rfl⟩
  | pub i => exact ⟨tape', by simp only [draw]; rw [show V.pub i = some v from h]; rfl⟩

/-- The evaluator `A` of one segment and the sets `D` agree. -/
def Agree (A : Segment F → List (List R) → (List R × (Nat → R)) → Option (List R × (Nat → R)))
    (D : Segment F → Nat → List (List R) → Set (Nat → R)) : Prop :=
  (∀ s cur nxt tape nxt' tape', A s cur (nxt, tape) = some (nxt', tape') → ∃ t ∈ D s nxt.length cur, nxt' = addVec nxt t) ∧
  (∀ s cur nxt t, t ∈ D s nxt.length cur → ∀ tape', ∃ tape, A s cur (nxt, tape) = some (addVec nxt t, tape'))

theorem step_den {V : LEnv F R} {segs : List (Segment F)} {A D} (hA : Agree A D) {cur : List (List R)} {op : Op F} {nxt : List R}
    {tape : Nat → R} {nxt' tape'} (h : stepOp V segs A cur op (nxt, tape) = some (nxt', tape')) :
    ∃ t ∈ opSet V segs D nxt.length cur op, nxt' = addVec nxt t := by
  cases op with
  | gate g =>
    simp only [stepOp, stepGate] at h
    split at h
    · cases h
    · rename_i vs hvs
      split at h
      · cases h
      · rename_i c tp hc
        split at h
        · rename_i hlt
          cases h
          exact ⟨_, ⟨vs, c, hvs, draw_val hc, hlt, rfl⟩, modify_addVec _ _ _⟩
        · cases h
  | look id =>
    simp only [stepOp] at h
    split at h
    · rename_i hlt; cases h; exact ⟨0, ⟨hlt, rfl⟩, by simp⟩
    · cases h
  | child id a =>
    simp only [stepOp] at h
    split at h
    · cases h
    · rename_i sub hsub
      split at h
      · cases h
      · rename_i ins hins
        split at h
        · cases h
        · rename_i out hout
          split at h
          · cases h
          · rename_i out' tp hrec
            cases h
            simp only [sliceOf] at hout
            split at hout
            · rename_i hle
              cases hout
              obtain ⟨u, hu, rfl⟩ := hA.1 _ _ _ _ _ _ hrec
              have hlen : ((nxt.drop a.outputOffset).take sub.numOutputs).length = sub.numOutputs := by simp; omega
              rw [hlen] at hu
              exact ⟨_, ⟨sub, ins, u, hsub, hins, hle, hu, rfl⟩, splice_addVec _ _ _ hle _⟩
            · cases hout

theorem den_step {V : LEnv F R} {segs : List (Segment F)} {A D} (hA : Agree A D) {cur : List (List R)} {op : Op F} {nxt : List R} {t}
    (h : t ∈ opSet V segs D nxt.length cur op) (tape' : Nat → R) :
    ∃ tape, stepOp V segs A cur op (nxt, tape) = some (addVec nxt t, tape') := by
  cases op with
  | gate g =>
    obtain ⟨vs, c, hvs, hc, hlt, rfl⟩ := h
    obtain ⟨tape, ht⟩ := val_draw hc tape'
    refine ⟨tape, ?_⟩
    simp only [stepOp, stepGate, hvs, ht, hlt, if_true]
    rw [modify_addVec]
  | look id =>
    obtain ⟨hlt, rfl⟩ := h
    exact ⟨tape', by simp [stepOp, hlt]⟩
  | child id a =>
    obtain ⟨sub, ins, u, hsub, hins, hle, hu, rfl⟩ := h
    have hlen : ((nxt.drop a.outputOffset).take sub.numOutputs).length = sub.numOutputs := by simp; omega
    obtain ⟨tape, ht⟩ := hA.2 sub ins ((nxt.drop a.outputOffset).take sub.numOutputs) u (by rw [hlen]; exact hu) tape'
    refine ⟨tape, ?_⟩
    simp only [stepOp, hsub, hins, sliceOf, hle, if_true, ht]
    rw [splice_addVec _ _ _ hle]

theorem ops_den {V : LEnv F R} {segs : List (Segment F)} {A D} (hA : Agree A D) {cur : List (List R)} :
    ∀ {ops : List (Op F)} {nxt : List R} {tape : Nat → R} {nxt' tape'}, runOps (stepOp V segs A cur) ops (nxt, tape) = some (nxt', tape') →
      ∃ t ∈ opsSet V segs D nxt.length cur ops, nxt' = addVec nxt t := by
  intro ops
  induction ops with
  | nil => intro nxt tape nxt' tape' h; simp only [runOps] at h; cases h; exact ⟨0, by simp [opsSet], by simp⟩
  | cons op ops ih =>
    intro nxt tape nxt' tape' h
    simp only [runOps, Option.bind_eq_some_iff] at h
    obtain ⟨⟨n1, t1⟩, h1, h2⟩ := h
    obtain ⟨t, ht, rfl⟩ := step_den hA h1
    obtain ⟨u, hu, rfl⟩ := ih h2
    rw [addVec_length] at hu
    refine ⟨t + u, ?_, addVec_add _ _ _⟩
    simp only [opsSet, List.map_cons, List.sum_cons]
    exact Set.add_mem_add ht hu

theorem den_ops {V : LEnv F R} {segs : List (Segment F)} {A D} (hA : Agree A D) {cur : List (List R)} :
    ∀ {ops : List (Op F)} {nxt : List R} {t}, t ∈ opsSet V segs D nxt.length cur ops → ∀ tape' : Nat → R,
      ∃ tape, runOps (stepOp V segs A cur) ops (nxt, tape) = some (addVec nxt t, tape') := by
  intro ops
  induction ops with
  | nil => intro nxt t h tape'; simp [opsSet] at h; subst h; exact ⟨tape', by simp [runOps]⟩
  | cons op ops ih =>
    intro nxt t h tape'
    simp only [opsSet, List.map_cons, List.sum_cons] at h
    obtain ⟨u, hu, w, hw, rfl⟩ := Set.mem_add.1 h
    obtain ⟨t1, ht1⟩ := ih (nxt := addVec nxt u) (by rw [addVec_length]; exact hw) tape'
    obtain ⟨t0, ht0⟩ := den_step hA hu t1
    refine ⟨t0, ?_⟩
    simp only [runOps, ht0, Option.bind_some, ht1, addVec_add]

theorem agree (V : LEnv F R) (segs : List (Segment F)) : ∀ f : Nat, Agree (applySeg V segs f) (den V segs f) := by
  intro f
  induction f with
  | zero => exact ⟨fun _ _ _ _ _ _ h => by simp [applySeg] at h, fun _ _ _ _ h => by simp [den] at h⟩
  | succ f ih => exact ⟨fun _ _ _ _ _ _ h => ops_den ih h, fun _ _ _ _ h => den_ops ih h⟩

/-! ## Circuits -/

/-- Wire values possible for a circuit on given inputs. -/
def Traces (V : LEnv F R) (c : Circuit F) (inputs : List R) : Set (List (List R)) := {ws | ∃ tape, c.wires V inputs tape = some ws}

/-- Layers reachable from a history. -/
def layersSet (V : LEnv F R) (segs : List (Segment F)) : List Nat → List (List R) → Set (List (List R))
  | [], hist => {hist}
  | id :: ids, hist => {ws | ∃ s t, segs[id]? = some s ∧ s.numInputs.length ≤ hist.length ∧
      t ∈ den V segs (segs.length + 1) s s.numOutputs (hist.take s.numInputs.length) ∧
      ws ∈ layersSet V segs ids (addVec (List.replicate s.numOutputs 0) t :: hist)}

theorem runLayers_iff (V : LEnv F R) (segs : List (Segment F)) : ∀ (ids : List Nat) (hist ws : List (List R)),
    (∃ tape, runLayers V segs ids hist tape = some ws) ↔ ws ∈ layersSet V segs ids hist := by
  intro ids
  induction ids with
  | nil => intro hist ws; simp [runLayers, layersSet, eq_comm]
  | cons id ids ih =>
    intro hist ws
    constructor
    · rintro ⟨tape, h⟩
      simp only [runLayers] at h
      split at h
      · cases h
      · rename_i s hs
        split at h
        · rename_i hle
          split at h
          · cases h
          · rename_i nxt tape' ha
            obtain ⟨t, ht, rfl⟩ := (agree V segs _).1 _ _ _ _ _ _ ha
            rw [List.length_replicate] at ht
            exact ⟨s, t, hs, hle, ht, (ih _ _).1 ⟨tape', h⟩⟩
        · cases h
    · rintro ⟨s, t, hs, hle, ht, hw⟩
      obtain ⟨tape', h'⟩ := (ih _ _).2 hw
      obtain ⟨tape, ha⟩ := (agree V segs _).2 s _ (List.replicate s.numOutputs 0) t (by rw [List.length_replicate]; exact ht) tape'
      refine ⟨tape, ?_⟩
      simp only [runLayers, hs, hle, if_true, ha, h']

theorem traces_eq (V : LEnv F R) (c : Circuit F) (inputs : List R) :
    Traces V c inputs = {ws | c.inputSize = some inputs.length ∧ ws ∈ layersSet V c.segments c.layerIds [inputs]} := by
  ext ws
  simp only [Traces, Set.mem_setOf_eq, Circuit.wires]
  constructor
  · rintro ⟨tape, h⟩
    split at h
    · rename_i he; exact ⟨he, (runLayers_iff _ _ _ _ _).1 ⟨tape, h⟩⟩
    · cases h
  · rintro ⟨he, h⟩
    obtain ⟨tape, ht⟩ := (runLayers_iff _ _ _ _ _).2 h
    exact ⟨tape, by rw [if_pos he]; exact ht⟩

/-- The outcomes of an evaluation: outputs and verdict. -/
def Outcomes [DecidableEq R] (V : LEnv F R) (c : Circuit F) (inputs : List R) : Set (List R × Bool) :=
  {o | ∃ tape, c.eval V inputs tape = some o}

theorem outcomes_of_traces [DecidableEq R] {V : LEnv F R} {c c' : Circuit F} {inputs : List R} (h : Traces V c inputs = Traces V c' inputs)
    (ha : c.numActualOutputs = c'.numActualOutputs) (hz : c.expectedNumOutputZeroes = c'.expectedNumOutputZeroes) :
    Outcomes V c inputs = Outcomes V c' inputs := by
  have key : ∀ (c c' : Circuit F), Traces V c inputs = Traces V c' inputs → c.numActualOutputs = c'.numActualOutputs →
      c.expectedNumOutputZeroes = c'.expectedNumOutputZeroes → Outcomes V c inputs ⊆ Outcomes V c' inputs := by
    intro c c' h ha hz o ho
    obtain ⟨tape, ho⟩ := ho
    simp only [Circuit.eval, Circuit.evalRaw] at ho
    cases hw : c.wires V inputs tape with
    | none => rw [hw] at ho; cases ho
    | some ws =>
      rw [hw] at ho
      have : ws ∈ Traces V c inputs := ⟨tape, hw⟩
      rw [h] at this
      obtain ⟨tape', hw'⟩ := this
      refine ⟨tape', ?_⟩
      simp only [Circuit.eval, Circuit.evalRaw, hw', ← ha, ← hz]
      exact ho
  exact Set.Subset.antisymm (key c c' h ha hz) (key c' c h.symm ha.symm hz.symm)

end Verif.Layered
