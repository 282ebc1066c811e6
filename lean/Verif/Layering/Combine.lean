import Verif.Layered.Basic
import Mathlib.Tactic.FieldSimp
import Mathlib.Data.Fintype.Card
import Mathlib.Data.Fintype.BigOperators
import Mathlib.Algebra.BigOperators.Fin
import Mathlib.Tactic.Ring

/-!
# Combining constraints with random coefficients

`connect_wires` (layering/wire.rs:391-448, "also combined output variables") emits, for every layer of a circuit that has constraints, one
wire holding a linear combination: the circuit's own constraint variables get a fresh `Coef::Random`, the combination carried over from an
earlier layer (variable id `≥ num_var`) and the combinations of sub-circuits get the coefficient one.
-/

set_option linter.unusedSectionVars false

namespace Verif.Layering

open Verif.IR Verif.Layered

variable {F : Type}

/-- The gates of one combined-constraint wire (layering/wire.rs:402-446): `vars` are `cc.variables`, `aq` the positions `aq.var_pos` in the
layer below, `subPos` the positions of the combined wires of the sub-circuits, `pos` the position of the wire. -/
def combineGates [One F] (numVar : Nat) (aq : Nat → Nat) (vars subPos : List Nat) (pos : Nat) : List (Gate F) :=
  (vars.map fun v => ⟨none, [⟨0, aq v⟩], pos, if numVar ≤ v then .const 1 else .random⟩) ++
    subPos.map fun p => ⟨none, [⟨0, p⟩], pos, .const 1⟩

/-- A segment consisting of the gates of one combined-constraint wire only. -/
def combineSegment [One F] (numVar : Nat) (aq : Nat → Nat) (vars subPos : List Nat) (pos nIn nOut : Nat) : Segment F :=
  ⟨[nIn], nOut, [], [], combineGates numVar aq vars subPos pos, [], []⟩

variable [CommRing F]

/-- Specification: sum of the products of the first coefficients of the tape with the values. -/
def dot : (Nat → F) → List F → F
  | _, [] => 0
  | t, c :: cs => t 0 * c + dot (fun i => t (i + 1)) cs

def dropTape (t : Nat → F) (n : Nat) : Nat → F := fun i => t (i + n)

theorem dot_append (t : Nat → F) (a b : List F) : dot t (a ++ b) = dot t a + dot (dropTape t a.length) b := by
  induction a generalizing t with
  | nil => simp only [List.nil_append, dot, zero_add]; rfl
  | cons x a ih =>
    simp only [List.cons_append, dot, ih, List.length_cons, add_assoc]
    rfl

theorem dot_zero (t : Nat → F) (a : List F) (h : ∀ x ∈ a, x = 0) : dot t a = 0 := by
  induction a generalizing t with
  | nil => rfl
  | cons x a ih =>
    have hx := h x (by simp)
    simp only [dot, hx, mul_zero, zero_add]
    exact ih _ fun y hy => h y (List.mem_cons_of_mem _ hy)

theorem dot_eq_sum (t : Nat → F) (a : List F) : dot t a = ∑ i : Fin a.length, t i * a[i] := by
  induction a generalizing t with
  | nil => rfl
  | cons x a ih =>
    simp only [dot, ih]
    exact (Fin.sum_univ_succ (n := a.length) (fun i : Fin (a.length + 1) => t i * (x :: a)[i])).symm

/-- What a combined wire is worth: its own constraint values and the wires it only passes on. -/
def ownVals (numVar : Nat) (val : Nat → F) (vars : List Nat) : List F := (vars.filter (fun v => v < numVar)).map val

def passVals (numVar : Nat) (val : Nat → F) (vars : List Nat) : List F := (vars.filter (fun v => numVar ≤ v)).map val

theorem runOps_append {R : Type} (step : Op F → (List R × (Nat → R)) → Option (List R × (Nat → R))) (a b : List (Op F)) (st) :
    runOps step (a ++ b) st = (runOps step a st).bind (runOps step b) := by
  induction a generalizing st with
  | nil => rfl
  | cons o a ih =>
    simp only [List.cons_append, runOps]
    cases h : step o st with
    | none => rfl
    | some s => simp [ih]

/-- A linear gate on layer zero with a constant or random coefficient. -/
theorem stepGate_lin (V : LEnv F F) (buf out : List F) (t : Nat → F) (p pos : Nat) (x : F) (hx : buf[p]? = some x)
    (hp : pos < out.length) (hV : V.const 1 = 1) (rnd : Bool) :
    stepGate V [buf] ⟨none, [⟨0, p⟩], pos, if rnd then .random else .const 1⟩ (out, t) =
      some (out.modify pos (· + if rnd then t 0 * x else x), if rnd then dropTape t 1 else t) := by
  have hr : mapOpt (readInput [buf]) [⟨0, p⟩] = some [x] := by simp [mapOpt, readInput, hx]
  simp only [stepGate, hr]
  cases rnd
  · simp only [Bool.false_eq_true, if_false, draw, hV]
    simp [gateVal, hp]
  · simp only [if_true, draw]
    simp only [gateVal, hp, if_true, List.prod_cons, List.prod_nil, mul_one]
    rw [mul_comm (t 0) x]
    rfl

theorem modify_modify (out : List F) (pos : Nat) (a b : F) :
    (out.modify pos (· + a)).modify pos (· + b) = out.modify pos (· + (a + b)) := by
  apply List.ext_getElem?
  intro i
  simp only [List.getElem?_modify]
  by_cases h : pos = i
  · simp only [h, if_true, Option.map_map]
    cases out[i]? <;> simp [add_assoc]
  · simp [h]

theorem modify_id (out : List F) (pos : Nat) : (out.modify pos fun x => x) = out := by
  apply List.ext_getElem?
  intro i
  simp only [List.getElem?_modify]
  cases out[i]? <;> simp

/-- The pass-through gates of the sub-circuits. -/
theorem run_subs (V : LEnv F F) (hV : V.const 1 = 1) (segs : List (Segment F)) (rec) (buf : List F) (pos : Nat) :
    ∀ (subPos : List Nat) (out : List F) (t : Nat → F), pos < out.length → (∀ p ∈ subPos, p < buf.length) →
      runOps (stepOp V segs rec [buf]) ((subPos.map fun p => (⟨none, [⟨0, p⟩], pos, .const 1⟩ : Gate F)).map .gate) (out, t) =
        some (out.modify pos (· + (subPos.map fun p => buf.getD p 0).sum), t)
  | [], out, t, _, _ => by simp [runOps, modify_id]
  | p :: ps, out, t, hpos, hr => by
    have hp := hr p (by simp)
    have hx : buf[p]? = some (buf.getD p 0) := by simp [List.getD, hp]
    have h1 := stepGate_lin V buf out t p pos _ hx hpos hV false
    simp only [Bool.false_eq_true, if_false] at h1
    simp only [List.map_cons, runOps, stepOp, h1, Option.bind_some]
    rw [run_subs V hV segs rec buf pos ps _ t (by simpa using hpos) fun q hq => hr q (List.mem_cons_of_mem _ hq)]
    simp [modify_modify]

/-- The gates of the circuit's own variables. -/
theorem run_vars (V : LEnv F F) (hV : V.const 1 = 1) (segs : List (Segment F)) (rec) (buf : List F) (pos numVar : Nat) (aq : Nat → Nat) :
    ∀ (vars : List Nat) (out : List F) (t : Nat → F), pos < out.length → (∀ v ∈ vars, aq v < buf.length) →
      runOps (stepOp V segs rec [buf])
          ((vars.map fun v => (⟨none, [⟨0, aq v⟩], pos, if numVar ≤ v then .const 1 else .random⟩ : Gate F)).map .gate) (out, t) =
        some (out.modify pos (· + (dot t (ownVals numVar (fun v => buf.getD (aq v) 0) vars) +
            (passVals numVar (fun v => buf.getD (aq v) 0) vars).sum)),
          dropTape t (ownVals numVar (fun v => buf.getD (aq v) 0) vars).length)
  | [], out, t, _, _ => by
    simp only [ownVals, passVals, List.filter_nil, List.map_nil, runOps, dot, List.sum_nil, add_zero, modify_id, List.length_nil]
    rfl
  | v :: vs, out, t, hpos, hr => by
    have hp := hr v (by simp)
    have hx : buf[aq v]? = some (buf.getD (aq v) 0) := by simp [List.getD, hp]
    have hvs := fun q hq => hr q (List.mem_cons_of_mem _ hq)
    by_cases hv : numVar ≤ v
    · have h1 := stepGate_lin V buf out t (aq v) pos _ hx hpos hV false
      simp only [Bool.false_eq_true, if_false] at h1
      simp only [List.map_cons, runOps, stepOp, hv, if_true, h1, Option.bind_some]
      rw [run_vars V hV segs rec buf pos numVar aq vs _ t (by simpa using hpos) hvs]
      have e1 : ownVals numVar (fun v => buf.getD (aq v) 0) (v :: vs) = ownVals numVar (fun v => buf.getD (aq v) 0) vs := by
        simp [ownVals, List.filter_cons, Nat.not_lt.2 hv]
      have e2 : passVals numVar (fun v => buf.getD (aq v) 0) (v :: vs) =
          buf.getD (aq v) 0 :: passVals numVar (fun v => buf.getD (aq v) 0) vs := by
        simp [passVals, List.filter_cons, hv]
      rw [e1, e2, modify_modify, List.sum_cons]
      congr 3; funext x; ring
    · have h1 := stepGate_lin V buf out t (aq v) pos _ hx hpos hV true
      simp only [if_true] at h1
      simp only [List.map_cons, runOps, stepOp, hv, if_false, h1, Option.bind_some]
      rw [run_vars V hV segs rec buf pos numVar aq vs _ _ (by simpa using hpos) hvs]
      have e1 : ownVals numVar (fun v => buf.getD (aq v) 0) (v :: vs) =
          buf.getD (aq v) 0 :: ownVals numVar (fun v => buf.getD (aq v) 0) vs := by
        simp [ownVals, List.filter_cons, Nat.not_le.1 hv]
      have e2 : passVals numVar (fun v => buf.getD (aq v) 0) (v :: vs) = passVals numVar (fun v => buf.getD (aq v) 0) vs := by
        simp [passVals, List.filter_cons, hv]
      rw [e1, e2, modify_modify]
      simp only [dot, List.length_cons]
      have e3 : (fun i => t (i + 1)) = dropTape t 1 := rfl
      have e4 : ∀ k, dropTape (dropTape t 1) k = dropTape t (k + 1) := fun k => rfl
      rw [e3, e4]
      congr 3; funext x; ring

/-- Running the segment: the combined wire receives the random combination of the own constraints plus the wires passed on. -/
theorem run_combine (V : LEnv F F) (hV : V.const 1 = 1) (segs : List (Segment F)) (f : Nat) (buf out : List F) (t : Nat → F)
    (pos numVar nIn : Nat) (aq : Nat → Nat) (vars subPos : List Nat) (hpos : pos < out.length) (hv : ∀ v ∈ vars, aq v < buf.length)
    (hs : ∀ p ∈ subPos, p < buf.length) :
    applySeg V segs (f + 1) (combineSegment numVar aq vars subPos pos nIn out.length) [buf] (out, t) =
      some (out.modify pos (· + (dot t (ownVals numVar (fun v => buf.getD (aq v) 0) vars) +
            (passVals numVar (fun v => buf.getD (aq v) 0) vars).sum + (subPos.map fun p => buf.getD p 0).sum)),
          dropTape t (ownVals numVar (fun v => buf.getD (aq v) 0) vars).length) := by
  simp only [applySeg, combineSegment, Segment.ops, combineGates, List.nil_append, List.append_nil, List.flatMap_nil, List.map_append]
  rw [runOps_append, run_vars V hV segs _ buf pos numVar aq vars out t hpos hv, Option.bind_some,
    run_subs V hV segs _ buf pos subPos _ _ (by simpa using hpos) hs, modify_modify]

/-! ### The whole chain of combinations -/

/-- How the constraints of a circuit are combined over its layers and sub-circuits: the values of the own constraints of a layer, and the
combinations this one passes on (the previous layer's at the root, wire.rs:328-334 of compile.rs; the sub-circuits' otherwise). -/
inductive CTree (F : Type) where
  | node (own : List F) (prev : List (CTree F)) (subs : List (CTree F))

mutual
/-- All constraint values below a combined wire. -/
def CTree.leaves : CTree F → List F
  | .node own prev subs => CTree.leavesL prev ++ CTree.leavesL subs ++ own
def CTree.leavesL : List (CTree F) → List F
  | [] => []
  | c :: cs => c.leaves ++ CTree.leavesL cs
end

mutual
/-- Evaluating the wires: first the wires passed on, then the segment of `combineGates` on a layer holding the own constraints followed by
those wires. -/
def CTree.eval (V : LEnv F F) : CTree F → (Nat → F) → Option (F × (Nat → F))
  | .node own prev subs, t =>
    match CTree.evalL V prev t with
    | none => none
    | some (ps, t1) =>
      match CTree.evalL V subs t1 with
      | none => none
      | some (ss, t2) =>
        match applySeg V [] 1 (combineSegment own.length id (List.range (own.length + ps.length))
            ((List.range ss.length).map (· + (own.length + ps.length))) 0 (own.length + ps.length + ss.length) 1)
            [own ++ ps ++ ss] ([0], t2) with
        | some ([r], t3) => some (r, t3)
        | _ => none
def CTree.evalL (V : LEnv F F) : List (CTree F) → (Nat → F) → Option (List F × (Nat → F))
  | [], t => some ([], t)
  | c :: cs, t =>
    match c.eval V t with
    | none => none
    | some (r, t1) => (CTree.evalL V cs t1).map fun x => (r :: x.1, x.2)
end

theorem dropTape_add (t : Nat → F) (a b : Nat) : dropTape (dropTape t a) b = dropTape t (a + b) := by
  funext i; simp [dropTape, add_comm, add_left_comm]

theorem range_own (own ps ss : List F) :
    ownVals own.length (fun v => (own ++ ps ++ ss).getD (id v) 0) (List.range (own.length + ps.length)) = own := by
  have h : (List.range (own.length + ps.length)).filter (fun v => v < own.length) = List.range own.length := by
    rw [List.range_add, List.filter_append]
    rw [List.filter_eq_self.2 (by intro a ha; simpa using ha), List.filter_eq_nil_iff.2 (by intro a ha; simp at ha ⊢; omega)]
    simp
  rw [ownVals, h]
  apply List.ext_getElem
  · simp
  · intro i h1 h2
    simp [List.getD, List.getElem?_append, h2]

theorem range_pass (own ps ss : List F) :
    passVals own.length (fun v => (own ++ ps ++ ss).getD (id v) 0) (List.range (own.length + ps.length)) = ps := by
  have h : (List.range (own.length + ps.length)).filter (fun v => own.length ≤ v) = (List.range ps.length).map (own.length + ·) := by
    rw [List.range_add, List.filter_append]
    rw [List.filter_eq_nil_iff.2 (by intro a ha; simp at ha ⊢; omega), List.filter_eq_self.2 (by intro a ha; simp at ha ⊢; omega)]
    simp
  rw [passVals, h]
  apply List.ext_getElem
  · simp
  · intro i h1 h2
    simp [List.getD, List.getElem?_append, h2]

theorem range_subs (own ps ss : List F) :
    (((List.range ss.length).map (· + (own.length + ps.length))).map fun p => (own ++ ps ++ ss).getD p 0) = ss := by
  apply List.ext_getElem
  · simp
  · intro i h1 h2
    have : ¬ (i + (own.length + ps.length) < own.length + ps.length) := by omega
    simp [List.getD, List.getElem?_append, h2, ← List.append_assoc]

mutual
theorem CTree.eval_eq (V : LEnv F F) (hV : V.const 1 = 1) : ∀ (c : CTree F) (t : Nat → F),
    c.eval V t = some (dot t c.leaves, dropTape t c.leaves.length)
  | .node own prev subs, t => by
    rw [CTree.eval]
    obtain ⟨ps, h1, h1'⟩ := CTree.evalL_eq V hV prev t
    rw [h1]
    obtain ⟨ss, h2, h2'⟩ := CTree.evalL_eq V hV subs (dropTape t (CTree.leavesL prev).length)
    simp only [h2]
    have h3 := run_combine V hV [] 0 (own ++ ps ++ ss) [0]
      (dropTape (dropTape t (CTree.leavesL prev).length) (CTree.leavesL subs).length) 0 own.length (own.length + ps.length + ss.length) id
      (List.range (own.length + ps.length)) ((List.range ss.length).map (· + (own.length + ps.length))) (by simp)
      (by intro v hv; simp at hv ⊢; omega) (by intro v hv; simp at hv ⊢; omega)
    rw [range_own, range_pass, range_subs] at h3
    rw [show ([0] : List F).length = 1 from rfl, show (0 + 1 : Nat) = 1 from rfl] at h3
    rw [h3]
    simp only [List.modify_zero_cons, zero_add, CTree.leaves, dot_append, List.length_append, h1', h2', dropTape_add]
    congr 2
    ring
theorem CTree.evalL_eq (V : LEnv F F) (hV : V.const 1 = 1) : ∀ (cs : List (CTree F)) (t : Nat → F),
    ∃ rs, CTree.evalL V cs t = some (rs, dropTape t (CTree.leavesL cs).length) ∧ rs.sum = dot t (CTree.leavesL cs)
  | [], t => ⟨[], rfl, rfl⟩
  | c :: cs, t => by
    rw [CTree.evalL, CTree.eval_eq V hV c t]
    obtain ⟨rs, h, h'⟩ := CTree.evalL_eq V hV cs (dropTape t c.leaves.length)
    refine ⟨dot t c.leaves :: rs, ?_, ?_⟩
    · simp only [h, Option.map_some, CTree.leavesL, List.length_append, dropTape_add]
    · simp only [List.sum_cons, h', CTree.leavesL, dot_append]
end

/-! ### Counting -/

/-- Over a finite field exactly one coefficient vector in `N` makes a non-zero vector vanish. -/
theorem count_zero {K : Type} [Field K] [Fintype K] [DecidableEq K] {n : Nat} (c : Fin n → K) (i : Fin n) (hi : c i ≠ 0) :
    Fintype.card { r : Fin n → K // ∑ j, r j * c j = 0 } * Fintype.card K = Fintype.card K ^ n := by
  have e : { r : Fin n → K // ∑ j, r j * c j = 0 } × K ≃ (Fin n → K) := by
    refine ⟨fun p => Function.update p.1.1 i (p.1.1 i + p.2), fun r => ⟨⟨Function.update r i (r i - (∑ j, r j * c j) / c i), ?_⟩,
      (∑ j, r j * c j) / c i⟩, ?_, ?_⟩
    · have := sum_update r i (r i - (∑ j, r j * c j) / c i) c
      rw [this]
      field_simp
      ring
    · rintro ⟨⟨r, hr⟩, k⟩
      have h1 : ∑ j, Function.update r i (r i + k) j * c j = k * c i := by
        rw [sum_update, hr]; ring
      have h2 : k * c i / c i = k := by field_simp
      simp only [h1, h2]
      simp
    · intro r
      simp
  rw [← Fintype.card_prod, Fintype.card_congr e, Fintype.card_fun, Fintype.card_fin]
where
  sum_update (r : Fin n → K) (i : Fin n) (x : K) (c : Fin n → K) :
      ∑ j, Function.update r i x j * c j = ∑ j, r j * c j + (x - r i) * c i := by
    rw [← Finset.add_sum_erase _ _ (Finset.mem_univ i), ← Finset.add_sum_erase Finset.univ (fun j => r j * c j) (Finset.mem_univ i)]
    have : ∑ j ∈ Finset.univ.erase i, Function.update r i x j * c j = ∑ j ∈ Finset.univ.erase i, r j * c j := by
      apply Finset.sum_congr rfl
      intro j hj
      rw [Function.update_of_ne (Finset.ne_of_mem_erase hj)]
    rw [this]
    simp
    ring

end Verif.Layering
