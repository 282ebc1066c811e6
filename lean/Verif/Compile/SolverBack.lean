import Verif.Compile.SrcRand

/-!
# From the solver circuit back to the exporting circuit

With arbitrary hints, every outcome of the solver circuit is an outcome of the circuit that exports the hints.
-/

set_option linter.unusedSectionVars false
set_option linter.unusedSimpArgs false

namespace Verif.Compile

open Verif.IR Verif.IR.HintExport Verif.Builder

variable {F : Type} [Field F] [DecidableEq F] {E : Env F} {L : Lang F}

/-- The old outputs, at the positions given by the mapping, are in the new ones. -/
theorem setOutputs_back (hE : E.HintLen) {npi : Option Nat} {ex ex1 : RootCircuit (hintNorm E)} (hw : WFAt npi ex) (h0 : ex.expectedNumOutputZeroes = 0) {im : InputMapping}
    (hr : im.InRange) (hi : im.Injective) (h : setOutputs im ex = some ex1) {ins w : List F} {be : Bool} (he : Eval ex1 ins w be) :
    ∃ full, im.Placed full w ∧ Eval ex ins full be := by
  have hL := hintNorm_lawful E hE
  obtain ⟨c, os, hg, ho, rfl⟩ := setOutputs_some.1 h
  have hg1 := withOutputs_get hg (os.map (max 1)) 0
  rw [if_pos rfl] at hg1
  obtain ⟨c', all, b0, e1, e2, e3, e7, e8, e9⟩ := he
  rw [hg1] at e1; cases e1
  obtain ⟨vs, sb, cb, r1, r2, r3, r4⟩ := (withOutputs_eval hL hw hg _ _ _ _).1 e3
  have hz : (withOutputs ex c (os.map (max 1))).expectedNumOutputZeroes = 0 := h0
  rw [hz, List.drop_zero] at e8
  subst e8
  have hlen : vs.length = numVars (c.numInputs + 1) c.instructions :=
    Run.length hL (hw.wf.calls 0 c hg) r1 (c.numInputs + 1) (by simp [e2])
  obtain ⟨full, hf⟩ := readAll_isSome (vs := vs) (is := c.outputs) (fun i hi => by
    have := (hw.wf.circ 0 _ hg).outs i hi
    have h2 := numVars_add (L := hintNorm E) c.numInputs 1 c.instructions
    omega)
  have hcl : c.outputs.length = im.curSize := by
    unfold InputMapping.mapInputs at ho
    split at ho
    · assumption
    · cases ho
  obtain ⟨os', p1, p2⟩ := InputMapping.mapInputs_placed hr hi (0 : Nat) (xs := c.outputs) hcl
  rw [ho] at p1; cases p1
  obtain ⟨g1, g2⟩ := readAll_eq_some_iff.1 r3
  obtain ⟨q1, q2⟩ := readAll_eq_some_iff.1 hf
  refine ⟨full, ⟨by rw [q1, hcl], by rw [g1, List.length_map, p2.next], ?_⟩, ?_⟩
  · intro i p hp
    have hv := p2.val i p hp
    have hil : i < c.outputs.length := by rw [hcl]; exact (List.getElem?_eq_some_iff.1 hp).1
    have hoi := List.getElem?_eq_getElem hil
    generalize c.outputs[i] = oi at hoi
    have hpos := ((hw.wf.circ 0 c hg).outs oi (List.mem_of_getElem? hoi)).2
    rw [hoi] at hv
    have h1 := (q2 i oi hoi).2
    have h2 := (g2 p oi (by rw [List.getElem?_map, hv]; simp; omega)).2
    rw [h1, h2]
  · refine ⟨c, full, b0, hg, e2, ⟨vs, sb, cb, r1, r2, hf, r4⟩, by omega, by rw [h0]; rfl, ?_⟩
    rw [e9, hz, h0]; rfl

/-- What `compile_step_4` and `add_back_removed_inputs` do when every instruction has an outcome. -/
theorem solver_same (hL : L.Lawful) (hT : L.Total) [DecidableEq L.Insn] [DecidableEq L.Con] {opt fuel : Nat} {ex1 ex2 solver : RootCircuit L} {n0 : Nat} {im im' : InputMapping}
    (hv : Valid ex1) (hm : MapOk n0 im (inputSize ex1))
    (h2 : (if 2 ≤ opt then (optimizeUntilFixedPoint rcEq removeUnreachable fuel ex1 im).toOption else some (ex1, im)) = some (ex2, im')) (ha : AddBack.addBack im' ex2 = some solver) :
    ∀ x y, im.Placed x y → ∀ w be, Eval ex1 y w be ↔ Eval solver x w be := by
  have key : Valid ex2 ∧ MapOk n0 im' (inputSize ex2) ∧ Factor im im' (fun b c => SameEval ex1 b ex2 c) := by
    split at h2
    · exact factor_optimize sameEval_preord (removeUnreachable_passOk hL hT) eqOk_valid (fun h => removeUnreachable_surj h) hv hm (toOption_some.1 h2)
    · cases h2
      exact ⟨hv, hm, fun a c hp => ⟨c, hp, fun _ _ => Iff.rfl⟩⟩
  obtain ⟨v2, m2, f2⟩ := key
  obtain ⟨root, hg, _⟩ := v2.2.root
  obtain ⟨s, e, a1, a2, ⟨root', a3, a4⟩, a5⟩ := AddBack.addBack_correct hL ex2 v2.2 im' m2.range hg (by rw [m2.next, inputSize_of hg])
  rw [ha] at e; cases e
  intro x y hp w be
  obtain ⟨z, z1, z2⟩ := a5 x (by rw [hp.cur, hm.cur, m2.cur])
  obtain ⟨z', y1, y2⟩ := InputMapping.mapInputs_placed m2.range m2.inj (0 : F) (xs := x) (by rw [hp.cur, hm.cur, m2.cur])
  rw [z1] at y1; cases y1
  obtain ⟨b, b1, b2⟩ := f2 x z y2
  have : b = y := InputMapping.Placed.unique hm.surj b1 hp
  subst this
  exact (b2 w be).trans (z2 w be).symm

section recast
variable {p : L.Insn → (Nat → Option F) → List F → Prop} {v : Nat → L.Insn → Bool}

theorem renumber_recast : ∀ (is : List L.Insn) (vm : List Nat) (mx : Nat), AddBack.renumber (L := L.withPrim p v) is vm mx = AddBack.renumber (L := L) is vm mx := by
  intro is
  induction is with
  | nil => intro vm mx; rfl
  | cons i is ih =>
    intro vm mx
    simp only [AddBack.renumber]
    rw [ih]

theorem addBack_recast (rc : RootCircuit L) (im : InputMapping) : AddBack.addBack im (rc.recast p v) = (AddBack.addBack im rc).map (RootCircuit.recast p v) := by
  unfold AddBack.addBack
  rw [recast_get]
  cases h : rc.get 0 with
  | none => rfl
  | some c =>
    simp only [Option.map_some]
    unfold AddBack.addBackCircuit
    rw [show (c.recast p v).numInputs = c.numInputs from rfl]
    cases AddBack.newIds im c.numInputs with
    | none => rfl
    | some vm =>
      simp only [Option.map_some, Option.some.injEq]
      simp only [RootCircuit.recast, List.map_map, Function.comp_def]
      congr 1
      refine List.map_congr_left fun q _ => ?_
      rw [show AddBack.renumber (L := L.withPrim p v) (c.recast p v).instructions vm im.curSize = AddBack.renumber (L := L) c.instructions vm im.curSize from renumber_recast (L := L) (p := p) (v := v) c.instructions vm im.curSize]
      by_cases hq : q.1 = 0
      · simp only [hq, if_true]
        simp only [Circuit.recast, List.map_map, Function.comp_def]
        rfl
      · simp only [hq, if_false]

theorem step4_recast [DecidableEq L.Insn] [DecidableEq L.Con] (opt fuel : Nat) (ex1 : RootCircuit L) (im : InputMapping) :
    (if 2 ≤ opt then (optimizeUntilFixedPoint (rcEq (L := L.withPrim p v)) removeUnreachable fuel (ex1.recast p v) im).toOption else some (ex1.recast p v, im)) =
      (if 2 ≤ opt then (optimizeUntilFixedPoint rcEq removeUnreachable fuel ex1 im).toOption else some (ex1, im)).map (fun q => (q.1.recast p v, q.2)) := by
  split
  · rw [optimize_map (T := RootCircuit L) (T' := RootCircuit (L.withPrim p v)) (RootCircuit.recast p v) (f := removeUnreachable) (f' := removeUnreachable) (eq := rcEq) (eq' := rcEq)
      (fun x => removeUnreachable_recast x) (fun x y => rcEq_recast x y) fuel ex1 im]
    cases optimizeUntilFixedPoint rcEq removeUnreachable fuel ex1 im <;> rfl
  · rfl

end recast

theorem setOutputs_cast {ex ex1 : RootCircuit (hintNorm E)} {im : InputMapping} (h : setOutputs im ex = some ex1) : setOutputs im (castRc ex) = some (castRc ex1) := by
  obtain ⟨c, os, hg, ho, rfl⟩ := setOutputs_some.1 h
  refine setOutputs_some.2 ⟨castC c, os, by rw [castRc_get]; simp [castGet, hg], ho, ?_⟩
  simp only [castRc, withOutputs, List.map_map, Function.comp_def]
  congr 1
  refine List.map_congr_left fun q _ => ?_
  by_cases hq : q.1 = 0
  · simp only [hq, if_true]; rfl
  · simp only [hq, if_false]

/-- An outcome stays an outcome when hints may answer anything. -/
theorem eval_cast (hE : E.HintLen) {rc : RootCircuit (hintNorm E)} {x o : List F} {b : Bool} (h : Eval rc x o b) : Eval (castRc rc) x o b := by
  rw [castRc_eq]
  refine eval_recast (L := hintNorm E) ?_ h
  rintro c circ _ i _ _ val outs ⟨args, h1, h2⟩
  refine ⟨args, h1, ?_⟩
  cases i with
  | hint id xs n => exact hE _ _ _ _ h2
  | _ => exact h2

theorem exportHints_cast (hs : Nat → Nat × Nat) (r : Bool) (c : Circuit (hintNorm E)) : exportHints E.anyHint hs r (castC c) = castC (exportHints E hs r c) := by
  unfold exportHints castC
  cases r <;> rfl

end Verif.Compile
