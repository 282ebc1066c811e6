import Verif.Compile.Step1

/-!
# The solver half

The solver circuit: outputs at the positions of the layered circuit's inputs, unused parts removed, removed inputs added back.
-/

set_option linter.unusedSectionVars false
set_option linter.unusedSimpArgs false

namespace Verif.Compile

open Verif.IR Verif.IR.HintExport Verif.Builder

variable {F : Type} [Field F] [DecidableEq F] {L : Lang F} {E : Env F}

/-- The circuit with other outputs of the root. -/
def withOutputs (ex : RootCircuit L) (c : Circuit L) (outs : List Nat) : RootCircuit L :=
  ⟨ex.numPublicInputs, ex.expectedNumOutputZeroes,
    ex.circuits.map fun p => if p.1 = 0 then (0, ⟨c.instructions, c.constraints, outs, c.numInputs⟩) else p⟩

theorem withOutputs_get {ex : RootCircuit L} {c : Circuit L} (hg : ex.get 0 = some c) (outs : List Nat) (d : Nat) :
    (withOutputs ex c outs).get d = if d = 0 then some ⟨c.instructions, c.constraints, outs, c.numInputs⟩ else ex.get d := by
  have hgz : ex.circuits.lookup 0 = some c := hg
  simp only [RootCircuit.get, withOutputs]
  rw [AddBack.lookup_replace, hgz]; rfl

theorem withOutputs_vertices (ex : RootCircuit L) (c : Circuit L) (outs : List Nat) : (withOutputs ex c outs).vertices = ex.vertices := by
  simp only [RootCircuit.vertices, withOutputs, List.map_map]
  apply List.map_congr_left
  intro p hp
  simp only [Function.comp]
  split <;> simp_all

theorem setOutputs_some {ex ex1 : RootCircuit (hintNorm E)} {im : InputMapping} : setOutputs im ex = some ex1 ↔
    ∃ c os, ex.get 0 = some c ∧ im.mapInputs 0 c.outputs = some os ∧ ex1 = withOutputs ex c (os.map (max 1)) := by
  unfold setOutputs
  cases h : ex.get 0 with
  | none => simp
  | some c =>
    simp only [Option.map_eq_some_iff]
    constructor
    · rintro ⟨os, h1, rfl⟩; exact ⟨c, os, rfl, h1, rfl⟩
    · rintro ⟨c', os, e, h1, rfl⟩; cases e; exact ⟨os, h1, rfl⟩

theorem noCall_root {npi : Option Nat} {get : Nat → Option (Circuit L)} (hw : WFGet npi get) : ∀ c, Relation.ReflTransGen (Calls get) 0 c → ¬ Calls get c 0 := by
  obtain ⟨r, hrr⟩ := hw.dag
  have key : ∀ x, Relation.ReflTransGen (Calls get) 0 x → r x ≤ r 0 := by
    intro x hx
    induction hx with
    | refl => exact Nat.le_refl _
    | tail _ h ih => have := hrr _ _ h; omega
  intro c hc hcc
  have := key c hc
  have := hrr c 0 hcc
  omega

/-- Only the outputs change. -/
theorem withOutputs_eval (hL : L.Lawful) {npi : Option Nat} {ex : RootCircuit L} (hw : WFAt npi ex) {c : Circuit L} (hg : ex.get 0 = some c) (outs : List Nat) (ins all : List F) (b : Bool) :
    EvalSub (withOutputs ex c outs).get ⟨c.instructions, c.constraints, outs, c.numInputs⟩ ins all b ↔
      ∃ vs sb cb, Run ex.get c.instructions (0 :: ins) vs sb ∧ checkCons vs c.constraints = some cb ∧ readAll vs outs = some all ∧ b = (sb && cb) := by
  refine (AddBack.evalSub_replace_root hL hw.wf (get' := (withOutputs ex c outs).get) (fun d hd => by rw [withOutputs_get hg, if_neg hd]) (noCall_root hw.wf)
    ⟨c.instructions, c.constraints, outs, c.numInputs⟩ ?_ ins all b).symm
  intro i hi d a n hcall
  obtain ⟨sub, s1, s2, s3⟩ := hw.wf.calls 0 c hg i hi d a n hcall
  exact ⟨⟨c, hg, i, hi, a, n, hcall⟩, sub, s1, s2, s3⟩

/-- The solver's outputs, in their new order, hold the old outputs at the positions given by the mapping. -/
theorem setOutputs_eval (hE : E.HintLen) {npi npi1 : Option Nat} {ex ex1 : RootCircuit (hintNorm E)} (hw : WFAt npi ex) (h0 : ex.expectedNumOutputZeroes = 0) {im : InputMapping}
    (hr : im.InRange) (hi : im.Injective) (h : setOutputs im ex = some ex1) (hw1 : WFAt npi1 ex1) {ins full : List F} {be : Bool} (he : Eval ex ins full be) :
    ∃ w, im.Placed full w ∧ Eval ex1 ins w be := by
  have hL := hintNorm_lawful E hE
  obtain ⟨c, os, hg, ho, rfl⟩ := setOutputs_some.1 h
  obtain ⟨c', all, b0, e1, e2, ⟨vs, sb, cb, e3, e4, e5, e6⟩, e7, e8, e9⟩ := he
  rw [hg] at e1; cases e1
  rw [h0, List.drop_zero] at e8
  subst e8
  have hg1 := withOutputs_get hg (os.map (max 1)) 0
  rw [if_pos rfl] at hg1
  have hlen : vs.length = numVars (c.numInputs + 1) c.instructions :=
    Run.length hL (hw.wf.calls 0 c hg) e3 (c.numInputs + 1) (by simp [e2])
  obtain ⟨w, hw'⟩ := readAll_isSome (vs := vs) (is := os.map (max 1)) (fun i hi => by
    have := (hw1.wf.circ 0 _ hg1).outs i hi
    have h2 := numVars_add (L := hintNorm E) c.numInputs 1 c.instructions
    simp only at this
    omega)
  have hcl : c.outputs.length = im.curSize := by
    unfold InputMapping.mapInputs at ho
    split at ho
    · assumption
    · cases ho
  obtain ⟨os', p1, p2⟩ := InputMapping.mapInputs_placed hr hi (0 : Nat) (xs := c.outputs) hcl
  rw [ho] at p1; cases p1
  obtain ⟨r1, r2⟩ := readAll_eq_some_iff.1 hw'
  obtain ⟨q1, q2⟩ := readAll_eq_some_iff.1 e5
  refine ⟨w, ⟨by rw [q1, hcl], by rw [r1, List.length_map, p2.next], ?_⟩, ?_⟩
  · intro i p hp
    have hv := p2.val i p hp
    have hil : i < c.outputs.length := by rw [hcl]; exact (List.getElem?_eq_some_iff.1 hp).1
    have hoi := List.getElem?_eq_getElem hil
    generalize c.outputs[i] = oi at hoi
    have hpos := ((hw.wf.circ 0 c hg).outs oi (List.mem_of_getElem? hoi)).2
    rw [hoi] at hv
    have h1 := (q2 i oi hoi).2
    have h2 := (r2 p oi (by rw [List.getElem?_map, hv]; simp; omega)).2
    rw [h1, h2]
  · refine ⟨_, w, b0, hg1, e2, ?_, ?_, ?_, ?_⟩
    · exact (withOutputs_eval hL hw hg _ _ _ _).2 ⟨vs, sb, cb, e3, e4, hw', e6⟩
    · show ex.expectedNumOutputZeroes ≤ _; omega
    · show w = w.drop ex.expectedNumOutputZeroes; rw [h0]; rfl
    · show be = (b0 && (w.take ex.expectedNumOutputZeroes).all _)
      rw [e9, h0]; rfl

/-- Every outcome of the circuit with the new outputs is an outcome of the solver circuit. -/
theorem solver_keeps (hE : E.HintLen) {P : Params F} {o : Options} {ex1 ex2 solver : RootCircuit (hintNorm E)} {n0 : Nat} {im im' : InputMapping} (hk : ex1.vertices.Nodup)
    (hm : MapOk n0 im (inputSize ex1)) (h : step4 P o ex1 im = some (ex2, im')) (ha : AddBack.addBack im' ex2 = some solver) :
    solver.vertices.Nodup ∧ inputSize solver = n0 ∧ solver.numPublicInputs = ex1.numPublicInputs ∧
    ∀ x y, im.Placed x y → ∀ w be, Eval ex1 y w be → Eval solver x w be := by
  have hL := hintNorm_lawful E hE
  simp only [step4, Option.bind_eq_bind, Option.bind_eq_some_iff] at h
  obtain ⟨ex1', h1, h2⟩ := h
  obtain ⟨rfl, v1⟩ := checked_some.1 h1
  have hv := valid_of hk v1
  have key : Valid ex2 ∧ MapOk n0 im' (inputSize ex2) ∧ Factor im im' (fun b c => KeepsEval ex1' b ex2 c) ∧ ex2.numPublicInputs = ex1'.numPublicInputs := by
    split at h2
    · obtain ⟨a, b, c⟩ := factor_optimize keepsEval_preord (removeUnreachable_keepsOk hL) eqOk_keeps (fun h => removeUnreachable_surj h) hv hm (toOption_some.1 h2)
      exact ⟨a, b, c, optimize_fwd (Q := fun z : RootCircuit (hintNorm E) => z.numPublicInputs = ex1'.numPublicInputs)
        (fun hf hx => removeUnreachable_fwd hL (npi_fwd _) hf hx) (toOption_some.1 h2) rfl⟩
    · cases h2
      exact ⟨hv, hm, fun a c hp => ⟨c, hp, fun _ _ => id⟩, rfl⟩
  obtain ⟨v2, m2, f2, n2⟩ := key
  obtain ⟨root, hg, _⟩ := v2.2.root
  obtain ⟨s, e, a1, a2, ⟨root', a3, a4⟩, a5⟩ := AddBack.addBack_correct hL ex2 v2.2 im' m2.range hg (by rw [m2.next, inputSize_of hg])
  rw [ha] at e; cases e
  refine ⟨by rw [a1]; exact v2.1, by rw [inputSize_of a3, a4, m2.cur], a2.trans n2, fun x y hp w be he => ?_⟩
  obtain ⟨z, z1, z2⟩ := a5 x (by rw [hp.cur, hm.cur, m2.cur])
  obtain ⟨z', y1, y2⟩ := InputMapping.mapInputs_placed m2.range m2.inj (0 : F) (xs := x) (by rw [hp.cur, hm.cur, m2.cur])
  rw [z1] at y1; cases y1
  obtain ⟨b, b1, b2⟩ := f2 x z y2
  have : b = y := InputMapping.Placed.unique hm.surj b1 hp
  subst this
  exact (z2 w be).2 (b2 w be he)

end Verif.Compile
