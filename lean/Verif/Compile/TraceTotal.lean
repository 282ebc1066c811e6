import Verif.Compile.StageTotal
import Verif.Compile.Step2Terms
import Verif.Layering.ValidRoot
import Verif.Layered.ValidateMap
import Verif.Compile.Step3
import Verif.Compile.Step4
import Verif.IR.RenumWF

/-!
# The compiler returns, or says why not

The stages of `compile_with_options` (compile/mod.rs:338-395) put together.
-/

set_option linter.unusedSectionVars false
set_option linter.unusedSimpArgs false

namespace Verif.Compile

open Verif.IR Verif.IR.HintExport Verif.Props Verif.Utils

variable {F : Type} [Field F] [DecidableEq F]

section generic
variable {L : Lang F}

/-- The number of outputs of the root. -/
def rootOut (rc : RootCircuit L) : Nat := ((rc.get 0).map fun c => c.outputs.length).getD 0

theorem rootOut_of {rc : RootCircuit L} {root : Circuit L} (h : rc.get 0 = some root) : rootOut rc = root.outputs.length := by simp [rootOut, h]

theorem removeUnreachable_rootOut {rc rc' : RootCircuit L} {npi : Option Nat} (hk : rc.vertices.Nodup) (hw : WFAt npi rc) {im : InputMapping} (h : removeUnreachable rc = some (rc', im)) :
    rootOut rc' = rootOut rc := by
  obtain ⟨root, hroot, _⟩ := hw.root
  obtain ⟨r, im', order, vis, h1, -, -, h4, -, -, h7, h8, -⟩ := removeUnreachable_closed rc hk hw hroot
  rw [h] at h1; cases h1
  have hroot' : rc'.get 0 = some (rebuildCircuit vis 0 root) := by rw [h4, rebuildGet, if_pos h7, hroot]; rfl
  rw [rootOut_of hroot, rootOut_of hroot']
  unfold rebuildCircuit
  simp only
  rw [List.length_map, filter_zipIdx (fun j => vis (eO 0 j)), ← List.range_eq_range', sel_map_true h8]

theorem rcSize_root {rc : RootCircuit L} {root : Circuit L} (h : rc.get 0 = some root) :
    rcSize rc = circSize root + ∑ c ∈ rc.vertices.toFinset.erase 0, sizeAt rc.get c := by
  have h0 : 0 ∈ rc.vertices.toFinset := by rw [List.mem_toFinset, mem_vertices_iff, h]; exact ⟨_, rfl⟩
  rw [rcSize, ← Finset.add_sum_erase _ _ h0]
  congr 1
  simp [sizeAt, h]

theorem rootOut_le {rc : RootCircuit L} {npi : Option Nat} (hw : WFAt npi rc) : rootOut rc ≤ rcSize rc := by
  obtain ⟨root, h, _⟩ := hw.root
  rw [rootOut_of h, rcSize_root h]
  unfold circSize
  omega

theorem withOutputs_size {ex : RootCircuit L} {c : Circuit L} (hg : ex.get 0 = some c) (outs : List Nat) :
    rcSize (withOutputs ex c outs) - rootOut (withOutputs ex c outs) = rcSize ex - rootOut ex := by
  have hg1 := withOutputs_get hg outs 0
  rw [if_pos rfl] at hg1
  rw [rcSize_root hg, rcSize_root hg1, rootOut_of hg, rootOut_of hg1, withOutputs_vertices]
  have : ∑ d ∈ ex.vertices.toFinset.erase 0, sizeAt (withOutputs ex c outs).get d = ∑ d ∈ ex.vertices.toFinset.erase 0, sizeAt ex.get d := by
    refine Finset.sum_congr rfl fun d hd => ?_
    rw [sizeAt, sizeAt, withOutputs_get hg, if_neg (Finset.ne_of_mem_erase hd)]
  rw [this]
  unfold circSize
  dsimp only
  omega

variable [DecidableEq L.Insn] [DecidableEq L.Con]

/-- The loop of `compile_step_4` ends after a number of rounds that does not depend on the outputs of the root. -/
theorem prune_stops (hL : L.Lawful) (hR : L.Renames) {x : RootCircuit L} (hx : Valid x) (fuel : Nat) (im : InputMapping) (hf : rcSize x - rootOut x < fuel) :
    optimizeUntilFixedPoint rcEq removeUnreachable fuel x im ≠ .running := by
  have step : ∀ y : RootCircuit L, Valid y → ∀ z im, removeUnreachable y = some (z, im) →
      Valid z ∧ (rcEq y z = true ∨ rcSize z - rootOut z < rcSize y - rootOut y) := by
    rintro y ⟨a, b⟩ z im h
    obtain ⟨root, hroot, _⟩ := b.root
    obtain ⟨r, im1, h1, h2, h3, -⟩ := removeUnreachable_correct hL y a b root hroot
    obtain ⟨r', im', _, _, q1, q2, q3, _⟩ := removeUnreachable_full y a b hroot
    rw [h1] at q1; cases q1
    rw [h1] at h; cases h
    refine ⟨⟨h2, h3⟩, ?_⟩
    rcases removeUnreachable_size hL hR y a b h1 with h6 | ⟨h6, h7⟩
    · right
      have e := removeUnreachable_rootOut a b h1
      have := rootOut_le h3
      omega
    · exact .inl (rcEq_of_get a h6 h7 q2 q3)
  unfold optimizeUntilFixedPoint
  cases hy : removeUnreachable x with
  | none => simp
  | some p =>
    obtain ⟨y, imy⟩ := p
    dsimp only
    obtain ⟨h1, h2⟩ := step x hx y imy hy
    by_cases he : rcEq x y = true
    · rw [if_pos he]; simp
    · rw [if_neg he]
      cases im.composeInPlace imy with
      | none => simp
      | some im' =>
        refine optLoop_stops (Inv := Valid) (m := fun y => rcSize y - rootOut y) step fuel y im' h1 ?_
        rcases h2 with h2 | h2
        · exact (he h2).elim
        · exact lt_trans h2 hf

end generic

theorem valueAt_mem {α : Type} : ∀ (ps : List (Option Nat × α)) (j : Nat) (d : α), InputMapping.valueAt ps j d = d ∨ InputMapping.valueAt ps j d ∈ ps.map (·.2)
  | [], _, _ => .inl rfl
  | (o, x) :: ps, j, d => by
    rw [InputMapping.valueAt]
    rcases valueAt_mem ps j (if o = some j then x else d) with h | h
    · rw [h]
      split
      · exact .inr (by simp)
      · exact .inl rfl
    · exact .inr (by rw [List.map_cons]; exact List.mem_cons_of_mem _ h)

theorem mapInputs_total {im : InputMapping} (hr : im.InRange) {xs : List Nat} (hl : xs.length = im.curSize) : ∃ ys, im.mapInputs 0 xs = some ys ∧ ∀ y ∈ ys, y = 0 ∨ y ∈ xs := by
  obtain ⟨ys, h1, h2, h3⟩ := InputMapping.mapInputs_spec im 0 xs hr hl
  refine ⟨ys, h1, fun y hy => ?_⟩
  obtain ⟨j, hj⟩ := List.mem_iff_getElem?.1 hy
  have hjl : j < im.nextSize := by rw [← h2]; exact (List.getElem?_eq_some_iff.1 hj).1
  rw [h3 j hjl, Option.some.injEq] at hj
  rcases valueAt_mem (im.mapping.zip xs) j 0 with h | h
  · exact .inl (hj ▸ h)
  · right
    rw [hj] at h
    obtain ⟨p, hp, e⟩ := List.mem_map.1 h
    rw [← e]
    exact (List.of_mem_zip (a := p.1) (b := p.2) hp).2

/-- What `compile_with_options` does after layering (compile/mod.rs:366-395): the solver circuit. -/
theorem solver_total {E : Env F} (hE : E.HintLen) (P : Params F) (o : Options) {ex : RootCircuit (hintNorm E)} (hv : Valid ex) (hno : NoRoot ex) (hz : ex.expectedNumOutputZeroes = 0) {n0 : Nat}
    {srcIm : InputMapping} (hm : MapOk n0 srcIm (inputSize ex)) {root : Circuit (hintNorm E)} (hr : ex.get 0 = some root) (hc : root.constraints ≠ []) (n : Nat) (hn : rcSize ex < n)
    {im : InputMapping} (hir : im.InRange) (hil : root.outputs.length = im.curSize) :
    ∃ ex1 ex2 srcIm' ex3, setOutputs im ex = some ex1 ∧ step4 (P.at n) o ex1 srcIm = some (ex2, srcIm') ∧ AddBack.addBack srcIm' ex2 = some ex3 ∧ checked ex3 = some ex3 := by
  have hL := hintNorm_lawful E hE
  obtain ⟨os, ho1, ho2⟩ := mapInputs_total hir hil
  have hg := withOutputs_get hr (os.map (max 1))
  have calls : ∀ c d, Calls (withOutputs ex root (os.map (max 1))).get c d ↔ Calls ex.get c d := by
    intro c d
    unfold Calls
    rw [hg]
    by_cases h0 : c = 0
    · subst h0
      rw [if_pos rfl, hr]
      simp only [Option.some.injEq]
      constructor <;> (rintro ⟨_, rfl, hx⟩; exact ⟨_, rfl, hx⟩)
    · rw [if_neg h0]
  have hv1 : Valid (withOutputs ex root (os.map (max 1))) := by
    refine ⟨by rw [withOutputs_vertices]; exact hv.1, ⟨?_, ?_, ?_⟩, _, (hg 0).trans (if_pos rfl), by rw [show (withOutputs ex root (os.map (max 1))).expectedNumOutputZeroes = 0 from hz]; exact Nat.zero_le _,
      fun _ => ⟨0, _, .refl, (hg 0).trans (if_pos rfl), hc⟩⟩
    · intro c circ h
      rw [hg] at h
      by_cases h0 : c = 0
      · subst h0
        rw [if_pos rfl, Option.some.injEq] at h
        subst h
        have hk := hv.2.wf.circ 0 root hr
        refine ⟨hk.insns, hk.cons, hk.consNodup, ?_, .inl rfl⟩
        intro y hy
        obtain ⟨z, hz', rfl⟩ := List.mem_map.1 hy
        have hpos : 1 ≤ numVars root.numInputs root.instructions := by
          obtain ⟨k, hk'⟩ := List.exists_mem_of_ne_nil _ hc
          have := hk.cons k hk'
          omega
        dsimp only
        refine ⟨?_, by omega⟩
        rcases ho2 z hz' with rfl | hm'
        · exact max_le hpos (Nat.zero_le _)
        · exact max_le hpos (hk.outs z hm').1
      · rw [if_neg h0] at h
        exact hv.2.wf.circ c circ h
    · intro c circ h i hi d a m hcall
      have : ∃ sub, ex.get d = some sub ∧ a.length = sub.numInputs ∧ m = sub.outputs.length := by
        rw [hg] at h
        by_cases h0 : c = 0
        · subst h0
          rw [if_pos rfl, Option.some.injEq] at h
          subst h
          exact hv.2.wf.calls 0 root hr i hi d a m hcall
        · rw [if_neg h0] at h
          exact hv.2.wf.calls c circ h i hi d a m hcall
      obtain ⟨sub, s1, s2, s3⟩ := this
      have hd : d ≠ 0 := by
        rintro rfl
        exact hno c ((calls c 0).1 ⟨circ, h, i, hi, a, m, hcall⟩)
      exact ⟨sub, by rw [hg, if_neg hd]; exact s1, s2, s3⟩
    · obtain ⟨r, hrr⟩ := hv.2.wf.dag
      exact ⟨r, fun c d h => hrr c d ((calls c d).1 h)⟩
  have hno1 : NoRoot (withOutputs ex root (os.map (max 1))) := fun c h => hno c ((calls c 0).1 h)
  have hi1 : inputSize (withOutputs ex root (os.map (max 1))) = inputSize ex := by
    rw [inputSize_of ((hg 0).trans (if_pos rfl)), inputSize_of hr]
  have hm1 : MapOk n0 srcIm (inputSize (withOutputs ex root (os.map (max 1)))) := by rw [hi1]; exact hm
  obtain ⟨ex2, im', h4, hv2, hm2, hno2⟩ : ∃ ex2 im', step4 (P.at n) o (withOutputs ex root (os.map (max 1))) srcIm = some (ex2, im') ∧ Valid ex2 ∧ MapOk n0 im' (inputSize ex2) ∧ NoRoot ex2 := by
    unfold step4
    rw [checked_valid hv1]
    simp only [Option.bind_eq_bind, Option.bind_some]
    by_cases h2 : 2 ≤ o.optLevel
    · rw [if_pos h2]
      obtain ⟨g1, _⟩ := optimize_good keepsEval_preord (removeUnreachable_passOk_keeps hL) eqOk_keeps n _ hv1 srcIm hm1.next hm1.range
      obtain ⟨⟨y, im'⟩, h⟩ := stops_done g1 (prune_stops hL (hintNorm_renames E) hv1 n srcIm (by rw [withOutputs_size hr]; omega))
      obtain ⟨p1, p2, -⟩ := factor_optimize keepsEval_preord (removeUnreachable_passOk_keeps hL) eqOk_keeps (fun h => removeUnreachable_surj h) hv1 hm1 h
      exact ⟨y, im', toOption_some.2 h, p1, p2, optimize_fwd (fun hf hx => removeUnreachable_fwd hL (noRoot_fwd hL) hf hx) h hno1⟩
    · rw [if_neg h2]
      exact ⟨_, _, rfl, hv1, hm1, hno1⟩
  obtain ⟨root2, hr2, -⟩ := hv2.2.root
  obtain ⟨ex3, h5, h6, h7, -⟩ := AddBack.addBack_correct hL ex2 hv2.2 im' hm2.range hr2 (by rw [hm2.next, inputSize_of hr2])
  have hw3 := AddBack.addBack_wf hL hv2.2 im' hm2.range hm2.surj hr2 (by rw [hm2.next, inputSize_of hr2]) hno2 h5
  exact ⟨_, ex2, im', ex3, setOutputs_some.2 ⟨root, os, hr, ho1, rfl⟩, h4, h5, checked_valid ⟨by rw [h6]; exact hv2.1, by rw [WF, h7]; exact hw3⟩⟩

/-- Why `compile_with_options` may refuse a valid circuit: the stage, and the reason.  The results of the earlier stages are given for all
large bounds on loops and recursion. -/
inductive Refused (P : Params F) (o : Options) {E : Env F} (rc : RootCircuit (source E)) : Prop
  /-- the builder of the hint-normalised circuit reports a user error (a constraint on a constant that does not hold, a division by the constant 0) -/
  | builder (src : RootCircuit (source E)) (im : InputMapping) (h : Settles (fun n => tidySource o.optLevel n rc (.identity (inputSize rc))) (src, im))
      (he : Builder.process E.canon P.srt E src = .userError)
  /-- the hint-normalised circuit has nothing to compute and nothing to check -/
  | idleHints (src : RootCircuit (source E)) (im : InputMapping) (h : Settles (fun n => tidySource o.optLevel n rc (.identity (inputSize rc))) (src, im))
      (hn : RootCircuit (hintNorm E)) (hb : Builder.process E.canon P.srt E src = .ok hn) (he : Idle hn)
  /-- the root of the hint-normalised circuit has no variable, so no input -/
  | noVariable (src : RootCircuit (source E)) (hn : RootCircuit (hintNorm E)) (im : InputMapping) (h : Settles (fun n => step1 (P.at n) o rc) (src, hn, im)) (root : Circuit (hintNorm E))
      (hr : hn.get 0 = some root) (he : numVars root.numInputs root.instructions = 0)
  /-- the builder of the final circuit reports a user error -/
  | finalBuild (src : RootCircuit (source E)) (hn : RootCircuit (hintNorm E)) (im : InputMapping) (h : Settles (fun n => step1 (P.at n) o rc) (src, hn, im))
      (hl : RootCircuit (hintLess E)) (ex : RootCircuit (hintNorm E)) (hx : removeAndExport E hn = some (hl, ex)) (hl' : RootCircuit (hintLess E)) (im' : InputMapping)
      (ha : Settles (fun n => step2a (P.at n) o hl) (hl', im')) (he : FinalBuild.process P.costs P.ltE E hl' = .userError)
  /-- the final circuit has nothing to compute and nothing to check -/
  | idleFinal (src : RootCircuit (source E)) (hn : RootCircuit (hintNorm E)) (im : InputMapping) (h : Settles (fun n => step1 (P.at n) o rc) (src, hn, im))
      (hl : RootCircuit (hintLess E)) (ex : RootCircuit (hintNorm E)) (hx : removeAndExport E hn = some (hl, ex)) (hl' : RootCircuit (hintLess E)) (im' : InputMapping)
      (ha : Settles (fun n => step2a (P.at n) o hl) (hl', im')) (d : RootCircuit (dest E true)) (hb : FinalBuild.process P.costs P.ltE E hl' = .ok d) (he : Idle d)
  /-- constraints are to be combined with random coefficients when layers are split, and there is none, or some circuit has as many as the characteristic of the field -/
  | combine (src : RootCircuit (source E)) (hn : RootCircuit (hintNorm E)) (im : InputMapping) (h : Settles (fun n => step1 (P.at n) o rc) (src, hn, im))
      (hl : RootCircuit (hintLess E)) (ex : RootCircuit (hintNorm E)) (hx : removeAndExport E hn = some (hl, ex)) (hl' : RootCircuit (hintLess E)) (im1 im2 : InputMapping)
      (ha : Settles (fun n => step2a (P.at n) o hl) (hl', im1)) (d : RootCircuit (dest E true)) (hb : Settles (fun n => step2b (P.at n) o hl' im1) (d, im2))
      (hc : o.randomComb = true) (hx : o.cross = false) (he : ¬ Combinable d)
  /-- a circuit of the final circuit has no inputs (`validate_circuit_has_inputs`) -/
  | noInputs (src : RootCircuit (source E)) (hn : RootCircuit (hintNorm E)) (im : InputMapping) (h : Settles (fun n => step1 (P.at n) o rc) (src, hn, im))
      (hl : RootCircuit (hintLess E)) (ex : RootCircuit (hintNorm E)) (hx : removeAndExport E hn = some (hl, ex)) (hl' : RootCircuit (hintLess E)) (im1 im2 im3 im4 im5 : InputMapping)
      (ha : Settles (fun n => step2a (P.at n) o hl) (hl', im1)) (d d' d'' d1 : RootCircuit (dest E true)) (hb : Settles (fun n => step2b (P.at n) o hl' im1) (d, im2))
      (hc : step2c o d im2 = some (d', im3)) (hd : Settles (fun n => step2d (P.at n) o d' im3) (d'', im4)) (hd1 : (if o.optLevel = 1 then reassign d'' true else some d'') = some d1)
      (r0 r : RootCircuit (dest E false)) (hs : SolveDup.solveDuplicates E P.ord d1 = some r0) (ht : Settles (fun n => tidy o.optLevel n r0 im4) (r, im5)) (he : ¬ HasInputs r)

/-- Up to layering: a circuit in which every circuit has inputs, or a reason. -/
theorem step2_total {E : Env F} (P : Params F) {o : Options} (ho : o.valid = true) (hcs : FinalBuild.CostOk P.costs) (hord : ∀ l, (P.ord l).Perm l) {rc : RootCircuit (source E)}
    {src : RootCircuit (source E)} {hn : RootCircuit (hintNorm E)} {im : InputMapping} (h : Settles (fun n => step1 (P.at n) o rc) (src, hn, im))
    {hl : RootCircuit (hintLess E)} {ex : RootCircuit (hintNorm E)} (hx : removeAndExport E hn = some (hl, ex)) (hv : Valid hl) :
    Refused P o rc ∨ ∃ relaxed d im', Settles (fun n => step2 (P.at n) o hl) (relaxed, d, im') ∧ Valid d ∧ MapOk (inputSize hl) im' (inputSize d) ∧ HasInputs d := by
  have h1 : 1 ≤ o.optLevel := by
    simp only [Options.valid, Bool.and_eq_true, decide_eq_true_eq] at ho
    exact ho.1.2
  obtain ⟨hl', im1, va, ma, ha⟩ := step2a_total P o hv
  rcases step2b_total P ho hcs va ma with e | ⟨d0, e, hi | ⟨d, im2, vb, mb, nb, hb⟩⟩
  · exact .inl (.finalBuild src hn im h hl ex hx hl' im1 ha e)
  · exact .inl (.idleFinal src hn im h hl ex hx hl' im1 ha d0 e hi)
  obtain ⟨d', im3, hc, vc, mc, nc, cc⟩ := step2c_total o vb mb nb
  by_cases hcomb : o.randomComb = true → o.cross = false → Combinable d'
  swap
  · push_neg at hcomb
    obtain ⟨c1, c2, c3⟩ := hcomb
    have : d' = d := by
      unfold step2c at hc
      rw [if_pos c1] at hc
      cases hc; rfl
    subst this
    exact .inl (.combine src hn im h hl ex hx hl' im1 im2 ha d' hb c1 c2 c3)
  obtain ⟨d'', im4, vd, md, nd, hd⟩ := step2d_total P o vc mc nc cc hcomb
  obtain ⟨d1, r0, r, im5, hd1, hs, ht, ve, me, he⟩ := step2e_total P h1 hord vd md nd
  by_cases hin : HasInputs r
  swap
  · exact .inl (.noInputs src hn im h hl ex hx hl' im1 im2 im3 im4 im5 ha d d' d'' d1 hb hc hd hd1 r0 r hs ht hin)
  refine .inr ⟨d', r, im5, ?_, ve, me, hin⟩
  obtain ⟨N1, hN1⟩ := ha
  obtain ⟨N2, hN2⟩ := hb
  obtain ⟨N3, hN3⟩ := hd
  obtain ⟨N4, hN4⟩ := he hin
  refine ⟨N1 + N2 + N3 + N4, fun n hn' => ?_⟩
  have k1 := hN1 n (by omega)
  have k2 := hN2 n (by omega)
  have k3 := hN3 n (by omega)
  have k4 := hN4 n (by omega)
  dsimp only at k1 k2 k3 k4
  simp only [step2, k1, k2, hc, k3, k4, Option.bind_eq_bind, Option.bind_some]

/-- Up to optimisation level 2 `compile_step_3` accepts every valid layered circuit, and returns a valid one. -/
theorem step3_total {P : Params F} (hs : ∀ l, (P.srtG l).Perm l) (hsC : ∀ l, (P.srtC l).Perm l) {o : Options} (ho : o.optLevel ≤ 2) {lc0 : Layered.Circuit F} (h : lc0.validate = some true) :
    ∃ lc, step3 P o lc0 = some lc ∧ lc.validate = some true := by
  unfold step3
  rw [if_pos h]
  dsimp only
  rw [if_neg (by omega : ¬ 3 ≤ o.optLevel)]
  dsimp only
  by_cases h1 : 1 ≤ o.optLevel
  · rw [if_pos h1, if_pos (Layered.dedup_valid hs h)]
    exact ⟨_, rfl, Layered.sortAll_valid hs hsC (Layered.dedup_valid hs h)⟩
  · rw [if_neg h1, if_pos h]
    exact ⟨_, rfl, Layered.sortAll_valid hs hsC h⟩

/-- The compiler: a valid circuit is refused for one of the reasons, or `compile_step_3` refuses the layered circuit, or the circuit is compiled. -/
theorem compile_total {E : Env F} (P : Params F) {o : Options} (ho : o.valid = true) (hE : E.HintLen) (hsrt : ∀ l, (P.srt l).Perm l) (hcs : FinalBuild.CostOk P.costs)
    (hord : ∀ l, (P.ord l).Perm l) {rc : RootCircuit (source E)} (hv : Valid rc) :
    Refused P o rc ∨ ∃ d : RootCircuit (dest E false), Valid d ∧ HasInputs d ∧ ∃ N, ∀ n, N ≤ n → ∃ lc0 size order,
      Layering.compile o.cross o.allowReorder (Layering.progGet d.get) n d.numPublicInputs d.expectedNumOutputZeroes = some (lc0, size, order) ∧
      lc0.validate = some true ∧
      ∀ lc, step3 (P.at n) o lc0 = some lc → ∃ t : Trace E, compileTrace (P.at n) o rc = some t ∧ t.dest = d ∧ t.lc0 = lc0 ∧ t.lc = lc := by
  have h1 : 1 ≤ o.optLevel := by
    simp only [Options.valid, Bool.and_eq_true, decide_eq_true_eq] at ho
    exact ho.1.2
  obtain ⟨src, im0, vs, hs, hb⟩ := step1_total P hE hsrt h1 hv
  rcases hb with hb | ⟨hn0, hb, hi | ⟨hn, im, vn, nr, hz, hm, ht, hst⟩⟩
  · exact .inl (.builder src im0 hs hb)
  · exact .inl (.idleHints src im0 hs hn0 hb hi)
  by_cases h0 : ∀ root, hn.get 0 = some root → numVars root.numInputs root.instructions ≠ 0
  swap
  · push_neg at h0
    obtain ⟨root, hr, he⟩ := h0
    exact .inl (.noVariable src hn im hst root hr he)
  obtain ⟨hl, ex, hx, vl, vx, nx, ix, rx, zx⟩ := export_total hE vn nr h0
  rcases step2_total P ho hcs hord hst hx vl with hre | ⟨relaxed, d, im', h2, vd, md, hin⟩
  · exact .inl hre
  refine .inr ⟨d, vd, hin, ?_⟩
  obtain ⟨N1, hN1⟩ := hst
  obtain ⟨N2, hN2⟩ := h2
  obtain ⟨N3, hN3⟩ := C15_total E d vd.1 ((validate_iff d vd.1).2 vd.2) (fun c circ _ hg => hin c circ hg) o.cross o.allowReorder
  refine ⟨N1 + N2 + N3 + rcSize ex + 1, fun n hn' => ?_⟩
  obtain ⟨⟨lc0, size, order⟩, h5⟩ := hN3 n (by omega)
  have hterms := step2_hasTerms (P := P.at (N2)) hcs vl.1 vl.2 (hN2 N2 (le_refl _))
  refine ⟨lc0, size, order, h5, Layering.compile_valid vd.2.wf (fun c circ hg e he => hterms c circ hg _ he) h5, fun lc h6 => ?_⟩
  obtain ⟨root, hr, -⟩ := vd.2.root
  obtain ⟨m1, m2, m3, -⟩ := C15_placed E d vd.1 ((validate_iff d vd.1).2 vd.2) o.cross o.allowReorder n lc0 size order h5 ⟨id, fun i => some (E.pub i), E.custom⟩ (fun _ => rfl) (fun _ _ => rfl)
    (fun _ _ => rfl) root hr
  have hsz : im'.nextSize = InputMapping.curSize ⟨size, order⟩ := by rw [md.next, inputSize_of hr]; exact m3.symm
  obtain ⟨im2, h7, c1, c2, -⟩ := InputMapping.compose_isSome im' ⟨size, order⟩ md.range hsz
  have rng := InputMapping.compose_inRange md.range hsz m1 h7
  obtain ⟨rootx, hrx, -⟩ := vx.2.root
  obtain ⟨rl, rcn⟩ := rx rootx hrx
  obtain ⟨ex1, ex2, srcIm', ex3, g1, g2, g3, g4⟩ := solver_total hE P o vx nx zx (by rw [ix]; exact hm) hrx rcn n (by omega) rng (by rw [rl, c2, md.cur])
  have k1 := hN1 n (by omega)
  have k2 := hN2 n (by omega)
  dsimp only at k1 k2
  have h5' : Layering.compile o.cross o.allowReorder (Layering.progGet d.get) (P.at n).fuel d.numPublicInputs d.expectedNumOutputZeroes = some (lc0, size, order) := h5
  have h7' : im'.composeInPlace ⟨size, order⟩ = some im2 := h7
  refine ⟨⟨src, hn, im, hl, ex, relaxed, d, im', lc0, ex3, lc⟩, ?_, rfl, rfl, rfl⟩
  unfold compileTrace
  rw [if_pos ho]
  simp only [k1, hx, checked_valid vx, k2, h5', h6, h7', g1, g2, g3, g4, Option.bind_eq_bind, Option.bind_some]

end Verif.Compile
