import Verif.Compile.TidyTotal
import Verif.Compile.NoRoot
import Verif.Compile.Step2
import Verif.IR.HintExportWF
import Verif.IR.MulFanoutInj
import Verif.Layering.SplitMono

/-!
# The stages of the compiler return, or say why not

Every stage of `compile_with_options` (compile/mod.rs:338-395) up to layering: for every valid circuit it has a result, which does not change
when the bound on loops and recursion grows, except for the reasons named in the statements.
-/

set_option linter.unusedSectionVars false
set_option linter.unusedSimpArgs false

namespace Verif.Compile

open Verif.IR Verif.IR.HintExport Verif.Props Verif.Utils

variable {F : Type} [Field F] [DecidableEq F]

/-- The parameters with another bound. -/
def Params.at (P : Params F) (n : Nat) : Params F := { P with fuel := n }

/-- For all large bounds there is a result, and always the same. -/
def Settles {α : Type} (f : Nat → Option α) (r : α) : Prop := ∃ N, ∀ n, N ≤ n → f n = some r

/-- Nothing is computed and nothing is checked: the root circuit has no outputs, and no circuit it uses has constraints. -/
def Idle {L : Lang F} (rc : RootCircuit L) : Prop := ∃ root, rc.get 0 = some root ∧ root.outputs = [] ∧
  ∀ d circ, Relation.ReflTransGen (Calls rc.get) 0 d → rc.get d = some circ → circ.constraints = []

theorem Settles.const {α : Type} (r : α) : Settles (fun _ => some r) r := ⟨0, fun _ _ => rfl⟩

theorem Settles.bind {α β : Type} {f : Nat → Option α} {g : Nat → α → Option β} {r : α} {s : β} (h1 : Settles f r) (h2 : Settles (fun n => g n r) s) :
    Settles (fun n => (f n).bind (g n)) s := by
  obtain ⟨N, hN⟩ := h1
  obtain ⟨M, hM⟩ := h2
  exact ⟨max N M, fun n hn => by dsimp only; rw [hN n (le_trans (le_max_left _ _) hn)]; exact hM n (le_trans (le_max_right _ _) hn)⟩

theorem Settles.some {α : Type} {f : Nat → Option α} {r : α} (h : Settles f r) : ∃ n, f n = .some r := by
  obtain ⟨N, hN⟩ := h
  exact ⟨N, hN N (le_refl _)⟩

theorem rootOk_or_idle {L : Lang F} {rc : RootCircuit L} {root : Circuit L} (h : rc.get 0 = some root) (hz : rc.expectedNumOutputZeroes ≤ root.outputs.length) : RootOk rc ∨ Idle rc := by
  by_cases hi : Idle rc
  · exact .inr hi
  · refine .inl ⟨root, h, hz, fun he => ?_⟩
    by_contra hno
    refine hi ⟨root, h, he, fun d circ hr hg => ?_⟩
    by_contra hc
    exact hno ⟨d, circ, hr, hg, hc⟩

theorem checked_valid {L : Lang F} {rc : RootCircuit L} (h : Valid rc) : checked rc = some rc := checked_some.2 ⟨rfl, (validate_iff rc h.1).2 h.2⟩

section step1
variable {E : Env F}

/-- `compile_step_1`. -/
theorem step1_total (P : Params F) {o : Options} (hE : E.HintLen) (hsrt : ∀ l, (P.srt l).Perm l) (h1 : 1 ≤ o.optLevel) {rc : RootCircuit (source E)} (hv : Valid rc) :
    ∃ src im, Valid src ∧ Settles (fun n => tidySource o.optLevel n rc (.identity (inputSize rc))) (src, im) ∧
      (Builder.process E.canon P.srt E src = .userError ∨ ∃ hn0, Builder.process E.canon P.srt E src = .ok hn0 ∧
        (Idle hn0 ∨ ∃ hn im', Valid hn ∧ NoRoot hn ∧ hn.expectedNumOutputZeroes = src.expectedNumOutputZeroes ∧ MapOk (inputSize rc) im' (inputSize hn) ∧
          Settles (fun n => tidy o.optLevel n hn0 im) (hn, im') ∧ Settles (fun n => step1 (P.at n) o rc) (src, hn, im'))) := by
  obtain ⟨src, im, s1, s2, -, s3⟩ := tidySource_total hE o.optLevel hv (mapOk_identity (inputSize rc))
  refine ⟨src, im, s1, s3, ?_⟩
  rcases Builder.process_spec (cn := E.canon) hsrt E src s1.1 s1.2 with h | ⟨hn0, g1, g2⟩
  · exact .inl h
  refine .inr ⟨hn0, g1, ?_⟩
  obtain ⟨root, hr, hr1, hr2⟩ := s1.2.root
  obtain ⟨root', hr', _, _, _, _, _, _, hb⟩ := g2.image 0 root hr
  rcases rootOk_or_idle hr' (by rw [g2.zeroes, hb.outputs]; exact hr1) with hok | hid
  swap
  · exact .inl hid
  right
  have hwf := g2.wf hsrt s1.2
  have hv0 : Valid hn0 := ⟨g2.verts.1, hwf, hok⟩
  have hsz : inputSize hn0 = inputSize src := by rw [inputSize_of hr, inputSize_of hr', hb.numInputs]
  have hL := hintNorm_lawful E hE
  obtain ⟨hn, im', t1, t2, -, -, t5⟩ := tidy_total hL (hintNorm_renames E) (.inl ⟨rfl, rfl, rfl⟩) o.optLevel hv0 (by rw [hsz]; exact s2)
  obtain ⟨n, hn5⟩ := Settles.some t5
  refine ⟨hn, im', t1, tidy_noRoot hL (.inl ⟨rfl, rfl, rfl⟩) h1 hv0 hn5, ?_, t2, t5, ?_⟩
  · rw [show hn.expectedNumOutputZeroes = hn0.expectedNumOutputZeroes from tidy_fwd hL (Q := fun z => z.expectedNumOutputZeroes = hn0.expectedNumOutputZeroes) (fun hd hx => hd.expected.trans hx) hn5 rfl]
    exact g2.zeroes
  · obtain ⟨N, hN⟩ := s3
    obtain ⟨M, hM⟩ := t5
    refine ⟨max N M, fun n hn' => ?_⟩
    simp only [step1, Params.at, checked_valid hv, hN n (le_trans (le_max_left _ _) hn'), checked_valid s1, g1, outcomeOption, hM n (le_trans (le_max_right _ _) hn'), checked_valid t1,
      Option.bind_eq_bind, Option.bind_some]

/-- `remove_and_export_hints` and the validation of both circuits. -/
theorem export_total (hE : E.HintLen) {hn : RootCircuit (hintNorm E)} (hv : Valid hn) (hr : NoRoot hn) (h0 : ∀ root, hn.get 0 = some root → numVars root.numInputs root.instructions ≠ 0) :
    ∃ hl ex, removeAndExport E hn = some (hl, ex) ∧ Valid hl ∧ Valid ex ∧ NoRoot ex ∧ inputSize ex = inputSize hn ∧
      (∀ root, ex.get 0 = some root → root.outputs.length = inputSize hl ∧ root.constraints ≠ []) ∧ ex.expectedNumOutputZeroes = 0 := by
  obtain ⟨hs, hsz, heq⟩ := removeAndExport_eq hn hv.1 hv.2.wf
  obtain ⟨hl, ex, e1, v1, v2, w1, -⟩ := removeAndExport_correct hE hn hv.1 hv.2
  have w2 := exported_wf hsz hv.2 h0 hr
  rw [heq] at e1
  obtain ⟨root, hroot, -⟩ := hv.2.root
  have gl : ∀ c, (⟨hn.numPublicInputs, hn.expectedNumOutputZeroes, hn.circuits.map (fun p => (p.1, removeCore E hs p.1 p.2))⟩ : RootCircuit (hintLess E)).get c =
      (hn.get c).map (removeCore E hs c) := fun c => lookup_map_key (fun c x => removeCore E hs c x) hn.circuits c
  have ge : ∀ c, (⟨hn.numPublicInputs, 0, hn.circuits.map (fun p => (p.1, exportHints E hs (p.1 == 0) p.2))⟩ : RootCircuit (hintNorm E)).get c =
      (hn.get c).map (fun x => exportHints E hs (c == 0) x) := fun c => lookup_map_key (fun c x => exportHints E hs (c == 0) x) hn.circuits c
  have zz : (⟨hn.numPublicInputs, 0, hn.circuits.map (fun p => (p.1, exportHints E hs (p.1 == 0) p.2))⟩ : RootCircuit (hintNorm E)).expectedNumOutputZeroes = 0 := rfl
  have npi : (⟨hn.numPublicInputs, 0, hn.circuits.map (fun p => (p.1, exportHints E hs (p.1 == 0) p.2))⟩ : RootCircuit (hintNorm E)).numPublicInputs = hn.numPublicInputs := rfl
  obtain ⟨rfl, rfl⟩ : _ = hl ∧ _ = ex := by
    have := Option.some.inj e1
    rw [Prod.mk.injEq] at this
    exact this
  generalize (⟨hn.numPublicInputs, 0, hn.circuits.map (fun p => (p.1, exportHints E hs (p.1 == 0) p.2))⟩ : RootCircuit (hintNorm E)) = ex at *
  generalize (⟨hn.numPublicInputs, hn.expectedNumOutputZeroes, hn.circuits.map (fun p => (p.1, removeCore E hs p.1 p.2))⟩ : RootCircuit (hintLess E)) = hl at *
  refine ⟨hl, ex, heq, ⟨by rw [v1]; exact hv.1, w1⟩, ⟨by rw [v2]; exact hv.1, by rw [WF, npi]; exact w2⟩, ?_, ?_, ?_, zz⟩
  · rintro c ⟨circ', hg', i, hi, a, n, hc⟩
    rw [ge] at hg'
    obtain ⟨circ, hg, rfl⟩ := Option.map_eq_some_iff.1 hg'
    rw [asCall_eq hc] at hi
    obtain ⟨xs, m, h1, -⟩ := mem_exportInsns_call _ _ _ hi
    exact hr c ⟨circ, hg, _, h1, xs, m, rfl⟩
  · rw [inputSize_of hroot, inputSize_of (by rw [ge, hroot]; rfl)]; rfl
  · intro root' hr'
    rw [ge, hroot, Option.map_some, Option.some.injEq] at hr'
    subst hr'
    refine ⟨?_, by simp [exportHints]⟩
    rw [inputSize_of (by rw [gl, hroot]; rfl)]
    obtain ⟨-, -, -, l1, l2⟩ := exportInsns_ok (npi := some hn.numPublicInputs) (E := E) (hs := hs) root.instructions (List.range (root.numInputs + 1)) root.numInputs root.numInputs
      (hv.2.wf.circ 0 root hroot).insns (VmR.init _)
    have hsd : (hs 0).1 = (sizes hs root.instructions).1 + (sizes hs root.instructions).2 := by rw [hsz 0 root hroot]; rfl
    simp only [exportHints, beq_self_eq_true, if_true, List.length_append, List.length_range', removeCore]
    rw [l1, l2, hsd]; omega

end step1

section step2
variable {E : Env F} {n0 : Nat} {im : InputMapping}

/-- `compile_step_2` up to `final_build_opt`. -/
theorem step2a_total (P : Params F) (o : Options) {hl : RootCircuit (hintLess E)} (hv : Valid hl) :
    ∃ r im, Valid r ∧ MapOk (inputSize hl) im (inputSize r) ∧ Settles (fun n => step2a (P.at n) o hl) (r, im) := by
  by_cases h2 : 2 ≤ o.optLevel
  · obtain ⟨r, im, t1, t2, -, -, N, hN⟩ := tidy_total (hintLess_lawful E) (hintLess_renames E) (reassignOk_hintLess E) 2 hv (mapOk_identity (inputSize hl))
    refine ⟨r, im, t1, t2, N, fun n hn => ?_⟩
    have := hN n hn
    unfold tidy at this
    rw [if_pos (le_refl 2)] at this
    simp only [step2a, Params.at, if_pos h2, this, checked_valid t1, Option.bind_eq_bind, Option.bind_some]
  · exact ⟨hl, _, hv, mapOk_identity _, 0, fun n _ => by simp only [step2a, if_neg h2, checked_valid hv, Option.bind_eq_bind, Option.bind_some]⟩

/-- `final_build_opt` and the limit of products. -/
theorem step2b_total (P : Params F) {o : Options} (ho : o.valid = true) (hcs : FinalBuild.CostOk P.costs) {hl : RootCircuit (hintLess E)} (hv : Valid hl) (hm : MapOk n0 im (inputSize hl)) :
    FinalBuild.process P.costs P.ltE E hl = .userError ∨ ∃ d0, FinalBuild.process P.costs P.ltE E hl = .ok d0 ∧
      (Idle d0 ∨ ∃ d im', Valid d ∧ MapOk n0 im' (inputSize d) ∧ (2 ≤ o.optLevel → NoDupOut d.get) ∧ Settles (fun n => step2b (P.at n) o hl im) (d, im')) := by
  have hvl := (validate_iff hl hv.1).2 hv.2
  rcases FinalBuild.process_spec (E := E) hcs P.ltE hl hv.1 hv.2.wf with ⟨e, _⟩ | ⟨d0, e, hp⟩
  · exact .inl e
  refine .inr ⟨d0, e, ?_⟩
  obtain ⟨root, hr, hr1, -⟩ := hv.2.root
  obtain ⟨root', hr', hi⟩ := hp.image 0 root hr
  rcases rootOk_or_idle hr' (by rw [hp.zeroes, hi.outputs]; exact hr1) with hok | hid
  swap
  · exact .inl hid
  right
  have hL := dest_lawful E true
  rcases C10_finalBuild_partial E hcs P.ltE hl hv.1 hvl with ⟨e', _⟩ | ⟨d1', e', a1, a2, a3, a4, a5, a6, _, a8, a9⟩
  · rw [e] at e'; cases e'
  rw [e] at e'; cases e'
  have hv0 : Valid d0 := ⟨a1, a6, hok⟩
  obtain ⟨d, im', t1, t2, t3, -, t5⟩ := tidy_total hL (dest_renames E true) (reassignOk_dest E true) o.optLevel hv0 (by rw [inputSize_of_numInputs a4]; exact hm)
  obtain ⟨n, hn⟩ := Settles.some t5
  have hlin1 : AllInsn (L := dest E true) NoRandomLinear d0 := by
    intro c circ hg i hi
    cases i with
    | internal e => exact a8 c circ hg e hi
    | call c xs n => trivial
    | constantLike c => trivial
  have hlin3 := tidy_fwd hL randomLinear_fwd hn hlin1
  obtain ⟨N, hN⟩ := t5
  cases hmf : o.mulFanoutLimit with
  | none =>
    refine ⟨d, im', t1, t2, t3, N, fun n hn => ?_⟩
    simp only [step2b, Params.at, e, outcomeOption, hN n hn, checked_valid t1, hmf, Option.bind_eq_bind, Option.bind_some]
  | some l =>
    obtain ⟨d4, e4, c1, c2, c3, c4, -⟩ := C11_mulFanout_partial E l (optional_limit (P := P) ho hmf) d t1.1 ((validate_iff d t1.1).2 t1.2) (fun c circ hg e he => hlin3 c circ hg (.internal e) he)
    have hv4 : Valid d4 := valid_of (by rw [c1]; exact t1.1) c2
    refine ⟨d4, im', hv4, by rw [inputSize_of_numInputs c4]; exact t2, fun h => MulFanout.solveRoot_noDup t1.1 t1.2.wf (t3 h) e4, N, fun n hn => ?_⟩
    simp only [step2b, Params.at, e, outcomeOption, hN n hn, checked_valid t1, hmf, e4, checked_valid hv4, Option.bind_eq_bind, Option.bind_some]

/-- Constraints become outputs. -/
theorem step2c_total (o : Options) {d : RootCircuit (dest E true)} (hv : Valid d) (hm : MapOk n0 im (inputSize d)) (hnd : 2 ≤ o.optLevel → NoDupOut d.get) :
    ∃ r im', step2c o d im = some (r, im') ∧ Valid r ∧ MapOk n0 im' (inputSize r) ∧ (2 ≤ o.optLevel → NoDupOut r.get) ∧
      (o.randomComb = false → ∀ c circ, r.get c = some circ → circ.constraints = []) := by
  by_cases hr : o.randomComb = true
  · exact ⟨d, im, by rw [step2c, if_pos hr], hv, hm, hnd, fun h => by rw [hr] at h; cases h⟩
  · have hL := dest_lawful E true
    obtain ⟨d1, e1, a1, a2, a3, a4, a5, -⟩ := C12_exportConstraints E d hv.1 ((validate_iff d hv.1).2 hv.2)
    have hv1 := valid_of a1 a2
    obtain ⟨d2, e2, b1, b2, b3, b4, b5, -, b7⟩ := reassign_correct' hL rfl rfl rfl d1 hv1.1 hv1.2 false
    have hv2 : Valid d2 := ⟨b1, by rw [WF, b3]; exact b2⟩
    have hsz : inputSize d2 = inputSize d := by
      have := b5 0
      rw [← inputSize_of_numInputs a5]
      unfold inputSize
      cases h0 : d1.get 0 <;> cases h0' : d2.get 0 <;> simp [h0, h0'] at this ⊢
      exact this.1
    have hroot : ∀ root, d2.get 0 = some root → root.outputs.Nodup := fun root h => b7 0 root h (.inl rfl)
    have hcan := reassign_canonical hL d1 hv1.1 hv1.2 ⟨_, hv2.2.wf⟩ hroot e2
    obtain ⟨d3, im', p1, p2, -, p4⟩ := pruneOnce_total hL hv2 (by rw [hsz]; exact hm)
    obtain ⟨m, h6, -⟩ := pruneOnce_some.1 p4
    have hq : Fwd (fun rc : RootCircuit (dest E true) => ∀ c circ, rc.get c = some circ → circ.constraints = []) := by
      intro x y hd hx c circ hg
      obtain ⟨k, hk, hd'⟩ := hd.circ c circ hg
      have := hd'.cons
      rw [hx c k hk] at this
      exact List.length_eq_zero_iff.1 (by simpa using this)
    refine ⟨d3, im', ?_, p1, p2, fun _ => dce_noDup hL d2 hv2.1 hv2.2 hroot hcan h6, fun _ => removeUnreachable_fwd hL hq h6 (reassign_fwd hL hq e2 a4)⟩
    rw [step2c, if_neg hr]
    simp only [e1, e2, p4, checked_valid p1, Option.bind_eq_bind, Option.bind_some]

/-- Splitting at layers. -/
theorem step2d_total (P : Params F) (o : Options) {d : RootCircuit (dest E true)} (hv : Valid d) (hm : MapOk n0 im (inputSize d)) (hnd : 2 ≤ o.optLevel → NoDupOut d.get)
    (hnone : o.randomComb = false → ∀ c circ, d.get c = some circ → circ.constraints = []) (hcomb : o.randomComb = true → o.cross = false → Combinable d) :
    ∃ r im', Valid r ∧ MapOk n0 im' (inputSize r) ∧ (2 ≤ o.optLevel → NoDupOut r.get) ∧ Settles (fun n => step2d (P.at n) o d im) (r, im') := by
  by_cases hc : o.cross = true
  · exact ⟨d, im, hv, hm, hnd, 0, fun n _ => by dsimp only; unfold step2d; rw [if_pos hc]⟩
  have hvd := (validate_iff d hv.1).2 hv.2
  have hc' : o.cross = false := by simpa using hc
  obtain ⟨N, hN⟩ := Layering.Split.splitRoot_some (random := o.randomComb) hv.2 (fun h => (hcomb h hc').char) hnone
  obtain ⟨r, hr⟩ := Option.isSome_iff_exists.1 (hN N (le_refl _))
  have hval : Valid (Layering.Split.splitRc E d.numPublicInputs r) := by
    cases hrc : o.randomComb with
    | true =>
      rw [hrc] at hr
      obtain ⟨a1, a2, -⟩ := C14_split_partial E true d hv.1 hvd N r hr (hcomb hrc hc').char (hcomb hrc hc').some
      exact valid_of a2 a1
    | false =>
      rw [hrc] at hr
      obtain ⟨a1, a2, -⟩ := C14_split_noRandom E true d hv.1 hvd N r hr (hnone hrc)
      exact valid_of a2 a1
  have hin : inputSize (Layering.Split.splitRc E d.numPublicInputs r) = inputSize d := by
    obtain ⟨q, hq, e⟩ := splitRoot_inputs hr
    unfold Layering.progGet at hq
    obtain ⟨circ, hg, rfl⟩ := Option.map_eq_some_iff.1 hq
    unfold inputSize
    rw [hg, show (Layering.Split.splitRc E d.numPublicInputs r).get 0 = some (Layering.Split.circOf E r.1) from by simp [Layering.Split.splitRc, RootCircuit.get, List.lookup]]
    exact e
  obtain ⟨y, im', t1, t2, t3, -, M, hM⟩ := tidy_total (dest_lawful E true) (dest_renames E true) (reassignOk_dest E true) o.optLevel hval (by rw [hin]; exact hm)
  refine ⟨y, im', t1, t2, t3, max N M, fun n hn => ?_⟩
  dsimp only
  unfold step2d
  rw [if_neg hc]
  simp only [Params.at, Layering.Split.splitRoot_mono (le_trans (le_max_left _ _) hn) hr, checked_valid hval, hM n (le_trans (le_max_right _ _) hn), Option.bind_eq_bind, Option.bind_some]

/-- All circuits have inputs: the check `validate_circuit_has_inputs` (dest/mod.rs:341-349). -/
def HasInputs {L : Lang F} (rc : RootCircuit L) : Prop := ∀ c circ, rc.get c = some circ → circ.numInputs ≠ 0

/-- Unique inputs and outputs. -/
theorem step2e_total (P : Params F) {o : Options} (h1 : 1 ≤ o.optLevel) (hord : ∀ l, (P.ord l).Perm l) {d : RootCircuit (dest E true)} (hv : Valid d) (hm : MapOk n0 im (inputSize d))
    (hnd : 2 ≤ o.optLevel → NoDupOut d.get) :
    ∃ d1 d2 r im', (if o.optLevel = 1 then reassign d true else some d) = some d1 ∧ SolveDup.solveDuplicates E P.ord d1 = some d2 ∧
      Settles (fun n => tidy o.optLevel n d2 im) (r, im') ∧ Valid r ∧ MapOk n0 im' (inputSize r) ∧
      (HasInputs r → Settles (fun n => step2e (P.at n) o d im) (r, im')) := by
  have hL := dest_lawful E true
  obtain ⟨d1, e1, hv1, hn1, hs1⟩ : ∃ d1, (if o.optLevel = 1 then reassign d true else some d) = some d1 ∧ Valid d1 ∧ NoDupOut d1.get ∧ inputSize d1 = inputSize d := by
    by_cases ho : o.optLevel = 1
    · obtain ⟨d2, e2, b1, b2, b3, b4, b5, -, b7⟩ := reassign_correct' hL rfl rfl rfl d hv.1 hv.2 true
      refine ⟨d2, by rw [if_pos ho]; exact e2, ⟨b1, by rw [WF, b3]; exact b2⟩, fun c circ hg => b7 c circ hg (.inr rfl), ?_⟩
      have := b5 0
      unfold inputSize
      cases h0 : d.get 0 <;> cases h0' : d2.get 0 <;> simp [h0, h0'] at this ⊢
      exact this.1
    · exact ⟨d, by rw [if_neg ho], hv, hnd (by omega), rfl⟩
  obtain ⟨d2, e2, a1, a2, a3, a4, -⟩ := C13_solveDuplicates_partial E P.ord hord d1 hv1.1 ((validate_iff d1 hv1.1).2 hv1.2) hn1
  have hv2 : Valid d2 := valid_of (by rw [a1]; exact hv1.1) a2
  obtain ⟨r, im', t1, t2, -, -, t5⟩ := tidy_total (dest_lawful E false) (dest_renames E false) (reassignOk_dest E false) o.optLevel hv2 (by rw [inputSize_of_numInputs a4, hs1]; exact hm)
  refine ⟨d1, d2, r, im', e1, e2, t5, t1, t2, fun hh => ?_⟩
  obtain ⟨N, hN⟩ := t5
  refine ⟨N, fun n hn => ?_⟩
  have hall : r.circuits.all (fun p => decide (p.2.numInputs ≠ 0)) = true := by
    rw [List.all_eq_true]
    intro p hp
    exact decide_eq_true (hh p.1 p.2 (get_of_mem t1.1 hp))
  have e2' : SolveDup.solveDuplicates E (P.at n).ord d1 = some d2 := e2
  have hN' : tidy o.optLevel (P.at n).fuel d2 im = some (r, im') := hN n hn
  dsimp only
  unfold step2e
  by_cases ho : o.optLevel = 1
  · rw [if_pos ho] at e1
    simp only [if_pos ho, e1, e2', hN', checked_valid t1, hall, Option.bind_eq_bind, Option.bind_some, if_true]
  · rw [if_neg ho] at e1
    cases e1
    simp only [if_neg ho, e2', hN', checked_valid t1, hall, Option.bind_eq_bind, Option.bind_some, if_true]

end step2

end Verif.Compile
