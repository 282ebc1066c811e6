import Verif.Compile.SolverBack

/-!
# The whole compiler

The two halves of `compile_with_options` put together.
-/

set_option linter.unusedSectionVars false
set_option linter.unusedSimpArgs false

namespace Verif.Compile

open Verif.IR Verif.IR.HintExport Verif.Builder

variable {F : Type} [Field F] [DecidableEq F] {E : Env F}

/-- What the theorems assume of the parameters of the model: the orders are permutations, the costs are those of a configuration. -/
structure Params.Ok (P : Params F) : Prop where
  srt : ∀ l, (P.srt l).Perm l
  ord : ∀ l, (P.ord l).Perm l
  costs : FinalBuild.CostOk P.costs
  layered : P.LayeredOk

/-- What the theorems assume of a compilation.  `comb`: if the constraints of each circuit are combined with random coefficients (all
configurations but GF2, and the usual input types), there is a constraint and no circuit has as many constraints as the characteristic of the field. -/
structure Trace.Ok (P : Params F) (o : Options) (t : Trace E) : Prop where
  comb : o.randomComb = true → o.cross = false → Combinable t.relaxed

theorem zeroes_fwd {L : Lang F} (n : Nat) : Fwd (fun z : RootCircuit L => z.expectedNumOutputZeroes = n) := fun hd hx => hd.expected.trans hx

/-- How the results of the compiler are connected. -/
structure Parts (P : Params F) (rc : RootCircuit (source E)) (t : Trace E) (V : Layered.LEnv F F) : Prop where
  front : Front rc t.src t.hn t.srcIm (KeepsAsserts E.canon P.srt t.src ∨ ∀ x : F, x = 0 ∨ x = 1)
  size : inputSize t.solver = inputSize rc
  valid : Valid t.solver
  npi : t.hl.numPublicInputs = rc.numPublicInputs
  snpi : t.solver.numPublicInputs = rc.numPublicInputs
  noRandom : SrcNoRandom rc → HintExport.NoRandom t.hn ∧ HlNoRandom t.hl ∧ HintExport.NoRandom t.solver
  run : ∀ x y, t.srcIm.Placed x y → ∀ o b, Eval t.hn y o b → ∃ full w be, Eval t.ex y full be ∧ Eval t.hl full o b ∧ Eval t.solver x w be ∧
    ∃ im, Back (Eval t.hl) (inputSize t.hl) (HlNoRandom t.hl) V im t.lc ∧ im.Placed full w
  inv : HintExport.NoRandom t.hn → ∀ y, y.length = inputSize t.hn → ∀ full be o b, Eval t.ex y full be → Eval t.hl full o b → Eval t.hn y o b
  adv : ∀ full, full.length = inputSize t.hl → ∃ y, y.length = inputSize t.hn ∧ ∀ o b, Eval t.hl full o b → Eval (castRc t.hn) y o b
  hlWF : WF t.hl
  zeroes : t.solver.expectedNumOutputZeroes = 0
  sback : ∀ x w be, Eval t.solver x w be → ∃ y full im, t.srcIm.Placed x y ∧ Back (Eval t.hl) (inputSize t.hl) (HlNoRandom t.hl) V im t.lc ∧ im.Placed full w ∧
    ∀ o b, Eval t.hl full o b → Eval (castRc t.hn) y o b
  back : ∃ im, Back (Eval t.hl) (inputSize t.hl) (HlNoRandom t.hl) V im t.lc

theorem parts {P : Params F} (hP : P.Ok) {o : Options} (hE : E.HintLen) (hB : E.Builtin) {rc : RootCircuit (source E)} (hk : rc.vertices.Nodup) {t : Trace E}
    (h : compileTrace P o rc = some t) (ht : t.Ok P o) {V : Layered.LEnv F F} (hV : EnvOk E rc.numPublicInputs V) : Parts P rc t V := by
  unfold compileTrace at h
  by_cases ho : o.valid = true
  swap
  · rw [if_neg ho] at h; cases h
  rw [if_pos ho] at h
  simp only [Option.bind_eq_bind, Option.bind_eq_some_iff] at h
  obtain ⟨⟨src, hn, srcIm⟩, h1, ⟨hl, ex⟩, h2, ex', h3, ⟨relaxed, d, hlIm⟩, h4, ⟨lc0, size, order⟩, h5, lc, h6, im, h7, ex1, h8, ⟨ex2, im'⟩, h9, ex3, h10, solver, h11, h12⟩ := h
  cases h12
  obtain ⟨rfl, v3⟩ := checked_some.1 h3
  obtain ⟨rfl, v11⟩ := checked_some.1 h11
  have hF := step1_front hE hB hP.srt hk h1
  have vn := hF.valid
  obtain ⟨hl', ex'', e1, e2, e3, e4, e5, e6, e7⟩ := removeAndExport_correct hE hn vn.1 vn.2
  rw [h2] at e1; cases e1
  obtain ⟨hs, hsz, heq⟩ := removeAndExport_eq hn vn.1 vn.2.wf
  have hx : ex'.expectedNumOutputZeroes = 0 := by rw [h2] at heq; cases heq; rfl
  have hxn : ex'.numPublicInputs = hn.numPublicInputs := by rw [h2] at heq; cases heq; rfl
  obtain ⟨root, hr, _⟩ := vn.2.root
  have hxr : ∃ r, ex'.get 0 = some r ∧ r.numInputs = root.numInputs := by
    rw [h2] at heq; cases heq
    refine ⟨exportHints E hs true root, ?_, rfl⟩
    have := lookup_map_key (fun c x => exportHints E hs (c == 0) x) hn.circuits 0
    rw [RootCircuit.get, this]
    rw [show hn.circuits.lookup 0 = some root from hr]; rfl
  have hlr : ∃ r, hl.get 0 = some r ∧ root.numInputs ≤ r.numInputs := by
    rw [h2] at heq; cases heq
    refine ⟨removeCore E hs 0 root, ?_, by simp [removeCore]⟩
    have := lookup_map_key (fun c x => removeCore E hs c x) hn.circuits 0
    rw [RootCircuit.get, this]
    rw [show hn.circuits.lookup 0 = some root from hr]; rfl
  have kx : ex'.vertices.Nodup := by rw [e3]; exact vn.1
  have wx := (validate_iff ex' kx).1 v3
  have kl : hl.vertices.Nodup := by rw [e2]; exact vn.1
  have hnp : hl.numPublicInputs = rc.numPublicInputs := e5.trans hF.npi
  have hB' := back_spec ho hP.costs hP.ord hP.layered kl e4 h4 ht.comb h5 h6 h7 (by rw [hnp]; exact hV)
  obtain ⟨r1, hr1, hr2⟩ := hxr
  obtain ⟨r3, hr3, hr4⟩ := hlr
  have w1 : Valid ex1 := by
    have k1 : ex1.vertices.Nodup := by
      obtain ⟨c, os, hg, hos, rfl⟩ := setOutputs_some.1 h8
      rw [withOutputs_vertices]; exact kx
    simp only [step4, Option.bind_eq_bind, Option.bind_eq_some_iff] at h9
    obtain ⟨ex1', g1, _⟩ := h9
    exact valid_of k1 (checked_some.1 g1).2
  have i1 : inputSize ex1 = inputSize hn := by
    obtain ⟨c, os, hg, hos, rfl⟩ := setOutputs_some.1 h8
    rw [hr1] at hg; cases hg
    have := withOutputs_get hr1 (os.map (max 1)) 0
    rw [if_pos rfl] at this
    rw [inputSize_of this, inputSize_of hr, ← hr2]
  obtain ⟨k2, s1, s2, s3⟩ := solver_keeps hE w1.1 (by rw [i1]; exact hF.map) h9 h10
  obtain ⟨v1c, h9c⟩ : ex1.validate = true ∧ (if 2 ≤ o.optLevel then (optimizeUntilFixedPoint rcEq removeUnreachable P.fuel ex1 srcIm).toOption else some (ex1, srcIm)) = some (ex2, im') := by
    simp only [step4, Option.bind_eq_bind, Option.bind_eq_some_iff] at h9
    obtain ⟨ex1', g1, g2⟩ := h9
    obtain ⟨rfl, g1⟩ := checked_some.1 g1
    exact ⟨g1, g2⟩
  have hsn : solver.numPublicInputs = rc.numPublicInputs := by
    rw [s2, ← hF.npi, ← hxn]
    obtain ⟨c, os, hg, hos, rfl⟩ := setOutputs_some.1 h8
    rfl
  refine ⟨hF, s1, valid_of k2 v11, hnp, hsn, ?_, ?_, ?_, ?_, e4, ?_, ?_, ⟨im, hB'⟩⟩
  · intro hnr
    have n1 := step1_noRandom hE h1 hnr
    obtain ⟨n2, n3⟩ := removeAndExport_noRandom vn.1 vn.2.wf h2 n1
    exact ⟨n1, n2, addBack_noRandom hE h10 (step4_noRandom hE h9 (setOutputs_noRandom h8 n3))⟩
  · intro x y hp ou b he
    have hlen : y.length = root.numInputs := by
      rw [hp.next, hF.map.next, inputSize_of hr]
    obtain ⟨hints, be, q1, q2⟩ := (e6 root hr (.inr wx) y hlen).1 ou b he
    obtain ⟨w, p1, p2⟩ := setOutputs_eval hE wx hx hB'.range hB'.inj h8 w1.2 q1
    exact ⟨_, w, be, q1, q2, s3 x y hp w be p2, im, hB', p1⟩
  · intro hnr y hy full be ou b g1 g2
    have hlen : y.length = root.numInputs := by rw [hy, inputSize_of hr]
    obtain ⟨hints, rfl, _⟩ := (e6 root hr (.inr wx) y hlen).2.1 full be g1
    exact (e6 root hr (.inr wx) y hlen).2.2 hnr hints be ou b g1 g2
  · intro full hfull
    rw [inputSize_of hr3] at hfull
    have hlen : (full.take root.numInputs).length = root.numInputs := by simp; omega
    refine ⟨full.take root.numInputs, by rw [hlen, inputSize_of hr], fun ou b he => ?_⟩
    exact (e7 root hr _ hlen ou b).2 ⟨full.drop root.numInputs, by rw [List.take_append_drop]; exact he⟩
  · have z1 : ex1.expectedNumOutputZeroes = 0 := by
      obtain ⟨c, os, hg, hos, rfl⟩ := setOutputs_some.1 h8
      exact hx
    have z2 : ex2.expectedNumOutputZeroes = 0 := by
      split at h9c
      · exact optimize_fwd (Q := fun z : RootCircuit (hintNorm E) => z.expectedNumOutputZeroes = 0)
          (fun hf hx => removeUnreachable_fwd (hintNorm_lawful E hE) (zeroes_fwd _) hf hx) (toOption_some.1 h9c) z1
      · cases h9c; exact z1
    unfold AddBack.addBack at h10
    split at h10
    · cases h10
    · obtain ⟨c', _, rfl⟩ := Option.map_eq_some_iff.1 h10
      exact z2
  · intro x w be he
    have hLa := hintNorm_lawful E.anyHint (anyHint_len E)
    have hTa := hintNorm_total E.anyHint (anyHint_total E)
    have hc1 := step4_recast (L := hintNorm E) (p := (hintNorm E.anyHint).prim) (v := (hintNorm E).validInsn) o.optLevel P.fuel ex1 srcIm
    rw [h9c] at hc1
    have hc2 := addBack_recast (L := hintNorm E) (p := (hintNorm E.anyHint).prim) (v := (hintNorm E).validInsn) ex2 im'
    rw [h10] at hc2
    have hsame := solver_same (n0 := inputSize rc) hLa hTa (castRc_valid w1) (by rw [castRc_inputSize, i1]; exact hF.map) hc1 hc2
    have hxl : x.length = srcIm.curSize := by
      obtain ⟨r, _, _, q1, q2, _⟩ := he
      rw [q2, hF.map.cur, ← s1, inputSize_of q1]
    obtain ⟨y, _, hy⟩ := InputMapping.mapInputs_placed hF.map.range hF.map.inj (0 : F) hxl
    have he1 := (hsame x y hy w be).2 (eval_cast hE he)
    obtain ⟨full, hfull, he2⟩ := setOutputs_back (anyHint_len E) (castRc_valid ⟨kx, wx⟩).2 (show (castRc ex').expectedNumOutputZeroes = 0 from hx) hB'.range hB'.inj (setOutputs_cast h8) he1
    refine ⟨y, full, im, hy, hB', hfull, fun ou b heh => ?_⟩
    have hlen : y.length = root.numInputs := by rw [hy.next, hF.map.next, inputSize_of hr]
    have hvc := castRc_valid vn
    have hsz' := castSizes hsz
    rw [← castRc_get] at hsz'
    have hgx : (castRc ex').get = exportedGet hs (castRc hn).get := by
      rw [castRc_get, castRc_get]
      have : ex'.get = exportedGet hs hn.get := by
        rw [h2] at heq; cases heq
        funext c; exact lookup_map_key (fun c x => exportHints E hs (c == 0) x) hn.circuits c
      rw [this]
      funext c
      simp only [castGet, exportedGet, Option.map_map, Function.comp_def]
      cases hn.get c with
      | none => rfl
      | some k => simp only [Option.map_some, exportHints_cast]
    have hrc : (castRc hn).get 0 = some (castC root) := by rw [castRc_get]; simp [castGet, hr]
    obtain ⟨vs, b1, own, sub, _, rfl⟩ := (exported_eval_iff (anyHint_len E) (castRc hn) (castRc ex') hvc.2.wf hsz' hgx hx hrc hlen
      (fun ws sb hrun => exported_first (anyHint_len E) (castRc hn) (castRc ex') hvc.2.wf hsz' hgx hrc (.inr (castRc_valid ⟨kx, wx⟩).2) hlen hrun)).1 ⟨_, he2⟩
    exact (e7 root hr y hlen ou b).2 ⟨_, heh⟩

end Verif.Compile
