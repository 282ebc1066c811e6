import Verif.Compile.SourceValid
import Verif.Compile.Link
import Verif.Props.C22

/-!
# The clean-up between the passes always ends in a valid circuit

`tidy` and `tidySource` (compile/mod.rs:106-118, 125-139, …) have a result for every valid circuit once they may run long enough, the result does not
depend on the bound, it is valid, and with optimisation level 2 or 3 no circuit of it has a duplicate output.
-/

set_option linter.unusedSectionVars false
set_option linter.unusedSimpArgs false

namespace Verif.Compile

open Verif.IR Verif.IR.Source

section loops
variable {T : Type} {f : T → Option (T × InputMapping)} {eq : T → T → Bool}

theorem optLoop_mono : ∀ (n m : Nat) (y : T) (im : InputMapping) (r : T × InputMapping), n ≤ m → optLoop eq f n y im = .done r → optLoop eq f m y im = .done r := by
  intro n
  induction n with
  | zero => intro m y im r _ h; cases h
  | succ n ih =>
    intro m y im r hm h
    obtain ⟨m, rfl⟩ : ∃ k, m = k + 1 := ⟨m - 1, by omega⟩
    rw [optLoop] at h ⊢
    cases hf : f y with
    | none => rw [hf] at h; exact h
    | some p =>
      obtain ⟨z, imz⟩ := p
      rw [hf] at h
      simp only at h ⊢
      by_cases he : eq y z = true
      · rw [if_pos he] at h ⊢; exact h
      · rw [if_neg he] at h ⊢
        cases hc : im.composeInPlace imz with
        | none => rw [hc] at h; exact h
        | some im' =>
          rw [hc] at h
          exact ih m z im' r (by omega) h

/-- A longer run has the same result. -/
theorem optimize_mono {n m : Nat} {x : T} {im : InputMapping} {r : T × InputMapping} (hm : n ≤ m) (h : optimizeUntilFixedPoint eq f n x im = .done r) :
    optimizeUntilFixedPoint eq f m x im = .done r := by
  unfold optimizeUntilFixedPoint at h ⊢
  cases hf : f x with
  | none => rw [hf] at h; exact h
  | some p =>
    obtain ⟨z, imz⟩ := p
    rw [hf] at h
    simp only at h ⊢
    by_cases he : eq x z = true
    · rw [if_pos he] at h ⊢; exact h
    · rw [if_neg he] at h ⊢
      cases hc : im.composeInPlace imz with
      | none => rw [hc] at h; exact h
      | some im' =>
        rw [hc] at h
        exact optLoop_mono _ _ _ _ _ hm h

theorem optLoop_fixed {A : T → Prop} (hA : ∀ {x y im}, A x → f x = some (y, im) → A y) : ∀ (n : Nat) (x y : T) (im0 im : InputMapping), A x →
    optLoop eq f n x im0 = .done (y, im) → ∃ z imz, A y ∧ f y = some (z, imz) ∧ eq y z = true := by
  intro n
  induction n with
  | zero => intro x y im0 im _ h; cases h
  | succ n ih =>
    intro x y im0 im hx h
    rw [optLoop] at h
    cases hf : f x with
    | none => rw [hf] at h; cases h
    | some p =>
      obtain ⟨z, imz⟩ := p
      rw [hf] at h
      simp only at h
      by_cases he : eq x z = true
      · rw [if_pos he] at h
        cases h
        exact ⟨z, imz, hx, hf, he⟩
      · rw [if_neg he] at h
        cases hc : im0.composeInPlace imz with
        | none => rw [hc] at h; cases h
        | some im' =>
          rw [hc] at h
          exact ih _ _ _ _ (hA hx hf) h

/-- The result of the loop is one side of the last comparison. -/
theorem optimize_fixed {A : T → Prop} (hA : ∀ {x y im}, A x → f x = some (y, im) → A y) {fuel : Nat} {x y : T} {im0 im : InputMapping} (hx : A x)
    (h : optimizeUntilFixedPoint eq f fuel x im0 = .done (y, im)) : ∃ a b imb, A a ∧ f a = some (b, imb) ∧ eq a b = true ∧ (y = a ∨ y = b) := by
  unfold optimizeUntilFixedPoint at h
  cases hf : f x with
  | none => rw [hf] at h; cases h
  | some p =>
    obtain ⟨z, imz⟩ := p
    rw [hf] at h
    simp only at h
    by_cases he : eq x z = true
    · rw [if_pos he] at h
      cases h
      exact ⟨x, _, imz, hx, hf, he, .inr rfl⟩
    · rw [if_neg he] at h
      cases hc : im0.composeInPlace imz with
      | none => rw [hc] at h; cases h
      | some im' =>
        rw [hc] at h
        obtain ⟨w, imw, h1, h2, h3⟩ := optLoop_fixed hA _ _ _ _ _ (hA hx hf) h
        exact ⟨y, w, imw, h1, h2, h3, .inl rfl⟩

theorem PassOk.and {α : Type} {d : α} {P Q : T → Prop} {sz : T → Nat} {rel : T → List α → T → List α → Prop} (hf : PassOk d P sz rel f)
    (hQ : ∀ {x y im}, P x → Q x → f x = some (y, im) → Q y) : PassOk d (fun x => P x ∧ Q x) sz rel f := by
  rintro x ⟨hp, hq⟩
  obtain ⟨y, im, h1, h2, h3⟩ := hf x hp
  exact ⟨y, im, h1, ⟨h2, hQ hp hq h1⟩, h3⟩

end loops

variable {F : Type} [Field F] [DecidableEq F]

theorem vertices_perm {L : Lang F} {a b : RootCircuit L} (ha : a.vertices.Nodup) (hb : b.vertices.Nodup) (h : a.get = b.get) : a.vertices.Perm b.vertices := by
  refine (List.perm_ext_iff_of_nodup ha hb).2 fun c => ?_
  rw [mem_vertices_iff, mem_vertices_iff, h]

theorem wfAt_congr {L : Lang F} {npi : Option Nat} {a b : RootCircuit L} (h : a.get = b.get) (he : a.expectedNumOutputZeroes = b.expectedNumOutputZeroes) (hw : WFAt npi a) : WFAt npi b :=
  ⟨by rw [← h]; exact hw.wf, by rw [← h, ← he]; exact hw.root⟩

section generic
variable {L : Lang F} [DecidableEq L.Insn] [DecidableEq L.Con]

theorem removeUnreachable_passOk_keeps (hL : L.Lawful) : PassOk (0 : F) (Valid (L := L)) inputSize KeepsEval removeUnreachable := by
  rintro rc ⟨hk, hw⟩
  obtain ⟨root, hroot, _, _⟩ := hw.root
  obtain ⟨r, im, h1, h2, h3, h4, h5, ⟨root', h6, h6'⟩, h7⟩ := removeUnreachable_correct' hL rc hk hw root hroot
  obtain ⟨m1, m2⟩ := removeUnreachable_mapping h1
  refine ⟨r, im, h1, ⟨h2, by rw [WF, h5]; exact h3⟩, by rw [inputSize_eq hroot, h4], by rw [inputSize_eq h6, h6'], m1, m2, fun ins hl => ?_⟩
  rw [inputSize_eq hroot] at hl
  obtain ⟨ins', x, y, z⟩ := h7 ins hl
  exact ⟨ins', x, y⟩

theorem eqOk_keeps : EqOk (Valid (L := L)) inputSize KeepsEval rcEq := fun _ _ hx hy h =>
  ⟨(rcEq_eval hx.1 hy.1 h).1, fun ins o b he => ((rcEq_eval hx.1 hy.1 h).2 ins o b).1 he⟩

/-- The loop of `tidy` from any mapping. -/
theorem optimize_total {f : RootCircuit L → Option (RootCircuit L × InputMapping)} {P : RootCircuit L → Prop} (hf : PassOk (0 : F) P inputSize KeepsEval f)
    (hn : ∀ {x}, P x → x.vertices.Nodup) (hs : ∀ {x y im}, f x = some (y, im) → im.Surjective) {n0 : Nat} {x : RootCircuit L} {im0 : InputMapping} (hx : P x) (hm : MapOk n0 im0 (inputSize x))
    (hstop : ∃ N, ∀ fuel im, N ≤ fuel → optimizeUntilFixedPoint rcEq f fuel x im ≠ .running) :
    ∃ y im, P y ∧ MapOk n0 im (inputSize y) ∧ Factor im0 im (fun b c => KeepsEval x b y c) ∧ ∃ N, ∀ fuel, N ≤ fuel → optimizeUntilFixedPoint rcEq f fuel x im0 = .done (y, im) := by
  obtain ⟨N, hN⟩ := hstop
  have heq : EqOk P inputSize KeepsEval rcEq := fun _ _ hx hy h =>
    ⟨(rcEq_eval (hn hx) (hn hy) h).1, fun ins o b he => ((rcEq_eval (hn hx) (hn hy) h).2 ins o b).1 he⟩
  obtain ⟨h1, _⟩ := optimize_good keepsEval_preord hf heq N x hx im0 hm.next hm.range
  obtain ⟨⟨y, im⟩, h⟩ := Verif.Props.stops_done h1 (hN N im0 (le_refl _))
  obtain ⟨p1, p2, p3⟩ := factor_optimize keepsEval_preord hf heq hs hx hm h
  exact ⟨y, im, p1, p2, p3, N, fun fuel hfu => optimize_mono hfu h⟩

/-- `remove_unreachable` once. -/
theorem pruneOnce_total (hL : L.Lawful) {n0 : Nat} {x : RootCircuit L} {im0 : InputMapping} (hx : Valid x) (hm : MapOk n0 im0 (inputSize x)) :
    ∃ y im, Valid y ∧ MapOk n0 im (inputSize y) ∧ Factor im0 im (fun b c => KeepsEval x b y c) ∧ pruneOnce x im0 = some (y, im) := by
  obtain ⟨y, im1, h1, h2, h3, h4, h5, h6, -⟩ := removeUnreachable_passOk_keeps hL x hx
  obtain ⟨im, hc, -⟩ := InputMapping.compose_isSome im0 im1 hm.range (hm.next.trans h3.symm)
  obtain ⟨p1, p2, p3⟩ := factor_compose (removeUnreachable_passOk_keeps hL) (fun h => removeUnreachable_surj h) hx hm h1 hc
  exact ⟨y, im, p1, p2, p3, pruneOnce_some.2 ⟨im1, h1, hc⟩⟩

/-- Duplicate outputs are gone at a fixed point of the clean-up. -/
theorem cleanup_fixed_noDup (hL : L.Lawful) (ho : ReassignOk L) {a b : RootCircuit L} {im : InputMapping} (ha : Valid a) (h : cleanup a = some (b, im)) (he : rcEq a b = true) :
    NoDupOut a.get ∧ NoDupOut b.get := by
  obtain ⟨hbk, -, hbc, hb0⟩ := cleanup_canonical hL ho ha.1 ha.2 h
  obtain ⟨hg, -, -⟩ := rcEq_get ha.1 hbk he
  obtain ⟨-, -, hn⟩ := cleanup_noDup hL ha.1 ha.2 (by rw [hg]; exact hbc) (by rw [hg]; exact hb0) h
  exact ⟨by rw [hg]; exact hn, hn⟩

/-- `tidy` has a result, the same for all large bounds. -/
theorem tidy_total (hL : L.Lawful) (hR : L.Renames) (ho : ReassignOk L) (opt : Nat) {n0 : Nat} {x : RootCircuit L} {im0 : InputMapping} (hx : Valid x) (hm : MapOk n0 im0 (inputSize x)) :
    ∃ y im, Valid y ∧ MapOk n0 im (inputSize y) ∧ (2 ≤ opt → NoDupOut y.get) ∧ Factor im0 im (fun b c => KeepsEval x b y c) ∧
      ∃ N, ∀ fuel, N ≤ fuel → tidy opt fuel x im0 = some (y, im) := by
  by_cases h2 : 2 ≤ opt
  · obtain ⟨y, im, p1, p2, p3, N, hN⟩ := optimize_total (Verif.Props.cleanup_passOk_keeps hL ho) (fun h => h.1) (fun h => cleanup_surj h) hx hm
      (cleanup_stops hL hR ho x hx.1 hx.2)
    refine ⟨y, im, p1, p2, fun _ => ?_, p3, N, fun fuel hf => ?_⟩
    · obtain ⟨a, b, imb, h1, h3, h4, h5⟩ := optimize_fixed (A := Valid) (fun {x y im} hv hc => by
        obtain ⟨y', im', e, h, -⟩ := Verif.Props.cleanup_passOk_keeps hL ho x hv
        rw [hc] at e; cases e; exact h) hx (hN N (le_refl _))
      obtain ⟨q1, q2⟩ := cleanup_fixed_noDup hL ho h1 h3 h4
      rcases h5 with rfl | rfl
      · exact q1
      · exact q2
    · unfold tidy
      rw [if_pos h2, hN fuel hf]; rfl
  · by_cases h1 : 1 ≤ opt
    · obtain ⟨y, im, p1, p2, p3, p4⟩ := pruneOnce_total hL hx hm
      exact ⟨y, im, p1, p2, fun h => (h2 h).elim, p3, 0, fun fuel _ => by unfold tidy; rw [if_neg h2, if_pos h1, p4]⟩
    · exact ⟨x, im0, hx, hm, fun h => (h2 h).elim, fun a c hp => ⟨c, hp, fun _ _ h => h⟩, 0, fun fuel _ => by unfold tidy; rw [if_neg h2, if_neg h1]⟩

end generic

section source
variable {E : Env F}

theorem removeUnreachable_passOkS (hE : E.HintLen) : PassOk (0 : F) (ValidS (E := E)) inputSize KeepsEval removeUnreachable := by
  rintro rc ⟨hk, npi, hw⟩
  obtain ⟨root, hroot, _, _⟩ := hw.root
  obtain ⟨r, im, h1, h2, h3, h4, h5, ⟨root', h6, h6'⟩, h7⟩ := removeUnreachable_correct' (source_lawful E hE) rc hk hw root hroot
  obtain ⟨m1, m2⟩ := removeUnreachable_mapping h1
  refine ⟨r, im, h1, ⟨h2, npi, h3⟩, by rw [inputSize_eq hroot, h4], by rw [inputSize_eq h6, h6'], m1, m2, fun ins hl => ?_⟩
  rw [inputSize_eq hroot] at hl
  obtain ⟨ins', x, y, z⟩ := h7 ins hl
  exact ⟨ins', x, y⟩

/-- What every circuit in the source-level loop satisfies. -/
def SoftValid (n : Nat) (rc : RootCircuit (source E)) : Prop := rc.vertices.Nodup ∧ WFAt none rc ∧ Soft (L := source E) n rc ∧ rc.numPublicInputs = n

theorem detect_softValid (hE : E.HintLen) {rc : RootCircuit (source E)} (hv : Valid rc) : SoftValid rc.numPublicInputs (Chains.detectChains rc) := by
  obtain ⟨v, w, -⟩ := Chains.detectChains_correct (Chains.qok_source hE) rc hv.2
  exact ⟨by rw [v]; exact hv.1, w, detect_soft hE hv.2, rfl⟩

/-- `cleanup` restores validity. -/
theorem cleanup_softValid (hE : E.HintLen) {n : Nat} {rc rc' : RootCircuit (source E)} {im : InputMapping} (hs : SoftValid n rc) (h : cleanup rc = some (rc', im)) :
    Valid rc' ∧ rc'.numPublicInputs = n := by
  have hL := source_lawful E hE
  obtain ⟨hk, hw, hsoft, hn⟩ := hs
  obtain ⟨r0, im0, e0, h1, -, h2, -⟩ := cleanup_correct hL (.inl ⟨rfl, rfl, rfl⟩) rc hk hw
  rw [h] at e0; cases e0
  unfold cleanup at h
  cases hr : removeUnreachable rc with
  | none => rw [hr] at h; cases h
  | some p =>
    obtain ⟨r, imr⟩ := p
    rw [hr] at h
    obtain ⟨r', hre, e⟩ := Option.map_eq_some_iff.1 h
    cases e
    have hst := prune_strict hL hk hw hsoft hr
    obtain ⟨root, hroot, _, _⟩ := hw.root
    obtain ⟨r1, im1, e1, hk1, -⟩ := removeUnreachable_correct' hL rc hk hw root hroot
    rw [hr] at e1; cases e1
    obtain ⟨r2, e2, -, hw2, -⟩ := reassign_any hL (.inl ⟨rfl, rfl, rfl⟩) r hk1 hst
    rw [hre] at e2; cases e2
    exact ⟨⟨h1, by rw [WF, h2, hn]; exact hw2⟩, h2.trans hn⟩

theorem cleanupSource_split {y z : RootCircuit (source E)} {im : InputMapping} (h : cleanupSource y = some (z, im)) : ∃ r, cleanup y = some (r, im) ∧ z = Chains.detectChains r := by
  unfold cleanupSource at h
  cases hc : cleanup y with
  | none => rw [hc] at h; cases h
  | some p =>
    obtain ⟨r, im'⟩ := p
    rw [hc] at h
    simp only [Option.map_some, Option.some.injEq, Prod.mk.injEq] at h
    exact ⟨r, by rw [h.2], h.1.symm⟩

theorem cleanupSource_softValid (hE : E.HintLen) {n : Nat} {x y : RootCircuit (source E)} {im : InputMapping} (hs : SoftValid n x) (h : cleanupSource x = some (y, im)) : SoftValid n y := by
  obtain ⟨r, hr, rfl⟩ := cleanupSource_split h
  obtain ⟨h1, h2⟩ := cleanup_softValid hE hs hr
  rw [← h2]
  exact detect_softValid hE h1

/-- A fixed point of the source-level loop is valid. -/
theorem cleanupSource_fixed (hE : E.HintLen) {n : Nat} {a b : RootCircuit (source E)} {im : InputMapping} (ha : SoftValid n a) (h : cleanupSource a = some (b, im)) (he : rcEq a b = true) :
    Valid a ∧ Valid b := by
  have hL := source_lawful E hE
  have hQ := Chains.qok_source hE
  have hb := cleanupSource_softValid hE ha h
  obtain ⟨r, hr, rfl⟩ := cleanupSource_split h
  obtain ⟨hrv, hrn⟩ := cleanup_softValid hE ha hr
  obtain ⟨-, -, hrc, hr0⟩ := cleanup_canonical hL (.inl ⟨rfl, rfl, rfl⟩) ha.1 ha.2.1 hr
  obtain ⟨hg, he1, he2⟩ := rcEq_get ha.1 hb.1 he
  have hdc := detect_canonical hQ hrv.2 hrc
  have hd0 : ∀ root, (Chains.detectChains r).get 0 = some root → root.outputs.Nodup := by
    intro root hroot
    obtain ⟨root0, h0, rfl⟩ := detect_back hroot
    exact hr0 root0 h0
  obtain ⟨-, -, hrn'⟩ := cleanup_noDup hL ha.1 ha.2.1 (by rw [hg]; exact hdc) (by rw [hg]; exact hd0) hr
  have han : NoDupOut a.get := by rw [hg]; exact detect_noDup hrn'
  obtain ⟨-, -, -, -, hez, hsz⟩ := cleanup_step hL (source_renames E) ha.1 ha.2.1 han hr
  have hba : rcSize (Chains.detectChains r) = rcSize a := rcSize_congr hg.symm (vertices_perm hb.1 ha.1 hg.symm)
  have hdet := detect_size hQ hrv.2
  have hra : rcSize r ≤ rcSize a := by
    rcases hsz with h1 | ⟨h1, h2⟩
    · exact le_of_lt h1
    · exact le_of_eq (rcSize_congr h1 h2)
  have hdr : (Chains.detectChains r).get = r.get := by
    rcases hdet with h1 | h1
    · omega
    · exact h1
  refine ⟨⟨ha.1, ?_⟩, ⟨hb.1, ?_⟩⟩
  · have := hrv.2
    rw [WF, hrn] at this
    rw [WF, ha.2.2.2]
    exact wfAt_congr (hdr.symm.trans hg.symm) hez this
  · have := hrv.2
    rw [WF, hrn] at this
    rw [WF, hb.2.2.2]
    exact wfAt_congr hdr.symm rfl this

/-- `tidySource` has a result, the same for all large bounds, and it is valid. -/
theorem tidySource_total (hE : E.HintLen) (opt : Nat) {n0 : Nat} {x : RootCircuit (source E)} {im0 : InputMapping} (hx : Valid x) (hm : MapOk n0 im0 (inputSize x)) :
    ∃ y im, Valid y ∧ MapOk n0 im (inputSize y) ∧ Factor im0 im (fun b c => KeepsEval x b y c) ∧
      ∃ N, ∀ fuel, N ≤ fuel → tidySource opt fuel x im0 = some (y, im) := by
  have hL := source_lawful E hE
  have hd := detect_softValid hE hx
  obtain ⟨v, w, i, s⟩ := Chains.detectChains_correct (Chains.qok_source hE) x hx.2
  have hsz : inputSize (Chains.detectChains x) = inputSize x := by
    have := i 0
    unfold inputSize
    cases h0 : x.get 0 <;> cases h0' : (Chains.detectChains x).get 0 <;> simp [h0, h0'] at this ⊢
    exact this.1
  have hm' : MapOk n0 im0 (inputSize (Chains.detectChains x)) := by rw [hsz]; exact hm
  have hfac : ∀ {im : InputMapping} {y : RootCircuit (source E)}, Factor im0 im (fun b c => KeepsEval (Chains.detectChains x) b y c) → Factor im0 im (fun b c => KeepsEval x b y c) :=
    fun h => h.mono fun b c hk o b' he => hk o b' ((s b o b').1 he)
  by_cases h3 : 3 ≤ opt
  · obtain ⟨y, im, p1, p2, p3, N, hN⟩ := optimize_total (P := fun y => ValidS y ∧ SoftValid x.numPublicInputs y)
      (PassOk.and (cleanupSource_passOk hE) (fun _ hq h => cleanupSource_softValid hE hq h)) (fun h => h.1.1)
      (fun h => by
        obtain ⟨r, hr, -⟩ := cleanupSource_split h
        exact cleanup_surj hr) ⟨⟨hd.1, none, hd.2.1⟩, hd⟩ hm'
      (cleanupSource_stops hE (source_renames E) _ hd.1 hd.2.1)
    refine ⟨y, im, ?_, p2, hfac p3, N, fun fuel hf => ?_⟩
    · obtain ⟨a, b, imb, h1, h4, h5, h6⟩ := optimize_fixed (A := SoftValid x.numPublicInputs) (fun hq h => cleanupSource_softValid hE hq h) hd (hN N (le_refl _))
      obtain ⟨q1, q2⟩ := cleanupSource_fixed hE h1 h4 h5
      rcases h6 with rfl | rfl
      · exact q1
      · exact q2
    · unfold tidySource
      rw [if_pos h3, hN fuel hf]; rfl
  · by_cases h1 : 1 ≤ opt
    · obtain ⟨root, hroot, _, _⟩ := hd.2.1.root
      obtain ⟨r, imr, e1, hk1, -, hcur, hnp, ⟨root', hr', hnx⟩, hev⟩ := removeUnreachable_correct' hL _ hd.1 hd.2.1 root hroot
      obtain ⟨m1, m2⟩ := removeUnreachable_mapping e1
      have hst := prune_strict hL hd.1 hd.2.1 hd.2.2.1 e1
      obtain ⟨im, hc, -⟩ := InputMapping.compose_isSome im0 imr hm'.range (by rw [hm'.next, inputSize_eq hroot, hcur])
      obtain ⟨-, p2, p3⟩ := factor_compose (removeUnreachable_passOkS hE) (fun h => removeUnreachable_surj h) ⟨hd.1, none, hd.2.1⟩ hm' e1 hc
      refine ⟨r, im, ⟨hk1, by rw [WF, hnp]; exact hst⟩, p2, hfac p3, 0, fun fuel _ => ?_⟩
      unfold tidySource
      rw [if_neg h3, if_pos h1]
      exact pruneOnce_some.2 ⟨imr, e1, hc⟩
    · refine ⟨x, im0, hx, hm, fun a c hp => ⟨c, hp, fun _ _ h => h⟩, 0, fun fuel _ => by unfold tidySource; rw [if_neg h3, if_neg h1]⟩

end source

end Verif.Compile
