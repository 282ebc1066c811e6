import Verif.Compile.Link
import Verif.Compile.SourceSound
import Verif.Compile.Step3
import Verif.Props.C09
import Verif.Props.C07

/-!
# The source half

`compile_step_1`: what the hint-normalised circuit computes, in terms of the source circuit, with honest hints and with arbitrary ones.
-/

set_option linter.unusedSectionVars false
set_option linter.unusedSimpArgs false

namespace Verif.Compile

open Verif.IR Verif.IR.HintExport Verif.Builder
open Source (Insn)

variable {F : Type} [Field F] [DecidableEq F] {L : Lang F}

/-! ### Passes in languages whose instructions may fail -/

theorem cleanup_keepsOk (hL : L.Lawful) (ho : ReassignOk L) : PassOk (0 : F) (Valid (L := L)) inputSize KeepsEval cleanup := by
  rintro rc ⟨hk, hw⟩
  obtain ⟨rc', im, a, b, c, d, e, f, g, h, k⟩ := cleanup_correct hL ho rc hk hw
  refine ⟨rc', im, a, ⟨b, by rw [WF, d]; exact c⟩, e, f, g, h, fun ins hl => ?_⟩
  obtain ⟨ins', x, y, _⟩ := k ins hl
  exact ⟨ins', x, y⟩

theorem inputSize_of {rc : RootCircuit L} {root : Circuit L} (h : rc.get 0 = some root) : inputSize rc = root.numInputs := by simp [inputSize, h]

/-- `remove_unreachable`, for circuits that may contain instructions `validate` rejects. -/
theorem removeUnreachable_any (hL : L.Lawful) {rc : RootCircuit L} {npi : Option Nat} (hk : rc.vertices.Nodup) (hw : WFAt npi rc) :
    ∃ rc' im, removeUnreachable rc = some (rc', im) ∧ rc'.vertices.Nodup ∧ WFAt npi rc' ∧ rc'.numPublicInputs = rc.numPublicInputs ∧ im.curSize = inputSize rc ∧
      im.nextSize = inputSize rc' ∧ im.InRange ∧ im.Injective ∧ ∀ ins : List F, ins.length = inputSize rc → ∃ ins', im.mapInputs 0 ins = some ins' ∧
        KeepsEval rc ins rc' ins' ∧ (L.Total → npi.isSome → SameEval rc ins rc' ins') := by
  obtain ⟨root, hroot, _, _⟩ := hw.root
  obtain ⟨r, im, h1, h2, h3, h4, h5, ⟨root', h6, h6'⟩, h7⟩ := removeUnreachable_correct' hL rc hk hw root hroot
  obtain ⟨m1, m2⟩ := removeUnreachable_mapping h1
  refine ⟨r, im, h1, h2, h3, h5, by rw [inputSize_of hroot, h4], by rw [inputSize_of h6, h6'], m1, m2, fun ins hl => ?_⟩
  rw [inputSize_of hroot] at hl
  obtain ⟨ins', x, y, z⟩ := h7 ins hl
  exact ⟨ins', x, y, fun hT hn o v => ⟨y o v, z hT hn o v⟩⟩

theorem removeUnreachable_keepsOk (hL : L.Lawful) : PassOk (0 : F) (Valid (L := L)) inputSize KeepsEval removeUnreachable := by
  rintro rc ⟨hk, hw⟩
  obtain ⟨rc', im, a, b, c, d, e, f, g, h, k⟩ := removeUnreachable_any hL hk hw
  refine ⟨rc', im, a, ⟨b, by rw [WF, d]; exact c⟩, e, f, g, h, fun ins hl => ?_⟩
  obtain ⟨ins', x, y, _⟩ := k ins hl
  exact ⟨ins', x, y⟩

theorem eqOk_keeps [DecidableEq L.Insn] [DecidableEq L.Con] : EqOk (Valid (L := L)) inputSize KeepsEval rcEq := fun _ _ hx hy h =>
  ⟨(rcEq_eval hx.1 hy.1 h).1, fun ins o b he => ((rcEq_eval hx.1 hy.1 h).2 ins o b).1 he⟩

/-- `tidy` in a language whose instructions may fail. -/
theorem tidy_keeps [DecidableEq L.Insn] [DecidableEq L.Con] (hL : L.Lawful) (ho : ReassignOk L) {opt fuel n0 : Nat} {x y : RootCircuit L} {im0 im : InputMapping} (hx : Valid x)
    (hm : MapOk n0 im0 (inputSize x)) (h : tidy opt fuel x im0 = some (y, im)) :
    Valid y ∧ MapOk n0 im (inputSize y) ∧ Factor im0 im (fun b c => KeepsEval x b y c) := by
  unfold tidy at h
  split at h
  · exact factor_optimize keepsEval_preord (cleanup_keepsOk hL ho) eqOk_keeps (fun h => cleanup_surj h) hx hm (toOption_some.1 h)
  · split at h
    · obtain ⟨m, h1, h2⟩ := pruneOnce_some.1 h
      exact factor_compose (removeUnreachable_keepsOk hL) (fun h => removeUnreachable_surj h) hx hm h1 h2
    · cases h
      exact ⟨hx, hm, fun a c hp => ⟨c, hp, fun _ _ => id⟩⟩

/-! ### Other semantics -/

section recast
variable {p : L.Insn → (Nat → Option F) → List F → Prop} {v : Nat → L.Insn → Bool}

theorem pruneOnce_recast (rc : RootCircuit L) (im : InputMapping) : pruneOnce (rc.recast p v) im = (pruneOnce rc im).map (fun q => (q.1.recast p v, q.2)) := by
  unfold pruneOnce
  rw [removeUnreachable_recast]
  cases removeUnreachable rc with
  | none => rfl
  | some q =>
    obtain ⟨r, m⟩ := q
    simp only [Option.map_some]
    cases im.composeInPlace m <;> rfl

theorem tidy_recast [DecidableEq L.Insn] [DecidableEq L.Con] (opt fuel : Nat) (rc : RootCircuit L) (im : InputMapping) :
    tidy opt fuel (rc.recast p v) im = (tidy opt fuel rc im).map (fun q => (q.1.recast p v, q.2)) := by
  unfold tidy
  split
  · rw [optimize_map (T := RootCircuit L) (T' := RootCircuit (L.withPrim p v)) (RootCircuit.recast p v) (f := cleanup) (f' := cleanup) (eq := rcEq) (eq' := rcEq)
      (fun x => cleanup_recast x) (fun x y => rcEq_recast x y) fuel rc im]
    cases optimizeUntilFixedPoint rcEq cleanup fuel rc im <;> rfl
  · split
    · exact pruneOnce_recast rc im
    · rfl

end recast

section src
variable {q : Insn F → List F → List F → Prop} {E : Env F}

/-- The source-level optimisation in the totalised semantics. -/
def tidyT (opt fuel : Nat) (rc : RootCircuit (srcT q)) (im : InputMapping) : Option (RootCircuit (srcT q) × InputMapping) :=
  if 3 ≤ opt then (optimizeUntilFixedPoint rcEq cleanupT fuel (Chains.detectChains rc) im).toOption
  else if 1 ≤ opt then pruneOnce (Chains.detectChains rc) im
  else some (rc, im)

theorem tidyT_totRc (opt fuel : Nat) (rc : RootCircuit (source E)) (im : InputMapping) :
    tidyT opt fuel (totRc q rc) im = (tidySource opt fuel rc im).map (fun x => (totRc q x.1, x.2)) := by
  unfold tidyT tidySource
  rw [detectChains_totRc]
  split
  · rw [optimize_map (T := RootCircuit (source E)) (T' := RootCircuit (srcT q)) (totRc q) (f := cleanupSource) (f' := cleanupT) (eq := rcEq) (eq' := rcEq)
      (fun x => cleanupT_totRc x) (fun x y => rcEq_recast (L := source E) x y) fuel _ im]
    cases optimizeUntilFixedPoint rcEq cleanupSource fuel (Chains.detectChains rc) im <;> rfl
  · split
    · exact pruneOnce_recast (L := source E) _ _
    · rfl

theorem detectChains_inputSize {vd : Nat → Insn F → Bool} (hq : Chains.QOk q vd) {npi : Option Nat} {rc : RootCircuit (Chains.srcL q vd)} (hw : WFAt npi rc) :
    inputSize (Chains.detectChains rc) = inputSize rc := by
  obtain ⟨v, w, i, s⟩ := Chains.detectChains_correct hq rc hw
  have := i 0
  unfold inputSize
  cases h0 : rc.get 0 <;> cases h0' : (Chains.detectChains rc).get 0 <;> simp [h0, h0'] at this ⊢
  exact this.1

theorem removeUnreachable_passT (hq : SemOk q) : PassOk (0 : F) (ValidT (q := q)) inputSize SameEval removeUnreachable := by
  rintro rc ⟨hk, hw⟩
  obtain ⟨rc', im, a, b, c, d, e, f, g, h, k⟩ := removeUnreachable_any (srcT_lawful hq) hk (wfT hw (some 0))
  refine ⟨rc', im, a, ⟨b, wfT c none⟩, e, f, g, h, fun ins hl => ?_⟩
  obtain ⟨ins', x, _, z⟩ := k ins hl
  exact ⟨ins', x, z srcT_total rfl⟩

/-- The source-level optimisation is exact in the totalised semantics. -/
theorem tidyT_factor (hq : SemOk q) {opt fuel n0 : Nat} {x y : RootCircuit (srcT q)} {im0 im : InputMapping} (hx : ValidT x) (hm : MapOk n0 im0 (inputSize x))
    (h : tidyT opt fuel x im0 = some (y, im)) : Factor im0 im (fun b c => SameEval x b y c) := by
  obtain ⟨v, w, i, s⟩ := Chains.detectChains_correct (srcT_qok hq) x hx.2
  have hx' : ValidT (Chains.detectChains x) := ⟨by rw [v]; exact hx.1, w⟩
  have hm' : MapOk n0 im0 (inputSize (Chains.detectChains x)) := by rw [detectChains_inputSize (srcT_qok hq) hx.2]; exact hm
  unfold tidyT at h
  split at h
  · obtain ⟨_, _, g⟩ := factor_optimize sameEval_preord (cleanupT_passOk hq) eqOk_validT (fun h => by
        unfold cleanupT at h
        obtain ⟨z, hz, e⟩ := Option.map_eq_some_iff.1 h
        cases e
        exact cleanup_surj (y := z.1) hz) hx' hm' (toOption_some.1 h)
    exact g.mono fun b c hs o b' => (s b o b').trans (hs o b')
  · split at h
    · obtain ⟨m, h1, h2⟩ := pruneOnce_some.1 h
      obtain ⟨_, _, g⟩ := factor_compose (removeUnreachable_passT hq) (fun h => removeUnreachable_surj h) hx' hm' h1 h2
      exact g.mono fun b c hs o b' => (s b o b').trans (hs o b')
    · cases h
      exact fun a c hp => ⟨c, hp, fun _ _ => Iff.rfl⟩

theorem removeUnreachable_passS (hE : E.HintLen) : PassOk (0 : F) (ValidS (E := E)) inputSize KeepsEval removeUnreachable := by
  rintro rc ⟨hk, npi, hw⟩
  obtain ⟨rc', im, a, b, c, d, e, f, g, h, k⟩ := removeUnreachable_any (source_lawful E hE) hk hw
  refine ⟨rc', im, a, ⟨b, npi, c⟩, e, f, g, h, fun ins hl => ?_⟩
  obtain ⟨ins', x, y, _⟩ := k ins hl
  exact ⟨ins', x, y⟩

/-- The source-level optimisation keeps every outcome. -/
theorem tidySource_keeps (hE : E.HintLen) {opt fuel n0 : Nat} {x y : RootCircuit (source E)} {im0 im : InputMapping} (hx : ValidS x) (hm : MapOk n0 im0 (inputSize x))
    (h : tidySource opt fuel x im0 = some (y, im)) : ValidS y ∧ MapOk n0 im (inputSize y) ∧ Factor im0 im (fun b c => KeepsEval x b y c) := by
  obtain ⟨hk, npi, hw⟩ := hx
  obtain ⟨v, w, i, s⟩ := Chains.detectChains_correct (Chains.qok_source hE) x hw
  have hx' : ValidS (Chains.detectChains x) := ⟨by rw [v]; exact hk, none, w⟩
  have hm' : MapOk n0 im0 (inputSize (Chains.detectChains x)) := by
    rw [show inputSize (Chains.detectChains x) = inputSize x from detectChains_inputSize (Chains.qok_source hE) hw]; exact hm
  unfold tidySource at h
  split at h
  · obtain ⟨g1, g2, g⟩ := factor_optimize keepsEval_preord (cleanupSource_passOk hE) eqOk_validS (fun h => by
        unfold cleanupSource at h
        obtain ⟨z, hz, e⟩ := Option.map_eq_some_iff.1 h
        cases e
        exact cleanup_surj (y := z.1) hz) hx' hm' (toOption_some.1 h)
    exact ⟨g1, g2, g.mono fun b c hs o b' he => hs o b' ((s b o b').1 he)⟩
  · split at h
    · obtain ⟨m, h1, h2⟩ := pruneOnce_some.1 h
      obtain ⟨g1, g2, g⟩ := factor_compose (removeUnreachable_passS hE) (fun h => removeUnreachable_surj h) hx' hm' h1 h2
      exact ⟨g1, g2, g.mono fun b c hs o b' he => hs o b' ((s b o b').1 he)⟩
    · cases h
      exact ⟨⟨hk, npi, hw⟩, hm, fun a c hp => ⟨c, hp, fun _ _ => id⟩⟩

end src

/-! ### Hint normalisation -/

theorem semAdv_ok (E : Env F) : SemOk (semAdv E) where
  replace := semAdv_replace E
  length := by
    intro i a o hc h
    cases i with
    | div x y ch =>
      rcases a with _ | ⟨a, _ | ⟨b, _ | ⟨c, l⟩⟩⟩ <;> simp only [semAdv, Insn.sem, Insn.numOutputs] at h ⊢
      split at h
      · exact h.2.2
      · rw [h]; rfl
    | commit xs => exact h
    | hint id xs n => exact h
    | unconstrainedBinOp x y op => rcases a with _ | ⟨a, _ | ⟨b, _ | ⟨c, l⟩⟩⟩ <;> first | exact h | exact h.elim
    | unconstrainedSelect x y z => rcases a with _ | ⟨a, _ | ⟨b, _ | ⟨c, _ | ⟨d, l⟩⟩⟩⟩ <;> first | exact h | exact h.elim
    | toBinary x n => rcases a with _ | ⟨a, _ | ⟨b, l⟩⟩ <;> first | exact h.1 | exact h.elim
    | linComb lc => rw [show o = [_] from h]; rfl
    | mul xs => rw [show o = [_] from h]; rfl
    | boolBinOp x y op => rcases a with _ | ⟨a, _ | ⟨b, _ | ⟨c, l⟩⟩⟩ <;> first | (rw [h.2.2]; rfl) | exact h.elim
    | isZero x => rcases a with _ | ⟨a, _ | ⟨b, l⟩⟩ <;> first | (rw [show o = [_] from h]; rfl) | exact h.elim
    | constantLike c => obtain ⟨y, _, rfl⟩ := h; rfl
    | customGate g xs => rw [show o = [_] from h]; rfl
    | call c xs n => exact h.elim
  lin := fun _ _ _ => Iff.rfl
  mul := fun _ _ _ => Iff.rfl

theorem sem_ok {E : Env F} (hE : E.HintLen) : SemOk (Insn.sem E) where
  replace := Source.sem_replace E
  length := fun i a o hc h => Source.sem_length E hE i hc a o h
  lin := fun _ _ _ => Iff.rfl
  mul := fun _ _ _ => Iff.rfl

section process
variable {E : Env F} {cn : Canon F} {srt : List (Expr F) → List (Expr F)}

theorem processCircuit_any {c : Circuit (source E)} {c' : Circuit (hintNorm E)} (h : processCircuit cn srt E c = .ok c') :
    processCircuit cn srt E.anyHint c = .ok (castC c') := by
  unfold processCircuit at h ⊢
  cases hb : buildCircuit cn srt c.numInputs c.instructions (consOf c) with
  | panic => rw [hb] at h; cases h
  | userError => rw [hb] at h; cases h
  | ok ps =>
    rw [hb] at h
    dsimp only at h ⊢
    cases hf : finalCons srt ps.st with
    | none => rw [hf] at h; cases h
    | some ks =>
      rw [hf] at h
      dsimp only at h ⊢
      cases h
      simp [castC, List.map_map, Function.comp_def]

theorem processList_any {get : Nat → Option (Circuit (source E))} : ∀ {q : List Nat} {t : List (Nat × Circuit (hintNorm E))},
    processList cn srt E get q = .ok t → processList cn srt E.anyHint get q = .ok (t.map fun p => (p.1, castC p.2)) := by
  intro q
  induction q with
  | nil => intro t h; cases h; rfl
  | cons c cs ih =>
    intro t h
    unfold processList at h ⊢
    cases ht : processList cn srt E get cs with
    | panic => rw [ht] at h; cases h
    | userError => rw [ht] at h; cases h
    | ok t0 =>
      rw [ht] at h
      rw [ih ht]
      dsimp only at h ⊢
      cases hg : get c with
      | none => rw [hg] at h; cases h
      | some circ =>
        rw [hg] at h
        dsimp only at h ⊢
        cases hp : processCircuit cn srt E circ with
        | panic => rw [hp] at h; cases h
        | userError => rw [hp] at h; cases h
        | ok c' =>
          rw [hp] at h
          rw [processCircuit_any hp]
          cases h
          rfl

/-- Hint normalisation does not depend on what the hints compute. -/
theorem process_any {rc : RootCircuit (source E)} {rc' : RootCircuit (hintNorm E)} (h : process cn srt E rc = .ok rc') :
    process cn srt E.anyHint rc = .ok (castRc rc') := by
  unfold process at h ⊢
  cases hq : Utils.topoOrder rc.vertices rc.edges with
  | none => rw [hq] at h; cases h
  | some q =>
    rw [hq] at h
    dsimp only at h ⊢
    cases hl : processList cn srt E rc.get q with
    | panic => rw [hl] at h; cases h
    | userError => rw [hl] at h; cases h
    | ok t =>
      rw [hl] at h
      rw [processList_any hl]
      cases h
      rfl

end process

/-! ### The whole step -/

section step1
variable {E : Env F}

theorem castRc_eq (rc : RootCircuit (hintNorm E)) : castRc rc = rc.recast (L := hintNorm E) (hintNorm E.anyHint).prim (hintNorm E).validInsn := rfl

theorem castRc_tidy {opt fuel : Nat} {x y : RootCircuit (hintNorm E)} {im im' : InputMapping} (h : tidy opt fuel x im = some (y, im')) :
    tidy opt fuel (castRc x) im = some (castRc y, im') := by
  have := tidy_recast (L := hintNorm E) (p := (hintNorm E.anyHint).prim) (v := (hintNorm E).validInsn) opt fuel x im
  rw [h] at this
  exact this

theorem castRc_valid {rc : RootCircuit (hintNorm E)} (h : Valid rc) : Valid (castRc rc) :=
  ⟨by rw [castRc_eq, recast_vertices]; exact h.1, wf_recast (L := hintNorm E) (p := (hintNorm E.anyHint).prim) (v := (hintNorm E).validInsn) (npi := some rc.numPublicInputs) (npi' := some rc.numPublicInputs) (fun _ h => h) h.2⟩

theorem castRc_inputSize (rc : RootCircuit (hintNorm E)) : inputSize (castRc rc) = inputSize rc :=
  recast_inputSize (L := hintNorm E) (p := (hintNorm E.anyHint).prim) (v := (hintNorm E).validInsn) rc

theorem anyHint_total (E : Env F) : E.anyHint.HintTotal := fun _ _ n _ => ⟨List.replicate n 0, by simp [Env.anyHint]⟩

/-- What `compile_step_1` guarantees: the hint-normalised circuit, fed with the inputs placed by `im`, has every outcome of the source circuit;
with arbitrary hints, an accepted run of it is an accepted run of the source circuit in which hints and unconstrained operations have arbitrary results and
instructions whose implied assertion fails have the results `χ` prescribes, whatever `χ` is. -/
structure Front (rc src : RootCircuit (source E)) (hn : RootCircuit (hintNorm E)) (im : InputMapping) (K : Prop) : Prop where
  valid : Valid hn
  npi : hn.numPublicInputs = rc.numPublicInputs
  map : MapOk (inputSize rc) im (inputSize hn)
  fwd : ∀ x y, im.Placed x y → ∀ o b, Eval rc x o b → Eval hn y o b
  bwd : K → ∀ χ x y, im.Placed x y → ∀ o, Eval (castRc hn) y o true → Eval (fillRc χ (semAdv E.anyHint) rc) x o true

/-- Instructions that cannot be executed have some result: this allows more. -/
theorem advRc_fill (χ : List F → Nat → F) (rc : RootCircuit (source E)) {ins outs : List F} {b : Bool} (h : Eval (advRc E.anyHint rc) ins outs b) :
    Eval (fillRc χ (semAdv E.anyHint) rc) ins outs b := by
  have e : (advRc E.anyHint rc).recast (L := sourceAdv E.anyHint) (readPrim Insn.inputs (fill χ (semAdv E.anyHint))) (fun _ _ => true) = fillRc χ (semAdv E.anyHint) rc := by
    simp only [advRc, RootCircuit.recast, fillRc, List.map_map, Function.comp_def]
    congr 1
    refine List.map_congr_left fun x _ => ?_
    simp only [advC, Circuit.recast, List.map_map, Function.comp_def]
    rfl
  rw [← e]
  refine eval_recast (L := sourceAdv E.anyHint) ?_ h
  rintro c circ _ i _ _ val outs ⟨args, h1, h2⟩
  exact ⟨args, h1, .inl h2⟩

theorem detectChains_npi {q : Insn F → List F → List F → Prop} {vd : Nat → Insn F → Bool} (rc : RootCircuit (Chains.srcL q vd)) :
    (Chains.detectChains rc).numPublicInputs = rc.numPublicInputs := rfl

theorem tidySource_npi (hE : E.HintLen) {opt fuel : Nat} {x y : RootCircuit (source E)} {im im' : InputMapping} (h : tidySource opt fuel x im = some (y, im')) :
    y.numPublicInputs = x.numPublicInputs := by
  have hL := source_lawful E hE
  unfold tidySource at h
  split at h
  · refine optimize_fwd (Q := fun z : RootCircuit (source E) => z.numPublicInputs = x.numPublicInputs) (fun {a b m} hf ha => ?_) (toOption_some.1 h) rfl
    unfold cleanupSource at hf
    obtain ⟨z, hz, e⟩ := Option.map_eq_some_iff.1 hf
    cases e
    exact cleanup_fwd hL (npi_fwd _) (y := z.1) hz ha
  · split at h
    · obtain ⟨m, h1, h2⟩ := pruneOnce_some.1 h
      exact removeUnreachable_fwd hL (npi_fwd x.numPublicInputs) h1 rfl
    · cases h; rfl

theorem step1_front {P : Params F} {o : Options} (hE : E.HintLen) (hB : E.Builtin) (hsrt : ∀ l, (P.srt l).Perm l) {rc src : RootCircuit (source E)}
    {hn : RootCircuit (hintNorm E)} {im : InputMapping} (hk : rc.vertices.Nodup) (h : step1 P o rc = some (src, hn, im)) :
    Front rc src hn im (KeepsAsserts E.canon P.srt src ∨ ∀ x : F, x = 0 ∨ x = 1) := by
  simp only [step1, Option.bind_eq_bind, Option.bind_eq_some_iff] at h
  obtain ⟨rc1, h1, ⟨src1, m1⟩, h2, src2, h3, hn1, h4, ⟨hn2, m2⟩, h5, hn3, h6, h7⟩ := h
  cases h7
  obtain ⟨rfl, v1⟩ := checked_some.1 h1
  obtain ⟨rfl, v3⟩ := checked_some.1 h3
  obtain ⟨rfl, v6⟩ := checked_some.1 h6
  have hv := valid_of hk v1
  have hm0 := mapOk_identity (inputSize rc1)
  obtain ⟨⟨ks, _⟩, ms, fs⟩ := tidySource_keeps hE ⟨hk, _, hv.2⟩ hm0 h2
  have hp := outcomeOption_some.1 h4
  obtain ⟨rc', e, c1, c2, c3, c4, c5, c6⟩ : ∃ rc', process E.canon P.srt E src = .ok rc' ∧ rc'.vertices.Nodup ∧ (∀ c, c ∈ rc'.vertices ↔ c ∈ src.vertices) ∧
      rc'.numPublicInputs = src.numPublicInputs ∧ rc'.expectedNumOutputZeroes = src.expectedNumOutputZeroes ∧
      WFGet (some rc'.numPublicInputs) rc'.get ∧ ∀ ins outs b, Eval src ins outs b → Eval rc' ins outs b := by
    rcases Props.C06_complete E hE hB P.srt hsrt src ks v3 with ⟨h, _⟩ | h
    · rw [h] at hp; cases hp
    · exact h
  rw [hp] at e
  cases e
  have hLh := hintNorm_lawful E hE
  have hroot : RootOk hn1 := tidy_rootOk hLh h5 (validate_rootOk v6)
  have hval1 : Valid hn1 := ⟨c1, c5, hroot⟩
  have hsz : inputSize hn1 = inputSize src := by
    have hw3 := (validate_iff src ks).1 v3
    rcases Builder.process_spec (cn := E.canon) hsrt E src ks hw3 with h | ⟨rc2, g1, g2⟩
    · rw [h] at hp; cases hp
    · rw [hp] at g1; cases g1
      obtain ⟨root, hr, _⟩ := hw3.root
      obtain ⟨root', hr', ps0, ps1, ps2, js1, js2, ks, hbu⟩ := g2.image 0 root hr
      rw [inputSize_of hr, inputSize_of hr', hbu.eq]
  have hm1 : MapOk (inputSize rc1) m1 (inputSize hn1) := by rw [hsz]; exact ms
  obtain ⟨vh, mh, fh⟩ := tidy_keeps hLh (.inl ⟨rfl, rfl, rfl⟩) hval1 hm1 h5
  refine ⟨vh, ?_, mh, ?_, ?_⟩
  · rw [show hn.numPublicInputs = hn1.numPublicInputs from tidy_fwd hLh (npi_fwd _) h5 rfl, c3]
    exact tidySource_npi hE h2
  · intro x y hpl ou b he
    obtain ⟨z, z1, z2⟩ := fh x y hpl
    obtain ⟨w, w1, w2⟩ := fs x z z1
    have : w = x := placed_identity_eq w1
    subst this
    exact z2 ou b (c6 _ _ _ (w2 ou b he))
  · intro hK χ x y hpl ou he
    obtain ⟨_, _, fc⟩ := tidy_factor (hintNorm_lawful E.anyHint (anyHint_len E)) (.inl ⟨rfl, rfl, rfl⟩) (hintNorm_total E.anyHint (anyHint_total E))
      (castRc_valid hval1) (by rw [castRc_inputSize]; exact hm1) (castRc_tidy h5)
    obtain ⟨z, z1, z2⟩ := fc x y hpl
    have hfull : Props.C07_full E E.canon P.srt src := by
      rcases hK with hK | hK
      · exact Props.C07_partial E E.canon P.srt hsrt src ks v3 hK
      · exact Props.C07_gf2 E hK E.canon P.srt hsrt src ks v3
    have a1 := hfull _ (process_any hp) _ _ ((z2 ou true).2 he)
    have a2 : Eval (totRc (fill χ (semAdv E.anyHint)) src) z ou true := fill_eval.1 (advRc_fill χ src a1)
    have ht := tidyT_totRc (q := fill χ (semAdv E.anyHint)) o.optLevel P.fuel rc1 (.identity (inputSize rc1))
    rw [h2] at ht
    have hfT := tidyT_factor (fill_ok (χ := χ) (semAdv_ok E.anyHint)) (x := totRc (fill χ (semAdv E.anyHint)) rc1)
      ⟨by show (rc1.recast _ _).vertices.Nodup; rw [recast_vertices]; exact hk, totRc_wf hv.2 none⟩
      (by rw [show inputSize (totRc (fill χ (semAdv E.anyHint)) rc1) = inputSize rc1 from recast_inputSize (L := source E) rc1]; exact hm0) ht
    obtain ⟨w, w1, w2⟩ := hfT x z z1
    have : w = x := placed_identity_eq w1
    subst this
    exact fill_eval.2 ((w2 ou true).2 a2)

end step1

end Verif.Compile
