import Verif.Props.Examples
import Verif.Compile.Passes
import Verif.Compile.Terminates

/-!
# C22: optimising until a fixed point composes all mappings
-/

namespace Verif.Props

open Verif.IR Verif.Compile

/-- For every pass that satisfies the contract `PassOk`, every notion of behaviour that is reflexive and transitive, every number
of rounds, every starting object and every starting mapping: the optimiser does not panic; and when it stops with `(y, im)` then
`im` maps the caller's inputs so that `y` behaves on them like `x` behaves on the inputs given by the starting mapping. -/
theorem C22_fixed_point {T α : Type} (d : α) (P : T → Prop) (sz : T → Nat) (rel : T → List α → T → List α → Prop)
    (eq : T → T → Bool) (f : T → Option (T × InputMapping)) (hrel : Preord rel) (hf : PassOk d P sz rel f)
    (he : EqOk P sz rel eq) (x : T) (hx : P x) (im0 : InputMapping) (hn : im0.nextSize = sz x) (hr : im0.InRange) (fuel : Nat) :
    optimizeUntilFixedPoint eq f fuel x im0 ≠ .panic ∧
    ∀ y im, optimizeUntilFixedPoint eq f fuel x im0 = .done (y, im) →
      P y ∧ im.curSize = im0.curSize ∧ im.nextSize = sz y ∧ im.InRange ∧
      ∀ ins ins1, im0.mapInputs d ins = some ins1 → ∃ ins2, im.mapInputs d ins = some ins2 ∧ rel x ins1 y ins2 := by
  obtain ⟨h1, h2⟩ := optimize_good hrel hf he fuel x hx im0 hn hr
  refine ⟨h1, fun y im h => ?_⟩
  have g := h2 y im h
  exact ⟨g.inv, g.cur, g.next, g.range, g.sem⟩

variable {F : Type} [Field F] [DecidableEq F]

/-- Instance shared by the loops below: starting from the identity mapping. -/
theorem C22_cleanup {L : Lang F} [DecidableEq L.Insn] [DecidableEq L.Con] (hL : L.Lawful) (ho : ReassignOk L) (hT : L.Total)
    (rc : RootCircuit L) (hk : rc.vertices.Nodup) (hv : rc.validate = true) (fuel : Nat) :
    optimizeUntilFixedPoint rcEq cleanup fuel rc (.identity (inputSize rc)) ≠ .panic ∧
    ∀ rc' im, optimizeUntilFixedPoint rcEq cleanup fuel rc (.identity (inputSize rc)) = .done (rc', im) →
      rc'.vertices.Nodup ∧ rc'.validate = true ∧
      ∀ ins : List F, ins.length = inputSize rc → ∃ ins', im.mapInputs 0 ins = some ins' ∧
        ∀ outs b, Eval rc ins outs b ↔ Eval rc' ins' outs b := by
  have hr : (InputMapping.identity (inputSize rc)).InRange := by
    intro j hj; simpa [InputMapping.identity] using hj
  obtain ⟨h1, h2⟩ := C22_fixed_point (0 : F) Valid inputSize SameEval rcEq cleanup sameEval_preord
    (cleanup_passOk hL ho hT) eqOk_valid rc ⟨hk, (validate_iff rc hk).1 hv⟩ (.identity (inputSize rc)) rfl hr fuel
  refine ⟨h1, fun rc' im h => ?_⟩
  obtain ⟨⟨a, b⟩, _, _, _, c⟩ := h2 rc' im h
  refine ⟨a, (validate_iff rc' a).2 b, fun ins hl => ?_⟩
  exact c ins ins (by rw [← hl]; exact C21_identity 0 ins)

/-- Hint-normalised circuits (compile/mod.rs:134-139). -/
theorem C22_hintNormalized (E : Env F) (hE : E.HintLen) (hT : E.HintTotal) (rc : RootCircuit (hintNorm E)) (hk : rc.vertices.Nodup)
    (hv : rc.validate = true) (fuel : Nat) (rc' : RootCircuit (hintNorm E)) (im : InputMapping)
    (h : optimizeUntilFixedPoint rcEq cleanup fuel rc (.identity (inputSize rc)) = .done (rc', im)) :
    rc'.validate = true ∧ ∀ ins : List F, ins.length = inputSize rc → ∃ ins', im.mapInputs 0 ins = some ins' ∧
        ∀ outs b, Eval rc ins outs b ↔ Eval rc' ins' outs b :=
  ((C22_cleanup (hintNorm_lawful E hE) (Or.inl ⟨rfl, rfl, rfl⟩) (hintNorm_total E hT) rc hk hv fuel).2 rc' im h).2

/-- Hint-less circuits (compile/mod.rs:158-163). -/
theorem C22_hintLess (E : Env F) (rc : RootCircuit (hintLess E)) (hk : rc.vertices.Nodup)
    (hv : rc.validate = true) (fuel : Nat) (rc' : RootCircuit (hintLess E)) (im : InputMapping)
    (h : optimizeUntilFixedPoint rcEq cleanup fuel rc (.identity (inputSize rc)) = .done (rc', im)) :
    rc'.validate = true ∧ ∀ ins : List F, ins.length = inputSize rc → ∃ ins', im.mapInputs 0 ins = some ins' ∧
        ∀ outs b, Eval rc ins outs b ↔ Eval rc' ins' outs b :=
  ((C22_cleanup (hintLess_lawful E) (Or.inl ⟨rfl, rfl, rfl⟩) (hintLess_total E) rc hk hv fuel).2 rc' im h).2

/-- Expression-level circuits, relaxed and strict (compile/mod.rs:176-181, 218-223, 240-245). -/
theorem C22_dest (E : Env F) (relaxed : Bool) (rc : RootCircuit (dest E relaxed)) (hk : rc.vertices.Nodup)
    (hv : rc.validate = true) (fuel : Nat) (rc' : RootCircuit (dest E relaxed)) (im : InputMapping)
    (h : optimizeUntilFixedPoint rcEq cleanup fuel rc (.identity (inputSize rc)) = .done (rc', im)) :
    rc'.validate = true ∧ ∀ ins : List F, ins.length = inputSize rc → ∃ ins', im.mapInputs 0 ins = some ins' ∧
        ∀ outs b, Eval rc ins outs b ↔ Eval rc' ins' outs b :=
  ((C22_cleanup (dest_lawful E relaxed) (by cases relaxed <;> simp [ReassignOk]) (dest_total E relaxed) rc hk hv fuel).2 rc' im h).2

/-- Source circuits (compile/mod.rs:107-113): every result is kept.  (The converse fails, see `C02_source_violated`.) -/
theorem C22_source (E : Env F) (hE : E.HintLen) (rc : RootCircuit (source E)) (hk : rc.vertices.Nodup)
    (hv : rc.validate = true) (fuel : Nat) (rc' : RootCircuit (source E)) (im : InputMapping)
    (h : optimizeUntilFixedPoint rcEq cleanupSource fuel (Chains.detectChains rc) (.identity (inputSize rc)) = .done (rc', im)) :
    ∀ ins : List F, ins.length = inputSize rc → ∃ ins', im.mapInputs 0 ins = some ins' ∧
        ∀ outs b, Eval rc ins outs b → Eval rc' ins' outs b := by
  obtain ⟨v, w, i, s⟩ := Chains.detectChains_correct (Chains.qok_source hE) rc ((validate_iff rc hk).1 hv)
  have hsz : inputSize (Chains.detectChains rc) = inputSize rc := by
    have := i 0
    unfold inputSize
    cases h0 : rc.get 0 <;> cases h0' : (Chains.detectChains rc).get 0 <;> simp [h0, h0'] at this ⊢
    exact this.1
  have hr : (InputMapping.identity (inputSize rc)).InRange := by
    intro j hj; simpa [InputMapping.identity] using hj
  obtain ⟨_, h2⟩ := C22_fixed_point (0 : F) ValidS inputSize KeepsEval rcEq cleanupSource keepsEval_preord
    (cleanupSource_passOk hE) eqOk_validS _ ⟨by rw [v]; exact hk, none, w⟩ (.identity (inputSize rc)) hsz.symm hr fuel
  obtain ⟨_, _, _, _, c⟩ := h2 rc' im h
  intro ins hl
  obtain ⟨ins', e1, e2⟩ := c ins ins (by rw [← hl]; exact C21_identity 0 ins)
  exact ⟨ins', e1, fun o b he => e2 o b ((s _ _ _).1 he)⟩

theorem stops_done {T : Type} {r : Loop T} (h1 : r ≠ .panic) (h2 : r ≠ .running) : ∃ t, r = .done t := by
  cases r with
  | done t => exact ⟨t, rfl⟩
  | panic => exact (h1 rfl).elim
  | running => exact (h2 rfl).elim

theorem cleanup_passOk_keeps {L : Lang F} (hL : L.Lawful) (ho : ReassignOk L) : PassOk (0 : F) (Valid (L := L)) inputSize KeepsEval cleanup := by
  rintro rc ⟨hk, hw⟩
  obtain ⟨rc', im, a, b, c, d, e, f, g, h, k⟩ := cleanup_correct hL ho rc hk hw
  refine ⟨rc', im, a, ⟨b, by rw [WF, d]; exact c⟩, e, f, g, h, fun ins hl => ?_⟩
  obtain ⟨ins', x, y, _⟩ := k ins hl
  exact ⟨ins', x, y⟩

theorem terminates_cleanup {L : Lang F} [DecidableEq L.Insn] [DecidableEq L.Con] (hL : L.Lawful) (hR : L.Renames) (ho : ReassignOk L)
    (rc : RootCircuit L) (hk : rc.vertices.Nodup) (hv : rc.validate = true) :
    ∃ rounds, ∀ fuel, rounds ≤ fuel → ∃ rc' im, optimizeUntilFixedPoint rcEq cleanup fuel rc (.identity (inputSize rc)) = .done (rc', im) := by
  have hw := (validate_iff rc hk).1 hv
  obtain ⟨N, hN⟩ := cleanup_stops hL hR ho rc hk hw
  refine ⟨N, fun fuel hf => ?_⟩
  have hr : (InputMapping.identity (inputSize rc)).InRange := by
    intro j hj; simpa [InputMapping.identity] using hj
  obtain ⟨h1, _⟩ := C22_fixed_point (0 : F) Valid inputSize KeepsEval rcEq cleanup keepsEval_preord
    (cleanup_passOk_keeps hL ho) (fun _ _ hx hy h => ⟨(rcEq_eval hx.1 hy.1 h).1, fun ins o b he => ((rcEq_eval hx.1 hy.1 h).2 ins o b).1 he⟩)
    rc ⟨hk, hw⟩ (.identity (inputSize rc)) rfl hr fuel
  obtain ⟨⟨rc', im⟩, h⟩ := stops_done h1 (hN fuel _ hf)
  exact ⟨rc', im, h⟩

/-- The loop over hint-normalised circuits stops: from some number of rounds on it has a result (compile/mod.rs:134-139). -/
theorem C22_hintNormalized_terminates (E : Env F) (hE : E.HintLen) (rc : RootCircuit (hintNorm E)) (hk : rc.vertices.Nodup) (hv : rc.validate = true) :
    ∃ rounds, ∀ fuel, rounds ≤ fuel → ∃ rc' im, optimizeUntilFixedPoint rcEq cleanup fuel rc (.identity (inputSize rc)) = .done (rc', im) :=
  terminates_cleanup (hintNorm_lawful E hE) (hintNorm_renames E) (Or.inl ⟨rfl, rfl, rfl⟩) rc hk hv

/-- The loop over hint-less circuits stops (compile/mod.rs:158-163). -/
theorem C22_hintLess_terminates (E : Env F) (rc : RootCircuit (hintLess E)) (hk : rc.vertices.Nodup) (hv : rc.validate = true) :
    ∃ rounds, ∀ fuel, rounds ≤ fuel → ∃ rc' im, optimizeUntilFixedPoint rcEq cleanup fuel rc (.identity (inputSize rc)) = .done (rc', im) :=
  terminates_cleanup (hintLess_lawful E) (hintLess_renames E) (Or.inl ⟨rfl, rfl, rfl⟩) rc hk hv

/-- The loops over expression-level circuits stop (compile/mod.rs:176-181, 218-223, 240-245). -/
theorem C22_dest_terminates (E : Env F) (relaxed : Bool) (rc : RootCircuit (dest E relaxed)) (hk : rc.vertices.Nodup) (hv : rc.validate = true) :
    ∃ rounds, ∀ fuel, rounds ≤ fuel → ∃ rc' im, optimizeUntilFixedPoint rcEq cleanup fuel rc (.identity (inputSize rc)) = .done (rc', im) :=
  terminates_cleanup (dest_lawful E relaxed) (dest_renames E relaxed) (by cases relaxed <;> simp [ReassignOk]) rc hk hv

/-- The loop of step 4, which only removes unreachable code, stops (compile/mod.rs:291-294). -/
theorem C22_prune_terminates (E : Env F) (hE : E.HintLen) (rc : RootCircuit (hintNorm E)) (hk : rc.vertices.Nodup) (hv : rc.validate = true) :
    ∃ rounds, ∀ fuel im, rounds ≤ fuel → optimizeUntilFixedPoint rcEq removeUnreachable fuel rc im ≠ .running :=
  removeUnreachable_stops (hintNorm_lawful E hE) (hintNorm_renames E) rc hk ((validate_iff rc hk).1 hv)

/-- The source-level loop stops (compile/mod.rs:107-113). -/
theorem C22_source_terminates (E : Env F) (hE : E.HintLen) (rc : RootCircuit (source E)) (hk : rc.vertices.Nodup) (hv : rc.validate = true) :
    ∃ rounds, ∀ fuel, rounds ≤ fuel → ∃ rc' im,
      optimizeUntilFixedPoint rcEq cleanupSource fuel (Chains.detectChains rc) (.identity (inputSize rc)) = .done (rc', im) := by
  obtain ⟨v, w, i, s⟩ := Chains.detectChains_correct (Chains.qok_source hE) rc ((validate_iff rc hk).1 hv)
  have hk' : (Chains.detectChains rc).vertices.Nodup := by rw [v]; exact hk
  obtain ⟨N, hN⟩ := cleanupSource_stops hE (source_renames E) (Chains.detectChains rc) hk' w
  refine ⟨N, fun fuel hf => ?_⟩
  have hsz : inputSize (Chains.detectChains rc) = inputSize rc := by
    have := i 0
    unfold inputSize
    cases h0 : rc.get 0 <;> cases h0' : (Chains.detectChains rc).get 0 <;> simp [h0, h0'] at this ⊢
    exact this.1
  have hr : (InputMapping.identity (inputSize rc)).InRange := by
    intro j hj; simpa [InputMapping.identity] using hj
  obtain ⟨h1, _⟩ := C22_fixed_point (0 : F) ValidS inputSize KeepsEval rcEq cleanupSource keepsEval_preord
    (cleanupSource_passOk hE) eqOk_validS _ ⟨hk', none, w⟩ (.identity (inputSize rc)) hsz.symm hr fuel
  obtain ⟨⟨rc', im⟩, h⟩ := stops_done h1 (hN fuel _ hf)
  exact ⟨rc', im, h⟩

/-- What a stopped run returned, for the examples. -/
def stopped {T : Type} : Loop (T × InputMapping) → Option (T × InputMapping)
  | .done p => some p
  | _ => none

/-- The loop really runs several rounds and drops an input on the example circuits: fuel 0 is not enough, fuel 2 is. -/
example : Ex.hlRc.validate = true ∧ (stopped (optimizeUntilFixedPoint rcEq cleanup 0 Ex.hlRc (.identity 2))).isNone = true ∧
    (stopped (optimizeUntilFixedPoint rcEq cleanup 2 Ex.hlRc (.identity 2))).map (fun p => p.2.mapping) = some [some 0, none] ∧
    (stopped (optimizeUntilFixedPoint rcEq cleanupSource 4 (Chains.detectChains Ex.srcRc) (.identity 2))).isSome = true :=
  ⟨Ex.hlRc_valid, by decide +kernel, by decide +kernel, by decide +kernel⟩

end Verif.Props
