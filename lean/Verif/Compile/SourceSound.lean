import Verif.IR.Recast
import Verif.Builder.Circ

/-!
# Source-level optimisation under other semantics of the instructions

`remove_unreachable` forgets instructions whose results are not used, and with them their implied assertions.  Reading instructions that
cannot be executed as instructions with arbitrary results makes the optimisations exact; for circuits whose instructions cannot fail this is
the ordinary semantics.
-/

set_option linter.unusedSectionVars false
set_option linter.unusedSimpArgs false

namespace Verif.IR

open Verif.Compile

variable {F : Type} [Field F] [DecidableEq F] {L : Lang F}
variable {p : L.Insn → (Nat → Option F) → List F → Prop} {v : Nat → L.Insn → Bool}

theorem insnsOk_recast {npi npi' : Option Nat} (hv : ∀ i, validAt L npi i = true → validAt (L.withPrim p v) npi' i = true) : ∀ (is : List L.Insn) (cur : Nat),
    InsnsOk L npi cur is → InsnsOk (L.withPrim p v) npi' cur is := by
  intro is
  induction is with
  | nil => intro _ _; trivial
  | cons i is ih => intro cur h; exact ⟨h.1, hv _ h.2.1, h.2.2.1, ih _ h.2.2.2⟩

theorem calls_recast {rc : RootCircuit L} {c d : Nat} : Calls (rc.recast p v).get c d ↔ Calls rc.get c d := by
  constructor
  · rintro ⟨circ, hg, h⟩
    rw [recast_get] at hg
    obtain ⟨k, hk, rfl⟩ := Option.map_eq_some_iff.1 hg
    exact ⟨k, hk, h⟩
  · rintro ⟨circ, hg, h⟩
    exact ⟨circ.recast p v, by rw [recast_get, hg]; rfl, h⟩

theorem wf_recast {npi npi' : Option Nat} (hv : ∀ i, validAt L npi i = true → validAt (L.withPrim p v) npi' i = true) {rc : RootCircuit L} (hw : WFAt npi rc) :
    WFAt npi' (rc.recast p v) := by
  refine ⟨⟨?_, ?_, ?_⟩, ?_⟩
  · intro c circ hg
    rw [recast_get] at hg
    obtain ⟨k, hk, rfl⟩ := Option.map_eq_some_iff.1 hg
    have h := hw.wf.circ c k hk
    refine ⟨insnsOk_recast hv _ _ h.insns, ?_, ?_, h.outs, h.outsNodup⟩
    · intro q hq
      obtain ⟨q0, hq0, rfl⟩ := List.mem_map.1 hq
      exact h.cons q0 hq0
    · refine h.consNodup.imp id fun hn => ?_
      simpa [Circuit.recast, Constraint.recast, List.map_map, Function.comp_def] using hn
  · intro c circ hg i hi d a n hc
    rw [recast_get] at hg
    obtain ⟨k, hk, rfl⟩ := Option.map_eq_some_iff.1 hg
    obtain ⟨sub, h1, h2, h3⟩ := hw.wf.calls c k hk i hi d a n hc
    exact ⟨sub.recast p v, by rw [recast_get, h1]; rfl, h2, h3⟩
  · obtain ⟨r, hr⟩ := hw.wf.dag
    exact ⟨r, fun c d h => hr c d (calls_recast.1 h)⟩
  · obtain ⟨root, h1, h2, h3⟩ := hw.root
    refine ⟨root.recast p v, by rw [recast_get, h1]; rfl, h2, fun h => ?_⟩
    obtain ⟨d, circ, h4, h5, h6⟩ := h3 h
    refine ⟨d, circ.recast p v, ?_, by rw [recast_get, h5]; rfl, by simpa [Circuit.recast] using h6⟩
    clear h5
    induction h4 with
    | refl => exact .refl
    | tail _ hcd ih => exact ih.tail (calls_recast.2 hcd)

theorem recast_inputSize (rc : RootCircuit L) : inputSize (rc.recast p v) = inputSize rc := by
  unfold inputSize
  rw [recast_get]
  cases rc.get 0 <;> rfl

end Verif.IR

namespace Verif.Compile

open Verif.IR Verif.IR.Chains Verif.Builder Verif.IR.HintExport
open Source (Insn)

variable {F : Type} [Field F] [DecidableEq F]

/-- Laws of a semantics of source instructions. -/
theorem srcL_lawful {q : Insn F → List F → List F → Prop} {vd : Nat → Insn F → Bool} (hr : ∀ i f a o, q (i.replaceVars f) a o ↔ q i a o)
    (hl : ∀ i a o, i.asCall = none → q i a o → o.length = i.numOutputs) (hlin : ∀ lc a o, q (.linComb lc) a o ↔ o = [LinComb.evalArgs lc a])
    (hvr : ∀ npi i f, vd npi (i.replaceVars f) = vd npi i) (hvc : ∀ npi c a n, vd npi (.call c a n) = true)
    (hvk : ∀ npi x k b, vd npi (.linComb (LinComb.fromKxPlusB x k b)) = true) : (srcL q vd).Lawful where
  call_inputs := by intro i c a n h; cases i <;> simp [source, Source.Insn.asCall, Source.Insn.inputs] at h ⊢; exact h.2.1
  call_numOutputs := by intro i c a n h; cases i <;> simp [source, Source.Insn.asCall, Source.Insn.numOutputs] at h ⊢; exact h.2.2
  asCall_mkCall := by intros; rfl
  asCall_replace := by intro i f; cases i <;> rfl
  inputs_replace := by
    intro i f; cases i <;> simp [source, Source.Insn.replaceVars, Source.Insn.inputs, LinComb.vars_replace]
  numOutputs_replace := by intro i f; cases i <;> rfl
  prim_replace := by
    intro i f val outs _
    refine readPrim_replace ?_ (hr i f) val outs
    cases i <;> simp [Source.Insn.replaceVars, Source.Insn.inputs, LinComb.vars_replace]
  prim_local := by intro i val val' outs _ h hp; exact readPrim_local h hp
  prim_length := by
    rintro i val outs hc ⟨args, _, h⟩
    exact hl i args outs hc h
  asCall_kx := by intros; rfl
  inputs_kx := by intro x k b hx hk; exact LinComb.inputs_kx hx hk
  numOutputs_kx := by intros; rfl
  valid_replace := hvr
  valid_call := hvc
  valid_kx := hvk
  prim_kx := by
    intro x k b val outs hx hk
    refine readPrim_kx (I := Source.Insn F) (.linComb (LinComb.fromKxPlusB x k b)) x k b (LinComb.inputs_kx hx hk) ?_ val outs
    intro y outs
    rw [hlin, LinComb.eval_kx hx hk]

/-- An instruction without outcome has arbitrary results. -/
def totalize (q : Insn F → List F → List F → Prop) (i : Insn F) (args outs : List F) : Prop :=
  q i args outs ∨ ((¬ ∃ o, q i args o) ∧ outs.length = i.numOutputs)

/-- The source language in which every instruction has an outcome and passes validation. -/
abbrev srcT (q : Insn F → List F → List F → Prop) : Lang F := srcL (totalize q) (fun _ _ => true)

/-- A semantics of source instructions: independent of variable numbers, right number of results, linear combinations and products as usual. -/
structure SemOk (q : Insn F → List F → List F → Prop) : Prop where
  replace : ∀ i f a o, q (i.replaceVars f) a o ↔ q i a o
  length : ∀ i a o, i.asCall = none → q i a o → o.length = i.numOutputs
  lin : ∀ lc a o, q (.linComb lc) a o ↔ o = [LinComb.evalArgs lc a]
  mul : ∀ xs a o, q (.mul xs) a o ↔ o = [a.prod]

variable {q : Insn F → List F → List F → Prop}

theorem totalize_total (hq : ∀ i a o, q i a o → True) (i : Insn F) (args : List F) : ∃ outs, totalize q i args outs := by
  by_cases h : ∃ o, q i args o
  · obtain ⟨o, ho⟩ := h; exact ⟨o, .inl ho⟩
  · exact ⟨List.replicate i.numOutputs 0, .inr ⟨h, by simp⟩⟩

theorem totalize_ok (h : SemOk q) : SemOk (totalize q) where
  replace := by
    intro i f a o
    have hn : (i.replaceVars f).numOutputs = i.numOutputs := by cases i <;> rfl
    simp only [totalize, h.replace, hn]
  length := by
    rintro i a o hc (h1 | h1)
    · exact h.length i a o hc h1
    · exact h1.2
  lin := by
    intro lc a o
    simp only [totalize, h.lin]
    constructor
    · rintro (h1 | h1)
      · exact h1
      · exact (h1.1 ⟨_, rfl⟩).elim
    · exact .inl
  mul := by
    intro xs a o
    simp only [totalize, h.mul]
    constructor
    · rintro (h1 | h1)
      · exact h1
      · exact (h1.1 ⟨_, rfl⟩).elim
    · exact .inl

theorem srcT_lawful (h : SemOk q) : (srcT q).Lawful :=
  srcL_lawful (totalize_ok h).replace (totalize_ok h).length (totalize_ok h).lin (fun _ _ _ => rfl) (fun _ _ _ _ => rfl) (fun _ _ _ _ => rfl)

theorem srcT_qok (h : SemOk q) : QOk (totalize q) (fun _ _ => true) := ⟨srcT_lawful h, (totalize_ok h).lin, (totalize_ok h).mul⟩

theorem srcT_total : (srcT q).Total := by
  intro npi i val _ _ hv
  obtain ⟨args, ha⟩ := mapOpt_isSome hv
  obtain ⟨outs, ho⟩ := totalize_total (q := q) (fun _ _ _ _ => trivial) i args
  exact ⟨outs, args, ha, ho⟩

/-- The circuit read in the totalised semantics. -/
def totRc {E : Env F} (q : Insn F → List F → List F → Prop) (rc : RootCircuit (source E)) : RootCircuit (srcT q) :=
  rc.recast (readPrim Insn.inputs (totalize q)) (fun _ _ => true)

/-- Instructions that cannot be executed have the results `χ` prescribes. -/
def fill (χ : List F → Nat → F) (q : Insn F → List F → List F → Prop) (i : Insn F) (args outs : List F) : Prop :=
  q i args outs ∨ ((¬ ∃ o, q i args o) ∧ outs = (List.range i.numOutputs).map (χ args))

/-- The circuit read in the semantics where instructions that cannot be executed have the results `χ` prescribes. -/
def fillRc {E : Env F} (χ : List F → Nat → F) (q : Insn F → List F → List F → Prop) (rc : RootCircuit (source E)) : RootCircuit (srcL (fill χ q) (fun _ _ => true)) :=
  rc.recast (readPrim Insn.inputs (fill χ q)) (fun _ _ => true)

theorem fill_ok {χ : List F → Nat → F} (h : SemOk q) : SemOk (fill χ q) where
  replace := by
    intro i f a o
    have hn : (i.replaceVars f).numOutputs = i.numOutputs := by cases i <;> rfl
    simp only [fill, h.replace, hn]
  length := by
    rintro i a o hc (h1 | h1)
    · exact h.length i a o hc h1
    · rw [h1.2]; simp
  lin := by
    intro lc a o
    simp only [fill, h.lin]
    constructor
    · rintro (h1 | h1)
      · exact h1
      · exact (h1.1 ⟨_, rfl⟩).elim
    · exact .inl
  mul := by
    intro xs a o
    simp only [fill, h.mul]
    constructor
    · rintro (h1 | h1)
      · exact h1
      · exact (h1.1 ⟨_, rfl⟩).elim
    · exact .inl

theorem totalize_fill (χ : List F → Nat → F) : totalize (fill χ q) = fill χ q := by
  funext i a o
  refine propext ⟨?_, .inl⟩
  rintro (h | h)
  · exact h
  · refine (h.1 ?_).elim
    by_cases he : ∃ o, q i a o
    · obtain ⟨o, ho⟩ := he; exact ⟨o, .inl ho⟩
    · exact ⟨_, .inr ⟨he, rfl⟩⟩

theorem fill_eval {E : Env F} {χ : List F → Nat → F} {rc : RootCircuit (source E)} {x o : List F} {b : Bool} :
    Eval (fillRc χ q rc) x o b ↔ Eval (totRc (fill χ q) rc) x o b := by
  have : ∀ p : Insn F → List F → List F → Prop, p = fill χ q → (Eval (rc.recast (readPrim Insn.inputs p) (fun _ _ => true)) x o b ↔ Eval (fillRc χ q rc) x o b) := by
    rintro p rfl; exact Iff.rfl
  exact (this _ (totalize_fill χ)).symm

theorem totRc_wf {E : Env F} {rc : RootCircuit (source E)} {npi : Option Nat} (hw : WFAt npi rc) (npi' : Option Nat) : WFAt npi' (totRc q rc) :=
  wf_recast (L := source E) (v := fun _ _ => true) (fun _ _ => by cases npi' <;> rfl) hw

theorem detectCircuit_recast {E : Env F} (c : Circuit (source E)) :
    detectCircuit (q := totalize q) (vd := fun _ _ => true) (c.recast (readPrim Insn.inputs (totalize q)) (fun _ _ => true)) =
      (detectCircuit c).recast (readPrim Insn.inputs (totalize q)) (fun _ _ => true) := by
  unfold detectCircuit
  have : (c.recast (readPrim Insn.inputs (totalize q)) (fun _ _ => true)).constraints.map (·.var) = c.constraints.map (·.var) := by
    simp [Circuit.recast, Constraint.recast, List.map_map, Function.comp_def]
  rw [this]
  rfl

theorem detectChains_totRc {E : Env F} (rc : RootCircuit (source E)) : detectChains (totRc q rc) = totRc q (detectChains rc) := by
  unfold detectChains totRc RootCircuit.recast
  simp only [List.map_map, Function.comp_def]
  congr 1
  refine List.map_congr_left fun x _ => ?_
  rw [detectCircuit_recast]

/-- The source-level closure in the totalised semantics. -/
def cleanupT (rc : RootCircuit (srcT q)) : Option (RootCircuit (srcT q) × InputMapping) := (cleanup rc).map (fun x => (detectChains x.1, x.2))

theorem cleanupT_totRc {E : Env F} (rc : RootCircuit (source E)) : cleanupT (totRc q rc) = (cleanupSource rc).map (fun x => (totRc q x.1, x.2)) := by
  unfold cleanupT cleanupSource
  rw [show cleanup (totRc q rc) = (cleanup rc).map (fun x => (totRc q x.1, x.2)) from cleanup_recast (L := source E) rc]
  cases cleanup rc with
  | none => rfl
  | some x => simp [detectChains_totRc]

/-- Invariant of the loop. -/
def ValidT (rc : RootCircuit (srcT q)) : Prop := rc.vertices.Nodup ∧ WFAt none rc

theorem wfT {rc : RootCircuit (srcT q)} {npi : Option Nat} (hw : WFAt npi rc) (npi' : Option Nat) : WFAt npi' rc := by
  have : ∀ (is : List (Insn F)) (cur : Nat), InsnsOk (srcT q) npi cur is → InsnsOk (srcT q) npi' cur is := by
    intro is
    induction is with
    | nil => intro _ _; trivial
    | cons i is ih => intro cur h; exact ⟨h.1, by cases npi' <;> rfl, h.2.2.1, ih _ h.2.2.2⟩
  refine ⟨⟨fun c circ hg => ?_, hw.wf.calls, hw.wf.dag⟩, hw.root⟩
  have h := hw.wf.circ c circ hg
  exact ⟨this _ _ h.insns, h.cons, h.consNodup, h.outs, h.outsNodup⟩

theorem cleanupT_passOk (hq : SemOk q) : PassOk (0 : F) (ValidT (q := q)) inputSize SameEval cleanupT := by
  rintro rc ⟨hk, hw⟩
  obtain ⟨rc', im, a, b, c, d, e, f, g, h, k⟩ := cleanup_correct (srcT_lawful hq) (Or.inl ⟨rfl, rfl, rfl⟩) rc hk (wfT hw (some 0))
  obtain ⟨v, w, i, s⟩ := Chains.detectChains_correct (srcT_qok hq) rc' c
  refine ⟨_, im, by simp [cleanupT, a], ⟨by rw [v]; exact b, w⟩, e, ?_, g, h, fun ins hl => ?_⟩
  · rw [f]
    have := i 0
    unfold inputSize
    cases h0 : rc'.get 0 <;> cases h0' : (Chains.detectChains rc').get 0 <;> simp [h0, h0'] at this ⊢
    exact this.1.symm
  · obtain ⟨ins', x, _, z⟩ := k ins hl
    exact ⟨ins', x, fun o v => (z srcT_total rfl o v).trans (s _ _ _)⟩

theorem eqOk_validT : EqOk (ValidT (q := q)) inputSize SameEval (rcEq (L := srcT q)) :=
  fun _ _ hx hy h => rcEq_eval hx.1 hy.1 h

/-- The source-level optimisation of level 3 is exact in the totalised semantics. -/
theorem source_loop_total {E : Env F} (hE : E.HintLen) (hq : SemOk q) (rc : RootCircuit (source E)) (hk : rc.vertices.Nodup) {npi : Option Nat} (hw : WFAt npi rc) (fuel : Nat)
    (rc' : RootCircuit (source E)) (im : InputMapping)
    (h : optimizeUntilFixedPoint rcEq cleanupSource fuel (detectChains rc) (.identity (inputSize rc)) = .done (rc', im)) (ins : List F)
    (hl : ins.length = inputSize rc) : ∃ ins', im.mapInputs 0 ins = some ins' ∧ ∀ outs b, Eval (totRc q rc) ins outs b ↔ Eval (totRc q rc') ins' outs b := by
  obtain ⟨v, w, i, s⟩ := Chains.detectChains_correct (srcT_qok hq) (totRc q rc) (totRc_wf hw none)
  have hsz : inputSize (detectChains (totRc q rc)) = inputSize rc := by
    rw [← recast_inputSize (L := source E) (p := readPrim Insn.inputs (totalize q)) (v := fun _ _ => true) rc]
    show _ = inputSize (totRc q rc)
    have := i 0
    unfold inputSize
    cases h0 : (totRc q rc).get 0 <;> cases h0' : (Chains.detectChains (totRc q rc)).get 0 <;> simp [h0, h0'] at this ⊢
    exact this.1
  have hm := optimize_map (T := RootCircuit (source E)) (T' := RootCircuit (srcT q)) (totRc q) (f := cleanupSource) (f' := cleanupT) (eq := rcEq) (eq' := rcEq)
    (fun x => cleanupT_totRc x) (fun x y => rcEq_recast (L := source E) x y) fuel (detectChains rc) (.identity (inputSize rc))
  rw [h] at hm
  rw [← detectChains_totRc] at hm
  have hP : ValidT (detectChains (totRc q rc)) := ⟨by rw [v]; show (rc.recast _ _).vertices.Nodup; rw [recast_vertices]; exact hk, w⟩
  obtain ⟨_, hg⟩ := optimize_good sameEval_preord (cleanupT_passOk hq) eqOk_validT fuel (detectChains (totRc q rc)) hP (.identity (inputSize rc))
    (by rw [hsz]; rfl) (InputMapping.identity_inRange _)
  have hgood := hg _ _ hm
  obtain ⟨ins2, m1, m2⟩ := hgood.sem ins ins (by
    exact InputMapping.Placed.mapInputs (InputMapping.identity_inRange (inputSize rc)) (InputMapping.identity_injective _)
      (InputMapping.identity_surjective _) (0 : F) (hl ▸ InputMapping.placed_identity ins))
  exact ⟨ins2, m1, fun outs b => (s ins outs b).trans (m2 outs b)⟩

end Verif.Compile
