import Verif.Compile.Pipeline

/-!
# Passes and input mappings

How a pass together with the accumulated input mapping relates the circuits before and after it.
-/

set_option linter.unusedSectionVars false
set_option linter.unusedSimpArgs false

namespace Verif.Compile

open Verif.IR Verif.IR.HintExport

variable {F : Type} [Field F] [DecidableEq F] {L : Lang F}

/-- The mapping goes from `n0` inputs to `n` inputs, keeps different inputs apart and fills every input. -/
structure MapOk (n0 : Nat) (m : InputMapping) (n : Nat) : Prop where
  cur : m.curSize = n0
  next : m.nextSize = n
  range : m.InRange
  inj : m.Injective
  surj : m.Surjective

theorem mapOk_identity (n : Nat) : MapOk n (.identity n) n :=
  ⟨by simp [InputMapping.identity, InputMapping.curSize], rfl, InputMapping.identity_inRange n, InputMapping.identity_injective n, InputMapping.identity_surjective n⟩

/-- Placing by the second mapping is placing by the first one followed by `R`. -/
def Factor (m m' : InputMapping) (R : List F → List F → Prop) : Prop := ∀ a c, m'.Placed a c → ∃ b, m.Placed a b ∧ R b c

theorem Factor.mono {m m' : InputMapping} {R R' : List F → List F → Prop} (h : Factor m m' R) (hr : ∀ b c, R b c → R' b c) : Factor m m' R' :=
  fun a c hp => let ⟨b, h1, h2⟩ := h a c hp; ⟨b, h1, hr _ _ h2⟩

section loops
variable {T : Type} {f : T → Option (T × InputMapping)} {eq : T → T → Bool} {P : T → Prop} {sz : T → Nat} {rel : T → List F → T → List F → Prop}

theorem factor_optimize (hrel : Preord rel) (hf : PassOk (0 : F) P sz rel f) (he : EqOk P sz rel eq) (hs : ∀ {x y im}, f x = some (y, im) → im.Surjective) {fuel n0 : Nat}
    {x y : T} {im0 im : InputMapping} (hx : P x) (hm : MapOk n0 im0 (sz x)) (h : optimizeUntilFixedPoint eq f fuel x im0 = .done (y, im)) :
    P y ∧ MapOk n0 im (sz y) ∧ Factor im0 im (fun b c => rel x b y c) := by
  obtain ⟨_, hg⟩ := optimize_good hrel hf he fuel x hx im0 hm.next hm.range
  have g := hg _ _ h
  have hsj := optimize_surj hf hs hx hm.next hm.range hm.surj h
  have hm' : MapOk n0 im (sz y) := ⟨g.cur.trans hm.cur, g.next, g.range, g.inj hm.inj, hsj⟩
  refine ⟨g.inv, hm', fun a c hp => ?_⟩
  obtain ⟨b, hb, hb2⟩ := InputMapping.mapInputs_placed hm.range hm.inj (0 : F) (xs := a) (by rw [hp.cur, g.cur])
  obtain ⟨c', hc', hr⟩ := g.sem a b hb
  rw [hp.mapInputs g.range (g.inj hm.inj) hsj (0 : F)] at hc'
  cases hc'
  exact ⟨b, hb2, hr⟩

theorem factor_compose (hf : PassOk (0 : F) P sz rel f) (hs : ∀ {x y im}, f x = some (y, im) → im.Surjective) {n0 : Nat} {x y : T} {im0 im1 im : InputMapping} (hx : P x)
    (hm : MapOk n0 im0 (sz x)) (h : f x = some (y, im1)) (hc : im0.composeInPlace im1 = some im) :
    P y ∧ MapOk n0 im (sz y) ∧ Factor im0 im (fun b c => rel x b y c) := by
  obtain ⟨y', imy, e, hy, h1, h2, h3, h4, h5⟩ := hf x hx
  rw [h] at e; cases e
  have hc' : im0.compose im1 = some im := hc
  have hsz : im0.nextSize = im1.curSize := by rw [hm.next, h1]
  obtain ⟨im', e', c1, c2, _⟩ := InputMapping.compose_isSome im0 im1 hm.range hsz
  rw [hc'] at e'; cases e'
  refine ⟨hy, ⟨c2.trans hm.cur, c1.trans h2, InputMapping.compose_inRange hm.range hsz h3 hc', InputMapping.compose_injective hm.range hsz hm.inj h4 hc',
    InputMapping.compose_surjective hm.range hsz hc' hm.surj (hs h)⟩, fun a c hp => ?_⟩
  obtain ⟨b, _, hb1, hb2⟩ := InputMapping.Placed.decompose hm.range hm.inj hm.surj hsz hc' (0 : F) hp
  obtain ⟨c', e', hr⟩ := h5 b (hb2.cur.trans h1)
  rw [hb2.mapInputs h3 h4 (hs h) (0 : F)] at e'
  cases e'
  exact ⟨b, hb1, hr⟩
end loops

theorem checked_some {rc rc' : RootCircuit L} : checked rc = some rc' ↔ rc' = rc ∧ rc.validate = true := by
  unfold checked
  split
  · rename_i h; simp [h, eq_comm]
  · rename_i h; simp [h]

theorem toOption_some {α : Type} {l : Loop α} {a : α} : l.toOption = some a ↔ l = .done a := by
  cases l <;> simp [Loop.toOption]

theorem outcomeOption_some {α : Type} {l : Builder.Outcome α} {a : α} : outcomeOption l = some a ↔ l = .ok a := by
  cases l <;> simp [outcomeOption]

theorem pruneOnce_some {rc rc' : RootCircuit L} {im im' : InputMapping} : pruneOnce rc im = some (rc', im') ↔
    ∃ m, removeUnreachable rc = some (rc', m) ∧ im.composeInPlace m = some im' := by
  unfold pruneOnce
  cases removeUnreachable rc with
  | none => simp
  | some p =>
    obtain ⟨r, m⟩ := p
    simp only [Option.map_eq_some_iff, Prod.mk.injEq, Option.some.injEq]
    constructor
    · rintro ⟨a, h, rfl, rfl⟩; exact ⟨m, ⟨rfl, rfl⟩, h⟩
    · rintro ⟨_, ⟨rfl, rfl⟩, h⟩; exact ⟨_, h, rfl, rfl⟩

/-! ### A pass changes the text as described by `DerivedRc` -/

theorem removeUnreachable_fwd (hL : L.Lawful) {Q : RootCircuit L → Prop} (hq : Fwd Q) {x y : RootCircuit L} {im : InputMapping} (h : removeUnreachable x = some (y, im)) (hx : Q x) : Q y :=
  hq (removeUnreachable_derived hL h) hx

/-- Facts carried forward by `tidy`. -/
theorem tidy_fwd [DecidableEq L.Insn] [DecidableEq L.Con] (hL : L.Lawful) {Q : RootCircuit L → Prop} (hq : Fwd Q) {opt fuel : Nat} {x y : RootCircuit L} {im im' : InputMapping}
    (h : tidy opt fuel x im = some (y, im')) (hx : Q x) : Q y := by
  unfold tidy at h
  split at h
  · exact optimize_fwd (fun hf hx => cleanup_fwd hL hq hf hx) (toOption_some.1 h) hx
  · split at h
    · obtain ⟨m, h1, _⟩ := pruneOnce_some.1 h
      exact removeUnreachable_fwd hL hq h1 hx
    · cases h; exact hx

/-- Conditions on the root go back through `tidy`. -/
theorem tidy_rootOk [DecidableEq L.Insn] [DecidableEq L.Con] (hL : L.Lawful) {opt fuel : Nat} {x y : RootCircuit L} {im im' : InputMapping}
    (h : tidy opt fuel x im = some (y, im')) (hy : RootOk y) : RootOk x := by
  unfold tidy at h
  split at h
  · exact optimize_back (fun hf hy => cleanup_rootOk hL hf hy) (toOption_some.1 h) hy
  · split at h
    · obtain ⟨m, h1, _⟩ := pruneOnce_some.1 h
      exact (removeUnreachable_derived hL h1).rootOk hL hy
    · cases h; exact hy

theorem npi_fwd (n : Nat) : Fwd (fun rc : RootCircuit L => rc.numPublicInputs = n) := fun hd hx => hd.npi.trans hx

theorem valid_of {rc : RootCircuit L} (hk : rc.vertices.Nodup) (hv : rc.validate = true) : Valid rc := ⟨hk, (validate_iff rc hk).1 hv⟩

theorem rootOk_of_wf {npi : Option Nat} {rc : RootCircuit L} (h : WFAt npi rc) : RootOk rc := h.root

/-- `tidy` in a language whose instructions have outcomes. -/
theorem tidy_factor [DecidableEq L.Insn] [DecidableEq L.Con] (hL : L.Lawful) (ho : ReassignOk L) (hT : L.Total) {opt fuel n0 : Nat} {x y : RootCircuit L} {im0 im : InputMapping} (hx : Valid x)
    (hm : MapOk n0 im0 (inputSize x)) (h : tidy opt fuel x im0 = some (y, im)) :
    Valid y ∧ MapOk n0 im (inputSize y) ∧ Factor im0 im (fun b c => SameEval x b y c) := by
  unfold tidy at h
  split at h
  · exact factor_optimize sameEval_preord (cleanup_passOk hL ho hT) eqOk_valid (fun h => cleanup_surj h) hx hm (toOption_some.1 h)
  · split at h
    · obtain ⟨m, h1, h2⟩ := pruneOnce_some.1 h
      exact factor_compose (removeUnreachable_passOk hL hT) (fun h => removeUnreachable_surj h) hx hm h1 h2
    · cases h
      exact ⟨hx, hm, fun a c hp => ⟨c, hp, fun _ _ => Iff.rfl⟩⟩

end Verif.Compile
