import Verif.Props.C21

/-!
# `optimize_until_fixed_point` (compile/mod.rs:59-77)
-/

namespace Verif.Compile

/-- Outcome of a loop that is run for a bounded number of rounds. -/
inductive Loop (α : Type)
  | done (a : α)
  | panic
  | running

variable {T : Type}

/-- The `loop` (compile/mod.rs:69-76); `fuel` rounds.  `eq` is `==`. -/
def optLoop (eq : T → T → Bool) (f : T → Option (T × InputMapping)) : Nat → T → InputMapping → Loop (T × InputMapping)
  | 0, _, _ => .running
  | n + 1, y, im => match f y with
    | none => .panic
    | some (z, imz) =>
      if eq y z then .done (y, im)
      else match im.composeInPlace imz with
        | none => .panic
        | some im' => optLoop eq f n z im'

/-- `optimize_until_fixed_point` (compile/mod.rs:59-77). -/
def optimizeUntilFixedPoint (eq : T → T → Bool) (f : T → Option (T × InputMapping)) (fuel : Nat) (x : T) (im : InputMapping) :
    Loop (T × InputMapping) :=
  match f x with
  | none => .panic
  | some (y, imy) =>
    if eq x y then .done (y, im)
    else match im.composeInPlace imy with
      | none => .panic
      | some im' => optLoop eq f fuel y im'

/-- A preorder on (object, input vector) pairs: "the second behaves like the first". -/
structure Preord {α : Type} (rel : T → List α → T → List α → Prop) : Prop where
  refl : ∀ x i, rel x i x i
  trans : ∀ {x i y j z k}, rel x i y j → rel y j z k → rel x i z k

/-- What a meaning-preserving pass satisfies: on objects satisfying the invariant it does not panic, keeps the invariant, and
returns a mapping from the inputs of the old object to those of the new one, such that the new object behaves on the mapped
inputs like the old one on the original inputs. -/
def PassOk {α : Type} (d : α) (P : T → Prop) (sz : T → Nat) (rel : T → List α → T → List α → Prop)
    (f : T → Option (T × InputMapping)) : Prop :=
  ∀ x, P x → ∃ y im, f x = some (y, im) ∧ P y ∧ im.curSize = sz x ∧ im.nextSize = sz y ∧ im.InRange ∧ im.Injective ∧
    ∀ ins : List α, ins.length = sz x → ∃ ins', im.mapInputs d ins = some ins' ∧ rel x ins y ins'

/-- Equality means equal behaviour. -/
def EqOk {α : Type} (P : T → Prop) (sz : T → Nat) (rel : T → List α → T → List α → Prop) (eq : T → T → Bool) : Prop :=
  ∀ x y, P x → P y → eq x y = true → sz x = sz y ∧ ∀ ins, rel x ins y ins

/-- The result relates to the start: `im0` maps the caller's inputs to the inputs of `x`, `im` to those of `y`. -/
structure Good {α : Type} (d : α) (P : T → Prop) (sz : T → Nat) (rel : T → List α → T → List α → Prop)
    (x : T) (im0 : InputMapping) (y : T) (im : InputMapping) : Prop where
  inv : P y
  cur : im.curSize = im0.curSize
  next : im.nextSize = sz y
  range : im.InRange
  inj : im0.Injective → im.Injective
  sem : ∀ ins ins1, im0.mapInputs d ins = some ins1 → ∃ ins2, im.mapInputs d ins = some ins2 ∧ rel x ins1 y ins2

variable {α : Type} {d : α} {P : T → Prop} {sz : T → Nat} {rel : T → List α → T → List α → Prop}
  {f : T → Option (T × InputMapping)} {eq : T → T → Bool}

theorem mapInputs_length {m : InputMapping} (hr : m.InRange) {xs ys : List α} (h : m.mapInputs d xs = some ys) :
    xs.length = m.curSize ∧ ys.length = m.nextSize := by
  by_cases hl : xs.length = m.curSize
  · obtain ⟨r, h1, h2, _⟩ := InputMapping.mapInputs_spec m d xs hr hl
    rw [h1] at h; cases h; exact ⟨hl, h2⟩
  · rw [Verif.Props.C21_wrong_length m d xs hl] at h; cases h

theorem Good.step (hrel : Preord rel) {x y z : T} {im0 im imz : InputMapping} (h : Good d P sz rel x im0 y im)
    (hz : P z) (h1 : imz.curSize = sz y) (h2 : imz.nextSize = sz z) (h3 : imz.InRange) (h4 : imz.Injective)
    (h5 : ∀ ins : List α, ins.length = sz y → ∃ ins', imz.mapInputs d ins = some ins' ∧ rel y ins z ins') :
    ∃ im', im.composeInPlace imz = some im' ∧ Good d P sz rel x im0 z im' := by
  have hs : im.nextSize = imz.curSize := by rw [h.next, h1]
  obtain ⟨im', hc, hc1, hc2, _⟩ := InputMapping.compose_isSome im imz h.range hs
  refine ⟨im', hc, hz, hc2.trans h.cur, hc1.trans h2, InputMapping.compose_inRange h.range hs h3 hc,
    fun h0 => InputMapping.compose_injective h.range hs (h.inj h0) h4 hc, ?_⟩
  intro ins ins1 hm
  obtain ⟨ins2, hm2, hr2⟩ := h.sem ins ins1 hm
  have hl := mapInputs_length h.range hm2
  obtain ⟨c, ys, zs, e1, e2, e3, e4⟩ := Verif.Props.C21_compose im imz d ins h.range h3 h4 hs hl.1
  rw [hc] at e1; cases e1
  rw [hm2] at e2; cases e2
  obtain ⟨ins3, hm3, hr3⟩ := h5 ins2 (by rw [hl.2, h.next])
  rw [hm3] at e3; cases e3
  exact ⟨_, e4, hrel.trans hr2 hr3⟩

theorem optLoop_good (hrel : Preord rel) (hf : PassOk d P sz rel f) {x : T} {im0 : InputMapping} :
    ∀ (fuel : Nat) (y : T) (im : InputMapping), Good d P sz rel x im0 y im →
      optLoop eq f fuel y im ≠ .panic ∧
      ∀ z imz, optLoop eq f fuel y im = .done (z, imz) → Good d P sz rel x im0 z imz := by
  intro fuel
  induction fuel with
  | zero => intro y im _; simp [optLoop]
  | succ n ih =>
    intro y im h
    obtain ⟨z, imz, hfz, hz, h1, h2, h3, h4, h5⟩ := hf y h.inv
    simp only [optLoop, hfz]
    by_cases he : eq y z = true
    · simp only [he, if_true]
      refine ⟨by simp, fun z' im' e => ?_⟩
      simp only [Loop.done.injEq, Prod.mk.injEq] at e
      obtain ⟨rfl, rfl⟩ := e
      exact h
    · obtain ⟨im', hc, hg⟩ := h.step hrel hz h1 h2 h3 h4 h5
      simp only [he, Bool.false_eq_true, if_false, hc]
      exact ih z im' hg

/-- The optimiser never panics, and whatever it returns (after any number of rounds) is good. -/
theorem optimize_good (hrel : Preord rel) (hf : PassOk d P sz rel f) (he : EqOk P sz rel eq) (fuel : Nat) (x : T) (hx : P x)
    (im0 : InputMapping) (hn : im0.nextSize = sz x) (hr : im0.InRange) :
    optimizeUntilFixedPoint eq f fuel x im0 ≠ .panic ∧
    ∀ y im, optimizeUntilFixedPoint eq f fuel x im0 = .done (y, im) → Good d P sz rel x im0 y im := by
  have h0 : Good d P sz rel x im0 x im0 := ⟨hx, rfl, hn, hr, id, fun ins i1 h => ⟨i1, h, hrel.refl _ _⟩⟩
  obtain ⟨y, imy, hfy, hy, h1, h2, h3, h4, h5⟩ := hf x hx
  simp only [optimizeUntilFixedPoint, hfy]
  by_cases hxy : eq x y = true
  · simp only [hxy, if_true]
    refine ⟨by simp, fun y' im' e => ?_⟩
    simp only [Loop.done.injEq, Prod.mk.injEq] at e
    obtain ⟨rfl, rfl⟩ := e
    obtain ⟨e1, e2⟩ := he x y hx hy hxy
    exact ⟨hy, rfl, hn.trans e1, hr, id, fun ins i1 h => ⟨i1, h, e2 i1⟩⟩
  · obtain ⟨im', hc, hg⟩ := h0.step hrel hy h1 h2 h3 h4 h5
    simp only [hxy, Bool.false_eq_true, if_false, hc]
    exact optLoop_good hrel hf fuel y im' hg

end Verif.Compile
