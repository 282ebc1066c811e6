import Verif.Layered.Basic
import Mathlib.Data.List.Forall2

/-!
# Evaluation preserves relations that respect sums, products and custom gates
-/

set_option linter.unusedSectionVars false
set_option linter.unusedSimpArgs false

namespace Verif.Layered

open Verif.IR (Coef) 
open List (Forall₂)

variable {F R S : Type} [CommSemiring R] [CommSemiring S]

/-- If the first succeeds, so does the second, with related results. -/
def OptRel {A B : Type} (P : A → B → Prop) : Option A → Option B → Prop
  | none, _ => True
  | some a, some b => P a b
  | some _, none => False

/-- The relation respects the operations and the environments. -/
structure EnvRel (r : R → S → Prop) (V : LEnv F R) (W : LEnv F S) : Prop where
  zero : r 0 0
  one : r 1 1
  add : ∀ {a b c d}, r a c → r b d → r (a + b) (c + d)
  mul : ∀ {a b c d}, r a c → r b d → r (a * b) (c * d)
  const : ∀ c, r (V.const c) (W.const c)
  pub : ∀ i, OptRel r (V.pub i) (W.pub i)
  custom : ∀ t {vs ws}, Forall₂ r vs ws → r (V.custom t vs) (W.custom t ws)

variable {r : R → S → Prop} {V : LEnv F R} {W : LEnv F S}

/-- Related states: buffers and tapes. -/
def StRel (r : R → S → Prop) (a : List R × (Nat → R)) (b : List S × (Nat → S)) : Prop := Forall₂ r a.1 b.1 ∧ ∀ i, r (a.2 i) (b.2 i)

theorem draw_rel (h : EnvRel r V W) (c : Coef F) {t : Nat → R} {u : Nat → S} (ht : ∀ i, r (t i) (u i)) :
    OptRel (fun a b => r a.1 b.1 ∧ ∀ i, r (a.2 i) (b.2 i)) (draw V c t) (draw W c u) := by
  cases c with
  | const c => exact ⟨h.const c, ht⟩
  | random => exact ⟨ht 0, fun i => ht (i + 1)⟩
  | pub i =>
    have := h.pub i
    simp only [draw]
    cases hv : V.pub i <;> cases hw : W.pub i <;> rw [hv, hw] at this
    · trivial
    · trivial
    · exact this.elim
    · exact ⟨this, ht⟩

theorem getElem?_rel {A B : Type} {P : A → B → Prop} {l : List A} {m : List B} (h : Forall₂ P l m) (i : Nat) : OptRel P l[i]? m[i]? := by
  induction h generalizing i with
  | nil => simp [OptRel]
  | cons h1 h2 ih =>
    cases i with
    | zero => simpa [OptRel] using h1
    | succ i => simpa using ih i

theorem readInput_rel {cur : List (List R)} {cur' : List (List S)} (h : Forall₂ (Forall₂ r) cur cur') (i : Input) :
    OptRel r (readInput cur i) (readInput cur' i) := by
  have := getElem?_rel h i.layer
  unfold readInput
  cases h1 : cur[i.layer]? <;> cases h2 : cur'[i.layer]? <;> rw [h1, h2] at this
  · trivial
  · trivial
  · exact this.elim
  · exact getElem?_rel this i.offset

theorem mapOpt_rel {A B C : Type} {P : B → C → Prop} {f : A → Option B} {g : A → Option C} (h : ∀ a, OptRel P (f a) (g a)) (l : List A) :
    OptRel (Forall₂ P) (mapOpt f l) (mapOpt g l) := by
  induction l with
  | nil => exact .nil
  | cons a l ih =>
    have ha := h a
    simp only [mapOpt]
    cases h1 : f a <;> cases h2 : g a <;> rw [h1, h2] at ha
    · trivial
    · trivial
    · exact ha.elim
    · cases h3 : mapOpt f l <;> cases h4 : mapOpt g l <;> rw [h3, h4] at ih
      · trivial
      · trivial
      · exact ih.elim
      · exact .cons ha ih

theorem prod_rel (h : EnvRel r V W) {vs : List R} {ws : List S} (hv : Forall₂ r vs ws) : r vs.prod ws.prod := by
  induction hv with
  | nil => exact h.one
  | cons h1 _ ih => rw [List.prod_cons, List.prod_cons]; exact h.mul h1 ih

theorem gateVal_rel (h : EnvRel r V W) (g : Gate F) {vs : List R} {ws : List S} (hv : Forall₂ r vs ws) : r (gateVal V g vs) (gateVal W g ws) := by
  unfold gateVal
  cases g.typ with
  | none => exact prod_rel h hv
  | some t => exact h.custom t hv

theorem modify_rel (h : EnvRel r V W) {l : List R} {m : List S} (hl : Forall₂ r l m) {a : R} {b : S} (hab : r a b) (k : Nat) :
    Forall₂ r (l.modify k (· + a)) (m.modify k (· + b)) := by
  induction hl generalizing k with
  | nil => cases k <;> simp
  | cons h1 h2 ih =>
    cases k with
    | zero => simpa using ⟨h.add h1 hab, h2⟩
    | succ k => simpa using ⟨h1, ih k⟩

theorem stepGate_rel (h : EnvRel r V W) {cur : List (List R)} {cur' : List (List S)} (hc : Forall₂ (Forall₂ r) cur cur') (g : Gate F)
    {st : List R × (Nat → R)} {st' : List S × (Nat → S)} (hs : StRel r st st') : OptRel (StRel r) (stepGate V cur g st) (stepGate W cur' g st') := by
  have h1 := mapOpt_rel (readInput_rel hc) g.inputs
  have h2 := draw_rel h g.coef hs.2
  unfold stepGate
  cases e1 : mapOpt (readInput cur) g.inputs <;> cases e2 : mapOpt (readInput cur') g.inputs <;> rw [e1, e2] at h1
  · trivial
  · trivial
  · exact h1.elim
  · cases e3 : draw V g.coef st.2 <;> cases e4 : draw W g.coef st'.2 <;> rw [e3, e4] at h2
    · trivial
    · trivial
    · exact h2.elim
    · simp only
      rw [hs.1.length_eq]
      by_cases hl : g.output < st'.1.length
      · simp only [hl, if_true]
        exact ⟨modify_rel h hs.1 (h.mul (gateVal_rel h g h1) h2.1) _, h2.2⟩
      · simp only [hl, if_false]
        trivial

theorem sliceOf_rel {l : List R} {m : List S} (h : Forall₂ r l m) (off len : Nat) : OptRel (Forall₂ r) (sliceOf l off len) (sliceOf m off len) := by
  unfold sliceOf
  rw [h.length_eq]
  split
  · exact List.forall₂_take _ (List.forall₂_drop _ h)
  · trivial

theorem childIn_rel : ∀ {cur : List (List R)} {cur' : List (List S)}, Forall₂ (Forall₂ r) cur cur' → ∀ offs lens : List Nat,
    OptRel (Forall₂ (Forall₂ r)) (childIn cur offs lens) (childIn cur' offs lens) := by
  intro cur cur' h offs
  induction offs generalizing cur cur' with
  | nil => intro lens; simp [childIn, OptRel]
  | cons o offs ih =>
    intro lens
    cases lens with
    | nil => simp [childIn, OptRel]
    | cons n lens =>
      cases h with
      | nil => simp [childIn, OptRel]
      | cons h1 h2 =>
        have a := sliceOf_rel h1 o n
        have b := ih h2 lens
        simp only [childIn]
        rename_i l1 m1 l2 m2
        cases e1 : sliceOf l1 o n <;> cases e2 : sliceOf m1 o n <;> rw [e1, e2] at a
        · trivial
        · trivial
        · exact a.elim
        · cases e3 : childIn l2 offs lens <;> cases e4 : childIn m2 offs lens <;> rw [e3, e4] at b
          · trivial
          · trivial
          · exact b.elim
          · exact .cons a b

theorem applySeg_rel (h : EnvRel r V W) (segs : List (Segment F)) : ∀ (f : Nat) (s : Segment F) {cur : List (List R)} {cur' : List (List S)}
    {st : List R × (Nat → R)} {st' : List S × (Nat → S)}, Forall₂ (Forall₂ r) cur cur' → StRel r st st' →
    OptRel (StRel r) (applySeg V segs f s cur st) (applySeg W segs f s cur' st') := by
  intro f
  induction f with
  | zero => intros; trivial
  | succ f ih =>
    intro s cur cur' st st' hc hs
    simp only [applySeg]
    generalize s.ops = ops
    have step : ∀ op st st', StRel r st st' → OptRel (StRel r) (stepOp V segs (applySeg V segs f) cur op st) (stepOp W segs (applySeg W segs f) cur' op st') := by
      intro op st st' hs
      cases op with
      | gate g => exact stepGate_rel h hc g hs
      | look id =>
        simp only [stepOp]
        split
        · exact hs
        · trivial
      | child id a =>
        simp only [stepOp]
        cases segs[id]? with
        | none => trivial
        | some sub =>
          have h1 := childIn_rel hc a.inputOffset sub.numInputs
          simp only
          cases e1 : childIn cur a.inputOffset sub.numInputs <;> cases e2 : childIn cur' a.inputOffset sub.numInputs <;> rw [e1, e2] at h1
          · trivial
          · trivial
          · exact h1.elim
          · have h2 := sliceOf_rel hs.1 a.outputOffset sub.numOutputs
            simp only
            cases e3 : sliceOf st.1 a.outputOffset sub.numOutputs <;> cases e4 : sliceOf st'.1 a.outputOffset sub.numOutputs <;> rw [e3, e4] at h2
            · trivial
            · trivial
            · exact h2.elim
            · rename_i i1 i2 o1 o2
              have h3 := ih sub (st := (o1, st.2)) (st' := (o2, st'.2)) h1 ⟨h2, hs.2⟩
              simp only
              cases e5 : applySeg V segs f sub i1 (o1, st.2) <;> cases e6 : applySeg W segs f sub i2 (o2, st'.2) <;> rw [e5, e6] at h3
              · trivial
              · trivial
              · exact h3.elim
              · exact ⟨List.rel_append (List.rel_append (List.forall₂_take _ hs.1) h3.1) (List.forall₂_drop _ hs.1), h3.2⟩
    induction ops generalizing st st' with
    | nil => exact hs
    | cons op ops ih2 =>
      have h1 := step op _ _ hs
      simp only [runOps]
      cases e1 : stepOp V segs (applySeg V segs f) cur op st <;> cases e2 : stepOp W segs (applySeg W segs f) cur' op st' <;> rw [e1, e2] at h1
      · trivial
      · trivial
      · exact h1.elim
      · exact ih2 h1

theorem replicate_rel {a : R} {b : S} (h : r a b) (n : Nat) : Forall₂ r (List.replicate n a) (List.replicate n b) := by
  induction n with
  | zero => exact .nil
  | succ n ih => exact .cons h ih

theorem runLayers_rel (h : EnvRel r V W) (segs : List (Segment F)) : ∀ (ids : List Nat) {hist : List (List R)} {hist' : List (List S)}
    {t : Nat → R} {u : Nat → S}, Forall₂ (Forall₂ r) hist hist' → (∀ i, r (t i) (u i)) →
    OptRel (Forall₂ (Forall₂ r)) (runLayers V segs ids hist t) (runLayers W segs ids hist' u) := by
  intro ids
  induction ids with
  | nil => intro hist hist' t u hh _; exact hh
  | cons id ids ih =>
    intro hist hist' t u hh ht
    simp only [runLayers]
    cases segs[id]? with
    | none => trivial
    | some s =>
      simp only
      rw [hh.length_eq]
      by_cases hl : s.numInputs.length ≤ hist'.length
      · simp only [hl, if_true]
        have h1 := applySeg_rel h segs (segs.length + 1) s (List.forall₂_take s.numInputs.length hh)
          (st := (List.replicate s.numOutputs 0, t)) (st' := (List.replicate s.numOutputs 0, u)) ⟨replicate_rel h.zero _, ht⟩
        cases e1 : applySeg V segs (segs.length + 1) s (hist.take s.numInputs.length) (List.replicate s.numOutputs 0, t) <;>
          cases e2 : applySeg W segs (segs.length + 1) s (hist'.take s.numInputs.length) (List.replicate s.numOutputs 0, u) <;> rw [e1, e2] at h1
        · trivial
        · trivial
        · exact h1.elim
        · exact ih (.cons h1.1 hh) h1.2
      · simp only [hl, if_false]
        trivial

/-- Related inputs and tapes give related outputs and related values that must vanish. -/
theorem evalRaw_rel (h : EnvRel r V W) (c : Circuit F) {ins : List R} {ins' : List S} {t : Nat → R} {u : Nat → S} (hi : Forall₂ r ins ins')
    (ht : ∀ i, r (t i) (u i)) : OptRel (fun a b => Forall₂ r a.1 b.1 ∧ Forall₂ r a.2 b.2) (c.evalRaw V ins t) (c.evalRaw W ins' u) := by
  have h1 : OptRel (Forall₂ (Forall₂ r)) (c.wires V ins t) (c.wires W ins' u) := by
    unfold Circuit.wires
    rw [hi.length_eq]
    split
    · exact runLayers_rel h c.segments c.layerIds (.cons hi .nil) ht
    · trivial
  unfold Circuit.evalRaw
  cases e1 : c.wires V ins t <;> cases e2 : c.wires W ins' u <;> rw [e1, e2] at h1
  · trivial
  · trivial
  · exact h1.elim
  · simp only
    cases h1 with
    | nil => trivial
    | cons h2 h3 =>
      simp only [rangeOf]
      rw [h2.length_eq]
      rename_i l1 m1 l2 m2
      by_cases hr : c.expectedNumOutputZeroes ≤ c.numActualOutputs ∧ c.numActualOutputs ≤ m1.length
      · rw [if_pos hr, if_pos hr]
        exact ⟨List.forall₂_drop _ (List.forall₂_take _ h2), List.forall₂_take _ h2⟩
      · rw [if_neg hr, if_neg hr]
        trivial

end Verif.Layered
