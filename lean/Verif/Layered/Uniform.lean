import Verif.Layered.Basic

/-!
# Whether evaluation succeeds does not depend on the values

Evaluation of a layered circuit fails (out-of-range access, missing public input) for all input values and random coefficients, or for none.
-/

set_option linter.unusedSectionVars false

namespace Verif.Layered

variable {F R : Type} [CommRing R]

/-- Both fail, or both succeed with vectors of the same length. -/
def SameShape (a b : Option (List R × (Nat → R))) : Prop :=
  (a = none ∧ b = none) ∨ ∃ x t y u, a = some (x, t) ∧ b = some (y, u) ∧ x.length = y.length

theorem readInput_shape {cur cur' : List (List R)} (h : cur.map List.length = cur'.map List.length) (i : Input) :
    (readInput cur i).isSome = (readInput cur' i).isSome := by
  unfold readInput
  have := congrArg (fun l : List Nat => l[i.layer]?) h
  simp only [List.getElem?_map] at this
  cases h1 : cur[i.layer]? with
  | none => rw [h1] at this; cases h2 : cur'[i.layer]? with
    | none => rfl
    | some y => rw [h2] at this; cases this
  | some x =>
    rw [h1] at this
    cases h2 : cur'[i.layer]? with
    | none => rw [h2] at this; cases this
    | some y =>
      rw [h2] at this
      simp only [Option.map_some, Option.some.injEq] at this
      simp only [Option.bind_some]
      by_cases hh : i.offset < x.length
      · rw [List.getElem?_eq_getElem hh, List.getElem?_eq_getElem (by omega)]; rfl
      · rw [List.getElem?_eq_none (by omega), List.getElem?_eq_none (by omega)]

theorem mapOpt_isSome_congr {α β : Type} {f g : α → Option β} : ∀ (l : List α), (∀ a ∈ l, (f a).isSome = (g a).isSome) → (mapOpt f l).isSome = (mapOpt g l).isSome
  | [], _ => rfl
  | a :: l, h => by
    have h1 := h a (by simp)
    have h2 := mapOpt_isSome_congr l fun b hb => h b (by simp [hb])
    simp only [mapOpt]
    cases hf : f a <;> cases hg : g a <;> simp_all
    cases hf' : mapOpt f l <;> cases hg' : mapOpt g l <;> simp_all

theorem draw_shape (V : LEnv F R) (c : Verif.IR.Coef F) (t u : Nat → R) : (draw V c t).isSome = (draw V c u).isSome := by
  cases c <;> simp [draw]

theorem stepGate_shape (V : LEnv F R) {cur cur' : List (List R)} (h : cur.map List.length = cur'.map List.length) (g : Gate F) {st st' : List R × (Nat → R)}
    (hl : st.1.length = st'.1.length) : SameShape (stepGate V cur g st) (stepGate V cur' g st') := by
  have h1 := mapOpt_isSome_congr (f := readInput cur) (g := readInput cur') g.inputs fun i _ => readInput_shape h i
  have h2 := draw_shape V g.coef st.2 st'.2
  unfold stepGate
  cases ha : mapOpt (readInput cur) g.inputs with
  | none =>
    cases hb : mapOpt (readInput cur') g.inputs with
    | none => exact .inl ⟨rfl, rfl⟩
    | some y => rw [ha, hb] at h1; cases h1
  | some x =>
    cases hb : mapOpt (readInput cur') g.inputs with
    | none => rw [ha, hb] at h1; cases h1
    | some y =>
      cases hc : draw V g.coef st.2 with
      | none =>
        cases hd : draw V g.coef st'.2 with
        | none => exact .inl ⟨rfl, rfl⟩
        | some p => rw [hc, hd] at h2; cases h2
      | some q =>
        cases hd : draw V g.coef st'.2 with
        | none => rw [hc, hd] at h2; cases h2
        | some p =>
          dsimp only
          by_cases ho : g.output < st.1.length
          · rw [if_pos ho, if_pos (by omega)]
            exact .inr ⟨_, _, _, _, rfl, rfl, by simp [hl]⟩
          · rw [if_neg ho, if_neg (by omega)]
            exact .inl ⟨rfl, rfl⟩

theorem sliceOf_shape {l l' : List R} (h : l.length = l'.length) (off len : Nat) :
    (sliceOf l off len = none ∧ sliceOf l' off len = none) ∨ ∃ x y, sliceOf l off len = some x ∧ sliceOf l' off len = some y ∧ x.length = y.length := by
  unfold sliceOf
  by_cases ho : off + len ≤ l.length
  · rw [if_pos ho, if_pos (by omega)]
    exact .inr ⟨_, _, rfl, rfl, by simp [h]⟩
  · rw [if_neg ho, if_neg (by omega)]
    exact .inl ⟨rfl, rfl⟩

theorem childIn_shape : ∀ {cur cur' : List (List R)} (offs lens : List Nat), cur.map List.length = cur'.map List.length →
    (childIn cur offs lens = none ∧ childIn cur' offs lens = none) ∨
      ∃ x y, childIn cur offs lens = some x ∧ childIn cur' offs lens = some y ∧ x.map List.length = y.map List.length := by
  intro cur cur' offs
  induction offs generalizing cur cur' with
  | nil => intro lens _; exact .inr ⟨[], [], by simp [childIn], by simp [childIn], rfl⟩
  | cons off offs ih =>
    intro lens h
    cases lens with
    | nil => exact .inr ⟨[], [], by simp [childIn], by simp [childIn], rfl⟩
    | cons len lens =>
      cases cur with
      | nil =>
        cases cur' with
        | nil => exact .inl ⟨by simp [childIn], by simp [childIn]⟩
        | cons => cases h
      | cons c cs =>
        cases cur' with
        | nil => cases h
        | cons c' cs' =>
          simp only [List.map_cons, List.cons.injEq] at h
          rcases sliceOf_shape h.1 off len with ⟨e1, e2⟩ | ⟨x, y, e1, e2, e3⟩
          · exact .inl ⟨by simp [childIn, e1], by simp [childIn, e2]⟩
          · rcases ih lens h.2 with ⟨g1, g2⟩ | ⟨u, v, g1, g2, g3⟩
            · exact .inl ⟨by simp [childIn, g1], by simp [childIn, g2]⟩
            · exact .inr ⟨x :: u, y :: v, by simp [childIn, g1, e1], by simp [childIn, g2, e2], by simp [e3, g3]⟩

theorem runOps_shape {step step' : Op F → (List R × (Nat → R)) → Option (List R × (Nat → R))} : ∀ (ops : List (Op F)) (st st' : List R × (Nat → R)),
    (∀ op ∈ ops, ∀ st st' : List R × (Nat → R), st.1.length = st'.1.length → SameShape (step op st) (step' op st')) → st.1.length = st'.1.length →
    SameShape (runOps step ops st) (runOps step' ops st')
  | [], st, st', _, hl => .inr ⟨st.1, st.2, st'.1, st'.2, rfl, rfl, hl⟩
  | op :: ops, st, st', h, hl => by
    simp only [runOps]
    rcases h op (by simp) st st' hl with ⟨e1, e2⟩ | ⟨x, t, y, u, e1, e2, e3⟩
    · rw [e1, e2]; exact .inl ⟨rfl, rfl⟩
    · rw [e1, e2]
      exact runOps_shape ops (x, t) (y, u) (fun o ho => h o (by simp [ho])) e3

theorem applySeg_shape (V : LEnv F R) (segs : List (Segment F)) : ∀ (f : Nat) (s : Segment F) (cur cur' : List (List R)) (st st' : List R × (Nat → R)),
    cur.map List.length = cur'.map List.length → st.1.length = st'.1.length → SameShape (applySeg V segs f s cur st) (applySeg V segs f s cur' st')
  | 0, _, _, _, _, _, _, _ => .inl ⟨rfl, rfl⟩
  | f + 1, s, cur, cur', st, st', hc, hl => by
    unfold applySeg
    refine runOps_shape _ _ _ ?_ hl
    intro op _ st st' hl
    cases op with
    | gate g => exact stepGate_shape V hc g hl
    | look id =>
      unfold stepOp
      dsimp only
      split
      · exact .inr ⟨st.1, st.2, st'.1, st'.2, rfl, rfl, hl⟩
      · exact .inl ⟨rfl, rfl⟩
    | child id a =>
      unfold stepOp
      dsimp only
      cases hs : segs[id]? with
      | none => exact .inl ⟨rfl, rfl⟩
      | some sub =>
        dsimp only
        rcases childIn_shape a.inputOffset sub.numInputs hc with ⟨e1, e2⟩ | ⟨x, y, e1, e2, e3⟩
        · rw [e1, e2]; exact .inl ⟨rfl, rfl⟩
        · rw [e1, e2]
          dsimp only
          rcases sliceOf_shape hl a.outputOffset sub.numOutputs with ⟨g1, g2⟩ | ⟨u, v, g1, g2, g3⟩
          · rw [g1, g2]; exact .inl ⟨rfl, rfl⟩
          · rw [g1, g2]
            dsimp only
            rcases applySeg_shape V segs f sub x y (u, st.2) (v, st'.2) e3 g3 with ⟨k1, k2⟩ | ⟨p, t, q, w, k1, k2, k3⟩
            · rw [k1, k2]; exact .inl ⟨rfl, rfl⟩
            · rw [k1, k2]
              exact .inr ⟨_, _, _, _, rfl, rfl, by simp [k3, hl]⟩

theorem runLayers_shape (V : LEnv F R) (segs : List (Segment F)) : ∀ (ids : List Nat) (h h' : List (List R)) (t u : Nat → R), h.map List.length = h'.map List.length →
    (runLayers V segs ids h t = none ∧ runLayers V segs ids h' u = none) ∨
      ∃ x y, runLayers V segs ids h t = some x ∧ runLayers V segs ids h' u = some y ∧ x.map List.length = y.map List.length
  | [], h, h', _, _, e => .inr ⟨h, h', rfl, rfl, e⟩
  | id :: ids, h, h', t, u, e => by
    have hlen : h.length = h'.length := by simpa using congrArg List.length e
    simp only [runLayers]
    cases hs : segs[id]? with
    | none => exact .inl ⟨rfl, rfl⟩
    | some s =>
      dsimp only
      by_cases hn : s.numInputs.length ≤ h.length
      · rw [if_pos hn, if_pos (by omega)]
        rcases applySeg_shape V segs (segs.length + 1) s (h.take s.numInputs.length) (h'.take s.numInputs.length) (List.replicate s.numOutputs 0, t)
          (List.replicate s.numOutputs 0, u) (by rw [List.map_take, List.map_take, e]) rfl with ⟨k1, k2⟩ | ⟨p, t', q, w, k1, k2, k3⟩
        · rw [k1, k2]; exact .inl ⟨rfl, rfl⟩
        · rw [k1, k2]
          exact runLayers_shape V segs ids (p :: h) (q :: h') t' w (by simp [k3, e])
      · rw [if_neg hn, if_neg (by omega)]
        exact .inl ⟨rfl, rfl⟩

/-- If evaluation succeeds once, it succeeds for all inputs of that length and all random coefficients. -/
theorem eval_uniform [DecidableEq R] {V : LEnv F R} {c : Circuit F} {ins ins' : List R} {tape : Nat → R} {o : List R × Bool}
    (h : c.eval V ins tape = some o) (hl : ins.length = ins'.length) (tape' : Nat → R) : ∃ outs b, c.eval V ins' tape' = some (outs, b) := by
  unfold Circuit.eval Circuit.evalRaw Circuit.wires at *
  by_cases hi : c.inputSize = some ins.length
  · rw [if_pos hi] at h
    rw [if_pos (by rw [← hl]; exact hi)]
    rcases runLayers_shape V c.segments c.layerIds [ins] [ins'] tape tape' (by simp [hl]) with ⟨k1, k2⟩ | ⟨x, y, k1, k2, k3⟩
    · rw [k1] at h; cases h
    · rw [k1] at h; rw [k2]
      cases x with
      | nil => cases h
      | cons x xs =>
        cases y with
        | nil => cases k3
        | cons y ys =>
          simp only [List.map_cons, List.cons.injEq] at k3
          dsimp only at h ⊢
          unfold rangeOf at h ⊢
          by_cases hr : c.expectedNumOutputZeroes ≤ c.numActualOutputs ∧ c.numActualOutputs ≤ x.length
          · rw [if_pos (by omega)]
            exact ⟨_, _, rfl⟩
          · rw [if_neg hr] at h; cases h
  · rw [if_neg hi] at h; cases h

end Verif.Layered
