import Verif.Layered.Den
import Verif.Layered.Validate

/-!
# Well-formed layered circuits never panic; comparing circuits layer by layer
-/

set_option linter.unusedSectionVars false
set_option linter.unusedSimpArgs false

namespace Verif.Layered

open Verif.IR (Coef)
open scoped Pointwise

variable {F R : Type} [CommRing R]

/-- Every public input a gate mentions is available. -/
def PubsOk (V : LEnv F R) (segs : List (Segment F)) : Prop :=
  ∀ s ∈ segs, ∀ g ∈ s.allGates, ∀ i, g.coef = .pub i → (V.pub i).isSome

theorem draw_isSome {V : LEnv F R} {c : Coef F} (h : ∀ i, c = .pub i → (V.pub i).isSome) (tape : Nat → R) :
    ∃ v tape', draw V c tape = some (v, tape') := by
  cases c with
  | const c => exact ⟨_, _, rfl⟩
  | random => exact ⟨_, _, rfl⟩
  | pub i =>
    obtain ⟨v, hv⟩ := Option.isSome_iff_exists.1 (h i rfl)
    exact ⟨v, tape, by simp [draw, hv]⟩

theorem readInput_isSome {cur : List (List R)} {s : Segment F} (hcur : cur.map List.length = s.numInputs) {i : Input}
    (h : ∃ n, s.numInputs[i.layer]? = some n ∧ i.offset < n) : (readInput cur i).isSome := by
  obtain ⟨n, hn, hlt⟩ := h
  rw [← hcur, List.getElem?_map, Option.map_eq_some_iff] at hn
  obtain ⟨l, hl, rfl⟩ := hn
  simp [readInput, hl, hlt]

theorem childIn_isSome : ∀ {cur : List (List R)} {zs xs ys : List Nat}, cur.map List.length = zs → xs.length = ys.length → ys.length ≤ zs.length →
    (∀ (l x y z : Nat), xs[l]? = some x → ys[l]? = some y → zs[l]? = some z → x + y ≤ z) →
    ∃ ins, childIn cur xs ys = some ins ∧ ins.map List.length = ys := by
  intro cur zs xs
  induction xs generalizing cur zs with
  | nil => intro ys _ hl _ _; cases ys with
    | nil => exact ⟨[], by simp [childIn], rfl⟩
    | cons y ys => simp at hl
  | cons x xs ih =>
    intro ys hc hl hle h
    cases ys with
    | nil => simp at hl
    | cons y ys =>
      cases cur with
      | nil => subst hc; simp at hle
      | cons c cs =>
        subst hc
        obtain ⟨ins, hi, hm⟩ := ih (cur := cs) (ys := ys) rfl (by simpa using hl) (by simpa using hle)
          (fun l x' y' z' hx hy hz => h (l + 1) x' y' z' (by simpa using hx) (by simpa using hy) (by simpa using hz))
        have h0 := h 0 x y c.length rfl rfl rfl
        refine ⟨(c.drop x).take y :: ins, ?_, ?_⟩
        · simp [childIn, sliceOf, h0, hi]
        · simp [hm]; omega

theorem mem_allGates {s : Segment F} {g : Gate F} : g ∈ s.allGates ↔ Op.gate g ∈ s.ops := by
  simp [Segment.allGates, Segment.ops, specOps]

theorem mem_ops {s : Segment F} {op : Op F} (h : op ∈ s.ops) :
    (∃ g ∈ s.allGates, op = .gate g) ∨ ∃ ch ∈ s.childSegs, op = .look ch.1 ∨ ∃ a ∈ ch.2, op = .child ch.1 a := by
  simp only [Segment.ops, List.mem_append, List.mem_map, List.mem_flatMap, specOps, List.mem_cons] at h
  rcases h with ⟨g, hg, rfl⟩ | ⟨ch, hch, rfl | ⟨a, ha, rfl⟩⟩
  · left; exact ⟨g, by simpa [Segment.allGates, or_assoc] using hg, rfl⟩
  · right; exact ⟨ch, hch, Or.inl rfl⟩
  · right; exact ⟨ch, hch, Or.inr ⟨a, ha, rfl⟩⟩

theorem runOps_isSome {step : Op F → (List R × (Nat → R)) → Option (List R × (Nat → R))} {n : Nat} : ∀ {ops : List (Op F)},
    (∀ op ∈ ops, ∀ nxt tape, nxt.length = n → ∃ nxt' tape', step op (nxt, tape) = some (nxt', tape') ∧ nxt'.length = n) →
    ∀ nxt tape, nxt.length = n → ∃ nxt' tape', runOps step ops (nxt, tape) = some (nxt', tape') ∧ nxt'.length = n := by
  intro ops
  induction ops with
  | nil => intro _ nxt tape h; exact ⟨nxt, tape, rfl, h⟩
  | cons op ops ih =>
    intro h nxt tape hn
    obtain ⟨n1, t1, h1, hl⟩ := h op (by simp) nxt tape hn
    obtain ⟨n2, t2, h2, hl2⟩ := ih (fun o ho => h o (by simp [ho])) n1 t1 hl
    exact ⟨n2, t2, by simp [runOps, h1, h2], hl2⟩

/-- A well-formed segment on slices of the right lengths does not panic, whatever the random draws. -/
theorem applySeg_isSome {V : LEnv F R} {segs : List (Segment F)} (hseg : ∀ (i : Nat) s, segs[i]? = some s → SegOk segs i s)
    (hpub : PubsOk V segs) : ∀ (f i : Nat) (s : Segment F), i < f → segs[i]? = some s → ∀ (cur : List (List R)) (nxt : List R) (tape : Nat → R),
      cur.map List.length = s.numInputs → nxt.length = s.numOutputs →
      ∃ nxt' tape', applySeg V segs f s cur (nxt, tape) = some (nxt', tape') ∧ nxt'.length = s.numOutputs := by
  intro f
  induction f with
  | zero => intro i s h; omega
  | succ f ih =>
    intro i s hif hs cur nxt tape hcur hnxt
    have hok := hseg i s hs
    simp only [applySeg]
    refine runOps_isSome ?_ nxt tape hnxt
    intro op hop nxt tape hn
    rcases mem_ops hop with ⟨g, hg, rfl⟩ | ⟨ch, hch, rfl | ⟨a, ha, rfl⟩⟩
    · obtain ⟨vs, hvs⟩ := mapOpt_isSome (f := readInput cur) (l := g.inputs)
        (fun j hj => readInput_isSome hcur ((hok.gates g hg).1 j hj))
      obtain ⟨v, tp, hd⟩ := draw_isSome (hpub s (List.mem_of_getElem? hs) g hg) tape
      have : g.output < nxt.length := by rw [hn]; exact (hok.gates g hg).2
      refine ⟨nxt.modify g.output (· + gateVal V g vs * v), tp, ?_, by simp [hn]⟩
      simp [stepOp, stepGate, hvs, hd, this]
    · obtain ⟨h1, sub, hsub, -⟩ := hok.child ch hch
      exact ⟨nxt, tape, by simp [stepOp, (List.getElem?_eq_some_iff.1 hsub).1], hn⟩
    · obtain ⟨h1, sub, hsub, hle, hal⟩ := hok.child ch hch
      obtain ⟨ha1, ha2, ha3⟩ := hal a ha
      obtain ⟨ins, hins, hil⟩ := childIn_isSome hcur ha1 (by rw [← hcur] at hle; simpa [hcur] using hle) ha2
      have hsl : ((nxt.drop a.outputOffset).take sub.numOutputs).length = sub.numOutputs := by simp; omega
      obtain ⟨n1, t1, hr, hl⟩ := ih ch.1 sub (by omega) hsub ins _ tape hil hsl
      refine ⟨nxt.take a.outputOffset ++ n1 ++ nxt.drop (a.outputOffset + sub.numOutputs), t1, ?_, ?_⟩
      · have h4 : a.outputOffset + sub.numOutputs ≤ nxt.length := by omega
        simp [stepOp, hsub, hins, sliceOf, h4, hr]
      · simp [hl]; omega

/-- The layers computed after `i` steps have the sizes `validate` expects. -/
structure HistOk (c : Circuit F) (i : Nat) (hist : List (List R)) : Prop where
  len : hist.length = i + 1
  first : (hist[i]?).map List.length = c.inputSize
  rest : ∀ k, k < i → ∃ (id : Nat) (s : Segment F), c.layerIds[i - 1 - k]? = some id ∧ c.segments[id]? = some s ∧
    (hist[k]?).map List.length = some s.numOutputs

theorem HistOk.init {c : Circuit F} {inputs : List R} (h : c.inputSize = some inputs.length) : HistOk c 0 [inputs] :=
  ⟨rfl, by simp [h], fun k hk => by omega⟩

theorem HistOk.push {c : Circuit F} {i id : Nat} {hist : List (List R)} {s : Segment F} {nxt : List R} (h : HistOk c i hist)
    (hi : c.layerIds[i]? = some id) (hs : c.segments[id]? = some s) (hn : nxt.length = s.numOutputs) : HistOk c (i + 1) (nxt :: hist) := by
  refine ⟨by simp [h.len], by simpa using h.first, ?_⟩
  intro k hk
  cases k with
  | zero => exact ⟨id, s, by simpa using hi, hs, by simp [hn]⟩
  | succ k =>
    obtain ⟨id', s', h1, h2, h3⟩ := h.rest k (by omega)
    refine ⟨id', s', ?_, h2, by simpa using h3⟩
    have : i + 1 - 1 - (k + 1) = i - 1 - k := by omega
    rw [this]; exact h1

theorem HistOk.shape {c : Circuit F} (hc : c.Ok) {i id : Nat} {hist : List (List R)} {s : Segment F} (h : HistOk c i hist)
    (hi : c.layerIds[i]? = some id) (hs : c.segments[id]? = some s) :
    s.numInputs.length ≤ hist.length ∧ (hist.take s.numInputs.length).map List.length = s.numInputs := by
  obtain ⟨hle, hsh⟩ := hc.shape i id s hi hs
  have hle' : s.numInputs.length ≤ hist.length := by rw [h.len]; exact hle
  refine ⟨hle', ?_⟩
  apply List.ext_getElem?
  intro j
  rw [List.getElem?_map, List.getElem?_take]
  by_cases hj : j < s.numInputs.length
  · rw [if_pos hj, List.getElem?_eq_getElem hj]
    rcases hsh j _ (List.getElem?_eq_getElem hj) with ⟨rfl, he⟩ | ⟨hlt, k, s', hk, hs', he⟩
    · rw [h.first, he]
    · obtain ⟨id', s'', h1, h2, h3⟩ := h.rest j hlt
      rw [hk] at h1; cases h1
      rw [hs'] at h2; cases h2
      rw [h3, he]
  · rw [if_neg hj, List.getElem?_eq_none (by omega)]; rfl

theorem runLayers_isSome {V : LEnv F R} {c : Circuit F} (hc : c.Ok) (hpub : PubsOk V c.segments) : ∀ (ids : List Nat) (i : Nat) (hist : List (List R))
    (tape : Nat → R), c.layerIds.drop i = ids → HistOk c i hist →
      ∃ ws, runLayers V c.segments ids hist tape = some ws ∧ HistOk c c.layerIds.length ws := by
  intro ids
  induction ids with
  | nil =>
    intro i hist tape hd h
    have hge : c.layerIds.length ≤ i := by simpa using hd
    refine ⟨hist, rfl, ?_⟩
    by_cases he : i = c.layerIds.length
    · rw [← he]; exact h
    · obtain ⟨id, s, h1, -, -⟩ := h.rest 0 (by omega)
      have := (List.getElem?_eq_some_iff.1 h1).1
      omega
  | cons id ids ih =>
    intro i hist tape hd h
    have hi : c.layerIds[i]? = some id := by
      have : (c.layerIds.drop i)[0]? = some id := by rw [hd]; rfl
      simpa using this
    have hlt : id < c.segments.length := hc.layers id (List.mem_of_getElem? hi)
    have hs : c.segments[id]? = some c.segments[id] := List.getElem?_eq_getElem hlt
    obtain ⟨hle, hsh⟩ := h.shape hc hi hs
    obtain ⟨nxt, tp, hap, hn⟩ := applySeg_isSome hc.seg hpub (c.segments.length + 1) id _ (by omega) hs _
      (List.replicate c.segments[id].numOutputs 0) tape hsh (by simp)
    obtain ⟨ws, hw, hok⟩ := ih (i + 1) (nxt :: hist) tp (by rw [← List.tail_drop, hd]; rfl) (h.push hi hs hn)
    refine ⟨ws, ?_, hok⟩
    simp only [runLayers, hs, hle, if_true, hap, hw]

/-- Well-formed circuits compute all their wires. -/
theorem wires_isSome {V : LEnv F R} {c : Circuit F} (hc : c.Ok) (hpub : PubsOk V c.segments) {inputs : List R}
    (hin : c.inputSize = some inputs.length) (tape : Nat → R) :
    ∃ ws, c.wires V inputs tape = some ws ∧ HistOk c c.layerIds.length ws := by
  obtain ⟨ws, h, hok⟩ := runLayers_isSome hc hpub c.layerIds 0 [inputs] tape rfl (HistOk.init hin)
  exact ⟨ws, by simp only [Circuit.wires, hin, if_true, h], hok⟩

/-! ## Comparing two circuits layer by layer -/

/-- Layer `id'` of `c'` means the same as layer `id` of `c`. -/
def SameLayer (V : LEnv F R) (c c' : Circuit F) (id id' : Nat) : Prop :=
  ∃ s s', c.segments[id]? = some s ∧ c'.segments[id']? = some s' ∧ s'.numInputs = s.numInputs ∧ s'.numOutputs = s.numOutputs ∧
    ∀ cur : List (List R), cur.map List.length = s.numInputs →
      den V c'.segments (c'.segments.length + 1) s' s.numOutputs cur = den V c.segments (c.segments.length + 1) s s.numOutputs cur

theorem layersSet_congr {V : LEnv F R} {c c' : Circuit F} (hc : c.Ok) : ∀ (ids ids' : List Nat) (i : Nat) (hist : List (List R)),
    c.layerIds.drop i = ids → List.Forall₂ (SameLayer V c c') ids ids' → HistOk c i hist →
      layersSet V c'.segments ids' hist = layersSet V c.segments ids hist := by
  intro ids
  induction ids with
  | nil => intro ids' i hist _ hf _; cases hf; rfl
  | cons id ids ih =>
    intro ids' i hist hd hf h
    cases hf with
    | cons hp hf =>
      rename_i id' ids'
      obtain ⟨s, s', hs, hs', hi, ho, hden⟩ := hp
      have hid : c.layerIds[i]? = some id := by
        have : (c.layerIds.drop i)[0]? = some id := by rw [hd]; rfl
        simpa using this
      obtain ⟨hle, hsh⟩ := h.shape hc hid hs
      have step : ∀ t, layersSet V c'.segments ids' (addVec (List.replicate s.numOutputs 0) t :: hist) =
          layersSet V c.segments ids (addVec (List.replicate s.numOutputs 0) t :: hist) := by
        intro t
        exact ih ids' (i + 1) _ (by rw [← List.tail_drop, hd]; rfl) hf (h.push hid hs (by simp))
      ext ws
      simp only [layersSet, hs, hs', Set.mem_setOf_eq]
      constructor
      · rintro ⟨s1, t, h1, h2, h3, h4⟩
        cases h1
        rw [hi, ho, hden _ hsh] at h3
        rw [ho, step t] at h4
        exact ⟨s, t, rfl, hle, h3, h4⟩
      · rintro ⟨s1, t, h1, h2, h3, h4⟩
        cases h1
        exact ⟨s', t, rfl, by rw [hi]; exact hle, by rw [hi, ho, hden _ hsh]; exact h3, by rw [ho, step t]; exact h4⟩

/-- Circuits with pairwise equal layers have the same wires for every input. -/
theorem traces_congr {V : LEnv F R} {c c' : Circuit F} (hc : c.Ok) (hl : List.Forall₂ (SameLayer V c c') c.layerIds c'.layerIds)
    (inputs : List R) : Traces V c' inputs = Traces V c inputs := by
  have hin : c'.inputSize = c.inputSize := by
    unfold Circuit.inputSize
    revert hl
    cases c.layerIds with
    | nil => intro hl; cases h : c'.layerIds with
      | nil => rfl
      | cons x xs => rw [h] at hl; cases hl
    | cons x xs =>
      intro hl
      cases h : c'.layerIds with
      | nil => rw [h] at hl; cases hl
      | cons y ys =>
        rw [h] at hl
        cases hl with
        | cons hp _ =>
          obtain ⟨s, s', hs, hs', hi, -⟩ := hp
          simp [hs, hs', hi]
  rw [traces_eq, traces_eq, hin]
  ext ws
  simp only [Set.mem_setOf_eq]
  constructor
  · rintro ⟨h1, h2⟩
    rw [layersSet_congr hc c.layerIds c'.layerIds 0 [inputs] rfl hl (HistOk.init h1)] at h2
    exact ⟨h1, h2⟩
  · rintro ⟨h1, h2⟩
    rw [← layersSet_congr hc c.layerIds c'.layerIds 0 [inputs] rfl hl (HistOk.init h1)] at h2
    exact ⟨h1, h2⟩

end Verif.Layered
