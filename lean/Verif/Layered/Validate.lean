import Verif.Layered.Basic

/-!
# `Circuit::validate` for layered circuits (circuit/layered/mod.rs:379-600) and what acceptance means
-/

set_option linter.unusedSectionVars false
set_option linter.unusedSimpArgs false

namespace Verif.Layered

open Verif.IR (Coef)

variable {F : Type}

/-- Result of a check: `some true` = `Ok`, `some false` = `Err`, `none` = panic. -/
abbrev Chk := Option Bool

/-- A check that cannot panic. -/
def chk (b : Bool) : Chk := some b

/-- Continue only after success (`if .. { return Err }` followed by the rest). -/
def Chk.andThen (a b : Chk) : Chk :=
  match a with
  | some true => b
  | r => r

/-- A loop of checks. -/
def allChk {α : Type} (f : α → Chk) : List α → Chk
  | [] => some true
  | a :: l => (f a).andThen (allChk f l)

/-- `x != 0 && (x & (x - 1)) == 0`. -/
def isPow2 (x : Nat) : Bool := x ≠ 0 && x &&& (x - 1) == 0

/-- `input.layer() >= self.layer_ids.len()` (mod.rs:397 and similar). -/
def layerChk (c : Circuit F) (i : Input) : Chk := chk (decide (i.layer < c.layerIds.length))

/-- `input.offset() >= seg.num_inputs.get(input.layer())` (mod.rs:409 and similar); `get` panics when the segment has fewer layers
(mod.rs:212-214). -/
def offsetChk (s : Segment F) (i : Input) : Chk :=
  match s.numInputs[i.layer]? with
  | none => none
  | some n => some (decide (i.offset < n))

/-- Checks of a mul, add or const gate (mod.rs:396-452): all layers, then all offsets, then the output. -/
def gateChk (c : Circuit F) (s : Segment F) (g : Gate F) : Chk :=
  (allChk (layerChk c) g.inputs).andThen ((allChk (offsetChk s) g.inputs).andThen (chk (decide (g.output < s.numOutputs))))

/-- Checks of a custom gate (mod.rs:453-475): per input, layer then offset; then the output. -/
def customChk (c : Circuit F) (s : Segment F) (g : Gate F) : Chk :=
  (allChk (fun i => (layerChk c i).andThen (offsetChk s i)) g.inputs).andThen (chk (decide (g.output < s.numOutputs)))

/-- Alignment and range of the offsets of one allocation (mod.rs:502-519): zip of offsets, child lengths, own lengths. -/
def offsetsChk : List Nat → List Nat → List Nat → Chk
  | x :: xs, y :: ys, z :: zs =>
    (chk (decide (x % y = 0))).andThen ((chk (decide (x + y ≤ z))).andThen (offsetsChk xs ys zs))
  | _, _, _ => some true

/-- One allocation (mod.rs:492-532). -/
def allocChk (s sub : Segment F) (a : Alloc) : Chk :=
  (chk (decide (a.inputOffset.length = sub.numInputs.length))).andThen
    ((offsetsChk a.inputOffset sub.numInputs s.numInputs).andThen
      ((chk (decide (a.outputOffset % sub.numOutputs = 0))).andThen
        (chk (decide (a.outputOffset + sub.numOutputs ≤ s.numOutputs)))))

/-- One entry of `child_segs` (mod.rs:476-533). -/
def childChk (c : Circuit F) (i : Nat) (s : Segment F) (ch : Nat × List Alloc) : Chk :=
  (chk (decide (ch.1 < i))).andThen
    (match c.segments[ch.1]? with
    | none => none
    | some sub => (chk (decide (sub.numInputs.length ≤ s.numInputs.length))).andThen (allChk (allocChk s sub) ch.2))

/-- One segment (mod.rs:380-534). -/
def segChk (c : Circuit F) (p : Segment F × Nat) : Chk :=
  (allChk (fun x => chk (isPow2 x)) p.1.numInputs).andThen
    ((chk (decide (p.1.numInputs.length ≠ 0))).andThen
      ((chk (isPow2 p.1.numOutputs)).andThen
        ((allChk (gateChk c p.1) p.1.gateMuls).andThen
          ((allChk (gateChk c p.1) p.1.gateAdds).andThen
            ((allChk (gateChk c p.1) p.1.gateConsts).andThen
              ((allChk (customChk c p.1) p.1.gateCustoms).andThen
                (allChk (childChk c p.2 p.1) p.1.childSegs)))))))

/-- Sizes of the layers (mod.rs:543-547): the input size, then the output size of every layer. -/
def layerSizes (c : Circuit F) : Option (List Nat) :=
  match c.inputSize, mapOpt (fun id => (c.segments[id]?).map Segment.numOutputs) c.layerIds with
  | some n, some r => some (n :: r)
  | _, _ => none

/-- Shape of layer `i` (mod.rs:548-569). -/
def layerShapeChk (c : Circuit F) (sizes : List Nat) (p : Nat × Nat) : Chk :=
  match c.segments[p.1]? with
  | none => none
  | some s =>
    (chk (decide (s.numInputs.length ≤ p.2 + 1))).andThen
      (allChk (fun q : Nat × Nat => (sizes[p.2 - q.2]?).map fun z => decide (q.1 = z)) s.numInputs.zipIdx)

/-- Input and output masks of one segment (mod.rs:605-650): which inputs it reads, which outputs it writes; `tab` has those of the
earlier segments. -/
structure Mask where
  reads : Nat → Nat → Bool
  writes : Nat → Bool

/-- Gates of all four kinds. -/
def Segment.allGates (s : Segment F) : List (Gate F) := s.gateMuls ++ s.gateAdds ++ s.gateConsts ++ s.gateCustoms

/-- `input_mask_seg[l][off + i] |= input_mask[sub][l][i]` (mod.rs:632-640), seen from position `j` of layer `l`. -/
def allocReads (sub : Segment F) (m : Mask) (a : Alloc) (l j : Nat) : Bool :=
  match a.inputOffset[l]?, sub.numInputs[l]? with
  | some off, some len => decide (off ≤ j ∧ j < off + len) && m.reads l (j - off)
  | _, _ => false

/-- `output_mask_seg[output_offset + j] |= output_mask[sub][j]` (mod.rs:642-645). -/
def allocWrites (sub : Segment F) (m : Mask) (a : Alloc) (j : Nat) : Bool :=
  decide (a.outputOffset ≤ j ∧ j < a.outputOffset + sub.numOutputs) && m.writes (j - a.outputOffset)

/-- Is a property of one child application true of some child application? -/
def Segment.anyChild (segs : List (Segment F)) (tab : List Mask) (s : Segment F) (p : Segment F → Mask → Alloc → Bool) : Bool :=
  s.childSegs.any fun ch =>
    match segs[ch.1]?, tab[ch.1]? with
    | some sub, some m => ch.2.any (p sub m)
    | _, _ => false

/-- Mask of one segment (mod.rs:606-648). -/
def maskOf (segs : List (Segment F)) (tab : List Mask) (s : Segment F) : Mask where
  reads := fun l j => s.allGates.any (fun g => g.inputs.any fun i => i.layer == l && i.offset == j) ||
    s.anyChild segs tab (fun sub m a => allocReads sub m a l j)
  writes := fun j => s.allGates.any (fun g => g.output == j) || s.anyChild segs tab (fun sub m a => allocWrites sub m a j)

/-- `compute_masks` (mod.rs:602-651). -/
def masks (segs : List (Segment F)) : List Mask := segs.foldl (fun tab s => tab ++ [maskOf segs tab s]) []

/-- The "not initialized" check for input `l` of layer `i` (mod.rs:571-597). -/
def initChk (c : Circuit F) (tab : List Mask) (i id : Nat) (q : Nat × Nat) : Bool :=
  i == q.2 || (List.range q.1).all fun j =>
    match tab[id]?, (c.layerIds[i - 1 - q.2]?).bind fun k => tab[k]? with
    | some m, some m' => !(m.reads q.2 j) || m'.writes j
    | _, _ => true

/-- `validate` (mod.rs:379-600). -/
def Circuit.validate (c : Circuit F) : Chk :=
  (allChk (segChk c) c.segments.zipIdx).andThen
    ((allChk (fun x => chk (decide (x < c.segments.length))) c.layerIds).andThen
      ((chk (decide (c.layerIds ≠ []))).andThen
        (match layerSizes c with
        | none => none
        | some sizes =>
          (allChk (layerShapeChk c sizes) c.layerIds.zipIdx).andThen
            (chk (c.layerIds.zipIdx.all fun p => p.2 == 0 ||
              match c.segments[p.1]? with
              | none => true
              | some s => s.numInputs.zipIdx.all (initChk c (masks c.segments) p.2 p.1))))))

/-! ## What acceptance means -/

/-- A gate only refers to existing inputs and outputs of its segment. -/
def Gate.Ok (s : Segment F) (g : Gate F) : Prop :=
  (∀ i ∈ g.inputs, ∃ n, s.numInputs[i.layer]? = some n ∧ i.offset < n) ∧ g.output < s.numOutputs

/-- An allocation of `sub` fits inside `s`. -/
def Alloc.Ok (s sub : Segment F) (a : Alloc) : Prop :=
  a.inputOffset.length = sub.numInputs.length ∧
  (∀ (l x y z : Nat), a.inputOffset[l]? = some x → sub.numInputs[l]? = some y → s.numInputs[l]? = some z → x + y ≤ z) ∧
  a.outputOffset + sub.numOutputs ≤ s.numOutputs

/-- Everything segment number `i` refers to exists. -/
structure SegOk (segs : List (Segment F)) (i : Nat) (s : Segment F) : Prop where
  gates : ∀ g ∈ s.allGates, g.Ok s
  child : ∀ ch ∈ s.childSegs, ch.1 < i ∧ ∃ sub, segs[ch.1]? = some sub ∧ sub.numInputs.length ≤ s.numInputs.length ∧ ∀ a ∈ ch.2, Alloc.Ok s sub a

/-- Everything the circuit refers to exists, and adjacent layers have matching sizes. -/
structure Circuit.Ok (c : Circuit F) : Prop where
  seg : ∀ (i : Nat) s, c.segments[i]? = some s → SegOk c.segments i s
  layers : ∀ id ∈ c.layerIds, id < c.segments.length
  shape : ∀ (i id : Nat) s, c.layerIds[i]? = some id → c.segments[id]? = some s → s.numInputs.length ≤ i + 1 ∧
    ∀ (j x : Nat), s.numInputs[j]? = some x →
      (j = i ∧ c.inputSize = some x) ∨ (j < i ∧ ∃ (k : Nat) (s' : Segment F), c.layerIds[i - 1 - j]? = some k ∧ c.segments[k]? = some s' ∧ s'.numOutputs = x)
  input : c.inputSize.isSome

@[simp] theorem chk_ok {b : Bool} : chk b = some true ↔ b = true := by simp [chk]

theorem andThen_ok {a b : Chk} : a.andThen b = some true ↔ a = some true ∧ b = some true := by
  unfold Chk.andThen
  split
  · simp
  · rename_i h
    constructor
    · intro e; exact absurd e h
    · intro e; exact e.1

theorem allChk_ok {α : Type} {f : α → Chk} : ∀ {l : List α}, allChk f l = some true ↔ ∀ a ∈ l, f a = some true := by
  intro l
  induction l with
  | nil => simp [allChk]
  | cons a l ih => simp [allChk, andThen_ok, ih]

theorem layerChk_ok {c : Circuit F} {i : Input} : layerChk c i = some true ↔ i.layer < c.layerIds.length := by simp [layerChk]

theorem offsetChk_ok {s : Segment F} {i : Input} : offsetChk s i = some true ↔ ∃ n, s.numInputs[i.layer]? = some n ∧ i.offset < n := by
  unfold offsetChk
  cases s.numInputs[i.layer]? with
  | none => simp
  | some n => simp

theorem gateChk_ok {c : Circuit F} {s : Segment F} {g : Gate F} :
    gateChk c s g = some true ↔ (∀ i ∈ g.inputs, i.layer < c.layerIds.length) ∧ g.Ok s := by
  simp only [gateChk, andThen_ok, allChk_ok, layerChk_ok, offsetChk_ok, Gate.Ok]
  simp

theorem customChk_ok {c : Circuit F} {s : Segment F} {g : Gate F} :
    customChk c s g = some true ↔ (∀ i ∈ g.inputs, i.layer < c.layerIds.length) ∧ g.Ok s := by
  simp only [customChk, andThen_ok, allChk_ok, layerChk_ok, offsetChk_ok, Gate.Ok]
  simp only [chk_ok, decide_eq_true_eq]
  constructor
  · rintro ⟨h1, h2⟩; exact ⟨fun i hi => (h1 i hi).1, fun i hi => (h1 i hi).2, h2⟩
  · rintro ⟨h1, h2, h3⟩; exact ⟨fun i hi => ⟨h1 i hi, h2 i hi⟩, h3⟩

theorem offsetsChk_ok : ∀ {xs ys zs : List Nat}, offsetsChk xs ys zs = some true ↔
    ∀ (l x y z : Nat), xs[l]? = some x → ys[l]? = some y → zs[l]? = some z → x % y = 0 ∧ x + y ≤ z := by
  intro xs
  induction xs with
  | nil => intro ys zs; simp [offsetsChk]
  | cons x xs ih =>
    intro ys zs
    cases ys with
    | nil => simp [offsetsChk]
    | cons y ys =>
      cases zs with
      | nil => simp [offsetsChk]
      | cons z zs =>
        simp only [offsetsChk, andThen_ok, ih]
        constructor
        · rintro ⟨h1, h2, h3⟩ l x' y' z' hx hy hz
          cases l with
          | zero => simp at hx hy hz h1 h2; subst hx hy hz; exact ⟨h1, h2⟩
          | succ l => exact h3 l x' y' z' (by simpa using hx) (by simpa using hy) (by simpa using hz)
        · intro h
          have h0 := h 0 x y z rfl rfl rfl
          exact ⟨by simp [h0.1], by simp [h0.2], fun l x' y' z' hx hy hz => h (l + 1) x' y' z' (by simpa using hx) (by simpa using hy) (by simpa using hz)⟩

theorem allocChk_ok {s sub : Segment F} {a : Alloc} (h : allocChk s sub a = some true) : Alloc.Ok s sub a := by
  simp only [allocChk, andThen_ok, offsetsChk_ok] at h
  obtain ⟨h1, h2, _, h4⟩ := h
  exact ⟨by simpa using h1, fun l x y z hx hy hz => (h2 l x y z hx hy hz).2, by simpa using h4⟩

theorem segChk_ok {c : Circuit F} {i : Nat} {s : Segment F} (h : segChk c (s, i) = some true) : SegOk c.segments i s := by
  simp only [segChk, andThen_ok, allChk_ok] at h
  obtain ⟨_, _, _, hm, ha, hc, hcu, hch⟩ := h
  constructor
  · intro g hg
    simp only [Segment.allGates, List.mem_append] at hg
    rcases hg with ((hg | hg) | hg) | hg
    · exact (gateChk_ok.1 (hm g hg)).2
    · exact (gateChk_ok.1 (ha g hg)).2
    · exact (gateChk_ok.1 (hc g hg)).2
    · exact (customChk_ok.1 (hcu g hg)).2
  · intro ch hchm
    have := hch ch hchm
    simp only [childChk, andThen_ok] at this
    obtain ⟨h1, h2⟩ := this
    refine ⟨by simpa using h1, ?_⟩
    cases hs : c.segments[ch.1]? with
    | none => rw [hs] at h2; cases h2
    | some sub =>
      rw [hs] at h2
      simp only [andThen_ok, allChk_ok] at h2
      exact ⟨sub, rfl, by simpa using h2.1, fun a ham => allocChk_ok (h2.2 a ham)⟩

theorem mem_zipIdx_of_getElem? {α : Type} {l : List α} {i : Nat} {a : α} (h : l[i]? = some a) : (a, i) ∈ l.zipIdx := by
  rw [List.mem_zipIdx_iff_getElem?]; simpa using h

/-- Acceptance implies well-formedness. -/
theorem validate_ok {c : Circuit F} (h : c.validate = some true) : c.Ok := by
  simp only [Circuit.validate, andThen_ok, allChk_ok] at h
  obtain ⟨hseg, hid, hne, hrest⟩ := h
  have hid' : ∀ id ∈ c.layerIds, id < c.segments.length := fun id hm => by simpa using hid id hm
  cases hsz : layerSizes c with
  | none => rw [hsz] at hrest; cases hrest
  | some sizes =>
    rw [hsz] at hrest
    simp only [andThen_ok, allChk_ok] at hrest
    obtain ⟨hshape, _⟩ := hrest
    have hsizes : ∃ n r, c.inputSize = some n ∧ mapOpt (fun id => (c.segments[id]?).map Segment.numOutputs) c.layerIds = some r ∧ sizes = n :: r := by
      unfold layerSizes at hsz
      split at hsz
      · rename_i n r h1 h2; cases hsz; exact ⟨n, r, h1, h2, rfl⟩
      · cases hsz
    obtain ⟨n, r, hn, hr, rfl⟩ := hsizes
    refine ⟨fun i s hs => segChk_ok (hseg (s, i) (mem_zipIdx_of_getElem? hs)), hid', ?_, by simp [hn]⟩
    intro i id s hi hs
    have := hshape (id, i) (mem_zipIdx_of_getElem? hi)
    simp only [layerShapeChk, hs, andThen_ok, allChk_ok] at this
    obtain ⟨h1, h2⟩ := this
    refine ⟨by simpa using h1, ?_⟩
    intro j x hx
    have h3 := h2 (x, j) (mem_zipIdx_of_getElem? hx)
    simp only [Option.map_eq_some_iff, decide_eq_true_eq] at h3
    obtain ⟨z, hz, rfl⟩ := h3
    have hjlt : j < s.numInputs.length := (List.getElem?_eq_some_iff.1 hx).1
    have hle : s.numInputs.length ≤ i + 1 := by simpa using h1
    by_cases hji : j = i
    · left
      refine ⟨hji, ?_⟩
      subst hji
      simp at hz
      rw [hn, hz]
    · right
      refine ⟨by omega, ?_⟩
      have he : i - j = (i - 1 - j) + 1 := by omega
      rw [he, List.getElem?_cons_succ] at hz
      have hlt : i - 1 - j < c.layerIds.length := by
        have := (List.getElem?_eq_some_iff.1 hi).1; omega
      have hk : c.layerIds[i - 1 - j]? = some c.layerIds[i - 1 - j] := List.getElem?_eq_getElem hlt
      have hv := mapOpt_getElem? hr _ _ hk
      rw [hz] at hv
      simp only [Option.map_eq_some_iff] at hv
      obtain ⟨s', hs', he'⟩ := hv
      exact ⟨_, s', hk, hs', he'⟩

end Verif.Layered
