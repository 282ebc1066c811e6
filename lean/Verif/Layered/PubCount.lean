import Verif.Layered.CommonProof

/-!
# How often a wire receives a public input

`pubCount` counts the gates with a public input as coefficient that write a given output of a segment, in the segment itself and in its children.
`dedup_gates`, `expand_small_segments` and `find_common_parts` keep these numbers.
-/

set_option linter.unusedSectionVars false
set_option linter.unusedSimpArgs false

namespace Verif.Layered

open Verif.IR (Coef)

variable {F : Type}

/-- The coefficient is a public input. -/
def Gate.isPub {F : Type} (g : Gate F) : Bool := match g.coef with | .pub _ => true | _ => false

/-- The number of such gates of a list that write `o`. -/
def pubAt {F : Type} (gs : List (Gate F)) : Nat → Nat := fun o => gs.countP fun g => g.isPub && g.output == o

theorem pubAt_nil : pubAt ([] : List (Gate F)) = 0 := rfl

theorem pubAt_append (a b : List (Gate F)) : pubAt (a ++ b) = pubAt a + pubAt b := by
  funext o; simp [pubAt]

theorem pubAt_cons (g : Gate F) (l : List (Gate F)) : pubAt (g :: l) = pubAt [g] + pubAt l := pubAt_append [g] l

theorem pubAt_perm {a b : List (Gate F)} (h : a.Perm b) : pubAt a = pubAt b := by
  funext o; exact h.countP_eq _

theorem pubAt_flatMap {A : Type} (f : A → List (Gate F)) (l : List A) : pubAt (l.flatMap f) = (l.map fun a => pubAt (f a)).sum := by
  induction l with
  | nil => rfl
  | cons a l ih => rw [List.flatMap_cons, pubAt_append, ih]; simp

theorem pubAt_none {l : List (Gate F)} (h : ∀ g ∈ l, g.isPub = false) : pubAt l = 0 := by
  funext o
  simp only [pubAt, Pi.zero_apply, List.countP_eq_zero]
  intro g hg; simp [h g hg]

/-- Move to an offset. -/
def shiftN (off : Nat) (f : Nat → Nat) : Nat → Nat := fun o => if off ≤ o then f (o - off) else 0

theorem shiftN_add (off : Nat) (f g : Nat → Nat) : shiftN off (f + g) = shiftN off f + shiftN off g := by
  funext o; simp only [shiftN, Pi.add_apply]; split <;> rfl

theorem shiftN_zero (off : Nat) : shiftN off 0 = 0 := by
  funext o; simp [shiftN]

theorem shiftN_zero' (f : Nat → Nat) : shiftN 0 f = f := by
  funext o; simp [shiftN]

theorem shiftN_sum {A : Type} (off : Nat) (f : A → Nat → Nat) (l : List A) : shiftN off (l.map f).sum = (l.map fun a => shiftN off (f a)).sum := by
  induction l with
  | nil => exact shiftN_zero off
  | cons a l ih => simp only [List.map_cons, List.sum_cons, shiftN_add, ih]

theorem shiftN_shiftN (a b : Nat) (f : Nat → Nat) : shiftN a (shiftN b f) = shiftN (b + a) f := by
  funext o
  simp only [shiftN]
  by_cases h1 : a ≤ o
  · by_cases h2 : b ≤ o - a
    · rw [if_pos h1, if_pos h2, if_pos (by omega)]; congr 1; omega
    · rw [if_pos h1, if_neg h2, if_neg (by omega)]
  · rw [if_neg h1, if_neg (by omega)]

theorem pubAt_shift (a : Alloc) (l : List (Gate F)) : pubAt (l.map (Gate.addOffset a)) = shiftN a.outputOffset (pubAt l) := by
  funext o
  simp only [pubAt, shiftN, List.countP_map]
  split
  · rename_i h
    apply List.countP_congr
    intro g _
    simp only [Function.comp, Gate.addOffset, Gate.isPub, Bool.and_eq_true, beq_iff_eq]
    constructor
    · rintro ⟨h1, h2⟩; exact ⟨h1, by omega⟩
    · rintro ⟨h1, h2⟩; exact ⟨h1, by omega⟩
  · rename_i h
    rw [List.countP_eq_zero]
    intro g _
    simp only [Function.comp, Gate.addOffset, Gate.isPub, Bool.and_eq_true, beq_iff_eq, not_and]
    intro _; omega

/-- What an application of a child writes. -/
def childPub {F : Type} (segs : List (Segment F)) (rec : Segment F → Nat → Nat) (id : Nat) (a : Alloc) : Nat → Nat :=
  match segs[id]? with
  | none => 0
  | some sub => shiftN a.outputOffset (rec sub)

/-- The number of public-input gates that write an output, children included. -/
def pubCount {F : Type} (segs : List (Segment F)) : Nat → Segment F → Nat → Nat
  | 0, _ => 0
  | f + 1, s => pubAt s.allGates + chSum (childPub segs (pubCount segs f)) s.childSegs

theorem chSum_congr {M : Type} [AddCommMonoid M] {w w' : Nat → Alloc → M} {chs : List (Nat × List Alloc)} (h : ∀ ch ∈ chs, ∀ a ∈ ch.2, w ch.1 a = w' ch.1 a) : chSum w chs = chSum w' chs := by
  unfold chSum
  congr 1
  apply List.map_congr_left
  intro ch hch
  congr 1
  apply List.map_congr_left
  exact h ch hch

theorem shiftN_chSum (off : Nat) (w : Nat → Alloc → Nat → Nat) (chs : List (Nat × List Alloc)) : shiftN off (chSum w chs) = chSum (fun id a => shiftN off (w id a)) chs := by
  unfold chSum
  rw [shiftN_sum]
  simp only [shiftN_sum]

/-- Children come first. -/
def Below' (segs : List (Segment F)) : Prop := ∀ (i : Nat) s, segs[i]? = some s → ∀ ch ∈ s.childSegs, ch.1 < i

theorem pubCount_fuel {segs : List (Segment F)} (hb : Below' segs) : ∀ (i : Nat) s, segs[i]? = some s → ∀ f g, i < f → i < g → pubCount segs f s = pubCount segs g s := by
  intro i
  induction i using Nat.strong_induction_on with
  | _ i ih =>
    intro s hs f g hf hg
    obtain ⟨f, rfl⟩ : ∃ k, f = k + 1 := ⟨f - 1, by omega⟩
    obtain ⟨g, rfl⟩ : ∃ k, g = k + 1 := ⟨g - 1, by omega⟩
    simp only [pubCount]
    congr 1
    apply chSum_congr
    intro ch hch a _
    have hlt := hb i s hs ch hch
    unfold childPub
    cases h : segs[ch.1]? with
    | none => rfl
    | some sub => simp only; rw [ih ch.1 hlt sub h f g (by omega) (by omega)]

/-- Every output receives at most one public input. -/
def Circuit.PubOnce {F : Type} (c : Circuit F) : Prop := ∀ (i : Nat) s, c.segments[i]? = some s → ∀ o, pubCount c.segments (i + 1) s o ≤ 1

/-! ## `dedup_gates` -/

section dedup
variable [CommRing F] [DecidableEq F]

theorem pubAt_merge : ∀ (t : List (Gate F)) (g : Gate F), pubAt (mergeRun g t) = pubAt (g :: t) := by
  intro t
  induction t with
  | nil => intro g; rfl
  | cons h t ih =>
    intro g
    simp only [mergeRun]
    by_cases hm : canMerge g h = true
    · obtain ⟨_, _, _, x, y, hx, hy⟩ := canMerge_iff.1 hm
      rw [if_pos hm, ih, pubAt_cons, pubAt_cons g, pubAt_cons h]
      have e : ∀ z : Gate F, ∀ k, z.coef = .const k → pubAt [z] = 0 := by
        intro z k hz
        apply pubAt_none
        intro g hg
        rw [List.mem_singleton] at hg; subst hg
        simp [Gate.isPub, hz]
      rw [e g x hx, e h y hy, e (coefAdd g h) (x + y) (by simp [coefAdd, hx, hy])]
      simp
    · rw [if_neg hm, pubAt_cons, ih, ← pubAt_cons]

theorem pubAt_dedupGates {srt : List (Gate F) → List (Gate F)} (hs : ∀ l, (srt l).Perm l) (trim : Bool) (gs : List (Gate F)) : pubAt (dedupGates srt trim gs) = pubAt gs := by
  have h1 : pubAt (mergeAdj (srt gs)) = pubAt gs := by
    rw [← pubAt_perm (hs gs)]
    cases srt gs with
    | nil => rfl
    | cons g t => exact pubAt_merge t g
  unfold dedupGates
  cases trim
  · exact h1
  · simp only [if_true]
    rw [← h1]
    funext o
    simp only [pubAt, List.countP_filter]
    apply List.countP_congr
    intro g _
    simp only [Bool.and_eq_true, Bool.not_eq_true', beq_eq_false_iff_ne, ne_eq]
    constructor
    · rintro ⟨h, _⟩; exact h
    · rintro h
      refine ⟨h, fun e => ?_⟩
      have := h.1
      unfold Gate.isPub at this
      cases hc : g.coef with
      | const x => rw [hc] at this; cases this
      | random => rw [hc] at this; cases this
      | pub k => rw [hc] at e; cases e

theorem pubAt_dedup {srt : List (Gate F) → List (Gate F)} (hs : ∀ l, (srt l).Perm l) (s : Segment F) : pubAt (s.dedup srt).allGates = pubAt s.allGates := by
  simp only [Segment.dedup, Segment.allGates, pubAt_append, pubAt_dedupGates hs, pubAt_perm (hs _)]
  rw [pubAt_none (l := List.map _ _) (by
    intro g hg
    obtain ⟨i, _, rfl⟩ := List.mem_map.1 hg
    rfl), add_zero]

theorem pubCount_dedup {srt : List (Gate F) → List (Gate F)} (hs : ∀ l, (srt l).Perm l) (segs : List (Segment F)) : ∀ f s, pubCount (segs.map (Segment.dedup srt)) f (s.dedup srt) = pubCount segs f s := by
  intro f
  induction f with
  | zero => intro s; rfl
  | succ f ih =>
    intro s
    simp only [pubCount, pubAt_dedup hs]
    congr 1
    have : (s.dedup srt).childSegs = s.childSegs := rfl
    rw [this]
    apply chSum_congr
    intro ch _ a _
    unfold childPub
    rw [List.getElem?_map]
    cases segs[ch.1]? with
    | none => rfl
    | some sub => simp only [Option.map_some]; rw [ih]

theorem dedup_pubOnce {srt : List (Gate F) → List (Gate F)} (hs : ∀ l, (srt l).Perm l) {c : Circuit F} (h : c.PubOnce) : (c.dedup srt).PubOnce := by
  intro i s hi o
  change (c.segments.map (Segment.dedup srt))[i]? = some s at hi
  rw [List.getElem?_map, Option.map_eq_some_iff] at hi
  obtain ⟨t, ht, rfl⟩ := hi
  change pubCount (c.segments.map (Segment.dedup srt)) (i + 1) (t.dedup srt) o ≤ 1
  rw [pubCount_dedup hs]
  exact h i t ht o

end dedup

end Verif.Layered
