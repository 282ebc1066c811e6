import Verif.Layered.Expand

/-!
# Inlining one child application: shifting its steps
-/

set_option linter.unusedSectionVars false
set_option linter.unusedSimpArgs false

namespace Verif.Layered

open Verif.IR (Coef)
open scoped Pointwise

variable {F R : Type} [CommRing R]

/-- Everything the segments up to number `i` refer to exists. -/
def OkUpTo (segs : List (Segment F)) (i : Nat) : Prop := ∀ (j : Nat) s, j < i → segs[j]? = some s → SegOk segs j s

/-- The recursion bound does not matter once it exceeds the segment number. -/
theorem den_fuel {V : LEnv F R} {segs : List (Segment F)} : ∀ (i : Nat), OkUpTo segs (i + 1) → ∀ (s : Segment F), segs[i]? = some s →
    ∀ (f f' : Nat), i < f → i < f' → ∀ cur : List (List R), cur.map List.length = s.numInputs →
      den V segs f s s.numOutputs cur = den V segs f' s s.numOutputs cur := by
  intro i
  induction i using Nat.strong_induction_on with
  | _ i ih =>
    intro hok s hs f f' hf hf' cur hcur
    obtain ⟨f, rfl⟩ : ∃ g, f = g + 1 := ⟨f - 1, by omega⟩
    obtain ⟨f', rfl⟩ : ∃ g, f' = g + 1 := ⟨f' - 1, by omega⟩
    simp only [den]
    apply opsSet_congr
    apply opSet_congr (hok i s (by omega) hs) hcur
    intro ch hch sub hsub
    have hlt := ((hok i s (by omega) hs).child ch hch).1
    exact ⟨sub, hsub, rfl, rfl, fun ins hins => ih ch.1 hlt (fun j s hj => hok j s (by omega)) sub hsub f f' (by omega) (by omega) ins hins⟩

/-- `rec` is a fixed point of the step sums on segments below `i`. -/
def FixedUpTo (V : LEnv F R) (segs : List (Segment F)) (rec : Segment F → Nat → List (List R) → Set (Nat → R)) (i : Nat) : Prop :=
  ∀ (k : Nat) sub, k < i → segs[k]? = some sub → ∀ ins : List (List R), ins.map List.length = sub.numInputs →
    rec sub sub.numOutputs ins = opsSet V segs rec sub.numOutputs ins sub.ops

theorem den_fixed {V : LEnv F R} {segs : List (Segment F)} {i : Nat} (hok : OkUpTo segs i) : FixedUpTo V segs (den V segs i) i := by
  intro k sub hk hsub ins hins
  rw [den_fuel k (fun j s hj => hok j s (by omega)) sub hsub i (i + 1) (by omega) (by omega) ins hins]
  rfl

/-! ## Shifting -/

theorem shiftOut_zero (off len : Nat) : shiftOut off len (0 : Nat → R) = 0 := by funext i; simp [shiftOut]

theorem shiftOut_add (off len : Nat) (t u : Nat → R) : shiftOut off len (t + u) = shiftOut off len t + shiftOut off len u := by
  funext i; simp only [shiftOut, Pi.add_apply]; split <;> simp

theorem image_sum {A B : Type} [AddCommMonoid A] [AddCommMonoid B] (f : A → B) (h0 : f 0 = 0) (ha : ∀ x y, f (x + y) = f x + f y) :
    ∀ l : List (Set A), f '' l.sum = (l.map (Set.image f)).sum := by
  intro l
  induction l with
  | nil => simp only [List.sum_nil, List.map_nil]; ext t; simp [Set.mem_zero, h0, eq_comm]
  | cons s l ih =>
    simp only [List.sum_cons, List.map_cons, ← ih]
    ext t
    constructor
    · rintro ⟨x, hx, rfl⟩
      obtain ⟨a, ha', b, hb, rfl⟩ := Set.mem_add.1 hx
      rw [ha]
      exact Set.add_mem_add ⟨a, ha', rfl⟩ ⟨b, hb, rfl⟩
    · intro ht
      obtain ⟨_, ⟨a, ha', rfl⟩, _, ⟨b, hb, rfl⟩, rfl⟩ := Set.mem_add.1 ht
      exact ⟨a + b, Set.add_mem_add ha' hb, ha a b⟩

/-- A step of a child as a step of the segment that applies it. -/
def opShift {F : Type} (a : Alloc) : Op F → Op F
  | .gate g => .gate (g.addOffset a)
  | .look id => .look id
  | .child id sa => .child id (sa.compose a)

theorem childIn_get : ∀ {cur : List (List R)} {xs ys : List Nat} {ins : List (List R)}, childIn cur xs ys = some ins → ∀ (l : Nat) x y,
    xs[l]? = some x → ys[l]? = some y → ∃ c, cur[l]? = some c ∧ x + y ≤ c.length ∧ ins[l]? = some ((c.drop x).take y) := by
  intro cur xs
  induction xs generalizing cur with
  | nil => intro ys ins _ l x y hx; simp at hx
  | cons x0 xs ih =>
    intro ys ins h l x y hx hy
    cases ys with
    | nil => simp at hy
    | cons y0 ys =>
      cases cur with
      | nil => simp [childIn] at h
      | cons c cs =>
        simp only [childIn] at h
        split at h
        · rename_i s r hs hr
          cases h
          cases l with
          | zero =>
            simp at hx hy
            subst hx hy
            simp only [sliceOf] at hs
            split at hs
            · rename_i hle; cases hs; exact ⟨c, rfl, hle, rfl⟩
            · cases hs
          | succ l =>
            obtain ⟨c', h1, h2, h3⟩ := ih hr l x y (by simpa using hx) (by simpa using hy)
            exact ⟨c', by simpa using h1, h2, by simpa using h3⟩
        · cases h

/-- Slicing a slice. -/
theorem childIn_comp : ∀ {cur ins : List (List R)} {xs ys xs' ys' : List Nat}, childIn cur xs ys = some ins → xs.length = ys.length →
    xs'.length = ys'.length → ys'.length ≤ ys.length →
    (∀ (l x y z : Nat), xs'[l]? = some x → ys'[l]? = some y → ys[l]? = some z → x + y ≤ z) →
    childIn ins xs' ys' = childIn cur (xs'.zipWith (· + ·) xs) ys' := by
  intro cur ins xs ys xs'
  induction xs' generalizing cur ins xs ys with
  | nil => intro ys' _ _ hl _ _; cases ys' with
    | nil => simp [childIn]
    | cons => simp at hl
  | cons x' xs' ih =>
    intro ys' h hl hl' hle hb
    cases ys' with
    | nil => simp at hl'
    | cons y' ys' =>
      cases ys with
      | nil => simp at hle
      | cons y ys =>
        cases xs with
        | nil => simp at hl
        | cons x xs =>
          cases cur with
          | nil => simp [childIn] at h
          | cons c cs =>
            simp only [childIn] at h
            split at h
            · rename_i s r hs hr
              cases h
              have h0 := hb 0 x' y' y rfl rfl rfl
              have hrec := ih (ys' := ys') hr (by simpa using hl) (by simpa using hl') (by simpa using hle)
                (fun l a b d ha hb' hd => hb (l + 1) a b d (by simpa using ha) (by simpa using hb') (by simpa using hd))
              simp only [sliceOf] at hs
              split at hs
              · rename_i hxy
                cases hs
                have e1 : sliceOf ((c.drop x).take y) x' y' = sliceOf c (x' + x) y' := by
                  have c1 : x' + y' ≤ ((c.drop x).take y).length := by simp; omega
                  have c2 : x' + x + y' ≤ c.length := by omega
                  simp only [sliceOf, c1, c2, if_true]
                  congr 1
                  apply List.ext_getElem?
                  intro i
                  simp only [List.getElem?_take, List.getElem?_drop]
                  by_cases hi : i < y'
                  · have : x' + i < y := by omega
                    rw [if_pos hi, if_pos hi, if_pos this]
                    congr 1
                    omega
                  · simp [hi]
                simp only [List.zipWith_cons_cons, childIn, e1, hrec]
              · cases hs
            · cases h

theorem readInput_shift {cur ins : List (List R)} {s sub : Segment F} {a : Alloc} (ha : Alloc.Ok s sub a)
    (hins : childIn cur a.inputOffset sub.numInputs = some ins) {i : Input} (hi : ∃ n, sub.numInputs[i.layer]? = some n ∧ i.offset < n) :
    readInput cur ⟨i.layer, i.offset + a.inputOffset.getD i.layer 0⟩ = readInput ins i := by
  obtain ⟨n, hn, hlt⟩ := hi
  have hl : i.layer < a.inputOffset.length := by rw [ha.1]; exact (List.getElem?_eq_some_iff.1 hn).1
  obtain ⟨c, h1, h2, h3⟩ := childIn_get hins i.layer a.inputOffset[i.layer] n (List.getElem?_eq_getElem hl) hn
  simp only [readInput, h1, h3, Option.bind_some, List.getElem?_take, hlt, if_true, List.getElem?_drop]
  simp only [List.getD, List.getElem?_eq_getElem hl, Option.getD_some]
  congr 1
  omega

theorem mapOpt_readInput_shift {cur ins : List (List R)} {s sub : Segment F} {a : Alloc} (ha : Alloc.Ok s sub a)
    (hins : childIn cur a.inputOffset sub.numInputs = some ins) : ∀ {is : List Input}, (∀ i ∈ is, ∃ n, sub.numInputs[i.layer]? = some n ∧ i.offset < n) →
    mapOpt (readInput cur) (is.map fun i => ⟨i.layer, i.offset + a.inputOffset.getD i.layer 0⟩) = mapOpt (readInput ins) is := by
  intro is
  induction is with
  | nil => intro _; rfl
  | cons i is ih =>
    intro h
    simp only [List.map_cons, mapOpt]
    rw [readInput_shift ha hins (h i (by simp)), ih fun j hj => h j (by simp [hj])]

theorem shiftOut_single (off len k : Nat) (hk : k < len) (v : R) :
    shiftOut off len (fun i => if i = k then v else 0) = fun i => if i = k + off then v else 0 := by
  funext i
  simp only [shiftOut]
  by_cases h : i = k + off
  · subst h; simp; omega
  · rw [if_neg h]
    split
    · rename_i hr
      rw [if_neg (by omega)]
    · rfl

theorem shiftOut_shiftOut (off len off' len' : Nat) (h : off' + len' ≤ len) (u : Nat → R) :
    shiftOut off len (shiftOut off' len' u) = shiftOut (off' + off) len' u := by
  funext i
  simp only [shiftOut]
  by_cases h1 : off' + off ≤ i ∧ i < off' + off + len'
  · have h2 : off ≤ i ∧ i < off + len := by omega
    have h3 : off' ≤ i - off ∧ i - off < off' + len' := by omega
    have h4 : i - off - off' = i - (off' + off) := by omega
    simp only [h1, h2, h3, and_self, if_true, h4]
  · rw [if_neg h1]
    split
    · rw [if_neg (by omega)]
    · rfl

/-- A shifted step adds the shifted vectors. -/
theorem opSet_shift {V : LEnv F R} {segs : List (Segment F)} {rec : Segment F → Nat → List (List R) → Set (Nat → R)} {s sub : Segment F} {k : Nat}
    {a : Alloc} {cur ins : List (List R)} (hsub : SegOk segs k sub) (ha : Alloc.Ok s sub a)
    (hins : childIn cur a.inputOffset sub.numInputs = some ins) {op : Op F} (hop : op ∈ sub.ops) :
    opSet V segs rec s.numOutputs cur (opShift a op) = shiftOut a.outputOffset sub.numOutputs '' opSet V segs rec sub.numOutputs ins op := by
  rcases mem_ops hop with ⟨g, hg, rfl⟩ | ⟨ch, hch, rfl | ⟨sa, hsa, rfl⟩⟩
  · obtain ⟨hgi, hgo⟩ := hsub.gates g hg
    have hread := mapOpt_readInput_shift ha hins hgi
    have hlt : (g.addOffset a).output < s.numOutputs := by have := ha.2.2; simp only [Gate.addOffset]; omega
    ext t
    simp only [opShift, opSet, Set.mem_setOf_eq, Set.mem_image]
    constructor
    · rintro ⟨vs, c, h1, h2, _, rfl⟩
      have h1' : mapOpt (readInput ins) g.inputs = some vs := by rw [← hread]; exact h1
      exact ⟨_, ⟨vs, c, h1', h2, hgo, rfl⟩, shiftOut_single _ _ _ hgo _⟩
    · rintro ⟨_, ⟨vs, c, h1, h2, _, rfl⟩, rfl⟩
      exact ⟨vs, c, by rw [← h1]; exact hread, h2, hlt, shiftOut_single _ _ _ hgo _⟩
  · ext t
    simp only [opShift, opSet, Set.mem_setOf_eq, Set.mem_image]
    constructor
    · rintro ⟨h, rfl⟩; exact ⟨0, ⟨h, rfl⟩, shiftOut_zero _ _⟩
    · rintro ⟨_, ⟨h, rfl⟩, rfl⟩; exact ⟨h, shiftOut_zero _ _⟩
  · obtain ⟨_, ss, hss, hle, hal⟩ := hsub.child ch hch
    obtain ⟨sa1, sa2, sa3⟩ := hal sa hsa
    have hcomp := childIn_comp hins ha.1 sa1 hle sa2
    ext t
    simp only [opShift, opSet, Set.mem_setOf_eq, Set.mem_image, Alloc.compose]
    constructor
    · rintro ⟨ss', ins', u, h1, h2, _, h4, rfl⟩
      rw [hss] at h1; cases h1
      rw [← hcomp] at h2
      exact ⟨_, ⟨ss, ins', u, hss, h2, sa3, h4, rfl⟩, by rw [shiftOut_shiftOut _ _ _ _ sa3]⟩
    · rintro ⟨_, ⟨ss', ins', u, h1, h2, _, h4, rfl⟩, rfl⟩
      rw [hss] at h1; cases h1
      rw [hcomp] at h2
      have := ha.2.2
      exact ⟨ss, ins', u, hss, h2, by omega, h4, by rw [shiftOut_shiftOut _ _ _ _ sa3]⟩

/-- Applying a child adds what its shifted steps add. -/
theorem opSet_child_expand {V : LEnv F R} {segs : List (Segment F)} {rec : Segment F → Nat → List (List R) → Set (Nat → R)} {i k : Nat}
    (hfix : FixedUpTo V segs rec i) (hk : k < i) {s sub : Segment F} (hs : segs[k]? = some sub) (hsub : SegOk segs k sub) {a : Alloc} (ha : Alloc.Ok s sub a)
    (hle : sub.numInputs.length ≤ s.numInputs.length) {cur : List (List R)} (hcur : cur.map List.length = s.numInputs) :
    opSet V segs rec s.numOutputs cur (.child k a) = opsSet V segs rec s.numOutputs cur (sub.ops.map (opShift a)) := by
  obtain ⟨ins, hins, hil⟩ := childIn_isSome hcur ha.1 hle ha.2.1
  have e1 : opSet V segs rec s.numOutputs cur (.child k a) = shiftOut a.outputOffset sub.numOutputs '' rec sub sub.numOutputs ins := by
    ext t
    simp only [opSet, Set.mem_setOf_eq, Set.mem_image]
    constructor
    · rintro ⟨sub', ins', u, h1, h2, _, h4, rfl⟩
      rw [hs] at h1; cases h1
      rw [hins] at h2; cases h2
      exact ⟨u, h4, rfl⟩
    · rintro ⟨u, h4, rfl⟩
      exact ⟨sub, ins, u, hs, hins, ha.2.2, h4, rfl⟩
  rw [e1, hfix k sub hk hs ins hil]
  unfold opsSet
  rw [image_sum _ (shiftOut_zero _ _) (shiftOut_add _ _), List.map_map, List.map_map]
  congr 1
  apply List.map_congr_left
  intro op hop
  exact (opSet_shift hsub ha hins hop).symm

end Verif.Layered
