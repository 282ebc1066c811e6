import Verif.Base
import Mathlib.Data.List.Basic
import Mathlib.Algebra.BigOperators.Group.List.Basic
import Mathlib.Algebra.Order.Ring.Nat

/-!
# `VecShaped` (zkcuda/vec_shaped.rs)

`Vec^d F` with `F: FieldRaw` is `Nest F d`.  Panics are `none`.
-/

set_option linter.unusedSectionVars false
set_option linter.unusedSimpArgs false

namespace Verif.Zkcuda

variable {F : Type}

/-- `Vec<Vec<…<F>>>` with `d` levels: the types that implement `VecShaped<F>` (vec_shaped.rs:10, 27-31). -/
def Nest (F : Type) : Nat → Type
  | 0 => F
  | d + 1 => List (Nest F d)

/-- A scalar as a value with no levels. -/
def Nest.leaf (x : F) : Nest F 0 := x

/-- The scalar. -/
def Nest.val (v : Nest F 0) : F := v

/-- A vector of values with one level less. -/
def Nest.node {d : Nat} (v : List (Nest F d)) : Nest F (d + 1) := v

/-- The entries. -/
def Nest.rows {d : Nat} (v : Nest F (d + 1)) : List (Nest F d) := v

/-- The loop over the rows after the first (vec_shaped.rs:37-42); `to` holds the elements pushed so far. -/
def flatRows {α : Type} (f : α → Option (List F × List Nat)) (sub : List Nat) : List α → List F → Option (List F)
  | [], acc => some acc
  | v :: vs, acc => match f v with
    | none => none
    | some (t, s) => if s = sub then flatRows f sub vs (acc ++ t) else none

/-- `VecShaped::flatten_shaped` (vec_shaped.rs:11-14, 32-46): the elements pushed to `to`, and the shape, innermost dimension first. -/
def flat : (d : Nat) → Nest F d → Option (List F × List Nat)
  | 0, x => some ([x.val], [])
  | d + 1, v => match v.rows with
    | [] => none
    | v0 :: vs => match flat d v0 with
      | none => none
      | some (t, s) => match flatRows (flat d) s vs t with
        | none => none
        | some acc => some (acc, s ++ [vs.length + 1])

/-- `flatten_shaped` (vec_shaped.rs:62-66). -/
def flattenShaped (d : Nat) (v : Nest F d) : Option (List F × List Nat) := (flat d v).map fun r => (r.1, r.2.reverse)

/-- The loop over the rows of `unflatten_shaped` (vec_shaped.rs:54-56). -/
def unflatRows {α : Type} (g : List F → Option (α × List F)) : Nat → List F → Option (List α × List F)
  | 0, s => some ([], s)
  | n + 1, s => match g s with
    | none => none
    | some (v, s) => match unflatRows g n s with
      | none => none
      | some (vs, s) => some (v :: vs, s)

/-- `VecShaped::unflatten_shaped` (vec_shaped.rs:15-24, 47-59): the value and the rest of the slice. -/
def unflat : (d : Nat) → List F → List Nat → Option (Nest F d × List F)
  | 0, s, shape => match shape, s with
    | [], x :: s => some (Nest.leaf x, s)
    | _, _ => none
  | d + 1, s, shape => match shape with
    | [] => none
    | n :: sub => (unflatRows (fun s => unflat d s sub) n s).map fun r => (Nest.node r.1, r.2)

/-- `unflatten_shaped` (vec_shaped.rs:68-75). -/
def unflattenShaped (d : Nat) (s : List F) (shape : List Nat) : Option (Nest F d) := match unflat d s shape with
  | some (v, []) => some v
  | _ => none

/-! ### SIMD packing -/

/-- `SimdField::{PACK_SIZE, pack, unpack}` (external crate `arith`). -/
structure Pack (F S : Type) where
  size : Nat
  pack : List F → S
  unpack : S → List F

/-- The contract of the external crate. -/
structure Pack.Lawful {S : Type} (P : Pack F S) : Prop where
  pos : 0 < P.size
  unpack_len : ∀ x, (P.unpack x).length = P.size
  unpack_pack : ∀ l, l.length = P.size → P.unpack (P.pack l) = l
  pack_unpack : ∀ x, P.pack (P.unpack x) = x

/-- The packing loop (vec_shaped.rs:86-94). -/
def packAll {S : Type} (P : Pack F S) (acc : List F) : Option (List S) :=
  mapOpt (fun i => (mapOpt (fun j => acc[j * (acc.length / P.size) + i]?) (List.range P.size)).map P.pack) (List.range (acc.length / P.size))

/-- `flatten_shaped_pack_simd` (vec_shaped.rs:79-97). -/
def flattenPack {S : Type} (P : Pack F S) (d : Nat) (v : Nest F d) : Option (List S × List Nat) :=
  match flattenShaped d v with
  | none => none
  | some (acc, shape) => if shape.head? = some P.size then (packAll P acc).map fun s => (s, shape.tail) else none

/-- The unpacking loop (vec_shaped.rs:107-114): entry `j * len + i` of `s2` is lane `j` of `s[i]`.  (The code writes the entries in the
order of `i`, then `j`; each entry is written once.) -/
def unpackAll {S : Type} (P : Pack F S) (s : List S) : Option (List F) :=
  mapOpt (fun p => match s[p % s.length]? with
    | none => none
    | some x => (P.unpack x)[p / s.length]?) (List.range (s.length * P.size))

/-- `unflatten_shaped_unpack_simd` (vec_shaped.rs:99-120). -/
def unflattenUnpack {S : Type} (P : Pack F S) (d : Nat) (s : List S) (shape : List Nat) : Option (Nest F d) :=
  match unpackAll P s with
  | none => none
  | some s2 => unflattenShaped d s2 (P.size :: shape)

/-! ### Specification -/

/-- `v` is rectangular with the given dimensions (outermost first), all non-zero. -/
def Rect : (d : Nat) → List Nat → Nest F d → Prop
  | 0, sh, _ => sh = []
  | _ + 1, [], _ => False
  | d + 1, n :: sh, v => v.rows.length = n ∧ n ≠ 0 ∧ ∀ x ∈ v.rows, Rect d sh x

/-- Row-major elements. -/
def elems : (d : Nat) → Nest F d → List F
  | 0, x => [x.val]
  | d + 1, v => v.rows.flatMap (elems d)

/-! ### Proofs -/

theorem flatRows_spec {α : Type} (f : α → Option (List F × List Nat)) (el : α → List F) (sub : List Nat) : ∀ (vs : List α) (acc : List F),
    (∀ v ∈ vs, f v = some (el v, sub)) → flatRows f sub vs acc = some (acc ++ vs.flatMap el) := by
  intro vs
  induction vs with
  | nil => intro acc _; simp [flatRows]
  | cons v vs ih =>
    intro acc h
    simp only [flatRows, h v (by simp), if_true]
    rw [ih _ (fun w hw => h w (by simp [hw]))]
    simp

theorem flatRows_inv {α : Type} {f : α → Option (List F × List Nat)} {sub : List Nat} : ∀ {vs : List α} {acc r : List F},
    flatRows f sub vs acc = some r → ∀ v ∈ vs, ∃ t, f v = some (t, sub) := by
  intro vs
  induction vs with
  | nil => intro acc r _ v hv; simp at hv
  | cons v vs ih =>
    intro acc r h w hw
    simp only [flatRows] at h
    cases hf : f v with
    | none => rw [hf] at h; cases h
    | some p =>
      obtain ⟨t, s⟩ := p
      rw [hf] at h
      simp only at h
      split at h
      · rename_i e
        subst e
        rcases List.mem_cons.1 hw with rfl | hw
        · exact ⟨t, hf⟩
        · exact ih h w hw
      · cases h

theorem flat_of_rect : ∀ (d : Nat) (sh : List Nat) (v : Nest F d), Rect d sh v → flat d v = some (elems d v, sh.reverse) := by
  intro d
  induction d with
  | zero => intro sh v h; simp only [Rect] at h; subst h; rfl
  | succ d ih =>
    intro sh v h
    cases sh with
    | nil => exact absurd h (by simp [Rect])
    | cons n sh =>
      simp only [Rect] at h
      simp only [flat, elems]
      generalize v.rows = r at h ⊢
      obtain ⟨h1, h2, h3⟩ := h
      cases r with
      | nil => simp at h1; omega
      | cons v0 vs =>
        simp only [ih sh v0 (h3 v0 (by simp))]
        rw [flatRows_spec (flat d) (elems d) _ vs _ (fun w hw => ih sh w (h3 w (by simp [hw])))]
        simp only [List.flatMap_cons, List.reverse_cons]
        rw [← h1]
        rfl

theorem rect_of_flat : ∀ (d : Nat) (v : Nest F d) (t : List F) (s : List Nat), flat d v = some (t, s) → Rect d s.reverse v := by
  intro d
  induction d with
  | zero => intro v t s h; simp only [flat] at h; cases h; simp [Rect]
  | succ d ih =>
    intro v t s h
    simp only [flat] at h
    have hR : ∀ n sh, Rect (d + 1) (n :: sh) v ↔ v.rows.length = n ∧ n ≠ 0 ∧ ∀ x ∈ v.rows, Rect d sh x := fun n sh => by simp only [Rect]
    generalize v.rows = r at h hR
    cases r with
    | nil => cases h
    | cons v0 vs =>
      simp only at h
      cases h0 : flat d v0 with
      | none => rw [h0] at h; cases h
      | some p =>
        obtain ⟨t0, s0⟩ := p
        rw [h0] at h
        simp only at h
        cases h1 : flatRows (flat d) s0 vs t0 with
        | none => rw [h1] at h; cases h
        | some acc =>
          rw [h1] at h
          simp only at h
          cases h
          simp only [List.reverse_append, List.reverse_cons, List.reverse_nil, List.nil_append, List.singleton_append, hR]
          refine ⟨rfl, by omega, ?_⟩
          intro x hx
          rcases List.mem_cons.1 hx with rfl | hx
          · exact ih _ _ _ h0
          · obtain ⟨t, ht⟩ := flatRows_inv h1 x hx
            exact ih _ _ _ ht

theorem unflatRows_spec {α : Type} (g : List F → Option (α × List F)) (el : α → List F) : ∀ (vs : List α) (rest : List F),
    (∀ v ∈ vs, ∀ rest, g (el v ++ rest) = some (v, rest)) → unflatRows g vs.length (vs.flatMap el ++ rest) = some (vs, rest) := by
  intro vs
  induction vs with
  | nil => intro rest _; rfl
  | cons v vs ih =>
    intro rest h
    simp only [List.length_cons, unflatRows, List.flatMap_cons, List.append_assoc, h v (by simp)]
    rw [ih rest (fun w hw => h w (by simp [hw]))]

theorem unflat_elems : ∀ (d : Nat) (sh : List Nat) (v : Nest F d) (rest : List F), Rect d sh v → unflat d (elems d v ++ rest) sh = some (v, rest) := by
  intro d
  induction d with
  | zero => intro sh v rest h; simp only [Rect] at h; subst h; rfl
  | succ d ih =>
    intro sh v rest h
    cases sh with
    | nil => exact absurd h (by simp [Rect])
    | cons n sh =>
      simp only [Rect] at h
      obtain ⟨h1, _, h3⟩ := h
      simp only [unflat, elems]
      rw [← h1, unflatRows_spec _ (elems d) v.rows rest (fun w hw rest => ih sh w rest (h3 w hw))]
      rfl

theorem elems_length : ∀ (d : Nat) (sh : List Nat) (v : Nest F d), Rect d sh v → (elems d v).length = sh.prod := by
  intro d
  induction d with
  | zero => intro sh v h; simp only [Rect] at h; subst h; rfl
  | succ d ih =>
    intro sh v h
    cases sh with
    | nil => exact absurd h (by simp [Rect])
    | cons n sh =>
      simp only [Rect] at h
      simp only [elems]
      generalize v.rows = r at h ⊢
      obtain ⟨h1, _, h3⟩ := h
      simp only [List.length_flatMap, List.prod_cons]
      have hm : (List.map (fun a => (elems d a).length) r) = List.replicate n sh.prod := by
        rw [← h1]
        apply List.eq_replicate_iff.2
        refine ⟨by simp, ?_⟩
        intro b hb
        obtain ⟨a, ha, rfl⟩ := List.mem_map.1 hb
        exact ih sh a (h3 a ha)
      rw [hm, List.sum_replicate_nat]

/-- Splitting back: every slice of the right length is the flattening of a rectangular value. -/
theorem unflatRows_ex {α : Type} (g : List F → Option (α × List F)) (el : α → List F) (Q : α → Prop) (k : Nat)
    (hg : ∀ s : List F, k ≤ s.length → ∃ v rest, g s = some (v, rest) ∧ s = el v ++ rest ∧ Q v ∧ (el v).length = k) : ∀ (n : Nat) (s : List F),
    n * k ≤ s.length → ∃ vs rest, unflatRows g n s = some (vs, rest) ∧ s = vs.flatMap el ++ rest ∧ vs.length = n ∧ ∀ v ∈ vs, Q v := by
  intro n
  induction n with
  | zero => intro s _; exact ⟨[], s, rfl, rfl, rfl, by simp⟩
  | succ n ih =>
    intro s hs
    rw [Nat.succ_mul] at hs
    obtain ⟨v, rest, h1, h2, h3, h4⟩ := hg s (by omega)
    obtain ⟨vs, rest', g1, g2, g3, g4⟩ := ih rest (by have := congrArg List.length h2; simp at this; omega)
    refine ⟨v :: vs, rest', by simp only [unflatRows, h1, g1], ?_, by simp [g3], ?_⟩
    · rw [h2, g2]; simp
    · intro w hw
      rcases List.mem_cons.1 hw with rfl | hw
      · exact h3
      · exact g4 w hw

theorem unflat_ex : ∀ (d : Nat) (sh : List Nat) (s : List F), sh.length = d → (∀ n ∈ sh, n ≠ 0) → sh.prod ≤ s.length →
    ∃ v rest, unflat d s sh = some (v, rest) ∧ s = elems d v ++ rest ∧ Rect d sh v := by
  intro d
  induction d with
  | zero =>
    intro sh s hl _ hp
    have : sh = [] := List.eq_nil_of_length_eq_zero hl
    subst this
    cases s with
    | nil => simp at hp
    | cons x s => exact ⟨Nest.leaf x, s, rfl, rfl, rfl⟩
  | succ d ih =>
    intro sh s hl hz hp
    cases sh with
    | nil => simp at hl
    | cons n sh =>
      simp only [unflat]
      obtain ⟨vs, rest, h1, h2, h3, h4⟩ := unflatRows_ex (fun s => unflat d s sh) (elems d) (Rect d sh) sh.prod (by
        intro s hs
        obtain ⟨v, rest, h1, h2, h3⟩ := ih sh s (by simpa using hl) (fun n hn => hz n (by simp [hn])) hs
        exact ⟨v, rest, h1, h2, h3, elems_length _ _ _ h3⟩) n s (by simpa using hp)
      exact ⟨Nest.node vs, rest, by rw [h1]; rfl, h2, by simp only [Rect]; exact ⟨h3, hz n (by simp), h4⟩⟩

/-! ### SIMD -/

theorem packAll_ok {S : Type} (P : Pack F S) (acc : List F) (hd : P.size ∣ acc.length) : ∃ s, packAll P acc = some s ∧ s.length = acc.length / P.size ∧
    ∀ i : Nat, i < acc.length / P.size → ∃ l, l.length = P.size ∧ s[i]? = some (P.pack l) ∧ ∀ j, j < P.size → l[j]? = acc[j * (acc.length / P.size) + i]? := by
  obtain ⟨k, hk⟩ := hd
  have inner : ∀ i, i < acc.length / P.size → ∃ l, mapOpt (fun j => acc[j * (acc.length / P.size) + i]?) (List.range P.size) = some l := by
    intro i hi
    apply mapOpt_isSome
    intro j hj
    have hj' := List.mem_range.1 hj
    have hpos : 0 < P.size := by omega
    rw [List.getElem?_eq_getElem]
    · rfl
    · have e : acc.length / P.size = k := by rw [hk]; exact Nat.mul_div_cancel_left k hpos
      rw [e] at hi ⊢
      have : (j + 1) * k ≤ P.size * k := Nat.mul_le_mul_right k hj'
      rw [Nat.succ_mul] at this
      omega
  obtain ⟨s, hs⟩ := mapOpt_isSome (f := fun i => (mapOpt (fun j => acc[j * (acc.length / P.size) + i]?) (List.range P.size)).map P.pack)
    (l := List.range (acc.length / P.size)) (by
      intro i hi
      obtain ⟨l, hl⟩ := inner i (List.mem_range.1 hi)
      simp [hl])
  refine ⟨s, hs, by simpa using mapOpt_length hs, ?_⟩
  intro i hi
  obtain ⟨l, hl⟩ := inner i hi
  have h1 := mapOpt_getElem? hs i i (by simp [hi])
  rw [hl] at h1
  refine ⟨l, by simpa using mapOpt_length hl, h1.symm, ?_⟩
  intro j hj
  exact (mapOpt_getElem? hl j j (by simp [hj])).symm

theorem unpackAll_packAll {S : Type} (P : Pack F S) (hP : P.Lawful) (acc : List F) (hd : P.size ∣ acc.length) (s : List S)
    (hs : packAll P acc = some s) : unpackAll P s = some acc := by
  obtain ⟨s', h1, h2, h3⟩ := packAll_ok P acc hd
  rw [hs] at h1; cases h1
  have hlen : s.length * P.size = acc.length := by rw [h2]; exact Nat.div_mul_cancel hd
  have key : ∀ p, p < acc.length → (match s[p % s.length]? with
      | none => none
      | some x => (P.unpack x)[p / s.length]?) = acc[p]? := by
    intro p hp
    have hpos : 0 < s.length := by
      rcases Nat.eq_zero_or_pos s.length with h | h
      · rw [h] at hlen; omega
      · exact h
    have hm := Nat.mod_lt p hpos
    obtain ⟨l, hl, hsl, hget⟩ := h3 (p % s.length) (by omega)
    rw [hsl]
    simp only [hP.unpack_pack l hl]
    have hq : p / s.length < P.size := by
      rw [Nat.div_lt_iff_lt_mul hpos, Nat.mul_comm]
      omega
    rw [hget _ hq, ← h2]
    congr 1
    rw [Nat.mul_comm]
    exact Nat.div_add_mod p s.length
  obtain ⟨r, hr⟩ := mapOpt_isSome (f := fun p => match s[p % s.length]? with
      | none => none
      | some x => (P.unpack x)[p / s.length]?) (l := List.range (s.length * P.size)) (by
    intro p hp
    have hp' := List.mem_range.1 hp
    rw [key p (by omega)]
    rw [List.getElem?_eq_getElem (by omega)]; rfl)
  have e : unpackAll P s = some r := hr
  rw [e]
  congr 1
  apply List.ext_getElem?
  intro p
  by_cases hp : p < acc.length
  · rw [← key p hp]
    have hrg : (List.range (s.length * P.size))[p]? = some p := List.getElem?_range (by omega)
    exact (mapOpt_getElem? hr p p hrg).symm
  · have := mapOpt_length hr
    simp at this
    rw [List.getElem?_eq_none (by omega), List.getElem?_eq_none (by omega)]

end Verif.Zkcuda
