import Verif.Zkcuda.VecShaped

/-!
# C34 — Flattening and unflattening nested vectors are inverse

English: `unflatten_shaped(flatten_shaped(v)) = v` for rectangular nested vectors, also for the SIMD-packed variants.
-/

namespace Verif.Props

open Zkcuda

variable {F : Type}

/-- A rectangular nested vector flattens to its row-major elements and its dimensions, and unflattening gives it back. -/
theorem C34_roundtrip (d : Nat) (sh : List Nat) (v : Nest F d) (h : Rect d sh v) :
    flattenShaped d v = some (elems d v, sh) ∧ (elems d v).length = sh.prod ∧ unflattenShaped d (elems d v) sh = some v := by
  refine ⟨by simp [flattenShaped, flat_of_rect d sh v h], elems_length d sh v h, ?_⟩
  have := unflat_elems d sh v [] h
  rw [List.append_nil] at this
  simp [unflattenShaped, this]

/-- Flattening panics exactly on nested vectors that are not rectangular (or have an empty level). -/
theorem C34_flatten_panics (d : Nat) (v : Nest F d) : flattenShaped d v = none ↔ ¬ ∃ sh, Rect d sh v := by
  constructor
  · rintro h ⟨sh, hr⟩
    simp [flattenShaped, flat_of_rect d sh v hr] at h
  · intro h
    cases hf : flat d v with
    | none => simp [flattenShaped, hf]
    | some p => exact absurd ⟨_, rect_of_flat d v p.1 p.2 hf⟩ h

/-- The other direction: data of the right length unflattens to a rectangular value that flattens to the same data and shape. -/
theorem C34_unflatten (d : Nat) (sh : List Nat) (s : List F) (hl : sh.length = d) (hz : ∀ n ∈ sh, n ≠ 0) (hs : s.length = sh.prod) :
    ∃ v, unflattenShaped d s sh = some v ∧ Rect d sh v ∧ flattenShaped d v = some (s, sh) := by
  obtain ⟨v, rest, h1, h2, h3⟩ := unflat_ex d sh s hl hz (by omega)
  have hr : rest = [] := by
    have := congrArg List.length h2
    rw [List.length_append, elems_length d sh v h3] at this
    exact List.eq_nil_of_length_eq_zero (by omega)
  subst hr
  rw [List.append_nil] at h2
  exact ⟨v, by simp [unflattenShaped, h1], h3, by rw [(C34_roundtrip d sh v h3).1, h2]⟩

/-- The SIMD-packed variants: the outermost dimension has one entry per lane. -/
theorem C34_simd {S : Type} (P : Pack F S) (hP : P.Lawful) (d : Nat) (sh : List Nat) (v : Nest F d) (h : Rect d (P.size :: sh) v) :
    ∃ s, flattenPack P d v = some (s, sh) ∧ s.length = sh.prod ∧ unflattenUnpack P d s sh = some v ∧
      ∀ i : Nat, i < sh.prod → ∃ x, s[i]? = some x ∧ ∀ j, j < P.size → (P.unpack x)[j]? = (elems d v)[j * sh.prod + i]? := by
  obtain ⟨h1, h2, h3⟩ := C34_roundtrip d (P.size :: sh) v h
  have hlen : (elems d v).length / P.size = sh.prod := by rw [h2, List.prod_cons]; exact Nat.mul_div_cancel_left _ hP.pos
  have hd : P.size ∣ (elems d v).length := ⟨sh.prod, by rw [h2, List.prod_cons]⟩
  obtain ⟨s, e1, e2, e3⟩ := packAll_ok P (elems d v) hd
  refine ⟨s, by simp [flattenPack, h1, e1], by rw [e2, hlen], ?_, ?_⟩
  · simp only [unflattenUnpack, unpackAll_packAll P hP _ hd s e1]
    exact h3
  · intro i hi
    obtain ⟨l, l1, l2, l3⟩ := e3 i (by rw [hlen]; exact hi)
    refine ⟨_, l2, ?_⟩
    intro j hj
    rw [hP.unpack_pack l l1, l3 j hj, hlen]

/-- A 2×3 matrix. -/
def mat23 : Nest Nat 2 := Nest.node [Nest.node [Nest.leaf 1, Nest.leaf 2, Nest.leaf 3], Nest.node [Nest.leaf 4, Nest.leaf 5, Nest.leaf 6]]

example : Rect 2 [2, 3] mat23 := rect_of_flat 2 mat23 [1, 2, 3, 4, 5, 6] [3, 2] rfl

example : flattenShaped 2 mat23 = some ([1, 2, 3, 4, 5, 6], [2, 3]) := rfl

/-- Ragged rows are rejected. -/
example : flattenShaped 2 (Nest.node [Nest.node [Nest.leaf 1, Nest.leaf 2], Nest.node [Nest.leaf 4]] : Nest Nat 2) = none := rfl

/-- Two lanes as a pair. -/
def pairPack : Pack Nat (Nat × Nat) := ⟨2, fun l => (l.getD 0 0, l.getD 1 0), fun x => [x.1, x.2]⟩

example : pairPack.Lawful := by
  refine ⟨by decide, fun _ => rfl, ?_, fun _ => rfl⟩
  intro l h
  match l, h with
  | [a, b], _ => rfl

example : flattenPack pairPack 2 mat23 = some ([(1, 4), (2, 5), (3, 6)], [3]) := rfl

end Verif.Props
