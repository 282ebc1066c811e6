import Verif.Zkcuda.Padding

/-!
# C36 — The padding mapping and the padded data agree

English: `shape_padded_mapping` sends each element to the position where `multi_dimension_data_padding` puts it; padded lengths are the products of
next powers of two; padding repeats existing data.
-/

namespace Verif.Props

open Zkcuda

/-- Every padded position holds the element whose coordinates are the coordinates of the position cut off at the end of the data. -/
theorem C36_padding {T : Type} (sh : List Nat) (h0 : ∀ n ∈ sh, n ≠ 0) (data : List T) (hd : data.length = sh.prod) :
    ∃ out, padData sh data = some out ∧ out.length = (sh.map Pow2.next).prod ∧
      ∀ idx, Valid (sh.map Pow2.next) idx →
        out[ravel (sh.map Pow2.next) idx]? = data[ravel sh (List.zipWith (fun n i => min i (n - 1)) sh idx)]? :=
  padData_ok sh h0 data hd

/-- The mapping sends element `i` of the data to a position of the padded data that holds the same element; distinct elements go to distinct
positions, and the target size is the padded length. -/
theorem C36_mapping {T : Type} (sh : List Nat) (h0 : ∀ n ∈ sh, n ≠ 0) (data : List T) (hd : data.length = sh.prod) :
    (paddedMapping sh).nextSize = paddedLen sh ∧ (paddedMapping sh).mapping.length = data.length ∧ (paddedMapping sh).Injective ∧
      ∃ out, padData sh data = some out ∧ out.length = paddedLen sh ∧
        ∀ i, i < data.length → ∃ j, (paddedMapping sh).mapping[i]? = some (some j) ∧ j < out.length ∧ out[j]? = data[i]? := by
  obtain ⟨m1, m2, m3⟩ := paddedMapping_spec sh h0
  obtain ⟨out, o1, o2, o3⟩ := padData_ok sh h0 data hd
  refine ⟨m1, by rw [m2, hd], ?_, out, o1, o2, ?_⟩
  · -- distinct positions: use the identity data
    obtain ⟨out', p1, p2, p3⟩ := padData_ok (T := Nat) sh h0 (List.range sh.prod) (by simp)
    have key : ∀ i j : Nat, (paddedMapping sh).mapping[i]? = some (some j) → out'[j]? = some i := by
      intro i j hi
      have hlt : i < sh.prod := by
        by_contra hh
        rw [List.getElem?_eq_none (by omega)] at hi
        cases hi
      obtain ⟨idx, hv, rfl⟩ := ravel_surj sh i hlt
      rw [m3 idx hv] at hi
      cases hi
      rw [p3 idx (valid_padded hv), clamp_valid hv, List.getElem?_range hlt]
    intro i1 i2 j e1 e2
    have a := key i1 j e1
    have b := key i2 j e2
    rw [a] at b
    exact Option.some.inj b
  · intro i hi
    obtain ⟨idx, hv, rfl⟩ := ravel_surj sh i (by omega)
    refine ⟨_, m3 idx hv, ?_, ?_⟩
    · rw [o2]; exact ravel_lt (valid_padded hv)
    · rw [o3 idx (valid_padded hv), clamp_valid hv]

/-- Padding only repeats existing elements. -/
theorem C36_repeats {T : Type} (sh : List Nat) (h0 : ∀ n ∈ sh, n ≠ 0) (data : List T) (hd : data.length = sh.prod) (out : List T)
    (ho : padData sh data = some out) : ∀ x ∈ out, x ∈ data := by
  obtain ⟨out', o1, o2, o3⟩ := padData_ok sh h0 data hd
  rw [ho] at o1; cases o1
  intro x hx
  obtain ⟨p, hp, rfl⟩ := List.mem_iff_getElem.1 hx
  obtain ⟨idx, hv, e⟩ := ravel_surj (sh.map Pow2.next) p (by rw [← show paddedLen sh = (sh.map Pow2.next).prod from rfl]; omega)
  have := o3 idx hv
  rw [e, List.getElem?_eq_getElem hp] at this
  exact List.mem_of_getElem? this.symm

example : padData [3, 3] [1, 2, 3, 4, 5, 6, 7, 8, 9] = some [1, 2, 3, 3, 4, 5, 6, 6, 7, 8, 9, 9, 7, 8, 9, 9] := by decide

example : (paddedMapping [2, 3]).mapping = [0, 1, 2, 4, 5, 6].map some := by decide

end Verif.Props
