import Verif.Zkcuda.Shape

/-!
# C35 — Reading a reshaped and transposed handle gives the mathematical result

English: after any sequence of transposes and reshapes, reading a handle back gives the row-major array obtained by applying each operation
mathematically (numpy semantics).

`Means ops sh data sh' data'` is the specification (reshape keeps the row-major data; a transposition by `axes` satisfies
`result[i_{axes 0}, i_{axes 1}, …] = data[i_0, i_1, …]`).
-/

namespace Verif.Props

open Zkcuda

/-- For every legal sequence of operations on an array with at least one element: no operation panics, the recorded shape is the mathematical
shape and `permute_vec` returns the mathematical data. -/
theorem C35_permute {T : Type} (sh : List Nat) (data : List T) (hl : data.length = sh.prod) (h0 : sh.prod ≠ 0) (ops : List ShapeOp) (sh' : List Nat)
    (data' : List T) (hm : Means ops sh data sh' data') :
    ∃ h, (History.new sh).run ops = some h ∧ h.shape = some sh' ∧ h.permuteVec data = some data' := by
  obtain ⟨h, h1, h2⟩ := run_denotes (denotes_new data sh hl h0) hm
  exact ⟨h, h1, denotes_shape h2, denotes_permute h2⟩

/-- The specification gives every legal sequence exactly one result. -/
theorem C35_spec_total {T : Type} (sh : List Nat) (data : List T) (hl : data.length = sh.prod) (h0 : sh.prod ≠ 0) (ops : List ShapeOp)
    (ho : OpsOk ops sh) : ∃ sh' data', Means ops sh data sh' data' ∧ ∀ sh'' data'', Means ops sh data sh'' data'' → sh'' = sh' ∧ data'' = data' := by
  obtain ⟨sh', data', hm⟩ := means_total ops sh data hl h0 ho
  refine ⟨sh', data', hm, ?_⟩
  intro sh'' data'' hm'
  obtain ⟨h1, a1, a2, a3⟩ := C35_permute sh data hl h0 ops _ _ hm
  obtain ⟨h2, b1, b2, b3⟩ := C35_permute sh data hl h0 ops _ _ hm'
  rw [a1] at b1; cases b1
  rw [a2] at b2; cases b2
  rw [a3] at b3; cases b3
  exact ⟨rfl, rfl⟩

/-- Operations that are not legal panic: a reshape to a different number of elements, a transposition with the wrong number of axes. -/
theorem C35_illegal (h : History) (sh axes : List Nat) : (sh.prod ≠ h.vecLen → h.reshape sh = none) ∧
    ∀ e, h.entries.getLast? = some e → axes.length ≠ e.shape.length → h.transpose axes = none := by
  refine ⟨fun hp => by unfold History.reshape; rw [if_pos hp], ?_⟩
  intro e he hl
  unfold History.transpose
  rw [he]
  simp [hl]

/-- The case of the unit test, and a legal sequence with a reshape between two transpositions. -/
example : OpsOk [.transpose [2, 0, 1], .reshape [2, 3, 2], .transpose [2, 0, 1]] [2, 3, 2] := by
  refine ⟨by decide, by decide, by decide, trivial⟩

example : ((History.new [2, 3, 2]).run [.transpose [2, 0, 1], .reshape [2, 3, 2], .transpose [2, 0, 1]]).map
    (fun h => (h.shape, h.permuteVec [1, 2, 3, 4, 5, 6, 7, 8, 9, 10, 11, 12])) =
    some (some [2, 2, 3], some [1, 5, 9, 2, 6, 10, 3, 7, 11, 4, 8, 12]) := by decide

end Verif.Props
