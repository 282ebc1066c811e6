import Verif.Frontend.Declare

/-!
# C33: circuit structs: counts match dumps

A struct made by `declare_circuit!` is a list of fields (`Struct`); `T` is the type of variables (`Variable`, or a field element in an assignment).
-/
namespace Verif.Props
open Verif.Frontend

variable {T : Type}

/-- **What is loaded is what was dumped**, for every struct: `load_from` into a struct of the same shape (the same vector lengths) reads back exactly the values that
`dump_into` wrote, and leaves what follows. -/
theorem C33_load_dump (vs template : Struct T) (h : Struct.Same template vs) (moreSecret morePublic : List T) :
    template.load (vs.dump.1 ++ moreSecret) (vs.dump.2 ++ morePublic) = some (vs, moreSecret, morePublic) := struct_load_dump h moreSecret morePublic

/-- **Partial**: `num_vars` is the number of secret and public values that `dump_into` writes, provided every fixed array is rectangular.  Missing: false for ragged
vectors inside a fixed array (`C33_violated`), and panics for a fixed array of length 0 containing vectors (`C33_empty_violated`). -/
theorem C33_num_vars_partial (vs : Struct T) (hw : ∀ f ∈ vs, f.1.Wf f.2) (hr : ∀ f ∈ vs, f.1.Rect f.2) :
    vs.numVars = some (vs.dump.1.length, vs.dump.2.length) := struct_numVars vs fun f hf => ⟨hw f hf, hr f hf⟩

/-- A field type without vectors inside a fixed array: `Variable`, `PublicVariable`, fixed arrays of those, and vectors of such. -/
def vecsOutside : FTy → Bool
  | .arr t _ => !t.hasVec
  | .vec t => vecsOutside t
  | _ => true

theorem rect_of_static : ∀ (t : FTy) (v : t.Val T), t.hasVec = false → t.Wf v → t.Rect v
  | .var, _, _, _ => trivial
  | .pub, _, _, _ => trivial
  | .other, _, _, _ => trivial
  | .vec _, _, h, _ => by simp [FTy.hasVec] at h
  | .arr t n, v, h, hw => by
    obtain ⟨a, _, h2⟩ := numVars_static (T := T) t h
    exact ⟨fun _ => h, fun x hx => rect_of_static t x h (hw.2 x hx), fun x hx y hy => (h2 x (hw.2 x hx)).trans (h2 y (hw.2 y hy)).symm⟩

theorem rect_of_outside : ∀ (t : FTy) (v : t.Val T), vecsOutside t = true → t.Wf v → t.Rect v
  | .var, _, _, _ => trivial
  | .pub, _, _, _ => trivial
  | .other, _, _, _ => trivial
  | .vec t, v, h, hw => fun x hx => rect_of_outside t x h (hw x hx)
  | .arr t n, v, h, hw => rect_of_static (.arr t n) v (by simpa [vecsOutside, FTy.hasVec] using h) hw

/-- **Unconditionally for types without vectors inside fixed arrays** (vectors of arrays, arrays of arrays, vectors of vectors of any, also ragged, lengths):
`num_vars` is exact. -/
theorem C33_num_vars (vs : Struct T) (hw : ∀ f ∈ vs, f.1.Wf f.2) (ht : ∀ f ∈ vs, vecsOutside f.1 = true) :
    vs.numVars = some (vs.dump.1.length, vs.dump.2.length) := C33_num_vars_partial vs hw fun f hf => rect_of_outside f.1 f.2 (ht f hf) (hw f hf)

/-- The trait method `DumpLoadVariables::num_vars` on nested fixed arrays of nonzero lengths (variables.rs). -/
theorem C33_trait_num_vars (t : FTy) (ht : t.Arrays) (v : t.Val T) (hw : t.Wf v) : t.traitNumVars v = some (t.dump v).1.length := by
  obtain ⟨m, h1, h2⟩ := traitNumVars_eq (T := T) t ht
  rw [h1 v hw, h2 v hw]

/-! ### Violations and concrete cases -/

/-- `x: [[Variable]; 2]` with vectors of lengths 1 and 2. -/
def ragged : Struct Nat := [⟨.arr (.vec .var) 2, ([[10], [11, 12]] : List (List Nat))⟩]

/-- **C33 is violated** for ragged vectors inside a fixed array: `num_vars` says 2, `dump_into` writes 3 values. -/
theorem C33_violated : (∀ f ∈ ragged, f.1.Wf f.2) ∧ ragged.numVars = some (2, 0) ∧ ragged.dump = ([10, 11, 12], []) := by
  refine ⟨?_, rfl, rfl⟩
  intro f hf
  simp only [ragged, List.mem_singleton] at hf
  subst hf
  refine ⟨rfl, fun x hx => ?_⟩
  intro _ _
  trivial

/-- `x: [[Variable]; 0]`: `num_vars` panics (index out of range), `dump_into` writes nothing. -/
theorem C33_empty_violated : Struct.numVars ([⟨.arr (.vec .var) 0, ([] : List (List Nat))⟩] : Struct Nat) = none ∧
    Struct.dump ([⟨.arr (.vec .var) 0, ([] : List (List Nat))⟩] : Struct Nat) = ([], []) := ⟨rfl, rfl⟩

/-- A struct with all kinds of fields: `a: Variable, b: [[PublicVariable; 2]; 2], c: [[Variable]]` (ragged). -/
def mixed : Struct Nat := [⟨.var, (1 : Nat)⟩, ⟨.arr (.arr .pub 2) 2, ([[2, 3], [4, 5]] : List (List Nat))⟩, ⟨.vec (.vec .var), ([[6], [], [7, 8]] : List (List Nat))⟩]
def blank : Struct Nat := [⟨.var, (0 : Nat)⟩, ⟨.arr (.arr .pub 2) 2, ([[0, 0], [0, 0]] : List (List Nat))⟩, ⟨.vec (.vec .var), ([[0], [], [0, 0]] : List (List Nat))⟩]

theorem mixed_wf : ∀ f ∈ mixed, f.1.Wf f.2 := by
  intro f hf
  simp only [mixed, List.mem_cons, List.not_mem_nil, or_false] at hf
  rcases hf with rfl | rfl | rfl
  · trivial
  · refine ⟨rfl, fun x hx => ?_⟩
    have hl : ∀ y : List Nat, y ∈ ([[2, 3], [4, 5]] : List (List Nat)) → y.length = 2 := by decide
    exact ⟨hl x hx, fun _ _ => trivial⟩
  · exact fun _ _ _ _ => trivial

example : mixed.numVars = some (4, 4) ∧ mixed.dump = ([1, 6, 7, 8], [2, 3, 4, 5]) := ⟨rfl, rfl⟩
example : mixed.numVars = some (mixed.dump.1.length, mixed.dump.2.length) :=
  C33_num_vars mixed mixed_wf (by
    intro f hf
    simp only [mixed, List.mem_cons, List.not_mem_nil, or_false] at hf
    rcases hf with rfl | rfl | rfl <;> rfl)

example : Struct.Same blank mixed := by
  have h0 : ∀ l m : List Nat, l.length = m.length → List.Forall₂ (FTy.Same (T := Nat) .var) l m := by
    intro l
    induction l with
    | nil => intro m h; cases m with
      | nil => exact .nil
      | cons => simp at h
    | cons a l ih => intro m h; cases m with
      | nil => simp at h
      | cons b m => exact .cons trivial (ih m (by simpa using h))
  have h1 : ∀ l m : List Nat, l.length = m.length → List.Forall₂ (FTy.Same (T := Nat) .pub) l m := by
    intro l
    induction l with
    | nil => intro m h; cases m with
      | nil => exact .nil
      | cons => simp at h
    | cons a l ih => intro m h; cases m with
      | nil => simp at h
      | cons b m => exact .cons trivial (ih m (by simpa using h))
  exact .cons trivial (.cons (.cons (h1 _ _ rfl) (.cons (h1 _ _ rfl) .nil)) (.cons (.cons (h0 _ _ rfl) (.cons (h0 _ _ rfl) (.cons (h0 _ _ rfl) .nil))) .nil))

end Verif.Props
