import Verif.Base
import Mathlib.Algebra.BigOperators.Group.List.Basic
import Mathlib.Algebra.Order.Ring.Nat
import Mathlib.Tactic.Ring

/-!
# `declare_circuit!` (frontend/circuit.rs) and `DumpLoadVariables` (frontend/variables.rs)
-/
set_option linter.unusedSectionVars false
set_option linter.unusedSimpArgs false
namespace Verif.Frontend

/-- A field type of a circuit struct (circuit.rs:1-23): `Variable`, `PublicVariable`, `[elem; n]`, `[elem]`, or any other type. -/
inductive FTy
  | var
  | pub
  | arr (elem : FTy) (n : Nat)
  | vec (elem : FTy)
  | other

/-- The Rust type of a field (circuit.rs:1-23), for variables of type `T`; a fixed array is a list whose length is checked by `FTy.Wf`. -/
def FTy.Val (T : Type) : FTy → Type
  | .var => T
  | .pub => T
  | .arr t _ => List (t.Val T)
  | .vec t => List (t.Val T)
  | .other => Unit

/-- Fixed arrays have their length. -/
def FTy.Wf {T : Type} : (t : FTy) → t.Val T → Prop
  | .var, _ => True
  | .pub, _ => True
  | .arr t n, v => List.length v = n ∧ ∀ x ∈ (show List (t.Val T) from v), t.Wf x
  | .vec t, v => ∀ x ∈ (show List (t.Val T) from v), t.Wf x
  | .other, _ => True

/-- Join the dumps of the items of an array. -/
def dumpList {T α : Type} (f : α → List T × List T) : List α → List T × List T
  | [] => ([], [])
  | x :: xs => ((f x).1 ++ (dumpList f xs).1, (f x).2 ++ (dumpList f xs).2)

/-- `declare_circuit_dump_into!` (circuit.rs:25-48): what is appended to `vars` and `public_vars`. -/
def FTy.dump {T : Type} : (t : FTy) → t.Val T → List T × List T
  | .var, v => ([v], [])
  | .pub, v => ([], [v])
  | .arr t _, v => dumpList (t.dump) v
  | .vec t, v => dumpList (t.dump) v
  | .other, _ => ([], [])

/-- Load the items of an array in order. -/
def loadList {T α : Type} (f : α → List T → List T → Option (α × List T × List T)) : List α → List T → List T → Option (List α × List T × List T)
  | [], s, p => some ([], s, p)
  | x :: xs, s, p => match f x s p with
    | none => none
    | some r => match loadList f xs r.2.1 r.2.2 with
      | none => none
      | some q => some (r.1 :: q.1, q.2)

/-- Reading one value from the front of a slice (variables.rs:20-23, 32-35); an empty slice panics. -/
def load1 {T : Type} : List T → Option (T × List T)
  | [] => none
  | x :: s => some (x, s)

/-- `declare_circuit_load_from!` (circuit.rs:50-73) into an existing value: new value and remaining slices. -/
def FTy.load {T : Type} : (t : FTy) → t.Val T → List T → List T → Option (t.Val T × List T × List T)
  | .var, _, s, p => (load1 s).map fun r => (r.1, r.2, p)
  | .pub, _, s, p => (load1 p).map fun r => (r.1, s, r.2)
  | .arr t _, v, s, p => loadList (t.load) v s p
  | .vec t, v, s, p => loadList (t.load) v s p
  | .other, v, s, p => some (v, s, p)

/-- Add up the counts of the items (the loop at circuit.rs:89-93). -/
def countList {α : Type} (f : α → Option (Nat × Nat)) : List α → Option (Nat × Nat)
  | [] => some (0, 0)
  | x :: xs => match f x with
    | none => none
    | some a => match countList f xs with
      | none => none
      | some b => some (a.1 + b.1, a.2 + b.2)

/-- `declare_circuit_num_vars!` (circuit.rs:75-97).  The macro passes the *expression* `field[0]` on for fixed arrays, so it is evaluated (and can be out of range)
only when a `[elem]` below it is iterated: the value is an `Option`, `none` being an expression that panics when evaluated. -/
def FTy.numVars {T : Type} : (t : FTy) → Option (t.Val T) → Nat → Option (Nat × Nat)
  | .var, _, k => some (k, 0)
  | .pub, _, k => some (0, k)
  | .arr t n, v, k => t.numVars (match v with | none => none | some l => List.head? l) (k * n)
  | .vec t, v, k => match v with
    | none => none
    | some l => countList (fun x => t.numVars (some x) k) l
  | .other, _, _ => some (0, 0)

/-- A struct: its fields in order, with their values. -/
abbrev Struct (T : Type) := List (Σ t : FTy, t.Val T)

/-- `dump_into` of the struct (circuit.rs:124-126). -/
def Struct.dump {T : Type} : Struct T → List T × List T
  | [] => ([], [])
  | f :: fs => ((f.1.dump f.2).1 ++ (Struct.dump fs).1, (f.1.dump f.2).2 ++ (Struct.dump fs).2)

/-- `load_from` of the struct (circuit.rs:127-130). -/
def Struct.load {T : Type} : Struct T → List T → List T → Option (Struct T × List T × List T)
  | [], s, p => some ([], s, p)
  | f :: fs, s, p => match f.1.load f.2 s p with
    | none => none
    | some r => match Struct.load fs r.2.1 r.2.2 with
      | none => none
      | some q => some (⟨f.1, r.1⟩ :: q.1, q.2)

/-- `num_vars` of the struct (circuit.rs:131-137). -/
def Struct.numVars {T : Type} : Struct T → Option (Nat × Nat)
  | [] => some (0, 0)
  | f :: fs => match f.1.numVars (some f.2) 1 with
    | none => none
    | some a => match Struct.numVars fs with
      | none => none
      | some b => some (a.1 + b.1, a.2 + b.2)

/-- `DumpLoadVariables::num_vars` for nested fixed arrays (variables.rs:54-56): `N * self[0].num_vars()`. -/
def FTy.traitNumVars {T : Type} : (t : FTy) → t.Val T → Option Nat
  | .var, _ => some 1
  | .arr t n, v => match List.head? v with
    | none => none
    | some x => (t.traitNumVars x).map (n * ·)
  | _, _ => none

/-! ### Specification: same shape, and rectangular values -/

/-- The number of secret and public variables dumped. -/
def FTy.size {T : Type} (t : FTy) (v : t.Val T) : Nat × Nat := ((t.dump v).1.length, (t.dump v).2.length)

/-- In every fixed array all elements hold the same number of variables, and an empty fixed array contains no `[elem]`. -/
def FTy.hasVec : FTy → Bool
  | .vec _ => true
  | .arr t _ => t.hasVec
  | _ => false

/-- **Rectangular**: in every fixed array all elements hold as many variables as the first one; a fixed array of length 0 has no vectors inside. -/
def FTy.Rect {T : Type} : (t : FTy) → t.Val T → Prop
  | .arr t n, v => (n = 0 → t.hasVec = false) ∧ (∀ x ∈ (show List (t.Val T) from v), t.Rect x) ∧
      ∀ x ∈ (show List (t.Val T) from v), ∀ y ∈ (show List (t.Val T) from v), t.size x = t.size y
  | .vec t, v => ∀ x ∈ (show List (t.Val T) from v), t.Rect x
  | _, _ => True

/-- The same shape: equal lengths of all arrays and vectors (the contents may differ, also in type); other fields equal. -/
def FTy.Same {T : Type} : (t : FTy) → t.Val T → t.Val T → Prop
  | .arr t _, v, w => List.Forall₂ (t.Same) v w
  | .vec t, v, w => List.Forall₂ (t.Same) v w
  | _, _, _ => True

/-! ### Dump and load -/

theorem loadList_dump {T α : Type} {f : α → List T → List T → Option (α × List T × List T)} {d : α → List T × List T} {R : α → α → Prop}
    (h : ∀ x w, R w x → ∀ s p, f w ((d x).1 ++ s) ((d x).2 ++ p) = some (x, s, p)) :
    ∀ (ws xs : List α), List.Forall₂ R ws xs → ∀ s p, loadList f ws ((dumpList d xs).1 ++ s) ((dumpList d xs).2 ++ p) = some (xs, s, p) := by
  intro ws xs hR
  induction hR with
  | nil => intro s p; rfl
  | cons h1 _ ih =>
    intro s p
    simp only [dumpList, loadList, List.append_assoc, h _ _ h1, ih]

theorem load_dump {T : Type} : ∀ (t : FTy) (v w : t.Val T), t.Same w v → ∀ s p, t.load w ((t.dump v).1 ++ s) ((t.dump v).2 ++ p) = some (v, s, p)
  | .var, _, _, _, _, _ => rfl
  | .pub, _, _, _, _, _ => rfl
  | .arr t n, v, w, h, s, p => loadList_dump (R := t.Same) (d := t.dump) (fun x w h s p => load_dump t x w h s p) w v h s p
  | .vec t, v, w, h, s, p => loadList_dump (R := t.Same) (d := t.dump) (fun x w h s p => load_dump t x w h s p) w v h s p
  | .other, _, _, _, _, _ => rfl

/-- Fields pairwise of the same type and shape. -/
inductive Struct.Same {T : Type} : Struct T → Struct T → Prop
  | nil : Struct.Same [] []
  | cons {t : FTy} {v w : t.Val T} {fs gs : Struct T} : t.Same v w → Struct.Same fs gs → Struct.Same (⟨t, v⟩ :: fs) (⟨t, w⟩ :: gs)

theorem struct_load_dump {T : Type} {ws vs : Struct T} (h : Struct.Same ws vs) (s p : List T) :
    Struct.load ws ((Struct.dump vs).1 ++ s) ((Struct.dump vs).2 ++ p) = some (vs, s, p) := by
  induction h with
  | nil => rfl
  | cons h1 _ ih => simp only [Struct.dump, Struct.load, List.append_assoc, load_dump _ _ _ h1, ih]

/-! ### Counting -/

theorem dumpList_length {T α : Type} (f : α → List T × List T) (xs : List α) :
    (dumpList f xs).1.length = (xs.map fun x => (f x).1.length).sum ∧ (dumpList f xs).2.length = (xs.map fun x => (f x).2.length).sum := by
  induction xs with
  | nil => exact ⟨rfl, rfl⟩
  | cons x xs ih => simp [dumpList, ih]

theorem countList_eq {α : Type} {f : α → Option (Nat × Nat)} {g : α → Nat × Nat} : ∀ (xs : List α), (∀ x ∈ xs, f x = some (g x)) →
    countList f xs = some ((xs.map fun x => (g x).1).sum, (xs.map fun x => (g x).2).sum) := by
  intro xs
  induction xs with
  | nil => intro _; rfl
  | cons x xs ih =>
    intro h
    simp only [List.forall_mem_cons] at h
    simp [countList, h.1, ih h.2]

/-- Without vectors the count does not look at the value and scales. -/
theorem numVars_static {T : Type} : ∀ (t : FTy), t.hasVec = false → ∃ a : Nat × Nat, (∀ v k, t.numVars (T := T) v k = some (k * a.1, k * a.2)) ∧
    ∀ v : t.Val T, t.Wf v → t.size v = a
  | .var, _ => ⟨(1, 0), fun v k => by simp [FTy.numVars], fun v _ => rfl⟩
  | .pub, _ => ⟨(0, 1), fun v k => by simp [FTy.numVars], fun v _ => rfl⟩
  | .other, _ => ⟨(0, 0), fun v k => by simp [FTy.numVars], fun v _ => rfl⟩
  | .vec t, h => by simp [FTy.hasVec] at h
  | .arr t n, h => by
    obtain ⟨a, h1, h2⟩ := numVars_static (T := T) t h
    refine ⟨(n * a.1, n * a.2), fun v k => ?_, fun v hv => ?_⟩
    · simp only [FTy.numVars, h1, Nat.mul_assoc]
    · have key : ∀ l : List (t.Val T), (∀ x ∈ l, t.Wf x) → ((dumpList (t.dump) l).1.length, (dumpList (t.dump) l).2.length) = (l.length * a.1, l.length * a.2) := by
        intro l
        induction l with
        | nil => intro _; simp [dumpList]
        | cons x l ih =>
          intro hl
          simp only [List.forall_mem_cons] at hl
          have e1 := ih hl.2
          have e2 := h2 x hl.1
          simp only [FTy.size, Prod.ext_iff] at e1 e2
          simp only [dumpList, List.length_append, List.length_cons, e1.1, e1.2, e2.1, e2.2, Nat.succ_mul, Prod.mk.injEq]
          exact ⟨Nat.add_comm _ _, Nat.add_comm _ _⟩
      have := key v hv.2
      rw [show List.length v = n from hv.1] at this
      exact this

theorem numVars_rect {T : Type} : ∀ (t : FTy) (v : t.Val T), t.Wf v → t.Rect v → ∀ k, t.numVars (some v) k = some (k * (t.size v).1, k * (t.size v).2)
  | .var, _, _, _, k => by show some (k, 0) = some (k * 1, k * 0); simp
  | .pub, _, _, _, k => by show some (0, k) = some (k * 0, k * 1); simp
  | .other, _, _, _, k => by simp [FTy.numVars, FTy.size, FTy.dump]
  | .vec t, v, hw, hr, k => by
    have ih := fun x (hx : x ∈ (show List (t.Val T) from v)) => numVars_rect t x (hw x hx) (hr x hx) k
    have e : (FTy.vec t).numVars (some v) k = countList (fun x => t.numVars (some x) k) (show List (t.Val T) from v) := rfl
    rw [e, countList_eq (g := fun x => (k * (t.size x).1, k * (t.size x).2)) _ ih]
    have hl := dumpList_length (t.dump) (show List (t.Val T) from v)
    have e2 : (FTy.vec t).size v = ((dumpList (t.dump) (show List (t.Val T) from v)).1.length, (dumpList (t.dump) (show List (t.Val T) from v)).2.length) := rfl
    rw [e2, hl.1, hl.2]
    have hm : ∀ (l : List (t.Val T)) (g : t.Val T → Nat), (l.map fun x => k * g x).sum = k * (l.map g).sum := by
      intro l g
      induction l with
      | nil => rfl
      | cons a l ih => simp only [List.map_cons, List.sum_cons, ih, Nat.mul_add]
    rw [hm, hm]
    rfl
  | .arr t n, v, hw, hr, k => by
    have hlist : ∀ l : List (t.Val T), l.length = n → (∀ x ∈ l, t.Wf x) → (∀ x ∈ l, t.Rect x) → (∀ x ∈ l, ∀ y ∈ l, t.size x = t.size y) → (n = 0 → t.hasVec = false) →
        t.numVars (List.head? l) (k * n) = some (k * (dumpList (t.dump) l).1.length, k * (dumpList (t.dump) l).2.length) := by
      intro l hl hw hr hs hz
      cases l with
      | nil =>
        have : n = 0 := by simpa using hl.symm
        obtain ⟨a, h1, _⟩ := numVars_static (T := T) t (hz this)
        rw [h1]; simp [dumpList, this]
      | cons x l =>
        have hx := numVars_rect t x (hw x (by simp)) (hr x (by simp)) (k * n)
        rw [List.head?_cons, hx]
        have hsum : ∀ m : List (t.Val T), (∀ y ∈ m, t.size y = t.size x) → (dumpList (t.dump) m).1.length = m.length * (t.size x).1 ∧ (dumpList (t.dump) m).2.length = m.length * (t.size x).2 := by
          intro m
          induction m with
          | nil => intro _; simp [dumpList]
          | cons y m ih =>
            intro h
            simp only [List.forall_mem_cons] at h
            have e1 := ih h.2
            have e2 := h.1
            simp only [FTy.size, Prod.ext_iff] at e1 e2
            simp only [dumpList, List.length_append, List.length_cons, e1.1, e1.2, e2.1, e2.2, Nat.succ_mul, FTy.size]
            exact ⟨Nat.add_comm _ _, Nat.add_comm _ _⟩
        have := hsum (x :: l) (fun y hy => hs y hy x (by simp))
        rw [this.1, this.2, hl, Nat.mul_assoc, Nat.mul_assoc]
    exact hlist v hw.1 hw.2 hr.2.1 hr.2.2 hr.1

theorem struct_numVars {T : Type} : ∀ (fs : Struct T), (∀ f ∈ fs, f.1.Wf f.2 ∧ f.1.Rect f.2) → Struct.numVars fs = some ((Struct.dump fs).1.length, (Struct.dump fs).2.length) := by
  intro fs
  induction fs with
  | nil => intro _; rfl
  | cons f fs ih =>
    intro h
    simp only [List.forall_mem_cons] at h
    simp only [Struct.numVars, numVars_rect f.1 f.2 h.1.1 h.1.2 1, ih h.2, Struct.dump, List.length_append, Nat.one_mul, FTy.size]

/-- Types made of `Variable` and nonempty fixed arrays. -/
def FTy.Arrays : FTy → Prop
  | .var => True
  | .arr t n => n ≠ 0 ∧ t.Arrays
  | _ => False

theorem traitNumVars_eq {T : Type} : ∀ (t : FTy), t.Arrays → ∃ m, (∀ v : t.Val T, t.Wf v → t.traitNumVars v = some m) ∧ ∀ v : t.Val T, t.Wf v → (t.dump v).1.length = m
  | .var, _ => ⟨1, fun _ _ => rfl, fun _ _ => rfl⟩
  | .pub, h => h.elim
  | .vec _, h => h.elim
  | .other, h => h.elim
  | .arr t n, h => by
    obtain ⟨m, h1, h2⟩ := traitNumVars_eq (T := T) t h.2
    refine ⟨n * m, fun v hv => ?_, fun v hv => ?_⟩
    · have key : ∀ l : List (t.Val T), l.length = n → (∀ x ∈ l, t.Wf x) → (match l.head? with | none => none | some x => (t.traitNumVars x).map (n * ·)) = some (n * m) := by
        intro l hl hw
        cases l with
        | nil => exact absurd hl.symm h.1
        | cons x l => simp only [List.head?_cons, h1 x (hw x (by simp)), Option.map_some]
      exact key v hv.1 hv.2
    · have key : ∀ l : List (t.Val T), (∀ x ∈ l, t.Wf x) → (dumpList (t.dump) l).1.length = l.length * m := by
        intro l
        induction l with
        | nil => intro _; simp [dumpList]
        | cons x l ih =>
          intro hl
          simp only [List.forall_mem_cons] at hl
          simp only [dumpList, List.length_append, h2 x hl.1, ih hl.2, List.length_cons]
          ring
      have := key v hv.2
      rw [show List.length v = n from hv.1] at this
      exact this

end Verif.Frontend
