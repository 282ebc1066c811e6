import Verif.Frontend.Program

/-!
# Arguments of memoised functions (frontend/sub_circuit.rs) and the memoisation key (macros/src/lib.rs, frontend/builder.rs)

A parameter of a `#[memorized]` function is a `Variable` or a primitive integer inside some number of `Vec`s (`ParamInfo { kind, vec_depth }`,
macros/src/lib.rs:105-123).
-/
set_option linter.unusedSectionVars false
set_option linter.unusedSimpArgs false
namespace Verif.Frontend
open Verif.IR

/-! ### Nested vectors -/

/-- `Vec<..Vec<α>..>` with `n` `Vec`s. -/
def Nest (α : Type) : Nat → Type
  | 0 => α
  | n + 1 => List (Nest α n)

/-- **Specification** of “the same structure”: replace the elements. -/
def Nest.map {α β : Type} (f : α → β) : (n : Nat) → Nest α n → Nest β n
  | 0, x => f x
  | n + 1, xs => List.map (Nest.map f n) xs

/-- The list case of `join_vec_variables` (sub_circuit.rs:20-24): the items in order. -/
def joinList {α : Type} (f : α → Option (List Nat × List Nat)) : List α → Option (List Nat × List Nat)
  | [] => some ([], [])
  | x :: xs => match f x with
    | none => none
    | some p => match joinList f xs with
      | none => none
      | some q => some (p.1 ++ q.1, p.2 ++ q.2)

/-- `join_vec_variables` of one variable (sub_circuit.rs:11-16), `ensure_variable_valid` first. -/
def joinVar (v : Nat) : Option (List Nat × List Nat) := if v = 0 then none else some ([v], [])

/-- `JoinVecVariables::join_vec_variables` (sub_circuit.rs:7-31): what is appended to `res` and to `structure`; a variable with id 0 panics. -/
def join : (n : Nat) → Nest Nat n → Option (List Nat × List Nat)
  | 0, v => joinVar v
  | n + 1, xs => (joinList (join n) xs).map fun p => (p.1, xs.length :: p.2)

/-- The loop of `rebuild_vec_variables` (sub_circuit.rs:46-54): `len` items. -/
def rebuildList {α : Type} (f : List Nat → List Nat → Option (α × List Nat × List Nat)) : Nat → List Nat → List Nat → Option (List α × List Nat × List Nat)
  | 0, s, st => some ([], s, st)
  | k + 1, s, st => match f s st with
    | none => none
    | some p => match rebuildList f k p.2.1 p.2.2 with
      | none => none
      | some q => some (p.1 :: q.1, q.2)

/-- `RebuildVecVariables::rebuild_vec_variables` (sub_circuit.rs:33-55); out-of-range slices panic. -/
def rebuild : (n : Nat) → List Nat → List Nat → Option (Nest Nat n × List Nat × List Nat)
  | 0, s, st => match s with
    | [] => none
    | v :: s => some (v, s, st)
  | n + 1, s, st => match st with
    | [] => none
    | len :: st => rebuildList (rebuild n) len s st

/-- `HashStructureAndPrimitive for Vec<T>` (sub_circuit.rs:85-93): decimal length, `;`, the items.  Also `for Variable` / for primitives (sub_circuit.rs:61-83)
through `e`. -/
def encNest {α : Type} (e : α → List Char) : (n : Nat) → Nest α n → List Char
  | 0, x => e x
  | n + 1, xs => Nat.toDigits 10 (List.length xs) ++ ';' :: List.flatMap (encNest e n) xs

/-- `to_string` of an integer. -/
def decInt : Int → List Char
  | .ofNat n => Nat.toDigits 10 n
  | .negSucc n => '-' :: Nat.toDigits 10 (n + 1)

/-- `HashStructureAndPrimitive` for a primitive (sub_circuit.rs:76-83): decimal length of the text, `,`, the text. -/
def encPrim (i : Int) : List Char := Nat.toDigits 10 (decInt i).length ++ ',' :: decInt i

/-- An argument of a memoised function; `V` is the type of variables. -/
inductive AVal (V : Type)
  | var (depth : Nat) (x : Nest V depth)
  | prim (depth : Nat) (x : Nest Int depth)

/-- The type of an argument: `ParamInfo` kind (true: variable) and vec_depth. -/
def AVal.param {V : Type} : AVal V → Bool × Nat
  | .var n _ => (true, n)
  | .prim n _ => (false, n)

/-- **Specification**: structure and primitive values of an argument, without the identities of the variables. -/
def AVal.skel {V : Type} : AVal V → AVal Unit
  | .var n x => .var n (Nest.map (fun _ => ()) n x)
  | .prim n x => .prim n x

/-- `hash_structure_and_primitive` of one argument. -/
def AVal.enc {V : Type} : AVal V → List Char
  | .var n x => encNest (fun _ => []) n x
  | .prim n x => encNest encPrim n x

/-- The bytes fed to the hash by a `#[memorized]` call (macros/src/lib.rs:239-243). -/
def memoKey {V : Type} (args : List (AVal V)) : List Nat := ("memorized".toList ++ args.flatMap AVal.enc).map Char.toNat

/-- `join_variable_calls` (macros/src/lib.rs:147-154, 237): all variable arguments, in order. -/
def joinArgs : List (AVal Nat) → Option (List Nat × List Nat)
  | [] => some ([], [])
  | .prim _ _ :: as => joinArgs as
  | .var n x :: as => match join n x with
    | none => none
    | some p => match joinArgs as with
      | none => none
      | some q => some (p.1 ++ q.1, p.2 ++ q.2)

/-- `rebuild_vars` (macros/src/lib.rs:163-187, 249-252): variables come from the sub-circuit inputs, primitives are captured. -/
def rebuildArgs : List (AVal Nat) → List Nat → List Nat → Option (List (AVal Nat))
  | [], _, _ => some []
  | .prim n x :: as, s, st => (rebuildArgs as s st).map fun r => .prim n x :: r
  | .var n _ :: as, s, st => match rebuild n s st with
    | none => none
    | some p => (rebuildArgs as p.2.1 p.2.2).map fun r => .var n p.1 :: r

/-! ### Joining and rebuilding -/

theorem joinList_rebuild {α : Type} {f : α → Option (List Nat × List Nat)} {g : List Nat → List Nat → Option (α × List Nat × List Nat)}
    (hfg : ∀ x p, f x = some p → ∀ s st, g (p.1 ++ s) (p.2 ++ st) = some (x, s, st)) :
    ∀ (xs : List α) (p : List Nat × List Nat), joinList f xs = some p → ∀ s st, rebuildList g xs.length (p.1 ++ s) (p.2 ++ st) = some (xs, s, st) := by
  intro xs
  induction xs with
  | nil => intro p h s st; simp only [joinList, Option.some.injEq] at h; subst h; rfl
  | cons x xs ih =>
    intro p h s st
    simp only [joinList] at h
    cases hx : f x with
    | none => simp [hx] at h
    | some a =>
      cases hxs : joinList f xs with
      | none => simp [hx, hxs] at h
      | some b =>
        simp only [hx, hxs, Option.some.injEq] at h
        subst h
        simp only [List.length_cons, rebuildList, List.append_assoc, hfg x a hx, ih b hxs]

/-- Rebuilding what was joined gives it back and consumes exactly what was written. -/
theorem rebuild_join : ∀ (n : Nat) (x : Nest Nat n) (p : List Nat × List Nat), join n x = some p → ∀ s st, rebuild n (p.1 ++ s) (p.2 ++ st) = some (x, s, st) := by
  intro n
  induction n with
  | zero =>
    intro x p h s st
    simp only [join, joinVar] at h
    split at h
    · simp at h
    · simp only [Option.some.injEq] at h; subst h; rfl
  | succ n ih =>
    intro x p h s st
    simp only [join, Option.map_eq_some_iff] at h
    obtain ⟨q, hq, rfl⟩ := h
    exact joinList_rebuild (fun y p hy s st => ih y p hy s st) x q hq s st

/-- Joining succeeds unless a variable has id 0. -/
def Nest.All {α : Type} (P : α → Prop) : (n : Nat) → Nest α n → Prop
  | 0, x => P x
  | n + 1, xs => ∀ x ∈ (show List (Nest α n) from xs), Nest.All P n x

theorem joinList_isSome {α : Type} {f : α → Option (List Nat × List Nat)} : ∀ (xs : List α), (joinList f xs).isSome ↔ ∀ x ∈ xs, (f x).isSome := by
  intro xs
  induction xs with
  | nil => simp [joinList]
  | cons x xs ih =>
    simp only [joinList, List.forall_mem_cons, ← ih]
    cases f x <;> cases joinList f xs <;> simp

theorem join_isSome : ∀ (n : Nat) (x : Nest Nat n), (join n x).isSome ↔ Nest.All (· ≠ 0) n x := by
  intro n
  induction n with
  | zero =>
    intro x
    have : ∀ v : Nat, (joinVar v).isSome ↔ v ≠ 0 := by intro v; simp only [joinVar]; split <;> simp_all
    exact this x
  | succ n ih =>
    intro x
    simp only [join, Option.isSome_map, Nest.All]
    exact (joinList_isSome _).trans (forall_congr' fun y => imp_congr_right fun _ => ih y)


/-! ### Structure of joined values -/

theorem joinList_shape {α β : Type} {f : α → Option (List Nat × List Nat)} {sh : α → β}
    (hf : ∀ x y p q, f x = some p → f y = some q → sh x = sh y → p.2 = q.2 ∧ p.1.length = q.1.length) :
    ∀ (xs ys : List α) (p q : List Nat × List Nat), joinList f xs = some p → joinList f ys = some q → xs.map sh = ys.map sh → p.2 = q.2 ∧ p.1.length = q.1.length := by
  intro xs
  induction xs with
  | nil =>
    intro ys p q hp hq h
    cases ys with
    | nil => simp_all [joinList]
    | cons => simp at h
  | cons x xs ih =>
    intro ys p q hp hq h
    cases ys with
    | nil => simp at h
    | cons y ys =>
      simp only [List.map_cons, List.cons.injEq] at h
      simp only [joinList] at hp hq
      cases hx : f x with
      | none => simp [hx] at hp
      | some a =>
        cases hxs : joinList f xs with
        | none => simp [hx, hxs] at hp
        | some b =>
          cases hy : f y with
          | none => simp [hy] at hq
          | some c =>
            cases hys : joinList f ys with
            | none => simp [hy, hys] at hq
            | some d =>
              simp only [hx, hxs, Option.some.injEq] at hp
              simp only [hy, hys, Option.some.injEq] at hq
              subst hp; subst hq
              have h1 := hf x y a c hx hy h.1
              have h2 := ih ys b d hxs hys h.2
              simp [h1, h2]

/-- Values of the same structure write the same `structure` and the same number of variables. -/
theorem join_shape : ∀ (n : Nat) (x y : Nest Nat n) (p q : List Nat × List Nat), join n x = some p → join n y = some q →
    Nest.map (fun _ => ()) n x = Nest.map (fun _ => ()) n y → p.2 = q.2 ∧ p.1.length = q.1.length := by
  intro n
  induction n with
  | zero =>
    intro x y p q hp hq _
    simp only [join, joinVar] at hp hq
    split at hp
    · simp at hp
    · split at hq
      · simp at hq
      · simp only [Option.some.injEq] at hp hq; subst hp; subst hq; exact ⟨rfl, rfl⟩
  | succ n ih =>
    intro x y p q hp hq h
    simp only [join, Option.map_eq_some_iff] at hp hq
    obtain ⟨p', hp, rfl⟩ := hp
    obtain ⟨q', hq, rfl⟩ := hq
    have hl : List.length x = List.length y := by
      have := congrArg List.length (show List.map (Nest.map (fun _ => ()) n) x = List.map (Nest.map (fun _ => ()) n) y from h)
      exact (List.length_map (as := (show List (Nest Nat n) from x)) (Nest.map (fun _ => ()) n)).symm.trans (this.trans (List.length_map (as := (show List (Nest Nat n) from y)) _))
    have := joinList_shape (sh := Nest.map (fun _ => ()) n) ih x y p' q' hp hq h
    simp [hl, this]

theorem rebuildList_fresh {α β : Type} {f : α → Option (List Nat × List Nat)} {g : List Nat → List Nat → Option (α × List Nat × List Nat)} {sh : α → β}
    (hfg : ∀ x p, f x = some p → ∀ vs s st, vs.length = p.1.length → ∃ y, g (vs ++ s) (p.2 ++ st) = some (y, s, st) ∧ sh y = sh x) :
    ∀ (xs : List α) (p : List Nat × List Nat), joinList f xs = some p → ∀ vs s st, vs.length = p.1.length →
      ∃ ys, rebuildList g xs.length (vs ++ s) (p.2 ++ st) = some (ys, s, st) ∧ ys.map sh = xs.map sh := by
  intro xs
  induction xs with
  | nil =>
    intro p h vs s st hl
    simp only [joinList, Option.some.injEq] at h; subst h
    have : vs = [] := by simpa using hl
    subst this
    exact ⟨[], rfl, rfl⟩
  | cons x xs ih =>
    intro p h vs s st hl
    simp only [joinList] at h
    cases hx : f x with
    | none => simp [hx] at h
    | some a =>
      cases hxs : joinList f xs with
      | none => simp [hx, hxs] at h
      | some b =>
        simp only [hx, hxs, Option.some.injEq] at h
        subst h
        simp only [List.length_append] at hl
        obtain ⟨y, hy, hy'⟩ := hfg x a hx (vs.take a.1.length) (vs.drop a.1.length ++ s) (b.2 ++ st) (by simp; omega)
        obtain ⟨ys, hys, hys'⟩ := ih b hxs (vs.drop a.1.length) s st (by simp; omega)
        refine ⟨y :: ys, ?_, by simp [hy', hys']⟩
        rw [← List.append_assoc, List.take_append_drop] at hy
        simp only [List.length_cons, rebuildList, List.append_assoc, hy, hys]

/-- Rebuilding with other variables and the recorded structure gives a value of the same structure. -/
theorem rebuild_fresh : ∀ (n : Nat) (x : Nest Nat n) (p : List Nat × List Nat), join n x = some p → ∀ vs s st, vs.length = p.1.length →
    ∃ y, rebuild n (vs ++ s) (p.2 ++ st) = some (y, s, st) ∧ Nest.map (fun _ => ()) n y = Nest.map (fun _ => ()) n x := by
  intro n
  induction n with
  | zero =>
    intro x p h vs s st hl
    simp only [join, joinVar] at h
    split at h
    · simp at h
    · simp only [Option.some.injEq] at h; subst h
      obtain ⟨v, rfl⟩ : ∃ v, vs = [v] := List.length_eq_one_iff.1 hl
      exact ⟨v, rfl, rfl⟩
  | succ n ih =>
    intro x p h vs s st hl
    simp only [join, Option.map_eq_some_iff] at h
    obtain ⟨q, hq, rfl⟩ := h
    exact rebuildList_fresh (sh := Nest.map (fun _ => ()) n) ih x q hq vs s st hl

/-- Rebuilt values have the structure that was recorded: joining them gives the variables and the structure back (for valid variables). -/
theorem rebuildArgs_join : ∀ (as : List (AVal Nat)) (p : List Nat × List Nat), joinArgs as = some p → ∀ s st, rebuildArgs as (p.1 ++ s) (p.2 ++ st) = some as := by
  intro as
  induction as with
  | nil => intro p _ s st; rfl
  | cons a as ih =>
    intro p h s st
    cases a with
    | prim n x => simp only [rebuildArgs, ih p h, Option.map_some]
    | var n x =>
      simp only [joinArgs] at h
      cases hx : join n x with
      | none => simp [hx] at h
      | some a =>
        cases hxs : joinArgs as with
        | none => simp [hx, hxs] at h
        | some b =>
          simp only [hx, hxs, Option.some.injEq] at h
          subst h
          simp only [rebuildArgs, List.append_assoc, rebuild_join n x a hx, ih b hxs, Option.map_some]

/-- What the body receives: values of the same structure with the same primitives. -/
theorem rebuildArgs_fresh : ∀ (as : List (AVal Nat)) (p : List Nat × List Nat), joinArgs as = some p → ∀ vs s st, vs.length = p.1.length →
    ∃ bs, rebuildArgs as (vs ++ s) (p.2 ++ st) = some bs ∧ bs.map AVal.skel = as.map AVal.skel := by
  intro as
  induction as with
  | nil => intro p h vs s st _; exact ⟨[], rfl, rfl⟩
  | cons a as ih =>
    intro p h vs s st hl
    cases a with
    | prim n x =>
      obtain ⟨bs, h1, h2⟩ := ih p h vs s st hl
      exact ⟨.prim n x :: bs, by simp only [rebuildArgs, h1, Option.map_some], by simp [h2, AVal.skel]⟩
    | var n x =>
      simp only [joinArgs] at h
      cases hx : join n x with
      | none => simp [hx] at h
      | some a =>
        cases hxs : joinArgs as with
        | none => simp [hx, hxs] at h
        | some b =>
          simp only [hx, hxs, Option.some.injEq] at h
          subst h
          simp only [List.length_append] at hl
          obtain ⟨y, hy, hy'⟩ := rebuild_fresh n x a hx (vs.take a.1.length) (vs.drop a.1.length ++ s) (b.2 ++ st) (by simp; omega)
          obtain ⟨bs, h1, h2⟩ := ih b hxs (vs.drop a.1.length) s st (by simp; omega)
          refine ⟨.var n y :: bs, ?_, by simp [h2, AVal.skel, hy']⟩
          rw [← List.append_assoc, List.take_append_drop] at hy
          simp only [rebuildArgs, List.append_assoc, hy, h1, Option.map_some]

/-- Arguments with the same structure and primitives: same recorded structure, same number of variables, and the body receives the same values. -/
theorem rebuildArgs_congr : ∀ (as bs : List (AVal Nat)) (p q : List Nat × List Nat), as.map AVal.skel = bs.map AVal.skel → joinArgs as = some p → joinArgs bs = some q →
    p.2 = q.2 ∧ p.1.length = q.1.length ∧ ∀ s st, rebuildArgs as s st = rebuildArgs bs s st := by
  intro as
  induction as with
  | nil =>
    intro bs p q h hp hq
    cases bs with
    | nil => simp_all [joinArgs]
    | cons => simp at h
  | cons a as ih =>
    intro bs p q h hp hq
    cases bs with
    | nil => simp at h
    | cons b bs =>
      simp only [List.map_cons, List.cons.injEq] at h
      cases a with
      | prim n x =>
        cases b with
        | var m y => simp [AVal.skel] at h
        | prim m y =>
          obtain ⟨h1, h2, h3⟩ := ih bs p q h.2 hp hq
          have he : AVal.prim n x = (AVal.prim m y : AVal Nat) := by
            have := h.1
            simp only [AVal.skel, AVal.prim.injEq] at this
            obtain ⟨rfl, he⟩ := this
            rw [eq_of_heq he]
          cases he
          exact ⟨h1, h2, fun s st => by simp only [rebuildArgs, h3]⟩
      | var n x =>
        cases b with
        | prim m y => simp [AVal.skel] at h
        | var m y =>
          have := h.1
          simp only [AVal.skel, AVal.var.injEq] at this
          obtain ⟨rfl, he⟩ := this
          have he := eq_of_heq he
          simp only [joinArgs] at hp hq
          cases hx : join n x with
          | none => simp [hx] at hp
          | some a1 =>
            cases hxs : joinArgs as with
            | none => simp [hx, hxs] at hp
            | some b1 =>
              cases hy : join n y with
              | none => simp [hy] at hq
              | some a2 =>
                cases hys : joinArgs bs with
                | none => simp [hy, hys] at hq
                | some b2 =>
                  simp only [hx, hxs, Option.some.injEq] at hp
                  simp only [hy, hys, Option.some.injEq] at hq
                  subst hp; subst hq
                  obtain ⟨h1, h2, h3⟩ := ih bs b1 b2 h.2 hxs hys
                  have h4 := join_shape n x y a1 a2 hx hy he
                  exact ⟨by simp [h1, h4], by simp [h2, h4], fun s st => by simp only [rebuildArgs, h3]⟩

/-! ### The hash input is injective -/

theorem digits_sep {a b : Nat} {c : Char} (hc : c.isDigit = false) {r r' : List Char} (h : Nat.toDigits 10 a ++ c :: r = Nat.toDigits 10 b ++ c :: r') : a = b ∧ r = r' := by
  have hd : ∀ n, (Nat.toDigits 10 n).all Char.isDigit = true := fun n => List.all_eq_true.2 fun x hx => Nat.isDigit_of_mem_toDigits (by omega) (by omega) hx
  have key : ∀ (l m : List Char), l.all Char.isDigit = true → m.all Char.isDigit = true → l ++ c :: r = m ++ c :: r' → l = m ∧ r = r' := by
    intro l
    induction l with
    | nil =>
      intro m _ hm h
      cases m with
      | nil => simpa using h
      | cons x m =>
        simp only [List.nil_append, List.cons_append, List.cons.injEq] at h
        simp only [List.all_cons, ← h.1, hc, Bool.false_and] at hm
        cases hm
    | cons y l ih =>
      intro m hl hm h
      cases m with
      | nil =>
        simp only [List.nil_append, List.cons_append, List.cons.injEq] at h
        simp only [List.all_cons, h.1, hc, Bool.false_and] at hl
        cases hl
      | cons x m =>
        simp only [List.cons_append, List.cons.injEq] at h
        simp only [List.all_cons, Bool.and_eq_true] at hl hm
        obtain ⟨h1, h2⟩ := ih m hl.2 hm.2 h.2
        exact ⟨by rw [h.1, h1], h2⟩
  obtain ⟨h1, h2⟩ := key _ _ (hd a) (hd b) h
  refine ⟨?_, h2⟩
  have := congrArg (fun l => Nat.ofDigitChars 10 l 0) h1
  simpa [Nat.ofDigitChars_ten_toDigits] using this

theorem toDigits_inj {a b : Nat} (h : Nat.toDigits 10 a = Nat.toDigits 10 b) : a = b :=
  (digits_sep (c := ';') (by decide) (r := []) (r' := []) (by rw [h])).1

theorem minus_not_digits {n : Nat} {r : List Char} (h : Nat.toDigits 10 n = '-' :: r) : False := by
  have : '-' ∈ Nat.toDigits 10 n := by rw [h]; simp
  exact absurd (Nat.isDigit_of_mem_toDigits (by omega) (by omega) this) (by decide)

theorem decInt_inj {a b : Int} (h : decInt a = decInt b) : a = b := by
  cases a with
  | ofNat a =>
    cases b with
    | ofNat b => rw [toDigits_inj (show Nat.toDigits 10 a = Nat.toDigits 10 b from h)]
    | negSucc b => exact (minus_not_digits (show Nat.toDigits 10 a = _ from h)).elim
  | negSucc a =>
    cases b with
    | ofNat b => exact (minus_not_digits (show Nat.toDigits 10 b = _ from h.symm)).elim
    | negSucc b =>
      simp only [decInt, List.cons.injEq, true_and] at h
      have := toDigits_inj h
      congr 1; omega

theorem encPrim_inj {a b : Int} {r r' : List Char} (h : encPrim a ++ r = encPrim b ++ r') : a = b ∧ r = r' := by
  simp only [encPrim, List.append_assoc, List.cons_append] at h
  obtain ⟨h1, h2⟩ := digits_sep (by decide) h
  obtain ⟨h3, h4⟩ := List.append_inj h2 h1
  exact ⟨decInt_inj h3, h4⟩

theorem encNest_inj {α β : Type} {e : α → List Char} {sh : α → β} (he : ∀ a b r r', e a ++ r = e b ++ r' → sh a = sh b ∧ r = r') :
    ∀ (n : Nat) (x y : Nest α n) (r r' : List Char), encNest e n x ++ r = encNest e n y ++ r' → Nest.map sh n x = Nest.map sh n y ∧ r = r' := by
  intro n
  induction n with
  | zero => exact he
  | succ n ih =>
    intro x y r r' h
    simp only [encNest, List.append_assoc, List.cons_append] at h
    obtain ⟨h1, h2⟩ := digits_sep (by decide) h
    have key : ∀ (l m : List (Nest α n)), l.length = m.length → l.flatMap (encNest e n) ++ r = m.flatMap (encNest e n) ++ r' →
        l.map (Nest.map sh n) = m.map (Nest.map sh n) ∧ r = r' := by
      intro l
      induction l with
      | nil =>
        intro m hl h
        cases m with
        | nil => exact ⟨rfl, by simpa using h⟩
        | cons => simp at hl
      | cons a l ihl =>
        intro m hl h
        cases m with
        | nil => simp at hl
        | cons b m =>
          simp only [List.flatMap_cons, List.append_assoc] at h
          obtain ⟨h3, h4⟩ := ih a b _ _ h
          obtain ⟨h5, h6⟩ := ihl m (by simpa using hl) h4
          exact ⟨by simp [h3, h5], h6⟩
    exact key x y h1 h2

theorem nest_map_id {α : Type} : ∀ (n : Nat) (x : Nest α n), Nest.map id n x = x := by
  intro n
  induction n with
  | zero => intro x; rfl
  | succ n ih =>
    intro x
    have : Nest.map (id : α → α) n = id := funext ih
    exact (congrArg (fun f => List.map f x) this).trans (List.map_id x)

theorem aval_enc_inj {V : Type} {a b : AVal V} (hp : a.param = b.param) {r r' : List Char} (h : a.enc ++ r = b.enc ++ r') : a.skel = b.skel ∧ r = r' := by
  cases a with
  | var n x =>
    cases b with
    | prim m y => simp [AVal.param] at hp
    | var m y =>
      simp only [AVal.param, Prod.mk.injEq, true_and] at hp
      subst hp
      obtain ⟨h1, h2⟩ := encNest_inj (e := fun _ : V => []) (sh := fun _ => ()) (fun _ _ _ _ h => ⟨rfl, by simpa using h⟩) n x y r r' h
      exact ⟨by simp only [AVal.skel, h1], h2⟩
  | prim n x =>
    cases b with
    | var m y => simp [AVal.param] at hp
    | prim m y =>
      simp only [AVal.param, Prod.mk.injEq, true_and] at hp
      subst hp
      obtain ⟨h1, h2⟩ := encNest_inj (e := encPrim) (sh := id) (fun _ _ _ _ h => encPrim_inj h) n x y r r' h
      rw [nest_map_id, nest_map_id] at h1
      exact ⟨by rw [h1], h2⟩

theorem args_enc_inj {V : Type} : ∀ (as bs : List (AVal V)), as.map AVal.param = bs.map AVal.param → as.flatMap AVal.enc = bs.flatMap AVal.enc →
    as.map AVal.skel = bs.map AVal.skel := by
  intro as
  induction as with
  | nil => intro bs hp _; cases bs with
    | nil => rfl
    | cons => simp at hp
  | cons a as ih =>
    intro bs hp h
    cases bs with
    | nil => simp at hp
    | cons b bs =>
      simp only [List.map_cons, List.cons.injEq] at hp
      simp only [List.flatMap_cons] at h
      obtain ⟨h1, h2⟩ := aval_enc_inj hp.1 h
      simp [h1, ih bs hp.2 h2]

/-- For the same parameter types, equal hash inputs mean equal structure and primitives. -/
theorem memoKey_inj {V : Type} {as bs : List (AVal V)} (hp : as.map AVal.param = bs.map AVal.param) (h : memoKey as = memoKey bs) : as.map AVal.skel = bs.map AVal.skel := by
  refine args_enc_inj as bs hp ?_
  have hinj : Function.Injective Char.toNat := fun a b h => Char.ext (UInt32.toNat_inj.1 h)
  have := (List.map_injective_iff.2 hinj) h
  exact List.append_cancel_left this

theorem encNest_skel {V : Type} : ∀ (n : Nat) (x : Nest V n), encNest (fun _ => []) n (Nest.map (fun _ => ()) n x) = encNest (fun _ => []) n x := by
  intro n
  induction n with
  | zero => intro x; rfl
  | succ n ih =>
    have h : ∀ l : List (Nest V n), (l.map (Nest.map (fun _ => ()) n)).flatMap (encNest (fun _ => []) n) = l.flatMap (encNest (fun _ => []) n) := by
      intro l
      induction l with
      | nil => rfl
      | cons a l ihl => rw [List.map_cons, List.flatMap_cons, List.flatMap_cons, ih, ihl]
    have : ∀ l : List (Nest V n), Nat.toDigits 10 (l.map (Nest.map (fun _ => ()) n)).length ++ ';' :: (l.map (Nest.map (fun _ => ()) n)).flatMap (encNest (fun _ => []) n) =
        Nat.toDigits 10 l.length ++ ';' :: l.flatMap (encNest (fun _ => []) n) := by
      intro l; rw [List.length_map, h]
    exact this

/-- The hash input depends only on structure and primitives. -/
theorem memoKey_skel {V : Type} (as : List (AVal V)) : memoKey (as.map AVal.skel) = memoKey as := by
  have hk : ∀ a : AVal V, a.skel.enc = a.enc := by
    intro a
    cases a with
    | var n x => exact encNest_skel n x
    | prim n x => rfl
  have : ∀ l : List (AVal V), (l.map AVal.skel).flatMap AVal.enc = l.flatMap AVal.enc := by
    intro l
    induction l with
    | nil => rfl
    | cons a l ih => rw [List.map_cons, List.flatMap_cons, List.flatMap_cons, hk, ih]
  unfold memoKey
  rw [this]

end Verif.Frontend
