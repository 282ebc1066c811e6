import Verif.IR.Expr

/-!
# The expression-level instruction set (circuit/ir/dest/mod.rs)
-/

set_option linter.unusedSectionVars false
set_option linter.unusedSimpArgs false

namespace Verif.IR

variable {F : Type} [Field F] [DecidableEq F]

namespace Dest

/-- `enum Instruction` (dest/mod.rs:23-36). -/
inductive Insn (F : Type)
  | internal (e : Expr F)
  | call (c : Nat) (xs : List Nat) (n : Nat)
  | constantLike (c : Coef F)
  deriving DecidableEq

/-- `inputs` (dest/mod.rs:63-69). -/
def Insn.inputs : Insn F → List Nat
  | .internal e => Expr.getVars e
  | .call _ xs _ => xs
  | .constantLike _ => []

/-- `num_outputs` (dest/mod.rs:70-76). -/
def Insn.numOutputs : Insn F → Nat
  | .call _ _ n => n
  | _ => 1

/-- `as_sub_circuit_call` (dest/mod.rs:77-86). -/
def Insn.asCall : Insn F → Option (Nat × List Nat × Nat)
  | .call c xs n => some (c, xs, n)
  | _ => none

/-- `replace_vars` (dest/mod.rs:94-110). -/
def Insn.replaceVars (i : Insn F) (f : Nat → Nat) : Insn F :=
  match i with
  | .internal e => .internal (Expr.replaceVars e f)
  | .call c xs n => .call c (xs.map f) n
  | .constantLike c => .constantLike c

/-- `validate` (dest/mod.rs:116-121). -/
def Insn.valid (npi : Nat) : Insn F → Bool
  | .constantLike c => c.valid npi
  | _ => true

/-- `eval_unsafe` (dest/mod.rs:122-158). -/
def Insn.Prim (E : Env F) : Insn F → (Nat → Option F) → List F → Prop
  | .internal e, val, outs => ∃ y, Expr.Sem E val e y ∧ outs = [y]
  | .constantLike c, _, outs => ∃ y, c.Sem E y ∧ outs = [y]
  | .call _ _ _, _, _ => False

end Dest

/-- `dest::Irc` and `dest::IrcRelaxed` (dest/mod.rs:38-60): they differ only in whether duplicate call inputs and outputs are
allowed (`relaxed`). -/
@[reducible] def dest (E : Env F) (relaxed : Bool) : Lang F where
  Insn := Dest.Insn F
  Con := Unit
  inputs := Dest.Insn.inputs
  numOutputs := Dest.Insn.numOutputs
  asCall := Dest.Insn.asCall
  mkCall := Dest.Insn.call
  replaceVars := Dest.Insn.replaceVars
  fromKxPlusB := fun x k b => .internal (Expr.fromTerms [⟨k, .linear x⟩, ⟨b, .const⟩])
  validInsn := Dest.Insn.valid
  prim := Dest.Insn.Prim E
  verify := rawVerify
  allowDupInputs := relaxed
  allowDupConstraints := true
  allowDupOutputs := relaxed

namespace Expr

theorem varSem_replace (E : Env F) (val : Nat → Option F) (f : Nat → Nat) (v : VarSpec) (y : F) :
    (v.replaceVars f).Sem E val y ↔ v.Sem E (fun x => val (f x)) y := by
  cases v <;> simp [VarSpec.replaceVars, VarSpec.Sem, mapOpt_map]

theorem termSem_replace (E : Env F) (val : Nat → Option F) (f : Nat → Nat) (t : Term F) (y : F) :
    ({ t with vars := t.vars.replaceVars f } : Term F).Sem E val y ↔ t.Sem E (fun x => val (f x)) y := by
  obtain ⟨c, v⟩ := t
  have := varSem_replace E val f v
  cases v <;> simp_all [VarSpec.replaceVars, Term.Sem]

theorem sem_replace (E : Env F) (val : Nat → Option F) (f : Nat → Nat) : ∀ (e : Expr F) (y : F),
    Sem E val (replaceVars e f) y ↔ Sem E (fun x => val (f x)) e y := by
  intro e
  induction e with
  | nil => intro y; rfl
  | cons t e ih =>
    intro y
    simp only [replaceVars] at ih
    simp only [replaceVars, List.map_cons, Sem, termSem_replace, ih]

theorem varSem_local (E : Env F) {val val' : Nat → Option F} (v : VarSpec) (h : ∀ x ∈ v.vars, val x = val' x) (y : F) :
    v.Sem E val y → v.Sem E val' y := by
  cases v with
  | const => exact id
  | linear x => simp only [VarSpec.Sem, h x (by simp [VarSpec.vars])]; exact id
  | quad a b => simp only [VarSpec.Sem, h a (by simp [VarSpec.vars]), h b (by simp [VarSpec.vars])]; exact id
  | custom g xs =>
    simp only [VarSpec.Sem]
    rw [mapOpt_congr (l := xs) (f := val) (g := val') h]; exact id
  | randomLinear x => simp only [VarSpec.Sem, h x (by simp [VarSpec.vars])]; exact id

theorem termSem_local (E : Env F) {val val' : Nat → Option F} (t : Term F) (h : ∀ x ∈ t.vars.vars, val x = val' x) (y : F) :
    t.Sem E val y → t.Sem E val' y := by
  obtain ⟨c, v⟩ := t
  have := varSem_local E v h
  cases v with
  | randomLinear x => exact this y
  | _ => rintro ⟨m, hm, rfl⟩; exact ⟨m, this m hm, rfl⟩

theorem sem_local (E : Env F) {val val' : Nat → Option F} : ∀ (e : Expr F) (y : F), (∀ x ∈ getVars e, val x = val' x) →
    Sem E val e y → Sem E val' e y := by
  intro e
  induction e with
  | nil => intro y _ h; exact h
  | cons t e ih =>
    rintro y h ⟨a, b, h1, h2, rfl⟩
    refine ⟨a, b, termSem_local E t (fun x hx => h x ?_) a h1, ih b (fun x hx => h x ?_) h2, rfl⟩
    · simp [getVars, hx]
    · simp only [getVars, List.flatMap_cons, List.mem_append]; exact Or.inr hx

theorem varSem_total (E : Env F) (val : Nat → Option F) (v : VarSpec) (hd : ∀ x ∈ v.vars, (val x).isSome) :
    ∃ y, v.Sem E val y := by
  by_cases hr : ∀ x, v ≠ .randomLinear x
  · exact ⟨_, (mon_spec E val v hr hd _).2 rfl⟩
  · simp only [not_forall, not_not] at hr
    obtain ⟨x, rfl⟩ := hr
    obtain ⟨a, ha⟩ := Option.isSome_iff_exists.1 (hd x (by simp [VarSpec.vars]))
    exact ⟨a * 0, a, 0, ha, rfl⟩

theorem sem_total (E : Env F) (val : Nat → Option F) : ∀ (e : Expr F), (∀ x ∈ getVars e, (val x).isSome) →
    ∃ y, Sem E val e y := by
  intro e
  induction e with
  | nil => intro _; exact ⟨0, rfl⟩
  | cons t e ih =>
    intro h
    obtain ⟨b, hb⟩ := ih (fun x hx => h x (by simp only [getVars, List.flatMap_cons, List.mem_append]; exact Or.inr hx))
    obtain ⟨m, hm⟩ := varSem_total E val t.vars (fun x hx => h x (by simp [getVars, hx]))
    obtain ⟨c, v⟩ := t
    cases v with
    | randomLinear x => exact ⟨_, _, b, hm, hb, rfl⟩
    | _ => exact ⟨_, _, b, ⟨m, hm, rfl⟩, hb, rfl⟩

theorem getVars_replace (e : Expr F) (f : Nat → Nat) : getVars (replaceVars e f) = (getVars e).map f := by
  induction e with
  | nil => rfl
  | cons t e ih =>
    simp only [replaceVars, getVars, List.map_cons, List.flatMap_cons, List.map_append] at ih ⊢
    rw [ih]
    congr 1
    cases t.vars <;> simp [VarSpec.replaceVars, VarSpec.vars]

theorem kx_eq (x : Nat) (k b : F) (hk : k ≠ 0) :
    fromTerms [⟨k, .linear x⟩, ⟨b, .const⟩] = if b = 0 then [⟨k, .linear x⟩] else [⟨b, .const⟩, ⟨k, .linear x⟩] := by
  have hle : VarSpec.le (.linear x) .const = false := by
    have : ([0] : List Nat) < [1, x] := List.Lex.rel (by omega)
    exact decide_eq_false (not_le.2 this)
  have hs : sortTerms ([⟨k, .linear x⟩, ⟨b, .const⟩] : List (Term F)) =
      [⟨b, .const⟩, ⟨k, .linear x⟩] := by
    simp [sortTerms, List.insertionSort, hle]
  simp only [fromTerms, List.map_cons, List.map_nil, Term.normalize, VarSpec.normalize, hs, compress, mergeAdj]
  by_cases hb : b = 0 <;> simp [hb, hk]

end Expr

theorem dest_lawful (E : Env F) (relaxed : Bool) : (dest E relaxed).Lawful where
  call_inputs := by intro i c a n h; cases i <;> simp [dest, Dest.Insn.asCall, Dest.Insn.inputs] at h ⊢; exact h.2.1
  call_numOutputs := by intro i c a n h; cases i <;> simp [dest, Dest.Insn.asCall, Dest.Insn.numOutputs] at h ⊢; exact h.2.2
  asCall_mkCall := by intros; rfl
  asCall_replace := by intro i f; cases i <;> rfl
  inputs_replace := by
    intro i f; cases i <;> simp [dest, Dest.Insn.replaceVars, Dest.Insn.inputs, Expr.getVars_replace]
  numOutputs_replace := by intro i f; cases i <;> rfl
  prim_replace := by
    intro i f val outs _
    cases i <;> simp [dest, Dest.Insn.replaceVars, Dest.Insn.Prim, Expr.sem_replace]
  prim_local := by
    intro i val val' outs _ h hp
    cases i with
    | internal e => obtain ⟨y, hy, rfl⟩ := hp; exact ⟨y, Expr.sem_local E e y h hy, rfl⟩
    | call c xs n => exact hp
    | constantLike c => exact hp
  prim_length := by
    intro i val outs _ hp
    cases i with
    | internal e => obtain ⟨y, hy, rfl⟩ := hp; rfl
    | call c xs n => exact hp.elim
    | constantLike c => obtain ⟨y, hy, rfl⟩ := hp; rfl
  asCall_kx := by intros; rfl
  inputs_kx := by
    intro x k b hx hk
    simp only [dest, Dest.Insn.inputs, Expr.kx_eq x k b hk]
    split <;> simp [Expr.getVars, VarSpec.vars]
  numOutputs_kx := by intros; rfl
  valid_replace := by
    intro npi i f
    cases i <;> simp [dest, Dest.Insn.replaceVars, Dest.Insn.valid]
  valid_call := by intros; rfl
  valid_kx := by intros; rfl
  prim_kx := by
    intro x k b val outs hx hk
    simp only [dest, Dest.Insn.Prim, Expr.kx_eq x k b hk]
    split
    · rename_i hb
      simp [Expr.Sem, Term.Sem, VarSpec.Sem, hb, mul_comm]
    · simp [Expr.Sem, Term.Sem, VarSpec.Sem, mul_comm, add_comm]

theorem dest_total (E : Env F) (relaxed : Bool) : (dest E relaxed).Total := by
  intro npi i val hc hv hin
  cases i with
  | internal e =>
    obtain ⟨y, hy⟩ := Expr.sem_total E val e hin
    exact ⟨[y], y, hy, rfl⟩
  | call c xs n => simp [dest, Dest.Insn.asCall] at hc
  | constantLike c =>
    cases c with
    | const c => exact ⟨[c], c, rfl, rfl⟩
    | random => exact ⟨[0], 0, trivial, rfl⟩
    | pub i => exact ⟨[E.pub i], _, rfl, rfl⟩

end Verif.IR
