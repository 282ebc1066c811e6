import Verif.IR.Total
import Verif.Hints.Builtin
import Mathlib.Algebra.BigOperators.Group.List.Basic

/-!
# The concrete instruction sets: source, hint-normalised, hint-less

`circuit/ir/{source,hint_normalized,hint_less}/mod.rs`.  Field characteristic and size are arbitrary.
-/

set_option linter.unusedSectionVars false
set_option linter.unusedSimpArgs false

namespace Verif.IR

variable {F : Type} [Field F] [DecidableEq F]

/-- `enum Coef` (circuit/layered/mod.rs:19-24). -/
inductive Coef (F : Type)
  | const (c : F)
  | random
  | pub (i : Nat)
  deriving DecidableEq

/-- What an evaluation is relative to: values of the public inputs (`get_value_unsafe` uses a fixed stub,
`get_value_with_public_inputs` the real ones), the meaning of custom gates, the behaviour of hints (a relation: honest hint
functions and arbitrary adversarial answers are both instances) and the canonical representation of the field. -/
structure Env (F : Type) [Field F] where
  pub : Nat → F
  custom : Nat → List F → F
  hint : Nat → List F → Nat → List F → Prop
  canon : Canon F

/-- Hint answers have the declared length. -/
def Env.HintLen (E : Env F) : Prop := ∀ id ins n outs, E.hint id ins n outs → outs.length = n

/-- Every hint call that passes validation has an answer. -/
def Env.HintTotal (E : Env F) : Prop := ∀ id ins n, Hints.validateHint id ins.length n = true → ∃ outs, E.hint id ins n outs

/-- `Coef::get_value_unsafe` / `get_value_with_public_inputs` (layered/mod.rs:27-55): a random coefficient can be anything. -/
def Coef.Sem (E : Env F) : Coef F → F → Prop
  | .const c, y => y = c
  | .random, _ => True
  | .pub i, y => y = E.pub i

/-- `Coef::validate` (layered/mod.rs:73-87). -/
def Coef.valid (npi : Nat) : Coef F → Bool
  | .pub i => i < npi
  | _ => true

/-- `struct LinComb` (expr.rs:378-388). -/
structure LinComb (F : Type) where
  terms : List (Nat × F)
  const : F
  deriving DecidableEq

namespace LinComb

/-- `get_vars` (expr.rs:400-402). -/
def vars (lc : LinComb F) : List Nat := lc.terms.map (·.1)

/-- `replace_vars` (expr.rs:403-415). -/
def replaceVars (lc : LinComb F) (f : Nat → Nat) : LinComb F := { lc with terms := lc.terms.map (fun t => (f t.1, t.2)) }

/-- `from_kx_plus_b` (expr.rs:416-428). -/
def fromKxPlusB (x : Nat) (k b : F) : LinComb F := if x = 0 ∨ k = 0 then ⟨[], b⟩ else ⟨[(x, k)], b⟩

/-- `eval` (expr.rs:429-435), on the values of the variables of the terms in order. -/
def evalArgs (lc : LinComb F) (args : List F) : F := lc.const + (List.zipWith (fun t a => a * t.2) lc.terms args).sum

end LinComb

/-- An instruction whose behaviour is `sem` on the values of its input variables. -/
def readPrim {I : Type} (inputs : I → List Nat) (sem : I → List F → List F → Prop) (i : I) (val : Nat → Option F) (outs : List F) : Prop :=
  ∃ args, mapOpt val (inputs i) = some args ∧ sem i args outs

omit [Field F] [DecidableEq F] in
theorem readPrim_local {I : Type} {inputs : I → List Nat} {sem : I → List F → List F → Prop} {i : I} {val val' : Nat → Option F} {outs}
    (h : ∀ v ∈ inputs i, val v = val' v) : readPrim inputs sem i val outs → readPrim inputs sem i val' outs := by
  rintro ⟨args, h1, h2⟩
  exact ⟨args, by rw [← h1]; exact mapOpt_congr (fun a ha => (h a ha).symm), h2⟩

omit [Field F] [DecidableEq F] in
theorem readPrim_replace {I : Type} {inputs : I → List Nat} {sem : I → List F → List F → Prop} {i j : I} {f : Nat → Nat}
    (hi : inputs j = (inputs i).map f) (hs : ∀ a o, sem j a o ↔ sem i a o) (val : Nat → Option F) (outs) :
    readPrim inputs sem j val outs ↔ readPrim inputs sem i (fun v => val (f v)) outs := by
  unfold readPrim
  rw [hi, mapOpt_map]
  simp only [hs]

/-! ## Source -/

namespace Source

/-- `enum BoolBinOpType` (source/mod.rs:67-71). -/
inductive BoolOp
  | xor | or | and
  deriving DecidableEq

/-- `enum UnconstrainedBinOpType` (source/mod.rs:74-92). -/
inductive UOp
  | div | pow | intDiv | mod | shiftL | shiftR | lesserEq | greaterEq | lesser | greater | eq | notEq | boolOr | boolAnd
  | bitOr | bitAnd | bitXor
  deriving DecidableEq

/-- `enum ConstraintType` (source/mod.rs:101-105). -/
inductive Con
  | zero | nonZero | bool
  deriving DecidableEq

/-- `enum Instruction` (source/mod.rs:23-64). -/
inductive Insn (F : Type)
  | linComb (lc : LinComb F)
  | mul (xs : List Nat)
  | div (x y : Nat) (checked : Bool)
  | boolBinOp (x y : Nat) (op : BoolOp)
  | isZero (x : Nat)
  | commit (xs : List Nat)
  | hint (id : Nat) (xs : List Nat) (n : Nat)
  | constantLike (c : Coef F)
  | call (c : Nat) (xs : List Nat) (n : Nat)
  | unconstrainedBinOp (x y : Nat) (op : UOp)
  | unconstrainedSelect (c t f : Nat)
  | customGate (g : Nat) (xs : List Nat)
  | toBinary (x n : Nat)
  deriving DecidableEq

/-- `ConstraintType::verify` (source/mod.rs:127-134). -/
def Con.verify (c : Con) (v : F) : Bool :=
  match c with
  | .zero => v = 0
  | .nonZero => v ≠ 0
  | .bool => v = 0 || v = 1

/-- `BoolBinOp` on boolean operands (source/mod.rs:349-355). -/
def BoolOp.eval (op : BoolOp) (x y : F) : F :=
  match op with
  | .xor => x + y - 2 * x * y
  | .or => x + y - x * y
  | .and => x * y

/-- `UnconstrainedBinOpType::eval` (source/mod.rs:414-484). `none` is an `Err`. -/
def UOp.eval (cn : Canon F) (op : UOp) (x y : F) : Option F :=
  let a := cn.toNat x
  let b := cn.toNat y
  match op with
  | .div => if y = 0 then none else some (x * y⁻¹)
  | .pow => some (Hints.powLoop 256 x 1 b)
  | .intDiv => if b = 0 then none else some ((a / b : Nat) : F)
  | .mod => if b = 0 then none else some ((a % b : Nat) : F)
  | .shiftL => some (Hints.shiftL cn.modulus a b : F)
  | .shiftR => some (Hints.shiftR cn.modulus a b : F)
  | .lesserEq => some (Hints.ofBool (a ≤ b))
  | .greaterEq => some (Hints.ofBool (b ≤ a))
  | .lesser => some (Hints.ofBool (a < b))
  | .greater => some (Hints.ofBool (b < a))
  | .eq => some (Hints.ofBool (x = y))
  | .notEq => some (Hints.ofBool (x ≠ y))
  | .boolOr => some (Hints.ofBool (x ≠ 0 || y ≠ 0))
  | .boolAnd => some (Hints.ofBool (x ≠ 0 && y ≠ 0))
  | .bitOr => some ((a ||| b : Nat) : F)
  | .bitAnd => some ((a &&& b : Nat) : F)
  | .bitXor => some ((a ^^^ b : Nat) : F)

/-- `inputs` (source/mod.rs:153-173). -/
def Insn.inputs : Insn F → List Nat
  | .linComb lc => lc.vars
  | .mul xs => xs
  | .div x y _ => [x, y]
  | .boolBinOp x y _ => [x, y]
  | .isZero x => [x]
  | .commit xs => xs
  | .hint _ xs _ => xs
  | .constantLike _ => []
  | .call _ xs _ => xs
  | .unconstrainedBinOp x y _ => [x, y]
  | .unconstrainedSelect c t f => [c, t, f]
  | .customGate _ xs => xs
  | .toBinary x _ => [x]

/-- `num_outputs` (source/mod.rs:174-190). -/
def Insn.numOutputs : Insn F → Nat
  | .hint _ _ n => n
  | .call _ _ n => n
  | .toBinary _ n => n
  | _ => 1

/-- `as_sub_circuit_call` (source/mod.rs:191-200). -/
def Insn.asCall : Insn F → Option (Nat × List Nat × Nat)
  | .call c xs n => some (c, xs, n)
  | _ => none

/-- `replace_vars` (source/mod.rs:208-267). -/
def Insn.replaceVars (i : Insn F) (f : Nat → Nat) : Insn F :=
  match i with
  | .linComb lc => .linComb (lc.replaceVars f)
  | .mul xs => .mul (xs.map f)
  | .div x y c => .div (f x) (f y) c
  | .boolBinOp x y o => .boolBinOp (f x) (f y) o
  | .isZero x => .isZero (f x)
  | .commit xs => .commit (xs.map f)
  | .hint h xs n => .hint h (xs.map f) n
  | .constantLike c => .constantLike c
  | .call c xs n => .call c (xs.map f) n
  | .unconstrainedBinOp x y o => .unconstrainedBinOp (f x) (f y) o
  | .unconstrainedSelect c t e => .unconstrainedSelect (f c) (f t) (f e)
  | .customGate g xs => .customGate g (xs.map f)
  | .toBinary x n => .toBinary (f x) n

/-- `validate` (source/mod.rs:271-320). -/
def Insn.valid (npi : Nat) : Insn F → Bool
  | .mul xs => 2 ≤ xs.length
  | .hint h xs n => Hints.validateHint h xs.length n && !xs.isEmpty
  | .constantLike c => c.valid npi
  | .customGate _ xs => !xs.isEmpty
  | .toBinary _ n => 0 < n
  | _ => true

/-- `eval_unsafe` (source/mod.rs:321-411) on the values of the inputs.  Errors have no outcome; `Commit` (which panics with
"commit is not implemented") has none either. -/
def Insn.sem (E : Env F) : Insn F → List F → List F → Prop
  | .linComb lc, args, outs => outs = [lc.evalArgs args]
  | .mul _, args, outs => outs = [args.prod]
  | .div _ _ checked, [x, y], outs => if y = 0 then (x = 0 ∧ checked = false ∧ outs = [0]) else outs = [x * y⁻¹]
  | .boolBinOp _ _ op, [x, y], outs => (x = 0 ∨ x = 1) ∧ (y = 0 ∨ y = 1) ∧ outs = [op.eval x y]
  | .isZero _, [x], outs => outs = [if x = 0 then 1 else 0]
  | .hint h _ n, args, outs => E.hint h args n outs
  | .constantLike c, _, outs => ∃ y, c.Sem E y ∧ outs = [y]
  | .unconstrainedBinOp _ _ op, [x, y], outs => ∃ z, op.eval E.canon x y = some z ∧ outs = [z]
  | .unconstrainedSelect _ _ _, [c, t, f], outs => outs = [if c = 0 then f else t]
  | .customGate g _, args, outs => outs = [E.custom g args]
  | .toBinary _ n, [x], outs => Hints.toBinary E.canon x n = some outs
  | _, _, _ => False

end Source

/-- `source::Irc` (source/mod.rs:136-150). -/
@[reducible] def source (E : Env F) : Lang F where
  Insn := Source.Insn F
  Con := Source.Con
  inputs := Source.Insn.inputs
  numOutputs := Source.Insn.numOutputs
  asCall := Source.Insn.asCall
  mkCall := Source.Insn.call
  replaceVars := Source.Insn.replaceVars
  fromKxPlusB := fun x k b => .linComb (LinComb.fromKxPlusB x k b)
  validInsn := Source.Insn.valid
  prim := readPrim Source.Insn.inputs (Source.Insn.sem E)
  verify := Source.Con.verify
  allowDupInputs := true
  allowDupConstraints := true
  allowDupOutputs := true

theorem readPrim_kx {I : Type} {inputs : I → List Nat} {sem : I → List F → List F → Prop} (i : I) (x : Nat) (k b : F)
    (hi : inputs i = [x]) (hs : ∀ y outs, sem i [y] outs ↔ outs = [k * y + b]) (val : Nat → Option F) (outs) :
    readPrim inputs sem i val outs ↔ ∃ y, val x = some y ∧ outs = [k * y + b] := by
  unfold readPrim
  rw [hi]
  constructor
  · rintro ⟨args, h1, h2⟩
    obtain ⟨y, r, h3, h4, rfl⟩ := mapOpt_cons.1 h1
    simp [mapOpt] at h4; subst h4
    exact ⟨y, h3, (hs _ _).1 h2⟩
  · rintro ⟨y, h1, h2⟩
    exact ⟨[y], mapOpt_cons.2 ⟨y, [], h1, rfl, rfl⟩, (hs _ _).2 h2⟩

theorem bitsRest_length : ∀ n y, (Hints.bitsRest n y).1.length = n := by
  intro n
  induction n with
  | zero => intro y; rfl
  | succ n ih => intro y; simp [Hints.bitsRest, ih]

theorem toBinary_length {cn : Canon F} {x : F} {n : Nat} {outs : List F} (h : Hints.toBinary cn x n = some outs) :
    outs.length = n := by
  unfold Hints.toBinary at h
  simp only at h
  split at h
  · cases h; simp [bitsRest_length]
  · cases h

theorem LinComb.inputs_kx {x : Nat} {k b : F} (hx : x ≠ 0) (hk : k ≠ 0) : (LinComb.fromKxPlusB x k b).vars = [x] := by
  simp [LinComb.fromKxPlusB, hx, hk, LinComb.vars]

theorem LinComb.eval_kx {x : Nat} {k b y : F} (hx : x ≠ 0) (hk : k ≠ 0) :
    (LinComb.fromKxPlusB x k b).evalArgs [y] = k * y + b := by
  simp [LinComb.fromKxPlusB, hx, hk, LinComb.evalArgs]; rw [add_comm, mul_comm]

omit [DecidableEq F] in
theorem LinComb.vars_replace (lc : LinComb F) (f : Nat → Nat) : (lc.replaceVars f).vars = lc.vars.map f := by
  simp [LinComb.replaceVars, LinComb.vars, Function.comp_def]

omit [DecidableEq F] in
theorem LinComb.evalArgs_replace (lc : LinComb F) (f : Nat → Nat) (args : List F) :
    (lc.replaceVars f).evalArgs args = lc.evalArgs args := by
  simp [LinComb.replaceVars, LinComb.evalArgs, List.zipWith_map_left]

theorem Source.sem_replace (E : Env F) (i : Source.Insn F) (f : Nat → Nat) (a o : List F) :
    (i.replaceVars f).sem E a o ↔ i.sem E a o := by
  cases i with
  | linComb lc => simp only [Source.Insn.replaceVars, Source.Insn.sem, LinComb.evalArgs_replace]
  | mul xs => simp only [Source.Insn.replaceVars, Source.Insn.sem]
  | hint h xs n => simp only [Source.Insn.replaceVars, Source.Insn.sem]
  | constantLike c => simp only [Source.Insn.replaceVars, Source.Insn.sem]
  | call c xs n => simp only [Source.Insn.replaceVars, Source.Insn.sem]
  | customGate g xs => simp only [Source.Insn.replaceVars, Source.Insn.sem]
  | commit xs => simp only [Source.Insn.replaceVars, Source.Insn.sem]
  | div x y c => rcases a with _ | ⟨a, _ | ⟨b, _ | ⟨d, t⟩⟩⟩ <;> simp only [Source.Insn.replaceVars, Source.Insn.sem]
  | boolBinOp x y c => rcases a with _ | ⟨a, _ | ⟨b, _ | ⟨d, t⟩⟩⟩ <;> simp only [Source.Insn.replaceVars, Source.Insn.sem]
  | unconstrainedBinOp x y c => rcases a with _ | ⟨a, _ | ⟨b, _ | ⟨d, t⟩⟩⟩ <;> simp only [Source.Insn.replaceVars, Source.Insn.sem]
  | unconstrainedSelect x y c => rcases a with _ | ⟨a, _ | ⟨b, _ | ⟨d, _ | ⟨e, t⟩⟩⟩⟩ <;> simp only [Source.Insn.replaceVars, Source.Insn.sem]
  | isZero x => rcases a with _ | ⟨a, _ | ⟨b, t⟩⟩ <;> simp only [Source.Insn.replaceVars, Source.Insn.sem]
  | toBinary x n => rcases a with _ | ⟨a, _ | ⟨b, t⟩⟩ <;> simp only [Source.Insn.replaceVars, Source.Insn.sem]

theorem Source.sem_length (E : Env F) (hE : E.HintLen) (i : Source.Insn F) (hc : i.asCall = none) (a o : List F) (h : i.sem E a o) :
    o.length = i.numOutputs := by
  cases i with
  | linComb lc => simp only [Source.Insn.sem] at h; simp [h, Source.Insn.numOutputs]
  | mul xs => simp only [Source.Insn.sem] at h; simp [h, Source.Insn.numOutputs]
  | hint hh xs n => exact hE _ _ _ _ h
  | constantLike c => obtain ⟨y, _, rfl⟩ := h; rfl
  | call c xs n => simp [Source.Insn.asCall] at hc
  | customGate g xs => simp only [Source.Insn.sem] at h; simp [h, Source.Insn.numOutputs]
  | commit xs => simp only [Source.Insn.sem] at h
  | div x y c =>
    rcases a with _ | ⟨a, _ | ⟨b, _ | ⟨d, t⟩⟩⟩ <;> simp only [Source.Insn.sem] at h
    split at h
    · rw [h.2.2]; rfl
    · rw [h]; rfl
  | boolBinOp x y c =>
    rcases a with _ | ⟨a, _ | ⟨b, _ | ⟨d, t⟩⟩⟩ <;> simp only [Source.Insn.sem] at h
    rw [h.2.2]; rfl
  | unconstrainedBinOp x y c =>
    rcases a with _ | ⟨a, _ | ⟨b, _ | ⟨d, t⟩⟩⟩ <;> simp only [Source.Insn.sem] at h
    obtain ⟨z, _, rfl⟩ := h; rfl
  | unconstrainedSelect x y c =>
    rcases a with _ | ⟨a, _ | ⟨b, _ | ⟨d, _ | ⟨e, t⟩⟩⟩⟩ <;> simp only [Source.Insn.sem] at h
    rw [h]; rfl
  | isZero x =>
    rcases a with _ | ⟨a, _ | ⟨b, t⟩⟩ <;> simp only [Source.Insn.sem] at h
    rw [h]; rfl
  | toBinary x n =>
    rcases a with _ | ⟨a, _ | ⟨b, t⟩⟩ <;> simp only [Source.Insn.sem] at h
    exact toBinary_length h

theorem source_lawful (E : Env F) (hE : E.HintLen) : (source E).Lawful where
  call_inputs := by intro i c a n h; cases i <;> simp [source, Source.Insn.asCall, Source.Insn.inputs] at h ⊢; exact h.2.1
  call_numOutputs := by intro i c a n h; cases i <;> simp [source, Source.Insn.asCall, Source.Insn.numOutputs] at h ⊢; exact h.2.2
  asCall_mkCall := by intros; rfl
  asCall_replace := by intro i f; cases i <;> rfl
  inputs_replace := by
    intro i f; cases i <;> simp [source, Source.Insn.replaceVars, Source.Insn.inputs, LinComb.vars_replace]
  numOutputs_replace := by intro i f; cases i <;> rfl
  prim_replace := by
    intro i f val outs _
    refine readPrim_replace ?_ (Source.sem_replace E i f) val outs
    cases i <;> simp [Source.Insn.replaceVars, Source.Insn.inputs, LinComb.vars_replace]
  prim_local := by intro i val val' outs _ h hp; exact readPrim_local h hp
  prim_length := by
    rintro i val outs hc ⟨args, _, h⟩
    exact Source.sem_length E hE i hc args outs h
  asCall_kx := by intros; rfl
  inputs_kx := by intro x k b hx hk; exact LinComb.inputs_kx hx hk
  numOutputs_kx := by intros; rfl
  valid_replace := by
    intro npi i f
    cases i <;> simp [source, Source.Insn.replaceVars, Source.Insn.valid, Bool.eq_iff_iff]
  valid_call := by intros; rfl
  valid_kx := by intros; rfl
  prim_kx := by
    intro x k b val outs hx hk
    refine readPrim_kx (I := Source.Insn F) (.linComb (LinComb.fromKxPlusB x k b)) x k b (LinComb.inputs_kx hx hk) ?_ val outs
    intro y outs
    simp only [Source.Insn.sem, LinComb.eval_kx hx hk]

/-! ## Hint-normalised -/

namespace HintNorm

/-- `enum Instruction` (hint_normalized/mod.rs:25-44). -/
inductive Insn (F : Type)
  | linComb (lc : LinComb F)
  | mul (xs : List Nat)
  | hint (id : Nat) (xs : List Nat) (n : Nat)
  | constantLike (c : Coef F)
  | call (c : Nat) (xs : List Nat) (n : Nat)
  | customGate (g : Nat) (xs : List Nat)
  deriving DecidableEq

/-- `inputs` (hint_normalized/mod.rs:60-69). -/
def Insn.inputs : Insn F → List Nat
  | .linComb lc => lc.vars
  | .mul xs => xs
  | .hint _ xs _ => xs
  | .constantLike _ => []
  | .call _ xs _ => xs
  | .customGate _ xs => xs

/-- `num_outputs` (hint_normalized/mod.rs:70-79). -/
def Insn.numOutputs : Insn F → Nat
  | .hint _ _ n => n
  | .call _ _ n => n
  | _ => 1

/-- `as_sub_circuit_call` (hint_normalized/mod.rs:80-89). -/
def Insn.asCall : Insn F → Option (Nat × List Nat × Nat)
  | .call c xs n => some (c, xs, n)
  | _ => none

/-- `replace_vars` (hint_normalized/mod.rs:97-126). -/
def Insn.replaceVars (i : Insn F) (f : Nat → Nat) : Insn F :=
  match i with
  | .linComb lc => .linComb (lc.replaceVars f)
  | .mul xs => .mul (xs.map f)
  | .hint h xs n => .hint h (xs.map f) n
  | .constantLike c => .constantLike c
  | .call c xs n => .call c (xs.map f) n
  | .customGate g xs => .customGate g (xs.map f)

/-- `validate` (hint_normalized/mod.rs:130-170). -/
def Insn.valid (npi : Nat) : Insn F → Bool
  | .mul xs => 2 ≤ xs.length
  | .hint h xs n => Hints.validateHint h xs.length n && !xs.isEmpty
  | .constantLike c => c.valid npi
  | .customGate _ xs => !xs.isEmpty
  | _ => true

/-- `eval_unsafe` (hint_normalized/mod.rs:171-207). -/
def Insn.sem (E : Env F) : Insn F → List F → List F → Prop
  | .linComb lc, args, outs => outs = [lc.evalArgs args]
  | .mul _, args, outs => outs = [args.prod]
  | .hint h _ n, args, outs => E.hint h args n outs
  | .constantLike c, _, outs => ∃ y, c.Sem E y ∧ outs = [y]
  | .customGate g _, args, outs => outs = [E.custom g args]
  | .call _ _ _, _, _ => False

end HintNorm

/-- `RawConstraint`: the variable must be zero (common/mod.rs:64-86). -/
def rawVerify (_ : Unit) (v : F) : Bool := v = 0

/-- `hint_normalized::Irc` (hint_normalized/mod.rs:46-57). -/
@[reducible] def hintNorm (E : Env F) : Lang F where
  Insn := HintNorm.Insn F
  Con := Unit
  inputs := HintNorm.Insn.inputs
  numOutputs := HintNorm.Insn.numOutputs
  asCall := HintNorm.Insn.asCall
  mkCall := HintNorm.Insn.call
  replaceVars := HintNorm.Insn.replaceVars
  fromKxPlusB := fun x k b => .linComb (LinComb.fromKxPlusB x k b)
  validInsn := HintNorm.Insn.valid
  prim := readPrim HintNorm.Insn.inputs (HintNorm.Insn.sem E)
  verify := rawVerify
  allowDupInputs := true
  allowDupConstraints := true
  allowDupOutputs := true

theorem HintNorm.sem_replace (E : Env F) (i : HintNorm.Insn F) (f : Nat → Nat) (a o : List F) :
    (i.replaceVars f).sem E a o ↔ i.sem E a o := by
  cases i <;> simp only [HintNorm.Insn.replaceVars, HintNorm.Insn.sem, LinComb.evalArgs_replace]

theorem HintNorm.sem_length (E : Env F) (hE : E.HintLen) (i : HintNorm.Insn F) (a o : List F) (h : i.sem E a o) :
    o.length = i.numOutputs := by
  cases i with
  | linComb lc => simp only [HintNorm.Insn.sem] at h; simp [h, HintNorm.Insn.numOutputs]
  | mul xs => simp only [HintNorm.Insn.sem] at h; simp [h, HintNorm.Insn.numOutputs]
  | hint hh xs n => exact hE _ _ _ _ h
  | constantLike c => obtain ⟨y, _, rfl⟩ := h; rfl
  | call c xs n => exact h.elim
  | customGate g xs => simp only [HintNorm.Insn.sem] at h; simp [h, HintNorm.Insn.numOutputs]

theorem hintNorm_lawful (E : Env F) (hE : E.HintLen) : (hintNorm E).Lawful where
  call_inputs := by intro i c a n h; cases i <;> simp [hintNorm, HintNorm.Insn.asCall, HintNorm.Insn.inputs] at h ⊢; exact h.2.1
  call_numOutputs := by intro i c a n h; cases i <;> simp [hintNorm, HintNorm.Insn.asCall, HintNorm.Insn.numOutputs] at h ⊢; exact h.2.2
  asCall_mkCall := by intros; rfl
  asCall_replace := by intro i f; cases i <;> rfl
  inputs_replace := by
    intro i f; cases i <;> simp [hintNorm, HintNorm.Insn.replaceVars, HintNorm.Insn.inputs, LinComb.vars_replace]
  numOutputs_replace := by intro i f; cases i <;> rfl
  prim_replace := by
    intro i f val outs _
    refine readPrim_replace ?_ (HintNorm.sem_replace E i f) val outs
    cases i <;> simp [HintNorm.Insn.replaceVars, HintNorm.Insn.inputs, LinComb.vars_replace]
  prim_local := by intro i val val' outs _ h hp; exact readPrim_local h hp
  prim_length := by
    rintro i val outs _ ⟨args, _, h⟩
    exact HintNorm.sem_length E hE i args outs h
  asCall_kx := by intros; rfl
  inputs_kx := by intro x k b hx hk; exact LinComb.inputs_kx hx hk
  numOutputs_kx := by intros; rfl
  valid_replace := by
    intro npi i f
    cases i <;> simp [hintNorm, HintNorm.Insn.replaceVars, HintNorm.Insn.valid, Bool.eq_iff_iff]
  valid_call := by intros; rfl
  valid_kx := by intros; rfl
  prim_kx := by
    intro x k b val outs hx hk
    refine readPrim_kx (I := HintNorm.Insn F) (.linComb (LinComb.fromKxPlusB x k b)) x k b (LinComb.inputs_kx hx hk) ?_ val outs
    intro y outs
    simp only [HintNorm.Insn.sem, LinComb.eval_kx hx hk]

theorem hintNorm_total (E : Env F) (hE : E.HintTotal) : (hintNorm E).Total := by
  intro npi i val hc hv hin
  obtain ⟨args, ha⟩ := mapOpt_isSome hin
  cases i with
  | linComb lc => exact ⟨_, args, ha, rfl⟩
  | mul xs => exact ⟨_, args, ha, rfl⟩
  | hint h xs n =>
    have hv' : Hints.validateHint h xs.length n = true ∧ (!xs.isEmpty) = true := by
      simpa [hintNorm, HintNorm.Insn.valid] using hv
    have hl := mapOpt_length ha
    simp only [hintNorm, HintNorm.Insn.inputs] at hl
    rw [← hl] at hv'
    obtain ⟨o, ho⟩ := hE _ _ _ hv'.1
    exact ⟨o, args, ha, ho⟩
  | constantLike c =>
    cases c with
    | const c => exact ⟨[c], args, ha, c, rfl, rfl⟩
    | random => exact ⟨[0], args, ha, 0, trivial, rfl⟩
    | pub i => exact ⟨[E.pub i], args, ha, _, rfl, rfl⟩
  | call c xs n => simp [hintNorm, HintNorm.Insn.asCall] at hc
  | customGate g xs => exact ⟨_, args, ha, rfl⟩

/-! ## Hint-less -/

namespace HintLess

/-- `enum Instruction` (hint_less/mod.rs:18-32). -/
inductive Insn (F : Type)
  | linComb (lc : LinComb F)
  | mul (xs : List Nat)
  | constantLike (c : Coef F)
  | call (c : Nat) (xs : List Nat) (n : Nat)
  | customGate (g : Nat) (xs : List Nat)
  deriving DecidableEq

/-- `inputs` (hint_less/mod.rs:55-63). -/
def Insn.inputs : Insn F → List Nat
  | .linComb lc => lc.vars
  | .mul xs => xs
  | .constantLike _ => []
  | .call _ xs _ => xs
  | .customGate _ xs => xs

/-- `num_outputs` (hint_less/mod.rs:64-72). -/
def Insn.numOutputs : Insn F → Nat
  | .call _ _ n => n
  | _ => 1

/-- `as_sub_circuit_call` (hint_less/mod.rs:73-82). -/
def Insn.asCall : Insn F → Option (Nat × List Nat × Nat)
  | .call c xs n => some (c, xs, n)
  | _ => none

/-- `replace_vars` (hint_less/mod.rs:90-109). -/
def Insn.replaceVars (i : Insn F) (f : Nat → Nat) : Insn F :=
  match i with
  | .linComb lc => .linComb (lc.replaceVars f)
  | .mul xs => .mul (xs.map f)
  | .constantLike c => .constantLike c
  | .call c xs n => .call c (xs.map f) n
  | .customGate g xs => .customGate g (xs.map f)

/-- `validate` (hint_less/mod.rs:113-127). -/
def Insn.valid (npi : Nat) : Insn F → Bool
  | .mul xs => 2 ≤ xs.length
  | .constantLike c => c.valid npi
  | _ => true

/-- `eval_unsafe` (hint_less/mod.rs:128-150). -/
def Insn.sem (E : Env F) : Insn F → List F → List F → Prop
  | .linComb lc, args, outs => outs = [lc.evalArgs args]
  | .mul _, args, outs => outs = [args.prod]
  | .constantLike c, _, outs => ∃ y, c.Sem E y ∧ outs = [y]
  | .customGate g _, args, outs => outs = [E.custom g args]
  | .call _ _ _, _, _ => False

end HintLess

/-- `hint_less::Irc` (hint_less/mod.rs:41-52). -/
@[reducible] def hintLess (E : Env F) : Lang F where
  Insn := HintLess.Insn F
  Con := Unit
  inputs := HintLess.Insn.inputs
  numOutputs := HintLess.Insn.numOutputs
  asCall := HintLess.Insn.asCall
  mkCall := HintLess.Insn.call
  replaceVars := HintLess.Insn.replaceVars
  fromKxPlusB := fun x k b => .linComb (LinComb.fromKxPlusB x k b)
  validInsn := HintLess.Insn.valid
  prim := readPrim HintLess.Insn.inputs (HintLess.Insn.sem E)
  verify := rawVerify
  allowDupInputs := true
  allowDupConstraints := true
  allowDupOutputs := true

theorem HintLess.sem_replace (E : Env F) (i : HintLess.Insn F) (f : Nat → Nat) (a o : List F) :
    (i.replaceVars f).sem E a o ↔ i.sem E a o := by
  cases i <;> simp only [HintLess.Insn.replaceVars, HintLess.Insn.sem, LinComb.evalArgs_replace]

theorem HintLess.sem_length (E : Env F) (i : HintLess.Insn F) (a o : List F) (h : i.sem E a o) :
    o.length = i.numOutputs := by
  cases i with
  | linComb lc => simp only [HintLess.Insn.sem] at h; simp [h, HintLess.Insn.numOutputs]
  | mul xs => simp only [HintLess.Insn.sem] at h; simp [h, HintLess.Insn.numOutputs]
  | constantLike c => obtain ⟨y, _, rfl⟩ := h; rfl
  | call c xs n => exact h.elim
  | customGate g xs => simp only [HintLess.Insn.sem] at h; simp [h, HintLess.Insn.numOutputs]

theorem hintLess_lawful (E : Env F) : (hintLess E).Lawful where
  call_inputs := by intro i c a n h; cases i <;> simp [hintLess, HintLess.Insn.asCall, HintLess.Insn.inputs] at h ⊢; exact h.2.1
  call_numOutputs := by intro i c a n h; cases i <;> simp [hintLess, HintLess.Insn.asCall, HintLess.Insn.numOutputs] at h ⊢; exact h.2.2
  asCall_mkCall := by intros; rfl
  asCall_replace := by intro i f; cases i <;> rfl
  inputs_replace := by
    intro i f; cases i <;> simp [hintLess, HintLess.Insn.replaceVars, HintLess.Insn.inputs, LinComb.vars_replace]
  numOutputs_replace := by intro i f; cases i <;> rfl
  prim_replace := by
    intro i f val outs _
    refine readPrim_replace ?_ (HintLess.sem_replace E i f) val outs
    cases i <;> simp [HintLess.Insn.replaceVars, HintLess.Insn.inputs, LinComb.vars_replace]
  prim_local := by intro i val val' outs _ h hp; exact readPrim_local h hp
  prim_length := by
    rintro i val outs _ ⟨args, _, h⟩
    exact HintLess.sem_length E i args outs h
  asCall_kx := by intros; rfl
  inputs_kx := by intro x k b hx hk; exact LinComb.inputs_kx hx hk
  numOutputs_kx := by intros; rfl
  valid_replace := by
    intro npi i f
    cases i <;> simp [hintLess, HintLess.Insn.replaceVars, HintLess.Insn.valid, Bool.eq_iff_iff]
  valid_call := by intros; rfl
  valid_kx := by intros; rfl
  prim_kx := by
    intro x k b val outs hx hk
    refine readPrim_kx (I := HintLess.Insn F) (.linComb (LinComb.fromKxPlusB x k b)) x k b (LinComb.inputs_kx hx hk) ?_ val outs
    intro y outs
    simp only [HintLess.Insn.sem, LinComb.eval_kx hx hk]

theorem hintLess_total (E : Env F) : (hintLess E).Total := by
  intro npi i val hc hv hin
  obtain ⟨args, ha⟩ := mapOpt_isSome hin
  cases i with
  | linComb lc => exact ⟨_, args, ha, rfl⟩
  | mul xs => exact ⟨_, args, ha, rfl⟩
  | constantLike c =>
    cases c with
    | const c => exact ⟨[c], args, ha, c, rfl, rfl⟩
    | random => exact ⟨[0], args, ha, 0, trivial, rfl⟩
    | pub i => exact ⟨[E.pub i], args, ha, _, rfl, rfl⟩
  | call c xs n => simp [hintLess, HintLess.Insn.asCall] at hc
  | customGate g xs => exact ⟨_, args, ha, rfl⟩

end Verif.IR
