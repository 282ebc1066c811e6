import Verif.IR.Langs
import Verif.IR.Compose
import Verif.Builder.ExpandProof
import Verif.Hints.Builtin

/-!
# The frontend builder (frontend/builder.rs)

`Builder` collects source instructions; every API function is a state transformer that may panic (`none`).
`impl ToVariableOrValue` arguments are `Arg`.  `Variable` ids are natural numbers.
-/
set_option linter.unusedSectionVars false
set_option linter.unusedSimpArgs false
namespace Verif.Frontend
open Verif.IR

variable {F : Type} [Field F] [DecidableEq F]

/-- `enum VariableOrValue` (builder.rs:72-75). -/
inductive Arg (F : Type)
  | var (v : Nat)
  | val (x : F)
  deriving DecidableEq

/-- `struct Builder` (builder.rs:27-33). -/
structure Builder (F : Type) where
  instructions : List (Source.Insn F)
  constraints : List (Source.Con × Nat)
  varConstId : List Nat
  constValues : List F
  numInputs : Nat

/-- API functions: state transformers with panics. -/
def M (F : Type) (α : Type) := Builder F → Option (α × Builder F)

/-- Semantics of source instructions: honest (`adv = false`, the evaluation of the code) or with adversarial results of unconstrained operations
(`adv = true`, what the generated constraints enforce: Builder/Gadgets.lean and C07). -/
def semM (adv : Bool) (E : Env F) (i : Source.Insn F) : List F → List F → Prop :=
  match adv with
  | false => i.sem E
  | true => Verif.Builder.semAdv E i

/-- The source language in the two readings: `srcM false E = source E`, `srcM true E = sourceAdv E`. -/
@[reducible] def srcM (adv : Bool) (E : Env F) : Lang F where
  Insn := Source.Insn F
  Con := Source.Con
  inputs := Source.Insn.inputs
  numOutputs := Source.Insn.numOutputs
  asCall := Source.Insn.asCall
  mkCall := Source.Insn.call
  replaceVars := Source.Insn.replaceVars
  fromKxPlusB := fun x k b => .linComb (LinComb.fromKxPlusB x k b)
  validInsn := Source.Insn.valid
  prim := readPrim Source.Insn.inputs (semM adv E)
  verify := Source.Con.verify
  allowDupInputs := true
  allowDupConstraints := true
  allowDupOutputs := true

theorem srcM_false (E : Env F) : srcM false E = source E := rfl
theorem srcM_true (E : Env F) : srcM true E = Verif.Builder.sourceAdv E := rfl

namespace M

/-- Return without effect. -/
def ret {α : Type} (a : α) : M F α := fun b => some (a, b)

/-- Sequencing; a panic aborts. -/
def andThen {α β : Type} (m : M F α) (k : α → M F β) : M F β := fun b =>
  match m b with
  | none => none
  | some (a, b') => k a b'

/-- A panic. -/
def panic {α : Type} : M F α := fun _ => none

end M

/-- `Builder::new` (builder.rs:111-122). -/
def Builder.new (n : Nat) : Builder F := ⟨[], [], List.replicate (n + 1) 0, [0], n⟩

/-- Push an instruction with `k` outputs and create its variables (`instructions.push(..)` followed by `new_var` `k` times, builder.rs:148-154). -/
def emit (i : Source.Insn F) (k : Nat) : M F (List Nat) := fun b =>
  some ((List.range k).map (b.varConstId.length + ·),
    { b with instructions := b.instructions ++ [i], varConstId := b.varConstId ++ List.replicate k 0 })

/-- An instruction with one output. -/
def emit1 (i : Source.Insn F) : M F Nat := fun b =>
  some (b.varConstId.length, { b with instructions := b.instructions ++ [i], varConstId := b.varConstId ++ [0] })

/-- Push a constraint. -/
def pushCon (t : Source.Con) (v : Nat) : M F Unit := fun b => some ((), { b with constraints := b.constraints ++ [(t, v)] })

/-- `convert_to_variable` (builder.rs:133-146); `Variable(0)` panics (builder.rs:61-65, 92-101). -/
def toVar : Arg F → M F Nat
  | .var v => fun b => if v = 0 then none else some (v, b)
  | .val x => fun b => some (b.varConstId.length,
      { b with instructions := b.instructions ++ [.constantLike (.const x)], varConstId := b.varConstId ++ [b.constValues.length],
               constValues := b.constValues ++ [x] })

/-- `constant` (builder.rs:448-450). -/
def constant (x : Arg F) : M F Nat := toVar x

/-- `constant_value` (builder.rs:452-469); out-of-range indexing panics. -/
def constantValue : Arg F → M F (Option F)
  | .val x => M.ret (some x)
  | .var v => fun b =>
    if v = 0 then none
    else match b.varConstId[v]? with
      | none => none
      | some 0 => some (none, b)
      | some (t + 1) => match b.constValues[t + 1]? with
        | none => none
        | some x => some (some x, b)

/-- The common shape of the two-argument functions (e.g. builder.rs:157-185): fold two constants, otherwise emit. -/
def binary (fold : F → F → M F Nat) (mk : Nat → Nat → Source.Insn F) (x y : Arg F) : M F Nat :=
  (constantValue x).andThen fun xc => (constantValue y).andThen fun yc =>
    match xc, yc with
    | some xv, some yv => fold xv yv
    | _, _ => (toVar x).andThen fun x => (toVar y).andThen fun y => emit1 (mk x y)

/-- The common shape of the one-argument functions. -/
def unary (fold : F → M F Nat) (mk : Nat → Source.Insn F) (x : Arg F) : M F Nat :=
  (constantValue x).andThen fun xc =>
    match xc with
    | some xv => fold xv
    | none => (toVar x).andThen fun x => emit1 (mk x)

/-- `add` (builder.rs:157-185). -/
def add (x y : Arg F) : M F Nat := binary (fun a b => constant (.val (a + b))) (fun x y => .linComb ⟨[(x, 1), (y, 1)], 0⟩) x y

/-- `sub` (builder.rs:187-215). -/
def sub (x y : Arg F) : M F Nat := binary (fun a b => constant (.val (a - b))) (fun x y => .linComb ⟨[(x, 1), (y, -1)], 0⟩) x y

/-- `neg` (builder.rs:217-231). -/
def neg (x : Arg F) : M F Nat := unary (fun a => constant (.val (-a))) (fun x => .linComb ⟨[(x, -1)], 0⟩) x

/-- `mul` (builder.rs:233-250). -/
def mul (x y : Arg F) : M F Nat := binary (fun a b => constant (.val (a * b))) (fun x y => .mul [x, y]) x y

/-- `div` (builder.rs:252-281). -/
def div (x y : Arg F) (checked : Bool) : M F Nat :=
  binary (fun a b => if b = 0 then (if checked || a ≠ 0 then M.panic else constant (.val 0)) else constant (.val (a * b⁻¹)))
    (fun x y => .div x y checked) x y

/-- The shared shape of `assert_is_zero`, `assert_is_non_zero`, `assert_is_bool` (builder.rs:385-425): a failing constant panics, a
passing one is still constrained. -/
def assertCon (t : Source.Con) (x : Arg F) : M F Unit :=
  (constantValue x).andThen fun xc =>
    if (match xc with | some xv => t.verify xv | none => true) then (toVar x).andThen fun v => pushCon t v else M.panic

/-- `xor`, `or`, `and` (builder.rs:283-357). -/
def boolOp (op : Source.BoolOp) (x y : Arg F) : M F Nat :=
  binary (fun a b => (assertCon .bool (.val a)).andThen fun _ => (assertCon .bool (.val b)).andThen fun _ =>
      constant (.val (Hints.ofBool (match op with
        | .xor => a ≠ b
        | .or => a ≠ 0 || b ≠ 0
        | .and => a ≠ 0 && b ≠ 0))))
    (fun x y => .boolBinOp x y op) x y

/-- `is_zero` (builder.rs:359-367). -/
def isZero (x : Arg F) : M F Nat := unary (fun a => constant (.val (Hints.ofBool (a = 0)))) (fun x => .isZero x) x

/-- A constant for each value. -/
def constants : List F → M F (List Nat)
  | [] => M.ret []
  | x :: xs => (constant (.val x)).andThen fun v => (constants xs).andThen fun vs => M.ret (v :: vs)

/-- `to_binary` (builder.rs:369-383); `unwrap` panics when a constant does not fit. -/
def toBinary (cn : Canon F) (x : Arg F) (n : Nat) : M F (List Nat) :=
  (constantValue x).andThen fun xc =>
    match xc with
    | some xv => match Hints.toBinary cn xv n with
      | none => M.panic
      | some vs => constants vs
    | none => (toVar x).andThen fun x => emit (.toBinary x n) n

/-- `get_random_value` (builder.rs:427-431). -/
def randomValue : M F Nat := emit1 (.constantLike .random)

/-- `ensure_variables_valid` (builder.rs:67-71). -/
def ensureValid (vs : List Nat) : M F Unit := fun b => if 0 ∈ vs then none else some ((), b)

/-- `new_hint` (builder.rs:433-446); the key is already hashed to an id. -/
def newHint (hid : Nat) (xs : List Nat) (n : Nat) : M F (List Nat) := (ensureValid xs).andThen fun _ => emit (.hint hid xs n) n

/-- A sub-circuit call instruction (`call_sub_circuit`, builder.rs:742-763, the part after the callee exists). -/
def callInsn (c : Nat) (xs : List Nat) (n : Nat) : M F (List Nat) := emit (.call c xs n) n

/-- One round of the loop of `gt` (builder.rs:497-516) on the variables of the bits. -/
def gtRound (one xb yb result stillEq : Nat) : M F (Nat × Nat) :=
  (sub (.var one) (.var yb)).andThen fun notY =>
  (boolOp .and (.var xb) (.var notY)).andThen fun greater =>
  (boolOp .and (.var stillEq) (.var greater)).andThen fun set =>
  (boolOp .or (.var result) (.var set)).andThen fun result' =>
  (boolOp .xor (.var xb) (.var yb)).andThen fun diff =>
  (sub (.var one) (.var diff)).andThen fun same =>
  (boolOp .and (.var stillEq) (.var same)).andThen fun stillEq' =>
  M.ret (result', stillEq')

/-- The loop of `gt` (builder.rs:497-516) over the bit pairs, most significant first. -/
def gtLoop (one : Nat) : List (Nat × Nat) → Nat → Nat → M F Nat
  | [], result, _ => M.ret result
  | (xb, yb) :: bits, result, stillEq => (gtRound one xb yb result stillEq).andThen fun r => gtLoop one bits r.1 r.2

/-- The number of bits `gt` uses (builder.rs:482-486), from `FIELD_SIZE`; other sizes panic. -/
def gtBits (fieldSize : Nat) : Option Nat := if fieldSize = 256 then some 254 else if fieldSize = 32 then some 31 else none

/-- `gt` (builder.rs:471-519).  (`display` has no effect on the circuit.) -/
def gt (cn : Canon F) (fieldSize : Nat) (x y : Arg F) : M F Nat :=
  (constant (.val 1)).andThen fun one => (toVar x).andThen fun x => (toVar y).andThen fun y =>
    match gtBits fieldSize with
    | none => M.panic
    | some n =>
      (toBinary cn (.var x) n).andThen fun xs => (toBinary cn (.var y) n).andThen fun ys =>
      (constant (.val 0)).andThen fun result => (constant (.val 1)).andThen fun stillEq =>
      gtLoop one (xs.zip ys).reverse result stillEq

/-- `geq` (builder.rs:522-531). -/
def geq (cn : Canon F) (fieldSize : Nat) (x y : Arg F) : M F Nat :=
  (gt cn fieldSize y x).andThen fun g => (constant (.val 1)).andThen fun one => sub (.var one) (.var g)

/-- `unconstrained_binary_op!` (builder.rs:535-553). -/
def unconstrained (op : Source.UOp) (x y : Arg F) : M F Nat := (toVar x).andThen fun x => (toVar y).andThen fun y => emit1 (.unconstrainedBinOp x y op)

/-- `unconstrained_identity` (builder.rs:556-563). -/
def uIdentity (x : Arg F) : M F Nat := (toVar x).andThen fun x => emit1 (.hint (Hints.Id.toNat .identity) [x] 1)

/-- `unconstrained_add` (builder.rs:565-573). -/
def uAdd (x y : Arg F) : M F Nat :=
  (toVar x).andThen fun x => (toVar y).andThen fun y => (add (.var x) (.var y)).andThen fun z => uIdentity (.var z)

/-- `unconstrained_mul` (builder.rs:575-583). -/
def uMul (x y : Arg F) : M F Nat :=
  (toVar x).andThen fun x => (toVar y).andThen fun y => (mul (.var x) (.var y)).andThen fun z => uIdentity (.var z)

/-- One call of the API. -/
inductive Call (F : Type)
  | constant (x : Arg F)
  | add (x y : Arg F) | sub (x y : Arg F) | neg (x : Arg F) | mul (x y : Arg F) | div (x y : Arg F) (checked : Bool)
  | boolOp (op : Source.BoolOp) (x y : Arg F) | isZero (x : Arg F) | toBinary (x : Arg F) (n : Nat)
  | assertCon (t : Source.Con) (x : Arg F)
  | random
  | hint (hid : Nat) (xs : List Nat) (n : Nat)
  | gt (x y : Arg F) | geq (x y : Arg F)
  | uOp (op : Source.UOp) (x y : Arg F) | uIdentity (x : Arg F) | uAdd (x y : Arg F) | uMul (x y : Arg F)
  | call (c : Nat) (xs : List Nat) (n : Nat)
  | pub (i : Nat)  -- not an API function: the public input variables made by `RootBuilder::new` (builder.rs:794-799)

/-- One result. -/
def one1 (m : M F Nat) : M F (List Nat) := m.andThen fun v => M.ret [v]

/-- Run one API call; the result is the list of returned variables. -/
def Call.run (cn : Canon F) (fieldSize : Nat) : Call F → M F (List Nat)
  | .constant x => one1 (Frontend.constant x)
  | .add x y => one1 (Frontend.add x y)
  | .sub x y => one1 (Frontend.sub x y)
  | .neg x => one1 (Frontend.neg x)
  | .mul x y => one1 (Frontend.mul x y)
  | .div x y c => one1 (Frontend.div x y c)
  | .boolOp op x y => one1 (Frontend.boolOp op x y)
  | .isZero x => one1 (Frontend.isZero x)
  | .toBinary x n => Frontend.toBinary cn x n
  | .assertCon t x => (Frontend.assertCon t x).andThen fun _ => M.ret []
  | .random => one1 randomValue
  | .hint h xs n => newHint h xs n
  | .gt x y => one1 (Frontend.gt cn fieldSize x y)
  | .geq x y => one1 (Frontend.geq cn fieldSize x y)
  | .uOp op x y => one1 (unconstrained op x y)
  | .uIdentity x => one1 (Frontend.uIdentity x)
  | .uAdd x y => one1 (Frontend.uAdd x y)
  | .uMul x y => one1 (Frontend.uMul x y)
  | .call c xs n => callInsn c xs n
  | .pub i => one1 (emit1 (.constantLike (.pub i)))

/-- A sequence of API calls with the variables each returned. -/
def runCalls (cn : Canon F) (fieldSize : Nat) : List (Call F) → M F (List (Call F × List Nat))
  | [] => M.ret []
  | c :: cs => (c.run cn fieldSize).andThen fun r => (runCalls cn fieldSize cs).andThen fun l => M.ret ((c, r) :: l)

/-- `build` (builder.rs:124-131). -/
def Builder.build {adv : Bool} (E : Env F) (b : Builder F) (outputs : List Nat) : Circuit (srcM adv E) :=
  ⟨b.instructions, b.constraints.map (fun k => ⟨k.1, k.2⟩), outputs, b.numInputs⟩

end Verif.Frontend
