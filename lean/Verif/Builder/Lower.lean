import Verif.Builder.Push
import Verif.IR.HintExportProof
import Verif.IR.BottomUp

/-!
# Hint normalisation (builder/hint_normalize.rs and the driver of builder/basic.rs)

Each source instruction is expanded into a list of requests to the builder (`Ev`): push an instruction, assert that a variable is
zero, mark that a variable is known to be zero.  Variable ids are predictable: a pushed instruction gets the next ids.
-/

set_option linter.unusedSectionVars false
set_option linter.unusedSimpArgs false

namespace Verif.Builder

open Verif.IR Verif.Hints Verif.Utils

variable {F : Type} [Field F] [DecidableEq F]

/-- `push_const` (hint_normalize.rs:29-32). -/
def constI (c : F) : HintNorm.Insn F := .constantLike (.const c)

/-- A linear combination of two variables (`push_add`, `push_sub` and the literal ones). -/
def lc2 (a : Nat) (p : F) (b : Nat) (q : F) : HintNorm.Insn F := .linComb ⟨[(a, p), (b, q)], 0⟩

/-- `push_add` (hint_normalize.rs:33-48). -/
def addI (a b : Nat) : HintNorm.Insn F := lc2 a 1 b 1

/-- `push_sub` (hint_normalize.rs:49-64). -/
def subI (a b : Nat) : HintNorm.Insn F := lc2 a 1 b (-1)

/-- `push_mul` (hint_normalize.rs:65-67). -/
def mulI (a b : Nat) : HintNorm.Insn F := .mul [a, b]

/-- A push of a built-in hint. -/
def hintI (i : Hints.Id) (xs : List Nat) (n : Nat) : HintNorm.Insn F := .hint i.toNat xs n

/-- `bool_cond` (hint_normalize.rs:74-78); the result is variable `n + 2`. -/
def boolCond (n a : Nat) : List (Ev F) := [.push (constI 1), .push (subI a n), .push (mulI a (n + 1))]

/-- `assert_bool` (hint_normalize.rs:79-82). -/
def assertBool (n a : Nat) : List (Ev F) := boolCond n a ++ [.assert (n + 2)]

/-- `mark_bool` (hint_normalize.rs:83-86). -/
def markBool (n a : Nat) : List (Ev F) := boolCond n a ++ [.mark (n + 2)]

/-- The built-in hint for an unconstrained operation (hint_normalize.rs:217-236). -/
def uopId : Source.UOp → Hints.Id
  | .div => .div
  | .pow => .pow
  | .intDiv => .intDiv
  | .mod => .mod
  | .shiftL => .shiftL
  | .shiftR => .shiftR
  | .lesserEq => .lesserEq
  | .greaterEq => .greaterEq
  | .lesser => .lesser
  | .greater => .greater
  | .eq => .eq
  | .notEq => .notEq
  | .boolOr => .boolOr
  | .boolAnd => .boolAnd
  | .bitOr => .bitOr
  | .bitAnd => .bitAnd
  | .bitXor => .bitXor

/-- The loop over the bits of `ToBinary` (hint_normalize.rs:273-286): requests and the final `sum` variable. -/
def bitsLoop : Nat → Nat → F → List Nat → List (Ev F) × Nat
  | _, sum, _, [] => ([], sum)
  | n, sum, coef, bit :: bits =>
    let r := bitsLoop (n + 5) (n + 4) (coef + coef) bits
    (assertBool n bit ++ [.push (.linComb ⟨[(bit, coef)], 0⟩), .push (addI sum (n + 3))] ++ r.1, r.2)

/-- The `n` ids that a push with `k` results gets. -/
def newIds (n k : Nat) : List Nat := List.range' n k

/-- The end of the expansion of a boolean operation (hint_normalize.rs:137-160), after both operands have been asserted boolean:
`x_plus_y` is variable `n`, `x_times_y` variable `n + 1`. -/
def boolTail (n x y : Nat) : Source.BoolOp → List (Ev F) × List Nat
  | .and => ([.push (addI x y), .push (mulI x y)] ++ markBool (n + 2) (n + 1), [n + 1])
  | .or => ([.push (addI x y), .push (mulI x y), .push (subI n (n + 1))] ++ markBool (n + 3) (n + 2), [n + 2])
  | .xor => ([.push (addI x y), .push (mulI x y), .push (lc2 n 1 (n + 1) (-(1 + 1)))] ++ markBool (n + 3) (n + 2), [n + 2])

/-- `transform_in_to_out` (hint_normalize.rs:90-305): the requests and the variables that hold the results; `none` is a
`UserError`.  `cv` is `constant_value` of the builder, `n` the next variable id.  An `InsnTransformResult::Insn` result is the push
of that instruction, whose results are the next ids (basic.rs:355-362). -/
def expand (cn : Canon F) (cv : Nat → Option F) (n : Nat) : Source.Insn F → Option (List (Ev F) × List Nat)
  | .linComb lc => some ([.push (.linComb lc)], [n])
  | .mul xs => some ([.push (.mul xs)], [n])
  | .div x y checked => match cv y with
    | some yv => if yv = 0 then none else some ([.push (constI yv⁻¹), .push (mulI x n)], [n + 1])
    | none =>
      if checked then
        some ([.push (constI 1), .push (hintI .div [n, y] 1), .push (mulI y (n + 1)), .push (subI (n + 2) n), .assert (n + 3),
          .push (mulI x (n + 1))], [n + 4])
      else some ([.push (hintI .div [x, y] 1), .push (mulI y n), .push (subI (n + 1) x), .assert (n + 2)], [n])
  | .boolBinOp x y op =>
    let t := boolTail (n + 6) x y op
    some (assertBool n x ++ assertBool (n + 3) y ++ t.1, t.2)
  | .isZero x => match cv x with
    | some xv => some ([.push (constI (if xv = 0 then 1 else 0))], [n])
    | none => some ([.push (constI 1), .push (hintI .div [n, x] 1), .push (mulI x (n + 1)), .push (subI n (n + 2)),
        .push (mulI x (n + 3)), .assert (n + 4)] ++ markBool (n + 5) (n + 3), [n + 3])
  | .commit _ => some ([.push (.constantLike .random)], [n])
  | .hint h xs k => some ([.push (.hint h xs k)], newIds n k)
  | .constantLike c => some ([.push (.constantLike c)], [n])
  | .call c xs k => some ([.push (.call c xs k)], newIds n k)
  | .unconstrainedBinOp x y op => match cv x, cv y with
    | some xv, some yv => match op.eval cn xv yv with
      | some z => some ([.push (constI z)], [n])
      | none => none
    | _, _ => some ([.push (hintI (uopId op) [x, y] 1)], [n])
  | .unconstrainedSelect c t f => match cv c with
    | some c => some ([], [if c = 0 then f else t])
    | none => some ([.push (hintI .select [c, t, f] 1)], [n])
  | .customGate g xs => some ([.push (.customGate g xs)], [n])
  | .toBinary x k =>
    let bits := newIds n k
    let r := bitsLoop (n + k + 1) (n + k) 1 bits
    some ([.push (hintI .toBinary [x] k), .push (constI 0)] ++ r.1 ++
      [.push (lc2 r.2 (-1) x 1), .assert (n + k + 1 + 5 * k)], bits)

/-- `transform_in_con_to_out` (hint_normalize.rs:307-328) and the `assert` of `process_con` (basic.rs:372-377). -/
def expandCon (n v : Nat) : Source.Con → List (Ev F)
  | .zero => [.assert v]
  | .bool => assertBool n v
  | .nonZero => [.push (constI 1), .push (hintI .div [n, v] 1), .push (mulI v (n + 1)), .push (subI (n + 2) n), .assert (n + 3)]

/-- How a step of the driver ends. -/
inductive Outcome (α : Type)
  | panic
  | userError
  | ok (a : α)
  deriving DecidableEq

/-- The builder state and `in_to_out`. -/
structure PSt (F : Type) where
  st : St F
  ito : List Nat

/-- `constant_value` (basic.rs:153-155). -/
def constOf (st : St F) (v : Nat) : Option F := (st.exprs[v]?).bind constValue

variable (cn : Canon F) (srt : List (Expr F) → List (Expr F))

/-- `process_insn` (basic.rs:345-370). -/
def processInsn (ps : PSt F) (i : Source.Insn F) : Outcome (PSt F) :=
  match expand cn (constOf ps.st) ps.st.exprs.length (i.replaceVars (vmGet ps.ito)) with
  | none => .userError
  | some (es, vars) =>
    match exec srt ps.st es with
    | none => .panic
    | some st' => if vars.length = i.numOutputs then .ok ⟨st', ps.ito ++ vars⟩ else .panic

/-- The instruction loop of `process_circuit` (basic.rs:609-611). -/
def processInsns : PSt F → List (Source.Insn F) → Outcome (PSt F)
  | ps, [] => .ok ps
  | ps, i :: is => match processInsn cn srt ps i with
    | .ok ps' => processInsns ps' is
    | .panic => .panic
    | .userError => .userError

/-- `process_con` (basic.rs:372-377). -/
def processCon (ps : PSt F) (typ : Source.Con) (v : Nat) : Outcome (PSt F) :=
  match exec srt ps.st (expandCon ps.st.exprs.length (vmGet ps.ito v) typ) with
  | none => .panic
  | some st' => .ok ⟨st', ps.ito⟩

/-- The constraint loop of `process_circuit` (basic.rs:612-614). -/
def processCons : PSt F → List (Source.Con × Nat) → Outcome (PSt F)
  | ps, [] => .ok ps
  | ps, (t, v) :: cs => match processCon srt ps t v with
    | .ok ps' => processCons ps' cs
    | .panic => .panic
    | .userError => .userError

/-- The expressions that end up asserted, in sorted order (basic.rs:616-621). -/
def assertedKeys (st : St F) : List (Expr F) :=
  (srt (st.cons.map (·.1))).filter (fun e => st.cons.lookup e == some true)

/-- The emitted constraints (basic.rs:615-628). -/
def finalCons (st : St F) : Option (List Nat) := mapOpt (fun e => st.eto.lookup e) (assertedKeys srt st)

/-- `add_input` (basic.rs:247-253) on a new builder. -/
def initPs (numInputs : Nat) : Option (PSt F) :=
  match addOutVars numInputs (St.init : St F) with
  | none => none
  | some st => some ⟨st, List.range (numInputs + 1)⟩

/-- The builder when a circuit has been processed: `process_circuit` (basic.rs:606-614). -/
def buildCircuit (numInputs : Nat) (is : List (Source.Insn F)) (cs : List (Source.Con × Nat)) : Outcome (PSt F) :=
  match initPs numInputs with
  | none => .panic
  | some ps => match processInsns cn srt ps is with
    | .ok ps' => processCons srt ps' cs
    | .panic => .panic
    | .userError => .userError

/-- The constraints of a source circuit. -/
def consOf {E : Env F} (c : Circuit (source E)) : List (Source.Con × Nat) := c.constraints.map (fun k => (k.typ, k.var))

/-- `process_circuit` (basic.rs:592-640).  `E` is a phantom: a circuit of the model carries the environment its hints and public
inputs are evaluated in, and the output may be evaluated in another one. -/
def processCircuit {E : Env F} (E' : Env F) (c : Circuit (source E)) : Outcome (Circuit (hintNorm E')) :=
  match buildCircuit cn srt c.numInputs c.instructions (consOf c) with
  | .panic => .panic
  | .userError => .userError
  | .ok ps => match finalCons srt ps.st with
    | none => .panic
    | some ks => .ok ⟨ps.st.insns, ks.map (fun v => ⟨(), v⟩), c.outputs.map (vmGet ps.ito), c.numInputs⟩

/-- The loop of `process_root_circuit` (basic.rs:662-668): the head of the order is processed last; the first error ends it. -/
def processList {E : Env F} (E' : Env F) (get : Nat → Option (Circuit (source E))) : List Nat → Outcome (List (Nat × Circuit (hintNorm E')))
  | [] => .ok []
  | c :: cs => match processList E' get cs with
    | .panic => .panic
    | .userError => .userError
    | .ok t => match get c with
      | none => .panic
      | some circ => match processCircuit cn srt E' circ with
        | .panic => .panic
        | .userError => .userError
        | .ok c' => .ok ((c, c') :: t)

/-- `process` of hint_normalize.rs:372-376 = `process_root_circuit` (basic.rs:642-676). -/
def process {E : Env F} (E' : Env F) (rc : RootCircuit (source E)) : Outcome (RootCircuit (hintNorm E')) :=
  match topoOrder rc.vertices rc.edges with
  | none => .panic
  | some q => match processList cn srt E' rc.get q with
    | .panic => .panic
    | .userError => .userError
    | .ok t => .ok ⟨rc.numPublicInputs, rc.expectedNumOutputZeroes, t⟩

end Verif.Builder
