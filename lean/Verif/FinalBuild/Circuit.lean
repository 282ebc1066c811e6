import Verif.FinalBuild.Mul
import Verif.Builder.Lower
import Verif.IR.BottomUp

/-!
# `final_build_opt.rs`: one circuit, and the root circuit
-/

set_option linter.unusedSectionVars false
set_option linter.unusedSimpArgs false

namespace Verif.FinalBuild

open Verif.IR Verif.Builder

variable {F : Type} [Field F] [DecidableEq F]

/-- The part of `Builder` (final_build_opt.rs:33-56) that changes while a circuit is processed: the middle variables, `in_var_exprs`, `out_insns`. -/
structure St (F : Type) where
  mids : Mids F
  exprs : List (Expr F)
  outs : List (Nat × Dest.Insn F)

/-- `Builder::new` (final_build_opt.rs:87-102): entry 0 of the pool is the invalid expression, in-variable 0 is the zero expression. -/
def St.new : St F := ⟨[⟨[], false, 1, 1, 0, 0⟩], [[Term.zero]], []⟩

/-- `new_var` (final_build_opt.rs:104-116) and its use in the loop of `add_in_vars` (118-125). -/
def addInVar (st : St F) (layer : Nat) : Option (St F) :=
  match find st.mids [⟨1, .linear st.mids.length⟩] false with
  | some _ => none
  | none => some ⟨st.mids ++ [⟨[⟨1, .linear st.mids.length⟩], false, 1, 1, 0, layer⟩], st.exprs ++ [[⟨1, .linear st.mids.length⟩]], st.outs⟩

/-- `add_in_vars` (final_build_opt.rs:118-125). -/
def addInVars (st : St F) (layer : Nat) : Nat → Option (St F)
  | 0 => some st
  | n + 1 => match addInVar st layer with
    | none => none
    | some st' => addInVars st' layer n

/-- `InVarRefCounts` (final_build_opt.rs:71-76). -/
structure Ref where
  add : Nat
  mul : Nat
  single : Nat

/-- The reference counts of one instruction (final_build_opt.rs:546-573). -/
def refInsn (v : Nat) : HintLess.Insn F → Ref
  | .linComb lc => ⟨(lc.terms.map (·.1)).count v, 0, 0⟩
  | .mul xs => ⟨0, xs.count v, 0⟩
  | .constantLike _ => ⟨0, 0, 0⟩
  | .call _ xs _ => ⟨0, 0, xs.count v⟩
  | .customGate _ xs => ⟨0, 0, xs.count v⟩

/-- `in_var_ref_counts` (final_build_opt.rs:542-579): how often the variable is used in sums, in products and on its own.  The code fills a
vector; this is the entry for `v`. -/
def refOf (is : List (HintLess.Insn F)) (outputs cons : List Nat) (v : Nat) : Ref :=
  ⟨(is.map (fun i => (refInsn v i).add)).sum, (is.map (fun i => (refInsn v i).mul)).sum,
    (is.map (fun i => (refInsn v i).single)).sum + outputs.count v + cons.count v⟩

/-- `COMPRESS_THRESHOLD` (final_build_opt.rs:27). -/
def compressThreshold : Nat := 64

/-- The decision of `add_and_check_if_should_make_single` (final_build_opt.rs:473-482). -/
def shouldCompress (cs : Costs) (r : Ref) (e : Expr F) : Bool :=
  let d := countDeg e
  (decide (0 < r.single) || decide (compressThreshold < d.1 + d.2.1 + d.2.2) ||
    decide (costCompress cs d.1 d.2.1 d.2.2 + costRefs cs 0 1 0 r.add r.mul < costRefs cs d.1 d.2.1 d.2.2 r.add r.mul)) && decide (0 < degree e)

/-- `add_and_check_if_should_make_single` (final_build_opt.rs:472-491), on the middle variables left by the computation of `e`. -/
def addCheck (cs : Costs) (ref : Nat → Ref) (st : St F) (ms : Mids F) (e : Expr F) : Option (St F) :=
  if shouldCompress cs (ref st.exprs.length) e then
    match makeSingle ms e with
    | none => none
    | some (ms', r) => some ⟨ms', st.exprs ++ [r], st.outs⟩
  else some ⟨ms, st.exprs ++ [e], st.outs⟩

/-- `make_really_single` on a list (final_build_opt.rs:624-627, 644-647, 671-675). -/
def singles (ms : Mids F) : List (Expr F) → Option (Mids F × List Nat)
  | [] => some (ms, [])
  | e :: es => match makeReallySingle ms e with
    | none => none
    | some (ms', i) => match singles ms' es with
      | none => none
      | some (ms'', is) => some (ms'', i :: is)

/-- The summands of `lin_comb` (final_build_opt.rs:229-245). -/
def linArgs (exprs : List (Expr F)) (lc : LinComb F) : Option (List (Expr F × F)) :=
  match mapOpt (fun t : Nat × F => (exprs[t.1]?).map (fun e => (e, t.2))) lc.terms with
  | none => none
  | some vs => some (if lc.const = 0 then vs else vs ++ [([⟨lc.const, .const⟩], 1)])

/-- One instruction (final_build_opt.rs:585-655).  `ol` gives the output layers of the sub circuits, which are already processed. -/
def procInsn (cs : Costs) (ltE : Expr F → Expr F → Bool) (ref : Nat → Ref) (ol : Nat → Option Nat) (st : St F) : HintLess.Insn F → Option (St F)
  | .linComb lc => match linArgs st.exprs lc with
    | none => none
    | some vs => match linCombInner st.mids vs with
      | none => none
      | some (ms, e) => addCheck cs ref st ms e
  | .mul xs => match mapOpt (fun x => st.exprs[x]?) xs with
    | none => none
    | some es => match mulVec cs ltE st.mids es with
      | none => none
      | some (ms, e) => addCheck cs ref st ms e
  | .constantLike (.const c) => some ⟨st.mids, st.exprs ++ [[⟨c, .const⟩]], st.outs⟩
  | .constantLike .random => addInVars ⟨st.mids, st.exprs, st.outs ++ [(st.mids.length, .constantLike .random)]⟩ 1 1
  | .constantLike (.pub i) => addInVars ⟨st.mids, st.exprs, st.outs ++ [(st.mids.length, .constantLike (.pub i))]⟩ 1 1
  | .call c xs n => match ol c with
    | none => none
    | some l => match mapOpt (fun x => st.exprs[x]?) xs with
      | none => none
      | some es => match singles st.mids es with
        | none => none
        | some (ms, is) =>
          let maxLayer := if is.isEmpty then 1 else layerOfVars ms is
          addInVars ⟨ms, st.exprs, st.outs ++ [(ms.length, .call c is n)]⟩ (maxLayer + l) n
  | .customGate g xs => match mapOpt (fun x => st.exprs[x]?) xs with
    | none => none
    | some es => match singles st.mids es with
      | none => none
      | some (ms, is) => addCheck cs ref st ms [⟨1, .custom g is⟩]

/-- The instruction loop (final_build_opt.rs:585-655). -/
def procInsns (cs : Costs) (ltE : Expr F → Expr F → Bool) (ref : Nat → Ref) (ol : Nat → Option Nat) : St F → List (HintLess.Insn F) → Option (St F)
  | st, [] => some st
  | st, i :: is => match procInsn cs ltE ref ol st i with
    | none => none
    | some st' => procInsns cs ltE ref ol st' is

/-- The constraint loop (final_build_opt.rs:658-670): constraints on constants are decided here. -/
def procCons (exprs : List (Expr F)) : Mids F → List Nat → Outcome (Mids F × List Nat)
  | ms, [] => .ok (ms, [])
  | ms, c :: cs => match exprs[c]? with
    | none => .panic
    | some e => match constValue e with
      | some v => if v = 0 then procCons exprs ms cs else .userError
      | none => match makeReallySingle ms e with
        | none => .panic
        | some (ms', i) => match procCons exprs ms' cs with
          | .ok (ms'', is) => .ok (ms'', i :: is)
          | .panic => .panic
          | .userError => .userError

/-- The expression of an `InternalVariable` instruction (final_build_opt.rs:694-702). -/
def internalExpr (m : Mid F) : Expr F :=
  let e2 := Expr.mulConstant m.expr m.k
  if m.b = 0 then e2 else Expr.fromTerms (e2 ++ [⟨m.b, .const⟩])

/-- The emission loop (final_build_opt.rs:682-708): `i` is `mid_var_id`, the list holds the middle variables from `i` on, and `outs` the
instructions not yet emitted. -/
def emit : Nat → Mids F → List (Nat × Dest.Insn F) → List (Dest.Insn F)
  | _, [], outs => outs.map (·.2)
  | i, m :: ms, outs =>
    (outs.takeWhile (fun o => decide (o.1 = i))).map (·.2) ++
      ((if m.expr = [⟨1, .linear i⟩] then [] else [.internal (internalExpr m)]) ++ emit (i + 1) ms (outs.dropWhile (fun o => decide (o.1 = i))))

/-- `process_circuit` (final_build_opt.rs:536-719): the new circuit and its output layer. -/
def procCircuit {E : Env F} (cs : Costs) (ltE : Expr F → Expr F → Bool) (E' : Env F) (ol : Nat → Option Nat) (c : Circuit (hintLess E)) :
    Outcome (Circuit (dest E' true) × Nat) :=
  let cons := c.constraints.map (·.var)
  match addInVars St.new 0 c.numInputs with
  | none => .panic
  | some st0 => match procInsns cs ltE (refOf c.instructions c.outputs cons) ol st0 c.instructions with
    | none => .panic
    | some st => match procCons st.exprs st.mids (cons.insertionSort (· ≤ ·)) with
      | .panic => .panic
      | .userError => .userError
      | .ok (ms, ks) => match mapOpt (fun x => st.exprs[x]?) c.outputs with
        | none => .panic
        | some es => match singles ms es with
          | none => .panic
          | some (ms', os) =>
            .ok (⟨emit (c.numInputs + 1) (ms'.drop (c.numInputs + 1)) st.outs, ks.map (fun k => ⟨(), k⟩), os, c.numInputs⟩, layerOfVars ms' os)

/-- The loop of `process` (final_build_opt.rs:726-732) over the circuits, callees first. -/
def procList {E : Env F} (cs : Costs) (ltE : Expr F → Expr F → Bool) (E' : Env F) (get : Nat → Option (Circuit (hintLess E))) :
    List Nat → Outcome (List (Nat × (Circuit (dest E' true) × Nat)))
  | [] => .ok []
  | c :: q => match procList cs ltE E' get q with
    | .panic => .panic
    | .userError => .userError
    | .ok t => match get c with
      | none => .panic
      | some circ => match procCircuit cs ltE E' (fun d => (t.lookup d).map (·.2)) circ with
        | .panic => .panic
        | .userError => .userError
        | .ok r => .ok ((c, r) :: t)

/-- `process` (final_build_opt.rs:721-738). -/
def process {E : Env F} (cs : Costs) (ltE : Expr F → Expr F → Bool) (E' : Env F) (rc : RootCircuit (hintLess E)) : Outcome (RootCircuit (dest E' true)) :=
  match Utils.topoOrder rc.vertices rc.edges with
  | none => .panic
  | some order => match procList cs ltE E' rc.get order with
    | .panic => .panic
    | .userError => .userError
    | .ok t => .ok ⟨rc.numPublicInputs, rc.expectedNumOutputZeroes, t.map (fun p => (p.1, p.2.1))⟩

end Verif.FinalBuild
