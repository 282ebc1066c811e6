import Verif.Builder.Pool
import Verif.Utils.Heap
import Verif.IR.Langs
import Verif.IR.Dest

/-!
# Lowering to expressions: `builder/final_build_opt.rs`

The three parallel vectors `stripped_mid_vars`, `mid_var_coefs` and `mid_var_layer` (final_build_opt.rs:40-47) are one list of records here: the
code always extends them together.  `none` is a Rust panic.  All costs and layers are modelled, so that every decision the code takes is the
decision of the model; the proofs do not depend on them.
-/

set_option linter.unusedSectionVars false
set_option linter.unusedSimpArgs false

namespace Verif.FinalBuild

open Verif.IR Verif.Builder

variable {F : Type} [Field F] [DecidableEq F]

/-- A middle variable: its key (`MidVarKey`, final_build_opt.rs:58-62), its coefficients (`MidVarCoef`, 64-69) and its layer (46). -/
structure Mid (F : Type) where
  expr : Expr F
  force : Bool
  k : F
  kinv : F
  b : F
  layer : Nat
  deriving DecidableEq

abbrev Mids (F : Type) := List (Mid F)

/-- `COST_MUL`, `COST_ADD`, `COST_CONST`, `COST_VARIABLE` (circuit/config.rs:24-28, 63). -/
structure Costs where
  mul : Nat
  add : Nat
  const : Nat
  var : Nat

/-- `cost_of_compress` (circuit/costs.rs:3-8). -/
def costCompress (cs : Costs) (d0 d1 d2 : Nat) : Nat := cs.mul * d2 + cs.add * d1 + cs.const * d0 + cs.var

/-- `cost_of_multiply` (circuit/costs.rs:10-19). -/
def costMultiply (cs : Costs) (a0 a1 b0 b1 : Nat) : Nat := cs.mul * (a1 * b1) + cs.add * (a0 * b1 + a1 * b0) + cs.const * (a0 * b0)

/-- `cost_of_possible_references` (circuit/costs.rs:21-29). -/
def costRefs (cs : Costs) (d0 d1 d2 refAdd refMul : Nat) : Nat :=
  cs.const * (d0 * refAdd) + cs.add * (d1 * refAdd + d0 * refMul) + cs.mul * (d2 * refAdd + (d1 + d2 * 2) * refMul)

/-- `cost_of_relay` (circuit/costs.rs:31-33). -/
def costRelay (cs : Costs) (l1 l2 : Nat) : Nat := ((l1 - l2) + (l2 - l1)) * (cs.var + cs.add)

/-- `count_of_degrees` (circuit/ir/expr.rs:346-358); the panic on `RandomLinear` is not modelled (such terms never reach it). -/
def countDeg (e : Expr F) : Nat × Nat × Nat :=
  (e.countP (fun t => decide (t.vars = .const)),
   e.countP (fun t => match t.vars with | .linear _ => true | _ => false),
   e.countP (fun t => match t.vars with | .const => false | .linear _ => false | _ => true))

/-- `layer_of_varspec` (final_build_opt.rs:206-220), with layer 0 for a variable that does not exist (index panic). -/
def layerOfVars (ms : Mids F) (vs : List Nat) : Nat := (vs.map (fun v => (ms[v]?.map (·.layer)).getD 0)).foldl max 0

/-- `layer_of_expr` (final_build_opt.rs:222-227). -/
def layerOf (ms : Mids F) (e : Expr F) : Nat := (e.map (fun t => layerOfVars ms t.vars.vars)).foldl max 0

/-- `strip_constants` (final_build_opt.rs:494-515): unlike the function of the same name in basic.rs, the coefficient of a constant is 1. -/
def stripC (e : Expr F) : Option (Expr F × F × F) :=
  match e.filter (fun t => decide (t.vars ≠ .const)) with
  | [] => some ([Term.zero], 1, constPart e)
  | t :: ts =>
    if t.coef = 0 then none
    else match fromTermsSorted ((t :: ts).map (fun s => ⟨s.coef * t.coef⁻¹, s.vars⟩)) with
      | some r => some (r, t.coef, constPart e)
      | none => none

/-- `Pool::try_get_idx` on the keys (utils/pool.rs, used in final_build_opt.rs:136,157,174,191). -/
def find (ms : Mids F) (e : Expr F) (force : Bool) : Option Nat := ms.findIdx? (fun m => decide (m.expr = e ∧ m.force = force))

/-- `unstrip_constants_single` (final_build_opt.rs:517-534). -/
def unstrip (vid : Nat) (coef c : F) (m : Mid F) : Option (Expr F) :=
  if vid = 0 then none
  else some (Expr.fromTerms (⟨m.kinv * coef, .linear vid⟩ ::
    (if c - m.b * (m.kinv * coef) = 0 then [] else [⟨c - m.b * (m.kinv * coef), .const⟩])))

/-- `make_single` (final_build_opt.rs:131-150). -/
def makeSingle (ms : Mids F) (e : Expr F) : Option (Mids F × Expr F) :=
  match stripC e with
  | none => none
  | some (es, coef, c) =>
    if es.length = 1 ∧ degree es ≤ 1 then some (ms, e)
    else match find ms es false with
      | none => if coef = 0 then none
        else some (ms ++ [⟨es, false, coef, coef⁻¹, c, layerOf ms es + 1⟩], [⟨1, .linear ms.length⟩])
      | some idx => match ms[idx]? with
        | none => none
        | some m => match unstrip idx coef c m with
          | none => none
          | some r => some (ms, r)

/-- `try_make_single` (final_build_opt.rs:152-164). -/
def tryMakeSingle (ms : Mids F) (e : Expr F) : Option (Expr F) :=
  match stripC e with
  | none => none
  | some (es, coef, c) =>
    if es.length = 1 ∧ degree es ≤ 1 then some e
    else match find ms es false with
      | none => some e
      | some idx => match ms[idx]? with
        | none => none
        | some m => unstrip idx coef c m

/-- `make_really_single` (final_build_opt.rs:166-204). -/
def makeReallySingle (ms : Mids F) (e : Expr F) : Option (Mids F × Nat) :=
  match e with
  | [⟨c, .linear v⟩] => if c = 1 then some (ms, v) else slow e
  | _ => slow e
where
  /-- The part after the shortcut (final_build_opt.rs:173-203). -/
  slow (e : Expr F) : Option (Mids F × Nat) :=
    match stripC e with
    | none => none
    | some (es, coef, c) => match find ms es false with
      | none => if coef = 0 then none
        else some (ms ++ [⟨es, false, coef, coef⁻¹, c, layerOf ms e + 1⟩], ms.length)
      | some idx => match ms[idx]? with
        | none => none
        | some m =>
          if coef = m.k ∧ c = m.b then some (ms, idx)
          else match makeSingle ms e with
            | none => none
            | some (ms', e') => match find ms' e' true with
              | some i => some (ms', i)
              | none => some (ms' ++ [⟨e', true, 1, 1, 0, layerOf ms' e' + 1⟩], ms'.length)

/-- The order of `layered_add` (final_build_opt.rs:323-332): first the layer, then the monomial. -/
def layerLe (ms : Mids F) (a b : Term F) : Bool :=
  decide (layerOfVars ms a.vars.vars < layerOfVars ms b.vars.vars) ||
    (decide (layerOfVars ms a.vars.vars = layerOfVars ms b.vars.vars) && a.vars.le b.vars)

/-- The loop of `layered_add` (final_build_opt.rs:333-343); `last = none` stands for -1. -/
def layerLoop (ms : Mids F) (cur : List (Term F)) (last : Option Nat) : List (Term F) → Option (Mids F × List (Term F))
  | [] => some (ms, cur)
  | t :: ts =>
    let layer := layerOfVars ms t.vars.vars
    if last ≠ none ∧ last ≠ some layer then
      match makeSingle ms (Expr.fromTerms cur) with
      | none => none
      | some (ms', e) => layerLoop ms' (e ++ [t]) (some layer) ts
    else layerLoop ms (cur ++ [t]) (some layer) ts

/-- `layered_add` (final_build_opt.rs:305-344). -/
def layeredAdd (ms : Mids F) (ts : List (Term F)) : Option (Mids F × Expr F) :=
  let layers := ts.map (fun t => layerOfVars ms t.vars.vars)
  if ts.length ≤ 1 ∨ (∀ a ∈ layers, ∀ b ∈ layers, a = b) then
    match fromTermsSorted ts with
    | none => none
    | some e => some (ms, e)
  else match layerLoop ms [] none (ts.insertionSort (fun a b => layerLe ms a b = true)) with
    | none => none
    | some (ms', cur) => some (ms', Expr.fromTerms cur)

/-- The merge loop of `lin_comb_inner` (final_build_opt.rs:259-296), on the lists of scaled terms. -/
def mergeTerms (ls : List (List (Term F))) : List (Term F) := ((kmerge (ls.map List.length).sum ls).foldl pushTerm []).reverse

/-- `lin_comb_inner` (final_build_opt.rs:247-303): expressions with their coefficients. -/
def linCombInner (ms : Mids F) (vs : List (Expr F × F)) : Option (Mids F × Expr F) :=
  match mapOpt (fun x => (tryMakeSingle ms x.1).map (fun r => (r, x.2))) vs with
  | none => none
  | some [] => some (ms, [Term.zero])
  | some [(e, c)] => match mulConst e c with
    | none => none
    | some r => layeredAdd ms r
  | some ws =>
    match mergeTerms ((ws.filter (fun x => decide (x.2 ≠ 0))).map (fun x => x.1.map (fun t => ⟨t.coef * x.2, t.vars⟩))) with
    | [] => some (ms, [Term.zero])
    | t :: ts => layeredAdd ms (t :: ts)

/-- `cmp_expr_for_mul` (final_build_opt.rs:346-358) as a strict order; `ltE` is the derived order of expressions (it depends on the order of the
field elements). -/
def cmpMul (ltE : Expr F → Expr F → Bool) (ms : Mids F) (a b : Expr F) : Bool :=
  if layerOf ms a ≠ layerOf ms b then decide (layerOf ms a < layerOf ms b)
  else if a.length ≠ b.length then decide (a.length < b.length)
  else ltE a b

/-- The decision whether to compress an operand of a product, and which (final_build_opt.rs:420-449): `(compress_some, compress_1)`. -/
def chooseCompress (cs : Costs) (ms : Mids F) (e1 e2 : Expr F) : Bool × Bool :=
  let d1 := countDeg e1
  let d2 := countDeg e2
  let l1 := layerOf ms e1
  let l2 := layerOf ms e2
  let direct := costMultiply cs d1.1 d1.2.1 d2.1 d2.2.1
  let comp1 := costMultiply cs 0 1 d2.1 d2.2.1 + costCompress cs d1.1 d1.2.1 d1.2.2
  let comp2 := costMultiply cs d1.1 d1.2.1 0 1 + costCompress cs d2.1 d2.2.1 d2.2.2
  let both := costMultiply cs 0 1 0 1 + costCompress cs d1.1 d1.2.1 d1.2.2 + costCompress cs d2.1 d2.2.1 d2.2.2
  if l1 = l2 then (decide (min (min comp1 comp2) both < direct), decide (comp1 < min comp2 both))
  else
    let direct := direct + costRelay cs l1 l2
    let comp1 := comp1 + costRelay cs (l1 + 1) l2
    let comp2 := comp2 + costRelay cs l1 (l2 + 1)
    if comp1 < direct then (decide (2 < e1.length), true)
    else if comp2 < direct then (decide (2 < e2.length), false)
    else (false, false)

/-- The body of the loop of `mul_vec` after the operands have been taken out (final_build_opt.rs:390-466): the expressions pushed back. -/
def mulStep (cs : Costs) (ms : Mids F) (a b : Expr F) : Option (Mids F × List (Expr F)) :=
  let e1 := if a.length > b.length then b else a
  let e2 := if a.length > b.length then a else b
  if degree e1 = 0 then
    match constValue e1 with
    | none => none
    | some c => match mulConst e2 c with
      | none => none
      | some r => some (ms, [r])
  else if degree e2 = 0 then
    match constValue e2 with
    | none => none
    | some c => match mulConst e1 c with
      | none => none
      | some r => some (ms, [r])
  else if degree e1 = 2 then
    if degree e2 = 2 then
      match makeSingle ms e2 with
      | none => none
      | some (ms1, r2) => match makeSingle ms1 e1 with
        | none => none
        | some (ms2, r1) => some (ms2, [r2, r1])
    else match makeSingle ms e1 with
      | none => none
      | some (ms2, r1) => some (ms2, [e2, r1])
  else if degree e2 = 2 then
    match makeSingle ms e2 with
    | none => none
    | some (ms2, r2) => some (ms2, [e1, r2])
  else if (chooseCompress cs ms e1 e2).1 then
    if (chooseCompress cs ms e1 e2).2 then
      match makeSingle ms e1 with
      | none => none
      | some (ms1, r1) => some (ms1, [r1, e2])
    else match makeSingle ms e2 with
      | none => none
      | some (ms2, r2) => some (ms2, [e1, r2])
  else match rows e1 e2 with
    | none => none
    | some rs => match linCombInner ms (rs.map (fun r => (r, 1))) with
      | none => none
      | some (ms', r) => some (ms', [r])

/-- The loop of `mul_vec` (final_build_opt.rs:369-467): `exprs`, `exprs_pos_heap`, `next_push_pos`.  The first argument bounds the number of
iterations. -/
def mulLoop (cs : Costs) (ltE : Expr F → Expr F → Bool) : Nat → Mids F → List (Expr F) → List Nat → Nat → Option (Mids F × Expr F)
  | 0, _, _, _, _ => none
  | fuel + 1, ms, exprs, heap, next =>
    let lt : Nat → Nat → Bool := fun i j => cmpMul ltE ms (exprs.getD i []) (exprs.getD j [])
    match (List.range' next (exprs.length - next)).foldl (fun h p => Heap.push lt h p) heap with
    | [p] => (exprs[p]?).map (fun e => (ms, e))
    | heap => match Heap.pop lt heap with
      | none => none
      | some (p1, heap1) => match Heap.pop lt heap1 with
        | none => none
        | some (p2, heap2) => match exprs[p1]?, exprs[p2]? with
          | some a, some b => match mulStep cs ms a b with
            | none => none
            | some (ms', new) =>
              mulLoop cs ltE fuel ms' (((exprs.set p1 [Term.zero]).set p2 [Term.zero]) ++ new) heap2 exprs.length
          | _, _ => none

/-- `mul_vec` (final_build_opt.rs:360-470) on the expressions of the factors.  The bound on the number of iterations is shown to suffice. -/
def mulVec (cs : Costs) (ltE : Expr F → Expr F → Bool) (ms : Mids F) (es : List (Expr F)) : Option (Mids F × Expr F) :=
  if es.length < 2 then none
  else match mapOpt (tryMakeSingle ms) es with
    | none => none
    | some es => mulLoop cs ltE (3 * es.length + 1) ms es [] 0

end Verif.FinalBuild
