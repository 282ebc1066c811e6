import Verif.IR.MapCircuits

/-!
# `solve_mul_fanout_limit` (circuit/ir/dest/mul_fanout_limit.rs)

Variables used in more than `limit` products are copied (the defining instruction is repeated) or relayed (`1 * x`).
-/

set_option linter.unusedSectionVars false
set_option linter.unusedSimpArgs false

namespace Verif.IR

variable {F : Type} [Field F] [DecidableEq F]

namespace MulFanout

open Dest

/-- `compute_max_copy_cnt` (mul_fanout_limit.rs:10-17). -/
def maxCopies (numGates : Nat) : Nat := if numGates = 0 then 0 else min 4 (64 / numGates)

/-- The variables of one term that occur in a product. -/
def termQuads (t : Term F) : List Nat :=
  match t.vars with
  | .quad x y => [x, y]
  | _ => []

/-- All occurrences of variables in products of an expression (mul_fanout_limit.rs:72-77). -/
def quads (e : Expr F) : List Nat := e.flatMap termQuads

/-- All occurrences of variables in products of an instruction. -/
def insnQuads : Insn F → List Nat
  | .internal e => quads e
  | _ => []

/-- What the first loop records of a variable: the products in its definition and `max_copy_cnt`. -/
structure Info where
  quads : List Nat
  maxCopy : Nat

/-- The entries one instruction appends (mul_fanout_limit.rs:57-83). -/
def insnInfos : Insn F → List Info
  | .constantLike _ => [⟨[], maxCopies 1⟩]
  | .call _ _ n => List.replicate n ⟨[], 0⟩
  | .internal e => [⟨quads e, maxCopies e.length⟩]

/-- The first loop (mul_fanout_limit.rs:53-83), variables `1, 2, …`. -/
def infos (numInputs : Nat) (is : List (Insn F)) : List Info := List.replicate numInputs ⟨[], 0⟩ ++ is.flatMap insnInfos

/-- The decision for one variable (mul_fanout_limit.rs:90-111): `add_copy_cnt` and `relay_cnt`. -/
def decideVar (limit m maxCopy : Nat) : Nat × Nat :=
  if m ≤ max maxCopy 1 * limit then (max ((m + limit - 1) / limit) 1 - 1, 0) else (0, (m - 2) / (limit - 1))

/-- The second loop (mul_fanout_limit.rs:89-112), from the last variable to the first one: the decisions for the variables `k, k + 1, …` and the
updated `mul_ref_cnt`. -/
def plan (limit : Nat) : Nat → List Info → (Nat → Nat) → List (Nat × Nat) × (Nat → Nat)
  | _, [], ref => ([], ref)
  | k, v :: vs, ref =>
    let r := plan limit (k + 1) vs ref
    let d := decideVar limit (r.2 k) v.maxCopy
    (d :: r.1, fun x => r.2 x + d.1 * v.quads.count x)

/-- `NewIdQueue` (mul_fanout_limit.rs:19-23); entries that `next` has passed are dropped. -/
structure Q where
  queue : List (Nat × Nat)
  dflt : Nat

/-- The loop of `NewIdQueue::get` (mul_fanout_limit.rs:38-47). -/
def getAux (d : Nat) : List (Nat × Nat) → Nat × List (Nat × Nat)
  | [] => (d, [])
  | (_, 0) :: r => getAux d r
  | (id, n + 1) :: r => (id, (id, n) :: r)

/-- `NewIdQueue::get` (mul_fanout_limit.rs:38-47). -/
def Q.get (q : Q) : Nat × Q := ((getAux q.dflt q.queue).1, ⟨(getAux q.dflt q.queue).2, q.dflt⟩)

/-- `NewIdQueue::push` (mul_fanout_limit.rs:34-36). -/
def Q.push (q : Q) (id num : Nat) : Q := ⟨q.queue ++ [(id, num)], q.dflt⟩

/-- `new_id[x].get()`; an index out of range, excluded by `validate`, panics in the code and gives 0 here. -/
def getAt (st : List Q) (x : Nat) : Nat × List Q :=
  match st[x]? with
  | none => (0, st)
  | some q => (q.get.1, st.set x q.get.2)

/-- `new_id[x].default_id`. -/
def dfltAt (st : List Q) (x : Nat) : Nat :=
  match st[x]? with
  | none => 0
  | some q => q.dflt

/-- The relays of one variable (mul_fanout_limit.rs:140-147). -/
def relays (limit : Nat) : Nat → Q → Nat → List (Insn F) × Q
  | 0, q, _ => ([], q)
  | r + 1, q, mx =>
    let s := relays limit r (q.get.2.push (mx + 1) limit) (mx + 1)
    (.internal [⟨1, .linear q.get.1⟩] :: s.1, s.2)

/-- The copies of one variable (mul_fanout_limit.rs:134-139): ids `mx + 1, …`. -/
def pushCopies (limit a mx : Nat) (q : Q) : Q := ⟨q.queue ++ (List.range' (mx + 1) a).map (fun i => (i, limit)), q.dflt⟩

/-- One round of the `while` loop (mul_fanout_limit.rs:125-148); `last` is `new_insns.last()`, `none` its `unwrap` panic. -/
def solveVar (limit : Nat) (p : Nat × Nat) (last : Option (Insn F)) (q : Q) (mx : Nat) : Option (List (Insn F) × Q) :=
  if p.1 = 0 ∧ p.2 = 0 then some ([], q)
  else
    match p.1, last with
    | 0, _ => some (relays limit p.2 (q.push q.dflt limit) mx)
    | a + 1, some i =>
      let s := relays limit p.2 (pushCopies limit (a + 1) mx (q.push q.dflt limit)) (mx + (a + 1))
      some (List.replicate (a + 1) i ++ s.1, s.2)
    | _ + 1, none => none

/-- State of the instruction loop: `new_id`, `last_solved_id`, `new_insns.last()`, `new_var_max`. -/
structure St (F : Type) where
  newId : List Q
  solved : Nat
  last : Option (Insn F)
  mx : Nat

/-- `new_insns.last()` after appending. -/
def lastOf (last : Option (Insn F)) (js : List (Insn F)) : Option (Insn F) :=
  match js.getLast? with
  | some j => some j
  | none => last

/-- The `while` loop (mul_fanout_limit.rs:125-148), `k` rounds. -/
def solveAll (limit : Nat) (pl : List (Nat × Nat)) : Nat → St F → Option (List (Insn F) × St F)
  | 0, s => some ([], s)
  | k + 1, s =>
    match s.newId[s.solved + 1]? with
    | none => none
    | some q =>
      match solveVar limit (pl.getD (s.solved + 1) (0, 0)) s.last q s.mx with
      | none => none
      | some (js, q') =>
        (solveAll limit pl k ⟨s.newId.set (s.solved + 1) q', s.solved + 1, lastOf s.last js, s.mx + js.length⟩).map fun r => (js ++ r.1, r.2)

/-- One term of a copied expression (mul_fanout_limit.rs:180-192). -/
def emitTerm (st : List Q) (t : Term F) : Term F × List Q :=
  match t.vars with
  | .quad x y => (⟨t.coef, .quad (getAt st x).1 (getAt (getAt st x).2 y).1⟩, (getAt (getAt st x).2 y).2)
  | v => (⟨t.coef, v.replaceVars (dfltAt st)⟩, st)

/-- The terms of a copied expression (mul_fanout_limit.rs:178-192). -/
def emitTerms : List (Term F) → List Q → List (Term F) × List Q
  | [], st => ([], st)
  | t :: ts, st =>
    let r := emitTerm st t
    let s := emitTerms ts r.2
    (r.1 :: s.1, s.2)

/-- The copies of an expression (mul_fanout_limit.rs:177-198). -/
def emitCopies (e : Expr F) : Nat → List Q → List (Insn F) × List Q
  | 0, st => ([], st)
  | k + 1, st =>
    let r := emitTerms e st
    let s := emitCopies e k r.2
    (.internal (Expr.fromTerms r.1) :: s.1, s.2)

/-- One instruction (mul_fanout_limit.rs:149-208); `none` are the failing assertions. -/
def stepInsn (limit : Nat) (pl : List (Nat × Nat)) (i : Insn F) (s : St F) : Option (List (Insn F) × St F) :=
  match i with
  | .constantLike c => some ([.constantLike c], ⟨s.newId ++ [⟨[], s.mx + 1⟩], s.solved, some (.constantLike c), s.mx + 1⟩)
  | .call c xs n =>
    if (List.range n).all (fun k => (pl.getD (s.newId.length + k) (0, 0)).1 == 0) then
      some ([.call c (xs.map (dfltAt s.newId)) n],
        ⟨s.newId ++ (List.range' (s.mx + 1) n).map (fun id => ⟨[], id⟩), s.solved, some (.call c (xs.map (dfltAt s.newId)) n), s.mx + n⟩)
    else none
  | .internal e =>
    let x := s.newId.length
    let p := pl.getD x (0, 0)
    if p.1 > 0 ∧ p.2 ≠ 0 then none
    else
      let r := emitCopies e (p.1 + 1) s.newId
      let mx := s.mx + (p.1 + 1)
      some (r.1, ⟨r.2 ++ [⟨if p.1 > 0 then (List.range' (s.mx + 1) (p.1 + 1)).map (fun i => (i, limit)) else [], mx⟩],
        if p.1 > 0 then x else s.solved, lastOf s.last r.1, mx⟩)

/-- The instruction loop (mul_fanout_limit.rs:124-209). -/
def loop (limit : Nat) (pl : List (Nat × Nat)) : List (Insn F) → St F → Option (List (Insn F) × St F)
  | [], s => some ([], s)
  | i :: is, s =>
    match solveAll limit pl (s.newId.length - 1 - s.solved) s with
    | none => none
    | some (js, s1) =>
      match stepInsn limit pl i s1 with
      | none => none
      | some (ks, s2) => (loop limit pl is s2).map fun r => (js ++ ks ++ r.1, r.2)

/-- The decisions for the variables `0, 1, …` of a circuit. -/
def planOf (limit numInputs : Nat) (is : List (Insn F)) : List (Nat × Nat) :=
  (0, 0) :: (plan limit 1 (infos numInputs is) (fun x => ((infos numInputs is).flatMap (·.quads)).count x)).1

/-- Initial state (mul_fanout_limit.rs:117-122). -/
def init (numInputs : Nat) : St F := ⟨(List.range (numInputs + 1)).map (fun i => ⟨[], i⟩), 0, none, numInputs⟩

/-- `CircuitRelaxed::solve_mul_fanout_limit` (mul_fanout_limit.rs:51-220). -/
def solveCircuit (E : Env F) (limit : Nat) (circ : Circuit (dest E true)) : Option (Circuit (dest E true)) :=
  if (infos circ.numInputs circ.instructions).isEmpty then some circ
  else
    (loop limit (planOf limit circ.numInputs circ.instructions) circ.instructions (init circ.numInputs)).map fun r =>
      ⟨r.1, circ.constraints.map (fun k => ⟨k.typ, dfltAt r.2.newId k.var⟩), circ.outputs.map (dfltAt r.2.newId), circ.numInputs⟩

/-- `RootCircuitRelaxed::solve_mul_fanout_limit` (mul_fanout_limit.rs:223-238). -/
def solveRoot (E : Env F) (limit : Nat) (rc : RootCircuit (dest E true)) : Option (RootCircuit (dest E true)) :=
  if limit ≤ 1 then none
  else
    (mapOpt (fun p => (solveCircuit E limit p.2).map (fun c => (p.1, c))) rc.circuits).map
      (fun cs => ⟨rc.numPublicInputs, rc.expectedNumOutputZeroes, cs⟩)

end MulFanout
end Verif.IR
