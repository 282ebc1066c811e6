import Verif.IR.Dest
import Mathlib.Data.List.Dedup
import Mathlib.Data.List.Sort

/-!
# Layering, part 1: the layers of the variables

Model of `layering/compile.rs` (`dfs_topo_sort` 148-199 and `compute_min_max_layers` 201-512).

Simplifications, everywhere in `Verif.Layering`:
* the table `circuits : HashMap<usize, IrContext>` filled in topological order is a recursive function (`ctxOf`): the context of a circuit
  is a function of the circuit and of the contexts of the circuits it calls;
* sub-circuit calls are numbered by their position among the calls (`sub_circuit_insn_ids[k]` ↔ `k`) instead of by instruction number;
  both numberings are increasing, so sorting by either is the same;
* `none` is a Rust panic (index out of range, `usize` underflow, `panic!`, failed `assert`).
-/

set_option linter.unusedSectionVars false
set_option linter.unusedSimpArgs false

namespace Verif.Layering

open Verif.IR (Expr Coef)

/-- The fields of `ir::dest::Circuit` that layering reads (common/mod.rs:88-93; a constraint is a variable). -/
structure Prog (F : Type) where
  numInputs : Nat
  insns : List (Verif.IR.Dest.Insn F)
  cons : List Nat
  outs : List Nat

/-- `SubCircuitInsn` (compile.rs:91-95). -/
structure Call where
  sub : Nat
  inputs : List Nat
  outputs : List Nat
  deriving DecidableEq

/-- What defines a variable that is not an input: `internal_variable_expr`, `constant_like_variables` (compile.rs:73-74), or the `j`-th output
of call `k`. -/
inductive Def (F : Type)
  | expr (e : Expr F)
  | const (c : Coef F)
  | out (k j : Nat)
  deriving DecidableEq

/-- Definitions of the variables introduced by a list of instructions, `k` calls having been seen (compile.rs:241-293). -/
def defsOf {F : Type} : List (Verif.IR.Dest.Insn F) → Nat → List (Def F)
  | [], _ => []
  | .internal e :: is, k => .expr e :: defsOf is k
  | .call _ _ n :: is, k => (List.range n).map (Def.out k) ++ defsOf is (k + 1)
  | .constantLike c :: is, k => .const c :: defsOf is k

/-- `sub_circuit_insn_refs` (compile.rs:257-282); `cur` is `cur_var_idx`. -/
def callsOf {F : Type} : List (Verif.IR.Dest.Insn F) → Nat → List Call
  | [], _ => []
  | .internal _ :: is, cur => callsOf is (cur + 1)
  | .call c xs n :: is, cur => ⟨c, xs, List.range' cur n⟩ :: callsOf is (cur + n)
  | .constantLike _ :: is, cur => callsOf is (cur + 1)

/-- `get_num_variables` as `num_var` (compile.rs:155-175): inputs, outputs of the instructions, and the unused variable 0. -/
def Prog.nv {F : Type} (p : Prog F) : Nat := p.numInputs + 1 + (defsOf p.insns 0).length

/-- The calls of a circuit. -/
def Prog.calls {F : Type} (p : Prog F) : List Call := callsOf p.insns (p.numInputs + 1)

/-- Definition of a variable; `none` for inputs (and for 0). -/
def Prog.defn {F : Type} (p : Prog F) (x : Nat) : Option (Def F) :=
  if x ≤ p.numInputs then none else (defsOf p.insns 0)[x - (p.numInputs + 1)]?

/-- The edges in the order of `add_edge` (compile.rs:241-283).  The node of call `k` is `nv + k`. -/
def edgesOf {F : Type} (nv : Nat) : List (Verif.IR.Dest.Insn F) → Nat → Nat → List (Nat × Nat)
  | [], _, _ => []
  | .internal e :: is, cur, k => (Expr.getVars e).dedup.map (·, cur) ++ edgesOf nv is (cur + 1) k
  | .call _ xs n :: is, cur, k =>
    xs.map (·, nv + k) ++ ((List.range' cur n).map (nv + k, ·) ++ edgesOf nv is (cur + n) (k + 1))
  | .constantLike _ :: is, cur, k => edgesOf nv is (cur + 1) k

/-- The constants in `q0` (compile.rs:284-288). -/
def constsOf {F : Type} : List (Verif.IR.Dest.Insn F) → Nat → List Nat
  | [], _ => []
  | .internal _ :: is, cur => constsOf is (cur + 1)
  | .call _ _ n :: is, cur => constsOf is (cur + n)
  | .constantLike _ :: is, cur => cur :: constsOf is (cur + 1)

/-- `q1` (compile.rs:241-283). -/
def queueOf {F : Type} (nv : Nat) : List (Verif.IR.Dest.Insn F) → Nat → Nat → List Nat
  | [], _, _ => []
  | .internal _ :: is, cur, k => cur :: queueOf nv is (cur + 1) k
  | .call _ _ n :: is, cur, k => (nv + k) :: (List.range' cur n ++ queueOf nv is (cur + n) (k + 1))
  | .constantLike _ :: is, cur, k => queueOf nv is (cur + 1) k

/-- All edges of a circuit. -/
def Prog.edges {F : Type} (p : Prog F) : List (Nat × Nat) := edgesOf p.nv p.insns (p.numInputs + 1) 0

/-- `q` before the combined constraints are appended (compile.rs:237-296). -/
def Prog.queue {F : Type} (p : Prog F) : List Nat :=
  List.range' 1 p.numInputs ++ (constsOf p.insns (p.numInputs + 1) ++ queueOf p.nv p.insns (p.numInputs + 1) 0)

/-- `out_edges[x]` (compile.rs:224-228). -/
def succs (es : List (Nat × Nat)) (x : Nat) : List Nat := (es.filter fun e => e.1 == x).map (·.2)

/-- One relaxation (compile.rs:301): `min_layer[y] = max(min_layer[y], min_layer[x] + layer_advance[y])`. -/
def relax (adv : Nat → Nat) (x : Nat) (m : List Nat) (y : Nat) : List Nat := m.set y (max (m.getD y 0) (m.getD x 0 + adv y))

/-- The loop computing `min_layer` (compile.rs:299-303). -/
def minPass (es : List (Nat × Nat)) (adv : Nat → Nat) (q : List Nat) (m : List Nat) : List Nat :=
  q.foldl (fun m x => (succs es x).foldl (relax adv x) m) m

/-- `CombinedConstraint` (compile.rs:79-89). -/
structure CC where
  id : Nat
  vars : List Nat
  subs : List Nat
  deriving DecidableEq

/-- `IrContext` (compile.rs:46-77).  `occ` is `occured_layers` for cross-layer circuits; for ordinary circuits it lists
`min_layer..=max_layer`, the layers the ordinary code runs through.  `vars` lists `lcs[i].vars` (layer_layout.rs:91-112). -/
structure Ctx (F : Type) where
  prog : Prog F
  minL : List Nat
  occ : List (List Nat)
  outL : Nat
  starts : List Nat
  cc : List (Option CC)
  mu : List Nat
  vars : List (List Nat)

/-- `layer_advance` (compile.rs:213-286): `dep` gives the output layer of the sub-circuit of a call. -/
def advOf {F : Type} (p : Prog F) (dep : Nat → Nat) (y : Nat) : Nat :=
  if p.nv ≤ y then dep (y - p.nv) - 1
  else match p.defn y with
    | some (.expr _) => 1
    | some (.out _ _) => 1
    | _ => 0

/-- `min_layer` before the loop (compile.rs:217-221, 250, 285). -/
def minInit {F : Type} (p : Prog F) (y : Nat) : Nat :=
  if p.nv ≤ y then 0
  else match p.defn y with
    | some (.expr _) => 1
    | some (.const _) => 1
    | _ => 0

/-- Largest element. -/
def maxOf (l : List Nat) : Nat := l.foldl max 0

/-- The entries of `cc` before merging (compile.rs:326-345): constraints whose variable has layer `i - 1`, and the calls whose circuit has a
combined constraint at layer `i - 1 - start`. -/
def rawCC {F : Type} (p : Prog F) (m starts : List Nat) (subCC : Nat → List (Option CC)) (i : Nat) : List Nat × List Nat :=
  (p.cons.filter fun x => m.getD x 0 + 1 == i,
   (List.range p.calls.length).filter fun k =>
     decide (starts.getD k 0 + 1 ≤ i) && (((subCC k).getD (i - (starts.getD k 0 + 1)) none).isSome))

/-- Is there anything to combine? -/
def nonEmpty (x : List Nat × List Nat) : Bool := !(x.1.isEmpty && x.2.isEmpty)

/-- Merging into one constraint at the root (compile.rs:348-364): from the first non-empty entry on, each entry up to `last` also contains
the previous combined constraint. -/
def rootMerge (n last : Nat) (raw : List (List Nat × List Nat)) : List (List Nat × List Nat) :=
  let first := raw.findIdx nonEmpty
  if first < raw.length then
    ((raw.take (last + 1)).mapIdx fun i x => if first < i then (x.1 ++ [i - 1 - first + n], x.2) else x)
  else raw

/-- Numbering of the combined constraints (compile.rs:365-386). -/
def number : Nat → List (List Nat × List Nat) → List (Option CC)
  | _, [] => []
  | n, x :: l => if nonEmpty x then some ⟨n, x.1, x.2⟩ :: number (n + 1) l else none :: number n l

/-- The update of `output_layer` during the numbering (compile.rs:370-372). -/
def bumpOut (root : Bool) : Nat → List (Option CC) → Nat → Nat
  | _, [], o => o
  | i, x :: l, o => bumpOut root (i + 1) l (if x.isSome && decide (o < i + 1) then (if root then i else i + 1) else o)

/-- `while cc.len() - 1 > output_layer && cc.last().is_none() { cc.pop() }` (compile.rs:387-389), on the reversed list. -/
def popRev (outL : Nat) : List (Option CC) → List (Option CC)
  | none :: l => if outL < l.length then popRev outL l else none :: l
  | l => l

/-- The layers at which a variable is consumed (compile.rs:402-406): `min_layer[y] - layer_advance[y]` for the out-edges `y`, and the layer
below a combined constraint that contains the variable. -/
def uses (es : List (Nat × Nat)) (adv : Nat → Nat) (m : List Nat) (cc : List (Option CC)) (x : Nat) : List Nat :=
  (succs es x).map (fun y => m.getD y 0 - adv y) ++
  (List.range cc.length).flatMap fun i =>
    match cc.getD i none with
    | some c => (c.vars.filter (· == x)).map fun _ => i - 1
    | none => []

/-- The rule that increases the output layer (compile.rs:424-450): the first call all of whose outputs lie at the output layer while only
some of them (or none, but with constraints inside) are outputs of the circuit. -/
def outBump {F : Type} (p : Prog F) (m : List Nat) (outL : Nat) (subHasCC : Nat → Bool) : Bool :=
  (List.range p.calls.length).any fun k =>
    let outs := ((p.calls.getD k ⟨0, [], []⟩).outputs)
    let count := (outs.filter fun y => decide (y ∈ p.outs)).length
    outs.all (fun y => m.getD y 0 == outL) && ((count != 0 || subHasCC k) && count != outs.length)

/-- Append a value unless it is present (`Pool::add`, utils/pool.rs:20-28). -/
def addNew (l : List Nat) (x : Nat) : List Nat := if x ∈ l then l else l ++ [x]

/-- `lcs[j].vars` (layer_layout.rs:91-112). -/
def varsAt {F : Type} (p : Prog F) (occ : List (List Nat)) (outL : Nat) (cc : List (Option CC)) (j : Nat) : List Nat :=
  ((match cc.getD j none with
    | some c => [c.id]
    | none => []) ++
   ((if j = outL then p.outs else []) ++
    ((List.range p.nv).filter fun x => decide (j ∈ occ.getD x [])))).foldl addNew []

/-- Strictly increasing list with the same elements (`sort` and removal of repetitions, compile.rs:484-490). -/
def sortDedup (l : List Nat) : List Nat := (l.dedup).insertionSort (· ≤ ·)

/-- Layer of a constant after the adjustment (compile.rs:462-472). -/
def constLayer (outL mx : Nat) (us : List Nat) : Nat := us.foldl min (min outL mx)

/-- Layers of a variable (compile.rs:474-499 for cross-layer circuits; layer_layout.rs:108-110 and wire.rs:366-368 otherwise). -/
def layersOf (cross : Bool) (x mn mx outL : Nat) (isOut : Bool) (us : List Nat) : Option (List Nat) :=
  if x = 0 then some []
  else if cross then
    let t := sortDedup (mn :: us ++ if isOut then [outL] else [])
    if t.head? = some mn ∧ t.getLast? = some mx then some t else none
  else some (List.range' mn (mx + 1 - mn))

/-- Consecutive pairs. -/
def pairs (l : List Nat) : List (Nat × Nat) := l.zip l.tail

/-- `min_used_layer[i]` (compile.rs:501-523). -/
def muAt (starts deps : List Nat) (subMu : Nat → List Nat) (occ : List (List Nat)) (i : Nat) : Nat :=
  let fromSubs := (List.range starts.length).filterMap fun k =>
    if starts.getD k 0 ≤ i ∧ i - starts.getD k 0 ≤ deps.getD k 0 then some ((subMu k).getD (i - starts.getD k 0) 0 + starts.getD k 0) else none
  let fromRelays := (occ.flatMap pairs).filterMap fun p => if p.2 = i then some p.1 else none
  (fromSubs ++ fromRelays).foldl min (i - 1)

/-- `compute_min_max_layers` (compile.rs:201-512), `lcs[..].vars` included. -/
def computeCtx {F : Type} (cross root : Bool) (p : Prog F) (subs : List (Ctx F)) : Option (Ctx F) :=
  let nv := p.nv
  let ns := p.calls.length
  let dep := fun k => ((subs[k]?).map (·.outL)).getD 0
  let subCC := fun k => ((subs[k]?).map (·.cc)).getD []
  let subHasCC := fun k => (subCC k).any Option.isSome
  let adv := advOf p dep
  let es := p.edges
  let m := minPass es adv p.queue ((List.range (nv + ns)).map (minInit p))
  -- indices in range
  if ¬ (es.all (fun e => decide (e.1 < nv + ns) && decide (e.2 < nv + ns)) ∧ p.cons.all (fun x => decide (x < nv + ns)) ∧
      p.outs.all (fun x => decide (x < nv + ns))) then none
  -- no underflow in `sub_circuit_start_layer`
  else if ¬ ((List.range ns).all fun k => decide (adv (nv + k) ≤ m.getD (nv + k) 0)) then none
  else
  let starts := (List.range ns).map fun k => m.getD (nv + k) 0 - adv (nv + k)
  let maxOcc := maxOf m
  -- `cc[sl]` in range
  if ¬ ((List.range ns).all fun k => (List.range (subCC k).length).all fun j =>
      (!((subCC k).getD j none).isSome) || decide (j + starts.getD k 0 + 1 < maxOcc + 3)) then none
  else
  let raw := (List.range (maxOcc + 3)).map (rawCC p m starts subCC)
  let merged := if root then rootMerge (nv + ns) (maxOcc + 1) raw else raw
  let cc0 := number (nv + ns) merged
  let out0 := max (maxOf (((List.range nv).map fun x => if x = 0 then 0 else m.getD x 0)))
    (maxOf ((List.range ns).map fun k => starts.getD k 0 + dep k))
  let out1 := bumpOut root 0 cc0 out0
  let cc1 := (popRev out1 cc0.reverse).reverse
  if root && decide (cc1.length ≤ out1) then none
  else
  let out2 := if root then cc1.length - 1 else out1
  -- call nodes have equal first and last layer
  if ¬ ((List.range ns).all fun k => (uses es adv m cc1 (nv + k)).all fun l => decide (l ≤ m.getD (nv + k) 0)) then none
  else
  let out3 := max out2 1
  let outL := if outBump p m out3 subHasCC then out3 + 1 else out3
  let cc := if cc1.length = outL then cc1 ++ [none] else cc1
  let max0 := fun x => (uses es adv m cc1 x).foldl max (m.getD x 0)
  let maxL := fun x => if x ∈ p.outs then outL else max0 x
  let minL := fun x => match p.defn x with
    | some (.const _) => if maxL x = outL then m.getD x 0 else constLayer outL (maxL x) (uses es adv m cc1 x)
    | _ => m.getD x 0
  match mapOpt (fun x => layersOf cross x (minL x) (maxL x) outL (decide (x ∈ p.outs)) (uses es adv m cc1 x)) (List.range nv) with
  | none => none
  | some occ =>
    -- indices of `min_used_layer`, `combined_constraints` and `lcs` in range
    if ¬ (((List.range ns).all fun k => decide (starts.getD k 0 + dep k ≤ outL)) ∧
        (occ.all fun l => l.all fun j => decide (j ≤ outL)) ∧ outL < cc.length) then none
    else
      let deps := (List.range ns).map dep
      some {
        prog := p
        minL := (List.range nv).map minL
        occ := occ
        outL := outL
        starts := starts
        cc := cc
        mu := (List.range (outL + 1)).map (muAt starts deps (fun k => ((subs[k]?).map (·.mu)).getD []) occ)
        vars := (List.range (outL + 1)).map (varsAt p occ outL cc) }

/-- `dfs_topo_sort` and the loop over its order (compile.rs:104-110, 148-199): contexts of all circuits reachable from a circuit. -/
def ctxOf {F : Type} (cross : Bool) (get : Nat → Option (Prog F)) : Nat → Nat → Option (Ctx F)
  | 0, _ => none
  | f + 1, id =>
    match get id with
    | none => none
    | some p =>
      match mapOpt (fun c : Call => ctxOf cross get f c.sub) p.calls with
      | none => none
      | some subs => computeCtx cross (id == 0) p subs

end Verif.Layering
