import Verif.IR.Sel
import Verif.InputMapping

/-!
# `remove_unreachable` (circuit/ir/common/opt.rs:29-389)
-/

namespace Verif.IR

open Verif.Utils

/-- `enum ElementType` (opt.rs:19-25). -/
inductive ET
  | var | insn | output | constrained
  deriving DecidableEq

/-- `struct Element` (opt.rs:12-17).  The dense numbering `vertice_id` (opt.rs:49-70) is an injective encoding of
elements into array positions and is not modelled. -/
structure Elem where
  circuit : Nat
  id : Nat
  typ : ET
  deriving DecidableEq

def eV (c i : Nat) : Elem := ⟨c, i, .var⟩
def eI (c i : Nat) : Elem := ⟨c, i, .insn⟩
def eO (c i : Nat) : Elem := ⟨c, i, .output⟩
def eC (c : Nat) : Elem := ⟨c, 0, .constrained⟩

variable {F : Type} {L : Lang F}

/-- The `add_edge` calls for one instruction (opt.rs:84-181). -/
def insnEdges1 (L : Lang F) (c i cur : Nat) (insn : L.Insn) : List (Elem × Elem) :=
  match L.asCall insn with
  | some (d, _, n) =>
    (List.range n).flatMap (fun j => [(eV c (cur + 1 + j), eO d j), (eV c (cur + 1 + j), eI c i)]) ++
      [(eC d, eI c i), (eC d, eC c)]
  | none =>
    (List.range (L.numOutputs insn)).map (fun j => (eV c (cur + 1 + j), eI c i)) ++
      (L.inputs insn).map (fun v => (eI c i, eV c v))

/-- The `add_dual_edge` calls for one instruction (opt.rs:112-130); each call pushes both orientations (opt.rs:76-79). -/
def insnDuals1 (L : Lang F) (c i : Nat) (insn : L.Insn) : List (Elem × Elem × Elem) :=
  match L.asCall insn with
  | some (d, a, _) => a.zipIdx.flatMap (fun p =>
      [(eV d (p.2 + 1), eI c i, eV c p.1), (eI c i, eV d (p.2 + 1), eV c p.1)])
  | none => []

/-- The loop over instructions (opt.rs:80-182). -/
def insnEdges (L : Lang F) (c : Nat) : Nat → Nat → List L.Insn → List (Elem × Elem)
  | _, _, [] => []
  | i, cur, insn :: is => insnEdges1 L c i cur insn ++ insnEdges L c (i + 1) (cur + L.numOutputs insn) is

def insnDuals (L : Lang F) (c : Nat) : Nat → List L.Insn → List (Elem × Elem × Elem)
  | _, [] => []
  | i, insn :: is => insnDuals1 L c i insn ++ insnDuals L c (i + 1) is

/-- `Output i → Var outputs[i]` (opt.rs:184-197). -/
def outEdges (c : Nat) (outputs : List Nat) : List (Elem × Elem) := outputs.zipIdx.map (fun p => (eO c p.2, eV c p.1))

/-- One round of the `circuit_used` loop (opt.rs:33-41). -/
def usedStep (rc : RootCircuit L) (used : List Nat) (c : Nat) : List Nat :=
  if c ∈ used then
    match rc.get c with
    | some circ => used ++ callees circ.instructions
    | none => used
  else used

/-- `circuit_used` (opt.rs:31-42), over a topological order. -/
def usedCircuits (rc : RootCircuit L) (order : List Nat) : List Nat := order.foldl (usedStep rc) [0]

/-- Initial queue (opt.rs:209-234). -/
def initQueue (rc : RootCircuit L) (order : List Nat) : List Elem :=
  order.flatMap (fun c => match rc.get c with
    | some circ => circ.constraints.map (fun k => eV c k.var) ++ (if circ.constraints.isEmpty then [] else [eC c])
    | none => []) ++
  match rc.get 0 with
  | some root => (List.range root.outputs.length).map (eO 0)
  | none => []

def allEdges (rc : RootCircuit L) (order : List Nat) : List (Elem × Elem) :=
  order.flatMap (fun c => match rc.get c with
    | some circ => insnEdges L c 0 circ.numInputs circ.instructions ++ outEdges c circ.outputs
    | none => [])

def allDuals (rc : RootCircuit L) (order : List Nat) : List (Elem × Elem × Elem) :=
  order.flatMap (fun c => match rc.get c with
    | some circ => insnDuals L c 0 circ.instructions
    | none => [])

/-- `if !visited[n] { visited[n] = true; queue.push(n) }` over the edges of one vertex (opt.rs:245-254). -/
def pushNew : List Elem → List Elem × List Elem → List Elem × List Elem
  | [], s => s
  | n :: ns, (q, vis) => pushNew ns (if n ∈ vis then (q, vis) else (q ++ [n], n :: vis))

/-- The same over dual edges (opt.rs:255-264). -/
def pushDual : List (Elem × Elem) → List Elem × List Elem → List Elem × List Elem
  | [], s => s
  | (r, n) :: ns, (q, vis) => pushDual ns (if r ∈ vis ∧ n ∉ vis then (q ++ [n], n :: vis) else (q, vis))

/-- The breadth-first traversal (opt.rs:241-265); the pending part of the queue and the visited set.  The bucket-sorted
adjacency is replaced by a filter of the edge list (the visiting order is not observable).  Fuel: see `bfs_closed`. -/
def bfs (es : List (Elem × Elem)) (ds : List (Elem × Elem × Elem)) : Nat → List Elem → List Elem → Option (List Elem)
  | _, [], vis => some vis
  | 0, _ :: _, _ => none
  | fuel + 1, cur :: q, vis =>
    let s1 := pushNew ((es.filter (fun e => e.1 = cur)).map (·.2)) (q, vis)
    let s2 := pushDual ((ds.filter (fun e => e.1 = cur)).map (·.2)) s1
    bfs es ds fuel s2.1 s2.2

/-- `var_map` and `mapped_var_max`: push one entry per flag (opt.rs:273-284, 314-326, 339-342). `none` is `EMPTY`. -/
def pushMany : List Bool → List (Option Nat) × Nat → List (Option Nat) × Nat
  | [], s => s
  | true :: fs, (vm, m) => pushMany fs (vm ++ [some (m + 1)], m + 1)
  | false :: fs, (vm, m) => pushMany fs (vm ++ [none], m)

/-- `var_map[v]`. -/
def lk (vm : List (Option Nat)) (v : Nat) : Nat := (vm[v]?.join).getD EMPTY

/-- The instruction rebuilding loop (opt.rs:286-344). -/
def rebuildInsns (L : Lang F) (vis : Elem → Bool) (c : Nat) :
    Nat → List L.Insn → List (Option Nat) × Nat → List L.Insn × (List (Option Nat) × Nat)
  | _, [], s => ([], s)
  | i, insn :: is, s =>
    if vis (eI c i) = false then
      rebuildInsns L vis c (i + 1) is (pushMany (List.replicate (L.numOutputs insn) false) s)
    else match L.asCall insn with
      | some (d, a, n) =>
        let newInputs := ((a.zipIdx.filter (fun p => vis (eV d (p.2 + 1)))).map (·.1)).map (lk s.1)
        let outFlags := (List.range n).map (fun j => vis (eO d j))
        let r := rebuildInsns L vis c (i + 1) is (pushMany outFlags s)
        (L.mkCall d newInputs (outFlags.count true) :: r.1, r.2)
      | none =>
        let r := rebuildInsns L vis c (i + 1) is (pushMany (List.replicate (L.numOutputs insn) true) s)
        (L.replaceVars insn (lk s.1) :: r.1, r.2)

/-- `var_map` after the inputs (opt.rs:270-284). -/
def inputState (vis : Elem → Bool) (c n : Nat) : List (Option Nat) × Nat :=
  pushMany ((List.range n).map (fun j => vis (eV c (j + 1)))) ([none], 0)

/-- One circuit (opt.rs:268-376). -/
def rebuildCircuit (vis : Elem → Bool) (c : Nat) (circ : Circuit L) : Circuit L :=
  let r := rebuildInsns L vis c 0 circ.instructions (inputState vis c circ.numInputs)
  let vm := r.2.1
  { instructions := r.1
    constraints := circ.constraints.map (fun k => k.replaceVar (lk vm))
    outputs := ((circ.outputs.zipIdx.filter (fun p => vis (eO c p.2))).map (·.1)).map (lk vm)
    numInputs := ((List.range circ.numInputs).filter (fun x => (vm[x + 1]?.join).isSome)).length }

/-- The returned input mapping (opt.rs:364-388). -/
def inputMappingOf (vis : Elem → Bool) : List Nat → Nat → List (Option Nat) × Nat
  | [], n => ([], n)
  | i :: is, n =>
    if vis (eV 0 i) then let r := inputMappingOf vis is (n + 1); (some n :: r.1, r.2)
    else let r := inputMappingOf vis is n; (none :: r.1, r.2)

/-- `remove_unreachable` (opt.rs:29-389).  `none`: the topological sort or an index would panic. -/
def removeUnreachable (rc : RootCircuit L) : Option (RootCircuit L × InputMapping) :=
  match topoOrder rc.vertices rc.edges with
  | none => none
  | some order0 =>
    let used := usedCircuits rc order0
    let order := order0.filter (fun c => used.contains c)
    let es := allEdges rc order
    let ds := allDuals rc order
    let q0 := initQueue rc order
    match rc.get 0, bfs es ds (q0.length + es.length + ds.length) q0 q0 with
    | some root, some visited =>
      let vis := fun e => decide (e ∈ visited)
      let im := inputMappingOf vis ((List.range root.numInputs).map (· + 1)) 0
      some ({ numPublicInputs := rc.numPublicInputs
              expectedNumOutputZeroes := rc.expectedNumOutputZeroes
              circuits := order.reverse.filterMap (fun c => (rc.get c).map (fun circ => (c, rebuildCircuit vis c circ))) },
            ⟨im.2, im.1⟩)
    | _, _ => none

/-! ### Closed sets -/

/-- The closure conditions on the visited set that the traversal establishes. -/
structure Closed (get : Nat → Option (Circuit L)) (used : Nat → Prop) (vis : Elem → Bool) : Prop where
  calls : ∀ c d, used c → Calls get c d → used d
  edges : ∀ c circ, used c → get c = some circ →
    ∀ e ∈ insnEdges L c 0 circ.numInputs circ.instructions, vis e.1 = true → vis e.2 = true
  duals : ∀ c circ, used c → get c = some circ →
    ∀ e ∈ insnDuals L c 0 circ.instructions, vis e.1 = true → vis e.2.1 = true → vis e.2.2 = true
  outs : ∀ c circ, used c → get c = some circ →
    ∀ e ∈ outEdges c circ.outputs, vis e.1 = true → vis e.2 = true
  cons : ∀ c circ, used c → get c = some circ → ∀ k ∈ circ.constraints, vis (eV c k.var) = true
  conC : ∀ c circ, used c → get c = some circ → circ.constraints ≠ [] → vis (eC c) = true

end Verif.IR
