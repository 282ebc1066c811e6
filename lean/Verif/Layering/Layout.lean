import Verif.Layering.Schedule
import Verif.Utils.Pow2

/-!
# Layering, part 2: where the variables of each layer are stored

Model of `layering/layer_layout.rs`.

Simplifications: the pool of layouts and the memo table `layer_req_to_layout` only give names to layouts; here a layout contains its
sub-layouts instead of their pool numbers, and `solve` is a pure recursive function.  `EMPTY` is `none`.
-/

set_option linter.unusedSectionVars false
set_option linter.unusedSimpArgs false

namespace Verif.Layering

/-- `LayerLayout`, `LayerLayoutInner` and `SubLayout` (layer_layout.rs:30-80).  `dense circ layer placement`: the size is the length;
`sparse circ layer size placement subLayouts`, a sub-layout being (call, offset, layout). -/
inductive Layout
  | dense (circ layer : Nat) (pl : List (Option Nat))
  | sparse (circ layer size : Nat) (own : List (Nat × Nat)) (subs : List (Nat × Nat × Layout))

/-- `circuit_id`. -/
def Layout.circ : Layout → Nat
  | .dense c _ _ => c
  | .sparse c _ _ _ _ => c

/-- `layer`. -/
def Layout.layer : Layout → Nat
  | .dense _ l _ => l
  | .sparse _ l _ _ _ => l

/-- `size`. -/
def Layout.size : Layout → Nat
  | .dense _ _ pl => pl.length
  | .sparse _ _ s _ _ => s

/-- The sub-layouts. -/
def Layout.subs : Layout → List (Nat × Nat × Layout)
  | .dense _ _ _ => []
  | .sparse _ _ _ _ subs => subs

/-- The occupied slots as (position, index into `lcs[layer].vars`). -/
def Layout.slots : Layout → List (Nat × Nat)
  | .dense _ _ pl => pl.zipIdx.filterMap fun p => p.1.map fun v => (p.2, v)
  | .sparse _ _ _ own _ => own

/-- Does the group `pg` fit into `res` at position `i` (layer_layout.rs:397-404)? -/
def fits (res pg : List (Option Nat)) (i : Nat) : Bool :=
  (List.range pg.length).all fun j => !((res.getD (i + j) none).isSome && (pg.getD j none).isSome)

/-- Write the group `pg` at position `i` (layer_layout.rs:405-409). -/
def putAt (res pg : List (Option Nat)) (i : Nat) : List (Option Nat) :=
  res.mapIdx fun p x => if i ≤ p ∧ p < i + pg.length then (pg.getD (p - i) none).or x else x

/-- One group of `merge_layouts` (layer_layout.rs:388-416). -/
def placeGroup (res pg : List (Option Nat)) : Option (List (Option Nat)) :=
  if pg.length = 0 ∨ res.length % pg.length ≠ 0 then none
  else
    match ((List.range (res.length / pg.length)).map (· * pg.length)).find? (fits res pg) with
    | some i => some (putAt res pg i)
    | none => some (res ++ pg)

/-- First empty slot (layer_layout.rs:419-427). -/
def addSlot (res : List (Option Nat)) (x : Nat) : List (Option Nat) :=
  let i := res.findIdx Option.isNone
  if i < res.length then res.set i (some x) else res ++ [some x]

/-- `merge_layouts` (layer_layout.rs:359-432). -/
def mergeLayouts (s : List (List (Option Nat))) (additional : List Nat) : Option (List (Option Nat)) :=
  if ¬ (s.all fun x => decide (0 < x.length) && (x.length &&& (x.length - 1) == 0)) then none
  else
    let order := (List.range s.length).insertionSort fun i j =>
      (s.getD j []).length < (s.getD i []).length ∨ ((s.getD j []).length = (s.getD i []).length ∧ i ≤ j)
    match order.foldl (fun r i => r.bind fun res => placeGroup res (s.getD i [])) (some []) with
    | none => none
    | some res =>
      let res := additional.foldl addSlot res
      some (res ++ List.replicate (Pow2.next res.length - res.length) none)

/-- `subs_array` (layer_layout.rs:434-440). -/
def subsArray (l : List (Option Nat)) (s : List Nat) : Option (List (Option Nat)) :=
  mapOpt (fun x => match x with
    | none => some none
    | some i => (s[i]?).map some) l

/-- Position in a list. -/
def posOf (l : List Nat) (x : Nat) : Option Nat := if x ∈ l then some (l.idxOf x) else none

/-- `subs_map` (layer_layout.rs:442-453). -/
def subsMap (l : List (Option Nat)) (m : Nat → Option Nat) : List (Option Nat) := l.map fun x => x.bind m

/-- `output_order` (compile.rs:315-317): later outputs overwrite. -/
def outputOrder (outs : List Nat) (x : Nat) : Option Nat :=
  (posOf outs.reverse x).map fun i => outs.length - 1 - i

/-- The context of the circuit called by call `k`. -/
def subCtx {F : Type} (tab : Nat → Option (Ctx F)) (c : Ctx F) (k : Nat) : Option (Ctx F) :=
  (c.prog.calls[k]?).bind fun q => tab q.sub

/-- Calls that end at a layer (`prev_circuit_num_out`, layer_layout.rs:126-138). -/
def endCalls {F : Type} (tab : Nat → Option (Ctx F)) (c : Ctx F) (layer : Nat) : List Nat :=
  (List.range c.prog.calls.length).filter fun k =>
    match subCtx tab c k with
    | some s => c.starts.getD k 0 + s.outL == layer
    | none => false

/-- Calls with a middle layer at a layer (`middle_sub_circuits`, layer_layout.rs:140-142). -/
def midCalls {F : Type} (tab : Nat → Option (Ctx F)) (c : Ctx F) (layer : Nat) : List Nat :=
  (List.range c.prog.calls.length).filter fun k =>
    match subCtx tab c k with
    | some s => decide (c.starts.getD k 0 < layer) && decide (layer < c.starts.getD k 0 + s.outL)
    | none => false

/-- The call (among `ends`) a variable is an output of: `prev_circuit_insn_ids` (layer_layout.rs:126-130). -/
def prevCall {F : Type} (c : Ctx F) (ends : List Nat) (x : Nat) : Option Nat :=
  ends.find? fun k => decide (x ∈ (c.prog.calls.getD k ⟨0, [], []⟩).outputs)

/-- Placement groups: group of each variable, and the parents of the groups. -/
structure Groups where
  group : List (Nat × Nat)
  parent : List Nat

/-- One placement request (layer_layout.rs:153-191). -/
def placeReq {F : Type} (c : Ctx F) (ends : List Nat) (inputs : List Nat) (g : Groups) : Option Groups :=
  match mapOpt (fun x => g.group.lookup x) inputs with
  | none => none
  | some gs =>
    let pcs := (inputs.filterMap (prevCall c ends)).dedup
    let flag := (gs.dedup.length == 1) && pcs.all fun k =>
      (inputs.filter fun x => prevCall c ends x == some k).length == (c.prog.calls.getD k ⟨0, [], []⟩).outputs.length
    if flag then
      some ⟨inputs.foldl (fun m x => (x, g.parent.length) :: m) g.group, g.parent ++ [gs.headD 0]⟩
    else some g

/-- Greedy placement of a layer (layer_layout.rs:145-192). -/
def groupsOf {F : Type} (c : Ctx F) (ends : List Nat) (layer : Nat) : Option Groups :=
  ((List.range c.prog.calls.length).filter fun k => c.starts.getD k 0 == layer).foldl
    (fun g k => g.bind (placeReq c ends (c.prog.calls.getD k ⟨0, [], []⟩).inputs))
    (some ⟨(c.vars.getD layer []).map (·, 0), [0]⟩)

/-- The loop over the placement groups, last group first (layer_layout.rs:303-311). -/
def mergeGroups (parent : List Nat) (childVars : Nat → List Nat) (childPrev : Nat → List (List (Option Nat))) :
    Nat → List (Nat × List (Option Nat)) → Option (List (Nat × List (Option Nat)))
  | 0, acc => some acc
  | i + 1, acc =>
    let nodes := (List.range parent.length).filter fun g => g != 0 && parent.getD g 0 == i
    match mergeLayouts (nodes.map (fun g => (acc.lookup g).getD []) ++ childPrev i) (childVars i) with
    | none => none
    | some r => mergeGroups parent childVars childPrev i ((i, r) :: acc)

/-- Sequential placement in the sparse case (layer_layout.rs:334-361): `items` are (0, own placement) or (k + 1, sub-layout of the `k`-th
middle call), in the chosen order. -/
def placeSparse (pl : List (Option Nat)) (mids : List (Nat × Layout)) : List Nat → Nat → List (Nat × Nat) → List (Nat × Nat × Layout) →
    Option (Nat × List (Nat × Nat) × List (Nat × Nat × Layout))
  | [], cur, own, subs => some (cur, own, subs)
  | 0 :: is, cur, own, subs =>
    let new := pl.zipIdx.filterMap fun p => p.1.map fun v => (cur + p.2, v)
    if new.isEmpty then placeSparse pl mids is cur own subs
    else placeSparse pl mids is (cur + pl.length) (own ++ new) subs
  | (i + 1) :: is, cur, own, subs =>
    match mids[i]? with
    | none => none
    | some (k, l) => placeSparse pl mids is (cur + l.size) own (subs ++ [(k, cur, l)])

/-- `solve_layer_layout_fixed` (layer_layout.rs:219-236). -/
def solveFixed {F : Type} (c : Ctx F) (id layer : Nat) : Option Layout :=
  (mergeLayouts [] (List.range (c.vars.getD layer []).length)).map (Layout.dense id layer)

/-- The layout of the outputs of a finished call in terms of the caller's variables (layer_layout.rs:246-272). -/
def prevLayout {F : Type} (tab : Nat → Option (Ctx F)) (rec : Nat → Nat → Option Layout) (c : Ctx F) (layer k : Nat) :
    Option (List (Option Nat)) :=
  match c.prog.calls[k]? with
  | none => none
  | some q =>
    match tab q.sub with
    | none => none
    | some s =>
      match rec q.sub s.outL with
      | some (.dense _ _ pl) =>
        match subsArray pl (s.vars.getD s.outL []) with
        | none => none
        | some la =>
          match subsArray (subsMap la (outputOrder s.prog.outs)) q.outputs with
          | none => none
          | some la => some (subsMap la (posOf (c.vars.getD layer [])))
      | _ => none

/-- The sub-layout of a call in a middle layer (layer_layout.rs:320-328). -/
def midLayout {F : Type} (rec : Nat → Nat → Option Layout) (c : Ctx F) (layer k : Nat) : Option (Nat × Layout) :=
  match c.prog.calls[k]? with
  | none => none
  | some q => (rec q.sub (layer - c.starts.getD k 0)).map (k, ·)

/-- `solve_layer_layout_normal` (layer_layout.rs:238-373).  `lc.placement[v]` of a variable that is not in the layer panics in Rust; here it is
the outermost group. -/
def solveNormal {F : Type} (tab : Nat → Option (Ctx F)) (rec : Nat → Nat → Option Layout) (c : Ctx F) (id layer : Nat) : Option Layout :=
  let ends := endCalls tab c layer
  let vars := c.vars.getD layer []
  match mapOpt (prevLayout tab rec c layer) ends, groupsOf c ends layer with
  | some prevs, some g =>
    let grp := fun x => (g.group.lookup x).getD 0
    let childVars := fun i => (List.range vars.length).filter fun j =>
      (prevCall c ends (vars.getD j 0)).isNone && grp (vars.getD j 0) == i
    let childPrev := fun i => (ends.zip prevs).filterMap fun e =>
      match (c.prog.calls.getD e.1 ⟨0, [], []⟩).outputs with
      | [] => none
      | v :: _ => if grp v = i then some e.2 else none
    match mergeGroups g.parent childVars childPrev g.parent.length [] with
    | none => none
    | some acc =>
      let pl := (acc.lookup 0).getD []
      let mids := midCalls tab c layer
      if mids.isEmpty then some (.dense id layer pl)
      else
        match mapOpt (midLayout rec c layer) mids with
        | none => none
        | some ml =>
          let sizes := pl.length :: ml.map (·.2.size)
          let order := (List.range sizes.length).insertionSort fun i j =>
            sizes.getD j 0 < sizes.getD i 0 ∨ (sizes.getD j 0 = sizes.getD i 0 ∧ i ≤ j)
          match placeSparse pl ml order 0 [] [] with
          | none => none
          | some (cur, own, subs) => some (.sparse id layer (Pow2.next cur) own subs)
  | _, _ => none

/-- `solve_layer_layout` (layer_layout.rs:196-217). -/
def solve {F : Type} (reorder : Bool) (tab : Nat → Option (Ctx F)) : Nat → Nat → Nat → Option Layout
  | 0, _, _ => none
  | f + 1, id, layer =>
    match tab id with
    | none => none
    | some c =>
      if id = 0 ∧ ((layer = 0 ∧ reorder = false) ∨ layer = c.outL) then solveFixed c id layer
      else solveNormal tab (solve reorder tab f) c id layer

end Verif.Layering
