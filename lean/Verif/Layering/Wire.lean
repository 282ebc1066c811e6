import Verif.Layering.Layout
import Verif.Layered.Basic
import Verif.InputMapping

/-!
# Layering, part 3: gates and segments

Model of `layering/wire.rs`, `layering/input.rs`, `CompileContext::compile` (compile.rs:102-146) and `layering::compile` (mod.rs:27-59).

The table `conncected_wires` is looked up but never filled, so the cached branches of `connect_wires` (wire.rs:215-226, 272, 362, ...) are
never taken and are omitted.
-/

set_option linter.unusedSectionVars false
set_option linter.unusedSimpArgs false

namespace Verif.Layering

open Verif.IR (Expr Coef Term VarSpec)
open Verif.Layered (Segment Gate Input Alloc)

/-- `layout_query` (wire.rs:100-125): position of every variable of a layout; a variable stored twice is a panic. -/
def layoutQuery (vars : List Nat) (l : Layout) : Option (List (Nat × Nat)) :=
  match mapOpt (fun s : Nat × Nat => (vars[s.2]?).map fun v => (v, s.1)) l.slots with
  | none => none
  | some q => if (q.map (·.1)).Nodup then some q else none

/-- The size of the block in `query` (wire.rs:70-78): the smearing of the bits of `l ^ r` computes its highest bit. -/
def blockSize (x : Nat) : Nat := if x = 0 then 1 else 2 ^ (Nat.log2 x + 1)

/-- The placement in `query` before renaming (wire.rs:80-85). -/
def queryPl (n off : Nat) : List (Option Nat × Nat) → List (Option Nat) → List (Option Nat)
  | [], pl => pl
  | (none, _) :: l, pl => queryPl n off l pl
  | (some p, v) :: l, pl => queryPl n off l (pl.set (p - off) (some v))

/-- `LayoutQuery::query` (wire.rs:28-97): offset and layout of a sub-circuit inside a layer of its caller; `names` are the variables of the
sub-circuit that correspond to `vs`. -/
def query (pos : List (Nat × Nat)) (vs names targetVars : List Nat) (cid lid : Nat) : Nat × Layout :=
  if vs.isEmpty then (0, .dense cid lid [none])
  else
    let ps := vs.map fun x => pos.lookup x
    let known := ps.filterMap id
    let l := known.foldl min (known.headD 0)
    let r := known.foldl max 0
    let n := if known.isEmpty then 1 else blockSize (l ^^^ r)
    let off := if known.isEmpty then 0 else l - l % n
    (off, .dense cid lid (subsMap (queryPl n off (ps.zip names) (List.replicate n none)) (posOf targetVars)))

/-- Gates of one term of an expression (wire.rs:294-351). -/
def termGate {F : Type} (aq : Nat → Option Nat) (pos : Nat) (t : Term F) : Option (Gate F) :=
  match t.vars with
  | .const => some ⟨none, [], pos, .const t.coef⟩
  | .linear v => (aq v).map fun a => ⟨none, [⟨0, a⟩], pos, .const t.coef⟩
  | .quad v w =>
    match aq v, aq w with
    | some a, some b => some ⟨none, if a < b then [⟨0, a⟩, ⟨0, b⟩] else [⟨0, b⟩, ⟨0, a⟩], pos, .const t.coef⟩
    | _, _ => none
  | .custom g xs => (mapOpt aq xs).map fun as => ⟨some g, as.map (⟨0, ·⟩), pos, .const t.coef⟩
  | .randomLinear v => (aq v).map fun a => ⟨none, [⟨0, a⟩], pos, .random⟩

/-- The gates that compute variable `x` at its first layer (wire.rs:264-353), for the transition from layer `i` to `i + 1`. -/
def firstGates {F : Type} (c : Ctx F) (qs : List (List (Nat × Nat))) (i x : Nat) : Option (List (Gate F)) :=
  if c.minL.getD x 0 ≠ i + 1 then some []
  else
    match (qs.getD (i + 1) []).lookup x with
    | none => if i + 1 = c.outL then some [] else none
    | some pos =>
      match c.prog.defn x with
      | some (.const v) => some [⟨none, [], pos, v⟩]
      | some (.expr e) => mapOpt (termGate (fun v => (qs.getD i []).lookup v) pos) e
      | _ => some []

/-- The relay of `x` into layer `i + 1` (wire.rs:355-399). -/
def relayGates {F : Type} [One F] (c : Ctx F) (qs : List (List (Nat × Nat))) (i x : Nat) : Option (List (Gate F)) :=
  mapOpt (fun p : Nat × Nat =>
      match (qs.getD p.1 []).lookup x, (qs.getD p.2 []).lookup x with
      | some a, some b => some ⟨none, [⟨p.2 - p.1 - 1, a⟩], b, .const 1⟩
      | _, _ => none)
    ((pairs (c.occ.getD x [])).filter fun p => p.2 == i + 1 && ((qs.getD p.2 []).lookup x).isSome)

/-- A relay whose target is missing is only allowed at the output layer (wire.rs:369-373, 389-393). -/
def relayOk {F : Type} (c : Ctx F) (qs : List (List (Nat × Nat))) (i x : Nat) : Bool :=
  (pairs (c.occ.getD x [])).all fun p => p.2 != i + 1 || ((qs.getD p.2 []).lookup x).isSome || i + 1 == c.outL

/-- Position of the combined constraint of a called circuit inside its layout (wire.rs:422-447). -/
def ccPos {F : Type} (s : Ctx F) (sl : Nat × Layout) (j : Nat) : Option Nat :=
  match s.cc.getD j none with
  | none => none
  | some cc =>
    match posOf (s.vars.getD j []) cc.id with
    | none => none
    | some v => (sl.2.slots.find? fun p => p.2 == v).map fun p => sl.1 + p.1

/-- Gates of the combined constraint at layer `i + 1` (wire.rs:402-459).  `subl k j` is offset and layout of call `k` at its layer `j`. -/
def ccGates {F : Type} [One F] (tab : Nat → Option (Ctx F)) (c : Ctx F) (qs : List (List (Nat × Nat))) (subl : Nat → Nat → Option (Nat × Layout))
    (i : Nat) : Option (List (Gate F)) :=
  match c.cc.getD (i + 1) none with
  | none => some []
  | some cc =>
    match (qs.getD (i + 1) []).lookup cc.id with
    | none => none
    | some pos =>
      match mapOpt (fun v => ((qs.getD i []).lookup v).map fun a =>
          (⟨none, [⟨0, a⟩], pos, if c.prog.nv ≤ v then .const 1 else .random⟩ : Gate F)) cc.vars,
        mapOpt (fun k =>
          match subCtx tab c k, subl k (i - c.starts.getD k 0) with
          | some s, some sl => (ccPos s sl (i - c.starts.getD k 0)).map fun a => (⟨none, [⟨0, a⟩], pos, .const 1⟩ : Gate F)
          | _, _ => none) cc.subs with
      | some g1, some g2 => some (g1 ++ g2)
      | _, _ => none

/-- All gates of the transition from layer `i` to layer `i + 1`, in the order in which they are pushed. -/
def layerGates {F : Type} [One F] (tab : Nat → Option (Ctx F)) (c : Ctx F) (qs : List (List (Nat × Nat))) (subl : Nat → Nat → Option (Nat × Layout))
    (i : Nat) : Option (List (Gate F)) :=
  match mapOpt (fun x => if relayOk c qs i x then
      match firstGates c qs i x, relayGates c qs i x with
      | some a, some b => some (a ++ b)
      | _, _ => none
    else none) (List.range c.prog.nv), ccGates tab c qs subl i with
  | some gs, some g => some (gs.flatten ++ g)
  | _, _ => none

/-- Add an allocation of a child segment (wire.rs:240-257). -/
def addChild : List (Nat × List Alloc) → Nat × Alloc → List (Nat × List Alloc)
  | [], p => [(p.1, [p.2])]
  | e :: l, p => if e.1 = p.1 then (e.1, e.2 ++ [p.2]) :: l else e :: addChild l p

/-- The allocation of call `k` in the transition from layer `i` to `i + 1` (wire.rs:232-239). -/
def allocOf {F : Type} (s : Ctx F) (off : Nat → Nat) (i' : Nat) : Alloc :=
  ⟨(List.range (i' + 1 - s.mu.getD (i' + 1) 0)).map fun l => off (i' - l), off (i' + 1)⟩

/-- The segment for the transition from layer `i` to layer `i + 1` (wire.rs:203-213, 228-460).  The gates are pushed to one of four lists
according to their kind. -/
def mkSegment {F : Type} (c : Ctx F) (layouts : List Layout) (i : Nat) (children : List (Nat × Alloc)) (gs : List (Gate F)) : Segment F where
  numInputs := (List.range (i + 1 - c.mu.getD (i + 1) 0)).map fun l => ((layouts[i - l]?).map Layout.size).getD 0
  numOutputs := ((layouts[i + 1]?).map Layout.size).getD 0
  childSegs := children.foldl addChild []
  gateMuls := gs.filter fun g => g.typ.isNone && g.inputs.length == 2
  gateAdds := gs.filter fun g => g.typ.isNone && g.inputs.length == 1
  gateConsts := gs.filter fun g => g.typ.isNone && g.inputs.length == 0
  gateCustoms := gs.filter fun g => g.typ.isSome

/-- Offset and layout of call `k` at its layer `j` (wire.rs:161-201): given by the caller's layout in the middle, by `query` at both ends. -/
def subLayout {F : Type} (c s : Ctx F) (q : Call) (layouts : List Layout) (qs : List (List (Nat × Nat))) (k j : Nat) : Option (Nat × Layout) :=
  let start := c.starts.getD k 0
  match (((layouts[start + j]?).map Layout.subs).getD []).lookup k with
  | some x => some x
  | none =>
    if j = s.outL then
      if q.outputs.length ≤ s.prog.outs.length then
        some (query (qs.getD (start + j) []) q.outputs s.prog.outs (s.vars.getD j []) q.sub j) else none
    else if j = 0 then
      some (query (qs.getD start []) q.inputs ((List.range q.inputs.length).map (· + 1)) (s.vars.getD 0 []) q.sub 0)
    else none

/-- Layouts of call `k` at all its layers. -/
def callLayouts {F : Type} (tab : Nat → Option (Ctx F)) (c : Ctx F) (layouts : List Layout) (qs : List (List (Nat × Nat))) (k : Nat) :
    Option (List (Nat × Layout)) :=
  match c.prog.calls[k]? with
  | none => none
  | some q =>
    match tab q.sub with
    | none => none
    | some s => mapOpt (subLayout c s q layouts qs k) (List.range (s.outL + 1))

/-- Connect the called circuits one after the other (wire.rs:228-231). -/
def connAll {F : Type} (rec : List Layout → List (Segment F) → Option (List Nat × List (Segment F))) :
    List (List Layout) → List (Segment F) → Option (List (List Nat) × List (Segment F))
  | [], segs => some ([], segs)
  | l :: ls, segs =>
    match rec l segs with
    | none => none
    | some (ids, segs1) =>
      match connAll rec ls segs1 with
      | none => none
      | some (r, segs2) => some (ids :: r, segs2)

/-- The children of the segment for the transition from layer `i` (wire.rs:228-258). -/
def childrenAt {F : Type} (tab : Nat → Option (Ctx F)) (c : Ctx F) (subls : List (List (Nat × Layout))) (ids : List (List Nat)) (i : Nat) :
    List (Nat × Alloc) :=
  (List.range c.prog.calls.length).filterMap fun k =>
    match subCtx tab c k with
    | none => none
    | some s =>
      if c.starts.getD k 0 ≤ i ∧ i < c.starts.getD k 0 + s.outL then
        some ((ids.getD k []).getD (i - c.starts.getD k 0) 0,
          allocOf s (fun j => (((subls.getD k [])[j]?).map (·.1)).getD 0) (i - c.starts.getD k 0))
      else none

/-- `connect_wires` (wire.rs:127-470): the numbers of the segments of a circuit whose layers are stored as given, and the extended list of
segments. -/
def connect {F : Type} [One F] (tab : Nat → Option (Ctx F)) : Nat → List Layout → List (Segment F) → Option (List Nat × List (Segment F))
  | 0, _, _ => none
  | f + 1, layouts, segs =>
    match layouts with
    | [] => none
    | l0 :: _ =>
      match tab l0.circ with
      | none => none
      | some c =>
        if ¬ (layouts.length = c.outL + 1 ∧ (List.range layouts.length).all fun i =>
            ((layouts[i]?).map Layout.layer).getD 0 == i && ((layouts[i]?).map Layout.circ).getD 0 == l0.circ) then none
        else
          match mapOpt (fun i => ((layouts[i]?).map (layoutQuery (c.vars.getD i []))).getD none) (List.range (c.outL + 1)) with
          | none => none
          | some qs =>
            if ¬ ((List.range c.outL).all fun i => (c.vars.getD i []).all fun x => ((qs.getD i []).lookup x).isSome) then none
            else
              match mapOpt (callLayouts tab c layouts qs) (List.range c.prog.calls.length) with
              | none => none
              | some subls =>
                match connAll (connect tab f) (subls.map fun l => l.map (·.2)) segs with
                | none => none
                | some (ids, segs1) =>
                  match mapOpt (layerGates tab c qs (fun k j => (subls.getD k [])[j]?)) (List.range c.outL) with
                  | none => none
                  | some gss =>
                    some ((List.range c.outL).map (segs1.length + ·),
                      segs1 ++ (List.range c.outL).map fun i => mkSegment c layouts i (childrenAt tab c subls ids i) (gss.getD i []))

/-- `record_input_order` (input.rs:8-34); `none` inside the list is `EMPTY`. -/
def inputOrder {F : Type} (c : Ctx F) : Layout → Option (List (Option Nat))
  | .dense _ _ pl =>
    match mapOpt (fun s : Nat × Nat => ((c.vars.getD 0 [])[s.2]?).map fun v => (v, s.1)) (Layout.dense 0 0 pl).slots with
    | none => none
    | some v => some ((List.range' 1 c.prog.numInputs).map fun x => v.reverse.lookup x)
  | .sparse _ _ _ _ _ => none

/-- `CompileContext::compile` (compile.rs:102-146) and `layering::compile` (mod.rs:27-59): the layered circuit, the size of its input layer
and the position of every input. -/
def compile {F : Type} [One F] (cross reorder : Bool) (get : Nat → Option (Prog F)) (fuel numPublicInputs expectedZeroes : Nat) :
    Option (Layered.Circuit F × Nat × List (Option Nat)) :=
  let tab := ctxOf cross get fuel
  match tab 0 with
  | none => none
  | some c =>
    match mapOpt (solve reorder tab fuel 0) (List.range (c.outL + 1)) with
    | none => none
    | some layouts =>
      match connect tab fuel layouts [] with
      | none => none
      | some (ids, segs) =>
        match (layouts[0]?).bind (inputOrder c), (ids.head?).bind fun i => (segs[i]?).bind fun s => s.numInputs.head? with
        | some order, some l0 =>
          let has := if c.cc.any Option.isSome then 1 else 0
          some (⟨numPublicInputs, c.prog.outs.length + has, expectedZeroes + has, segs, ids⟩, l0, order)
        | _, _ => none

end Verif.Layering
