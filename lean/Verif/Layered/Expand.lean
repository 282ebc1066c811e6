import Verif.Layered.Opt

/-!
# `expand_small_segments` (circuit/layered/opt.rs:405-586): definitions

`HashMap::into_iter` order (`ordH`) and the `Ord` of allocations (`srtA`) are parameters; only "a permutation" is needed of them.
-/

set_option linter.unusedSectionVars false
set_option linter.unusedSimpArgs false

namespace Verif.Layered

variable {F : Type} [CommRing F] [DecidableEq F]

/-- `GateOpt::add_offset` (opt.rs:120-133, 149-162).  `in_offset.get(layer)` panics when the layer does not exist, which does not happen on
accepted circuits; the model then adds 0. -/
def Gate.addOffset {F : Type} (a : Alloc) (g : Gate F) : Gate F :=
  ⟨g.typ, g.inputs.map fun i => ⟨i.layer, i.offset + a.inputOffset.getD i.layer 0⟩, g.output + a.outputOffset, g.coef⟩

/-- `expand_gates` (opt.rs:405-428): own gates, then the shifted gates of the expanded children. -/
def expandGates {F : Type} (prev : List (Segment F)) (should : Nat → Bool) (get : Segment F → List (Gate F)) (s : Segment F) : List (Gate F) :=
  get s ++ s.childSegs.flatMap fun ch =>
    if should ch.1 then
      match prev[ch.1]? with
      | none => []
      | some sub => ch.2.flatMap fun a => (get sub).map (Gate.addOffset a)
    else []

/-- `child_segs_map.get_mut(id).extend(allocs)` after inserting an empty entry if needed (opt.rs:450-456, 460-462, 476-479). -/
def mapExtend (m : List (Nat × List Alloc)) (id : Nat) (as : List Alloc) : List (Nat × List Alloc) :=
  match m with
  | [] => [(id, as)]
  | (k, l) :: m => if k = id then (k, l ++ as) :: m else (k, l) :: mapExtend m id as

/-- Allocation of a grandchild as seen from the segment (opt.rs:465-475). -/
def Alloc.compose (sub a : Alloc) : Alloc := ⟨sub.inputOffset.zipWith (· + ·) a.inputOffset, sub.outputOffset + a.outputOffset⟩

/-- One child of the loop over `child_segs` (opt.rs:448-484). -/
def expandChild {F : Type} (prev : List (Segment F)) (should : Nat → Bool) (m : List (Nat × List Alloc)) (ch : Nat × List Alloc) : List (Nat × List Alloc) :=
  if should ch.1 then
    match prev[ch.1]? with
    | none => m
    | some sub => sub.childSegs.foldl (fun m sc => mapExtend m sc.1 (sc.2.flatMap fun sa => ch.2.map fun a => sa.compose a)) m
  else mapExtend m ch.1 ch.2

/-- `expand_segment` (opt.rs:430-498). -/
def expandSegment {F : Type} (srtA : List Alloc → List Alloc) (ordH : List (Nat × List Alloc) → List (Nat × List Alloc)) (prev : List (Segment F))
    (should : Nat → Bool) (s : Segment F) : Segment F :=
  ⟨s.numInputs, s.numOutputs, ordH ((s.childSegs.foldl (expandChild prev should) []).map fun p => (p.1, srtA p.2)),
    expandGates prev should Segment.gateMuls s, expandGates prev should Segment.gateAdds s, expandGates prev should Segment.gateConsts s,
    expandGates prev should Segment.gateCustoms s⟩

/-- `used_count[sub] += allocations.len()` for every child (opt.rs:512-514). -/
def addUses (u : Nat → Nat) (chs : List (Nat × List Alloc)) : Nat → Nat :=
  chs.foldl (fun u ch => fun k => if k = ch.1 then u k + ch.2.length else u k) u

/-- The loop over the segments, last first (opt.rs:510-516). -/
def usedLoop {F : Type} (segs : List (Segment F)) : Nat → (Nat → Nat) → (Nat → Nat)
  | 0, u => u
  | i + 1, u => usedLoop segs i (if 0 < u i then (match segs[i]? with | none => u | some s => addUses u s.childSegs) else u)

/-- Initial counts (opt.rs:506-509): `EXPAND_USE_COUNT_LIMIT + 1 = 2` per occurrence as a layer. -/
def initUses (layers : List Nat) : Nat → Nat := fun k => 2 * layers.count k

/-- `used_count` (opt.rs:504-516). -/
def Circuit.usedCount {F : Type} (c : Circuit F) : Nat → Nat := usedLoop c.segments c.segments.length (initUses c.layerIds)

/-- Gates and child applications of a segment (opt.rs:526-532). -/
def Segment.gateCount {F : Type} (s : Segment F) : Nat :=
  s.gateMuls.length + s.gateAdds.length + s.gateConsts.length + s.gateCustoms.length + (s.childSegs.map fun ch => ch.2.length).sum

/-- `expand_range` (opt.rs:518-539): used, not a layer, and used at most once or small. -/
def Circuit.expandable {F : Type} (c : Circuit F) (i : Nat) : Bool :=
  match c.segments[i]? with
  | none => false
  | some s => decide (0 < c.usedCount i) && !(c.layerIds.contains i) && (decide (c.usedCount i ≤ 1) || decide (s.gateCount ≤ 4))

/-- `optimized` (opt.rs:517-542): some segment is unused or expanded. -/
def Circuit.optimized {F : Type} (c : Circuit F) : Bool :=
  (List.range c.segments.length).any fun i => c.usedCount i == 0 || c.expandable i

/-- `expanded_segments` (opt.rs:545-555). -/
def Circuit.expandedSegs {F : Type} (srtA : List Alloc → List Alloc) (ordH : List (Nat × List Alloc) → List (Nat × List Alloc)) (c : Circuit F) : List (Segment F) :=
  c.segments.zipIdx.foldl (fun prev p => prev ++ [if 0 < c.usedCount p.2 then expandSegment srtA ordH prev c.expandable p.1 else p.1]) []

/-- Segments that survive (opt.rs:559). -/
def Circuit.keeps {F : Type} (c : Circuit F) (i : Nat) : Bool := decide (0 < c.usedCount i) && !(c.expandable i)

/-- `new_id` (opt.rs:556, 575): `!0` for the others. -/
def Circuit.newId {F : Type} (c : Circuit F) (i : Nat) : Nat := if c.keeps i then (List.range i).countP c.keeps else 2 ^ 64 - 1

/-- Child ids replaced (opt.rs:560-572). -/
def Segment.renum {F : Type} (m : Nat → Nat) (s : Segment F) : Segment F :=
  ⟨s.numInputs, s.numOutputs, s.childSegs.map fun ch => (m ch.1, ch.2), s.gateMuls, s.gateAdds, s.gateConsts, s.gateCustoms⟩

/-- `expand_small_segments` (opt.rs:500-586). -/
def Circuit.expandSmall (srt : List (Gate F) → List (Gate F)) (srtA : List Alloc → List Alloc)
    (ordH : List (Nat × List Alloc) → List (Nat × List Alloc)) (c : Circuit F) : Circuit F :=
  if c.optimized then
    ⟨c.numPublicInputs, c.numActualOutputs, c.expectedNumOutputZeroes,
      ((c.expandedSegs srtA ordH).zipIdx.filter fun p => c.keeps p.2).map fun p => (p.1.renum c.newId).dedup srt,
      c.layerIds.map c.newId⟩
  else c

end Verif.Layered
