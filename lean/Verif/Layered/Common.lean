import Verif.Layered.ExpandRoot
import Verif.Utils.UnionFind
import Verif.Utils.Pow2

/-!
# `find_common_parts` (circuit/layered/opt.rs:588-705): definitions

* A `UniGate` is a pair (kind, gate): 0 multiplication, 1 addition, 2 constant, 3 custom (opt.rs:196-203).
* `HashSet`s are lists without duplicates; their iteration order only matters where `from_uni_gates` sorts afterwards.
* The random sample of gates (opt.rs:248-276) is the arbitrary parameter `sample`: nothing is assumed about it.
* The sort of the edges is the parameter `srtE`.
-/

set_option linter.unusedSectionVars false
set_option linter.unusedSimpArgs false

namespace Verif.Layered

open Verif.IR (Coef)

variable {F : Type} [CommRing F] [DecidableEq F]

/-- `UniGate` (opt.rs:196-203). -/
abbrev UniGate (F : Type) := Nat × Gate F

/-- All gates with their kinds, in order. -/
def Segment.uni {F : Type} (s : Segment F) : List (UniGate F) :=
  s.gateMuls.map (fun g => (0, g)) ++ s.gateAdds.map (fun g => (1, g)) ++ s.gateConsts.map (fun g => (2, g)) ++ s.gateCustoms.map (fun g => (3, g))

/-- `all_gates` (opt.rs:278-293): a set. -/
def Segment.uniSet (s : Segment F) : List (UniGate F) := s.uni.dedup

/-- `num_all_gates` (opt.rs:295-300). -/
def Segment.numAllGates {F : Type} (s : Segment F) : Nat := s.uni.length

/-- `remove_gates` (opt.rs:302-331). -/
def Segment.removeGates (gs : List (UniGate F)) (s : Segment F) : Segment F :=
  ⟨s.numInputs, s.numOutputs, s.childSegs, s.gateMuls.filter fun g => !gs.contains (0, g), s.gateAdds.filter fun g => !gs.contains (1, g),
    s.gateConsts.filter fun g => !gs.contains (2, g), s.gateCustoms.filter fun g => !gs.contains (3, g)⟩

/-- The gates of one kind. -/
def ofKind {F : Type} (k : Nat) (gs : List (UniGate F)) : List (Gate F) := (gs.filter fun p => p.1 == k).map Prod.snd

/-- One step of the `max_input` computation (opt.rs:354-358): pad with zeroes, then take the maximum. -/
def maxInput (m : List Nat) (i : Input) : List Nat := (m ++ List.replicate (i.layer + 1 - m.length) 0).modify i.layer (max · i.offset)

/-- `from_uni_gates` (opt.rs:333-395).  Constant gates have no inputs, so listing them among the gates whose inputs count changes nothing. -/
def fromUni {F : Type} (srt : List (Gate F) → List (Gate F)) (gs : List (UniGate F)) : Segment F :=
  let muls := srt (ofKind 0 gs)
  let adds := srt (ofKind 1 gs)
  let consts := srt (ofKind 2 gs)
  let customs := srt (ofKind 3 gs)
  let m := ((muls ++ adds ++ consts ++ customs).flatMap Gate.inputs).foldl maxInput []
  let m := if m.isEmpty then [0] else m
  let o := ((muls ++ adds ++ consts ++ customs).map Gate.output).foldl max 0
  ⟨m.map fun x => Pow2.next (x + 1), Pow2.next (o + 1), [], muls, adds, consts, customs⟩

/-- The edges of the similarity graph with their keys (opt.rs:604-622); the key is the expected number of common gates (negated there). -/
def commonEdges (segs : List (Segment F)) (sampled : List (List (UniGate F))) : List (Nat × Nat × Nat) :=
  segs.zipIdx.flatMap fun p => (sampled.take p.2).zipIdx.flatMap fun q =>
    let common := (q.1.filter fun g => p.1.uniSet.contains g).length
    if 10 ≤ q.1.length ∧ q.1.length * 5 ≤ common * 100 then
      [((match segs[q.2]? with | none => 0 | some s => s.numAllGates) * common / q.1.length, p.2, q.2)]
    else []

/-- State of the grouping loop: parents and the gates of each group. -/
structure GroupSt (F : Type) where
  uf : List Nat
  groups : List (List (UniGate F))

/-- One edge of the grouping loop (opt.rs:626-651). -/
def groupStep (st : Option (GroupSt F)) (e : Nat × Nat × Nat) : Option (GroupSt F) :=
  match st with
  | none => none
  | some st =>
    match UnionFind.find st.uf e.2.1 with
    | none => none
    | some (x, p) =>
      match UnionFind.find p e.2.2 with
      | none => none
      | some (y, p) =>
        if x = y then some ⟨p, st.groups⟩
        else
          match st.groups[x]?, st.groups[y]? with
          | some gx, some gy =>
            let sw := decide (gx.length < gy.length)
            let x' := if sw then y else x
            let y' := if sw then x else y
            let gx' := if sw then gy else gx
            let gy' := if sw then gx else gy
            let merged := gx'.filter fun g => gy'.contains g
            if merged.length < 10 then some ⟨p, st.groups⟩
            else
              match UnionFind.union p x' y' with
              | none => none
              | some p =>
                match UnionFind.find p x' with
                | none => none
                | some (z, p) => some ⟨p, st.groups.set z merged⟩
          | _, _ => none

/-- The grouping loop (opt.rs:623-651). -/
def grouping (segs : List (Segment F)) (edges : List (Nat × Nat × Nat)) : Option (GroupSt F) :=
  edges.foldl groupStep (some ⟨UnionFind.new segs.length, segs.map Segment.uniSet⟩)

/-- Representative of a segment in the final forest (opt.rs:654, 660, 683). Path halving does not change answers (`find_spec`), so the
model asks the final forest without updating it. -/
def repOf (p : List Nat) (i : Nat) : Nat := match UnionFind.find p i with | none => i | some (r, _) => r

/-- Groups that become a common segment (opt.rs:652-665), in order. -/
def commonReps (n : Nat) (p : List Nat) (groups : List (List (UniGate F))) : List Nat :=
  (List.range n).filter fun i => repOf p i == i && decide (1 < (List.range n).countP fun j => repOf p j == i) &&
    decide (10 ≤ (groups.getD i []).length)

/-- One rewritten segment (opt.rs:666-697); `k` common segments come first, so old segment `j` becomes number `k + j`
(a child not yet renumbered would become `!0`, opt.rs:658, which does not happen on accepted circuits: children come earlier). -/
def commonSeg (srt : List (Gate F) → List (Gate F)) (p : List Nat) (groups : List (List (UniGate F))) (reps : List Nat) (s : Segment F) (i : Nat) : Segment F :=
  let s := s.renum (reps.length + ·)
  let r := repOf p i
  let s := if reps.contains r then
      let s := s.removeGates (groups.getD r [])
      ⟨s.numInputs, s.numOutputs, s.childSegs ++ [(reps.idxOf r, [⟨List.replicate (fromUni srt (groups.getD r [])).numInputs.length 0, 0⟩])],
        s.gateMuls, s.gateAdds, s.gateConsts, s.gateCustoms⟩
    else s
  s.dedup srt

/-- `find_common_parts` (opt.rs:588-705). -/
def Circuit.findCommon (srt : List (Gate F) → List (Gate F)) (srtE : List (Nat × Nat × Nat) → List (Nat × Nat × Nat))
    (sample : List (Segment F) → List (List (UniGate F))) (c : Circuit F) : Option (Circuit F) :=
  match grouping c.segments (srtE (commonEdges c.segments (sample c.segments))) with
  | none => none
  | some st =>
    let reps := commonReps c.segments.length st.uf st.groups
    some ⟨c.numPublicInputs, c.numActualOutputs, c.expectedNumOutputZeroes,
      reps.map (fun r => fromUni srt (st.groups.getD r [])) ++ c.segments.zipIdx.map (fun q => commonSeg srt st.uf st.groups reps q.1 q.2),
      c.layerIds.map (reps.length + ·)⟩

end Verif.Layered
