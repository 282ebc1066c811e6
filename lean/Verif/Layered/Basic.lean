import Verif.IR.Langs
import Mathlib.Algebra.Ring.Hom.Defs

/-!
# Layered circuits: data types and evaluation

`circuit/layered/mod.rs`.  The cross-layer variant is the general one (`CrossLayerInput`, lines 129-135; `CrossLayerInputUsize`,
lines 190-195); the normal variant is the instance in which every input has layer 0 and every `InputUsize` is a singleton.

Evaluation is written once over a commutative semiring `R` in which the wires take their values: `R = F` gives `eval_unsafe` and
`eval_with_public_inputs`, `R = Fin n → F` gives `eval_with_public_inputs_simd`.  The random generator is a tape `Nat → R` whose
head is consumed by each `Coef::Random`; `none` is a Rust panic.
-/

set_option linter.unusedSectionVars false
set_option linter.unusedSimpArgs false

namespace Verif.Layered

open Verif.IR (Coef)

/-- `CrossLayerInput` / `NormalInput` (layered/mod.rs:130-140). -/
structure Input where
  layer : Nat
  offset : Nat
  deriving DecidableEq

/-- `Gate<C, I, INPUT_NUM>` and `GateCustom` (layered/mod.rs:279-284, 339-345) in one record: `typ = none` for mul/add/const gates, whose
number of inputs (the const generic `INPUT_NUM`) is the length of the list, `typ = some gate_type` for custom gates. -/
structure Gate (F : Type) where
  typ : Option Nat
  inputs : List Input
  output : Nat
  coef : Coef F
  deriving DecidableEq

/-- `Allocation` (layered/mod.rs:347-351). -/
structure Alloc where
  inputOffset : List Nat
  outputOffset : Nat
  deriving DecidableEq

/-- `Segment` (layered/mod.rs:357-366). -/
structure Segment (F : Type) where
  numInputs : List Nat
  numOutputs : Nat
  childSegs : List (Nat × List Alloc)
  gateMuls : List (Gate F)
  gateAdds : List (Gate F)
  gateConsts : List (Gate F)
  gateCustoms : List (Gate F)
  deriving DecidableEq

/-- `Circuit` (layered/mod.rs:368-375). -/
structure Circuit (F : Type) where
  numPublicInputs : Nat
  numActualOutputs : Nat
  expectedNumOutputZeroes : Nat
  segments : List (Segment F)
  layerIds : List Nat
  deriving DecidableEq

/-- How coefficients and custom gates are interpreted in `R`.  `pub i = none` means that reading public input `i` panics (`mod.rs:48-50`,
`64-66`).  Custom gates are total functions (`hints::stub_impl` with a non-built-in id, hints/builtin.rs:69-80, 268-273). -/
structure LEnv (F R : Type) where
  const : F → R
  pub : Nat → Option R
  custom : Nat → List R → R

section
variable {F R : Type} [CommSemiring R]

/-- `Coef::get_value_*` (layered/mod.rs:26-69): value of a coefficient and the remaining random tape. -/
def draw (V : LEnv F R) : Coef F → (Nat → R) → Option (R × (Nat → R))
  | .const c, tape => some (V.const c, tape)
  | .random, tape => some (tape 0, fun i => tape (i + 1))
  | .pub i, tape => (V.pub i).map fun v => (v, tape)

/-- `cur[input.layer()][input.offset()]` (layered/mod.rs:692-693 and similar). -/
def readInput (cur : List (List R)) (i : Input) : Option R := (cur[i.layer]?).bind fun l => l[i.offset]?

/-- The value a gate contributes, before the coefficient: product of the inputs (`mod.rs:692-694`, two factors, one factor or none), or the
custom function (`mod.rs:704-711`). -/
def gateVal (V : LEnv F R) (g : Gate F) (vs : List R) : R :=
  match g.typ with
  | none => vs.prod
  | some t => V.custom t vs

/-- One gate of `apply_segment_*` (layered/mod.rs:691-712 / 776-797 / 864-892): `nxt[output] += value * coef`. -/
def stepGate (V : LEnv F R) (cur : List (List R)) (g : Gate F) (st : List R × (Nat → R)) : Option (List R × (Nat → R)) :=
  match mapOpt (readInput cur) g.inputs with
  | none => none
  | some vs =>
    match draw V g.coef st.2 with
    | none => none
    | some (c, tape) =>
      if g.output < st.1.length then some (st.1.modify g.output (· + gateVal V g vs * c), tape) else none

/-- `&l[off..off + len]`. -/
def sliceOf (l : List R) (off len : Nat) : Option (List R) :=
  if off + len ≤ l.length then some ((l.drop off).take len) else none

/-- Input slices of a child (layered/mod.rs:717-723 and similar): `zip` of the offsets and the child's input lengths. -/
def childIn : List (List R) → List Nat → List Nat → Option (List (List R))
  | cur, off :: offs, len :: lens =>
    match cur with
    | [] => none
    | c :: cs =>
      match sliceOf c off len, childIn cs offs lens with
      | some s, some r => some (s :: r)
      | _, _ => none
  | _, _, _ => some []

/-- The steps `apply_segment_*` performs: a gate, the lookup of a child segment, one allocation of a child segment. -/
inductive Op (F : Type)
  | gate (g : Gate F)
  | look (id : Nat)
  | child (id : Nat) (a : Alloc)

/-- Steps of one entry of `child_segs` (layered/mod.rs:714-728): look the segment up, then apply it once per allocation. -/
def specOps (F : Type) (c : Nat × List Alloc) : List (Op F) := .look c.1 :: c.2.map (Op.child c.1)

/-- The steps of a segment in program order (layered/mod.rs:691-728). -/
def Segment.ops (s : Segment F) : List (Op F) :=
  (s.gateMuls ++ s.gateAdds ++ s.gateConsts ++ s.gateCustoms).map .gate ++ s.childSegs.flatMap (specOps F)

/-- One step; `rec` applies a child segment to its input slices and output slice. -/
def stepOp (V : LEnv F R) (segs : List (Segment F))
    (rec : Segment F → List (List R) → (List R × (Nat → R)) → Option (List R × (Nat → R)))
    (cur : List (List R)) (op : Op F) (st : List R × (Nat → R)) : Option (List R × (Nat → R)) :=
  match op with
  | .gate g => stepGate V cur g st
  | .look id => if id < segs.length then some st else none
  | .child id a =>
    match segs[id]? with
    | none => none
    | some sub =>
      match childIn cur a.inputOffset sub.numInputs with
      | none => none
      | some ins =>
        match sliceOf st.1 a.outputOffset sub.numOutputs with
        | none => none
        | some out =>
          match rec sub ins (out, st.2) with
          | none => none
          | some (out', tape) =>
            some (st.1.take a.outputOffset ++ out' ++ st.1.drop (a.outputOffset + sub.numOutputs), tape)

/-- A sequence of steps. -/
def runOps (step : Op F → (List R × (Nat → R)) → Option (List R × (Nat → R))) :
    List (Op F) → (List R × (Nat → R)) → Option (List R × (Nat → R))
  | [], st => some st
  | op :: ops, st => (step op st).bind (runOps step ops)

/-- `apply_segment_unsafe` / `apply_segment_with_public_inputs` / `.._simd` (layered/mod.rs:685-730, 769-816, 857-916).  The first argument
bounds the recursion depth; circuits accepted by `validate` never need more than the number of segments. -/
def applySeg (V : LEnv F R) (segs : List (Segment F)) :
    Nat → Segment F → List (List R) → (List R × (Nat → R)) → Option (List R × (Nat → R))
  | 0, _, _, _ => none
  | f + 1, s, cur, st => runOps (stepOp V segs (applySeg V segs f) cur) s.ops st

/-- The layer loop of `eval_*` (layered/mod.rs:661-670): `hist` holds the layers computed so far, most recent first. -/
def runLayers (V : LEnv F R) (segs : List (Segment F)) : List Nat → List (List R) → (Nat → R) → Option (List (List R))
  | [], hist, _ => some hist
  | id :: ids, hist, tape =>
    match segs[id]? with
    | none => none
    | some s =>
      if s.numInputs.length ≤ hist.length then
        match applySeg V segs (segs.length + 1) s (hist.take s.numInputs.length) (List.replicate s.numOutputs 0, tape) with
        | none => none
        | some (nxt, tape') => runLayers V segs ids (nxt :: hist) tape'
      else none

/-- `input_size` (layered/mod.rs:653-655). -/
def Circuit.inputSize (c : Circuit F) : Option Nat :=
  (c.layerIds.head?).bind fun id => (c.segments[id]?).bind fun s => s.numInputs.head?

/-- Values of all wires, last layer first: the vector `cur` of `eval_*` (layered/mod.rs:657-670). -/
def Circuit.wires (V : LEnv F R) (c : Circuit F) (inputs : List R) (tape : Nat → R) : Option (List (List R)) :=
  if c.inputSize = some inputs.length then runLayers V c.segments c.layerIds [inputs] tape else none

/-- `&l[a..b]`. -/
def rangeOf {α : Type} (l : List α) (a b : Nat) : Option (List α) := if a ≤ b ∧ b ≤ l.length then some ((l.take b).drop a) else none

/-- `eval_unsafe` / `eval_with_public_inputs` (layered/mod.rs:657-683, 732-767) up to the verdict: the outputs and the values that must
vanish. -/
def Circuit.evalRaw (V : LEnv F R) (c : Circuit F) (inputs : List R) (tape : Nat → R) : Option (List R × List R) :=
  match c.wires V inputs tape with
  | none => none
  | some ws =>
    match ws with
    | [] => none
    | last :: _ =>
      match rangeOf last c.expectedNumOutputZeroes c.numActualOutputs with
      | none => none
      | some outs => some (outs, last.take c.expectedNumOutputZeroes)

/-- `eval_unsafe` / `eval_with_public_inputs` (layered/mod.rs:657-683, 732-767): outputs and "all constraints satisfied". -/
def Circuit.eval [DecidableEq R] (V : LEnv F R) (c : Circuit F) (inputs : List R) (tape : Nat → R) : Option (List R × Bool) :=
  (c.evalRaw V inputs tape).map fun r => (r.1, r.2.all fun x => decide (x = 0))

end

/-- Environment of `eval_with_public_inputs` (layered/mod.rs:39-53): constants are themselves, public inputs come from the slice. -/
def LEnv.withPublic {F : Type} (custom : Nat → List F → F) (pubs : List F) : LEnv F F where
  const := id
  pub := fun i => pubs[i]?
  custom := custom

/-- Environment of `eval_with_public_inputs_simd` with `n` lanes (layered/mod.rs:55-69, 875-892): constants are broadcast, custom gates act
lane by lane. -/
def LEnv.simd {F : Type} (n : Nat) (custom : Nat → List F → F) (pubs : List (Fin n → F)) : LEnv F (Fin n → F) where
  const := fun c _ => c
  pub := fun i => pubs[i]?
  custom := fun t vs l => custom t (vs.map (· l))

/-- Environment of `eval_unsafe` (layered/mod.rs:26-37): public inputs are a stub function of their number. -/
def LEnv.unsafe {F : Type} [NatCast F] (custom : Nat → List F → F) : LEnv F F where
  const := id
  pub := fun i => some (((i * i % 1000000007) * i % 1000000007 : Nat) : F)
  custom := custom

end Verif.Layered
