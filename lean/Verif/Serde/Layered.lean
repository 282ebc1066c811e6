import Verif.Serde.IR
import Verif.Layered.Basic
import Verif.Witness.Pack

/-!
# Serialisation of layered circuits and witnesses

`circuit/layered/serde.rs`, the `derive(ExpSerde)` of `CrossLayerInput`, `NormalInput`, `CrossLayerInputUsize`, `NormalInputUsize`, `Allocation`
(layered/mod.rs:130-140, 194-202, 348-352) and `Witness` (layered/witness.rs:296-351).  `cross` selects the input type.
-/

set_option linter.unusedSectionVars false
set_option linter.unusedSimpArgs false

namespace Verif.Serde

open Verif.IR (Coef)
open Verif.Layered

variable {F : Type} [Field F] [DecidableEq F] (K : FieldCodec F) (cross : Bool)

/-- `CrossLayerInput` / `NormalInput` (layered/mod.rs:130-140). -/
def writeInput (i : Input) : Bytes := if cross then writeU64 i.layer ++ writeU64 i.offset else writeU64 i.offset
def readInputB : Reader Input := if cross then readU64.andThen fun l => readU64.andThen fun o => ret ⟨l, o⟩ else readU64.andThen fun o => ret ⟨0, o⟩

def InputOk (i : Input) : Prop := U64 i.offset ∧ U64 i.layer ∧ (cross = false → i.layer = 0)

theorem input_rt : RoundTrip (InputOk cross) (writeInput cross) (readInputB cross) := by
  rintro ⟨l, o⟩ ⟨h1, h2, h3⟩ rest
  cases cross with
  | true =>
    simp only [writeInput, readInputB, if_true, List.append_assoc]
    rw [andThen_eq (u64_rt l h2 _), andThen_eq (u64_rt o h1 _)]; rfl
  | false =>
    have : l = 0 := h3 rfl
    subst this
    simp only [writeInput, readInputB, Bool.false_eq_true, if_false]
    rw [andThen_eq (u64_rt o h1 _)]; rfl

/-- `CrossLayerInputUsize` / `NormalInputUsize` (layered/mod.rs:194-202). -/
def writeSizes (l : List Nat) : Bytes := if cross then writeVec writeU64 l else writeU64 (l.headD 0)
def readSizes : Reader (List Nat) := if cross then readVec readU64 else readU64.andThen fun n => ret [n]

def SizesOk (l : List Nat) : Prop := IdsOk l ∧ (cross = false → l.length = 1)

theorem sizes_rt : RoundTrip (SizesOk cross) (writeSizes cross) (readSizes cross) := by
  rintro l ⟨h1, h2⟩ rest
  cases cross with
  | true => simp only [writeSizes, readSizes, if_true]; exact ids_rt l h1 rest
  | false =>
    obtain ⟨n, rfl⟩ := List.length_eq_one_iff.1 (h2 rfl)
    simp only [writeSizes, readSizes, Bool.false_eq_true, if_false, List.headD_cons]
    rw [andThen_eq (u64_rt n (h1.2 n (by simp)) _)]; rfl

/-- `Gate::serialize_into` (layered/serde.rs:51-59). -/
def writeGate (g : Gate F) : Bytes := g.inputs.flatMap (writeInput cross) ++ writeU64 g.output ++ writeCoef K g.coef

/-- `Gate::deserialize_from` (layered/serde.rs:60-74) with `INPUT_NUM = k`. -/
def readGate (k : Nat) : Reader (Gate F) := (readN (readInputB cross) k).andThen fun is => readU64.andThen fun o => (readCoef K).andThen fun c => ret ⟨none, is, o, c⟩

def GateOk (k : Nat) (g : Gate F) : Prop := g.typ = none ∧ g.inputs.length = k ∧ (∀ i ∈ g.inputs, InputOk cross i) ∧ U64 g.output ∧ CoefOk g.coef

theorem gate_rt (k : Nat) : RoundTrip (GateOk cross k) (writeGate K cross) (readGate K cross k) := by
  rintro ⟨t, is, o, c⟩ ⟨h1, h2, h3, h4, h5⟩ rest
  simp only at h1 h2 h3 h4 h5
  subst h1 h2
  simp only [writeGate, readGate, List.append_assoc]
  rw [andThen_eq (readN_rt (input_rt cross) is h3 _), andThen_eq (u64_rt o h4 _), andThen_eq (coef_rt K c h5 _)]; rfl

/-- `GateCustom::serialize_into` (layered/serde.rs:77-84). -/
def writeCustom (g : Gate F) : Bytes := writeU64 (g.typ.getD 0) ++ writeVec (writeInput cross) g.inputs ++ writeU64 g.output ++ writeCoef K g.coef

/-- `GateCustom::deserialize_from` (layered/serde.rs:85-97). -/
def readCustom : Reader (Gate F) := readU64.andThen fun t => (readVec (readInputB cross)).andThen fun is => readU64.andThen fun o => (readCoef K).andThen fun c =>
  ret ⟨some t, is, o, c⟩

def CustomOk (g : Gate F) : Prop := (∃ t, g.typ = some t ∧ U64 t) ∧ VecOk (InputOk cross) g.inputs ∧ U64 g.output ∧ CoefOk g.coef

theorem custom_rt : RoundTrip (CustomOk cross) (writeCustom K cross) (readCustom K cross) := by
  rintro ⟨t, is, o, c⟩ ⟨⟨t', h1, h1'⟩, h3, h4, h5⟩ rest
  simp only at h1 h3 h4 h5
  subst h1
  simp only [writeCustom, readCustom, List.append_assoc, Option.getD_some]
  rw [andThen_eq (u64_rt t' h1' _), andThen_eq (vec_rt (input_rt cross) is h3 _), andThen_eq (u64_rt o h4 _), andThen_eq (coef_rt K c h5 _)]; rfl

/-- `Allocation`, `derive(ExpSerde)` (layered/mod.rs:348-352). -/
def writeAlloc (a : Alloc) : Bytes := writeSizes cross a.inputOffset ++ writeU64 a.outputOffset
def readAlloc : Reader Alloc := (readSizes cross).andThen fun i => readU64.andThen fun o => ret ⟨i, o⟩
def AllocOk (a : Alloc) : Prop := SizesOk cross a.inputOffset ∧ U64 a.outputOffset

theorem alloc_rt : RoundTrip (AllocOk cross) (writeAlloc cross) (readAlloc cross) := by
  rintro ⟨i, o⟩ ⟨h1, h2⟩ rest
  simp only [writeAlloc, readAlloc, List.append_assoc]
  rw [andThen_eq (sizes_rt cross i h1 _), andThen_eq (u64_rt o h2 _)]; rfl

/-- `ChildSpec = (usize, Vec<Allocation>)` (layered/mod.rs:356). -/
def writeChild : Nat × List Alloc → Bytes := writePair writeU64 (writeVec (writeAlloc cross))
def readChild : Reader (Nat × List Alloc) := readPair readU64 (readVec (readAlloc cross))
def ChildOk (p : Nat × List Alloc) : Prop := U64 p.1 ∧ VecOk (AllocOk cross) p.2

theorem child_rt : RoundTrip (ChildOk cross) (writeChild cross) (readChild cross) := pair_rt u64_rt (vec_rt (alloc_rt cross))

/-- `Segment::serialize_into` (layered/serde.rs:100-109). -/
def writeSegment (s : Segment F) : Bytes :=
  writeSizes cross s.numInputs ++ writeU64 s.numOutputs ++ writeVec (writeChild cross) s.childSegs ++ writeVec (writeGate K cross) s.gateMuls ++
    writeVec (writeGate K cross) s.gateAdds ++ writeVec (writeGate K cross) s.gateConsts ++ writeVec (writeCustom K cross) s.gateCustoms

/-- `Segment::deserialize_from` (layered/serde.rs:111-128). -/
def readSegment : Reader (Segment F) := (readSizes cross).andThen fun ni => readU64.andThen fun no => (readVec (readChild cross)).andThen fun cs =>
  (readVec (readGate K cross 2)).andThen fun ms => (readVec (readGate K cross 1)).andThen fun as => (readVec (readGate K cross 0)).andThen fun ks =>
    (readVec (readCustom K cross)).andThen fun us => ret ⟨ni, no, cs, ms, as, ks, us⟩

structure SegmentFits (s : Segment F) : Prop where
  numInputs : SizesOk cross s.numInputs
  numOutputs : U64 s.numOutputs
  childSegs : VecOk (ChildOk cross) s.childSegs
  muls : VecOk (GateOk cross 2) s.gateMuls
  adds : VecOk (GateOk cross 1) s.gateAdds
  consts : VecOk (GateOk cross 0) s.gateConsts
  customs : VecOk (CustomOk cross) s.gateCustoms

theorem segment_rt : RoundTrip (SegmentFits cross) (writeSegment K cross) (readSegment K cross) := by
  rintro ⟨ni, no, cs, ms, as, ks, us⟩ ⟨h1, h2, h3, h4, h5, h6, h7⟩ rest
  simp only at h1 h2 h3 h4 h5 h6 h7
  simp only [writeSegment, readSegment, List.append_assoc]
  rw [andThen_eq (sizes_rt cross ni h1 _), andThen_eq (u64_rt no h2 _), andThen_eq (vec_rt (child_rt cross) cs h3 _), andThen_eq (vec_rt (gate_rt K cross 2) ms h4 _),
    andThen_eq (vec_rt (gate_rt K cross 1) as h5 _), andThen_eq (vec_rt (gate_rt K cross 0) ks h6 _), andThen_eq (vec_rt (custom_rt K cross) us h7 _)]
  rfl

/-- `MAGIC` (layered/serde.rs:131). -/
def MAGIC : Nat := 3914834606642317635

/-- `Circuit::serialize_into` (layered/serde.rs:134-144). -/
def writeLayered (modulus : Nat) (c : Circuit F) : Bytes :=
  writeU64 MAGIC ++ writeU256 modulus ++ writeU64 c.numPublicInputs ++ writeU64 c.numActualOutputs ++ writeU64 c.expectedNumOutputZeroes ++
    writeVec (writeSegment K cross) c.segments ++ writeVec writeU64 c.layerIds

/-- `Circuit::deserialize_from` (layered/serde.rs:145-174). -/
def readLayered (modulus : Nat) : Reader (Circuit F) := readU64.andThen fun magic =>
  if magic ≠ MAGIC then fail
  else readU256.andThen fun m =>
    if m ≠ modulus then fail
    else readU64.andThen fun npi => readU64.andThen fun nao => readU64.andThen fun z => (readVec (readSegment K cross)).andThen fun ss =>
      (readVec readU64).andThen fun ls => ret ⟨npi, nao, z, ss, ls⟩

structure LayeredFits (c : Circuit F) : Prop where
  numPublicInputs : U64 c.numPublicInputs
  numActualOutputs : U64 c.numActualOutputs
  zeroes : U64 c.expectedNumOutputZeroes
  segments : VecOk (SegmentFits cross) c.segments
  layerIds : IdsOk c.layerIds

theorem layered_rt (modulus : Nat) (hm : modulus < 256 ^ 32) : RoundTrip (LayeredFits cross) (writeLayered K cross modulus) (readLayered K cross modulus) := by
  rintro ⟨npi, nao, z, ss, ls⟩ ⟨h1, h2, h3, h4, h5⟩ rest
  simp only at h1 h2 h3 h4 h5
  simp only [writeLayered, readLayered, List.append_assoc]
  rw [andThen_eq (u64_rt MAGIC (show MAGIC < 256 ^ 8 by unfold MAGIC; decide +kernel) _)]
  simp only [ne_eq, not_true, if_false]
  rw [andThen_eq (u256_rt modulus hm _)]
  simp only [ne_eq, not_true, if_false]
  rw [andThen_eq (u64_rt npi h1 _), andThen_eq (u64_rt nao h2 _), andThen_eq (u64_rt z h3 _), andThen_eq (vec_rt (segment_rt K cross) ss h4 _), andThen_eq (ids_rt ls h5 _)]
  rfl

/-- A stream written for another field is rejected. -/
theorem layered_wrong (m m' : Nat) (hm : m < 256 ^ 32) (h : m ≠ m') (c : Circuit F) (rest : Bytes) :
    readLayered K cross m' (writeLayered K cross m c ++ rest) = none := by
  simp only [writeLayered, readLayered, List.append_assoc]
  rw [andThen_eq (u64_rt MAGIC (show MAGIC < 256 ^ 8 by unfold MAGIC; decide +kernel) _)]
  simp only [ne_eq, not_true, if_false]
  rw [andThen_eq (u256_rt m hm _)]
  simp only [ne_eq, h, not_false_iff, if_true]; rfl

/-! ### Witnesses -/

open Verif.Witness

/-- `Witness::serialize_into` (witness.rs:326-350): always the scalar values row by row; `none` when the iterator panics. -/
def writeWitness {P : Nat} (modulus : Nat) (w : Witness P F) : Option Bytes :=
  (match w.values with
    | .scalar vs => some (vs.flatMap K.write)
    | .simd _ => (iterScalar w).map fun (rows : List (List F × List F)) => rows.flatMap fun (r : List F × List F) => r.1.flatMap K.write ++ r.2.flatMap K.write).map
  fun body => writeU64 w.num ++ writeU64 w.a ++ writeU64 w.b ++ writeU256 modulus ++ body

/-- The end of `Witness::deserialize_from` (witness.rs:312-323): conversion to SIMD form when there are several witnesses. -/
def finishWitness (P : Nat) (num a b : Nat) (vs : List F) : Reader (Witness P F) := fun s =>
  if 1 < num ∧ 1 < P then (convertToSimd ⟨num, a, b, .scalar vs⟩).map fun w => (w, s) else some (⟨num, a, b, .scalar vs⟩, s)

/-- `Witness::deserialize_from` (witness.rs:297-324); a panic of `convert_to_simd` is also `none`. -/
def readWitness (P : Nat) (modulus : Nat) : Reader (Witness P F) := readU64.andThen fun num => readU64.andThen fun a => readU64.andThen fun b =>
  readU256.andThen fun m =>
    if m ≠ modulus then fail
    else (readN K.read (num * (a + b))).andThen (finishWitness P num a b)

/-- Either representation of the rows. -/
def HoldsRows {P : Nat} (w : Witness P F) (rows : List (List F × List F)) : Prop := IsScalar w rows ∨ ∃ blocks, IsSimd w rows blocks

theorem writeWitness_eq {P : Nat} (hP : 0 < P) (modulus : Nat) (w : Witness P F) (rows : List (List F × List F)) (h : HoldsRows w rows) :
    writeWitness K modulus w = some (writeU64 w.num ++ writeU64 w.a ++ writeU64 w.b ++ writeU256 modulus ++ (flat rows).flatMap K.write) := by
  have e : ∀ rows : List (List F × List F), (rows.flatMap fun r => r.1.flatMap K.write ++ r.2.flatMap K.write) = (flat rows).flatMap K.write := by
    intro rows
    induction rows with
    | nil => rfl
    | cons r rows ih =>
      simp only [flat, List.flatMap_cons, List.flatMap_append] at ih ⊢
      rw [ih]
  rcases h with h | ⟨blocks, h⟩
  · simp only [writeWitness, h.2.2, Option.map_some]
  · have h1 := iterScalar_simd hP w rows blocks h
    simp only [writeWitness, h.2.2.1, h1, Option.map_some, e]

theorem witness_rt {P : Nat} (hP : 0 < P) (modulus : Nat) (hm : modulus < 256 ^ 32) (w : Witness P F) (rows : List (List F × List F)) (h : HoldsRows w rows)
    (hr : RowsOk w.a w.b rows) (hn : U64 w.num) (ha : U64 w.a) (hb : U64 w.b) (hab : w.a + w.b ≠ 0) :
    ∃ bytes, writeWitness K modulus w = some bytes ∧ ∀ rest, ∃ w', readWitness K P modulus (bytes ++ rest) = some (w', rest) ∧
      w'.num = w.num ∧ w'.a = w.a ∧ w'.b = w.b ∧ HoldsRows w' rows ∧ (1 < w.num ∧ 1 < P → ∃ blocks, IsSimd w' rows blocks) ∧
      (¬ (1 < w.num ∧ 1 < P) → IsScalar w' rows) := by
  refine ⟨_, writeWitness_eq K hP modulus w rows h, fun rest => ?_⟩
  have hnum : w.num = rows.length := by
    rcases h with h | ⟨b, h⟩
    · exact h.1
    · exact h.1
  have hlen : (flat rows).length = w.num * (w.a + w.b) := by rw [flat_length rows hr, hnum]
  have hrd := readN_rt K.rt (flat rows) (fun _ _ => trivial) rest
  rw [hlen] at hrd
  simp only [readWitness, List.append_assoc]
  rw [andThen_eq (u64_rt w.num hn _), andThen_eq (u64_rt w.a ha _), andThen_eq (u64_rt w.b hb _), andThen_eq (u256_rt modulus hm _)]
  simp only [ne_eq, not_true, if_false]
  rw [andThen_eq hrd]
  simp only [finishWitness]
  have hs : IsScalar (⟨w.num, w.a, w.b, .scalar (flat rows)⟩ : Witness P F) rows := ⟨hnum, hr, rfl⟩
  by_cases hc : 1 < w.num ∧ 1 < P
  · rw [if_pos hc]
    obtain ⟨w', blocks, h1, h2, h3, h4⟩ := convertToSimd_scalar hP _ rows hs hab
    exact ⟨w', by rw [h1]; rfl, by rw [h4.1, hnum], h2, h3, Or.inr ⟨blocks, h4⟩, fun _ => ⟨blocks, h4⟩, fun hn => absurd hc hn⟩
  · rw [if_neg hc]
    exact ⟨_, rfl, rfl, rfl, rfl, Or.inl hs, fun h => absurd h hc, fun _ => hs⟩

end Verif.Serde
