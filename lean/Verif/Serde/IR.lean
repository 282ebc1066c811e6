import Verif.Serde.Codec
import Verif.IR.Langs

/-!
# Serialisation of source and hint-normalised circuits

`circuit/ir/common/serde.rs`, `circuit/ir/source/serde.rs`, `circuit/ir/hint_normalized/serde.rs`, `expr.rs:470-499`, `layered/serde.rs:13-48`.
-/

set_option linter.unusedSectionVars false
set_option linter.unusedSimpArgs false

namespace Verif.Serde

open Verif.IR

variable {F : Type} [Field F] [DecidableEq F]

/-- Field elements: the codec is in the external crate `arith`; we assume it is a round trip. -/
structure FieldCodec (F : Type) where
  write : F → Bytes
  read : Reader F
  rt : RoundTrip (fun _ => True) write read

variable (K : FieldCodec F)

/-! ### Coefficients and linear combinations -/

/-- `Coef::serialize_into` (layered/serde.rs:14-29). -/
def writeCoef : Coef F → Bytes
  | .const c => writeU8 1 ++ K.write c
  | .random => writeU8 2
  | .pub i => writeU8 3 ++ writeU64 i

/-- `Coef::deserialize_from` (layered/serde.rs:31-48). -/
def readCoef : Reader (Coef F) := readU8.andThen fun t =>
  match t with
  | 1 => K.read.andThen fun c => ret (.const c)
  | 2 => ret .random
  | 3 => readU64.andThen fun i => ret (.pub i)
  | _ => fail

def CoefOk : Coef F → Prop
  | .pub i => U64 i
  | _ => True

theorem coef_rt : RoundTrip CoefOk (writeCoef K) (readCoef K) := by
  intro c hc rest
  cases c with
  | const c =>
    simp only [writeCoef, readCoef, List.append_assoc]
    rw [andThen_eq (u8_rt 1 (by decide) _)]
    exact andThen_eq (K.rt c trivial _)
  | random =>
    simp only [writeCoef, readCoef]
    rw [andThen_eq (u8_rt 2 (by decide) _)]; rfl
  | pub i =>
    simp only [writeCoef, readCoef, List.append_assoc]
    rw [andThen_eq (u8_rt 3 (by decide) _)]
    exact andThen_eq (u64_rt i hc _)

/-- `LinComb::serialize_into` (expr.rs:471-481): the number of terms, all variables, all coefficients, the constant. -/
def writeLinComb (l : LinComb F) : Bytes :=
  writeU64 l.terms.length ++ (l.terms.flatMap fun t => writeU64 t.1) ++ (l.terms.flatMap fun t => K.write t.2) ++ K.write l.const

/-- `LinComb::deserialize_from` (expr.rs:483-498). -/
def readLinComb : Reader (LinComb F) := readU64.andThen fun n => (readN readU64 n).andThen fun vars => (readN K.read n).andThen fun coefs =>
  K.read.andThen fun c => ret ⟨vars.zip coefs, c⟩

def LinCombOk (l : LinComb F) : Prop := VecOk (fun t : Nat × F => U64 t.1) l.terms

theorem linComb_rt : RoundTrip LinCombOk (writeLinComb K) (readLinComb K) := by
  rintro ⟨ts, c⟩ ⟨h1, h2⟩ rest
  simp only at h1 h2
  simp only [writeLinComb, readLinComb, List.append_assoc]
  rw [andThen_eq (u64_rt _ h1 _)]
  have e1 : ts.flatMap (fun t => writeU64 t.1) = (ts.map Prod.fst).flatMap writeU64 := by rw [List.flatMap_map]
  have e2 : ts.flatMap (fun t => K.write t.2) = (ts.map Prod.snd).flatMap K.write := by rw [List.flatMap_map]
  have r1 := readN_rt u64_rt (ts.map Prod.fst) (by simpa using fun a b h => h2 (a, b) h) ((ts.flatMap fun t => K.write t.2) ++ (K.write c ++ rest))
  have r2 := readN_rt K.rt (ts.map Prod.snd) (fun _ _ => trivial) (K.write c ++ rest)
  rw [List.length_map] at r1 r2
  rw [← e1] at r1
  rw [← e2] at r2
  rw [andThen_eq r1, andThen_eq r2, andThen_eq (K.rt c trivial _)]
  have : (ts.map Prod.fst).zip (ts.map Prod.snd) = ts := by
    rw [List.zip_map']; simp
  rw [this]; rfl

/-- Vectors of variable ids. -/
abbrev IdsOk : List Nat → Prop := VecOk U64

theorem ids_rt : RoundTrip IdsOk (writeVec writeU64) (readVec readU64) := vec_rt u64_rt

/-! ### Source instructions -/

namespace Source

open Verif.IR.Source

/-- `op.clone() as u8` for `BoolBinOpType` (source/mod.rs:69-74). -/
def boolOpTag : BoolOp → Nat
  | .xor => 1
  | .or => 2
  | .and => 3

/-- (source/serde.rs:110-120) -/
def readBoolOp : Reader BoolOp := readU8.andThen fun t =>
  match t with
  | 1 => ret .xor
  | 2 => ret .or
  | 3 => ret .and
  | _ => fail

theorem boolOp_rt : RoundTrip (fun _ => True) (fun o => writeU8 (boolOpTag o)) readBoolOp := by
  intro o _ rest
  simp only [readBoolOp]
  cases o <;> (rw [andThen_eq (u8_rt _ (by decide) _)]; rfl)

/-- `op.clone() as u8` for `UnconstrainedBinOpType` (source/mod.rs:76-95). -/
def uOpTag : UOp → Nat
  | .div => 1 | .pow => 2 | .intDiv => 3 | .mod => 4 | .shiftL => 5 | .shiftR => 6 | .lesserEq => 7 | .greaterEq => 8 | .lesser => 9 | .greater => 10
  | .eq => 11 | .notEq => 12 | .boolOr => 13 | .boolAnd => 14 | .bitOr => 15 | .bitAnd => 16 | .bitXor => 17

/-- (source/serde.rs:141-166) -/
def readUOp : Reader UOp := readU8.andThen fun t =>
  match t with
  | 1 => ret .div | 2 => ret .pow | 3 => ret .intDiv | 4 => ret .mod | 5 => ret .shiftL | 6 => ret .shiftR | 7 => ret .lesserEq | 8 => ret .greaterEq
  | 9 => ret .lesser | 10 => ret .greater | 11 => ret .eq | 12 => ret .notEq | 13 => ret .boolOr | 14 => ret .boolAnd | 15 => ret .bitOr | 16 => ret .bitAnd
  | 17 => ret .bitXor
  | _ => fail

theorem uOp_rt : RoundTrip (fun _ => True) (fun o => writeU8 (uOpTag o)) readUOp := by
  intro o _ rest
  simp only [readUOp]
  cases o <;> (rw [andThen_eq (u8_rt _ (by decide) _)]; rfl)

/-- `Instruction::serialize_into` (source/serde.rs:10-92). -/
def writeInsn : Insn F → Bytes
  | .linComb l => writeU8 1 ++ writeLinComb K l
  | .mul xs => writeU8 2 ++ writeVec writeU64 xs
  | .div x y c => writeU8 3 ++ writeU64 x ++ writeU64 y ++ writeBool c
  | .boolBinOp x y o => writeU8 4 ++ writeU64 x ++ writeU64 y ++ writeU8 (boolOpTag o)
  | .isZero x => writeU8 5 ++ writeU64 x
  | .commit xs => writeU8 6 ++ writeVec writeU64 xs
  | .hint id xs n => writeU8 7 ++ writeU64 id ++ writeVec writeU64 xs ++ writeU64 n
  | .constantLike c => writeU8 8 ++ writeCoef K c
  | .call c xs n => writeU8 9 ++ writeU64 c ++ writeVec writeU64 xs ++ writeU64 n
  | .unconstrainedBinOp x y o => writeU8 10 ++ writeU64 x ++ writeU64 y ++ writeU8 (uOpTag o)
  | .unconstrainedSelect c t f => writeU8 11 ++ writeU64 c ++ writeU64 t ++ writeU64 f
  | .customGate g xs => writeU8 12 ++ writeU64 g ++ writeVec writeU64 xs
  | .toBinary x n => writeU8 13 ++ writeU64 x ++ writeU64 n

/-- `Instruction::deserialize_from` (source/serde.rs:94-184). -/
def readInsn : Reader (Insn F) := readU8.andThen fun t =>
  match t with
  | 1 => (readLinComb K).andThen fun l => ret (.linComb l)
  | 2 => (readVec readU64).andThen fun xs => ret (.mul xs)
  | 3 => readU64.andThen fun x => readU64.andThen fun y => readBool.andThen fun c => ret (.div x y c)
  | 4 => readU64.andThen fun x => readU64.andThen fun y => readBoolOp.andThen fun o => ret (.boolBinOp x y o)
  | 5 => readU64.andThen fun x => ret (.isZero x)
  | 6 => (readVec readU64).andThen fun xs => ret (.commit xs)
  | 7 => readU64.andThen fun id => (readVec readU64).andThen fun xs => readU64.andThen fun n => ret (.hint id xs n)
  | 8 => (readCoef K).andThen fun c => ret (.constantLike c)
  | 9 => readU64.andThen fun c => (readVec readU64).andThen fun xs => readU64.andThen fun n => ret (.call c xs n)
  | 10 => readU64.andThen fun x => readU64.andThen fun y => readUOp.andThen fun o => ret (.unconstrainedBinOp x y o)
  | 11 => readU64.andThen fun c => readU64.andThen fun t => readU64.andThen fun f => ret (.unconstrainedSelect c t f)
  | 12 => readU64.andThen fun g => (readVec readU64).andThen fun xs => ret (.customGate g xs)
  | 13 => readU64.andThen fun x => readU64.andThen fun n => ret (.toBinary x n)
  | _ => fail

/-- All numbers fit into 64 bits. -/
def InsnOk : Insn F → Prop
  | .linComb l => LinCombOk l
  | .mul xs => IdsOk xs
  | .div x y _ => U64 x ∧ U64 y
  | .boolBinOp x y _ => U64 x ∧ U64 y
  | .isZero x => U64 x
  | .commit xs => IdsOk xs
  | .hint id xs n => U64 id ∧ IdsOk xs ∧ U64 n
  | .constantLike c => CoefOk c
  | .call c xs n => U64 c ∧ IdsOk xs ∧ U64 n
  | .unconstrainedBinOp x y _ => U64 x ∧ U64 y
  | .unconstrainedSelect c t f => U64 c ∧ U64 t ∧ U64 f
  | .customGate g xs => U64 g ∧ IdsOk xs
  | .toBinary x n => U64 x ∧ U64 n

theorem insn_rt : RoundTrip InsnOk (writeInsn K) (readInsn K) := by
  intro i hi rest
  cases i with
  | linComb l => simp only [writeInsn, readInsn, List.append_assoc]; rw [andThen_eq (u8_rt 1 (by decide) _)]; exact andThen_eq (linComb_rt K l hi _)
  | mul xs => simp only [writeInsn, readInsn, List.append_assoc]; rw [andThen_eq (u8_rt 2 (by decide) _)]; exact andThen_eq (ids_rt xs hi _)
  | div x y c =>
    simp only [writeInsn, readInsn, List.append_assoc]
    rw [andThen_eq (u8_rt 3 (by decide) _)]
    simp only
    rw [andThen_eq (u64_rt x hi.1 _), andThen_eq (u64_rt y hi.2 _)]
    exact andThen_eq (bool_rt c trivial _)
  | boolBinOp x y o =>
    simp only [writeInsn, readInsn, List.append_assoc]
    rw [andThen_eq (u8_rt 4 (by decide) _)]
    simp only
    rw [andThen_eq (u64_rt x hi.1 _), andThen_eq (u64_rt y hi.2 _)]
    exact andThen_eq (boolOp_rt o trivial _)
  | isZero x => simp only [writeInsn, readInsn, List.append_assoc]; rw [andThen_eq (u8_rt 5 (by decide) _)]; exact andThen_eq (u64_rt x hi _)
  | commit xs => simp only [writeInsn, readInsn, List.append_assoc]; rw [andThen_eq (u8_rt 6 (by decide) _)]; exact andThen_eq (ids_rt xs hi _)
  | hint id xs n =>
    simp only [writeInsn, readInsn, List.append_assoc]
    rw [andThen_eq (u8_rt 7 (by decide) _)]
    simp only
    rw [andThen_eq (u64_rt id hi.1 _), andThen_eq (ids_rt xs hi.2.1 _)]
    exact andThen_eq (u64_rt n hi.2.2 _)
  | constantLike c => simp only [writeInsn, readInsn, List.append_assoc]; rw [andThen_eq (u8_rt 8 (by decide) _)]; exact andThen_eq (coef_rt K c hi _)
  | call c xs n =>
    simp only [writeInsn, readInsn, List.append_assoc]
    rw [andThen_eq (u8_rt 9 (by decide) _)]
    simp only
    rw [andThen_eq (u64_rt c hi.1 _), andThen_eq (ids_rt xs hi.2.1 _)]
    exact andThen_eq (u64_rt n hi.2.2 _)
  | unconstrainedBinOp x y o =>
    simp only [writeInsn, readInsn, List.append_assoc]
    rw [andThen_eq (u8_rt 10 (by decide) _)]
    simp only
    rw [andThen_eq (u64_rt x hi.1 _), andThen_eq (u64_rt y hi.2 _)]
    exact andThen_eq (uOp_rt o trivial _)
  | unconstrainedSelect c t f =>
    simp only [writeInsn, readInsn, List.append_assoc]
    rw [andThen_eq (u8_rt 11 (by decide) _)]
    simp only
    rw [andThen_eq (u64_rt c hi.1 _), andThen_eq (u64_rt t hi.2.1 _)]
    exact andThen_eq (u64_rt f hi.2.2 _)
  | customGate g xs =>
    simp only [writeInsn, readInsn, List.append_assoc]
    rw [andThen_eq (u8_rt 12 (by decide) _)]
    simp only
    rw [andThen_eq (u64_rt g hi.1 _)]
    exact andThen_eq (ids_rt xs hi.2 _)
  | toBinary x n =>
    simp only [writeInsn, readInsn, List.append_assoc]
    rw [andThen_eq (u8_rt 13 (by decide) _)]
    simp only
    rw [andThen_eq (u64_rt x hi.1 _)]
    exact andThen_eq (u64_rt n hi.2 _)

/-- `typ as u8` (source/mod.rs:103-108). -/
def conTag : Con → Nat
  | .zero => 1
  | .nonZero => 2
  | .bool => 3

/-- `Constraint::serialize_into` (source/serde.rs:188-192). -/
def writeCon (E : Env F) (k : Constraint (source E)) : Bytes := writeU8 (conTag k.typ) ++ writeU64 k.var

/-- `Constraint::deserialize_from` (source/serde.rs:194-209). -/
def readCon (E : Env F) : Reader (Constraint (source E)) := readU8.andThen fun t =>
  match t with
  | 1 => readU64.andThen fun v => ret ⟨Con.zero, v⟩
  | 2 => readU64.andThen fun v => ret ⟨Con.nonZero, v⟩
  | 3 => readU64.andThen fun v => ret ⟨Con.bool, v⟩
  | _ => fail

theorem con_rt (E : Env F) : RoundTrip (fun k => U64 k.var) (writeCon E) (readCon E) := by
  rintro ⟨t, v⟩ hv rest
  simp only [writeCon, readCon, List.append_assoc]
  have hv' : U64 v := hv
  cases t with
  | zero => exact (andThen_eq (u8_rt 1 (by decide) _)).trans (andThen_eq (u64_rt v hv' _))
  | nonZero => exact (andThen_eq (u8_rt 2 (by decide) _)).trans (andThen_eq (u64_rt v hv' _))
  | bool => exact (andThen_eq (u8_rt 3 (by decide) _)).trans (andThen_eq (u64_rt v hv' _))

end Source

/-! ### Hint-normalised instructions -/

namespace HintNorm

open Verif.IR.HintNorm

/-- `Instruction::serialize_into` (hint_normalized/serde.rs:10-53). -/
def writeInsn : Insn F → Bytes
  | .linComb l => writeU8 1 ++ writeLinComb K l
  | .mul xs => writeU8 2 ++ writeVec writeU64 xs
  | .hint id xs n => writeU8 3 ++ writeU64 id ++ writeVec writeU64 xs ++ writeU64 n
  | .constantLike c => writeU8 4 ++ writeCoef K c
  | .call c xs n => writeU8 5 ++ writeU64 c ++ writeVec writeU64 xs ++ writeU64 n
  | .customGate g xs => writeU8 6 ++ writeU64 g ++ writeVec writeU64 xs

/-- `Instruction::deserialize_from` (hint_normalized/serde.rs:54-86). -/
def readInsn : Reader (Insn F) := readU8.andThen fun t =>
  match t with
  | 1 => (readLinComb K).andThen fun l => ret (.linComb l)
  | 2 => (readVec readU64).andThen fun xs => ret (.mul xs)
  | 3 => readU64.andThen fun id => (readVec readU64).andThen fun xs => readU64.andThen fun n => ret (.hint id xs n)
  | 4 => (readCoef K).andThen fun c => ret (.constantLike c)
  | 5 => readU64.andThen fun c => (readVec readU64).andThen fun xs => readU64.andThen fun n => ret (.call c xs n)
  | 6 => readU64.andThen fun g => (readVec readU64).andThen fun xs => ret (.customGate g xs)
  | _ => fail

def InsnOk : Insn F → Prop
  | .linComb l => LinCombOk l
  | .mul xs => IdsOk xs
  | .hint id xs n => U64 id ∧ IdsOk xs ∧ U64 n
  | .constantLike c => CoefOk c
  | .call c xs n => U64 c ∧ IdsOk xs ∧ U64 n
  | .customGate g xs => U64 g ∧ IdsOk xs

theorem insn_rt : RoundTrip InsnOk (writeInsn K) (readInsn K) := by
  intro i hi rest
  cases i with
  | linComb l => simp only [writeInsn, readInsn, List.append_assoc]; rw [andThen_eq (u8_rt 1 (by decide) _)]; exact andThen_eq (linComb_rt K l hi _)
  | mul xs => simp only [writeInsn, readInsn, List.append_assoc]; rw [andThen_eq (u8_rt 2 (by decide) _)]; exact andThen_eq (ids_rt xs hi _)
  | hint id xs n =>
    simp only [writeInsn, readInsn, List.append_assoc]
    rw [andThen_eq (u8_rt 3 (by decide) _)]
    simp only
    rw [andThen_eq (u64_rt id hi.1 _), andThen_eq (ids_rt xs hi.2.1 _)]
    exact andThen_eq (u64_rt n hi.2.2 _)
  | constantLike c => simp only [writeInsn, readInsn, List.append_assoc]; rw [andThen_eq (u8_rt 4 (by decide) _)]; exact andThen_eq (coef_rt K c hi _)
  | call c xs n =>
    simp only [writeInsn, readInsn, List.append_assoc]
    rw [andThen_eq (u8_rt 5 (by decide) _)]
    simp only
    rw [andThen_eq (u64_rt c hi.1 _), andThen_eq (ids_rt xs hi.2.1 _)]
    exact andThen_eq (u64_rt n hi.2.2 _)
  | customGate g xs =>
    simp only [writeInsn, readInsn, List.append_assoc]
    rw [andThen_eq (u8_rt 6 (by decide) _)]
    simp only
    rw [andThen_eq (u64_rt g hi.1 _)]
    exact andThen_eq (ids_rt xs hi.2 _)

/-- `RawConstraint = usize` (common/mod.rs:64). -/
def writeCon (E : Env F) (k : Constraint (hintNorm E)) : Bytes := writeU64 k.var
def readCon (E : Env F) : Reader (Constraint (hintNorm E)) := readU64.andThen fun v => ret ⟨(), v⟩

theorem con_rt (E : Env F) : RoundTrip (fun k => U64 k.var) (writeCon E) (readCon E) := by
  rintro ⟨t, v⟩ hv rest
  exact andThen_eq (u64_rt v hv _)

end HintNorm

/-! ### Circuits -/

section
variable {L : Lang F} (wi : L.Insn → Bytes) (ri : Reader L.Insn) (wc : Constraint L → Bytes) (rc : Reader (Constraint L))

/-- `Circuit::serialize_into` (common/serde.rs:16-22). -/
def writeCircuit (c : Circuit L) : Bytes := writeVec wi c.instructions ++ writeVec wc c.constraints ++ writeVec writeU64 c.outputs ++ writeU64 c.numInputs

/-- `Circuit::deserialize_from` (common/serde.rs:23-34). -/
def readCircuit : Reader (Circuit L) := (readVec ri).andThen fun is => (readVec rc).andThen fun cs => (readVec readU64).andThen fun os => readU64.andThen fun n =>
  ret ⟨is, cs, os, n⟩

/-- All numbers of a circuit fit into 64 bits. -/
def CircuitFits (okI : L.Insn → Prop) (c : Circuit L) : Prop :=
  VecOk okI c.instructions ∧ VecOk (fun k => U64 k.var) c.constraints ∧ IdsOk c.outputs ∧ U64 c.numInputs

theorem circuit_rt {okI : L.Insn → Prop} (hi : RoundTrip okI wi ri) (hc : RoundTrip (fun k => U64 k.var) wc rc) :
    RoundTrip (CircuitFits okI) (writeCircuit wi wc) (readCircuit ri rc) := by
  rintro ⟨is, cs, os, n⟩ ⟨h1, h2, h3, h4⟩ rest
  simp only [writeCircuit, readCircuit, List.append_assoc]
  rw [andThen_eq (vec_rt hi is h1 _), andThen_eq (vec_rt hc cs h2 _), andThen_eq (ids_rt os h3 _), andThen_eq (u64_rt n h4 _)]
  rfl

/-- `RootCircuit::serialize_into` (common/serde.rs:42-49). -/
def writeRoot (configId : Nat) (r : RootCircuit L) : Bytes :=
  writeU64 configId ++ writeU64 r.numPublicInputs ++ writeU64 r.expectedNumOutputZeroes ++ writeMap (writeCircuit wi wc) r.circuits

/-- `RootCircuit::deserialize_from` (common/serde.rs:51-68). -/
def readRoot (configId : Nat) : Reader (RootCircuit L) := readU64.andThen fun id =>
  if id ≠ configId then fail
  else readU64.andThen fun npi => readU64.andThen fun z => (readMap (readCircuit ri rc)).andThen fun m => ret ⟨npi, z, m⟩

/-- All numbers of a root circuit fit into 64 bits, and the map has each key once (as every `HashMap`). -/
def RootFits (okI : L.Insn → Prop) (r : RootCircuit L) : Prop :=
  U64 r.numPublicInputs ∧ U64 r.expectedNumOutputZeroes ∧ (r.circuits.map (·.1)).Nodup ∧ VecOk (fun p : Nat × Circuit L => U64 p.1 ∧ CircuitFits okI p.2) r.circuits

theorem root_rt {okI : L.Insn → Prop} (configId : Nat) (hid : U64 configId) (hi : RoundTrip okI wi ri) (hc : RoundTrip (fun k => U64 k.var) wc rc) :
    RoundTrip (RootFits okI) (writeRoot wi wc configId) (readRoot ri rc configId) := by
  rintro ⟨npi, z, m⟩ ⟨h1, h2, h3, h4⟩ rest
  simp only [writeRoot, readRoot, List.append_assoc]
  rw [andThen_eq (u64_rt configId hid _)]
  simp only [ne_eq, not_true, if_false]
  rw [andThen_eq (u64_rt npi h1 _), andThen_eq (u64_rt z h2 _), andThen_eq (map_rt (circuit_rt wi ri wc rc hi hc) m ⟨h3, h4⟩ _)]
  rfl

/-- A stream written for another field configuration is rejected. -/
theorem root_wrong (a b : Nat) (ha : U64 a) (h : a ≠ b) (r : RootCircuit L) (rest : Bytes) : readRoot ri rc b (writeRoot wi wc a r ++ rest) = none := by
  simp only [writeRoot, readRoot, List.append_assoc]
  rw [andThen_eq (u64_rt a ha _), if_pos h]; rfl

end

end Verif.Serde
