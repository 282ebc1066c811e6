import Verif.Serde.Layered
import Verif.Props.Examples
import Verif.Props.LayeredEx

/-!
# C25: serialisation round trips

Deserialising what was serialised returns the same value and consumes exactly the written bytes; streams of another configuration are rejected.
The field codec itself lives in the external crate `arith`; it is a parameter `K : FieldCodec F` assumed to round-trip.
-/
set_option linter.unusedSectionVars false
namespace Verif.Props
open Verif Verif.IR Verif.Layered Verif.Serde Verif.Witness

variable {F : Type} [Field F] [DecidableEq F]

/-- Source circuits: reading back `write c`, followed by any other bytes, gives `c` and leaves exactly the other bytes. -/
theorem C25_source (K : FieldCodec F) (E : Env F) (configId : Nat) (hid : configId < 2 ^ 64) (rc : RootCircuit (source E))
    (hf : RootFits (L := source E) Serde.Source.InsnOk rc) (rest : Bytes) :
    readRoot (L := source E) (Serde.Source.readInsn K) (Serde.Source.readCon E) configId
      (writeRoot (L := source E) (Serde.Source.writeInsn K) (Serde.Source.writeCon E) configId rc ++ rest) = some (rc, rest) :=
  root_rt (L := source E) _ _ _ _ configId (by unfold U64; omega) (Serde.Source.insn_rt K) (Serde.Source.con_rt E) rc hf rest

/-- Hint-normalised circuits (the same codec serves the witness solver, a wrapper of such a circuit). -/
theorem C25_hintNormalized (K : FieldCodec F) (E : Env F) (configId : Nat) (hid : configId < 2 ^ 64) (rc : RootCircuit (hintNorm E))
    (hf : RootFits (L := hintNorm E) Serde.HintNorm.InsnOk rc) (rest : Bytes) :
    readRoot (L := hintNorm E) (Serde.HintNorm.readInsn K) (Serde.HintNorm.readCon E) configId
      (writeRoot (L := hintNorm E) (Serde.HintNorm.writeInsn K) (Serde.HintNorm.writeCon E) configId rc ++ rest) = some (rc, rest) :=
  root_rt (L := hintNorm E) _ _ _ _ configId (by unfold U64; omega) (Serde.HintNorm.insn_rt K) (Serde.HintNorm.con_rt E) rc hf rest

/-- A circuit written for one configuration is rejected by a reader for another. -/
theorem C25_source_wrong_config (K : FieldCodec F) (E : Env F) (a b : Nat) (ha : a < 2 ^ 64) (hab : a ≠ b) (rc : RootCircuit (source E)) (rest : Bytes) :
    readRoot (L := source E) (Serde.Source.readInsn K) (Serde.Source.readCon E) b
      (writeRoot (L := source E) (Serde.Source.writeInsn K) (Serde.Source.writeCon E) a rc ++ rest) = none :=
  root_wrong (L := source E) _ _ _ _ a b (by unfold U64; omega) hab rc rest

theorem C25_hintNormalized_wrong_config (K : FieldCodec F) (E : Env F) (a b : Nat) (ha : a < 2 ^ 64) (hab : a ≠ b) (rc : RootCircuit (hintNorm E)) (rest : Bytes) :
    readRoot (L := hintNorm E) (Serde.HintNorm.readInsn K) (Serde.HintNorm.readCon E) b
      (writeRoot (L := hintNorm E) (Serde.HintNorm.writeInsn K) (Serde.HintNorm.writeCon E) a rc ++ rest) = none :=
  root_wrong (L := hintNorm E) _ _ _ _ a b (by unfold U64; omega) hab rc rest

/-- Layered circuits, for both input kinds. -/
theorem C25_layered (K : FieldCodec F) (cross : Bool) (modulus : Nat) (hm : modulus < 2 ^ 256) (c : Layered.Circuit F) (hf : LayeredFits cross c) (rest : Bytes) :
    readLayered K cross modulus (writeLayered K cross modulus c ++ rest) = some (c, rest) :=
  layered_rt K cross modulus (by omega) c hf rest

theorem C25_layered_wrong_field (K : FieldCodec F) (cross : Bool) (m m' : Nat) (hm : m < 2 ^ 256) (h : m ≠ m') (c : Layered.Circuit F) (rest : Bytes) :
    readLayered K cross m' (writeLayered K cross m c ++ rest) = none :=
  layered_wrong K cross m m' (by omega) h c rest

/-- Two circuits with the same bytes (even inside longer streams) are the same circuit. -/
theorem C25_layered_injective (K : FieldCodec F) (cross : Bool) (modulus : Nat) (hm : modulus < 2 ^ 256) (c d : Layered.Circuit F) (hc : LayeredFits cross c)
    (hd : LayeredFits cross d) (s t : Bytes) (h : writeLayered K cross modulus c ++ s = writeLayered K cross modulus d ++ t) : c = d ∧ s = t :=
  RoundTrip.injective (layered_rt K cross modulus (by omega)) hc hd h

/-- Witnesses: reading back gives a witness holding exactly the same rows, in SIMD form iff the reader's configuration uses SIMD for that many witnesses. -/
theorem C25_witness (K : FieldCodec F) {P : Nat} (hP : 0 < P) (modulus : Nat) (hm : modulus < 2 ^ 256) (w : Witness P F) (rows : List (List F × List F))
    (h : HoldsRows w rows) (hr : RowsOk w.a w.b rows) (hn : w.num < 2 ^ 64) (ha : w.a < 2 ^ 64) (hb : w.b < 2 ^ 64) (hab : w.a + w.b ≠ 0) :
    ∃ bytes, writeWitness K modulus w = some bytes ∧ ∀ rest, ∃ w', readWitness K P modulus (bytes ++ rest) = some (w', rest) ∧
      w'.num = w.num ∧ w'.a = w.a ∧ w'.b = w.b ∧ iterScalar w' = some rows ∧
      (1 < w.num ∧ 1 < P → ∃ blocks, IsSimd w' rows blocks) ∧ (¬ (1 < w.num ∧ 1 < P) → IsScalar w' rows) := by
  obtain ⟨bytes, h1, h2⟩ := witness_rt K hP modulus (by omega) w rows h hr (by unfold U64; omega) (by unfold U64; omega) (by unfold U64; omega) hab
  refine ⟨bytes, h1, fun rest => ?_⟩
  obtain ⟨w', h3, h4, h5, h6, h7, h8, h9⟩ := h2 rest
  refine ⟨w', h3, h4, h5, h6, ?_, h8, h9⟩
  rcases h7 with h7 | ⟨blocks, h7⟩
  · exact iterScalar_scalar w' rows h7
  · exact iterScalar_simd hP w' rows blocks h7

/-! ### Non-vacuity -/

/-- A concrete field codec: one little-endian 64-bit word per element of `F7`. -/
def codec7 : FieldCodec Ex.F7 where
  write x := writeU64 (ZMod.val x)
  read := readU64.andThen fun n => ret (n : Ex.F7)
  rt := by
    intro a _ rest
    have ha : U64 (ZMod.val a) := by
      have := ZMod.val_lt a
      unfold U64; omega
    refine (andThen_eq (u64_rt _ ha rest)).trans ?_
    simp only [ret, ZMod.natCast_val, ZMod.cast_id', id]

instance decU64 (n : Nat) : Decidable (U64 n) := Nat.decLt _ _

example (rest : Bytes) : readRoot (L := source Ex.env) (Serde.Source.readInsn codec7) (Serde.Source.readCon Ex.env) 3
    (writeRoot (L := source Ex.env) (Serde.Source.writeInsn codec7) (Serde.Source.writeCon Ex.env) 3 Ex.srcRc ++ rest) = some (Ex.srcRc, rest) := by
  refine C25_source codec7 Ex.env 3 (by decide) Ex.srcRc ?_ rest
  simp [RootFits, Ex.srcRc, VecOk, CircuitFits, Serde.Source.InsnOk, LinCombOk, CoefOk, IdsOk, U64]
  intro a b h; omega

example (rest : Bytes) : readLayered codec7 false 7 (writeLayered codec7 false 7 LEx.circ ++ rest) = some (LEx.circ, rest) := by
  refine C25_layered codec7 false 7 (by decide) LEx.circ ?_ rest
  constructor <;> simp [LEx.circ, LEx.seg0, LEx.seg1, LEx.seg2, VecOk, IdsOk, U64, GateOk, CustomOk, AllocOk, ChildOk, InputOk, SizesOk, CoefOk]
  refine ⟨?_, ?_, ?_⟩ <;> constructor <;>
    simp [VecOk, IdsOk, U64, GateOk, CustomOk, AllocOk, ChildOk, InputOk, SizesOk, CoefOk]

end Verif.Props
