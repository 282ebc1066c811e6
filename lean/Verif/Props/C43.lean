import Verif.Std.Sha256Root
/-!
C43: the GF(2) SHA-256 gadget computes SHA-256.

The specification is FIPS 180-4 on `BitVec 32` (`Verif.Fips`, written without reference to the gadget).  `enc` writes a bit
string as elements of GF(2); `bits w` are the 32 bits of `w`, most significant first.
-/
namespace Verif.Props
open Verif.Std.Sha Verif.Fips

/-- Every value of the input variables is a bit string, so quantifying over bit strings loses nothing. -/
theorem C43_inputs (data : List Bit) : ∃ msg, data = enc msg := by
  refine ⟨data.map fun b => decide (b = 1), ?_⟩
  rw [enc, List.map_map]
  conv_lhs => rw [← List.map_id data]
  apply List.map_congr_left
  intro b _
  have h : ∀ b : Bit, id b = (encB ∘ fun b => decide (b = 1)) b := by decide
  exact h b

/-- Adders: all three compute addition modulo 2^32, for all words (and all constants). -/
theorem C43_adders (x y : W32) (c : Nat) :
    add (bits x) (bits y) = bits (x + y) ∧ addVanilla (bits x) (bits y) = bits (x + y) ∧
    addConst (bits x) c = bits (x + BitVec.ofNat 32 c) :=
  ⟨add_bits x y, addVanilla_bits x y, addConst_bits x c⟩

/-- `sum_all` adds any positive number of words. -/
theorem C43_sumAll (l : List W32) (h : l ≠ []) : sumAll (l.map bits) = bits l.sum := sumAll_bits l h

/-- Rotations and shifts, by every amount the operation admits. -/
theorem C43_rotations (x : W32) (k : Nat) :
    (k < 32 → rotateRight (bits x) k = bits (x.rotateRight k)) ∧ (k ≤ 32 → shiftRight (bits x) k = bits (x >>> k)) :=
  ⟨rotate_bits x, shift_bits x⟩

/-- The boolean functions and the sigmas. -/
theorem C43_functions (x y z : W32) :
    Verif.Std.Sha.xor (bits x) (bits y) = bits (x ^^^ y) ∧ Verif.Std.Sha.and (bits x) (bits y) = bits (x &&& y) ∧
    Verif.Std.Sha.not (bits x) = bits (~~~x) ∧
    ch (bits x) (bits y) (bits z) = bits (Ch x y z) ∧ maj (bits x) (bits y) (bits z) = bits (Maj x y z) ∧
    lowerSigma0 (bits x) = bits (smallSigma0 x) ∧ lowerSigma1 (bits x) = bits (smallSigma1 x) ∧
    capitalSigma0 (bits x) = bits (bigSigma0 x) ∧ capitalSigma1 (bits x) = bits (bigSigma1 x) :=
  ⟨xor_bits x y, and_bits x y, not_bits x, ch_bits x y z, maj_bits x y z, lowerSigma0_bits x, lowerSigma1_bits x,
    capitalSigma0_bits x, capitalSigma1_bits x⟩

/-- The compression function on any chaining value and any block. -/
theorem C43_compress (s : Vars) (chunk : List Bool) (h : chunk.length = 512) :
    compress (encS s) (enc chunk) = encS (block s (messageWord chunk 0)) := compress_enc s chunk h

/-- The whole hash, for every message whose length `l` satisfies `(l + 1) mod 512 ≤ 448`.  What is missing from the full property
is the other lengths, for which it is false (`C43_padding_violated`). -/
theorem C43_hash_partial (msg : List Bool) (h : (msg.length + 1) % 512 ≤ 448) :
    ∃ d, finalize (enc msg) = some (enc d) ∧ IsSha256 msg d := finalize_eq msg h

/-- The digest specified is unique, so `C43_hash_partial` determines the output. -/
theorem C43_digest_unique {msg d e : List Bool} (h : IsSha256 msg d) (g : IsSha256 msg e) : d = e := by
  obtain ⟨k, hk, rfl⟩ := h
  obtain ⟨j, hj, rfl⟩ := g
  rw [Nat.le_antisymm (hk.2 j hj.1) (hj.2 k hk.1)]

/-- For all other lengths `finalize` panics (subtraction of `usize` below zero), although SHA-256 is defined. -/
theorem C43_padding_violated (msg : List Bool) (h : 448 < (msg.length + 1) % 512) :
    finalize (enc msg) = none ∧ ∃ d, IsSha256 msg d := by
  constructor
  · rw [finalize, pad, if_neg (by rw [enc_length]; omega)]
  · exact ⟨_, 448 + 512 - (msg.length + 1) % 512, ⟨by omega, fun j hj => by omega⟩, rfl⟩

/-- The hypothesis of `C43_padding_violated` is met, for example by 448-bit messages (56 bytes). -/
example : 448 < ((List.replicate 448 true).length + 1) % 512 := by rw [List.length_replicate]; decide

/-- The bits of "abc" and of its digest `ba7816bf 8f01cfea 414140de 5dae2223 b00361a3 96177a9c b410ff61 f20015ad`. -/
def abcBits : List Bool := (List.range 24).map fun i => (0x616263 : Nat).testBit (23 - i)
def abcDigest : List Bool :=
  (List.range 256).map fun i => (0xba7816bf8f01cfea414140de5dae2223b00361a396177a9cb410ff61f20015ad : Nat).testBit (255 - i)

theorem C43_abc : finalize (enc abcBits) = some (enc abcDigest) := by decide +kernel

theorem enc_inj {a b : List Bool} (h : enc a = enc b) : a = b := by
  rw [enc, enc] at h
  exact List.map_injective_iff.2 (fun _ _ => encB_inj) h

/-- The specification gives the published test vector for "abc". -/
example : IsSha256 abcBits abcDigest := by
  obtain ⟨d, h1, h2⟩ := C43_hash_partial abcBits (by decide)
  rw [C43_abc, Option.some.injEq] at h1
  rw [enc_inj h1]; exact h2

end Verif.Props
