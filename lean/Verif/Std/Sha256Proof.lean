import Verif.Std.Sha256
import Verif.Std.Sha256Spec
import Mathlib.Tactic.Ring
/-!
The GF(2) SHA-256 gadget computes SHA-256.
-/
set_option linter.unusedSimpArgs false
namespace Verif.Std.Sha
open Verif.Fips

def encB (b : Bool) : Bit := if b then 1 else 0

/-- Bits as field elements. -/
def enc (l : List Bool) : List Bit := l.map encB

/-- A word as field elements, most significant bit first. -/
def bits (w : W32) : Word := enc (wordBits w)

@[simp] theorem enc_length (l : List Bool) : (enc l).length = l.length := by simp [enc]
@[simp] theorem wordBits_length (w : W32) : (wordBits w).length = 32 := by simp [wordBits]
@[simp] theorem bits_length (w : W32) : (bits w).length = 32 := by simp [bits]
theorem enc_append (a b : List Bool) : enc (a ++ b) = enc a ++ enc b := by simp [enc]
theorem enc_reverse (a : List Bool) : enc a.reverse = (enc a).reverse := by simp [enc]
theorem enc_take (n : Nat) (a : List Bool) : enc (a.take n) = (enc a).take n := by simp [enc, List.map_take]
theorem enc_drop (n : Nat) (a : List Bool) : enc (a.drop n) = (enc a).drop n := by simp [enc, List.map_drop]
theorem encB_inj : ∀ {a b : Bool}, encB a = encB b → a = b := by decide

theorem wordBits_get (w : W32) {i : Nat} (h : i < 32) : (wordBits w)[i]? = some (w.getMsbD i) := by
  simp only [wordBits, List.getElem?_map, List.getElem?_range h, Option.map_some, BitVec.getMsbD_eq_getLsbD, h, decide_true, Bool.true_and]

/-- Two lists of booleans of length 32 agreeing as bits of words. -/
theorem wordBits_ext {l : List Bool} {w : W32} (hl : l.length = 32) (h : ∀ i < 32, l[i]? = some (w.getMsbD i)) : l = wordBits w := by
  apply List.ext_getElem?
  intro i
  by_cases hi : i < 32
  · rw [h i hi, wordBits_get w hi]
  · rw [List.getElem?_eq_none (by omega), List.getElem?_eq_none (by simp; omega)]

theorem zipWith_enc (f : Bit → Bit → Bit) (g : Bool → Bool → Bool) (h : ∀ a b, f (encB a) (encB b) = encB (g a b)) (a b : List Bool) :
    List.zipWith f (enc a) (enc b) = enc (List.zipWith g a b) := by
  induction a generalizing b with
  | nil => simp [enc]
  | cons x a ih => cases b with
    | nil => simp [enc]
    | cons y b => simp only [enc, List.map_cons, List.zipWith_cons_cons, h] at ih ⊢; rw [ih]

theorem zipWith_wordBits (g : Bool → Bool → Bool) (x y z : W32) (h : ∀ i < 32, g (x.getMsbD i) (y.getMsbD i) = z.getMsbD i) :
    List.zipWith g (wordBits x) (wordBits y) = wordBits z := by
  apply wordBits_ext (by simp)
  intro i hi
  rw [List.getElem?_zipWith, wordBits_get x hi, wordBits_get y hi]; simp [h i hi]

theorem xor_bits (x y : W32) : xor (bits x) (bits y) = bits (x ^^^ y) := by
  rw [xor, bits, bits, zipWith_enc _ Bool.xor (by decide), zipWith_wordBits _ x y (x ^^^ y) (by intro i _; simp)]; rfl

theorem and_bits (x y : W32) : and (bits x) (bits y) = bits (x &&& y) := by
  rw [and, bits, bits, zipWith_enc _ Bool.and (by decide), zipWith_wordBits _ x y (x &&& y) (by intro i _; simp)]; rfl

theorem not_bits (x : W32) : not (bits x) = bits (~~~x) := by
  have h1 : ∀ l : List Bool, not (enc l) = enc (l.map Bool.not) := by
    intro l
    simp only [not, enc, List.map_map]
    apply List.map_congr_left
    intro b _; cases b <;> rfl
  rw [bits, h1, wordBits_ext (l := (wordBits x).map Bool.not) (w := ~~~x) (by simp) ?_]; rfl
  intro i hi
  rw [List.getElem?_map, wordBits_get x hi]; simp [hi]

theorem rotate_bits (x : W32) {k : Nat} (hk : k < 32) : rotateRight (bits x) k = bits (x.rotateRight k) := by
  rw [rotateRight, bits, ← enc_drop, ← enc_take, ← enc_append, bits]
  congr 1
  apply wordBits_ext (by simp)
  intro i hi
  rw [BitVec.getMsbD_rotateRight, Nat.mod_eq_of_lt hk]
  by_cases h : i < k
  · rw [List.getElem?_append_left (by simp; omega), List.getElem?_drop, wordBits_get x (by omega)]
    simp only [hi, decide_true, Bool.true_and, h, if_true]
    rw [Nat.mod_eq_of_lt (by omega), show 32 - k + i = 32 + i - k by omega]
  · rw [List.getElem?_append_right (by simp; omega), List.getElem?_take]
    simp only [List.length_drop, wordBits_length]
    rw [if_pos (by omega), wordBits_get x (by omega)]
    simp only [hi, decide_true, Bool.true_and, h, if_false]
    congr 2; omega

theorem shift_bits (x : W32) {k : Nat} (hk : k ≤ 32) : shiftRight (bits x) k = bits (x >>> k) := by
  have h0 : List.replicate k (0 : Bit) = enc (List.replicate k false) := by simp [enc, encB]
  rw [shiftRight, bits, h0, ← enc_take, ← enc_append, bits]
  congr 1
  apply wordBits_ext (by simp; omega)
  intro i hi
  rw [BitVec.getMsbD_ushiftRight]
  by_cases h : i < k
  · rw [List.getElem?_append_left (by simpa using h)]; simp [h]
  · rw [List.getElem?_append_right (by simpa using h), List.getElem?_take]
    simp only [List.length_replicate]
    rw [if_pos (by omega), wordBits_get x (by omega)]; simp [hi, h]

theorem ch_bits (x y z : W32) : ch (bits x) (bits y) (bits z) = bits (Ch x y z) := by
  simp only [ch, Ch, not_bits, and_bits, xor_bits]
theorem maj_bits (x y z : W32) : maj (bits x) (bits y) (bits z) = bits (Maj x y z) := by
  simp only [maj, Maj, and_bits, xor_bits]
theorem lowerSigma0_bits (x : W32) : lowerSigma0 (bits x) = bits (smallSigma0 x) := by
  simp only [lowerSigma0, smallSigma0, rotate_bits x (show 7 < 32 by omega), rotate_bits x (show 18 < 32 by omega), shift_bits x (show 3 ≤ 32 by omega), xor_bits]
theorem lowerSigma1_bits (x : W32) : lowerSigma1 (bits x) = bits (smallSigma1 x) := by
  simp only [lowerSigma1, smallSigma1, rotate_bits x (show 17 < 32 by omega), rotate_bits x (show 19 < 32 by omega), shift_bits x (show 10 ≤ 32 by omega), xor_bits]
theorem capitalSigma0_bits (x : W32) : capitalSigma0 (bits x) = bits (bigSigma0 x) := by
  simp only [capitalSigma0, bigSigma0, rotate_bits x (show 2 < 32 by omega), rotate_bits x (show 13 < 32 by omega), rotate_bits x (show 22 < 32 by omega), xor_bits]
theorem capitalSigma1_bits (x : W32) : capitalSigma1 (bits x) = bits (bigSigma1 x) := by
  simp only [capitalSigma1, bigSigma1, rotate_bits x (show 6 < 32 by omega), rotate_bits x (show 11 < 32 by omega), rotate_bits x (show 25 < 32 by omega), xor_bits]

/-- Value of a list of bits, least significant first. -/
def lv : List Bit → Nat
  | [] => 0
  | b :: l => b.val + 2 * lv l

theorem val_le (b : Bit) : b.val ≤ 1 := by have := ZMod.val_lt b; omega

theorem lv_lt : ∀ l : List Bit, lv l < 2 ^ l.length := by
  intro l
  induction l with
  | nil => simp [lv]
  | cons b l ih => have := val_le b; simp only [lv, List.length_cons, Nat.pow_succ]; omega

theorem lv_inj : ∀ (a b : List Bit), a.length = b.length → lv a = lv b → a = b := by
  intro a
  induction a with
  | nil => intro b h _; cases b with
    | nil => rfl
    | cons _ _ => simp at h
  | cons x a ih => intro b h e; cases b with
    | nil => simp at h
    | cons y b =>
      simp only [lv] at e
      have h1 := val_le x; have h2 := val_le y
      have hxy : x.val = y.val := by omega
      rw [ZMod.val_injective 2 hxy, ih b (by simpa using h) (by omega)]

theorem lv_testBit : ∀ (n x : Nat), lv (enc ((List.range n).map fun i => x.testBit i)) = x % 2 ^ n := by
  intro n
  induction n with
  | zero => intro x; simp [lv, enc, Nat.mod_one]
  | succ n ih =>
    intro x
    have e : (List.range (n + 1)).map (fun i => x.testBit i) = x.testBit 0 :: (List.range n).map (fun i => (x / 2).testBit i) := by
      rw [List.range_succ_eq_map, List.map_cons, List.map_map]
      congr 1
      apply List.map_congr_left
      intro i _; simp only [Function.comp, Nat.succ_eq_add_one, Nat.testBit_add_one]
    rw [e]
    show (encB (x.testBit 0)).val + 2 * lv (enc ((List.range n).map fun i => (x / 2).testBit i)) = _
    rw [ih, Nat.pow_succ, Nat.mul_comm (2 ^ n) 2, Nat.mod_mul]
    congr 1
    rw [Nat.testBit_zero]
    rcases Nat.mod_two_eq_zero_or_one x with h | h <;> simp [h, encB] <;> rfl

theorem bits_reverse (w : W32) : (bits w).reverse = enc ((List.range 32).map fun i => w.toNat.testBit i) := by
  rw [bits, ← enc_reverse]; congr 1

theorem lv_bits (w : W32) : lv (bits w).reverse = w.toNat := by
  rw [bits_reverse, lv_testBit, Nat.mod_eq_of_lt w.isLt]

/-- A list of 32 bits with the right value is the encoding of a word. -/
theorem eq_bits {l : List Bit} {w : W32} (hl : l.length = 32) (h : lv l % 2 ^ 32 = w.toNat) : l.reverse = bits w := by
  have h1 := lv_lt l
  rw [hl] at h1
  rw [Nat.mod_eq_of_lt h1] at h
  have := lv_inj l (bits w).reverse (by simp [hl]) (by rw [lv_bits, h])
  rw [this, List.reverse_reverse]

theorem brentKung4_spec : ∀ a0 a1 a2 a3 b0 b1 b2 b3 cin : Bit,
    (brentKung4 a0 a1 a2 a3 b0 b1 b2 b3 cin).1.1.val + 2 * (brentKung4 a0 a1 a2 a3 b0 b1 b2 b3 cin).1.2.1.val
      + 4 * (brentKung4 a0 a1 a2 a3 b0 b1 b2 b3 cin).1.2.2.1.val + 8 * (brentKung4 a0 a1 a2 a3 b0 b1 b2 b3 cin).1.2.2.2.val
      + 16 * (brentKung4 a0 a1 a2 a3 b0 b1 b2 b3 cin).2.val
    = (a0.val + 2 * a1.val + 4 * a2.val + 8 * a3.val) + (b0.val + 2 * b1.val + 4 * b2.val + 8 * b3.val) + cin.val := by decide +kernel

theorem brentKungLoop_spec : ∀ (k : Nat) (a b : List Bit) (c : Bit), a.length = 4 * k → b.length = 4 * k →
    (brentKungLoop a b c).length = 4 * k ∧ ∃ co : Nat, lv (brentKungLoop a b c) + 2 ^ (4 * k) * co = lv a + lv b + c.val := by
  intro k
  induction k with
  | zero =>
    intro a b c ha hb
    rw [List.length_eq_zero_iff.1 ha, List.length_eq_zero_iff.1 hb]
    exact ⟨rfl, c.val, by simp [brentKungLoop, lv]⟩
  | succ k ih =>
    intro a b c ha hb
    match a, b, ha, hb with
    | a0 :: a1 :: a2 :: a3 :: as, b0 :: b1 :: b2 :: b3 :: bs, ha, hb =>
      have hs := brentKung4_spec a0 a1 a2 a3 b0 b1 b2 b3 c
      simp only [brentKungLoop]
      generalize brentKung4 a0 a1 a2 a3 b0 b1 b2 b3 c = r at hs
      obtain ⟨⟨s0, s1, s2, s3⟩, c'⟩ := r
      simp only [List.length_cons] at ha hb hs ⊢
      obtain ⟨h1, co, h2⟩ := ih as bs c' (by omega) (by omega)
      refine ⟨by omega, co, ?_⟩
      simp only [lv]
      have : 2 ^ (4 * (k + 1)) = 16 * 2 ^ (4 * k) := by rw [Nat.mul_add, Nat.pow_add]; omega
      rw [this, Nat.mul_assoc]; omega

/-- The adder adds modulo 2^32. -/
theorem add_bits (x y : W32) : add (bits x) (bits y) = bits (x + y) := by
  obtain ⟨h1, co, h2⟩ := brentKungLoop_spec 8 (bits x).reverse (bits y).reverse 0 (by simp) (by simp)
  refine eq_bits (by simpa using h1) ?_
  rw [lv_bits, lv_bits] at h2
  rw [BitVec.toNat_add]
  simp only [ZMod.val_zero] at h2
  omega

theorem bitAdd_spec : ∀ a b c : Bit, (bitAddWithCarry a b c).1.val + 2 * (bitAddWithCarry a b c).2.val = a.val + b.val + c.val := by decide

theorem vanillaLoop_spec : ∀ (a b : List Bit) (c : Bit), a.length = b.length →
    (vanillaLoop a b c).length = a.length ∧ ∃ co : Nat, lv (vanillaLoop a b c) + 2 ^ a.length * co = lv a + lv b + c.val := by
  intro a
  induction a with
  | nil =>
    intro b c h
    rw [List.length_eq_zero_iff.1 h.symm]
    exact ⟨rfl, c.val, by simp [vanillaLoop, lv]⟩
  | cons x a ih =>
    intro b c h
    cases b with
    | nil => simp at h
    | cons y b =>
      have hs := bitAdd_spec x y c
      obtain ⟨h1, co, h2⟩ := ih b (bitAddWithCarry x y c).2 (by simpa using h)
      refine ⟨by simp [vanillaLoop, h1], co, ?_⟩
      simp only [vanillaLoop, lv, List.length_cons, Nat.pow_succ]
      rw [Nat.mul_comm (2 ^ a.length) 2, Nat.mul_assoc]; omega

theorem addVanilla_bits (x y : W32) : addVanilla (bits x) (bits y) = bits (x + y) := by
  obtain ⟨h1, co, h2⟩ := vanillaLoop_spec (bits x).reverse (bits y).reverse 0 (by simp)
  refine eq_bits (by simpa using h1) ?_
  rw [lv_bits, lv_bits] at h2
  rw [BitVec.toNat_add]
  simp only [ZMod.val_zero, List.length_reverse, bits_length] at h2
  omega

theorem addConst_step : ∀ a ci : Bit, ((a + 1) + ci).val + 2 * (ci * (a + 1) + a).val = a.val + 1 + ci.val ∧ (a + ci).val + 2 * (ci * a).val = a.val + ci.val := by decide

theorem addConstLoop_spec : ∀ (a : List Bit) (b : List Bool) (c : Bit), a.length = b.length →
    (addConstLoop a b c).length = a.length ∧ ∃ co : Nat, lv (addConstLoop a b c) + 2 ^ a.length * co = lv a + lv (enc b) + c.val := by
  intro a
  induction a with
  | nil =>
    intro b c h
    rw [List.length_eq_zero_iff.1 h.symm]
    exact ⟨rfl, c.val, by simp [addConstLoop, lv, enc]⟩
  | cons x a ih =>
    intro b c h
    cases b with
    | nil => simp at h
    | cons y b =>
      have hs := addConst_step x c
      cases y with
      | true =>
        obtain ⟨h1, co, h2⟩ := ih b (c * (x + 1) + x) (by simpa using h)
        refine ⟨by simp [addConstLoop, h1], co, ?_⟩
        have : (encB true).val = 1 := rfl
        simp only [addConstLoop, lv, List.length_cons, Nat.pow_succ, enc, List.map_cons, this] at h2 ⊢
        rw [Nat.mul_comm (2 ^ a.length) 2, Nat.mul_assoc]; omega
      | false =>
        obtain ⟨h1, co, h2⟩ := ih b (c * x) (by simpa using h)
        refine ⟨by simp [addConstLoop, h1], co, ?_⟩
        have : (encB false).val = 0 := rfl
        simp only [addConstLoop, lv, List.length_cons, Nat.pow_succ, enc, List.map_cons, this] at h2 ⊢
        rw [Nat.mul_comm (2 ^ a.length) 2, Nat.mul_assoc]; omega

theorem testBit_shift (b j : Nat) : decide ((b >>> j) % 2 = 1) = b.testBit j := by
  rw [Nat.testBit, Nat.one_and_eq_mod_two]
  rcases Nat.mod_two_eq_zero_or_one (b >>> j) with h | h <;> simp [h]

theorem addConst_bits (x : W32) (b : Nat) : addConst (bits x) b = bits (x + BitVec.ofNat 32 b) := by
  have e : (List.range 32).map (fun j => decide ((b >>> j) % 2 = 1)) = (List.range 32).map fun j => b.testBit j := by
    apply List.map_congr_left
    intro j _; exact testBit_shift b j
  rw [addConst, e]
  obtain ⟨h1, co, h2⟩ := addConstLoop_spec (bits x).reverse ((List.range 32).map fun j => b.testBit j) 0 (by simp)
  refine eq_bits (by simpa using h1) ?_
  rw [lv_bits, lv_testBit] at h2
  rw [BitVec.toNat_add, BitVec.toNat_ofNat]
  simp only [ZMod.val_zero, List.length_reverse, bits_length] at h2
  omega

/-- The bits of a constant. -/
theorem natToBits_bits (v : Nat) : natToBits 32 v = bits (BitVec.ofNat 32 v) := by
  rw [bits, wordBits, enc, natToBits, List.map_map]
  apply List.map_congr_left
  intro i hi
  rw [List.mem_range] at hi
  simp only [Function.comp, BitVec.getLsbD_ofNat, encB]
  rw [show 32 - 1 - i = 31 - i by omega, decide_eq_true (show 31 - i < 32 by omega), Bool.true_and, ← testBit_shift]
  simp only [decide_eq_true_eq]

end Verif.Std.Sha
