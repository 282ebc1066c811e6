import Verif.Hints.Builtin
import Mathlib.Tactic.Ring
import Mathlib.Tactic.Positivity
import Mathlib.Tactic.NormNum
import Mathlib.Tactic.NormNum.Prime

set_option linter.unusedSectionVars false

/-!
# C28: built-in hint functions meet their specification

`cn : Canon F` is the canonical integer representation of the field.  `implBuiltin cn i ins n` is `impl_builtin_hint`;
`none` is a panic.
-/

namespace Verif.Props

open Verif.Hints

variable {F : Type} [Field F] [DecidableEq F] (cn : Canon F)

/-! ### Specification -/

/-- Value of a little-endian bit string. -/
def bitsValue : List Bool → Nat
  | [] => 0
  | b :: bs => (if b then 1 else 0) + 2 * bitsValue bs

/-- The circom shift convention on integers: a shift by more than half the modulus is a shift the other way by `M - k`;
left shifts keep only the bits of the modulus width. -/
def circomShl (M x k : Nat) : Nat := if k ≤ M / 2 then x * 2 ^ k % 2 ^ Nat.size M else x / 2 ^ (M - k)
def circomShr (M x k : Nat) : Nat := if k ≤ M / 2 then x / 2 ^ k else x * 2 ^ (M - k) % 2 ^ Nat.size M

/-! ### to_binary -/

theorem bitsValue_lt : ∀ bs : List Bool, bitsValue bs < 2 ^ bs.length := by
  intro bs
  induction bs with
  | nil => simp [bitsValue]
  | cons b bs ih => simp only [bitsValue, List.length_cons, pow_succ]; split <;> omega

/-- The bits are determined by the value. -/
theorem C28_bits_unique : ∀ a b : List Bool, a.length = b.length → bitsValue a = bitsValue b → a = b := by
  intro a
  induction a with
  | nil => intro b h _; simp at h; exact (List.eq_nil_of_length_eq_zero h.symm).symm
  | cons x a ih =>
    intro b h hv
    cases b with
    | nil => simp at h
    | cons y b =>
      simp only [bitsValue] at hv
      have hxy : x = y := by cases x <;> cases y <;> simp at hv ⊢ <;> omega
      subst hxy
      rw [ih b (by simpa using h) (by omega)]

theorem bitsRest_spec : ∀ (n y : Nat), ∃ bits : List Bool, bits.length = n ∧
    (bitsRest n y).1 = bits.map (fun b => if b then 1 else 0) ∧ bitsValue bits = y % 2 ^ n ∧ (bitsRest n y).2 = y / 2 ^ n := by
  intro n
  induction n with
  | zero => intro y; exact ⟨[], rfl, rfl, by simp [bitsValue, Nat.mod_one], by simp [bitsRest]⟩
  | succ n ih =>
    intro y
    obtain ⟨bits, h1, h2, h3, h4⟩ := ih (y / 2)
    refine ⟨decide (y % 2 = 1) :: bits, by simp [h1], ?_, ?_, ?_⟩
    · simp only [bitsRest, List.map_cons, h2]
      rcases Nat.mod_two_eq_zero_or_one y with h | h <;> simp [h]
    · simp only [bitsValue, h3]
      rw [pow_succ, Nat.mul_comm (2 ^ n) 2, Nat.mod_mul]
      rcases Nat.mod_two_eq_zero_or_one y with h | h <;> simp [h]
    · simp only [bitsRest, h4]
      rw [Nat.div_div_eq_div_mul, pow_succ, Nat.mul_comm]

/-- `to_binary(x, n)` returns exactly the little-endian bits of the canonical representative. -/
theorem C28_toBinary (x : F) (n : Nat) (out : List F) :
    toBinary cn x n = some out ↔
      ∃ bits : List Bool, bits.length = n ∧ bitsValue bits = cn.toNat x ∧ out = bits.map (fun b => if b then (1 : F) else 0) := by
  obtain ⟨bits, h1, h2, h3, h4⟩ := bitsRest_spec n (cn.toNat x)
  have hm : (bitsRest n (cn.toNat x)).1.map (fun b : Nat => (b : F)) = bits.map (fun b => if b then (1 : F) else 0) := by
    rw [h2, List.map_map]
    refine List.map_congr_left (fun b _ => ?_)
    cases b <;> simp
  have hpos : 0 < 2 ^ n := by positivity
  unfold toBinary
  simp only [hm, h4]
  constructor
  · intro h
    split at h
    · rename_i h0
      cases h
      have : cn.toNat x < 2 ^ n := (Nat.div_eq_zero_iff_lt hpos).1 h0
      exact ⟨bits, h1, by rw [h3, Nat.mod_eq_of_lt this], rfl⟩
    · cases h
  · rintro ⟨bits', e1, e2, rfl⟩
    have hlt : cn.toNat x < 2 ^ n := by rw [← e2, ← e1]; exact bitsValue_lt bits'
    rw [if_pos ((Nat.div_eq_zero_iff_lt hpos).2 hlt)]
    congr 2
    exact C28_bits_unique _ _ (by omega) (by rw [h3, e2, Nat.mod_eq_of_lt hlt])

/-- It fails exactly when the value does not fit. -/
theorem C28_toBinary_error (x : F) (n : Nat) : toBinary cn x n = none ↔ 2 ^ n ≤ cn.toNat x := by
  obtain ⟨bits, _, _, _, h4⟩ := bitsRest_spec n (cn.toNat x)
  have hpos : 0 < 2 ^ n := by positivity
  unfold toBinary
  simp only [h4]
  split
  · rename_i h0
    have := (Nat.div_eq_zero_iff_lt hpos).1 h0
    simp; omega
  · rename_i h0
    simp only [true_iff]
    by_contra hlt
    exact h0 ((Nat.div_eq_zero_iff_lt hpos).2 (by omega))

/-! ### pow -/

theorem powLoop_spec : ∀ (fuel : Nat) (t res : F) (y : Nat), y < 2 ^ fuel → powLoop fuel t res y = res * t ^ y := by
  intro fuel
  induction fuel with
  | zero => intro t res y h; have : y = 0 := by omega
            simp [powLoop, this]
  | succ n ih =>
    intro t res y h
    unfold powLoop
    split
    · rename_i h0; simp [h0]
    · have hy : y / 2 < 2 ^ n := by rw [pow_succ] at h; omega
      rw [ih _ _ _ hy]
      have e : y = y % 2 + 2 * (y / 2) := by omega
      conv_rhs => rw [e, pow_add, pow_mul]
      have e2 : t * t = t ^ 2 := by ring
      rcases Nat.mod_two_eq_zero_or_one y with h2 | h2
      · simp [h2, e2]
      · simp only [h2, if_true, pow_one, e2]; ring

theorem C28_pow (x y : F) : binop cn .pow x y = x ^ cn.toNat y := by
  have := powLoop_spec 256 x 1 (cn.toNat y) (lt_trans (cn.toNat_lt y) cn.lt_u256)
  simpa [binop] using this

/-! ### Division, comparisons, logic -/

/-- Field division, 0 for a zero divisor. -/
theorem C28_div (x y : F) : (y ≠ 0 → binop cn .div x y * y = x) ∧ (y = 0 → binop cn .div x y = 0) := by
  constructor
  · intro h; simp [binop, h]
  · intro h; simp [binop, h]

/-- Integer quotient and remainder of the canonical representatives; 0 for a zero divisor. -/
theorem C28_intDiv_mod (x y : F) :
    (y ≠ 0 → cn.toNat (binop cn .intDiv x y) * cn.toNat y + cn.toNat (binop cn .mod x y) = cn.toNat x ∧
      cn.toNat (binop cn .mod x y) < cn.toNat y) ∧
    (y = 0 → binop cn .intDiv x y = 0 ∧ binop cn .mod x y = 0) := by
  have hx := cn.toNat_lt x
  constructor
  · intro hy
    have hb : cn.toNat y ≠ 0 := fun h => hy (by rw [← cn.cast_toNat y, h]; simp)
    have h1 : cn.toNat (binop cn .intDiv x y) = cn.toNat x / cn.toNat y := by
      simp only [binop, hb, if_false]
      exact cn.toNat_cast _ (lt_of_le_of_lt (Nat.div_le_self _ _) hx)
    have h2 : cn.toNat (binop cn .mod x y) = cn.toNat x % cn.toNat y := by
      simp only [binop, hb, if_false]
      exact cn.toNat_cast _ (lt_of_le_of_lt (Nat.mod_le _ _) hx)
    rw [h1, h2]
    exact ⟨by rw [Nat.mul_comm]; exact Nat.div_add_mod _ _, Nat.mod_lt _ (by omega)⟩
  · rintro rfl
    have h0 : cn.toNat (0 : F) = 0 := by simpa using cn.toNat_cast 0 (by omega)
    simp [binop, h0]

/-- The comparison hints compare canonical representatives. -/
theorem C28_compare (x y : F) :
    binop cn .lesserEq x y = (if cn.toNat x ≤ cn.toNat y then 1 else 0) ∧
    binop cn .greaterEq x y = (if cn.toNat y ≤ cn.toNat x then 1 else 0) ∧
    binop cn .lesser x y = (if cn.toNat x < cn.toNat y then 1 else 0) ∧
    binop cn .greater x y = (if cn.toNat y < cn.toNat x then 1 else 0) ∧
    binop cn .eq x y = (if x = y then 1 else 0) ∧ binop cn .notEq x y = (if x = y then 0 else 1) := by
  refine ⟨?_, ?_, ?_, ?_, ?_, ?_⟩ <;> simp only [binop, ofBool, decide_eq_true_eq]
  by_cases h : x = y <;> simp [h]

/-- Truth values: any non-zero element is true. -/
theorem C28_logic (x y : F) :
    binop cn .boolOr x y = (if x ≠ 0 ∨ y ≠ 0 then 1 else 0) ∧ binop cn .boolAnd x y = (if x ≠ 0 ∧ y ≠ 0 then 1 else 0) := by
  constructor <;> simp [binop, ofBool]

/-- Bitwise operations work on the canonical integers, the result is reduced into the field; each bit is the corresponding
operation on bits. -/
theorem C28_bitwise (x y : F) : ∃ a o e : Nat,
    binop cn .bitAnd x y = (a : F) ∧ binop cn .bitOr x y = (o : F) ∧ binop cn .bitXor x y = (e : F) ∧
    ∀ i, a.testBit i = ((cn.toNat x).testBit i && (cn.toNat y).testBit i) ∧
      o.testBit i = ((cn.toNat x).testBit i || (cn.toNat y).testBit i) ∧
      e.testBit i = ((cn.toNat x).testBit i != (cn.toNat y).testBit i) :=
  ⟨_, _, _, rfl, rfl, rfl, fun _ => ⟨Nat.testBit_and .., Nat.testBit_or .., Nat.testBit_xor ..⟩⟩

/-- Select. -/
theorem C28_select (c t f : F) : implBuiltin cn .select [c, t, f] 1 = some [if c = 0 then f else t] := by
  by_cases h : c = 0 <;> simp [implBuiltin, h]

/-! ### Shifts -/

theorem shlCore_spec (M x k : Nat) (hM : M < 2 ^ 255) : shlCore M x k = x * 2 ^ k % 2 ^ Nat.size M := by
  have hb : Nat.size M ≤ 255 := Nat.size_le.2 hM
  have hmask : (2 ^ Nat.size M % W + W - 1) % W = 2 ^ Nat.size M - 1 := by
    unfold W
    have h1 : 2 ^ Nat.size M < 2 ^ 256 := Nat.pow_lt_pow_right (by omega) (by omega)
    have h2 : 0 < 2 ^ Nat.size M := by positivity
    rw [Nat.mod_eq_of_lt h1]
    have : 2 ^ Nat.size M + 2 ^ 256 - 1 = (2 ^ Nat.size M - 1) + 2 ^ 256 := by omega
    rw [this, Nat.add_mod_right, Nat.mod_eq_of_lt (by omega)]
  have hand : ∀ v, (v % W) &&& (2 ^ Nat.size M - 1) = v % 2 ^ Nat.size M := by
    intro v
    rw [Nat.and_two_pow_sub_one_eq_mod, Nat.mod_mod_of_dvd]
    exact pow_dvd_pow 2 (by omega)
  have hbig : ∀ s, Nat.size M ≤ s → x * 2 ^ s % 2 ^ Nat.size M = 0 := by
    intro s hs
    exact Nat.mod_eq_zero_of_dvd (dvd_mul_of_dvd_right (pow_dvd_pow 2 hs) x)
  have h64 : (2 : Nat) ^ 64 ≥ 256 := by norm_num
  unfold shlCore shiftAmount bitLength
  by_cases hk : k / 2 ^ 64 = 0
  · simp only [hk, if_true]
    by_cases h256 : 256 ≤ k
    · simp only [h256, if_true]
      rw [hbig k (by omega)]
    · simp only [h256, if_false, hmask, hand]
  · have hk' : 2 ^ 64 ≤ k := by
      by_contra h; exact hk ((Nat.div_eq_zero_iff_lt (by positivity)).2 (by omega))
    simp only [hk, if_false, if_neg (show ¬ 256 ≤ Nat.size M by omega), hmask, hand]
    rw [hbig k (by omega), hbig _ (le_refl _)]

theorem shrCore_spec (M x k : Nat) (hM : M < 2 ^ 256) (hx : x < M) : shrCore M x k = x / 2 ^ k := by
  have hb : Nat.size M ≤ 256 := Nat.size_le.2 hM
  have hxb : x < 2 ^ Nat.size M := lt_trans hx (Nat.lt_size_self M)
  have hbig : ∀ s, Nat.size M ≤ s → x / 2 ^ s = 0 := by
    intro s hs
    exact Nat.div_eq_of_lt (lt_of_lt_of_le hxb (Nat.pow_le_pow_right (by omega) hs))
  have h64 : (2 : Nat) ^ 64 ≥ 256 := by norm_num
  unfold shrCore shiftAmount bitLength
  by_cases hk : k / 2 ^ 64 = 0
  · simp only [hk, if_true]
    by_cases h256 : 256 ≤ k
    · simp only [h256, if_true]
      rw [hbig k (by omega)]
    · simp only [h256, if_false]
  · have hk' : 2 ^ 64 ≤ k := by
      by_contra h; exact hk ((Nat.div_eq_zero_iff_lt (by positivity)).2 (by omega))
    simp only [hk, if_false]
    rw [hbig k (by omega)]
    by_cases h256 : 256 ≤ Nat.size M
    · simp only [h256, if_true]
    · simp only [h256, if_false]
      exact hbig _ (le_refl _)

/-- The shift hints follow the circom convention, for moduli of at most 255 bits (all supported fields), whatever the shift
amount; the recursion of the two functions into each other stops after one step. -/
theorem C28_shift (hM : cn.modulus < 2 ^ 255) (x y : F) :
    binop cn .shiftL x y = (circomShl cn.modulus (cn.toNat x) (cn.toNat y) : F) ∧
    binop cn .shiftR x y = (circomShr cn.modulus (cn.toNat x) (cn.toNat y) : F) ∧
    ∀ fuel ≥ 2, shiftRec cn.modulus fuel true (cn.toNat x) (cn.toNat y) = some (circomShl cn.modulus (cn.toNat x) (cn.toNat y)) ∧
      shiftRec cn.modulus fuel false (cn.toNat x) (cn.toNat y) = some (circomShr cn.modulus (cn.toNat x) (cn.toNat y)) := by
  have hM' : cn.modulus < 2 ^ 256 := cn.lt_u256
  have hl : shiftL cn.modulus (cn.toNat x) (cn.toNat y) = circomShl cn.modulus (cn.toNat x) (cn.toNat y) := by
    unfold shiftL circomShl
    split
    · exact shlCore_spec _ _ _ hM
    · exact shrCore_spec _ _ _ hM' (cn.toNat_lt x)
  have hr : shiftR cn.modulus (cn.toNat x) (cn.toNat y) = circomShr cn.modulus (cn.toNat x) (cn.toNat y) := by
    unfold shiftR circomShr
    split
    · exact shrCore_spec _ _ _ hM' (cn.toNat_lt x)
    · exact shlCore_spec _ _ _ hM
  refine ⟨by simp [binop, hl], by simp [binop, hr], fun fuel hf => ?_⟩
  rw [← hl, ← hr]
  exact shift_terminates _ _ _ _ hf

/-! ### Identifiers and arities -/

/-- Identifiers are decoded correctly and nothing else is a built-in hint. -/
theorem C28_ids (n : Nat) (i : Id) : Id.fromNat n = some i ↔ n = i.toNat := by
  constructor
  · intro h
    unfold Id.fromNat at h
    split at h
    · cases h
    split at h
    · cases h
    rename_i h1 h2
    unfold Id.toNat
    obtain ⟨hlt, he⟩ := List.getElem?_eq_some_iff.1 h
    have hidx : ∀ (k : Nat) (hk : k < Id.all.length), (Id.all[k]).ctorIdx = k := by decide
    have := hidx _ hlt
    rw [he] at this
    omega
  · rintro rfl
    cases i <;> decide

/-- A hint call that passes `validate_hint` does not panic and returns the declared number of values; the only exception is
`to_binary` on a value that does not fit (`unwrap` of an error). -/
theorem C28_total (i : Id) (ins : List F) (n : Nat) (h : validateHint i.toNat ins.length n = true) :
    (∃ out, implBuiltin cn i ins n = some out ∧ out.length = n) ∨ (i = .toBinary ∧ ∃ x, ins = [x] ∧ 2 ^ n ≤ cn.toNat x) := by
  rw [validateHint, (C28_ids i.toNat i).2 rfl] at h
  cases i
  case identity =>
    simp [validateBuiltin] at h
    left; exact ⟨_, rfl, by simp [h.1]⟩
  case select =>
    simp [validateBuiltin] at h
    obtain ⟨h1, rfl⟩ := h
    match ins, h1 with
    | [a, b, c], _ => left; exact ⟨_, rfl, rfl⟩
  case toBinary =>
    simp [validateBuiltin] at h
    obtain ⟨h1, _⟩ := h
    match ins, h1 with
    | [x], _ =>
      cases hb : toBinary cn x n with
      | none => right; exact ⟨rfl, x, rfl, (C28_toBinary_error cn x n).1 hb⟩
      | some out =>
        left
        obtain ⟨bits, e1, _, rfl⟩ := (C28_toBinary cn x n out).1 hb
        exact ⟨_, hb, by simp [e1]⟩
  all_goals
    simp [validateBuiltin] at h
    obtain ⟨h1, rfl⟩ := h
    match ins, h1 with
    | [a, b], _ => left; exact ⟨_, rfl, rfl⟩

instance prime13 : Fact (Nat.Prime 13) := ⟨by norm_num⟩

/-- Test values over the field with 13 elements: `5 << 2`, `5 >> 1`, a negative shift amount (`-1 = 12`), division, bits. -/
example : let cn := Canon.zmod 13 (by norm_num)
    binop cn .shiftL 5 2 = 4 ∧ binop cn .shiftR 5 1 = 2 ∧ binop cn .shiftL 5 12 = 2 ∧ binop cn .intDiv 11 3 = 3 ∧
    toBinary cn (11 : ZMod 13) 4 = some [1, 1, 0, 1] ∧ toBinary cn (11 : ZMod 13) 3 = none := by
  decide +kernel

end Verif.Props
