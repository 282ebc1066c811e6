import Verif.Std.LogUpHonest
import Mathlib.Data.ZMod.Basic
import Mathlib.Algebra.Field.ZMod
/-!
C41: which values the range proof gadget (circuit-std-rs/src/logup.rs:392-464) accepts.

`RangeAccepts m a n` says that for some answer of the hint, `rangeproof(a, n)` on a table of the values below `2^m` asserts a true
equality and only queries values of the table (which the final check enforces, C40).
-/
set_option linter.unusedSectionVars false
namespace Verif.Props
open Verif.Std.LogUp

variable {F : Type} [Field F] [DecidableEq F]

/-- When the chunk size divides `n`, the range proof accepts exactly the canonical integers below `2^n`.
Missing from the full property: `n` not a multiple of the chunk size, and `n = 0`; there the claim is false, see the theorems below. -/
theorem C41_exact_partial (cn : Canon F) {m n : Nat} (hm : 0 < m) (hn : 0 < n) (h128 : n ≤ 128) (hdiv : m ∣ n) (hN : 2 ^ n ≤ cn.modulus) (a : F) :
    RangeAccepts m a n ↔ cn.toNat a < 2 ^ n := by
  have h0 : n % m = 0 := Nat.mod_eq_zero_of_dvd hdiv
  have hr : roundUp m n = n := by simp [roundUp, h0]
  rw [rangeAccepts_iff cn hm hn h128 (by rw [hr]; exact hN), hr, shifted_zero h0]

/-- In general, with `n'` the next multiple of the chunk size, exactly the values of `[2^n - 2^n', 2^n)` modulo the field are accepted:
negative values are accepted as well. -/
theorem C41_general_partial (cn : Canon F) {m n n' : Nat} (hm : 0 < m) (hn : 0 < n) (h128 : n ≤ 128) (hn' : n ≤ n') (hlt : n' < n + m) (hdiv : m ∣ n')
    (hN : 2 ^ n' ≤ cn.modulus) (a : F) : RangeAccepts m a n ↔ cn.toNat (a + ((2 ^ n' - 2 ^ n : Nat) : F)) < 2 ^ n' := by
  have hr : roundUp m n = n' := by
    obtain ⟨c, rfl⟩ := hdiv
    obtain ⟨d, hd⟩ : ∃ d, roundUp m n = m * d := ⟨roundUp m n / m, (roundUp_dvd hm n).symm⟩
    have h1 := le_roundUp m n
    have h2 : roundUp m n < n + m := by
      have := Nat.mod_lt n hm
      unfold roundUp; split <;> omega
    rw [hd] at h1 h2 ⊢
    rcases Nat.lt_trichotomy d c with h | h | h
    · have := Nat.mul_le_mul_left m h; rw [Nat.mul_succ] at this; omega
    · rw [h]
    · have := Nat.mul_le_mul_left m h; rw [Nat.mul_succ] at this; omega
  rw [rangeAccepts_iff cn hm hn h128 (by rw [hr]; exact hN), hr]
  simp only [shifted, hr]

/-- Completeness holds for every `n`: all canonical integers below `2^n` are accepted. -/
theorem C41_complete (cn : Canon F) {m n : Nat} (hm : 0 < m) (hn : 0 < n) (h128 : n ≤ 128) (hN : 2 ^ (n + m - 1) ≤ cn.modulus) (a : F) (ha : cn.toNat a < 2 ^ n) :
    RangeAccepts m a n := by
  have hlt : roundUp m n ≤ n + m - 1 := by
    have := Nat.mod_lt n hm
    unfold roundUp; split <;> omega
  have hp : (2 : Nat) ^ roundUp m n ≤ 2 ^ (n + m - 1) := Nat.pow_le_pow_right (by omega) hlt
  have hq : 2 ^ n ≤ 2 ^ roundUp m n := Nat.pow_le_pow_right (by omega) (le_roundUp m n)
  rw [rangeAccepts_iff cn hm hn h128 (by omega), toNat_lt_iff cn (by omega)]
  exact ⟨cn.toNat a + (2 ^ roundUp m n - 2 ^ n), by omega, by push_cast; rw [cn.cast_toNat]; rfl⟩

/-- Completeness with the registered hint: it is called with `n'`, the chunk size and the shifted value (logup.rs:413-422); its answer makes the asserted equality
true and only values of the table are queried. -/
theorem C41_honest (cn : Canon F) {t : RangeTable F} {n : Nat} (hm : 0 < t.bits) (hn : t.bits < n) (h128 : n ≤ 128) (hN : 2 ^ (n + t.bits - 1) ≤ cn.modulus) (a : F)
    (ha : cn.toNat a < 2 ^ n) : ∃ (n' : Nat) (ws : List F), t.bits ∣ n' ∧ n ≤ n' ∧ n' < n + t.bits ∧
      ws = rangeproofHint cn n' t.bits (a + ((2 ^ n' - 2 ^ n : Nat) : F)) ∧
      t.rangeproof a n ws = some ({ t with queryKeys := t.queryKeys ++ ws }, true) ∧ ∀ w ∈ ws, cn.toNat w < 2 ^ t.bits := by
  have hlt : roundUp t.bits n < n + t.bits := by
    have := Nat.mod_lt n hm
    unfold roundUp; split <;> omega
  have hp : (2 : Nat) ^ roundUp t.bits n ≤ 2 ^ (n + t.bits - 1) := Nat.pow_le_pow_right (by omega) (by omega)
  have hq : 2 ^ n ≤ 2 ^ roundUp t.bits n := Nat.pow_le_pow_right (by omega) (le_roundUp _ n)
  have hmb : 2 ^ t.bits ≤ 2 ^ n := Nat.pow_le_pow_right (by omega) (by omega)
  have hk := roundUp_dvd hm n
  have hs : cn.toNat (shifted t.bits n a) < 2 ^ roundUp t.bits n := by
    rw [toNat_lt_iff cn (by omega)]
    exact ⟨cn.toNat a + (2 ^ roundUp t.bits n - 2 ^ n), by omega, by push_cast; rw [cn.cast_toNat]; rfl⟩
  refine ⟨roundUp t.bits n, rangeproofHint cn (roundUp t.bits n) t.bits (shifted t.bits n a), ⟨_, hk.symm⟩, le_roundUp _ n, hlt, rfl, ?_, ?_⟩
  · rw [rangeproof_big t hm h128 hn, if_pos (by simp [rangeproofHint, digits_length])]
    have : recombine t.bits 0 (rangeproofHint cn (roundUp t.bits n) t.bits (shifted t.bits n a)) = shifted t.bits n a := by
      rw [rangeproofHint, recombine_cast, digits_natOf _ _ _ (by rw [hk]; exact hs), cn.cast_toNat]
    rw [decide_eq_true this]
  · intro w hw
    obtain ⟨d, hd, rfl⟩ := List.mem_map.1 hw
    have := digits_lt _ _ _ d hd
    rw [cn.toNat_cast d (by omega)]; exact this

/-- With the final check: if `a` is out of range (chunk size dividing `n`) then for every answer of the hints and every other query in the
table, either the asserted equality fails or all but `2^m + queries - 1` challenges are rejected. -/
theorem C41_final_sound [Fintype F] (cn : Canon F) {m n : Nat} (hm : 0 < m) (hn : 0 < n) (h128 : n ≤ 128) (hdiv : m ∣ n) (hN : 2 ^ n ≤ cn.modulus)
    {a : F} (ha : ¬ cn.toNat a < 2 ^ n) {t t' t'' : RangeTable F} {ws : List F} (hb : t.bits = m) (ht : t.tableKeys = (List.range (2 ^ m)).map fun i : Nat => (i : F))
    (h : t.rangeproof a n ws = some (t', true)) (hmore : t''.tableKeys = t'.tableKeys ∧ ∀ x ∈ t'.queryKeys, x ∈ t''.queryKeys)
    (hchar : ∀ k : Nat, 0 < k → k ≤ t''.queryKeys.length → ((k : Nat) : F) ≠ 0) (counts : List F) :
    (Finset.univ.filter fun alpha : F => t''.finalCheck counts alpha = true).card + 1 ≤ 2 ^ m + t''.queryKeys.length := by
  have h0 : n % m = 0 := Nat.mod_eq_zero_of_dvd hdiv
  have hr : roundUp m n = n := by simp [roundUp, h0]
  obtain ⟨e1, _, _⟩ := rangeproof_table t a n ws h
  have : ∃ x ∈ t'.queryKeys, x ∉ t'.tableKeys := by
    by_contra hcon
    push_neg at hcon
    have := rangeproof_sound cn hm hn h128 (by rw [hr]; exact hN) hb ht h hcon
    rw [hr, shifted_zero h0] at this
    exact ha this
  obtain ⟨x, hx1, hx2⟩ := this
  have hc := check_card (vals := t''.tableKeys) (counts := counts) (queries := t''.queryKeys) (hmore.2 x hx1) (by rw [hmore.1]; exact hx2)
    (hchar _ (List.count_pos_iff.2 (hmore.2 x hx1)) List.count_le_length)
  have hl : t''.tableKeys.length = 2 ^ m := by rw [hmore.1, e1, ht]; simp
  rw [hl] at hc; exact hc

/-- When the chunk size does not divide `n` the value `-1` is accepted. -/
theorem C41_negative_violated (cn : Canon F) {m n : Nat} (hm : 0 < m) (hn : 0 < n) (h128 : n ≤ 128) (hdiv : ¬ m ∣ n) (hN : 2 ^ (n + m - 1) ≤ cn.modulus) :
    RangeAccepts m (-1 : F) n ∧ ¬ cn.toNat (-1 : F) < 2 ^ n := by
  have h0 : n % m ≠ 0 := fun e => hdiv (Nat.dvd_of_mod_eq_zero e)
  have hlt : roundUp m n ≤ n + m - 1 := by
    have := Nat.mod_lt n hm
    unfold roundUp; split <;> omega
  have hgt : n < roundUp m n := by
    have := Nat.mod_lt n hm
    unfold roundUp; rw [if_neg h0]; omega
  have hp : (2 : Nat) ^ roundUp m n ≤ 2 ^ (n + m - 1) := Nat.pow_le_pow_right (by omega) hlt
  have hq : 2 ^ n < 2 ^ roundUp m n := Nat.pow_lt_pow_right (by omega) hgt
  constructor
  · rw [rangeAccepts_iff cn hm hn h128 (by omega), toNat_lt_iff cn (by omega)]
    refine ⟨2 ^ roundUp m n - 2 ^ n - 1, Nat.lt_of_le_of_lt (Nat.sub_le _ _) (Nat.sub_lt (Nat.two_pow_pos _) (Nat.two_pow_pos n)), ?_⟩
    have e : 2 ^ roundUp m n - 2 ^ n = (2 ^ roundUp m n - 2 ^ n - 1) + 1 := by omega
    simp only [shifted]; rw [e]; push_cast; ring
  · intro h
    have h1 : cn.toNat (-1 : F) + 1 < cn.modulus := by omega
    have h2 := cn.toNat_cast (cn.toNat (-1 : F) + 1) h1
    push_cast at h2
    rw [cn.cast_toNat, neg_add_cancel] at h2
    have h3 := cn.toNat_cast 0 (by omega)
    rw [Nat.cast_zero] at h3
    omega

/-- `n = 0`: every value below `2^m` is accepted instead of zero only. -/
theorem C41_zero_violated (cn : Canon F) {m : Nat} (hm : 0 < m) (hN : 2 ^ m ≤ cn.modulus) : RangeAccepts m (1 : F) 0 ∧ ¬ cn.toNat (1 : F) < 2 ^ 0 := by
  have h2 : 2 ≤ 2 ^ m := by
    calc 2 = 2 ^ 1 := rfl
      _ ≤ 2 ^ m := Nat.pow_le_pow_right (by omega) hm
  constructor
  · refine ⟨[], _, rangeproof_small (RangeTable.initial (R := F) m) hm (by omega) (by omega) _ _, ?_⟩
    intro x hx
    simp only [RangeTable.queryRange, RangeTable.initial, List.nil_append, List.mem_singleton] at hx
    subst hx
    exact mem_initial.2 ⟨1, by omega, by simp [shifted, roundUp]⟩
  · have := cn.toNat_cast 1 (by omega)
    rw [Nat.cast_one] at this
    omega

instance c41_prime : Fact (Nat.Prime 31) := ⟨by decide⟩

/-- The field with 31 elements. -/
def c41Canon : Canon (ZMod 31) := Canon.zmod 31 (by decide)

example (a : ZMod 31) : RangeAccepts 2 a 4 ↔ c41Canon.toNat a < 16 := C41_exact_partial c41Canon (by decide) (by decide) (by decide) (by decide) (by decide) a
example : RangeAccepts 2 (7 : ZMod 31) 3 := C41_complete c41Canon (by decide) (by decide) (by decide) (by decide) 7 (by decide)
example : ∃ t : RangeTable (ZMod 31), 0 < t.bits ∧ t.bits < 3 ∧ 2 ^ (3 + t.bits - 1) ≤ c41Canon.modulus := ⟨RangeTable.initial 2, by decide, by decide, by decide⟩
/-- Over 31 elements with two-bit chunks, 27 = -4 passes as a three-bit number but not 20. -/
example : RangeAccepts 2 (27 : ZMod 31) 3 ∧ ¬ RangeAccepts 2 (20 : ZMod 31) 3 := by
  rw [C41_general_partial c41Canon (n' := 4) (by decide) (by decide) (by decide) (by decide) (by decide) (by decide) (by decide),
    C41_general_partial c41Canon (n' := 4) (by decide) (by decide) (by decide) (by decide) (by decide) (by decide) (by decide)]
  constructor <;> decide

end Verif.Props
