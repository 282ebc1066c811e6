import Mathlib.Data.Nat.Size
import Mathlib.Algebra.Order.Ring.Nat
import Mathlib.Tactic.Ring

/-!
# Power-of-two helpers (utils/misc.rs:3-20)

The loops count `padk` up; `none` is "not found within the bound", excluded by the theorems.  `usize` overflow (arguments above `2^63`) is
outside the model.
-/

namespace Verif.Pow2

/-- The loop of `next_power_of_two` (misc.rs:15-18). -/
def nextLoop (x : Nat) : Nat → Nat → Nat
  | 0, k => k
  | f + 1, k => if 2 ^ k < x then nextLoop x f (k + 1) else k

/-- `next_power_of_two` (misc.rs:14-20). -/
def next (x : Nat) : Nat := 2 ^ nextLoop x x 0

/-- The loop of `prev_power_of_two` (misc.rs:8-10). -/
def prevLoop (x : Nat) : Nat → Nat → Nat
  | 0, k => k
  | f + 1, k => if 2 ^ k ≤ x then prevLoop x f (k + 1) else k

/-- `prev_power_of_two` (misc.rs:3-12). -/
def prev (x : Nat) : Nat := if x = 0 then 0 else 2 ^ (prevLoop x (x + 1) 0 - 1)

theorem nextLoop_spec (x : Nat) : ∀ (f k : Nat), x ≤ f + k → (∀ j < k, 2 ^ j < x) →
    x ≤ 2 ^ nextLoop x f k ∧ ∀ j < nextLoop x f k, 2 ^ j < x := by
  intro f
  induction f with
  | zero =>
    intro k hk h
    refine ⟨?_, h⟩
    simp only [nextLoop]
    have := Nat.lt_two_pow_self (n := k)
    omega
  | succ f ih =>
    intro k hk h
    simp only [nextLoop]
    split
    · rename_i hlt
      refine ih (k + 1) (by omega) ?_
      intro j hj
      by_cases e : j = k
      · rw [e]; exact hlt
      · exact h j (by omega)
    · exact ⟨by omega, h⟩

/-- `next_power_of_two(x)` is the least power of two that is at least `x`. -/
theorem next_spec (x : Nat) : (∃ k, next x = 2 ^ k) ∧ x ≤ next x ∧ ∀ j, x ≤ 2 ^ j → next x ≤ 2 ^ j := by
  obtain ⟨h1, h2⟩ := nextLoop_spec x x 0 (by omega) (by omega)
  refine ⟨⟨_, rfl⟩, h1, ?_⟩
  intro j hj
  unfold next
  apply Nat.pow_le_pow_right (by omega)
  by_contra h
  have := h2 j (by omega)
  omega

theorem prevLoop_spec (x : Nat) (hx : x ≠ 0) : ∀ (f k : Nat), x + 1 ≤ f + k → (∀ j < k, 2 ^ j ≤ x) →
    x < 2 ^ prevLoop x f k ∧ ∀ j < prevLoop x f k, 2 ^ j ≤ x := by
  intro f
  induction f with
  | zero =>
    intro k hk h
    refine ⟨?_, h⟩
    simp only [prevLoop]
    have := Nat.lt_two_pow_self (n := k)
    omega
  | succ f ih =>
    intro k hk h
    simp only [prevLoop]
    split
    · rename_i hlt
      refine ih (k + 1) (by omega) ?_
      intro j hj
      by_cases e : j = k
      · rw [e]; exact hlt
      · exact h j (by omega)
    · exact ⟨by omega, h⟩

/-- `prev_power_of_two(x)` is the largest power of two that is at most `x`, for `x` not zero. -/
theorem prev_spec (x : Nat) (hx : x ≠ 0) : (∃ k, prev x = 2 ^ k) ∧ prev x ≤ x ∧ ∀ j, 2 ^ j ≤ x → 2 ^ j ≤ prev x := by
  obtain ⟨h1, h2⟩ := prevLoop_spec x hx (x + 1) 0 (by omega) (by omega)
  have hpos : 0 < prevLoop x (x + 1) 0 := by
    by_contra h
    have : prevLoop x (x + 1) 0 = 0 := by omega
    rw [this] at h1
    simp at h1; omega
  unfold prev
  rw [if_neg hx]
  refine ⟨⟨_, rfl⟩, h2 _ (by omega), ?_⟩
  intro j hj
  apply Nat.pow_le_pow_right (by omega)
  by_contra h
  have : 2 ^ prevLoop x (x + 1) 0 ≤ 2 ^ j := Nat.pow_le_pow_right (by omega) (by omega)
  omega

/-- `x & (x - 1) == 0` for a positive `x` says "power of two". -/
theorem isPow2_iff {x : Nat} (hx : x ≠ 0) (h : x &&& (x - 1) = 0) : ∃ k, x = 2 ^ k := by
  refine ⟨Nat.log2 x, ?_⟩
  by_contra hne
  have h1 : 2 ^ Nat.log2 x ≤ x := Nat.log2_self_le hx
  have h2 : x < 2 ^ (Nat.log2 x + 1) := Nat.lt_log2_self
  have h3 : 2 ^ Nat.log2 x ≤ x - 1 := by omega
  have t1 : x.testBit (Nat.log2 x) = true := by
    rw [Nat.testBit_eq_decide_div_mod_eq]
    have : x / 2 ^ Nat.log2 x = 1 := by
      apply Nat.div_eq_of_lt_le <;> [omega; (rw [pow_succ] at h2; omega)]
    simp [this]
  have t2 : (x - 1).testBit (Nat.log2 x) = true := by
    rw [Nat.testBit_eq_decide_div_mod_eq]
    have : (x - 1) / 2 ^ Nat.log2 x = 1 := by
      apply Nat.div_eq_of_lt_le <;> [omega; (rw [pow_succ] at h2; omega)]
    simp [this]
  have := congrArg (fun y => y.testBit (Nat.log2 x)) h
  simp [Nat.testBit_and, t1, t2] at this

end Verif.Pow2
