import Verif.Std.BigIntHonest
import Mathlib.NumberTheory.Bertrand
/-!
C44: the 120-bit-limb and 2048-bit-integer gadgets (`circuit-std-rs/src/non_native`).

`num cn l` is the integer with limbs `l` (base 2^120, least significant first), `Limbs cn l` says that all limbs are below 2^120,
`anyHint` is an arbitrary prover and `honest cn` the prover that uses the built-in hints.  The code calls `range_proof_u120` on
results, but that function asserts nothing; the theorems say what remains.
-/
namespace Verif.Props
open Verif.Std.BigInt Verif.Hints

variable {F : Type} [Field F] [DecidableEq F]

/-- What `add_u120` and `mul_u120` guarantee against every prover, exactly: a field equation (with a boolean carry for the sum). -/
theorem C44_limbs_iff (T x y cin r c : F) :
    (addU120 anyHint T x y cin r c ↔ (x + y + cin = r + c * T ∧ (c = 0 ∨ c = 1))) ∧
    (mulU120 anyHint T x y cin r c ↔ x * y + cin = r + c * T) := by
  constructor
  · constructor
    · rintro ⟨-, h, hb⟩; exact ⟨by rw [h]; ring, hb⟩
    · rintro ⟨h, hb⟩; exact ⟨trivial, by rw [h]; ring, hb⟩
  · constructor
    · rintro ⟨-, h⟩; rw [h]; ring
    · intro h; exact ⟨trivial, by rw [h]; ring⟩

/-- Accumulation, exactly. -/
theorem C44_accumulate_iff (T : F) (xs : List F) (r c : F) : accumulate anyHint T xs r c ↔ (1 < xs.length ∧ xs.sum = r + c * T) :=
  ⟨fun h => ⟨h.1, h.2.2.2⟩, fun h => ⟨h.1, trivial, trivial, h.2⟩⟩

/-- `assert_add` against every prover, for arguments whose limbs are in range and 2048-bit summands: the integer equation
`x + y = result + carry * modulus` holds, hence `x + y ≡ result` modulo the modulus.  Missing from the full property:
`result < modulus` (see `C44_add_reduced_violated`), and the ranges themselves, which the gadget does not check. -/
theorem C44_add_partial (cn : Canon F) (hm : 2 ^ 130 < cn.modulus) (O : Oracle F) {x y result modulus : List F} {carry : F}
    (hx : x.length = nLimbs) (hy : y.length = nLimbs) (hr : result.length = nLimbs) (hM : modulus.length = nLimbs)
    (rx : Limbs cn x) (ry : Limbs cn y) (rr : Limbs cn result) (rM : Limbs cn modulus)
    (bx : num cn x < 2 ^ 2048) (bY : num cn y < 2 ^ 2048)
    (h : assertAdd O (two120 F) x y result carry modulus) :
    (carry = 0 ∨ carry = 1) ∧ num cn x + num cn y = num cn result + cn.toNat carry * num cn modulus ∧
      (num cn x + num cn y) % num cn modulus = num cn result % num cn modulus := by
  obtain ⟨hc, over, ho, e⟩ := assertAdd_sound cn O hm hx hy hr hM rx ry rr rM h
  have h2 : (2 : Nat) ^ (120 * nLimbs) = 2 ^ 2049 * 2 ^ 111 := by rw [← Nat.pow_add]; rfl
  have h3 : (2 : Nat) ^ 2049 = 2 * 2 ^ 2048 := by rw [Nat.pow_succ, Nat.mul_comm]
  have h4 : (2 : Nat) ^ 2049 ≤ 2 ^ (120 * nLimbs) := by rw [h2]; exact Nat.le_mul_of_pos_right _ (Nat.two_pow_pos _)
  generalize (2 : Nat) ^ (120 * nLimbs) = B at *
  generalize (2 : Nat) ^ 2049 = A at *
  generalize (2 : Nat) ^ 2048 = A' at *
  have h0 : over = 0 := by
    by_contra hne
    have h1 : over = 1 := by omega
    rw [h1, Nat.mul_one] at e
    omega
  rw [h0, Nat.mul_zero, Nat.add_zero] at e
  exact ⟨hc, e, by rw [e, Nat.add_mul_mod_self_right]⟩

/-- The comparison guarantees nothing but inequality: for `x ≠ y` the prover may choose the answer. -/
theorem C44_less_violated (x y : List F) (hl : x.length = y.length) (res : F) :
    assertLess anyHint x y res ↔ (res = 0 ∨ (res = 1 ∧ x ≠ y)) := assertLess_any x y hl res

/-- The same for `assert_is_greater_eq`. -/
theorem C44_greaterEq_violated (x y : List F) (hl : x.length = y.length) (res : F) :
    assertGreaterEq anyHint x y res ↔ (res = 1 ∨ (res = 0 ∧ x ≠ y)) := by
  constructor
  · rintro ⟨less, eq, h1, h2, rfl, hb⟩
    rw [assertLess_any y x hl.symm] at h1
    rw [assertEqual_iff x y hl] at h2
    by_cases hxy : x = y
    · rw [if_pos hxy] at h2
      rcases h1 with rfl | ⟨rfl, h⟩
      · left; rw [h2]; ring
      · exact absurd hxy.symm h
    · rcases hb with hb | hb
      · exact .inr ⟨hb, hxy⟩
      · exact .inl hb
  · intro h
    by_cases hxy : x = y
    · rcases h with rfl | ⟨-, h⟩
      · exact ⟨0, 1, (assertLess_any y x hl.symm 0).2 (.inl rfl), (assertEqual_iff x y hl 1).2 (by rw [if_pos hxy]), by ring, .inr rfl⟩
      · exact absurd hxy h
    · rcases h with rfl | ⟨rfl, -⟩
      · exact ⟨1, 0, (assertLess_any y x hl.symm 1).2 (.inr ⟨rfl, fun h => hxy h.symm⟩), (assertEqual_iff x y hl 0).2 (by rw [if_neg hxy]), by ring, .inr rfl⟩
      · exact ⟨0, 0, (assertLess_any y x hl.symm 0).2 (.inl rfl), (assertEqual_iff x y hl 0).2 (by rw [if_neg hxy]), by ring, .inl rfl⟩

/-- Equality is sound and complete. -/
theorem C44_equal (x y : List F) (hl : x.length = y.length) (res : F) : assertEqual x y res ↔ res = if x = y then 1 else 0 :=
  assertEqual_iff x y hl res

/-- `assert_mul` accepts every product, result, quotient and modulus whatsoever when the prover chooses the hints. -/
theorem C44_mul_violated (hT : two120 F ≠ 0) (x y result carry modulus : List F) :
    assertMul anyHint (two120 F) nLimbs x y result carry modulus := assertMul_any _ hT nLimbs (by decide) x y result carry modulus

/-- Completeness: with the built-in hints every correct comparison, addition and multiplication of values in range is accepted. -/
theorem C44_less_complete (cn : Canon F) (hm : 2 ^ 130 < cn.modulus) {x y : List F} (hl : x.length = y.length) (hx : Limbs cn x) (hy : Limbs cn y) :
    assertLess (honest cn) x y (if num cn x < num cn y then 1 else 0) := assertLess_honest cn hm hl hx hy

theorem C44_add_complete (cn : Canon F) (hm : 2 ^ 130 < cn.modulus) {x y result modulus : List F} {carry : F}
    (lx : x.length = nLimbs) (ly : y.length = nLimbs) (lr : result.length = nLimbs) (lM : modulus.length = nLimbs)
    (hx : Limbs cn x) (hy : Limbs cn y) (hr : Limbs cn result) (hM : Limbs cn modulus) (hc : carry = 0 ∨ carry = 1)
    (h : num cn x + num cn y = num cn result + cn.toNat carry * num cn modulus) (hlt : num cn result < num cn modulus)
    (hov : num cn x + num cn y < 2 ^ (120 * nLimbs)) :
    assertAdd (honest cn) (two120 F) x y result carry modulus := assertAdd_honest cn hm lx ly lr lM hx hy hr hM hc h hlt hov

theorem C44_mulNoMod_complete (cn : Canon F) (hm : 2 ^ 245 < cn.modulus) {x y : List F}
    (lx : x.length = nLimbs) (ly : y.length = nLimbs) (hx : Limbs cn x) (hy : Limbs cn y) :
    ∃ out, mulNoMod (honest cn) (two120 F) nLimbs x y out ∧ out.length = 2 * nLimbs ∧ Limbs cn out ∧ num cn out = num cn x * num cn y :=
  mulNoMod_honest cn hm (by decide) lx ly hx hy

theorem C44_mul_complete (cn : Canon F) (hm : 2 ^ 245 < cn.modulus) {x y result carry modulus : List F}
    (lx : x.length = nLimbs) (ly : y.length = nLimbs) (lr : result.length = nLimbs) (lc : carry.length = nLimbs) (lM : modulus.length = nLimbs)
    (hx : Limbs cn x) (hy : Limbs cn y) (hr : Limbs cn result) (hc : Limbs cn carry) (hM : Limbs cn modulus)
    (h : num cn x * num cn y = num cn result + num cn carry * num cn modulus) :
    assertMul (honest cn) (two120 F) nLimbs x y result carry modulus :=
  assertMul_honest cn hm (by decide) lx ly lr lc lM hx hy hr hc hM h

/-- The list with a one at position `k`. -/
def unitLimbs (F : Type) [Field F] (k : Nat) : List F := (List.replicate nLimbs 0).set k 1

theorem unit_limbs (cn : Canon F) (k : Nat) : Limbs cn (unitLimbs F k) :=
  limbs_set cn (fun v hv => by rw [(List.mem_replicate.1 hv).2, toNat_zero]; exact Nat.two_pow_pos _) k (by rw [toNat_one]; exact Nat.one_lt_two_pow (by omega))

theorem unit_length (k : Nat) : (unitLimbs F k).length = nLimbs := by simp [unitLimbs]

theorem num_zero (cn : Canon F) (k : Nat) : num cn (List.replicate k (0 : F)) = 0 := by
  induction k with
  | zero => rfl
  | succ k ih => rw [List.replicate_succ, num_cons, ih, toNat_zero]; rfl

theorem unit_num (cn : Canon F) {k : Nat} (hk : k < nLimbs) : num cn (unitLimbs F k) = 2 ^ (120 * k) := by
  have := num_set cn (List.replicate nLimbs (0 : F)) k 1 (by simpa using hk)
  rw [num_zero, toNat_one, List.getD_eq_getElem?_getD, List.getElem?_replicate, if_pos hk] at this
  simpa [unitLimbs, toNat_zero] using this

/-- Only four limbs of the product are compared: with honest hints and all limbs in range, `0 * 0` is accepted as `2^480`
modulo `2^600`. -/
theorem C44_mul_fourLimbs_violated (cn : Canon F) (hm : 2 ^ 245 < cn.modulus) :
    assertMul (honest cn) (two120 F) nLimbs (List.replicate nLimbs 0) (List.replicate nLimbs 0) (unitLimbs F 4) (List.replicate nLimbs 0) (unitLimbs F 5) ∧
    ¬ (num cn (List.replicate nLimbs (0 : F)) * num cn (List.replicate nLimbs (0 : F))) % num cn (unitLimbs F 5) = num cn (unitLimbs F 4) % num cn (unitLimbs F 5) := by
  have hz : Limbs cn (List.replicate nLimbs (0 : F)) := fun v hv => by rw [(List.mem_replicate.1 hv).2, toNat_zero]; exact Nat.two_pow_pos _
  have hz2 : Limbs cn (List.replicate (2 * nLimbs) (0 : F)) := fun v hv => by rw [(List.mem_replicate.1 hv).2, toNat_zero]; exact Nat.two_pow_pos _
  constructor
  · obtain ⟨left, a1, a2, a3, a4⟩ := mulNoMod_honest cn hm (n := nLimbs) (by decide) (List.length_replicate ..) (List.length_replicate ..) hz hz
    obtain ⟨right, b1, b2, b3, b4⟩ := mulNoMod_honest cn hm (n := nLimbs) (by decide) (List.length_replicate ..) (unit_length 5) hz (unit_limbs cn 5)
    rw [num_zero, Nat.zero_mul] at a4 b4
    have el : left = List.replicate (2 * nLimbs) 0 := num_inj cn (by simp [a2]) a3 hz2 (by rw [a4, num_zero])
    have er : right = List.replicate (2 * nLimbs) 0 := num_inj cn (by simp [b2]) b3 hz2 (by rw [b4, num_zero])
    have hR : Limbs cn (unitLimbs F 4 ++ List.replicate nLimbs 0) := fun v hv => by
      rcases List.mem_append.1 hv with hv | hv
      · exact unit_limbs cn 4 v hv
      · exact hz v hv
    have hlen : (unitLimbs F 4 ++ List.replicate nLimbs 0).length = 2 * nLimbs := by rw [List.length_append, unit_length, List.length_replicate]; rfl
    obtain ⟨right', c, d1, d2, d3, d4, d5⟩ := addChain_honest cn (by omega) ((unitLimbs F 4 ++ List.replicate nLimbs 0).zip right) 0 (by
      intro p hp
      have := limbs_zip cn hR b3 p hp
      omega) (.inl rfl)
    have hl2 : ((unitLimbs F 4 ++ List.replicate nLimbs 0).zip right).length = 2 * nLimbs := by rw [List.length_zip, hlen, b2, Nat.min_self]
    rw [hl2] at d2 d5
    rw [numP_zip cn _ _ (by rw [hlen, b2]), b4, toNat_zero] at d5
    have hlt := num_lt cn hR
    rw [hlen] at hlt
    have hc : cn.toNat c = 0 := by
      by_contra h0
      have : 2 ^ (120 * (2 * nLimbs)) * 1 ≤ 2 ^ (120 * (2 * nLimbs)) * cn.toNat c := Nat.mul_le_mul_left _ (by omega)
      omega
    rw [hc, Nat.mul_zero, Nat.add_zero, Nat.add_zero] at d5
    have e' : right' = unitLimbs F 4 ++ List.replicate nLimbs 0 := num_inj cn (by rw [d2, hlen]) d3 hR d5
    refine ⟨left, right, right', c, a1, b1, d1, fun i hi => ?_⟩
    rw [el, e']
    match i, hi with
    | 0, _ => rfl
    | 1, _ => rfl
    | 2, _ => rfl
    | 3, _ => rfl
  · rw [unit_num cn (show 4 < nLimbs by decide), unit_num cn (show 5 < nLimbs by decide), num_zero, Nat.zero_mul, Nat.zero_mod,
      Nat.mod_eq_of_lt (Nat.pow_lt_pow_right (by omega) (by omega))]
    exact (Nat.two_pow_pos _).ne

/-- `assert_add` does not enforce `result < modulus`: the comparison answers whatever the prover likes.
`2^240 + 0` is accepted with result `2^240` for the modulus `2^120`. -/
theorem C44_add_reduced_violated (cn : Canon F) (hm : 2 ^ 130 < cn.modulus) :
    assertAdd anyHint (two120 F) (unitLimbs F 2) (List.replicate nLimbs 0) (unitLimbs F 2) 0 (unitLimbs F 1) ∧
    ¬ num cn (unitLimbs F 2) < num cn (unitLimbs F 1) := by
  constructor
  · have e1 : ((unitLimbs F 2).zip (List.replicate nLimbs 0)).map (fun p => p.1 + p.2) = unitLimbs F 2 := by
      simp [unitLimbs, nLimbs, List.replicate]
    have e2 : ((unitLimbs F 2).zip ((unitLimbs F 1).map ((0 : F) * ·))).map (fun p => p.1 + p.2) = unitLimbs F 2 := by
      simp [unitLimbs, nLimbs, List.replicate]
    have hz : ∀ (l : List (F × F)), addChain anyHint (two120 F) l 0 (l.map fun p => p.1 + p.2) 0 := by
      intro l
      induction l with
      | nil => exact ⟨rfl, rfl⟩
      | cons p l ih => exact ⟨_, 0, _, addU120_zero _ _ _ _, ih, by simp⟩
    have h1 := hz ((unitLimbs F 2).zip (List.replicate nLimbs 0))
    have h2 := hz ((unitLimbs F 2).zip ((unitLimbs F 1).map ((0 : F) * ·)))
    rw [e1] at h1
    rw [e2] at h2
    refine ⟨_, _, _, _, 1, h1, .inl rfl, h2, rfl, rfl, (assertLess_any _ _ (by rw [unit_length, unit_length]) 1).2 (.inr ⟨rfl, ?_⟩), rfl⟩
    simp [unitLimbs, nLimbs, List.replicate]
  · rw [unit_num cn (show 2 < nLimbs by decide), unit_num cn (show 1 < nLimbs by decide), Nat.not_lt]
    exact Nat.pow_le_pow_right (by omega) (by omega)

/-- Fields as large as the theorems ask for exist. -/
example : ∃ p : Nat, ∃ _ : Fact p.Prime, ∃ h : p < 2 ^ 256, 2 ^ 245 < (Canon.zmod p h).modulus := by
  obtain ⟨p, hp, h1, h2⟩ := Nat.exists_prime_lt_and_le_two_mul (2 ^ 245) (by positivity)
  exact ⟨p, ⟨hp⟩, by omega, h1⟩

/-- A non-trivial case of the hypotheses of `C44_mul_complete`: `2^240 * 2^360 = 0 + 2^480 * 2^120`. -/
example (cn : Canon F) (hm : 2 ^ 245 < cn.modulus) :
    assertMul (honest cn) (two120 F) nLimbs (unitLimbs F 2) (unitLimbs F 3) (List.replicate nLimbs 0) (unitLimbs F 4) (unitLimbs F 1) :=
  C44_mul_complete cn hm (unit_length _) (unit_length _) (List.length_replicate ..) (unit_length _) (unit_length _) (unit_limbs cn _) (unit_limbs cn _)
    (fun v hv => by rw [(List.mem_replicate.1 hv).2, toNat_zero]; exact Nat.two_pow_pos _) (unit_limbs cn _) (unit_limbs cn _) (by
      rw [unit_num cn (show 2 < nLimbs by decide), unit_num cn (show 3 < nLimbs by decide), unit_num cn (show 4 < nLimbs by decide), unit_num cn (show 1 < nLimbs by decide),
        num_zero, Nat.zero_add, ← Nat.pow_add, ← Nat.pow_add])

/-- A non-trivial case of the hypotheses of `C44_add_partial` and `C44_add_complete`: `2^240 + 0 = 2^240 + 0 * 2^360`. -/
example (cn : Canon F) (hm : 2 ^ 130 < cn.modulus) :
    assertAdd (honest cn) (two120 F) (unitLimbs F 2) (List.replicate nLimbs 0) (unitLimbs F 2) 0 (unitLimbs F 3) :=
  C44_add_complete cn hm (unit_length _) (List.length_replicate ..) (unit_length _) (unit_length _) (unit_limbs cn _)
    (fun v hv => by rw [(List.mem_replicate.1 hv).2, toNat_zero]; exact Nat.two_pow_pos _) (unit_limbs cn _) (unit_limbs cn _) (.inl rfl)
    (by rw [num_zero, toNat_zero, Nat.zero_mul])
    (by rw [unit_num cn (show 2 < nLimbs by decide), unit_num cn (show 3 < nLimbs by decide)]; exact Nat.pow_lt_pow_right (by omega) (by omega))
    (by rw [unit_num cn (show 2 < nLimbs by decide), num_zero, Nat.add_zero]; exact Nat.pow_lt_pow_right (by omega) (by decide))

end Verif.Props
