import Verif.Std.LimbsM31Proof
/-!
Comparison, zero test and conversions of limb numbers (`LimbsM31`).
-/
set_option linter.unusedSectionVars false
namespace Verif.Std.ShaM31
open Verif.IR Verif.IR.Source Verif.Builder Verif.Hints Verif.Frontend

variable {F : Type} [Field F] [DecidableEq F] (cn : Canon F)

theorem limbsVal_append (n : Nat) (l k : List Nat) : limbsVal n (l ++ k) = limbsVal n l + 2 ^ (n * l.length) * limbsVal n k := by
  induction l with
  | nil => simp [limbsVal]
  | cons x xs ih =>
    rw [List.cons_append, limbsVal, limbsVal, ih, List.length_cons, Nat.mul_add n, Nat.mul_one, Nat.pow_add, Nat.mul_add, Nat.mul_comm (2 ^ (n * xs.length)) (2 ^ n), Nat.mul_assoc, Nat.add_assoc]

theorem limbsVal_take {n i : Nat} {l : List Nat} (h : i < l.length) :
    limbsVal n (l.take (i + 1)) = limbsVal n (l.take i) + 2 ^ (n * i) * l.getD i 0 := by
  rw [List.take_add_one, List.getElem?_eq_getElem h, limbsVal_append, List.length_take, Nat.min_eq_left (by omega), List.getD_eq_getElem?_getD, List.getElem?_eq_getElem h]
  simp [limbsVal]

theorem take_less {n i : Nat} {A B : List Nat} (hA : ∀ x ∈ A, x < 2 ^ n) (hB : ∀ x ∈ B, x < 2 ^ n) (h1 : i < A.length) (h2 : i < B.length) :
    decide (limbsVal n (A.take (i + 1)) < limbsVal n (B.take (i + 1))) =
      (decide (A.getD i 0 < B.getD i 0) || (decide (A.getD i 0 = B.getD i 0) && decide (limbsVal n (A.take i) < limbsVal n (B.take i)))) := by
  rw [limbsVal_take h1, limbsVal_take h2]
  have a1 := limbsVal_lt n (A.take i) fun x hx => hA x (List.mem_of_mem_take hx)
  have b1 := limbsVal_lt n (B.take i) fun x hx => hB x (List.mem_of_mem_take hx)
  rw [List.length_take, Nat.min_eq_left (by omega)] at a1 b1
  generalize A.getD i 0 = p at *
  generalize B.getD i 0 = q at *
  generalize limbsVal n (A.take i) = x at *
  generalize limbsVal n (B.take i) = y at *
  generalize 2 ^ (n * i) = m at *
  rcases Nat.lt_trichotomy p q with h | h | h
  · have : m * (p + 1) ≤ m * q := Nat.mul_le_mul_left _ h
    rw [Nat.mul_add] at this
    have e : x + m * p < y + m * q := by omega
    simp [h, e]
  · subst h; simp
  · have : m * (q + 1) ≤ m * p := Nat.mul_le_mul_left _ h
    rw [Nat.mul_add] at this
    have e : ¬ x + m * p < y + m * q := by omega
    have e1 : ¬ p < q := by omega
    have e2 : p ≠ q := by omega
    simp [e, e1, e2]

theorem zip_getD (f : Nat → Nat → Bool) {A B : List Nat} {i : Nat} (h1 : i < A.length) (h2 : i < B.length) :
    ((List.zipWith f A B).map (ofBool : Bool → F)).getD i 0 = ofBool (f (A.getD i 0) (B.getD i 0)) := by
  simp only [List.getD_eq_getElem?_getD, List.getElem?_map, List.getElem?_zipWith, List.getElem?_eq_getElem h1, List.getElem?_eq_getElem h2]
  rfl

theorem orsLoop_enc {n : Nat} {A B : List Nat} (hA : ∀ x ∈ A, x < 2 ^ n) (hB : ∀ x ∈ B, x < 2 ^ n) :
    ∀ (i : Nat) (o e : Bool), i ≤ A.length → i ≤ B.length →
    orsLoop ((List.zipWith (fun a b => decide (a < b)) A B).map ofBool : List F) ((List.zipWith (fun a b => decide (a = b)) A B).map ofBool) i (ofBool o) (ofBool e) =
      pure (ofBool (o || (e && decide (limbsVal n (A.take i) < limbsVal n (B.take i))))) := by
  intro i
  induction i with
  | zero => intro o e _ _; rw [orsLoop]; simp [limbsVal]
  | succ i ih =>
    intro o e h1 h2
    rw [orsLoop, zip_getD _ (by omega) (by omega), zip_getD _ (by omega) (by omega), boolOp_bool, Rel.pure_bind, boolOp_bool, Rel.pure_bind, boolOp_bool, Rel.pure_bind]
    dsimp only
    rw [ih _ _ (by omega) (by omega), take_less hA hB (by omega) (by omega)]
    congr 2
    cases o <;> cases e <;> simp [Bool.and_assoc]

theorem bigLessThan_enc {n : Nat} (h32 : n < 32) (hn : 2 ^ (n + 1) ≤ cn.modulus) {A B : List Nat} {k : Nat} (hk : 2 ≤ k) (hAk : k ≤ A.length)
    (hBk : k ≤ B.length) (hA : ∀ x ∈ A.take k, x < 2 ^ n) (hB : ∀ x ∈ B.take k, x < 2 ^ n) :
    bigLessThan n k (enc A : List F) (enc B) = pure (ofBool (decide (limbsVal n (A.take k) < limbsVal n (B.take k)))) := by
  have hAl : (A.take k).length = k := by simp; omega
  have hBl : (B.take k).length = k := by simp; omega
  have e := limbCmp_enc cn h32 hn (A.take k) (B.take k) (by omega) hA hB (enc (A.drop k)) (enc (B.drop k))
  rw [hAl] at e
  simp only [enc, ← List.map_append, List.take_append_drop] at e
  unfold bigLessThan
  simp only [enc]
  rw [e, Rel.pure_bind]
  dsimp only
  rw [if_pos hk, zip_getD _ (by omega) (by omega), zip_getD _ (by omega) (by omega), zip_getD _ (by omega) (by omega), zip_getD _ (by omega) (by omega),
    boolOp_bool, Rel.pure_bind, boolOp_bool, Rel.pure_bind, boolOp_bool, Rel.pure_bind, orsLoop_enc hA hB (k - 2) _ _ (by omega) (by omega)]
  dsimp only
  obtain ⟨j, rfl⟩ : ∃ j, k = j + 2 := ⟨k - 2, by omega⟩
  have t1 := take_less (i := j + 1) hA hB (by omega) (by omega)
  have t0 := take_less (i := j) hA hB (by omega) (by omega)
  rw [List.take_of_length_le (by omega), List.take_of_length_le (l := B.take (j + 2)) (by omega)] at t1
  rw [t1, t0]
  show pure (ofBool _) = pure (ofBool _)
  have e1 : j + 2 - 1 = j + 1 := by omega
  have e2 : j + 2 - 2 = j := by omega
  rw [e1, e2]
  congr 2
  generalize decide ((A.take (j + 2)).getD (j + 1) 0 < (B.take (j + 2)).getD (j + 1) 0) = p
  generalize decide ((A.take (j + 2)).getD (j + 1) 0 = (B.take (j + 2)).getD (j + 1) 0) = q
  generalize decide ((A.take (j + 2)).getD j 0 < (B.take (j + 2)).getD j 0) = r
  generalize decide ((A.take (j + 2)).getD j 0 = (B.take (j + 2)).getD j 0) = s
  cases p <;> cases q <;> cases r <;> cases s <;> simp

theorem isZero_fold : ∀ (l : List F) (t : F), l.foldl (fun total v => total - isZeroF v) t = t - ((l.countP (fun v => decide (v = 0)) : Nat) : F) := by
  intro l
  induction l with
  | nil => intro t; simp
  | cons x xs ih =>
    intro t
    rw [List.foldl_cons, ih, List.countP_cons, isZeroF]
    by_cases h : x = 0 <;> simp [h, sub_sub, add_comm]

theorem bigIsZero_eq {k : Nat} (hk : k < cn.modulus) (l : List F) :
    bigIsZero k l = if k ≤ l.length ∧ ∀ v ∈ l.take k, v = 0 then 1 else 0 := by
  have hc : (l.take k).countP (fun v => decide (v = 0)) ≤ (l.take k).length := List.countP_le_length
  have hl : (l.take k).length ≤ k := by simp
  rw [bigIsZero, isZero_fold, isZeroF]
  have e : ((k : F) - (((l.take k).countP (fun v => decide (v = 0)) : Nat) : F) = 0) ↔ (k ≤ l.length ∧ ∀ v ∈ l.take k, v = 0) := by
    rw [sub_eq_zero]
    constructor
    · intro h
      have h1 : k = (l.take k).countP (fun v => decide (v = 0)) := by
        have := congrArg cn.toNat h
        rwa [cn.toNat_cast k hk, cn.toNat_cast _ (by omega)] at this
      have h2 : (l.take k).length = k := by omega
      refine ⟨by rw [List.length_take] at h2; omega, ?_⟩
      have h3 := List.countP_eq_length.1 (h1.symm.trans h2.symm)
      exact fun v hv => by simpa using h3 v hv
    · rintro ⟨h1, h2⟩
      have h3 : (l.take k).countP (fun v => decide (v = 0)) = (l.take k).length := List.countP_eq_length.2 fun v hv => by simpa using h2 v hv
      rw [h3, List.length_take, Nat.min_eq_left h1]
  by_cases h : k ≤ l.length ∧ ∀ v ∈ l.take k, v = 0
  · rw [if_pos h, if_pos (e.2 h)]
  · rw [if_neg h, if_neg fun g => h (e.1 g)]

/-- The `n` lowest bytes, most significant first. -/
def bytesBE : Nat → Nat → List Nat
  | 0, _ => []
  | n + 1, X => X / 256 ^ n % 256 :: bytesBE n X

theorem bytesBE_snoc : ∀ n X, bytesBE (n + 1) X = bytesBE n (X / 256) ++ [X % 256] := by
  intro n
  induction n with
  | zero => intro X; simp [bytesBE]
  | succ n ih =>
    intro X
    rw [bytesBE, ih, bytesBE, Nat.pow_succ, Nat.div_div_eq_div_mul, Nat.mul_comm]
    rfl

variable (hm : 2 ^ 30 ≤ cn.modulus)
include cn hm

theorem idivModBit_nat {X b : Nat} (hX : X < 2 ^ 30) (hb : b ≤ 30) :
    idivModBit (X : F) b = pure (((X / 2 ^ b : Nat) : F), ((X % 2 ^ b : Nat) : F)) := by
  rw [idivModBit, toBinary_nat cn hm hX, Rel.pure_bind, lb_drop, lb_take hb, fromBinary_lb, fromBinary_lb]
  rw [Nat.mod_eq_of_lt (a := X / 2 ^ b)]
  rw [Nat.div_lt_iff_lt_mul (Nat.two_pow_pos b), ← Nat.pow_add, Nat.sub_add_cancel hb]
  exact hX

theorem put64Loop_nat : ∀ (i X : Nat) (l : List F), X < 2 ^ 30 → X / 256 ^ i < 256 → put64Loop i (X : F) l = pure (enc (bytesBE (i + 1) X) ++ l) := by
  intro i
  induction i with
  | zero => intro X l _ h; simp only [Nat.pow_zero, Nat.div_one] at h; simp [put64Loop, bytesBE, enc, Nat.mod_eq_of_lt h]
  | succ i ih =>
    intro X l h h2
    rw [put64Loop, idivModBit_nat cn hm h (by omega), Rel.pure_bind]
    dsimp only
    rw [ih (X / 2 ^ 8) _ (by omega) (by rw [Nat.pow_succ, Nat.mul_comm, ← Nat.div_div_eq_div_mul] at h2; exact h2), bytesBE_snoc (i + 1)]
    simp [enc]

theorem bePutU64_nat {X : Nat} (h : X < 2 ^ 30) : bePutU64 (X : F) = pure (enc (bytesBE 8 X)) := by
  rw [bePutU64, put64Loop_nat cn hm 7 X [] h, List.append_nil]
  have : X / 256 ^ 7 = 0 := Nat.div_eq_of_lt (by omega)
  omega

theorem bePutU32_nat {X : Nat} (h : X < 2 ^ 32) : bePutU32 (((X % 2 ^ 30 : Nat) : F), ((X / 2 ^ 30 : Nat) : F)) = pure (enc (bytesBE 4 X)) := by
  rw [bePutU32]
  dsimp only
  rw [idivModBit_nat cn hm (by omega) (by omega), Rel.pure_bind]
  dsimp only
  rw [idivModBit_nat cn hm (by omega) (by omega), Rel.pure_bind]
  dsimp only
  rw [idivModBit_nat cn hm (by omega) (by omega), Rel.pure_bind]
  dsimp only
  rw [← Nat.cast_mul, ← Nat.cast_add]
  have e : shl32 6 = 64 := rfl
  rw [e]
  have e1 : X % 2 ^ 30 / 2 ^ 8 / 2 ^ 8 / 2 ^ 8 + X / 2 ^ 30 * 64 = X / 256 ^ 3 % 256 := by omega
  have e2 : X % 2 ^ 30 / 2 ^ 8 / 2 ^ 8 % 2 ^ 8 = X / 256 ^ 2 % 256 := by omega
  have e3 : X % 2 ^ 30 / 2 ^ 8 % 2 ^ 8 = X / 256 ^ 1 % 256 := by omega
  have e4 : X % 2 ^ 30 % 2 ^ 8 = X / 256 ^ 0 % 256 := by omega
  rw [e1, e2, e3, e4]
  rfl

theorem putU32_nat {X : Nat} (h : X < 2 ^ 32) : putU32 (((X % 2 ^ 26 : Nat) : F), ((X / 2 ^ 26 : Nat) : F)) = pure (enc (bytesBE 4 X)) := by
  rw [putU32]
  dsimp only
  rw [idivModBit_nat cn hm (by omega) (by omega), Rel.pure_bind]
  dsimp only
  rw [idivModBit_nat cn hm (by omega) (by omega), Rel.pure_bind]
  dsimp only
  rw [idivModBit_nat cn hm (by omega) (by omega), Rel.pure_bind]
  dsimp only
  rw [← Nat.cast_mul, ← Nat.cast_add]
  have e1 : X % 2 ^ 26 / 2 ^ 8 / 2 ^ 8 / 2 ^ 8 + X / 2 ^ 26 * 2 ^ 2 = X / 256 ^ 3 % 256 := by omega
  have e2 : X % 2 ^ 26 / 2 ^ 8 / 2 ^ 8 % 2 ^ 8 = X / 256 ^ 2 % 256 := by omega
  have e3 : X % 2 ^ 26 / 2 ^ 8 % 2 ^ 8 = X / 256 ^ 1 % 256 := by omega
  have e4 : X % 2 ^ 26 % 2 ^ 8 = X / 256 ^ 0 % 256 := by omega
  rw [e1, e2, e3, e4]
  rfl

theorem toBitArray_nat : ∀ l : List Nat, (∀ x ∈ l, x < 2 ^ 30) → toBitArray (enc l : List F) = pure (lb (30 * l.length) (limbsVal 30 l)) := by
  intro l
  induction l with
  | nil => intro _; rfl
  | cons x xs ih =>
    intro h
    show toBitArray ((x : F) :: enc xs) = _
    rw [toBitArray, toBinary_nat cn hm (h x (by simp)), Rel.pure_bind, ih fun y hy => h y (by simp [hy]), Rel.pure_bind, lb_append _ _ _ _ (h x (by simp)), limbsVal, List.length_cons, Nat.mul_add, Nat.mul_one, Nat.add_comm (30 * xs.length)]

omit hm cn
theorem toBitArray_range : ∀ (l : List F) (r : List F), toBitArray l r → ∃ L : List Nat, (∀ x ∈ L, x < 2 ^ 30) ∧ l = enc L := by
  intro l
  induction l with
  | nil => intro r _; exact ⟨[], by simp, rfl⟩
  | cons v vs ih =>
    intro r h
    rw [toBitArray] at h
    obtain ⟨b, hb, rest, hr, -⟩ := h
    obtain ⟨X, hX, rfl⟩ := toBinary_lt hb
    obtain ⟨L, hL, rfl⟩ := ih rest hr
    exact ⟨X :: L, by simpa using ⟨hX, hL⟩, rfl⟩

theorem bitArray30_nat {n X : Nat} (h1 : 30 ≤ n) (h2 : n < 60) (h : X < 2 ^ n) :
    bitArray30 (lb n X : List F) = pure (((X % 2 ^ 30 : Nat) : F), ((X / 2 ^ 30 : Nat) : F)) := by
  rw [bitArray30, lb_length, if_neg (by omega), if_neg (by omega), lb_take h1, lb_drop, fromBinary_lb, fromBinary_lb, Nat.mod_eq_of_lt (a := X / 2 ^ 30)]
  rw [Nat.div_lt_iff_lt_mul (Nat.two_pow_pos 30), ← Nat.pow_add, Nat.sub_add_cancel h1]
  exact h

theorem bigintLimbs_spec (n : Nat) : ∀ (k a : Nat), n ≤ 32 → ∃ l, bigintLimbs n k a = some l ∧ l.length = k ∧ (∀ x ∈ l, x < 2 ^ n) ∧ limbsVal n l = a % 2 ^ (n * k) := by
  intro k
  induction k with
  | zero => intro a _; exact ⟨[], rfl, rfl, by simp, by simp [limbsVal, Nat.mod_one]⟩
  | succ k ih =>
    intro a h
    obtain ⟨l, h1, h2, h3, h4⟩ := ih (a / 2 ^ n) h
    have hlt : a % 2 ^ n < 2 ^ n := Nat.mod_lt _ (Nat.two_pow_pos n)
    have h32 : a % 2 ^ n < 2 ^ 32 := Nat.lt_of_lt_of_le hlt (Nat.pow_le_pow_right (by omega) h)
    refine ⟨a % 2 ^ n :: l, ?_, by simp [h2], by simpa using ⟨hlt, h3⟩, ?_⟩
    · rw [bigintLimbs, if_pos h32, h1]; rfl
    · rw [limbsVal, h4, Nat.mul_add, Nat.mul_one, Nat.add_comm (n * k), Nat.pow_add, Nat.mod_mul]

end Verif.Std.ShaM31
