import Verif.Std.LimbsM31
import Verif.Std.ShaM31Proof
/-!
The results of the limb helpers (`LimbsM31`) on limbs in range, for every field that is large enough.
-/
set_option linter.unusedSectionVars false
namespace Verif.Std.ShaM31
open Verif.IR Verif.IR.Source Verif.Builder Verif.Hints Verif.Frontend

variable {F : Type} [Field F] [DecidableEq F] (cn : Canon F)

/-- The number with the given limbs of `n` bits, lowest first. -/
def limbsVal (n : Nat) : List Nat → Nat
  | [] => 0
  | x :: xs => x + 2 ^ n * limbsVal n xs

/-- Limbs as field elements. -/
def enc (l : List Nat) : List F := l.map (Nat.cast : Nat → F)

theorem shl32_lt {n : Nat} (h : n < 32) : shl32 n = 2 ^ n := by rw [shl32, Nat.mod_eq_of_lt h]

theorem limbsVal_lt (n : Nat) : ∀ l : List Nat, (∀ x ∈ l, x < 2 ^ n) → limbsVal n l < 2 ^ (n * l.length) := by
  intro l
  induction l with
  | nil => intro _; simp [limbsVal]
  | cons x xs ih =>
    intro h
    have h1 := ih fun y hy => h y (by simp [hy])
    have h2 := h x (by simp)
    rw [limbsVal, List.length_cons, Nat.mul_add, Nat.mul_one, Nat.pow_add, Nat.mul_comm (2 ^ (n * xs.length))]
    calc x + 2 ^ n * limbsVal n xs < 2 ^ n * (limbsVal n xs + 1) := by rw [Nat.mul_add]; omega
      _ ≤ 2 ^ n * 2 ^ (n * xs.length) := Nat.mul_le_mul_left _ h1

theorem limbsVal_inj (n : Nat) : ∀ l k : List Nat, l.length = k.length → (∀ x ∈ l, x < 2 ^ n) → (∀ x ∈ k, x < 2 ^ n) → limbsVal n l = limbsVal n k → l = k := by
  intro l
  induction l with
  | nil => intro k h _ _ _; exact (List.length_eq_zero_iff.1 h.symm).symm
  | cons x xs ih =>
    intro k h hl hk e
    cases k with
    | nil => simp at h
    | cons y ys =>
      rw [limbsVal, limbsVal] at e
      have h1 := hl x (by simp)
      have h2 := hk y (by simp)
      have e1 : x = y := by
        have := congrArg (· % 2 ^ n) e
        simpa [Nat.add_mul_mod_self_left, Nat.mod_eq_of_lt h1, Nat.mod_eq_of_lt h2] using this
      subst e1
      have e2 : limbsVal n xs = limbsVal n ys := Nat.eq_of_mul_eq_mul_left (Nat.two_pow_pos n) (by omega)
      rw [ih ys (by simpa using h) (fun z hz => hl z (by simp [hz])) (fun z hz => hk z (by simp [hz])) e2]

/-- One limb of an addition with carry. -/
theorem limb_add {n X : Nat} (h : n < 32) (hX : X < 2 ^ (n + 1)) :
    (X : F) - ((X / 2 ^ n % 2 : Nat) : F) * ((shl32 n : Nat) : F) = ((X % 2 ^ n : Nat) : F) := by
  rw [shl32_lt h]
  have h1 : X / 2 ^ n < 2 := by rw [Nat.div_lt_iff_lt_mul (Nat.two_pow_pos n)]; rw [Nat.pow_succ] at hX; omega
  rw [Nat.mod_eq_of_lt h1, ← Nat.cast_mul, sub_eq_iff_eq_add, ← Nat.cast_add, Nat.mul_comm, Nat.mod_add_div]

/-- The sum of two numbers in limbs, with a carry. -/
def sumLimbs (n : Nat) : List Nat → List Nat → Nat → List Nat
  | a :: as, b :: bs, c => (a + b + c) % 2 ^ n :: sumLimbs n as bs ((a + b + c) / 2 ^ n)
  | _, _, _ => []

theorem sumLimbs_spec (n : Nat) : ∀ (A B : List Nat) (c : Nat), A.length = B.length → (∀ x ∈ A, x < 2 ^ n) → (∀ x ∈ B, x < 2 ^ n) → c ≤ 1 →
    (sumLimbs n A B c).length = A.length ∧ (∀ x ∈ sumLimbs n A B c, x < 2 ^ n) ∧
      limbsVal n (sumLimbs n A B c) = (limbsVal n A + limbsVal n B + c) % 2 ^ (n * A.length) := by
  intro A
  induction A with
  | nil => intro B c h _ _ _; cases B <;> simp [sumLimbs, limbsVal, Nat.mod_one] at *
  | cons a as ih =>
    intro B c h hA hB hc
    cases B with
    | nil => simp at h
    | cons b bs =>
      have ha := hA a (by simp)
      have hb := hB b (by simp)
      have hq : (a + b + c) / 2 ^ n ≤ 1 := by
        have : (a + b + c) / 2 ^ n < 2 := by rw [Nat.div_lt_iff_lt_mul (Nat.two_pow_pos n)]; omega
        omega
      obtain ⟨h1, h2, h3⟩ := ih bs ((a + b + c) / 2 ^ n) (by simpa using h) (fun x hx => hA x (by simp [hx])) (fun x hx => hB x (by simp [hx])) hq
      refine ⟨by simp [sumLimbs, h1], ?_, ?_⟩
      · intro x hx
        rw [sumLimbs, List.mem_cons] at hx
        rcases hx with rfl | hx
        · exact Nat.mod_lt _ (Nat.two_pow_pos n)
        · exact h2 x hx
      · rw [sumLimbs, limbsVal, limbsVal, limbsVal, h3, List.length_cons, Nat.mul_add, Nat.mul_one, Nat.add_comm (n * as.length), Nat.pow_add, Nat.mod_mul]
        have e : a + 2 ^ n * limbsVal n as + (b + 2 ^ n * limbsVal n bs) + c = (a + b + c) + 2 ^ n * (limbsVal n as + limbsVal n bs) := by rw [Nat.mul_add]; omega
        rw [e, Nat.add_mul_mod_self_left, Nat.add_mul_div_left _ _ (Nat.two_pow_pos n)]
        rw [Nat.add_comm ((a + b + c) / 2 ^ n)]

theorem reduceLoop_enc {n : Nat} (h32 : n < 32) (hn : 2 ^ (n + 1) ≤ cn.modulus) : ∀ (A B : List Nat) (c : Nat), A.length = B.length →
    (∀ x ∈ A, x < 2 ^ n) → (∀ x ∈ B, x < 2 ^ n) → c ≤ 1 → reduceLoop n (enc A : List F) (enc B) (c : F) = pure (enc (sumLimbs n A B c)) := by
  intro A
  induction A with
  | nil => intro B c h _ _ _; cases B <;> simp [reduceLoop, sumLimbs, enc] at *
  | cons a as ih =>
    intro B c h hA hB hc
    cases B with
    | nil => simp at h
    | cons b bs =>
      have ha := hA a (by simp)
      have hb := hB b (by simp)
      have hX : a + b + c < 2 ^ (n + 1) := by rw [Nat.pow_succ]; omega
      have hq : (a + b + c) / 2 ^ n ≤ 1 := by
        have : (a + b + c) / 2 ^ n < 2 := by rw [Nat.div_lt_iff_lt_mul (Nat.two_pow_pos n)]; omega
        omega
      have hr := ih bs ((a + b + c) / 2 ^ n) (by simpa using h) (fun x hx => hA x (by simp [hx])) (fun x hx => hB x (by simp [hx])) hq
      show reduceLoop n ((a : F) :: enc as) ((b : F) :: enc bs) (c : F) = _
      rw [reduceLoop]
      dsimp only
      rw [← Nat.cast_add, ← Nat.cast_add, toBinary_nat cn hn hX, Rel.pure_bind, lb_getD (by omega), limb_add h32 hX, Nat.mod_eq_of_lt (a := (a + b + c) / 2 ^ n) (by omega), hr, Rel.pure_bind]
      rfl

/-- The limbs of `big_array_add`: the last one takes the rest. -/
def sumLast (n : Nat) : List Nat → List Nat → Nat → List Nat
  | [a], [b], c => [a + b + c]
  | a :: as, b :: bs, c => (a + b + c) % 2 ^ n :: sumLast n as bs ((a + b + c) / 2 ^ n)
  | _, _, _ => []

theorem carryLoop_enc {n : Nat} (h32 : n < 32) (hn : 2 ^ (n + 1) ≤ cn.modulus) : ∀ (A B : List Nat) (c : Nat), A ≠ [] → A.length = B.length →
    (∀ x ∈ A, x < 2 ^ n) → (∀ x ∈ B, x < 2 ^ n) → c ≤ 1 →
    carryLoop n (enc A : List F) (enc B) (c : F) = pure (enc (sumLast n A B c)) ∧
      (sumLast n A B c).length = A.length ∧ (∀ x ∈ (sumLast n A B c).dropLast, x < 2 ^ n) ∧
      limbsVal n (sumLast n A B c) = limbsVal n A + limbsVal n B + c := by
  intro A
  induction A with
  | nil => intro B c h; exact absurd rfl h
  | cons a as ih =>
    intro B c _ h hA hB hc
    cases B with
    | nil => simp at h
    | cons b bs =>
      have ha := hA a (by simp)
      have hb := hB b (by simp)
      have hX : a + b + c < 2 ^ (n + 1) := by rw [Nat.pow_succ]; omega
      have hq : (a + b + c) / 2 ^ n ≤ 1 := by
        have : (a + b + c) / 2 ^ n < 2 := by rw [Nat.div_lt_iff_lt_mul (Nat.two_pow_pos n)]; omega
        omega
      cases as with
      | nil =>
        cases bs with
        | cons y ys => simp at h
        | nil =>
          refine ⟨?_, rfl, by simp [sumLast], by simp [sumLast, limbsVal]⟩
          show carryLoop n [(a : F)] [(b : F)] (c : F) = pure [((a + b + c : Nat) : F)]
          rw [carryLoop]; simp
      | cons a2 as =>
        cases bs with
        | nil => simp at h
        | cons b2 bs =>
          obtain ⟨hr, h1, h2, h3⟩ := ih (b2 :: bs) ((a + b + c) / 2 ^ n) (by simp) (by simpa using h) (fun x hx => hA x (by simp only [List.mem_cons]; exact Or.inr (List.mem_cons.1 hx)))
            (fun x hx => hB x (List.mem_cons_of_mem _ hx)) hq
          refine ⟨?_, ?_, ?_, ?_⟩
          · show carryLoop n ((a : F) :: (a2 : F) :: enc as) ((b : F) :: (b2 : F) :: enc bs) (c : F) = _
            rw [carryLoop]
            · dsimp only
              rw [← Nat.cast_add, ← Nat.cast_add, toBinary_nat cn hn hX, Rel.pure_bind, lb_getD (by omega), limb_add h32 hX, Nat.mod_eq_of_lt (a := (a + b + c) / 2 ^ n) (by omega)]
              have hr' : carryLoop n ((a2 : F) :: enc as) ((b2 : F) :: enc bs) (((a + b + c) / 2 ^ n : Nat) : F) = _ := hr
              rw [hr', Rel.pure_bind]
              rfl
            · simp
          · rw [sumLast]
            · simp only [List.length_cons] at h1 ⊢; omega
            · simp
          · rw [sumLast]
            · intro x hx
              have hne : sumLast n (a2 :: as) (b2 :: bs) ((a + b + c) / 2 ^ n) ≠ [] := by
                intro e; rw [e] at h1; simp at h1
              rw [List.dropLast_cons_of_ne_nil hne, List.mem_cons] at hx
              rcases hx with rfl | hx
              · exact Nat.mod_lt _ (Nat.two_pow_pos n)
              · exact h2 x hx
            · simp
          · rw [sumLast]
            · rw [limbsVal, h3, limbsVal.eq_2 n a, limbsVal.eq_2 n b]
              have e := Nat.mod_add_div (a + b + c) (2 ^ n)
              have e2 : 2 ^ n * (limbsVal n (a2 :: as) + limbsVal n (b2 :: bs) + (a + b + c) / 2 ^ n) = 2 ^ n * limbsVal n (a2 :: as) + 2 ^ n * limbsVal n (b2 :: bs) + 2 ^ n * ((a + b + c) / 2 ^ n) := by rw [Nat.mul_add, Nat.mul_add]
              omega
            · simp

/-- `my_is_less` on limbs in range. -/
theorem myIsLess_enc {n : Nat} (h32 : n < 32) (hn : 2 ^ (n + 1) ≤ cn.modulus) {a b : Nat} (ha : a < 2 ^ n) (hb : b < 2 ^ n) :
    myIsLess n (a : F) (b : F) = pure (ofBool (decide (a < b))) := by
  have hX : a + 2 ^ n - b < 2 ^ (n + 1) := by rw [Nat.pow_succ]; omega
  have e : (a : F) + ((shl32 n : Nat) : F) + -(b : F) = ((a + 2 ^ n - b : Nat) : F) := by
    rw [shl32_lt h32, Nat.cast_sub (by omega), Nat.cast_add, sub_eq_add_neg]
  rw [myIsLess, e, toBinary_nat cn hn hX, Rel.pure_bind, lb_getD (by omega)]
  by_cases h : a < b
  · rw [Nat.div_eq_of_lt (by omega)]; simp [h, ofBool]
  · have : (a + 2 ^ n - b) / 2 ^ n = 1 := by
      apply Nat.div_eq_of_lt_le <;> omega
    rw [this]; simp [h, ofBool]

theorem isZeroF_sub (hm : 0 < cn.modulus) {a b : Nat} (ha : a < cn.modulus) (hb : b < cn.modulus) : isZeroF ((a : F) - (b : F)) = ofBool (decide (a = b)) := by
  rw [isZeroF, ofBool]
  have : ((a : F) - (b : F) = 0) ↔ a = b := by
    rw [sub_eq_zero]
    exact ⟨fun h => by rw [← cn.toNat_cast a ha, h, cn.toNat_cast b hb], fun h => by rw [h]⟩
  by_cases h : a = b <;> simp [this, h]

theorem limbCmp_enc {n : Nat} (h32 : n < 32) (hn : 2 ^ (n + 1) ≤ cn.modulus) : ∀ (A B : List Nat), A.length = B.length →
    (∀ x ∈ A, x < 2 ^ n) → (∀ x ∈ B, x < 2 ^ n) → ∀ (ra rb : List F),
    limbCmp n A.length (enc A ++ ra : List F) (enc B ++ rb) =
      pure ((List.zipWith (fun a b => decide (a < b)) A B).map ofBool, (List.zipWith (fun a b => decide (a = b)) A B).map ofBool) := by
  intro A
  induction A with
  | nil => intro B h _ _ ra rb; rfl
  | cons a as ih =>
    intro B h hA hB ra rb
    cases B with
    | nil => simp at h
    | cons b bs =>
      have ha := hA a (by simp)
      have hb := hB b (by simp)
      have hp : (2 : Nat) ^ n < 2 ^ (n + 1) := by rw [Nat.pow_succ]; have := Nat.two_pow_pos n; omega
      have hr := ih bs (by simpa using h) (fun x hx => hA x (by simp [hx])) (fun x hx => hB x (by simp [hx])) ra rb
      show limbCmp n (as.length + 1) ((a : F) :: (enc as ++ ra)) ((b : F) :: (enc bs ++ rb)) = _
      rw [limbCmp, myIsLess_enc cn h32 hn ha hb, Rel.pure_bind, hr, Rel.pure_bind, isZeroF_sub cn (by omega) (by omega) (by omega)]
      rfl

end Verif.Std.ShaM31
