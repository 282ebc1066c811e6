import Verif.Std.EmulatedOps
import Mathlib.Tactic.Ring
import Mathlib.Tactic.LinearCombination
/-!
What a multiplication check that holds at every challenge says: an equation in the native field, and no more.
-/
set_option linter.unusedSectionVars false
set_option linter.unusedSimpArgs false
namespace Verif.Std.Emu
open Verif.Std.ShaM31 (simpleSelect limbsVal limbsVal_append limbsVal_take limbsVal_lt)

variable {F : Type} [Field F] [DecidableEq F]

/-- The value of a polynomial given by its coefficients. -/
def pev : List F → F → F
  | [], _ => 0
  | a :: l, x => a + x * pev l x

theorem evalAt_loop (x : F) : ∀ (l : List F) (k : Nat) (s : F), (l.zipIdx k).foldl (fun sum p => sum + p.1 * x ^ p.2) s = s + x ^ k * pev l x := by
  intro l
  induction l with
  | nil => intro k s; simp [pev]
  | cons a l ih =>
    intro k s
    rw [List.zipIdx_cons, List.foldl_cons, ih, pev]
    dsimp only
    rw [pow_succ]; ring

theorem evalAt_eq (l : List F) (x : F) : evalAt l x = pev l x := by rw [evalAt, evalAt_loop]; simp

/-- A function given by a polynomial with `n` coefficients. -/
def IsPoly (n : Nat) (f : F → F) : Prop := ∃ l : List F, l.length = n ∧ ∀ x, pev l x = f x

theorem isPoly_list (l : List F) : IsPoly l.length (pev l) := ⟨l, rfl, fun _ => rfl⟩

theorem isPoly_zero (n : Nat) : IsPoly n (fun _ : F => 0) := by
  refine ⟨List.replicate n 0, by simp, fun x => ?_⟩
  induction n with
  | zero => rfl
  | succ n ih => rw [List.replicate_succ, pev, ih]; ring

theorem isPoly_comb (c d : F) : ∀ {n : Nat} {f g : F → F}, IsPoly n f → IsPoly n g → IsPoly n (fun x => c * f x + d * g x) := by
  rintro n f g ⟨l, rfl, hl⟩ ⟨k, hk, hk'⟩
  refine ⟨List.zipWith (fun a b => c * a + d * b) l k, by simp [hk], fun x => ?_⟩
  dsimp only
  rw [← hl, ← hk']
  clear hl hk'
  induction l generalizing k with
  | nil => rw [List.length_eq_zero_iff.1 hk]; simp [pev]
  | cons a l ih =>
    cases k with
    | nil => simp at hk
    | cons b k =>
      have := ih k (by simpa using hk)
      rw [List.zipWith_cons_cons, pev, this, pev, pev]; ring

theorem isPoly_shift {n : Nat} {f : F → F} (h : IsPoly n f) : IsPoly (n + 1) (fun x => x * f x) := by
  obtain ⟨l, rfl, hl⟩ := h
  exact ⟨0 :: l, by simp, fun x => by rw [pev, hl]; ring⟩

theorem isPoly_succ {n : Nat} {f : F → F} (h : IsPoly n f) : IsPoly (n + 1) f := by
  obtain ⟨l, rfl, hl⟩ := h
  refine ⟨l ++ [0], by simp, fun x => ?_⟩
  rw [← hl]
  clear hl
  induction l with
  | nil => simp [pev]
  | cons a l ih => rw [List.cons_append, pev, ih, pev]

theorem isPoly_mono {n m : Nat} (hnm : n ≤ m) {f : F → F} (h : IsPoly n f) : IsPoly m f := by
  induction m with
  | zero => rwa [Nat.le_zero.1 hnm] at h
  | succ m ih =>
    rcases Nat.lt_or_ge m n with h1 | h1
    · rwa [show n = m + 1 by omega] at h
    · exact isPoly_succ (ih h1)

theorem isPoly_mul : ∀ {n m : Nat} {f g : F → F}, 0 < n → 0 < m → IsPoly n f → IsPoly m g → IsPoly (n + m - 1) (fun x => f x * g x) := by
  rintro n m f g hn hm ⟨l, hl, hf⟩ hg
  induction l generalizing n f with
  | nil => simp at hl; omega
  | cons a l ih =>
    cases l with
    | nil =>
      have := isPoly_comb a 0 hg hg
      rw [show n + m - 1 = m by simp at hl; omega]
      obtain ⟨k, hk, hk'⟩ := this
      refine ⟨k, hk, fun x => ?_⟩
      rw [hk']; dsimp only; rw [← hf]; simp [pev]
    | cons b l =>
      obtain ⟨k1, h1, h1'⟩ := isPoly_shift (ih (n := n - 1) (f := pev (b :: l)) (by simp at hl; omega) (by simp at hl ⊢; omega) fun _ => rfl)
      obtain ⟨k, hk, hk'⟩ := isPoly_comb a 1 (isPoly_mono (m := n - 1 + m - 1 + 1) (by simp at hl; omega) hg) ⟨k1, h1, h1'⟩
      refine ⟨k, by rw [hk]; simp at hl; omega, fun x => ?_⟩
      rw [hk']; dsimp only; rw [← hf]; simp only [pev]; ring

/-- Division by `t - x`. -/
theorem isPoly_root (t : F) : ∀ {n : Nat} {f : F → F}, IsPoly (n + 1) f → ∃ g, IsPoly n g ∧ ∀ x, f x = f t + g x * (t - x) := by
  rintro n f ⟨l, hl, hf⟩
  induction n generalizing l f with
  | zero =>
    obtain ⟨a, rfl⟩ := List.length_eq_one_iff.1 hl
    refine ⟨fun _ => 0, isPoly_zero 0, fun x => ?_⟩
    rw [← hf, ← hf]; simp [pev]
  | succ n ih =>
    cases l with
    | nil => simp at hl
    | cons a l =>
      obtain ⟨g, ⟨k, hk, hk'⟩, h⟩ := ih (f := pev l) l (by simpa using hl) fun _ => rfl
      refine ⟨fun x => x * g x - pev l t, ?_, fun x => ?_⟩
      · refine ⟨(-pev l t) :: k, by simp [hk], fun x => ?_⟩
        rw [pev, hk']; ring
      · rw [← hf, ← hf, pev, pev]
        dsimp only
        have := h x
        linear_combination x * this

variable (cn : Canon F) (P : Params)

theorem pev_value (l : List F) : pev l ((2 ^ P.bits : Nat) : F) = ((value cn P l : Nat) : F) := by
  rw [value]
  induction l with
  | nil => simp [pev, limbsVal]
  | cons a l ih => rw [pev, ih, List.map_cons, limbsVal, Nat.cast_add, Nat.cast_mul, cn.cast_toNat]

variable {cn P}

theorem nConst_value (hg : Good cn P) : value cn P (nConst P : El F).limbs = P.modulus := (digits_el hg P.modulus (modulus_lt hg)).1

/-- A check that holds at every challenge, for some carries, is an equation in the native field. -/
theorem check_iff (hg : Good cn P) {a b r k : List F} (ha : a ≠ []) (hb : b ≠ []) (hk : k ≠ []) (hn : 0 < P.nlimbs) (hr : r.length ≤ P.nlimbs) :
    (∃ c : List F, c.length = max (mulLimbs a.length b.length) (mulLimbs k.length P.nlimbs) - 1 ∧ ∀ ch, MulCheck.check P ⟨a, b, r, k, c, []⟩ ch) ↔
      ((value cn P a * value cn P b : Nat) : F) = ((value cn P r + value cn P k * P.modulus : Nat) : F) := by
  have hpv : pev (nConst P : El F).limbs ((2 ^ P.bits : Nat) : F) = ((P.modulus : Nat) : F) := by rw [pev_value cn, nConst_value hg]
  constructor
  · rintro ⟨c, -, hc⟩
    have := hc ((2 ^ P.bits : Nat) : F)
    simp only [MulCheck.check, evalAt_eq, if_true, sub_self, mul_zero, add_zero, pev_value cn, nConst_value hg] at this
    rw [Nat.cast_mul, Nat.cast_add, Nat.cast_mul, this]; ring
  · intro h
    have la : 0 < a.length := List.length_pos_of_ne_nil ha
    have lb : 0 < b.length := List.length_pos_of_ne_nil hb
    have lk : 0 < k.length := List.length_pos_of_ne_nil hk
    have lp : (nConst P : El F).limbs.length = P.nlimbs := by simp [nConst, El.int, (digits_spec _ _ _).1]
    have h1 := isPoly_mul la lb (isPoly_list a) (isPoly_list b)
    have h2 := isPoly_mul lk hn (isPoly_list k) (lp ▸ isPoly_list (nConst P : El F).limbs)
    set n := max (mulLimbs a.length b.length) (mulLimbs k.length P.nlimbs) with hnd
    have e1 : mulLimbs a.length b.length = a.length + b.length - 1 := rfl
    have e2 : mulLimbs k.length P.nlimbs = k.length + P.nlimbs - 1 := rfl
    have h1' := isPoly_mono (m := n) (by omega) h1
    have h2' := isPoly_mono (m := n) (by omega) h2
    have h3' := isPoly_mono (m := n) (by omega) (isPoly_list r)
    have h4 := isPoly_comb 1 (-1) (isPoly_comb 1 (-1) h1' h2') h3'
    rw [show n = (n - 1) + 1 by omega] at h4
    obtain ⟨g, ⟨c, hc, hc'⟩, hroot⟩ := isPoly_root ((2 ^ P.bits : Nat) : F) h4
    refine ⟨c, hc, fun ch => ?_⟩
    simp only [MulCheck.check, evalAt_eq, if_true, hc']
    have h5 := hroot ch
    simp only [pev_value cn, nConst_value hg] at h5
    rw [Nat.cast_mul, Nat.cast_add, Nat.cast_mul] at h
    linear_combination h5 + h

end Verif.Std.Emu
