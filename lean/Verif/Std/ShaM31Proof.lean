import Verif.Std.ShaM31
import Verif.Std.Sha256Root
import Verif.Frontend.Gt
/-!
The operations of the SHA-256 gadget over large fields: what their constraints admit.
-/
set_option linter.unusedSimpArgs false
set_option linter.unusedSectionVars false
namespace Verif.Std.ShaM31
open Verif.IR Verif.IR.Source Verif.Builder Verif.Fips Verif.Frontend
open Verif.Hints

theorem Rel.pure_bind {α β : Type} (a : α) (f : α → Rel β) : ((pure a : Rel α) >>= f) = f a := by
  funext b
  exact propext ⟨fun ⟨_, h, g⟩ => by cases h; exact g, fun h => ⟨a, rfl, h⟩⟩

variable {F : Type} [Field F] [DecidableEq F]

/-- The `n` low bits of a number, least significant first. -/
def lb (n X : Nat) : List F := (bitsOf n X).map ofBool

/-- The bits of a word. -/
def W (w : W32) : List F := lb 32 w.toNat

theorem lb_length (n X : Nat) : (lb n X : List F).length = n := by simp [lb, bitsOf_length]

theorem bitsOf_get : ∀ (n X i : Nat), (bitsOf n X)[i]? = if i < n then some (X.testBit i) else none := by
  intro n
  induction n with
  | zero => intro X i; simp [bitsOf]
  | succ n ih =>
    intro X i
    cases i with
    | zero => simp [bitsOf, Nat.testBit_zero, beq_eq_decide]
    | succ i =>
      simp only [bitsOf, List.getElem?_cons_succ, ih, Nat.testBit_succ]
      by_cases h : i < n
      · rw [if_pos h, if_pos (by omega)]
      · rw [if_neg h, if_neg (by omega)]

theorem bitsOf_mod (n X : Nat) : bitsOf n (X % 2 ^ n) = bitsOf n X := by
  apply List.ext_getElem?
  intro i
  rw [bitsOf_get, bitsOf_get]
  by_cases h : i < n
  · rw [if_pos h, if_pos h, Nat.testBit_mod_two_pow, decide_eq_true h, Bool.true_and]
  · rw [if_neg h, if_neg h]

theorem bitsOf_take {n k : Nat} (h : k ≤ n) (X : Nat) : (bitsOf n X).take k = bitsOf k X := by
  apply List.ext_getElem?
  intro i
  rw [List.getElem?_take, bitsOf_get, bitsOf_get]
  by_cases hi : i < k
  · rw [if_pos hi, if_pos hi, if_pos (by omega)]
  · rw [if_neg hi, if_neg hi]

theorem bitsOf_drop (n k X : Nat) : (bitsOf n X).drop k = bitsOf (n - k) (X / 2 ^ k) := by
  apply List.ext_getElem?
  intro i
  rw [List.getElem?_drop, bitsOf_get, bitsOf_get, Nat.testBit_div_two_pow, Nat.add_comm i k]
  by_cases hi : k + i < n
  · rw [if_pos hi, if_pos (by omega)]
  · rw [if_neg hi, if_neg (by omega)]

theorem bitsOf_append (n m X Y : Nat) (h : X < 2 ^ n) : bitsOf n X ++ bitsOf m Y = bitsOf (n + m) (X + 2 ^ n * Y) := by
  have h1 : bitsOf n X = (bitsOf (n + m) (X + 2 ^ n * Y)).take n := by
    rw [bitsOf_take (by omega), ← bitsOf_mod n (X + 2 ^ n * Y), Nat.add_mul_mod_self_left, Nat.mod_eq_of_lt h]
  have h2 : bitsOf m Y = (bitsOf (n + m) (X + 2 ^ n * Y)).drop n := by
    rw [bitsOf_drop, Nat.add_sub_cancel_left, Nat.add_mul_div_left _ _ (Nat.two_pow_pos n), Nat.div_eq_of_lt h, Nat.zero_add]
  rw [h1, h2, List.take_append_drop]

theorem lb_mod (n X : Nat) : (lb n (X % 2 ^ n) : List F) = lb n X := by rw [lb, lb, bitsOf_mod]
theorem lb_take {n k : Nat} (h : k ≤ n) (X : Nat) : (lb n X : List F).take k = lb k X := by rw [lb, lb, ← List.map_take, bitsOf_take h]
theorem lb_drop (n k X : Nat) : (lb n X : List F).drop k = lb (n - k) (X / 2 ^ k) := by rw [lb, lb, ← List.map_drop, bitsOf_drop]
theorem lb_append (n m X Y : Nat) (h : X < 2 ^ n) : (lb n X ++ lb m Y : List F) = lb (n + m) (X + 2 ^ n * Y) := by
  rw [lb, lb, lb, ← List.map_append, bitsOf_append n m X Y h]

theorem lb_getD {n i : Nat} (h : i < n) (X : Nat) : (lb n X : List F).getD i 0 = ((X / 2 ^ i % 2 : Nat) : F) := by
  rw [List.getD_eq_getElem?_getD, lb, List.getElem?_map, bitsOf_get, if_pos h, Nat.testBit_eq_decide_div_mod_eq]
  rcases Nat.mod_two_eq_zero_or_one (X / 2 ^ i) with h | h <;> simp [h, ofBool]

theorem fromBinary_loop : ∀ (l : List F) (k : Nat) (r : F),
    (l.zipIdx k).foldl (fun res p => res + (((2 ^ p.2 : Nat) : F) * p.1)) r = r + ((2 ^ k : Nat) : F) * bitsSum l := by
  intro l
  induction l with
  | nil => intro k r; simp [bitsSum]
  | cons b l ih =>
    intro k r
    rw [List.zipIdx_cons, List.foldl_cons, ih, bitsSum, pow_succ]
    push_cast
    ring

theorem fromBinary_eq (l : List F) : fromBinary l = bitsSum l := by
  rw [fromBinary, fromBinary_loop]; simp

theorem fromBinary_lb (n X : Nat) : fromBinary (lb n X : List F) = ((X % 2 ^ n : Nat) : F) := by
  rw [fromBinary_eq, ← lb_mod, lb, bitsSum_bitsOf n _ (Nat.mod_lt _ (Nat.two_pow_pos n))]

section
variable (cn : Canon F)

/-- What `to_binary` admits, when the field is large enough. -/
theorem toBinary_nat {n : Nat} (hn : 2 ^ n ≤ cn.modulus) {X : Nat} (hX : X < 2 ^ n) : toBinary (X : F) n = pure (lb n X) := by
  funext l
  apply propext
  constructor
  · rintro ⟨h1, h2, h3⟩
    obtain ⟨Y, hY, rfl⟩ := bits_exist n l h1 h2
    rw [bitsSum_bitsOf n Y hY] at h3
    have : X = Y := by rw [← cn.toNat_cast X (by omega), ← cn.toNat_cast Y (by omega), h3]
    rw [this]; rfl
  · intro h
    cases h
    refine ⟨lb_length n X, ?_, bitsSum_bitsOf n X hX⟩
    intro b hb
    obtain ⟨p, _, rfl⟩ := List.mem_map.1 hb
    cases p <;> simp [ofBool]

/-- The argument of an admitted decomposition is small. -/
theorem toBinary_lt {x : F} {n : Nat} {l : List F} (h : toBinary x n l) : ∃ X : Nat, X < 2 ^ n ∧ x = (X : F) := by
  obtain ⟨h1, h2, h3⟩ := h
  obtain ⟨Y, hY, rfl⟩ := bits_exist n l h1 h2
  exact ⟨Y, hY, by rw [← h3, bitsSum_bitsOf n Y hY]⟩
end

theorem boolOp_bool (op : BoolOp) (a b : Bool) : boolOp op (ofBool a : F) (ofBool b) =
    pure (ofBool (match op with | .xor => a ^^ b | .or => a || b | .and => a && b)) := by
  funext r
  apply propext
  have e : op.eval (ofBool a : F) (ofBool b) = ofBool (match op with | .xor => a ^^ b | .or => a || b | .and => a && b) := by
    cases op <;> cases a <;> cases b <;> simp [BoolOp.eval, ofBool]; ring
  constructor
  · rintro ⟨_, _, h⟩; rw [← e]; exact h
  · intro h
    refine ⟨?_, ?_, by rw [e]; exact h⟩
    · cases a <;> simp [ofBool]
    · cases b <;> simp [ofBool]

theorem xor3_bool : ∀ a b c : List Bool, a.length = b.length → b.length = c.length →
    xor3 (a.map ofBool : List F) (b.map ofBool) (c.map ofBool) = pure ((List.zipWith xor (List.zipWith xor a b) c).map ofBool) := by
  intro a
  induction a with
  | nil => intro b c h1 h2; cases b with | nil => rfl | cons _ _ => simp at h1
  | cons x a ih =>
    intro b c h1 h2
    cases b with
    | nil => simp at h1
    | cons y b => cases c with
      | nil => simp at h2
      | cons z c =>
        simp only [List.map_cons, xor3, boolOp_bool, Rel.pure_bind, ih b c (by simpa using h1) (by simpa using h2), List.zipWith_cons_cons]

theorem ch_bool : ∀ a b c : List Bool, a.length = b.length → b.length = c.length →
    ch (a.map ofBool : List F) (b.map ofBool) (c.map ofBool) =
      pure ((List.zipWith xor (List.zipWith and a b) (List.zipWith and (a.map not) c)).map ofBool) := by
  intro a
  induction a with
  | nil => intro b c h1 h2; cases b with | nil => rfl | cons _ _ => simp at h1
  | cons x a ih =>
    intro b c h1 h2
    cases b with
    | nil => simp at h1
    | cons y b => cases c with
      | nil => simp at h2
      | cons z c =>
        have e : (1 : F) = ofBool true := rfl
        simp only [List.map_cons, ch, e, boolOp_bool, Rel.pure_bind, ih b c (by simpa using h1) (by simpa using h2), List.zipWith_cons_cons, Bool.xor_true]

theorem maj_bool : ∀ a b c : List Bool, a.length = b.length → b.length = c.length →
    maj (a.map ofBool : List F) (b.map ofBool) (c.map ofBool) =
      pure ((List.zipWith xor (List.zipWith and b c) (List.zipWith xor (List.zipWith and a b) (List.zipWith and a c))).map ofBool) := by
  intro a
  induction a with
  | nil => intro b c h1 h2; cases b with | nil => rfl | cons _ _ => simp at h1
  | cons x a ih =>
    intro b c h1 h2
    cases b with
    | nil => simp at h1
    | cons y b => cases c with
      | nil => simp at h2
      | cons z c =>
        simp only [List.map_cons, maj, boolOp_bool, Rel.pure_bind, ih b c (by simpa using h1) (by simpa using h2), List.zipWith_cons_cons]

/-- A list of 32 bits is the word with these bits. -/
theorem eq_W {l : List Bool} {w : W32} (h : ∀ i, l[i]? = if i < 32 then some (w.getLsbD i) else none) : (l.map ofBool : List F) = W w := by
  rw [W, lb]
  congr 1
  apply List.ext_getElem?
  intro i
  rw [h, bitsOf_get]
  rfl

/-- The bits of a word, as booleans. -/
def WB (w : W32) : List Bool := bitsOf 32 w.toNat
theorem W_eq (w : W32) : (W w : List F) = (WB w).map ofBool := rfl
theorem WB_get (w : W32) (i : Nat) : (WB w)[i]? = if i < 32 then some (w.getLsbD i) else none := bitsOf_get _ _ _
theorem WB_length (w : W32) : (WB w).length = 32 := bitsOf_length _ _
theorem W_length (w : W32) : (W w : List F).length = 32 := lb_length _ _

theorem rotate_W (x : W32) {k : Nat} (hk : k < 32) : rotateRight (W x : List F) k = W (x.rotateRight k) := by
  rw [rotateRight, W_eq, ← List.map_drop, ← List.map_take, ← List.map_append]
  apply eq_W
  intro i
  rw [List.getElem?_append, List.length_drop, WB_length, List.getElem?_drop, List.getElem?_take, WB_get, WB_get, BitVec.getLsbD_rotateRight,
    Nat.mod_eq_of_lt hk]
  by_cases h1 : i < 32 - k
  · rw [if_pos h1, if_pos (by omega), if_pos (by omega), decide_eq_true h1, cond_true]
  · rw [if_neg h1, decide_eq_false h1, cond_false]
    by_cases h2 : i < 32
    · rw [if_pos (by omega), if_pos (by omega), if_pos h2]
      simp [h2]
    · rw [if_neg (by omega), if_neg h2]

theorem shift_W (x : W32) {k : Nat} (hk : k ≤ 32) : rightShift (W x : List F) k = W (x >>> k) := by
  have e : List.replicate k (0 : F) = (List.replicate k false).map ofBool := by rw [List.map_replicate]; rfl
  rw [rightShift, W_eq, e, ← List.map_drop, ← List.map_append]
  apply eq_W
  intro i
  rw [List.getElem?_append, List.length_drop, WB_length, List.getElem?_drop, WB_get, BitVec.getLsbD_ushiftRight]
  by_cases h1 : i < 32 - k
  · rw [if_pos h1, if_pos (by omega), if_pos (by omega)]
  · rw [if_neg h1, List.getElem?_replicate]
    by_cases h2 : i < 32
    · rw [if_pos (by omega), if_pos h2, BitVec.getLsbD_of_ge _ _ (by omega)]
    · rw [if_neg (by omega), if_neg h2]

theorem xor3_W (x y z : W32) : xor3 (W x : List F) (W y) (W z) = pure (W (x ^^^ y ^^^ z)) := by
  rw [W_eq, W_eq, W_eq, xor3_bool _ _ _ (by simp [WB_length]) (by simp [WB_length])]
  congr 1
  apply eq_W
  intro i
  rw [List.getElem?_zipWith, List.getElem?_zipWith, WB_get, WB_get, WB_get]
  by_cases h : i < 32
  · simp [h]
  · simp [h]

theorem ch_W (x y z : W32) : ch (W x : List F) (W y) (W z) = pure (W (Ch x y z)) := by
  rw [W_eq, W_eq, W_eq, ch_bool _ _ _ (by simp [WB_length]) (by simp [WB_length])]
  congr 1
  apply eq_W
  intro i
  rw [List.getElem?_zipWith, List.getElem?_zipWith, List.getElem?_zipWith, List.getElem?_map, WB_get, WB_get, WB_get]
  by_cases h : i < 32
  · simp [h, Ch]
  · simp [h]

theorem maj_W (x y z : W32) : maj (W x : List F) (W y) (W z) = pure (W (Maj x y z)) := by
  rw [W_eq, W_eq, W_eq, maj_bool _ _ _ (by simp [WB_length]) (by simp [WB_length])]
  congr 1
  apply eq_W
  intro i
  rw [List.getElem?_zipWith, List.getElem?_zipWith, List.getElem?_zipWith, List.getElem?_zipWith, List.getElem?_zipWith, WB_get, WB_get, WB_get]
  by_cases h : i < 32
  · simp [h, Maj]
    generalize x[i] = a; generalize y[i] = b; generalize z[i] = c
    revert a b c; decide
  · simp [h]

theorem sigma0_W (x : W32) : sigma0 (W x : List F) = pure (W (smallSigma0 x)) := by
  rw [sigma0, rotate_W x (by omega), rotate_W x (by omega), shift_W x (by omega), xor3_W]; rfl
theorem sigma1_W (x : W32) : sigma1 (W x : List F) = pure (W (smallSigma1 x)) := by
  rw [sigma1, rotate_W x (by omega), rotate_W x (by omega), shift_W x (by omega), xor3_W]; rfl
theorem capSigma0_W (x : W32) : capSigma0 (W x : List F) = pure (W (bigSigma0 x)) := by
  rw [capSigma0, rotate_W x (by omega), rotate_W x (by omega), rotate_W x (by omega), xor3_W]; rfl
theorem capSigma1_W (x : W32) : capSigma1 (W x : List F) = pure (W (bigSigma1 x)) := by
  rw [capSigma1, rotate_W x (by omega), rotate_W x (by omega), rotate_W x (by omega), xor3_W]; rfl

theorem bitArray26_W (w : W32) : bitArray26 (W w : List F) = split26 w.toNat := by
  rw [bitArray26, W, lb_take (by omega), lb_drop, fromBinary_lb, fromBinary_lb, split26]
  have := w.isLt
  rw [Nat.mod_eq_of_lt (a := w.toNat / 2 ^ 26) (by omega)]

/-- Two limbs, possibly overflowing, that stand for a word: sums of `k` words. -/
def Holds (p : F × F) (w : W32) (k : Nat) : Prop :=
  ∃ a b : Nat, p = ((a : F), (b : F)) ∧ a ≤ k * (2 ^ 26 - 1) ∧ b ≤ k * 63 ∧ BitVec.ofNat 32 (a + 2 ^ 26 * b) = w

theorem holds_split (w : W32) : Holds (split26 w.toNat : F × F) w 1 := by
  have := w.isLt
  refine ⟨w.toNat % 2 ^ 26, w.toNat / 2 ^ 26, rfl, ?_, ?_, ?_⟩
  · have := Nat.mod_lt w.toNat (show 0 < 2 ^ 26 by decide); omega
  · omega
  · rw [Nat.mod_add_div]; simp

theorem Holds.add {p q : F × F} {v w : W32} {k j : Nat} (h : Holds p v k) (g : Holds q w j) : Holds (addNR p q) (v + w) (k + j) := by
  obtain ⟨a, b, rfl, h1, h2, rfl⟩ := h
  obtain ⟨c, d, rfl, g1, g2, rfl⟩ := g
  refine ⟨a + c, b + d, ?_, ?_, ?_, ?_⟩
  · rw [addNR]; push_cast; rfl
  · rw [Nat.add_mul]; omega
  · omega
  · rw [← BitVec.ofNat_add]; congr 1; ring

section
variable (cn : Canon F) (hm : 2 ^ 30 ≤ cn.modulus)
include hm

theorem toWord_holds {p : F × F} {w : W32} {k : Nat} (h : Holds p w k) (hk : k ≤ 15) (ov : Nat) (ho : k * 64 ≤ 2 ^ (7 + ov)) (hov : ov ≤ 20) :
    toWord p ov = pure (W w) := by
  obtain ⟨a, b, rfl, h1, h2, rfl⟩ := h
  have ha : a < 2 ^ 30 := by
    have : k * (2 ^ 26 - 1) ≤ 15 * (2 ^ 26 - 1) := Nat.mul_le_mul_right _ hk
    omega
  have hp : 2 ^ (7 + ov) ≤ cn.modulus := le_trans (Nat.pow_le_pow_right (by omega) (by omega)) hm
  rw [toWord, sepBits]
  dsimp only
  rw [toBinary_nat cn hm ha, Rel.pure_bind, lb_drop, fromBinary_lb, lb_take (by omega)]
  have hc : a / 2 ^ 26 % 2 ^ (30 - 26) = a / 2 ^ 26 := Nat.mod_eq_of_lt (by omega)
  rw [hc]
  have hs : b + a / 2 ^ 26 < 2 ^ (7 + ov) := by
    rcases Nat.eq_zero_or_pos k with rfl | hk0
    · have := Nat.two_pow_pos (7 + ov); omega
    · omega
  rw [← Nat.cast_add, show 6 + ov + 1 = 7 + ov by omega, toBinary_nat cn hp hs, Rel.pure_bind, Rel.pure_bind]
  congr 1
  rw [List.take_append, lb_length, List.take_of_length_le (by rw [lb_length]; omega), show 32 - 26 = 6 by omega, lb_take (by omega),
    ← lb_mod 26 a, lb_append 26 6 _ _ (Nat.mod_lt _ (by decide)), W, BitVec.toNat_ofNat, lb_mod]
  congr 1
  have := Nat.mod_add_div a (2 ^ 26)
  rw [Nat.mul_add]
  omega

theorem shaAdd_split (x y : W32) : shaAdd (split26 x.toNat : F × F) (split26 y.toNat) 26 = pure (split26 (x + y).toNat) := by
  have hx := x.isLt
  have hy := y.isLt
  rw [shaAdd]
  simp only [split26, add_zero]
  rw [← Nat.cast_add, toBinary_nat cn (n := 26 + 1) (by omega) (by omega), Rel.pure_bind, lb_getD (by omega), ← Nat.cast_add, ← Nat.cast_add, toBinary_nat cn (n := 7) (by omega) (by omega), Rel.pure_bind, lb_getD (by omega),
    ← Nat.cast_mul, ← Nat.cast_mul, ← Nat.cast_sub (by omega), ← Nat.cast_sub (by omega), BitVec.toNat_add]
  congr 3 <;> congr 1 <;> omega

theorem putU32_split (x : W32) : putU32 (split26 x.toNat : F × F) =
    pure ([x.toNat / 2 ^ 24, x.toNat / 2 ^ 16 % 256, x.toNat / 2 ^ 8 % 256, x.toNat % 256].map (Nat.cast : Nat → F)) := by
  have hx := x.isLt
  have hd : ∀ X : Nat, X < 2 ^ 30 → idivModBit (X : F) 8 = pure (((X / 2 ^ 8 : Nat) : F), ((X % 2 ^ 8 : Nat) : F)) := by
    intro X hX
    rw [idivModBit, toBinary_nat cn hm hX, Rel.pure_bind, lb_drop, lb_take (by omega), fromBinary_lb, fromBinary_lb,
      Nat.mod_eq_of_lt (a := X / 2 ^ 8) (by omega)]
  unfold putU32
  simp only [split26]
  rw [hd _ (by omega), Rel.pure_bind]
  dsimp only
  rw [hd _ (by omega), Rel.pure_bind]
  dsimp only
  rw [hd _ (by omega), Rel.pure_bind]
  dsimp only
  rw [← Nat.cast_mul, ← Nat.cast_add]
  simp only [List.map_cons, List.map_nil]
  congr 1
  have e1 : x.toNat % 2 ^ 26 / 2 ^ 8 / 2 ^ 8 / 2 ^ 8 + x.toNat / 2 ^ 26 * 2 ^ 2 = x.toNat / 2 ^ 24 := by omega
  have e2 : x.toNat % 2 ^ 26 / 2 ^ 8 / 2 ^ 8 % 2 ^ 8 = x.toNat / 2 ^ 16 % 256 := by omega
  have e3 : x.toNat % 2 ^ 26 / 2 ^ 8 % 2 ^ 8 = x.toNat / 2 ^ 8 % 256 := by omega
  have e4 : x.toNat % 2 ^ 26 % 2 ^ 8 = x.toNat % 256 := by omega
  rw [e1, e2, e3, e4]

theorem bytesToBits_four {a b c d : Nat} (ha : a < 256) (hb : b < 256) (hc : c < 256) (hd : d < 256) :
    bytesToBits [(a : F), (b : F), (c : F), (d : F)] = pure (lb 32 (a * 2 ^ 24 + b * 2 ^ 16 + c * 2 ^ 8 + d)) := by
  have h8 : 2 ^ 8 ≤ cn.modulus := by omega
  simp only [bytesToBits, List.headD_cons, List.drop_succ_cons, List.drop_zero]
  rw [toBinary_nat cn h8 (by omega), Rel.pure_bind]
  simp only [bytesLoop]
  rw [toBinary_nat cn h8 (by omega), Rel.pure_bind, toBinary_nat cn h8 (by omega), Rel.pure_bind, toBinary_nat cn h8 (by omega), Rel.pure_bind,
    lb_append 8 8 b a (by omega), lb_append 8 _ c _ (by omega), lb_append 8 _ d _ (by omega)]
  congr 2
  omega

end
end Verif.Std.ShaM31
