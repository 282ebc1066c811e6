import Verif.Std.BigIntAdv
/-!
Limbs in range: soundness of addition against every prover, completeness of all gadgets for the honest one.
-/
set_option linter.unusedSimpArgs false
set_option linter.unusedSectionVars false
namespace Verif.Std.BigInt
open Verif.Hints

variable {F : Type} [Field F] [DecidableEq F] (cn : Canon F)

/-- The constant `2^120` of the circuits (u120.rs:12-13). -/
def two120 (F : Type) [Field F] : F := ((2 ^ 120 : Nat) : F)

theorem eq_of_cast {a b : Nat} (ha : a < cn.modulus) (hb : b < cn.modulus) (h : (a : F) = (b : F)) : a = b := by
  rw [← cn.toNat_cast a ha, ← cn.toNat_cast b hb, h]

theorem toNat_zero : cn.toNat 0 = 0 := by
  have h : 0 < cn.modulus := Nat.lt_of_le_of_lt (Nat.zero_le _) (cn.toNat_lt 0)
  simpa using cn.toNat_cast 0 h

theorem one_lt : 1 < cn.modulus := by
  by_contra h
  have h0 := cn.toNat_lt (0 : F)
  have h1 := cn.toNat_lt (1 : F)
  have e : cn.toNat (0 : F) = cn.toNat (1 : F) := by omega
  have := congrArg (Nat.cast (R := F)) e
  rw [cn.cast_toNat, cn.cast_toNat] at this
  exact zero_ne_one this

theorem toNat_one : cn.toNat 1 = 1 := by simpa using cn.toNat_cast 1 (one_lt cn)

theorem IsBool.toNat_le {c : F} (h : IsBool c) : cn.toNat c ≤ 1 := by
  rcases h with rfl | rfl
  · rw [toNat_zero]; omega
  · rw [toNat_one]

/-- Sum of the pairs, as an integer. -/
def numP (l : List (F × F)) : Nat := l.foldr (fun p acc => cn.toNat p.1 + cn.toNat p.2 + 2 ^ 120 * acc) 0

theorem num_cons (x : F) (l : List F) : num cn (x :: l) = cn.toNat x + 2 ^ 120 * num cn l := rfl
theorem numP_cons (p : F × F) (l : List (F × F)) : numP cn (p :: l) = cn.toNat p.1 + cn.toNat p.2 + 2 ^ 120 * numP cn l := rfl

theorem numP_zip : ∀ (a b : List F), a.length = b.length → numP cn (a.zip b) = num cn a + num cn b := by
  intro a
  induction a with
  | nil => intro b h; rw [List.length_eq_zero_iff.1 h.symm]; rfl
  | cons x a ih => intro b h; cases b with
    | nil => simp at h
    | cons y b =>
      rw [List.zip_cons_cons, numP_cons, ih b (by simpa using h), num_cons, num_cons]
      simp only [Nat.mul_add]; omega

theorem num_lt {l : List F} (h : Limbs cn l) : num cn l < 2 ^ (120 * l.length) := by
  induction l with
  | nil => simp [num]
  | cons x l ih =>
    have h1 := h x (by simp)
    have h2 := ih fun y hy => h y (by simp [hy])
    rw [num_cons, List.length_cons, Nat.mul_add, Nat.pow_add, Nat.mul_one, Nat.mul_comm (2 ^ (120 * l.length))]
    have : 2 ^ 120 * (num cn l + 1) ≤ 2 ^ 120 * 2 ^ (120 * l.length) := Nat.mul_le_mul_left _ h2
    rw [Nat.mul_add, Nat.mul_one] at this
    omega

theorem num_inj : ∀ {a b : List F}, a.length = b.length → Limbs cn a → Limbs cn b → num cn a = num cn b → a = b := by
  intro a
  induction a with
  | nil => intro b h _ _ _; rw [List.length_eq_zero_iff.1 h.symm]
  | cons x a ih => intro b h ha hb e; cases b with
    | nil => simp at h
    | cons y b =>
      rw [num_cons, num_cons] at e
      have h1 := ha x (by simp)
      have h2 := hb y (by simp)
      have e1 : cn.toNat x = cn.toNat y := by omega
      have e2 : num cn a = num cn b := by omega
      rw [ih (by simpa using h) (fun z hz => ha z (by simp [hz])) (fun z hz => hb z (by simp [hz])) e2]
      have := congrArg (Nat.cast (R := F)) e1
      rw [cn.cast_toNat, cn.cast_toNat] at this
      rw [this]

/-- Two chains with the same limbs as result: the integers agree, up to the final carries. -/
theorem addChain_joint (O : Oracle F) (hm : 2 ^ 130 < cn.modulus) : ∀ (l k : List (F × F)) (c d : F) (rs : List F) (c' d' : F), l.length = k.length →
    (∀ p ∈ l, cn.toNat p.1 < 2 ^ 120 ∧ cn.toNat p.2 < 2 ^ 120) → (∀ p ∈ k, cn.toNat p.1 < 2 ^ 120 ∧ cn.toNat p.2 < 2 ^ 120) → IsBool c → IsBool d →
    addChain O (two120 F) l c rs c' → addChain O (two120 F) k d rs d' →
    IsBool c' ∧ IsBool d' ∧
    numP cn l + cn.toNat c + 2 ^ (120 * l.length) * cn.toNat d' = numP cn k + cn.toNat d + 2 ^ (120 * l.length) * cn.toNat c' := by
  intro l
  induction l with
  | nil =>
    intro k c d rs c' d' hl _ _ hc hd h1 h2
    obtain ⟨rfl, rfl⟩ := h1
    rw [List.length_eq_zero_iff.1 hl.symm] at h2 ⊢
    obtain ⟨-, rfl⟩ := h2
    exact ⟨hc, hd, by simp [numP]; omega⟩
  | cons p l ih =>
    intro k c d rs c' d' hl hp hk hc hd h1 h2
    cases k with
    | nil => simp at hl
    | cons q k =>
      obtain ⟨x, y⟩ := p
      obtain ⟨u, v⟩ := q
      obtain ⟨r, c1, rest, ⟨-, hr, hc1⟩, h1, rfl⟩ := h1
      obtain ⟨r2, d1, rest2, ⟨-, hr2, hd1⟩, h2, he⟩ := h2
      obtain ⟨rfl, rfl⟩ := List.cons.inj he
      obtain ⟨g1, g2, g3⟩ := ih k c1 d1 rest c' d' (by simpa using hl) (fun p hp' => hp p (by simp [hp'])) (fun p hp' => hk p (by simp [hp'])) hc1 hd1 h1 h2
      refine ⟨g1, g2, ?_⟩
      have hx := hp (x, y) (by simp)
      have hu := hk (u, v) (by simp)
      have b1 := hc.toNat_le cn; have b2 := hd.toNat_le cn; have b3 := hc1.toNat_le cn; have b4 := hd1.toNat_le cn
      simp only at hx hu
      have e : cn.toNat x + cn.toNat y + cn.toNat c + cn.toNat d1 * 2 ^ 120 = cn.toNat u + cn.toNat v + cn.toNat d + cn.toNat c1 * 2 ^ 120 := by
        apply eq_of_cast cn
        · omega
        · omega
        · have : x + y + c + d1 * two120 F = u + v + d + c1 * two120 F := by
            have := hr.symm.trans hr2
            calc x + y + c + d1 * two120 F = (x + y + c - c1 * two120 F) + c1 * two120 F + d1 * two120 F := by ring
              _ = (u + v + d - d1 * two120 F) + c1 * two120 F + d1 * two120 F := by rw [this]
              _ = _ := by ring
          simp only [Nat.cast_add, Nat.cast_mul, cn.cast_toNat]
          exact this
      simp only [numP_cons, List.length_cons, Nat.mul_add, Nat.pow_add, Nat.mul_one]
      rw [Nat.mul_comm (2 ^ (120 * l.length)) (2 ^ 120), Nat.mul_assoc, Nat.mul_assoc]
      omega

theorem num_map_bool {carry : F} (hc : IsBool carry) (l : List F) : num cn (l.map (carry * ·)) = cn.toNat carry * num cn l := by
  rcases hc with rfl | rfl
  · rw [toNat_zero, Nat.zero_mul]
    induction l with
    | nil => rfl
    | cons x l ih => rw [List.map_cons, num_cons, ih, zero_mul, toNat_zero]; rfl
  · rw [toNat_one, Nat.one_mul]; simp

theorem limbs_zip {a b : List F} (ha : Limbs cn a) (hb : Limbs cn b) : ∀ p ∈ a.zip b, cn.toNat p.1 < 2 ^ 120 ∧ cn.toNat p.2 < 2 ^ 120 := by
  intro p hp
  obtain ⟨h1, h2⟩ := List.of_mem_zip hp
  exact ⟨ha _ h1, hb _ h2⟩

theorem limbs_map_bool {carry : F} (hc : IsBool carry) {l : List F} (h : Limbs cn l) : Limbs cn (l.map (carry * ·)) := by
  intro x hx
  obtain ⟨y, hy, rfl⟩ := List.mem_map.1 hx
  rcases hc with rfl | rfl
  · simp [toNat_zero]
  · simpa using h y hy

/-- Whatever the prover does, an accepted addition of limbs in range is the integer addition up to one overflow of all limbs. -/
theorem assertAdd_sound (O : Oracle F) (hm : 2 ^ 130 < cn.modulus) {n : Nat} {x y result modulus : List F} {carry : F}
    (hx : x.length = n) (hy : y.length = n) (hr : result.length = n) (hM : modulus.length = n)
    (rx : Limbs cn x) (ry : Limbs cn y) (rr : Limbs cn result) (rM : Limbs cn modulus)
    (h : assertAdd O (two120 F) x y result carry modulus) :
    IsBool carry ∧ ∃ over : Nat, over ≤ 1 ∧ num cn x + num cn y = num cn result + cn.toNat carry * num cn modulus + 2 ^ (120 * n) * over := by
  obtain ⟨sum, c1, expected, c2, lt, h1, hc, h2, rfl, rfl, -, -⟩ := h
  obtain ⟨g1, -, g3⟩ := addChain_joint cn O hm _ _ 0 0 _ _ _ (by simp [hx, hy, hr, hM]) (limbs_zip cn rx ry) (limbs_zip cn rr (limbs_map_bool cn hc rM)) (.inl rfl) (.inl rfl) h1 h2
  rw [numP_zip cn _ _ (by omega), numP_zip cn _ _ (by simp; omega), num_map_bool cn hc, toNat_zero] at g3
  refine ⟨hc, cn.toNat c1, g1.toNat_le cn, ?_⟩
  simp only [List.length_zip, hx, hy, Nat.min_self, Nat.mul_zero, Nat.add_zero] at g3
  exact g3

/-! ### The honest prover -/

theorem toNat_two120 (hm : 2 ^ 130 < cn.modulus) : cn.toNat (two120 F) = 2 ^ 120 := cn.toNat_cast _ (by omega)

theorem ofBool_isBool (b : Bool) : IsBool (ofBool b : F) := by cases b <;> simp [ofBool, IsBool]

theorem toNat_ofBool (b : Bool) : cn.toNat (ofBool b : F) = if b then 1 else 0 := by
  cases b <;> simp [ofBool, toNat_zero, toNat_one]

theorem addU120_honest (hm : 2 ^ 130 < cn.modulus) (x y c : F) (h : cn.toNat x + cn.toNat y + cn.toNat c < 2 ^ 121) :
    ∃ r c', addU120 (honest cn) (two120 F) x y c r c' ∧ IsBool c' ∧ cn.toNat r < 2 ^ 120 ∧
      cn.toNat r + 2 ^ 120 * cn.toNat c' = cn.toNat x + cn.toNat y + cn.toNat c := by
  have hs : cn.toNat (x + y + c) = cn.toNat x + cn.toNat y + cn.toNat c := by
    rw [← cn.toNat_cast (cn.toNat x + cn.toNat y + cn.toNat c) (by omega)]
    simp only [Nat.cast_add, cn.cast_toNat]
  have hd : x + y + c = ((cn.toNat x + cn.toNat y + cn.toNat c : Nat) : F) := by simp only [Nat.cast_add, cn.cast_toNat]
  have hg : binop cn .greaterEq (x + y + c) (two120 F) = ofBool (decide (2 ^ 120 ≤ cn.toNat x + cn.toNat y + cn.toNat c)) := by
    show ofBool (decide (cn.toNat (two120 F) ≤ cn.toNat (x + y + c))) = _
    rw [hs, toNat_two120 cn hm]
  refine ⟨_, _, ⟨rfl, rfl, ?_⟩, ?_, ?_⟩
  · rw [hg]; exact ofBool_isBool _
  · rw [hg]; exact ofBool_isBool _
  · rw [hg, toNat_ofBool]
    by_cases hge : 2 ^ 120 ≤ cn.toNat x + cn.toNat y + cn.toNat c
    · have e : x + y + c - ofBool (decide (2 ^ 120 ≤ cn.toNat x + cn.toNat y + cn.toNat c)) * two120 F = ((cn.toNat x + cn.toNat y + cn.toNat c - 2 ^ 120 : Nat) : F) := by
        rw [hd, Nat.cast_sub hge, two120, decide_eq_true hge]
        simp [ofBool]
      rw [e, cn.toNat_cast _ (by omega)]
      simp only [hge, decide_true, if_true]; omega
    · have e : x + y + c - ofBool (decide (2 ^ 120 ≤ cn.toNat x + cn.toNat y + cn.toNat c)) * two120 F = x + y + c := by
        rw [decide_eq_false hge]
        simp [ofBool]
      rw [e, hs]
      simp only [hge, decide_false]
      simp; omega

theorem addChain_honest (hm : 2 ^ 130 < cn.modulus) : ∀ (l : List (F × F)) (c : F), (∀ p ∈ l, cn.toNat p.1 + cn.toNat p.2 + 1 < 2 ^ 121) → IsBool c →
    ∃ rs c', addChain (honest cn) (two120 F) l c rs c' ∧ rs.length = l.length ∧ Limbs cn rs ∧ IsBool c' ∧
      num cn rs + 2 ^ (120 * l.length) * cn.toNat c' = numP cn l + cn.toNat c := by
  intro l
  induction l with
  | nil => intro c _ hc; exact ⟨[], c, ⟨rfl, rfl⟩, rfl, by simp [Limbs], hc, by simp [num, numP]⟩
  | cons p l ih =>
    intro c hp hc
    obtain ⟨x, y⟩ := p
    have h0 := hp (x, y) (by simp)
    have hb := hc.toNat_le cn
    simp only at h0
    obtain ⟨r, c1, a1, a2, a3, a4⟩ := addU120_honest cn hm x y c (by omega)
    obtain ⟨rs, c', b1, b2, b3, b4, b5⟩ := ih c1 (fun p hp' => hp p (by simp [hp'])) a2
    refine ⟨r :: rs, c', ⟨r, c1, rs, a1, b1, rfl⟩, by simp [b2], ?_, b4, ?_⟩
    · intro z hz
      rcases List.mem_cons.1 hz with rfl | hz
      · exact a3
      · exact b3 z hz
    · simp only [num_cons, numP_cons, List.length_cons, Nat.mul_add, Nat.pow_add, Nat.mul_one]
      rw [Nat.mul_comm (2 ^ (120 * l.length)) (2 ^ 120), Nat.mul_assoc]
      omega

/-- With honest hints the addition of limbs in range gives limbs in range (one call). -/
theorem mulU120_honest (hm : 2 ^ 245 < cn.modulus) (x y : F) (hx : cn.toNat x < 2 ^ 120) (hy : cn.toNat y < 2 ^ 120) :
    ∃ lo hi, mulU120 (honest cn) (two120 F) x y 0 lo hi ∧ cn.toNat lo < 2 ^ 120 ∧ cn.toNat hi < 2 ^ 120 ∧
      cn.toNat lo + 2 ^ 120 * cn.toNat hi = cn.toNat x * cn.toNat y := by
  have hlt : cn.toNat x * cn.toNat y < 2 ^ 120 * 2 ^ 120 := Nat.mul_lt_mul'' hx hy
  have hd : x * y + 0 = ((cn.toNat x * cn.toNat y : Nat) : F) := by simp only [Nat.cast_mul, cn.cast_toNat, add_zero]
  have hs : cn.toNat (x * y + 0) = cn.toNat x * cn.toNat y := by rw [hd, cn.toNat_cast _ (by omega)]
  have hg : binop cn .intDiv (x * y + 0) (two120 F) = ((cn.toNat x * cn.toNat y / 2 ^ 120 : Nat) : F) := by
    show (if cn.toNat (two120 F) = 0 then 0 else ((cn.toNat (x * y + 0) / cn.toNat (two120 F) : Nat) : F)) = _
    rw [hs, toNat_two120 cn (by omega), if_neg (by omega)]
  have hq : cn.toNat x * cn.toNat y / 2 ^ 120 < 2 ^ 120 := Nat.div_lt_of_lt_mul hlt
  have e : x * y + 0 - binop cn .intDiv (x * y + 0) (two120 F) * two120 F = ((cn.toNat x * cn.toNat y % 2 ^ 120 : Nat) : F) := by
    rw [hg, hd, two120, sub_eq_iff_eq_add, ← Nat.cast_mul, ← Nat.cast_add]
    congr 1
    have := Nat.div_add_mod (cn.toNat x * cn.toNat y) (2 ^ 120)
    omega
  refine ⟨_, _, ⟨rfl, rfl⟩, ?_⟩
  rw [e, hg, cn.toNat_cast _ (by omega), cn.toNat_cast _ (by omega)]
  refine ⟨Nat.mod_lt _ (by omega), hq, ?_⟩
  have := Nat.div_add_mod (cn.toNat x * cn.toNat y) (2 ^ 120)
  omega

theorem num_set : ∀ (l : List F) (k : Nat) (v : F), k < l.length → num cn (l.set k v) + 2 ^ (120 * k) * cn.toNat (l.getD k 0) = num cn l + 2 ^ (120 * k) * cn.toNat v := by
  intro l
  induction l with
  | nil => intro k v h; simp at h
  | cons x l ih =>
    intro k v h
    cases k with
    | zero => simp [num_cons]; omega
    | succ k =>
      have := ih k v (by simpa using h)
      simp only [List.set_cons_succ, num_cons, List.getD_cons_succ, Nat.mul_add, Nat.pow_add, Nat.mul_one]
      rw [Nat.mul_comm (2 ^ (120 * k)) (2 ^ 120), Nat.mul_assoc, Nat.mul_assoc]
      omega

theorem limbs_getD {l : List F} (h : Limbs cn l) (k : Nat) : cn.toNat (l.getD k 0) < 2 ^ 120 := by
  rw [List.getD_eq_getElem?_getD]
  cases e : l[k]? with
  | none => simp [toNat_zero]
  | some x => exact h x (List.mem_of_getElem? e)

theorem limbs_set {l : List F} (h : Limbs cn l) (k : Nat) {v : F} (hv : cn.toNat v < 2 ^ 120) : Limbs cn (l.set k v) := by
  intro x hx
  rcases List.mem_or_eq_of_mem_set hx with hx | rfl
  · exact h x hx
  · exact hv

/-- All entries at most `b`. -/
def Small (l : List F) (b : Nat) : Prop := ∀ x ∈ l, cn.toNat x ≤ b

theorem small_getD {l : List F} {b : Nat} (h : Small cn l b) (k : Nat) : cn.toNat (l.getD k 0) ≤ b := by
  rw [List.getD_eq_getElem?_getD]
  cases e : l[k]? with
  | none => simp [toNat_zero]
  | some x => exact h x (List.mem_of_getElem? e)

theorem small_bump {l : List F} {b : Nat} (h : Small cn l b) (hb : b < 2 ^ 100) (hm : 2 ^ 130 < cn.modulus) (k : Nat) {c : F} (hc : IsBool c) :
    Small cn (l.set k (l.getD k 0 + c)) (b + 1) ∧ cn.toNat (l.getD k 0 + c) = cn.toNat (l.getD k 0) + cn.toNat c := by
  have h1 := small_getD cn h k
  have h2 := hc.toNat_le cn
  have e : cn.toNat (l.getD k 0 + c) = cn.toNat (l.getD k 0) + cn.toNat c := by
    rw [← cn.toNat_cast (cn.toNat (l.getD k 0) + cn.toNat c) (by omega)]
    simp only [Nat.cast_add, cn.cast_toNat]
  refine ⟨?_, e⟩
  intro x hx
  rcases List.mem_or_eq_of_mem_set hx with hx | rfl
  · have := h x hx; omega
  · omega

theorem step_arith {P B N0 N1 N2 C0 C1 C2 s1 c1 s2 c2 lo hi u1 u2 u3 u4 : Nat} (n1 : N1 + P * u4 = N0 + P * s1) (n2 : N2 + P * B * u1 = N1 + P * B * s2)
    (n3 : C1 + P * B * u3 = C0 + P * B * (u3 + c1)) (n4 : C2 + P * B * B * u2 = C1 + P * B * B * (u2 + c2))
    (b4 : s1 + B * c1 = u4 + lo + 0) (d4 : s2 + B * c2 = u1 + hi + 0) : N2 + C2 = N0 + C0 + P * (lo + B * hi) := by
  have k1 : P * (s1 + B * c1) = P * (u4 + lo + 0) := by rw [b4]
  have k2 : P * B * (s2 + B * c2) = P * B * (u1 + hi + 0) := by rw [d4]
  simp only [Nat.mul_add, Nat.mul_assoc, Nat.add_zero] at *
  omega

/-- One step of the double loop with honest hints. -/
theorem mulStep_honest (hm : 2 ^ 245 < cn.modulus) {n : Nat} {x y : List F} (hx : Limbs cn x) (hy : Limbs cn y) {i j : Nat} (hi : i < n) (hj : j < n)
    {res car : List F} {b : Nat} (h1 : res.length = 2 * n) (h2 : car.length = 2 * n + 1) (h3 : Limbs cn res) (h4 : Small cn car b) (hb : b < 2 ^ 90) :
    ∃ res' car', mulStep (honest cn) (two120 F) x y (i, j) (res, car) (res', car') ∧ res'.length = 2 * n ∧ car'.length = 2 * n + 1 ∧ Limbs cn res' ∧
      Small cn car' (b + 2) ∧ num cn res' + num cn car' = num cn res + num cn car + 2 ^ (120 * (i + j)) * (cn.toNat (x.getD i 0) * cn.toNat (y.getD j 0)) := by
  obtain ⟨lo, hi', a1, a2, a3, a4⟩ := mulU120_honest cn hm (x.getD i 0) (y.getD j 0) (limbs_getD cn hx i) (limbs_getD cn hy j)
  have g0 := limbs_getD cn h3 (i + j)
  have z := toNat_zero cn
  obtain ⟨s1, c1, b1, b2, b3, b4⟩ := addU120_honest cn (by omega) (res.getD (i + j) 0) lo 0 (by omega)
  have h3' := limbs_set cn h3 (i + j) b3
  have g1 := limbs_getD cn h3' (i + j + 1)
  obtain ⟨s2, c2, d1, d2, d3, d4⟩ := addU120_honest cn (by omega) ((res.set (i + j) s1).getD (i + j + 1) 0) hi' 0 (by omega)
  obtain ⟨e1, e2⟩ := small_bump cn h4 (by omega) (by omega) (i + j + 1) b2
  obtain ⟨f1, f2⟩ := small_bump cn e1 (by omega) (by omega) (i + j + 2) d2
  refine ⟨_, _, ⟨lo, hi', s1, c1, s2, c2, a1, b1, d1, rfl⟩, by simp [h1], by simp [h2], limbs_set cn h3' _ d3, f1, ?_⟩
  have n1 := num_set cn res (i + j) s1 (by omega)
  have n2 := num_set cn (res.set (i + j) s1) (i + j + 1) s2 (by simp; omega)
  have n3 := num_set cn car (i + j + 1) (car.getD (i + j + 1) 0 + c1) (by omega)
  have n4 := num_set cn (car.set (i + j + 1) (car.getD (i + j + 1) 0 + c1)) (i + j + 2)
    ((car.set (i + j + 1) (car.getD (i + j + 1) 0 + c1)).getD (i + j + 2) 0 + c2) (by simp; omega)
  rw [e2] at n3
  rw [f2] at n4
  have p1 : 2 ^ (120 * (i + j + 1)) = 2 ^ (120 * (i + j)) * 2 ^ 120 := by rw [← Nat.pow_add]; rfl
  have p2 : 2 ^ (120 * (i + j + 2)) = 2 ^ (120 * (i + j)) * 2 ^ 120 * 2 ^ 120 := by rw [← Nat.pow_add, ← Nat.pow_add]; rfl
  rw [p1] at n2 n3
  rw [p2] at n4
  rw [z] at b4 d4
  rw [← a4]
  exact step_arith n1 n2 n3 n4 b4 d4

theorem mulLoop_honest (hm : 2 ^ 245 < cn.modulus) {n : Nat} {x y : List F} (hx : Limbs cn x) (hy : Limbs cn y) :
    ∀ (l : List (Nat × Nat)), (∀ p ∈ l, p.1 < n ∧ p.2 < n) → ∀ (res car : List F) (b : Nat), res.length = 2 * n → car.length = 2 * n + 1 → Limbs cn res → Small cn car b →
    b + 2 * l.length < 2 ^ 90 →
    ∃ res' car', mulLoop (honest cn) (two120 F) x y l (res, car) (res', car') ∧ res'.length = 2 * n ∧ car'.length = 2 * n + 1 ∧ Limbs cn res' ∧
      Small cn car' (b + 2 * l.length) ∧
      num cn res' + num cn car' = num cn res + num cn car + (l.map fun p => 2 ^ (120 * (p.1 + p.2)) * (cn.toNat (x.getD p.1 0) * cn.toNat (y.getD p.2 0))).sum := by
  intro l
  induction l with
  | nil => intro _ res car b h1 h2 h3 h4 _; exact ⟨res, car, rfl, h1, h2, h3, by simpa using h4, by simp⟩
  | cons p l ih =>
    intro hp res car b h1 h2 h3 h4 hb
    obtain ⟨i, j⟩ := p
    simp only [List.length_cons] at hb
    obtain ⟨res1, car1, a0, a1, a2, a3, a4, a5⟩ := mulStep_honest cn hm hx hy (hp (i, j) (by simp)).1 (hp (i, j) (by simp)).2 h1 h2 h3 h4 (by omega)
    obtain ⟨res2, car2, b0, b1, b2, b3, b4, b5⟩ := ih (fun p hp' => hp p (by simp [hp'])) res1 car1 (b + 2) a1 a2 a3 a4 (by omega)
    refine ⟨res2, car2, ⟨_, a0, b0⟩, b1, b2, b3, ?_, ?_⟩
    · simp only [List.length_cons]
      rw [show b + 2 * (l.length + 1) = b + 2 + 2 * l.length by omega]; exact b4
    · rw [List.map_cons, List.sum_cons, b5, a5, Nat.add_assoc]

theorem num_sum : ∀ (l : List F) (n : Nat), l.length = n → num cn l = ∑ i ∈ Finset.range n, 2 ^ (120 * i) * cn.toNat (l.getD i 0) := by
  intro l
  induction l with
  | nil => rintro _ rfl; rfl
  | cons x l ih =>
    intro n hn
    obtain ⟨n, rfl⟩ : ∃ m, n = m + 1 := ⟨l.length, by simpa using hn.symm⟩
    rw [num_cons, Finset.sum_range_succ', ih n (by simpa using hn), Finset.mul_sum, Nat.add_comm]
    have e : ∀ i ∈ Finset.range n, 2 ^ 120 * (2 ^ (120 * i) * cn.toNat (l.getD i 0)) = 2 ^ (120 * (i + 1)) * cn.toNat ((x :: l).getD (i + 1) 0) := by
      intro i _
      rw [List.getD_cons_succ, Nat.mul_add, Nat.pow_add, Nat.mul_one, Nat.mul_comm (2 ^ (120 * i)) (2 ^ 120), Nat.mul_assoc]
    rw [Finset.sum_congr rfl e, List.getD_cons_zero, Nat.mul_zero, Nat.pow_zero, Nat.one_mul]

theorem pairs_sum_nat (n : Nat) (f : Nat × Nat → Nat) : ((pairs n).map f).sum = ∑ i ∈ Finset.range n, ∑ j ∈ Finset.range n, f (i, j) := by
  have h0 : ∀ (n : Nat) (g : Nat → Nat), ((List.range n).map g).sum = ∑ i ∈ Finset.range n, g i := by
    intro n g
    induction n with
    | zero => simp
    | succ n ih => rw [List.range_succ, List.map_append, List.sum_append, ih, Finset.sum_range_succ]; simp
  rw [pairs, List.map_flatMap]
  have : ∀ l : List Nat, (l.flatMap fun i => ((List.range n).map fun j => (i, j)).map f).sum = (l.map fun i => ∑ j ∈ Finset.range n, f (i, j)).sum := by
    intro l
    induction l with
    | nil => rfl
    | cons a l ih =>
      rw [List.flatMap_cons, List.sum_append, ih, List.map_cons, List.sum_cons, List.map_map]
      exact congrArg (· + _) (h0 n fun j => f (a, j))
  rw [this, h0]

theorem pairs_length (n : Nat) : (pairs n).length = n * n := by
  simp [pairs, List.length_flatMap]

theorem num_take_drop (l : List F) (k : Nat) : num cn l = num cn (l.take k) + 2 ^ (120 * k) * num cn (l.drop k) := by
  induction l generalizing k with
  | nil => simp [num]
  | cons x l ih =>
    cases k with
    | zero => simp [num]
    | succ k =>
      rw [List.take_succ_cons, List.drop_succ_cons, num_cons, num_cons, ih k, Nat.mul_add 120, Nat.pow_add, Nat.mul_one, Nat.mul_comm (2 ^ (120 * k)) (2 ^ 120), Nat.mul_assoc,
        Nat.mul_add]
      omega

/-- With honest hints and limbs in range the product without reduction is the integer product. -/
theorem mulNoMod_honest (hm : 2 ^ 245 < cn.modulus) {n : Nat} (hn : n < 2 ^ 40) {x y : List F} (lx : x.length = n) (ly : y.length = n) (hx : Limbs cn x) (hy : Limbs cn y) :
    ∃ out, mulNoMod (honest cn) (two120 F) n x y out ∧ out.length = 2 * n ∧ Limbs cn out ∧ num cn out = num cn x * num cn y := by
  have z := toNat_zero cn
  have hrep : ∀ k, Limbs cn (List.replicate k (0 : F)) := by
    intro k v hv; rw [(List.mem_replicate.1 hv).2, z]; omega
  have nrep : ∀ k, num cn (List.replicate k (0 : F)) = 0 := by
    intro k
    induction k with
    | zero => rfl
    | succ k ih => rw [List.replicate_succ, num_cons, ih, z]; rfl
  have hnn : n * n < 2 ^ 80 := by
    have : n * n ≤ 2 ^ 40 * 2 ^ 40 - 1 := by
      have := Nat.mul_lt_mul'' hn hn; omega
    omega
  obtain ⟨res, car, a0, a1, a2, a3, a4, a5⟩ := mulLoop_honest cn hm hx hy (n := n) (pairs n) (by
      intro p hp
      simp only [pairs, List.mem_flatMap, List.mem_map, List.mem_range] at hp
      obtain ⟨i, hi, j, hj, rfl⟩ := hp
      exact ⟨hi, hj⟩) (List.replicate (2 * n) 0) (List.replicate (2 * n + 1) 0) 0 (by simp) (by simp) (hrep _) (by
      intro v hv; rw [(List.mem_replicate.1 hv).2, z]) (by rw [pairs_length]; omega)
  rw [pairs_length] at a4
  rw [nrep, nrep, pairs_sum_nat] at a5
  have prod : num cn x * num cn y = ∑ i ∈ Finset.range n, ∑ j ∈ Finset.range n, 2 ^ (120 * (i + j)) * (cn.toNat (x.getD i 0) * cn.toNat (y.getD j 0)) := by
    rw [num_sum cn x n lx, num_sum cn y n ly, Finset.sum_mul]
    apply Finset.sum_congr rfl
    intro i _
    rw [Finset.mul_sum]
    apply Finset.sum_congr rfl
    intro j _
    rw [Nat.mul_add 120, Nat.pow_add]; ring
  have a5' : num cn res + num cn car = num cn x * num cn y := by rw [prod]; simpa using a5
  obtain ⟨out, c, b0, b1, b2, b3, b4⟩ := addChain_honest cn (by omega) (res.zip (car.take (2 * n))) 0 (by
    intro p hp
    obtain ⟨h1, h2⟩ := List.of_mem_zip hp
    have := a3 _ h1
    have := a4 _ (List.mem_of_mem_take h2)
    omega) (.inl rfl)
  have hlen : (res.zip (car.take (2 * n))).length = 2 * n := by simp [a1, a2]
  rw [hlen] at b1 b4
  rw [numP_zip cn _ _ (by simp [a1, a2]), z] at b4
  have htd := num_take_drop cn car (2 * n)
  refine ⟨out, ⟨(res, car), c, a0, b0⟩, b1, b2, ?_⟩
  have hlt : num cn x * num cn y < 2 ^ (120 * n) * 2 ^ (120 * n) := Nat.mul_lt_mul'' (lx ▸ num_lt cn hx) (ly ▸ num_lt cn hy)
  rw [← Nat.pow_add, show 120 * n + 120 * n = 120 * (2 * n) by omega] at hlt
  have hc : cn.toNat c = 0 := by
    by_contra h0
    have : 2 ^ (120 * (2 * n)) * 1 ≤ 2 ^ (120 * (2 * n)) * cn.toNat c := Nat.mul_le_mul_left _ (by omega)
    omega
  have hd : num cn (car.drop (2 * n)) = 0 := by
    by_contra h0
    have : 2 ^ (120 * (2 * n)) * 1 ≤ 2 ^ (120 * (2 * n)) * num cn (car.drop (2 * n)) := Nat.mul_le_mul_left _ (by omega)
    omega
  rw [hc, Nat.mul_zero] at b4
  rw [hd, Nat.mul_zero] at htd
  omega

/-- A correct multiplication is accepted with honest hints. -/
theorem assertMul_honest (hm : 2 ^ 245 < cn.modulus) {n : Nat} (hn : n < 2 ^ 40) {x y result carry modulus : List F}
    (lx : x.length = n) (ly : y.length = n) (lr : result.length = n) (lc : carry.length = n) (lM : modulus.length = n)
    (hx : Limbs cn x) (hy : Limbs cn y) (hr : Limbs cn result) (hc : Limbs cn carry) (hM : Limbs cn modulus)
    (h : num cn x * num cn y = num cn result + num cn carry * num cn modulus) :
    assertMul (honest cn) (two120 F) n x y result carry modulus := by
  obtain ⟨left, a1, a2, a3, a4⟩ := mulNoMod_honest cn hm hn lx ly hx hy
  obtain ⟨right, b1, b2, b3, b4⟩ := mulNoMod_honest cn hm hn lc lM hc hM
  have z := toNat_zero cn
  have hres : Limbs cn (result ++ List.replicate n 0) := by
    intro v hv
    rcases List.mem_append.1 hv with hv | hv
    · exact hr v hv
    · rw [(List.mem_replicate.1 hv).2, z]; omega
  have nres : num cn (result ++ List.replicate n 0) = num cn result := by
    rw [num_take_drop cn _ n, List.take_left' lr, List.drop_left' lr]
    have : ∀ k, num cn (List.replicate k (0 : F)) = 0 := by
      intro k
      induction k with
      | zero => rfl
      | succ k ih => rw [List.replicate_succ, num_cons, ih, z]; rfl
    rw [this]; rfl
  obtain ⟨right', c, d1, d2, d3, d4, d5⟩ := addChain_honest cn (by omega) ((result ++ List.replicate n 0).zip right) 0 (by
    intro p hp
    have := limbs_zip cn hres b3 p hp
    omega) (.inl rfl)
  have hlen : ((result ++ List.replicate n 0).zip right).length = 2 * n := by simp [lr, b2]; omega
  rw [hlen] at d2 d5
  rw [numP_zip cn _ _ (by simp [lr, b2]; omega), nres, z, b4] at d5
  have hlt := num_lt cn a3
  rw [a2, a4] at hlt
  have hcc : cn.toNat c = 0 := by
    by_contra h0
    have : 2 ^ (120 * (2 * n)) * 1 ≤ 2 ^ (120 * (2 * n)) * cn.toNat c := Nat.mul_le_mul_left _ (by omega)
    omega
  rw [hcc, Nat.mul_zero] at d5
  have : left = right' := num_inj cn (by omega) a3 d3 (by omega)
  exact ⟨left, right, right', c, a1, b1, d1, fun i _ => by rw [this]⟩

/-! ### Comparison with honest hints -/

theorem byteDecomp_honest (hm : 2 ^ 130 < cn.modulus) : ∀ (k : Nat) (x : F), ∃ bs, byteDecomp (honest cn) k x bs ∧
    ∀ i < k, bs.getD i 0 = ((cn.toNat x / 2 ^ (8 * i) % 2 ^ 8 : Nat) : F) := by
  have h256 : cn.toNat ((2 : F) ^ 8) = 2 ^ 8 := by
    have := cn.toNat_cast (2 ^ 8) (by omega)
    rw [Nat.cast_pow] at this
    exact this
  intro k
  induction k with
  | zero => intro x; exact ⟨[], rfl, fun i hi => absurd hi (by omega)⟩
  | succ k ih =>
    intro x
    have e1 : binop cn .mod x ((2 : F) ^ 8) = ((cn.toNat x % 2 ^ 8 : Nat) : F) := by
      show (if cn.toNat ((2 : F) ^ 8) = 0 then 0 else ((cn.toNat x % cn.toNat ((2 : F) ^ 8) : Nat) : F)) = _
      rw [h256, if_neg (by omega)]
    have e2 : binop cn .intDiv x ((2 : F) ^ 8) = ((cn.toNat x / 2 ^ 8 : Nat) : F) := by
      show (if cn.toNat ((2 : F) ^ 8) = 0 then 0 else ((cn.toNat x / cn.toNat ((2 : F) ^ 8) : Nat) : F)) = _
      rw [h256, if_neg (by omega)]
    obtain ⟨bs, h1, h2⟩ := ih ((cn.toNat x / 2 ^ 8 : Nat) : F)
    refine ⟨_, ⟨((cn.toNat x % 2 ^ 8 : Nat) : F), _, bs, e1.symm, e2.symm, h1, rfl⟩, fun i hi => ?_⟩
    cases i with
    | zero => simp
    | succ i =>
      rw [List.getD_cons_succ, h2 i (by omega), cn.toNat_cast _ (Nat.lt_of_le_of_lt (Nat.div_le_self _ _) (cn.toNat_lt x)), Nat.div_div_eq_div_mul, ← Nat.pow_add,
        show 8 + 8 * i = 8 * (i + 1) by omega]

theorem isLessThan_honest (hm : 2 ^ 130 < cn.modulus) (x y : F) (hx : cn.toNat x < 2 ^ 120) (hy : cn.toNat y < 2 ^ 120) :
    isLessThan (honest cn) x y (ofBool (decide (cn.toNat x < cn.toNat y))) := by
  obtain ⟨bs, h1, h2⟩ := byteDecomp_honest cn hm 32 (x - y)
  refine ⟨bs, h1, rfl, ?_⟩
  by_cases h : cn.toNat x < cn.toNat y
  · simp [h, ofBool]
  · have e : x - y = ((cn.toNat x - cn.toNat y : Nat) : F) := by
      rw [Nat.cast_sub (by omega), cn.cast_toNat, cn.cast_toNat]
    have e2 : cn.toNat (x - y) = cn.toNat x - cn.toNat y := by rw [e, cn.toNat_cast _ (by omega)]
    rw [h2 31 (by omega), e2]
    have : (cn.toNat x - cn.toNat y) / 2 ^ (8 * 31) = 0 := Nat.div_eq_of_lt (by
      have : (2 : Nat) ^ 120 ≤ 2 ^ (8 * 31) := Nat.pow_le_pow_right (by omega) (by omega)
      omega)
    rw [this]; simp

/-- Comparison of limb lists, most significant first. -/
def lexLt : List (F × F) → Bool
  | [] => false
  | (x, y) :: l => decide (cn.toNat x < cn.toNat y) || (decide (x = y) && lexLt l)

def allEq (l : List (F × F)) : Bool := l.all fun p => decide (p.1 = p.2)

theorem lessLoop_honest (hm : 2 ^ 130 < cn.modulus) : ∀ (l : List (F × F)), (∀ p ∈ l, cn.toNat p.1 < 2 ^ 120 ∧ cn.toNat p.2 < 2 ^ 120) → ∀ (r e : Bool), (r && e) = false →
    lessLoop (honest cn) l (ofBool r) (ofBool e) (ofBool (r || (e && lexLt cn l))) (ofBool (e && allEq l)) := by
  intro l
  induction l with
  | nil => intro _ r e _; constructor <;> simp [lexLt, allEq]
  | cons p l ih =>
    intro hp r e hre
    obtain ⟨x, y⟩ := p
    have h0 := hp (x, y) (by simp)
    have hz : isZero (x - y) = (ofBool (decide (x = y)) : F) := by
      by_cases h : x = y
      · simp [h, isZero, ofBool]
      · simp [h, isZero, sub_ne_zero.2 h, ofBool]
    have hne : x = y → ¬ cn.toNat x < cn.toNat y := by rintro rfl; omega
    have hr1 : ((r || (e && decide (cn.toNat x < cn.toNat y))) && (e && decide (x = y))) = false := by
      by_cases h : x = y
      · have := hne h
        cases r <;> cases e <;> simp_all
      · simp [h]
    have := ih (fun p hp' => hp p (by simp [hp'])) (r || (e && decide (cn.toNat x < cn.toNat y))) (e && decide (x = y)) hr1
    refine ⟨ofBool (decide (cn.toNat x < cn.toNat y)), ofBool (e && decide (cn.toNat x < cn.toNat y)), ofBool (r || (e && decide (cn.toNat x < cn.toNat y))), ofBool (e && decide (x = y)),
      isLessThan_honest cn hm x y h0.1 h0.2, ofBool_isBool _, ofBool_isBool _, ?_, ofBool_isBool _, ofBool_isBool _, ?_, ?_, ?_, ofBool_isBool _, ofBool_isBool _, ?_, ?_⟩
    · cases e <;> simp [ofBool]
    · generalize (e && decide (cn.toNat x < cn.toNat y)) = u
      cases r <;> cases u <;> simp [ofBool]
    · rw [hz]; exact ofBool_isBool _
    · rw [hz]; cases e <;> simp [ofBool]
    · rw [hz]
      by_cases h : x = y
      · simp [hne h, h, ofBool]
      · simp [h, ofBool]
    · have e1 : ((r || (e && decide (cn.toNat x < cn.toNat y))) || ((e && decide (x = y)) && lexLt cn l)) = (r || (e && lexLt cn ((x, y) :: l))) := by
        rw [lexLt]; cases r <;> cases e <;> simp
      have e2 : ((e && decide (x = y)) && allEq l) = (e && allEq ((x, y) :: l)) := by
        simp [allEq, Bool.and_assoc]
      rw [e1, e2] at this
      exact this

theorem lexLt_append (l : List (F × F)) (p : F × F) : lexLt cn (l ++ [p]) = (lexLt cn l || (allEq l && decide (cn.toNat p.1 < cn.toNat p.2))) := by
  induction l with
  | nil => obtain ⟨x, y⟩ := p; simp [lexLt, allEq]
  | cons q l ih =>
    obtain ⟨x, y⟩ := q
    rw [List.cons_append, lexLt, ih, lexLt]
    simp only [allEq, List.all_cons, Bool.and_or_distrib_left, Bool.or_assoc, Bool.and_assoc]

theorem allEq_reverse (l : List (F × F)) : allEq l.reverse = allEq l := by
  simp [allEq]

theorem lex_num : ∀ (a b : List F), a.length = b.length → Limbs cn a → Limbs cn b →
    (lexLt cn (a.zip b).reverse = decide (num cn a < num cn b)) ∧ (allEq (a.zip b) = decide (num cn a = num cn b)) := by
  intro a
  induction a with
  | nil => intro b h _ _; rw [List.length_eq_zero_iff.1 h.symm]; simp [lexLt, allEq, num]
  | cons x a ih => intro b h ha hb; cases b with
    | nil => simp at h
    | cons y b =>
      obtain ⟨h1, h2⟩ := ih b (by simpa using h) (fun z hz => ha z (by simp [hz])) (fun z hz => hb z (by simp [hz]))
      have hx := ha x (by simp)
      have hy := hb y (by simp)
      have hxy : x = y ↔ cn.toNat x = cn.toNat y := by
        constructor
        · rintro rfl; rfl
        · intro e
          have := congrArg (Nat.cast (R := F)) e
          rwa [cn.cast_toNat, cn.cast_toNat] at this
      constructor
      · rw [List.zip_cons_cons, List.reverse_cons, lexLt_append, h1, allEq_reverse, h2, num_cons, num_cons]
        by_cases l1 : num cn a < num cn b
        · rw [decide_eq_true l1, Bool.true_or, eq_comm, decide_eq_true_iff]
          omega
        · rw [decide_eq_false l1, Bool.false_or]
          by_cases l2 : num cn a = num cn b
          · rw [decide_eq_true l2, Bool.true_and, l2]; congr 1; simp
          · rw [decide_eq_false l2, Bool.false_and, eq_comm, decide_eq_false_iff_not]; omega
      · have : allEq ((x, y) :: a.zip b) = (decide (x = y) && allEq (a.zip b)) := rfl
        rw [List.zip_cons_cons, this, h2, num_cons, num_cons]
        by_cases l1 : x = y
        · rw [decide_eq_true l1, Bool.true_and, l1]; congr 1; simp
        · rw [decide_eq_false l1, Bool.false_and, eq_comm, decide_eq_false_iff_not]
          rw [hxy] at l1; omega

/-- With honest hints and limbs in range the comparison returns the truth value of `x < y`. -/
theorem assertLess_honest (hm : 2 ^ 130 < cn.modulus) {x y : List F} (hl : x.length = y.length) (hx : Limbs cn x) (hy : Limbs cn y) :
    assertLess (honest cn) x y (if num cn x < num cn y then 1 else 0) := by
  have h := lessLoop_honest cn hm (x.zip y).reverse (by
    intro p hp; exact limbs_zip cn hx hy p (by simpa using hp)) false true rfl
  obtain ⟨e1, e2⟩ := lex_num cn x y hl hx hy
  rw [Bool.false_or, Bool.true_and, Bool.true_and, allEq_reverse, e1, e2] at h
  refine ⟨ofBool (decide (num cn x = num cn y)), ?_, ?_⟩
  · have : (if num cn x < num cn y then (1 : F) else 0) = ofBool (decide (num cn x < num cn y)) := by
      by_cases hlt : num cn x < num cn y <;> simp [hlt, ofBool]
    rw [this]
    exact h
  · by_cases hlt : num cn x < num cn y
    · simp [hlt, Nat.ne_of_lt hlt, ofBool]
    · simp [hlt]

/-- A correct modular addition is accepted with honest hints. -/
theorem assertAdd_honest (hm : 2 ^ 130 < cn.modulus) {n : Nat} {x y result modulus : List F} {carry : F}
    (lx : x.length = n) (ly : y.length = n) (lr : result.length = n) (lM : modulus.length = n)
    (hx : Limbs cn x) (hy : Limbs cn y) (hr : Limbs cn result) (hM : Limbs cn modulus) (hc : IsBool carry)
    (h : num cn x + num cn y = num cn result + cn.toNat carry * num cn modulus) (hlt : num cn result < num cn modulus)
    (hov : num cn x + num cn y < 2 ^ (120 * n)) :
    assertAdd (honest cn) (two120 F) x y result carry modulus := by
  have z := toNat_zero cn
  obtain ⟨sum, c1, a1, a2, a3, a4, a5⟩ := addChain_honest cn hm (x.zip y) 0 (by
    intro p hp; have := limbs_zip cn hx hy p hp; omega) (.inl rfl)
  obtain ⟨ex, c2, b1, b2, b3, b4, b5⟩ := addChain_honest cn hm (result.zip (modulus.map (carry * ·))) 0 (by
    intro p hp; have := limbs_zip cn hr (limbs_map_bool cn hc hM) p hp; omega) (.inl rfl)
  rw [numP_zip cn _ _ (by omega), z, List.length_zip, lx, ly, Nat.min_self] at a5
  rw [numP_zip cn _ _ (by simp; omega), z, List.length_zip, List.length_map, lr, lM, Nat.min_self, num_map_bool cn hc] at b5
  have n1 := num_lt cn a3
  have n2 := num_lt cn b3
  rw [a2, List.length_zip, lx, ly, Nat.min_self] at n1
  rw [b2, List.length_zip, List.length_map, lr, lM, Nat.min_self] at n2
  have k1 : cn.toNat c1 = 0 := by
    by_contra h0
    have : 2 ^ (120 * n) * 1 ≤ 2 ^ (120 * n) * cn.toNat c1 := Nat.mul_le_mul_left _ (by omega)
    omega
  have k2 : cn.toNat c2 = 0 := by
    by_contra h0
    have : 2 ^ (120 * n) * 1 ≤ 2 ^ (120 * n) * cn.toNat c2 := Nat.mul_le_mul_left _ (by omega)
    omega
  rw [k1] at a5
  rw [k2] at b5
  have e : sum = ex := num_inj cn (by rw [a2, b2]; simp [lx, ly, lr, lM]) a3 b3 (by omega)
  have c20 : c2 = 0 := by
    have := congrArg (Nat.cast (R := F)) k2
    rwa [cn.cast_toNat, Nat.cast_zero] at this
  have hl := assertLess_honest cn hm (lr.trans lM.symm) hr hM
  rw [if_pos hlt] at hl
  exact ⟨sum, c1, ex, c2, 1, a1, hc, b1, e, c20, hl, rfl⟩

end Verif.Std.BigInt
