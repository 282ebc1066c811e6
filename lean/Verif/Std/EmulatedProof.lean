import Verif.Std.Emulated
import Verif.Std.LimbsM31More
import Mathlib.Data.Nat.ModEq
import Mathlib.Data.Int.ModEq
/-!
What the operations on emulated elements give, provided the multiplication checks they register hold over the integers.
-/
set_option linter.unusedSectionVars false
set_option linter.unusedSimpArgs false
namespace Verif.Std.Emu
open Verif.Std.ShaM31 (simpleSelect limbsVal limbsVal_append limbsVal_take limbsVal_lt)

variable {F : Type} [Field F] [DecidableEq F] (cn : Canon F) (P : Params)

/-- The number with the given limbs. -/
def value (l : List F) : Nat := limbsVal P.bits (l.map cn.toNat)

/-- A multiplication check holds over the integers. -/
def MulCheck.Holds (mc : MulCheck F) : Prop := value cn P mc.a * value cn P mc.b = value cn P mc.r + value cn P mc.k * P.modulus

/-- The limbs are as small as the overflow says, and the overflow is allowed. -/
def Full (e : El F) : Prop := e.overflow ≤ P.maxOf ∧ ∀ x ∈ e.limbs, cn.toNat x < 2 ^ (P.bits + e.overflow)

/-- What holds for an element the API hands out (internal), or one made of variables by the user. -/
def Ok (e : El F) : Prop := (e.internal = true → Full cn P e) ∧ (e.internal = false → e.overflow = 0) ∧ (e.modReduced = true → e.overflow = 0)

/-- The conditions on the parameters: met by both instances in emparam.rs over M31. -/
structure Good : Prop where
  bits0 : 0 < P.bits
  bits26 : P.bits ≤ 26
  modulus1 : 1 < P.modulus
  fits : P.modulus.size ≤ P.nlimbs * P.bits
  native : 2 ^ 28 ≤ cn.modulus

/-- Whatever the gadget gives satisfies `Q`, if the registered checks hold over the integers. -/
def Spec {α : Type} (g : Gad F α) (Q : α → Prop) : Prop := ∀ x l, g x l → (∀ mc ∈ l, mc.Holds cn P) → Q x

theorem spec_bind {α β : Type} {m : Gad F α} {f : α → Gad F β} {Q : α → Prop} {R : β → Prop} (h1 : Spec cn P m Q)
    (h2 : ∀ a, Q a → Spec cn P (f a) R) : Spec cn P (m >>= f) R := by
  rintro x l ⟨a, l1, l2, g1, g2, rfl⟩ hl
  exact h2 a (h1 a l1 g1 fun mc hm => hl mc (by simp [hm])) x l2 g2 fun mc hm => hl mc (by simp [hm])

theorem spec_pure {α : Type} {a : α} {Q : α → Prop} (h : Q a) : Spec cn P (pure a : Gad F α) Q := by
  rintro x l ⟨rfl, -⟩ _; exact h

theorem spec_fail {α : Type} {Q : α → Prop} : Spec cn P (Gad.fail : Gad F α) Q := fun _ _ h => h.elim
theorem spec_require {p : Prop} : Spec cn P (Gad.require p : Gad F Unit) (fun _ => p) := fun _ _ h _ => h.1
theorem spec_push {mc : MulCheck F} : Spec cn P (Gad.push mc) (fun _ => mc.Holds cn P) := fun _ l h g => g mc (by rw [show l = [mc] from h]; simp)
theorem spec_hint {n : Nat} : Spec cn P (Gad.hint n) (fun o => o.length = n) := fun _ _ h _ => h.1
theorem spec_mono {α : Type} {g : Gad F α} {Q R : α → Prop} (h : Spec cn P g Q) (i : ∀ x, Q x → R x) : Spec cn P g R := fun x l a b => i x (h x l a b)

variable {cn P} (hg : Good cn P)

theorem toNat_zero' (h : 0 < cn.modulus) : cn.toNat (0 : F) = 0 := by rw [← Nat.cast_zero, cn.toNat_cast 0 h]

theorem toNat_add' {x y : F} (h : cn.toNat x + cn.toNat y < cn.modulus) : cn.toNat (x + y) = cn.toNat x + cn.toNat y := by
  conv_lhs => rw [← cn.cast_toNat x, ← cn.cast_toNat y, ← Nat.cast_add]
  exact cn.toNat_cast _ h

theorem toNat_sub' {x y : F} (h : cn.toNat y ≤ cn.toNat x) : cn.toNat (x - y) = cn.toNat x - cn.toNat y := by
  conv_lhs => rw [← cn.cast_toNat x, ← cn.cast_toNat y, ← Nat.cast_sub h]
  exact cn.toNat_cast _ (by have := cn.toNat_lt x; omega)

theorem toNat_mulc {x : F} {c : Nat} (h : cn.toNat x * c < cn.modulus) : cn.toNat (x * (c : F)) = cn.toNat x * c := by
  conv_lhs => rw [← cn.cast_toNat x, ← Nat.cast_mul]
  exact cn.toNat_cast _ h

theorem lv_succ (n m : Nat) (f : Nat → Nat) : limbsVal n ((List.range (m + 1)).map f) = limbsVal n ((List.range m).map f) + 2 ^ (n * m) * f m := by
  rw [List.range_succ, List.map_append, limbsVal_append]
  simp [limbsVal]

theorem lv_add (n m : Nat) (f g : Nat → Nat) :
    limbsVal n ((List.range m).map fun i => f i + g i) = limbsVal n ((List.range m).map f) + limbsVal n ((List.range m).map g) := by
  induction m with
  | zero => rfl
  | succ m ih => rw [lv_succ, lv_succ, lv_succ, ih, Nat.mul_add]; omega

theorem lv_const (n m c : Nat) (f : Nat → Nat) : limbsVal n ((List.range m).map fun i => f i * c) = limbsVal n ((List.range m).map f) * c := by
  induction m with
  | zero => simp [limbsVal]
  | succ m ih => rw [lv_succ, lv_succ, ih, Nat.add_mul, Nat.mul_assoc]

theorem lv_getD (n : Nat) (A : List Nat) : ∀ m, A.length ≤ m → limbsVal n ((List.range m).map fun i => A.getD i 0) = limbsVal n A := by
  intro m
  induction m with
  | zero => intro h; rw [List.length_eq_zero_iff.1 (by omega : A.length = 0)]; rfl
  | succ m ih =>
    intro h
    by_cases he : A.length ≤ m
    · rw [lv_succ, ih he, List.getD_eq_getElem?_getD, List.getElem?_eq_none he]; simp
    · have hl : A.length = m + 1 := by omega
      have key : ∀ k, k ≤ A.length → limbsVal n ((List.range k).map fun i => A.getD i 0) = limbsVal n (A.take k) := by
        intro k
        induction k with
        | zero => intro _; rfl
        | succ k ihk => intro hk; rw [lv_succ, ihk (by omega), limbsVal_take (by omega)]
      rw [key (m + 1) (by omega), List.take_of_length_le (by omega)]

theorem value_range (m : Nat) (f : Nat → F) : value cn P ((List.range m).map f) = limbsVal P.bits ((List.range m).map fun i => cn.toNat (f i)) := by
  rw [value, List.map_map]; rfl

theorem getD_toNat (h0 : 0 < cn.modulus) (l : List F) (i : Nat) : (l.map cn.toNat).getD i 0 = cn.toNat (l.getD i 0) := by
  rw [List.getD_eq_getElem?_getD, List.getD_eq_getElem?_getD, List.getElem?_map]
  cases l[i]? with
  | none => simp [toNat_zero' h0]
  | some x => rfl

theorem getD_lt (h0 : 0 < cn.modulus) {l : List F} {k : Nat} (h : ∀ x ∈ l, cn.toNat x < 2 ^ k) (i : Nat) : cn.toNat (l.getD i 0) < 2 ^ k := by
  rw [List.getD_eq_getElem?_getD]
  cases e : l[i]? with
  | none => simp [toNat_zero' h0, Nat.two_pow_pos]
  | some x => exact h x (List.mem_of_getElem? e)

include hg in
theorem good0 : 0 < cn.modulus := by have := hg.native; omega

include hg in
theorem lastBits_le : P.lastBits ≤ P.bits := by
  rw [Params.lastBits]
  have := Nat.mod_lt (P.modulus.size - 1) hg.bits0
  omega

include hg in
theorem inRange_lt {n : Nat} (hn : n ≤ 28) {x : F} (h : inRange n x) : cn.toNat x < 2 ^ n := by
  obtain ⟨X, hX, rfl⟩ := h
  have : 2 ^ n ≤ 2 ^ 28 := Nat.pow_le_pow_right (by omega) hn
  have := hg.native
  rwa [cn.toNat_cast X (by omega)]

include hg in
theorem width_lt {l : List F} {b : Bool} (h : enforceWidth P l b) : ∀ x ∈ l, cn.toNat x < 2 ^ P.bits := by
  intro x hx
  obtain ⟨i, hi, rfl⟩ := List.mem_iff_getElem.1 hx
  have h1 := h i hi
  rw [List.getD_eq_getElem?_getD, List.getElem?_eq_getElem hi, Option.getD_some] at h1
  have hb := hg.bits26
  have hlb := lastBits_le hg
  split at h1
  · exact Nat.lt_of_lt_of_le (inRange_lt hg (by omega) h1) (Nat.pow_le_pow_right (by omega) hlb)
  · exact inRange_lt hg (by omega) h1

include hg in
theorem full_of {l : List F} {b m : Bool} (h : enforceWidth P l b) {i : Bool} : Full cn P ⟨l, 0, i, m⟩ :=
  ⟨Nat.zero_le _, fun x hx => width_lt hg h x hx⟩

include hg in
theorem condWidth_spec {a : El F} (h : Ok cn P a) : Spec cn P (condWidth P a) (fun _ => Full cn P a) := by
  refine spec_mono cn P (spec_require cn P) fun _ hw => ?_
  cases hi : a.internal with
  | true => exact h.1 hi
  | false =>
    have h0 := h.2.1 hi
    refine ⟨by omega, ?_⟩
    rw [h0]
    exact width_lt hg (hw hi)

theorem ok_of_full {l : List F} {ov : Nat} (h : Full cn P (El.int l ov)) : Ok cn P (El.int l ov) :=
  ⟨fun _ => h, fun h => by simp [El.int] at h, fun h => by simp [El.int] at h⟩

include hg in
theorem packLimbs_spec {l : List F} {s : Bool} : Spec cn P (packLimbs P l s) (fun r => r = El.int l 0 ∧ Full cn P (El.int l 0)) :=
  spec_bind cn P (spec_require cn P) fun _ hw => spec_pure cn P ⟨rfl, full_of hg hw⟩

/-- An element made by a gadget: internal, in range, without overflow. -/
def New (cn : Canon F) (P : Params) (r : El F) : Prop := Ok cn P r ∧ Full cn P r ∧ r.overflow = 0

theorem new_int {l : List F} (h : Full cn P (El.int l 0)) : New cn P (El.int l 0) := ⟨ok_of_full h, h, rfl⟩

include hg in
theorem callMulHint_spec {a b : El F} {m : Bool} :
    Spec cn P (callMulHint P a b m) (fun q => (m = true → New cn P q.2.1) ∧ (m = false → q.2.1.limbs = [])) := by
  unfold callMulHint
  dsimp only
  split
  · exact spec_fail cn P
  · refine spec_bind cn P (spec_hint cn P) fun ret _ => spec_bind cn P (packLimbs_spec hg) fun quo _ => ?_
    cases m with
    | true =>
      rw [if_pos rfl]
      refine spec_bind cn P (packLimbs_spec hg) fun rem hr => spec_pure cn P ⟨fun _ => ?_, fun h => by cases h⟩
      rw [hr.1]; exact new_int hr.2
    | false =>
      rw [if_neg (by simp)]
      refine spec_bind cn P (spec_pure cn P (Q := fun r => r = ⟨[], 0, false, false⟩) rfl) fun rem hr => spec_pure cn P ⟨fun h => (by cases h), fun _ => ?_⟩
      rw [hr]

include hg in
theorem mulMod_spec {a b : El F} (ha : Ok cn P a) (hb : Ok cn P b) :
    Spec cn P (mulMod P a b) (fun r => New cn P r ∧ value cn P r.limbs ≡ value cn P a.limbs * value cn P b.limbs [MOD P.modulus]) := by
  unfold mulMod
  refine spec_bind cn P (condWidth_spec hg ha) fun _ _ => spec_bind cn P (condWidth_spec hg hb) fun _ _ => spec_bind cn P (callMulHint_spec hg) ?_
  rintro ⟨k, r, c⟩ ⟨hn, -⟩
  refine spec_bind cn P (spec_push cn P) fun _ hc => spec_pure cn P ⟨hn rfl, ?_⟩
  have hc' : value cn P a.limbs * value cn P b.limbs = value cn P r.limbs + value cn P k.limbs * P.modulus := hc
  rw [hc', Nat.ModEq, Nat.add_mul_mod_self_right]

theorem digits_spec (n : Nat) : ∀ k x, (digits n k x).length = k ∧ (∀ y ∈ digits n k x, y < 2 ^ n) ∧ limbsVal n (digits n k x) = x % 2 ^ (n * k) := by
  intro k
  induction k with
  | zero => intro x; simp [digits, limbsVal, Nat.mod_one]
  | succ k ih =>
    intro x
    obtain ⟨h1, h2, h3⟩ := ih (x / 2 ^ n)
    refine ⟨by simp [digits, h1], ?_, ?_⟩
    · intro y hy
      rw [digits, List.mem_cons] at hy
      rcases hy with rfl | hy
      · exact Nat.mod_lt _ (Nat.two_pow_pos n)
      · exact h2 y hy
    · rw [digits, limbsVal, h3, Nat.mul_add, Nat.mul_one, Nat.add_comm (n * k), Nat.pow_add, Nat.mod_mul]

theorem map_toNat_cast (l : List Nat) (h : ∀ x ∈ l, x < cn.modulus) : (l.map (Nat.cast : Nat → F)).map cn.toNat = l := by
  rw [List.map_map]
  conv_rhs => rw [← List.map_id l]
  exact List.map_congr_left fun x hx => cn.toNat_cast x (h x hx)

include hg in
theorem digits_el (x : Nat) (hx : x < 2 ^ (P.bits * P.nlimbs)) :
    value cn P ((digits P.bits P.nlimbs x).map (Nat.cast : Nat → F)) = x ∧ New cn P (El.int ((digits P.bits P.nlimbs x).map (Nat.cast : Nat → F)) 0) := by
  obtain ⟨h1, h2, h3⟩ := digits_spec P.bits P.nlimbs x
  have hb : 2 ^ P.bits ≤ 2 ^ 26 := Nat.pow_le_pow_right (by omega) hg.bits26
  have hn := hg.native
  have hm := map_toNat_cast (cn := cn) (digits P.bits P.nlimbs x) fun y hy => by have := h2 y hy; omega
  refine ⟨by rw [value, hm, h3, Nat.mod_eq_of_lt hx], new_int ⟨Nat.zero_le _, ?_⟩⟩
  intro y hy
  have : cn.toNat y ∈ digits P.bits P.nlimbs x := by rw [← hm]; exact List.mem_map_of_mem hy
  exact h2 _ this

include hg in
theorem modulus_lt : P.modulus < 2 ^ (P.bits * P.nlimbs) :=
  Nat.lt_of_lt_of_le (Nat.lt_size_self _) (Nat.pow_le_pow_right (by omega) (by have := hg.fits; rwa [Nat.mul_comm] at this))

include hg in
theorem one_el : value cn P (oneConst P : El F).limbs = 1 ∧ New cn P (oneConst P : El F) := by
  have h := digits_el (F := F) hg (1 % P.modulus) (by have := modulus_lt hg; have := Nat.mod_le 1 P.modulus; have := hg.modulus1; omega)
  rw [Nat.mod_eq_of_lt hg.modulus1] at h
  unfold oneConst
  rw [Nat.mod_eq_of_lt hg.modulus1]
  exact h

include hg in
theorem zero_el : value cn P (zeroConst P : El F).limbs = 0 ∧ New cn P (zeroConst P : El F) :=
  digits_el hg 0 (Nat.two_pow_pos _)

include hg in
theorem reduce_spec {a : El F} {s : Bool} (ha : Ok cn P a) :
    Spec cn P (reduce P a s) (fun r => New cn P r ∧ value cn P r.limbs ≡ value cn P a.limbs [MOD P.modulus]) := by
  unfold reduce
  refine spec_bind cn P (condWidth_spec hg ha) fun _ hf => ?_
  split
  · rename_i h; exact spec_pure cn P ⟨⟨ha, hf, ha.2.2 h⟩, rfl⟩
  · split
    · rename_i h; exact spec_pure cn P ⟨⟨ha, hf, h.2⟩, rfl⟩
    · obtain ⟨h1, h2⟩ := one_el (F := F) hg
      refine spec_mono cn P (mulMod_spec hg ha h2.1) fun r hr => ⟨hr.1, ?_⟩
      have := hr.2
      rwa [h1, Nat.mul_one] at this

include hg in
/-- The reduction before an operation. -/
theorem reduceIf_spec {a : El F} (ha : Ok cn P a) (hf : Full cn P a) (k : Nat) (hk : k ≤ P.maxOf) :
    Spec cn P (reduceIf P a k)
      (fun r => Ok cn P r ∧ Full cn P r ∧ r.overflow + k ≤ P.maxOf ∧ value cn P r.limbs ≡ value cn P a.limbs [MOD P.modulus]) := by
  unfold reduceIf
  split
  · exact spec_mono cn P (reduce_spec hg ha) fun r hr => ⟨hr.1.1, hr.1.2.1, by rw [hr.1.2.2]; omega, hr.2⟩
  · exact spec_pure cn P ⟨ha, hf, by omega, rfl⟩

include hg in
theorem maxOf2 : 2 ≤ P.maxOf := by have := hg.bits26; rw [Params.maxOf]; omega

include hg in
theorem add_spec {a b : El F} (ha : Ok cn P a) (hb : Ok cn P b) :
    Spec cn P (add P a b) (fun r => Ok cn P r ∧ value cn P r.limbs ≡ value cn P a.limbs + value cn P b.limbs [MOD P.modulus]) := by
  have h2 := maxOf2 hg
  have h0 := good0 hg
  unfold add
  refine spec_bind cn P (condWidth_spec hg ha) fun _ fa => spec_bind cn P (condWidth_spec hg hb) fun _ fb => ?_
  refine spec_bind cn P (reduceIf_spec hg ha fa 1 (by omega)) fun a' ha' => spec_bind cn P (reduceIf_spec hg hb fb 1 (by omega)) fun b' hb' => ?_
  obtain ⟨_, fa', oa, va⟩ := ha'
  obtain ⟨_, fb', ob, vb⟩ := hb'
  have hmx : P.bits + P.maxOf = 28 := by have := hg.bits26; rw [Params.maxOf]; omega
  have pa : ∀ i, cn.toNat (a'.limbs.getD i 0) < 2 ^ (P.bits + max a'.overflow b'.overflow) := fun i =>
    Nat.lt_of_lt_of_le (getD_lt h0 fa'.2 i) (Nat.pow_le_pow_right (by omega) (by omega))
  have pb : ∀ i, cn.toNat (b'.limbs.getD i 0) < 2 ^ (P.bits + max a'.overflow b'.overflow) := fun i =>
    Nat.lt_of_lt_of_le (getD_lt h0 fb'.2 i) (Nat.pow_le_pow_right (by omega) (by omega))
  have p27 : 2 ^ (P.bits + (max a'.overflow b'.overflow + 1)) ≤ 2 ^ 28 := Nat.pow_le_pow_right (by omega) (by omega)
  have e27 : 2 ^ (P.bits + (max a'.overflow b'.overflow + 1)) = 2 * 2 ^ (P.bits + max a'.overflow b'.overflow) := by rw [← Nat.add_assoc, Nat.pow_succ, Nat.mul_comm]
  have hnat := hg.native
  have hs : ∀ i, cn.toNat (a'.limbs.getD i 0 + b'.limbs.getD i 0) = cn.toNat (a'.limbs.getD i 0) + cn.toNat (b'.limbs.getD i 0) := fun i =>
    toNat_add' (by have := pa i; have := pb i; omega)
  refine spec_pure cn P ⟨ok_of_full ⟨by show max a'.overflow b'.overflow + 1 ≤ P.maxOf; omega, ?_⟩, ?_⟩
  · intro x hx
    obtain ⟨i, -, rfl⟩ := List.mem_map.1 hx
    show cn.toNat _ < 2 ^ (P.bits + (max a'.overflow b'.overflow + 1))
    rw [hs]; have := pa i; have := pb i; omega
  · have : value cn P (El.int ((List.range (max a'.limbs.length b'.limbs.length)).map fun i => a'.limbs.getD i 0 + b'.limbs.getD i 0) (max a'.overflow b'.overflow + 1)).limbs =
        value cn P a'.limbs + value cn P b'.limbs := by
      show value cn P ((List.range _).map _) = _
      rw [value_range]
      simp only [hs, ← getD_toNat h0]
      rw [lv_add, lv_getD _ _ _ (by simp), lv_getD _ _ _ (by simp)]; rfl
    rw [this]
    exact va.add vb

end Verif.Std.Emu
