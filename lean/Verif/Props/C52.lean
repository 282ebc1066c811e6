import Verif.Std.EmulatedHonest
import Verif.Props.C30
/-!
C52: arithmetic in an emulated ("non-native") field: `GField` (gnark/field.rs).

An element is a list of limbs in the native field, `value cn P limbs` its number.  `GField` does not assert a multiplication at once:
a hint gives quotient, remainder and carries, and `check_mul` asserts later, at a random challenge, an equation of polynomials in the
challenge.  A gadget `Gad F α` is the set of its results with the checks registered on the way, for every output of every hint.

* `C52_check` says exactly what such a check means when it holds at every challenge: an equation **in the native field**, since the
  carries are not range checked.
* Hence the operations are not sound: over M31, with the BLS12-381 base field, every remainder is accepted for a product
  (`C52_mul_violated`), and elements that are equal modulo `2^31 - 1` are accepted as equal (`C52_equal_violated`).
* `is_zero` says "not zero" of the element whose limbs are those of the modulus (`C52_isZero_violated`).
* If the checks hold over the integers, the results are right (`C52_*_partial`).
-/
set_option linter.unusedSectionVars false
set_option linter.unusedSimpArgs false
namespace Verif.Props
open Verif.Std.Emu
open Verif.Std.ShaM31 (limbsVal isZeroF)

variable {F : Type} [Field F] [DecidableEq F] {cn : Canon F} {P : Params}

/-- **A check, exactly**: some carries make it hold at every challenge if and only if `a b = r + k p` in the native field. -/
theorem C52_check (hg : Good cn P) (hn : 0 < P.nlimbs) {a b r k : List F} (ha : a ≠ []) (hb : b ≠ []) (hk : k ≠ []) (hr : r.length ≤ P.nlimbs) :
    (∃ c : List F, c.length = max (mulLimbs a.length b.length) (mulLimbs k.length P.nlimbs) - 1 ∧ ∀ ch, checkMul P [⟨a, b, r, k, c, []⟩] ch) ↔
      ((value cn P a * value cn P b : Nat) : F) = ((value cn P r + value cn P k * P.modulus : Nat) : F) := by
  rw [← check_iff hg ha hb hk hn hr]
  simp [checkMul]

/-! ## The operations, for checks that hold over the integers -/

/-- `add`.  Missing: checks that hold in the native field only, for which this is false (also of the theorems below). -/
theorem C52_add_partial (hg : Good cn P) {a b r : El F} {l : List (MulCheck F)} (ha : Ok cn P a) (hb : Ok cn P b) (h : add P a b r l)
    (hl : ∀ mc ∈ l, mc.Holds cn P) : Ok cn P r ∧ value cn P r.limbs ≡ value cn P a.limbs + value cn P b.limbs [MOD P.modulus] :=
  add_spec hg ha hb r l h hl

/-- `sub`. -/
theorem C52_sub_partial (hg : Good cn P) {a b r : El F} {l : List (MulCheck F)} (ha : Ok cn P a) (hb : Ok cn P b) (h : sub P a b r l)
    (hl : ∀ mc ∈ l, mc.Holds cn P) : Ok cn P r ∧ value cn P r.limbs + value cn P b.limbs ≡ value cn P a.limbs [MOD P.modulus] :=
  sub_spec hg ha hb r l h hl

/-- `neg`. -/
theorem C52_neg_partial (hg : Good cn P) {a r : El F} {l : List (MulCheck F)} (ha : Ok cn P a) (h : neg P a r l)
    (hl : ∀ mc ∈ l, mc.Holds cn P) : Ok cn P r ∧ value cn P r.limbs + value cn P a.limbs ≡ 0 [MOD P.modulus] :=
  neg_spec hg ha r l h hl

/-- `mul`. -/
theorem C52_mul_partial (hg : Good cn P) {a b r : El F} {l : List (MulCheck F)} (ha : Ok cn P a) (hb : Ok cn P b) (h : mul P a b r l)
    (hl : ∀ mc ∈ l, mc.Holds cn P) : Ok cn P r ∧ value cn P r.limbs ≡ value cn P a.limbs * value cn P b.limbs [MOD P.modulus] :=
  ⟨(mul_spec hg ha hb r l h hl).1.1, (mul_spec hg ha hb r l h hl).2⟩

/-- `div`. -/
theorem C52_div_partial (hg : Good cn P) {a b r : El F} {l : List (MulCheck F)} (ha : Ok cn P a) (hb : Ok cn P b) (h : div P a b r l)
    (hl : ∀ mc ∈ l, mc.Holds cn P) : Ok cn P r ∧ value cn P r.limbs * value cn P b.limbs ≡ value cn P a.limbs [MOD P.modulus] :=
  ⟨(div_spec hg ha hb r l h hl).1.1, (div_spec hg ha hb r l h hl).2⟩

/-- `inverse`. -/
theorem C52_inverse_partial (hg : Good cn P) {b r : El F} {l : List (MulCheck F)} (hb : Ok cn P b) (h : inverse P b r l)
    (hl : ∀ mc ∈ l, mc.Holds cn P) : Ok cn P r ∧ value cn P r.limbs * value cn P b.limbs ≡ 1 [MOD P.modulus] :=
  ⟨(inverse_spec hg hb r l h hl).1.1, (inverse_spec hg hb r l h hl).2⟩

/-- `mul_const` (it does not range check its operand: the operand must be in range). -/
theorem C52_mulConst_partial (hg : Good cn P) (hb : P.bits ≤ 8) {a r : El F} {l : List (MulCheck F)} (ha : Ok cn P a) (hf : Full cn P a) {c : Nat}
    (h : mulConst P a c r l) (hl : ∀ mc ∈ l, mc.Holds cn P) : Ok cn P r ∧ value cn P r.limbs ≡ value cn P a.limbs * c [MOD P.modulus] :=
  mulConst_spec hg ha hf hb c r l h hl

/-- `reduce`. -/
theorem C52_reduce_partial (hg : Good cn P) {a r : El F} {s : Bool} {l : List (MulCheck F)} (ha : Ok cn P a) (h : reduce P a s r l)
    (hl : ∀ mc ∈ l, mc.Holds cn P) : Ok cn P r ∧ r.overflow = 0 ∧ value cn P r.limbs ≡ value cn P a.limbs [MOD P.modulus] :=
  ⟨(reduce_spec hg ha r l h hl).1.1, (reduce_spec hg ha r l h hl).1.2.2, (reduce_spec hg ha r l h hl).2⟩

/-- `copy`. -/
theorem C52_copy_partial (hg : Good cn P) {a r : El F} {l : List (MulCheck F)} (ha : Ok cn P a) (h : copyEl P a r l)
    (hl : ∀ mc ∈ l, mc.Holds cn P) : Ok cn P r ∧ value cn P r.limbs ≡ value cn P a.limbs [MOD P.modulus] :=
  ⟨(copyEl_spec hg ha r l h hl).1.1, (copyEl_spec hg ha r l h hl).2⟩

/-- `assert_is_equal`. -/
theorem C52_equal_partial (hg : Good cn P) {a b : El F} {l : List (MulCheck F)} (ha : Ok cn P a) (hb : Ok cn P b) (h : assertEqual P a b () l)
    (hl : ∀ mc ∈ l, mc.Holds cn P) : value cn P a.limbs ≡ value cn P b.limbs [MOD P.modulus] :=
  assertEqual_spec hg ha hb () l h hl

/-- `select` (needs no check). -/
theorem C52_select (hg : Good cn P) {a b r : El F} (s : Bool) {l : List (MulCheck F)} (ha : Ok cn P a) (hb : Ok cn P b)
    (h : select P (Hints.ofBool s) a b r l) : Ok cn P r ∧ value cn P r.limbs = value cn P (if s then a.limbs else b.limbs) := by
  refine select_spec hg ha hb s r l h ?_
  obtain ⟨_, l1, l2, g1, ⟨_, l3, l4, g3, g4, rfl⟩, rfl⟩ := h
  rw [g1.2, g3.2, g4.2]
  simp

/-- `is_zero`, with limbs of at most 8 bits: 1 exactly if the element, reduced only if it has an overflow, is the number 0; hence never
1 of an element that is not zero, but possibly 0 of a multiple of the modulus (`C52_isZero_violated`). -/
theorem C52_isZero_partial (hg : Good cn P) (h8 : P.bits ≤ 8) {a : El F} {o : F} {l : List (MulCheck F)} (ha : Ok cn P a)
    (h : isZero P a o l) (hl : ∀ mc ∈ l, mc.Holds cn P) :
    (o = 0 ∨ o = 1) ∧ (o = 1 → value cn P a.limbs ≡ 0 [MOD P.modulus]) ∧ ∃ r, reduce P a false r l ∧ (o = 1 ↔ value cn P r.limbs = 0) := by
  obtain ⟨ca, l1, l2, g1, g2, rfl⟩ := h
  obtain ⟨hn, hv⟩ := reduce_spec hg ha ca l1 g1 fun mc hm => hl mc (by simp [hm])
  have key := isZero_limbs hg h8 (l := ca.limbs) (by have := hn.2.1.2; rwa [hn.2.2] at this)
  split at g2
  · rename_i h20
    obtain ⟨rfl, rfl⟩ := g2
    exact ⟨key.1.1, fun h1 => by rw [key.1.2 h1] at hv; exact hv.symm, ca, by simpa using g1, key.1.2, fun h1 => (isZero_zeros (zeros_of_value h1)).1⟩
  · rename_i h20
    obtain ⟨rfl, rfl⟩ := g2
    refine ⟨by rw [isZeroF]; split <;> simp, fun h1 => ?_, ca, by simpa using g1, key.2 (by omega), fun h1 => (isZero_zeros (zeros_of_value h1)).2⟩
    rw [key.2 (by omega) h1] at hv
    exact hv.symm

/-! ## The honest prover is accepted

`Valid` operands: in range as their overflow says, with at least the limbs of the modulus.  `Tight` parameters: see `tight_fp`, `tight_fr`.
In each theorem the checks registered hold at every challenge (and over the integers: the theorems above apply). -/

theorem honest_checks {α : Type} {g : Gad F α} {Q : α → Prop} (h : Honest cn P g Q) :
    ∃ x l, g x l ∧ Q x ∧ (∀ mc ∈ l, mc.Holds cn P) ∧ ∀ ch, checkMul P l ch := by
  obtain ⟨x, l, h1, h2, h3⟩ := h
  exact ⟨x, l, h1, h2, fun mc hm => (h3 mc hm).1, fun ch mc hm => (h3 mc hm).2 ch⟩

theorem C52_add_complete (ht : Tight cn P) {a b : El F} (ha : Valid cn P a) (hb : Valid cn P b) :
    ∃ r l, add P a b r l ∧ (Valid cn P r ∧ value cn P r.limbs ≡ value cn P a.limbs + value cn P b.limbs [MOD P.modulus]) ∧
      (∀ mc ∈ l, mc.Holds cn P) ∧ ∀ ch, checkMul P l ch := honest_checks (add_honest ht ha hb)

theorem C52_sub_complete (ht : Tight cn P) {a b : El F} (ha : Valid cn P a) (hb : Valid cn P b) :
    ∃ r l, sub P a b r l ∧ (Valid cn P r ∧ value cn P r.limbs + value cn P b.limbs ≡ value cn P a.limbs [MOD P.modulus]) ∧
      (∀ mc ∈ l, mc.Holds cn P) ∧ ∀ ch, checkMul P l ch := honest_checks (sub_honest ht ha hb)

theorem C52_neg_complete (ht : Tight cn P) {a : El F} (ha : Valid cn P a) :
    ∃ r l, neg P a r l ∧ (Valid cn P r ∧ value cn P r.limbs + value cn P a.limbs ≡ 0 [MOD P.modulus]) ∧
      (∀ mc ∈ l, mc.Holds cn P) ∧ ∀ ch, checkMul P l ch := honest_checks (neg_honest ht ha)

theorem C52_mul_complete (ht : Tight cn P) {a b : El F} (ha : Valid cn P a) (hb : Valid cn P b) :
    ∃ r l, mul P a b r l ∧ (Valid cn P r ∧ value cn P r.limbs ≡ value cn P a.limbs * value cn P b.limbs [MOD P.modulus]) ∧
      (∀ mc ∈ l, mc.Holds cn P) ∧ ∀ ch, checkMul P l ch := honest_checks (mul_honest ht ha hb)

/-- A quotient exists for every divisor prime to the modulus. -/
theorem C52_div_complete (ht : Tight cn P) {a b : El F} (ha : Valid cn P a) (hb : Valid cn P b) (hc : Nat.Coprime (value cn P b.limbs) P.modulus) :
    ∃ r l, div P a b r l ∧ (Valid cn P r ∧ value cn P r.limbs * value cn P b.limbs ≡ value cn P a.limbs [MOD P.modulus]) ∧
      (∀ mc ∈ l, mc.Holds cn P) ∧ ∀ ch, checkMul P l ch := honest_checks (div_honest ht ha hb hc)

theorem C52_inverse_complete (ht : Tight cn P) {b : El F} (hb : Valid cn P b) (hc : Nat.Coprime (value cn P b.limbs) P.modulus) :
    ∃ r l, inverse P b r l ∧ (Valid cn P r ∧ value cn P r.limbs * value cn P b.limbs ≡ 1 [MOD P.modulus]) ∧
      (∀ mc ∈ l, mc.Holds cn P) ∧ ∀ ch, checkMul P l ch := honest_checks (inverse_honest ht hb hc)

theorem C52_mulConst_complete (ht : Tight cn P) (h8 : P.bits ≤ 8) {a : El F} (ha : Valid cn P a) {c : Nat} (hc : c.size ≤ 20) :
    ∃ r l, mulConst P a c r l ∧ (Valid cn P r ∧ value cn P r.limbs ≡ value cn P a.limbs * c [MOD P.modulus]) ∧
      (∀ mc ∈ l, mc.Holds cn P) ∧ ∀ ch, checkMul P l ch := honest_checks (mulConst_honest ht h8 ha hc)

theorem C52_copy_complete (ht : Tight cn P) {a : El F} (ha : Valid cn P a) :
    ∃ r l, copyEl P a r l ∧ (Valid cn P r ∧ value cn P r.limbs ≡ value cn P a.limbs [MOD P.modulus]) ∧
      (∀ mc ∈ l, mc.Holds cn P) ∧ ∀ ch, checkMul P l ch := honest_checks (copyEl_honest ht ha)

/-- Congruent elements are accepted as equal, whatever their limbs. -/
theorem C52_equal_complete (ht : Tight cn P) {a b : El F} (ha : Valid cn P a) (hb : Valid cn P b)
    (h : value cn P a.limbs ≡ value cn P b.limbs [MOD P.modulus]) :
    ∃ l, assertEqual P a b () l ∧ (∀ mc ∈ l, mc.Holds cn P) ∧ ∀ ch, checkMul P l ch := by
  obtain ⟨_, l, h1, -, h2⟩ := honest_checks (assertEqual_honest ht ha hb h)
  exact ⟨l, h1, h2⟩

/-! ## M31 and the BLS12-381 base field -/

/-- The canonical integers of M31. -/
def m31cn : Canon M31 := Canon.zmod 2147483647 (by decide)

theorem good_fp : Good m31cn bls12381Fp := ⟨by decide, by decide, by decide, by decide +kernel, by show _ ≤ 2147483647; decide⟩
theorem good_fr : Good m31cn bls12381Fr := ⟨by decide, by decide, by decide, by decide +kernel, by show _ ≤ 2147483647; decide⟩

theorem tight_fp : Tight m31cn bls12381Fp := ⟨good_fp, by decide, by decide +kernel, by decide +kernel⟩
theorem tight_fr : Tight m31cn bls12381Fr := ⟨good_fr, by decide, by decide +kernel, by decide +kernel⟩

/-- **Every product is accepted**: whatever the factors (made by `GField`, without overflow) and whatever limbs in range are claimed as
the product, some prover makes `mul` return them, with every check true at every challenge. -/
theorem C52_mul_any {a b : El M31} (ha : a.internal = true) (hb : b.internal = true) (la : a.limbs.length = 48) (lb : b.limbs.length = 48)
    (oa : a.overflow = 0) (ob : b.overflow = 0) {r : List M31} (lr : r.length = 48) (hr : enforceWidth bls12381Fp r true) :
    ∃ l, mul bls12381Fp a b (El.int r 0) l ∧ ∀ ch, checkMul bls12381Fp l ch := by
  have hpc : mulPreCond bls12381Fp a b = 15 := by simp only [mulPreCond, la, lb, oa, ob]; decide +kernel
  have hst : mulStep bls12381Fp a b = pure (a, b) := by rw [mulStep, hpc, if_neg (by decide)]
  have hm := mulMod_any good_fp (by decide) ha hb (by intro h; simp [h] at la) (by intro h; simp [h] at lb)
    (by decide +kernel) (nq := 50) (by rw [hpc, la, lb]; decide +kernel) (by show 2147483647 ≤ _; decide +kernel) lr hr
  show Reaches bls12381Fp (mul bls12381Fp a b) (El.int r 0)
  unfold mul
  refine reaches_bind (reaches_condWidth fun h => by simp [ha] at h) (reaches_bind (reaches_condWidth fun h => by simp [hb] at h) ?_)
  refine reaches_bind (a := (a, b)) (by rw [hst]; exact reaches_pure _) (reaches_bind (a := (a, b)) (by rw [hst]; exact reaches_pure _) hm)

theorem width_of (cn : Canon F) {P : Params} {l : List F} {m : Bool}
    (h : ∀ i < l.length, cn.toNat (l.getD i 0) < 2 ^ (if m ∧ i = l.length - 1 then P.lastBits else P.bits)) : enforceWidth P l m :=
  fun i hi => ⟨cn.toNat (l.getD i 0), h i hi, (cn.cast_toNat _).symm⟩

/-- The limbs of a number. -/
def fpEl (x : Nat) : El M31 := El.int ((digits 8 48 x).map (Nat.cast : Nat → M31)) 0

theorem fpEl_ok (x : Nat) (hx : x < 2 ^ 384) : value m31cn bls12381Fp (fpEl x).limbs = x ∧ Ok m31cn bls12381Fp (fpEl x) :=
  ⟨(digits_el good_fp x hx).1, (digits_el good_fp x hx).2.1⟩

/-- `mul` is not sound: 1 · 1 = 2 is accepted. -/
theorem C52_mul_violated : ∃ (a b r : El M31) (l : List (MulCheck M31)), Ok m31cn bls12381Fp a ∧ Ok m31cn bls12381Fp b ∧
    mul bls12381Fp a b r l ∧ (∀ ch, checkMul bls12381Fp l ch) ∧
    ¬ value m31cn bls12381Fp r.limbs ≡ value m31cn bls12381Fp a.limbs * value m31cn bls12381Fp b.limbs [MOD bls12381Fp.modulus] := by
  have hlen : ∀ x, (fpEl x).limbs.length = 48 := fun x => by simp [fpEl, El.int, (digits_spec _ _ _).1]
  have h1 := fpEl_ok 1 (by decide)
  have h2 := fpEl_ok 2 (by decide)
  have hw : enforceWidth bls12381Fp (fpEl 2).limbs true := width_of m31cn (by decide +kernel)
  obtain ⟨l, hl, hc⟩ := C52_mul_any (a := fpEl 1) (b := fpEl 1) rfl rfl (hlen 1) (hlen 1) rfl rfl (hlen 2) hw
  refine ⟨fpEl 1, fpEl 1, _, l, h1.2, h1.2, hl, hc, ?_⟩
  show ¬ value m31cn bls12381Fp (fpEl 2).limbs ≡ _ [MOD _]
  rw [h1.1, h2.1]
  decide +kernel

/-- **Elements equal modulo `2^31 - 1` are accepted as equal.** -/
theorem C52_equal_any {a b : El M31} (ha : a.internal = true) (hb : b.internal = true) (la : a.limbs.length = 48) (lb : b.limbs.length = 48)
    (oa : a.overflow = 0) (ob : b.overflow = 0) (hab : value m31cn bls12381Fp a.limbs ≡ value m31cn bls12381Fp b.limbs [MOD 2147483647]) :
    ∃ l, assertEqual bls12381Fp a b () l ∧ ∀ ch, checkMul bls12381Fp l ch := by
  obtain ⟨pad, hp⟩ := Option.isSome_iff_exists.1 (show (subPadding bls12381Fp 0 bls12381Fp.nlimbs).isSome = true by decide +kernel)
  have hpv : (subPadding bls12381Fp 0 bls12381Fp.nlimbs).map (limbsVal 8) = some (10 * bls12381Fp.modulus) := by decide +kernel
  rw [hp, Option.map_some, Option.some.injEq] at hpv
  exact assertEqual_any good_fp (by decide) ha hb la lb oa ob (by decide) hp (nq := 1) (by decide +kernel) (by decide) (K := 10) (by decide)
    (by show ((limbsVal 8 pad : Nat) : M31) = _; rw [hpv]) ((ZMod.natCast_eq_natCast_iff _ _ _).2 hab)

/-- `assert_is_equal` is not sound: `0 = 2^31 - 1` is accepted. -/
theorem C52_equal_violated : ∃ (a b : El M31) (l : List (MulCheck M31)), Ok m31cn bls12381Fp a ∧ Ok m31cn bls12381Fp b ∧
    assertEqual bls12381Fp a b () l ∧ (∀ ch, checkMul bls12381Fp l ch) ∧
    ¬ value m31cn bls12381Fp a.limbs ≡ value m31cn bls12381Fp b.limbs [MOD bls12381Fp.modulus] := by
  have hlen : ∀ x, (fpEl x).limbs.length = 48 := fun x => by simp [fpEl, El.int, (digits_spec _ _ _).1]
  have h1 := fpEl_ok 0 (by decide)
  have h2 := fpEl_ok 2147483647 (by decide)
  obtain ⟨l, hl, hc⟩ := C52_equal_any (a := fpEl 0) (b := fpEl 2147483647) rfl rfl (hlen _) (hlen _) rfl rfl (by rw [h1.1, h2.1]; decide)
  refine ⟨fpEl 0, fpEl 2147483647, l, h1.2, h2.2, hl, hc, ?_⟩
  rw [h1.1, h2.1]
  decide +kernel

/-- `is_zero` says "not zero" of the limbs of the modulus, which are in range. -/
theorem C52_isZero_violated : ∃ a : El M31, Ok m31cn bls12381Fp a ∧ enforceWidth bls12381Fp a.limbs true ∧
    value m31cn bls12381Fp a.limbs ≡ 0 [MOD bls12381Fp.modulus] ∧ ∀ o l, isZero bls12381Fp a o l ↔ o = 0 ∧ l = [] := by
  have h := digits_el (F := M31) good_fp bls12381Fp.modulus (modulus_lt good_fp)
  refine ⟨nConst bls12381Fp, h.2.1, width_of m31cn (by decide +kernel), by rw [nConst_value good_fp]; decide +kernel, fun o l => ?_⟩
  have hz : (((nConst bls12381Fp : El M31).limbs.drop 1).foldl (fun res x => res * isZeroF x) (isZeroF ((nConst bls12381Fp : El M31).limbs.getD 0 0))) = 0 := by
    decide +kernel
  constructor
  · rintro ⟨ca, l1, l2, ⟨_, l3, l4, ⟨-, rfl⟩, g1, rfl⟩, g2, rfl⟩
    rw [if_neg (by decide), if_pos (by decide)] at g1
    obtain ⟨rfl, rfl⟩ := g1
    rw [if_pos (by decide +kernel), hz] at g2
    obtain ⟨rfl, rfl⟩ := g2
    exact ⟨rfl, rfl⟩
  · rintro ⟨rfl, rfl⟩
    refine ⟨nConst bls12381Fp, [], [], ⟨(), [], [], ⟨fun h => by simp [nConst, El.int] at h, rfl⟩, ?_, rfl⟩, ?_, rfl⟩
    · rw [if_neg (by decide), if_pos (by decide)]; exact ⟨rfl, rfl⟩
    · show (if (nConst bls12381Fp : El M31).limbs.length - 1 > 20 then pure _ else _ : Gad M31 M31) 0 []
      rw [if_pos (by decide +kernel), hz]; exact ⟨rfl, rfl⟩

/-! ## The hypotheses are met -/

theorem fpEl_valid (x : Nat) (hx : x < bls12381Fp.modulus) : Valid m31cn bls12381Fp (fpEl x) := (digits_valid tight_fp hx).1

/-- The sum of two sums has overflow 2, and is a valid operand of a product: the theorems apply to chains of operations. -/
example : ∃ s1 s2 r l1 l2 l3, add bls12381Fp (fpEl 5) (fpEl 7) s1 l1 ∧ sub bls12381Fp s1 (fpEl 3) s2 l2 ∧ mul bls12381Fp s2 s1 r l3 ∧
    (∀ ch, checkMul bls12381Fp (l1 ++ l2 ++ l3) ch) ∧ value m31cn bls12381Fp r.limbs ≡ 9 * 12 [MOD bls12381Fp.modulus] := by
  have v : ∀ x, x < 100 → Valid m31cn bls12381Fp (fpEl x) := fun x hx => fpEl_valid x (Nat.lt_trans hx (by decide +kernel))
  have e : ∀ x, x < 100 → value m31cn bls12381Fp (fpEl x).limbs = x := fun x hx => (fpEl_ok x (Nat.lt_trans hx (by decide))).1
  obtain ⟨s1, l1, a1, ⟨b1, c1⟩, -, d1⟩ := C52_add_complete tight_fp (v 5 (by decide)) (v 7 (by decide))
  obtain ⟨s2, l2, a2, ⟨b2, c2⟩, -, d2⟩ := C52_sub_complete tight_fp b1 (v 3 (by decide))
  obtain ⟨r, l3, a3, ⟨-, c3⟩, -, d3⟩ := C52_mul_complete tight_fp b2 b1
  refine ⟨s1, s2, r, l1, l2, l3, a1, a2, a3, fun ch mc hm => ?_, c3.trans (Nat.ModEq.mul ?_ ?_)⟩
  · rcases List.mem_append.1 hm with h | h
    · rcases List.mem_append.1 h with h | h
      · exact d1 ch mc h
      · exact d2 ch mc h
    · exact d3 ch mc h
  · rw [e 3 (by decide)] at c2
    rw [e 5 (by decide), e 7 (by decide)] at c1
    exact Nat.ModEq.add_right_cancel' 3 (c2.trans c1)
  · rw [e 5 (by decide), e 7 (by decide)] at c1
    exact c1

/-- The inverse of 2 exists. -/
example : Nat.Coprime (value m31cn bls12381Fp (fpEl 2).limbs) bls12381Fp.modulus := by
  rw [(fpEl_ok 2 (by decide)).1]
  decide +kernel

/-- A check as in `C52_check`: `6 · 1 = 6 + 0 p`. -/
example : ((value m31cn bls12381Fp (fpEl 6).limbs * value m31cn bls12381Fp (fpEl 1).limbs : Nat) : M31) =
    ((value m31cn bls12381Fp (fpEl 6).limbs + value m31cn bls12381Fp (fpEl 0).limbs * bls12381Fp.modulus : Nat) : M31) := by
  rw [(fpEl_ok 6 (by decide)).1, (fpEl_ok 1 (by decide)).1, (fpEl_ok 0 (by decide)).1]
  decide

/-- `select` with a condition. -/
example : ∃ r, select bls12381Fp (Hints.ofBool true) (fpEl 5) (fpEl 7) r [] :=
  ⟨_, (), [], [], ⟨fun h => by simp [fpEl, El.int] at h, rfl⟩, ⟨(), [], [], ⟨fun h => by simp [fpEl, El.int] at h, rfl⟩, ⟨rfl, rfl⟩, rfl⟩, rfl⟩

end Verif.Props
