import Verif.Std.Tower
import Mathlib.Algebra.QuadraticAlgebra.Basic
import Mathlib.Data.ZMod.Basic
import Mathlib.Tactic.Ring
import Mathlib.Tactic.LinearCombination
/-!
Arithmetic in the tower, proved once for two readings of a gadget: "every result is right" (`Spec`) and "some prover is accepted, with
the right result" (`Honest`).
-/
set_option linter.unusedSectionVars false
set_option linter.unusedSimpArgs false
namespace Verif.Std.Emu

variable {F : Type} [Field F] [DecidableEq F]

/-- The number of an element, modulo the modulus. -/
def ev (cn : Canon F) (P : Params) (e : El F) : ZMod P.modulus := (value cn P e.limbs : Nat)

/-- A reading of gadgets, with the operations of the base field. -/
structure Logic (cn : Canon F) (P : Params) where
  T : {α : Type} → Gad F α → (α → Prop) → Prop
  R : El F → Prop
  bind : ∀ {α β : Type} {m : Gad F α} {f : α → Gad F β} {Q : α → Prop} {S : β → Prop}, T m Q → (∀ a, Q a → T (f a) S) → T (m >>= f) S
  mono : ∀ {α : Type} {m : Gad F α} {Q S : α → Prop}, T m Q → (∀ a, Q a → S a) → T m S
  pure : ∀ {α : Type} {a : α} {Q : α → Prop}, Q a → T (pure a) Q
  add : ∀ {a b}, R a → R b → T (add P a b) (fun r => R r ∧ ev cn P r = ev cn P a + ev cn P b)
  sub : ∀ {a b}, R a → R b → T (sub P a b) (fun r => R r ∧ ev cn P r = ev cn P a - ev cn P b)
  neg : ∀ {a}, R a → T (neg P a) (fun r => R r ∧ ev cn P r = -ev cn P a)
  mul : ∀ {a b}, R a → R b → T (mul P a b) (fun r => R r ∧ ev cn P r = ev cn P a * ev cn P b)
  mulConst : ∀ {a} {c : Nat}, R a → c.size ≤ 20 → T (mulConst P a c) (fun r => R r ∧ ev cn P r = ev cn P a * (c : ZMod P.modulus))
  one : R (oneConst P)
  zero : R (zeroConst P)
  const : ∀ v, R (valueOf P v)
  /-- Whether the prover is honest. -/
  hon : Prop
  hint : ∀ v : ZMod P.modulus, T (hintEl P) (fun r => R r ∧ (hon → ev cn P r = v))
  equal : ∀ {a b}, R a → R b → (hon → ev cn P a = ev cn P b) → T (assertEqual P a b) (fun _ => ev cn P a = ev cn P b)

variable {cn : Canon F} {P : Params}

theorem ev_modEq {a : Nat} {e : El F} (h : value cn P e.limbs ≡ a [MOD P.modulus]) : ev cn P e = (a : ZMod P.modulus) :=
  (ZMod.natCast_eq_natCast_iff _ _ _).2 h

theorem ev_one (hg : Good cn P) : ev cn P (oneConst P : El F) = 1 := by rw [ev, (one_el hg).1, Nat.cast_one]
theorem ev_zero (hg : Good cn P) : ev cn P (zeroConst P : El F) = 0 := by rw [ev, (zero_el hg).1, Nat.cast_zero]

theorem ev_valueOf (hg : Good cn P) (v : Nat) : ev cn P (valueOf P v : El F) = (v : ZMod P.modulus) := by
  rw [ev, valueOf, El.int, (digits_el (F := F) hg (v % P.modulus) (Nat.lt_trans (Nat.mod_lt _ (by have := hg.modulus1; omega)) (modulus_lt hg))).1, ZMod.natCast_mod]

/-- Every result is internal. -/
def Internal (g : Gad F (El F)) : Prop := ∀ x l, g x l → x.internal = true

theorem internal_bind {α : Type} {m : Gad F α} {f : α → Gad F (El F)} (h : ∀ a, Internal (f a)) : Internal (m >>= f) := by
  rintro x l ⟨a, l1, l2, g1, g2, rfl⟩
  exact h a x l2 g2

theorem internal_pure {e : El F} (h : e.internal = true) : Internal (pure e) := by
  rintro x l ⟨rfl, -⟩; exact h

theorem add_internal (a b : El F) : Internal (add P a b) :=
  internal_bind fun _ => internal_bind fun _ => internal_bind fun _ => internal_bind fun _ => internal_pure rfl

theorem sub_internal (a b : El F) : Internal (sub P a b) := by
  refine internal_bind fun _ => internal_bind fun _ => internal_bind fun _ => internal_bind fun _ => ?_
  dsimp only
  split
  · exact fun _ _ h => h.elim
  · exact internal_pure rfl

theorem mulConst_internal (a : El F) (c : Nat) : Internal (mulConst P a c) := by
  unfold mulConst
  split
  · exact internal_pure rfl
  · split
    · exact fun _ _ h => h.elim
    · exact internal_bind fun _ => internal_pure rfl

theorem spec_internal {g : Gad F (El F)} {Q : El F → Prop} (hi : Internal g) (h : Spec cn P g (fun r => Ok cn P r ∧ Q r)) :
    Spec cn P g (fun r => (Ok cn P r ∧ Full cn P r) ∧ Q r) := fun x l hx hl => by
  obtain ⟨h1, h2⟩ := h x l hx hl
  exact ⟨⟨h1, h1.1 (hi x l hx)⟩, h2⟩

theorem ev_sub {a b r : El F} (h : value cn P r.limbs + value cn P b.limbs ≡ value cn P a.limbs [MOD P.modulus]) : ev cn P r = ev cn P a - ev cn P b := by
  have := (ZMod.natCast_eq_natCast_iff _ _ _).2 h
  rw [Nat.cast_add] at this
  exact eq_sub_of_add_eq this

theorem ev_neg {a r : El F} (h : value cn P r.limbs + value cn P a.limbs ≡ 0 [MOD P.modulus]) : ev cn P r = -ev cn P a := by
  have := (ZMod.natCast_eq_natCast_iff _ _ _).2 h
  rw [Nat.cast_add, Nat.cast_zero] at this
  exact eq_neg_of_add_eq_zero_left this

/-- Every result is right if the checks hold over the integers. -/
def soundLogic (hg : Good cn P) (h8 : P.bits ≤ 8) : Logic cn P where
  T := fun g Q => Spec cn P g Q
  R := fun e => Ok cn P e ∧ Full cn P e
  bind := fun h1 h2 => spec_bind cn P h1 h2
  mono := fun h1 h2 => spec_mono cn P h1 h2
  pure := fun h => spec_pure cn P h
  add := fun {a b} ha hb => spec_mono cn P (spec_internal (add_internal a b) (add_spec hg ha.1 hb.1)) fun r hr => ⟨hr.1, by
    rw [ev_modEq hr.2, Nat.cast_add]; rfl⟩
  sub := fun {a b} ha hb => spec_mono cn P (spec_internal (sub_internal a b) (sub_spec hg ha.1 hb.1)) fun r hr => ⟨hr.1, ev_sub hr.2⟩
  neg := fun {a} ha => spec_mono cn P (spec_internal (sub_internal _ a) (neg_spec hg ha.1)) fun r hr => ⟨hr.1, ev_neg hr.2⟩
  mul := fun {a b} ha hb => spec_mono cn P (mul_spec hg ha.1 hb.1) fun r hr => ⟨⟨hr.1.1, hr.1.2.1⟩, by
    rw [ev_modEq hr.2, Nat.cast_mul]; rfl⟩
  mulConst := fun {a c} ha _ => spec_mono cn P (spec_internal (mulConst_internal a c) (mulConst_spec hg ha.1 ha.2 h8 c)) fun r hr => ⟨hr.1, by
    rw [ev_modEq hr.2, Nat.cast_mul]; rfl⟩
  one := ⟨(one_el hg).2.1, (one_el hg).2.2.1⟩
  zero := ⟨(zero_el hg).2.1, (zero_el hg).2.2.1⟩
  const := fun v => by
    have h := (digits_el (F := F) hg (v % P.modulus) (Nat.lt_trans (Nat.mod_lt _ (by have := hg.modulus1; omega)) (modulus_lt hg))).2
    exact ⟨h.1, h.2.1⟩
  hon := False
  hint := fun _ => by
    refine spec_bind cn P (spec_hint cn P) fun d _ => spec_mono cn P (packLimbs_spec hg) fun r hr => ⟨?_, fun h => h.elim⟩
    rw [hr.1]; exact ⟨ok_of_full hr.2, hr.2⟩
  equal := fun ha hb _ => spec_mono cn P (assertEqual_spec hg ha.1 hb.1) fun _ h => ev_modEq h

/-- Some prover is accepted, with the right result. -/
def honestLogic (ht : Tight cn P) (h8 : P.bits ≤ 8) : Logic cn P where
  T := fun g Q => Honest cn P g Q
  R := Valid cn P
  bind := fun h1 h2 => honest_bind h1 h2
  mono := fun h1 h2 => honest_mono h1 h2
  pure := fun h => honest_pure h
  add := fun ha hb => honest_mono (add_honest ht ha hb) fun r hr => ⟨hr.1, by rw [ev_modEq hr.2, Nat.cast_add]; rfl⟩
  sub := fun ha hb => honest_mono (sub_honest ht ha hb) fun r hr => ⟨hr.1, ev_sub hr.2⟩
  neg := fun ha => honest_mono (neg_honest ht ha) fun r hr => ⟨hr.1, ev_neg hr.2⟩
  mul := fun ha hb => honest_mono (mul_honest ht ha hb) fun r hr => ⟨hr.1, by rw [ev_modEq hr.2, Nat.cast_mul]; rfl⟩
  mulConst := fun ha hc => honest_mono (mulConst_honest ht h8 ha hc) fun r hr => ⟨hr.1, by rw [ev_modEq hr.2, Nat.cast_mul]; rfl⟩
  one := one_valid ht
  zero := zero_valid ht
  const := fun v => (digits_valid ht (Nat.mod_lt _ (by have := ht.good.modulus1; omega))).1
  hon := True
  hint := fun v => by
    have : NeZero P.modulus := ⟨by have := ht.good.modulus1; omega⟩
    obtain ⟨e, l, ⟨d, l1, l2, g1, ⟨e', l3, l4, g3, ⟨rfl, g4⟩, rfl⟩, rfl⟩, h2, h3⟩ := honest_pack (cn := cn) ht (ZMod.val_lt v) (f := fun e => (pure e : Gad F (El F)))
      (Q := fun r => Valid cn P r ∧ (True → ev cn P r = v)) fun e he hex => honest_pure ⟨he, fun _ => by rw [ev, hex, ZMod.natCast_zmod_val]⟩
    refine ⟨e, l1 ++ l3, ⟨d, l1, l3, g1, g3, rfl⟩, h2, fun mc hm => h3 mc ?_⟩
    simp only [List.mem_append] at hm ⊢
    tauto
  equal := fun ha hb h => honest_mono (assertEqual_honest ht ha hb ((ZMod.natCast_eq_natCast_iff _ _ _).1 (h trivial))) fun _ _ => h trivial

/-- The quadratic extension by a root `u` of `-1`: pairs `re + im u`. -/
abbrev K2 (P : Params) : Type := QuadraticAlgebra (ZMod P.modulus) (-1) 0

/-- `1 + u`. -/
def xi (P : Params) : K2 P := ⟨1, 1⟩

/-- `x` is an operand with the value `z`. -/
def R2 (L : Logic cn P) (x : E2 F) (z : K2 P) : Prop := L.R x.a0 ∧ L.R x.a1 ∧ ev cn P x.a0 = z.re ∧ ev cn P x.a1 = z.im

variable (L : Logic cn P) {x y : E2 F} {z w : K2 P}

theorem R2_eq (h : R2 L x z) (e : z = w) : R2 L x w := e ▸ h

theorem e2Add_T (hx : R2 L x z) (hy : R2 L y w) : L.T (e2Add P x y) (fun r => R2 L r (z + w)) := by
  obtain ⟨x0, x1, x2, x3⟩ := hx
  obtain ⟨y0, y1, y2, y3⟩ := hy
  exact L.bind (L.add x0 y0) fun z0 h0 => L.bind (L.add x1 y1) fun z1 h1 => L.pure ⟨h0.1, h1.1, by simp [h0.2, x2, y2], by simp [h1.2, x3, y3]⟩

theorem e2Sub_T (hx : R2 L x z) (hy : R2 L y w) : L.T (e2Sub P x y) (fun r => R2 L r (z - w)) := by
  obtain ⟨x0, x1, x2, x3⟩ := hx
  obtain ⟨y0, y1, y2, y3⟩ := hy
  exact L.bind (L.sub x0 y0) fun z0 h0 => L.bind (L.sub x1 y1) fun z1 h1 => L.pure ⟨h0.1, h1.1, by simp [h0.2, x2, y2], by simp [h1.2, x3, y3]⟩

theorem e2Neg_T (hx : R2 L x z) : L.T (e2Neg P x) (fun r => R2 L r (-z)) := by
  obtain ⟨x0, x1, x2, x3⟩ := hx
  exact L.bind (L.neg x0) fun z0 h0 => L.bind (L.neg x1) fun z1 h1 => L.pure ⟨h0.1, h1.1, by simp [h0.2, x2], by simp [h1.2, x3]⟩

theorem e2MulConst_T (hx : R2 L x z) {c : Nat} (hc : c.size ≤ 20) : L.T (e2MulConst P x c) (fun r => R2 L r (z * (c : K2 P))) := by
  obtain ⟨x0, x1, x2, x3⟩ := hx
  exact L.bind (L.mulConst x0 hc) fun z0 h0 => L.bind (L.mulConst x1 hc) fun z1 h1 => L.pure ⟨h0.1, h1.1, by simp [h0.2, x2], by simp [h1.2, x3]⟩

theorem e2Double_T (hx : R2 L x z) : L.T (e2Double P x) (fun r => R2 L r (z + z)) := by
  obtain ⟨x0, x1, x2, x3⟩ := hx
  exact L.bind (L.mulConst (c := 2) x0 (by decide)) fun z0 h0 => L.bind (L.mulConst (c := 2) x1 (by decide)) fun z1 h1 => L.pure ⟨h0.1, h1.1, by
    simp only [h0.2, x2, QuadraticAlgebra.re_add]; push_cast; ring, by simp only [h1.2, x3, QuadraticAlgebra.im_add]; push_cast; ring⟩

theorem e2Mul_T (hx : R2 L x z) (hy : R2 L y w) : L.T (e2Mul P x y) (fun r => R2 L r (z * w)) := by
  obtain ⟨x0, x1, x2, x3⟩ := hx
  obtain ⟨y0, y1, y2, y3⟩ := hy
  refine L.bind (L.mul x0 y0) fun v0 h0 => L.bind (L.mul x1 y1) fun v1 h1 => L.bind (L.sub h0.1 h1.1) fun b0 h2 => L.bind (L.add x0 x1) fun b1 h3 =>
    L.bind (L.add y0 y1) fun t h4 => L.bind (L.mul h3.1 h4.1) fun b2 h5 => L.bind (L.add h0.1 h1.1) fun t2 h6 => L.bind (L.sub h5.1 h6.1) fun b3 h7 =>
    L.pure ⟨h2.1, h7.1, ?_, ?_⟩
  · simp only [h2.2, h0.2, h1.2, x2, x3, y2, y3, QuadraticAlgebra.re_mul]; ring
  · simp only [h7.2, h6.2, h5.2, h4.2, h3.2, h0.2, h1.2, x2, x3, y2, y3, QuadraticAlgebra.im_mul]; ring

theorem e2MulElement_T (hx : R2 L x z) {y : El F} (hy : L.R y) : L.T (e2MulElement P x y) (fun r => R2 L r (z * ⟨ev cn P y, 0⟩)) := by
  obtain ⟨x0, x1, x2, x3⟩ := hx
  refine L.bind (L.mul x0 hy) fun z0 h0 => L.bind (L.mul x1 hy) fun z1 h1 => L.pure ⟨h0.1, h1.1, ?_, ?_⟩
  · simp only [h0.2, x2, QuadraticAlgebra.re_mul]; ring
  · simp only [h1.2, x3, QuadraticAlgebra.im_mul]; ring

theorem e2MulNonResidue_T (hx : R2 L x z) : L.T (e2MulNonResidue P x) (fun r => R2 L r (xi P * z)) := by
  obtain ⟨x0, x1, x2, x3⟩ := hx
  refine L.bind (L.sub x0 x1) fun z0 h0 => L.bind (L.add x0 x1) fun z1 h1 => L.pure ⟨h0.1, h1.1, ?_, ?_⟩
  · simp only [h0.2, x2, x3, xi, QuadraticAlgebra.re_mul]; ring
  · simp only [h1.2, x2, x3, xi, QuadraticAlgebra.im_mul]; ring

theorem e2Square_T (hx : R2 L x z) : L.T (e2Square P x) (fun r => R2 L r (z * z)) := by
  obtain ⟨x0, x1, x2, x3⟩ := hx
  refine L.bind (L.add x0 x1) fun a h0 => L.bind (L.sub x0 x1) fun b h1 => L.bind (L.mul h0.1 h1.1) fun c h2 => L.bind (L.mul x0 x1) fun d h3 =>
    L.bind (L.mulConst (c := 2) h3.1 (by decide)) fun e h4 => L.pure ⟨h2.1, h4.1, ?_, ?_⟩
  · simp only [h2.2, h1.2, h0.2, x2, x3, QuadraticAlgebra.re_mul]; ring
  · simp only [h4.2, h3.2, x2, x3, QuadraticAlgebra.im_mul]; push_cast; ring

theorem e2Conj_T (hx : R2 L x z) : L.T (e2Conj P x) (fun r => R2 L r ⟨z.re, -z.im⟩) := by
  obtain ⟨x0, x1, x2, x3⟩ := hx
  exact L.bind (L.neg x1) fun z1 h1 => L.pure ⟨x0, h1.1, x2, by rw [h1.2, x3]⟩

/-- The cubic extension by a root `v` of `v^3 = 1 + u`: triples `b0 + b1 v + b2 v^2`. -/
@[ext] structure K6 (P : Params) where
  b0 : K2 P
  b1 : K2 P
  b2 : K2 P

/-- The product of polynomials in `v`, with `v^3 = 1 + u`. -/
def K6.mul (x y : K6 P) : K6 P :=
  ⟨x.b0 * y.b0 + xi P * (x.b1 * y.b2 + x.b2 * y.b1), x.b0 * y.b1 + x.b1 * y.b0 + xi P * (x.b2 * y.b2), x.b0 * y.b2 + x.b1 * y.b1 + x.b2 * y.b0⟩
def K6.add (x y : K6 P) : K6 P := ⟨x.b0 + y.b0, x.b1 + y.b1, x.b2 + y.b2⟩
def K6.sub (x y : K6 P) : K6 P := ⟨x.b0 - y.b0, x.b1 - y.b1, x.b2 - y.b2⟩
def K6.neg (x : K6 P) : K6 P := ⟨-x.b0, -x.b1, -x.b2⟩
/-- The root `v`. -/
def K6.v (P : Params) : K6 P := ⟨0, 1, 0⟩

/-- `x` is an operand with the value `z`. -/
def R6 (L : Logic cn P) (x : E6 F) (z : K6 P) : Prop := R2 L x.b0 z.b0 ∧ R2 L x.b1 z.b1 ∧ R2 L x.b2 z.b2

variable {X Y : E6 F} {Z W : K6 P}

theorem R6_eq (h : R6 L X Z) (e : Z = W) : R6 L X W := e ▸ h

theorem e6Add_T (hx : R6 L X Z) (hy : R6 L Y W) : L.T (e6Add P X Y) (fun r => R6 L r (Z.add W)) :=
  L.bind (e2Add_T L hx.1 hy.1) fun z0 h0 => L.bind (e2Add_T L hx.2.1 hy.2.1) fun z1 h1 => L.bind (e2Add_T L hx.2.2 hy.2.2) fun z2 h2 => L.pure ⟨h0, h1, h2⟩

theorem e6Sub_T (hx : R6 L X Z) (hy : R6 L Y W) : L.T (e6Sub P X Y) (fun r => R6 L r (Z.sub W)) :=
  L.bind (e2Sub_T L hx.1 hy.1) fun z0 h0 => L.bind (e2Sub_T L hx.2.1 hy.2.1) fun z1 h1 => L.bind (e2Sub_T L hx.2.2 hy.2.2) fun z2 h2 => L.pure ⟨h0, h1, h2⟩

theorem e6Neg_T (hx : R6 L X Z) : L.T (e6Neg P X) (fun r => R6 L r Z.neg) :=
  L.bind (e2Neg_T L hx.1) fun z0 h0 => L.bind (e2Neg_T L hx.2.1) fun z1 h1 => L.bind (e2Neg_T L hx.2.2) fun z2 h2 => L.pure ⟨h0, h1, h2⟩

theorem e6Double_T (hx : R6 L X Z) : L.T (e6Double P X) (fun r => R6 L r (Z.add Z)) :=
  L.bind (e2Double_T L hx.1) fun z0 h0 => L.bind (e2Double_T L hx.2.1) fun z1 h1 => L.bind (e2Double_T L hx.2.2) fun z2 h2 => L.pure ⟨h0, h1, h2⟩

theorem e6MulE2_T (hx : R6 L X Z) (hy : R2 L y w) : L.T (e6MulE2 P X y) (fun r => R6 L r (Z.mul ⟨w, 0, 0⟩)) :=
  L.bind (e2Mul_T L hx.1 hy) fun z0 h0 => L.bind (e2Mul_T L hx.2.1 hy) fun z1 h1 => L.bind (e2Mul_T L hx.2.2 hy) fun z2 h2 =>
    L.pure ⟨R2_eq L h0 (by simp only [K6.mul]; ring), R2_eq L h1 (by simp only [K6.mul]; ring), R2_eq L h2 (by simp only [K6.mul]; ring)⟩

theorem e6MulNonResidue_T (hx : R6 L X Z) : L.T (e6MulNonResidue P X) (fun r => R6 L r (Z.mul (K6.v P))) :=
  L.bind (e2MulNonResidue_T L hx.2.2) fun z0 h0 =>
    L.pure ⟨R2_eq L h0 (by simp only [K6.mul, K6.v]; ring), R2_eq L hx.1 (by simp only [K6.mul, K6.v]; ring), R2_eq L hx.2.1 (by simp only [K6.mul, K6.v]; ring)⟩

theorem e6Square_T (hx : R6 L X Z) : L.T (e6Square P X) (fun r => R6 L r (Z.mul Z)) := by
  obtain ⟨h0, h1, h2⟩ := hx
  refine L.bind (e2Mul_T L h0 h1) fun c4 k1 => L.bind (e2Double_T L k1) fun c4 k2 => L.bind (e2Square_T L h2) fun c5 k3 => L.bind (e2MulNonResidue_T L k3) fun c1 k4 =>
    L.bind (e2Add_T L k4 k2) fun c1 k5 => L.bind (e2Sub_T L k2 k3) fun c2 k6 => L.bind (e2Square_T L h0) fun c3 k7 => L.bind (e2Sub_T L h0 h1) fun c4 k8 =>
    L.bind (e2Add_T L k8 h2) fun c4 k9 => L.bind (e2Mul_T L h1 h2) fun c5 k10 => L.bind (e2Double_T L k10) fun c5 k11 => L.bind (e2Square_T L k9) fun c4 k12 =>
    L.bind (e2MulNonResidue_T L k11) fun c0 k13 => L.bind (e2Add_T L k13 k7) fun c0 k14 => L.bind (e2Add_T L k6 k12) fun z2 k15 => L.bind (e2Add_T L k15 k11) fun z2 k16 =>
    L.bind (e2Sub_T L k16 k7) fun z2 k17 => L.pure ⟨R2_eq L k14 ?_, R2_eq L k5 ?_, R2_eq L k17 ?_⟩ <;> simp only [K6.mul] <;> ring

theorem e6MulBy12_T {b1 b2 : E2 F} {w1 w2 : K2 P} (hx : R6 L X Z) (hb1 : R2 L b1 w1) (hb2 : R2 L b2 w2) :
    L.T (e6MulBy12 P X b1 b2) (fun r => R6 L r (Z.mul ⟨0, w1, w2⟩)) := by
  obtain ⟨h0, h1, h2⟩ := hx
  refine L.bind (e2Mul_T L h1 hb1) fun t1 k1 => L.bind (e2Mul_T L h2 hb2) fun t2 k2 => L.bind (e2Add_T L h1 h2) fun c0 k3 => L.bind (e2Add_T L hb1 hb2) fun tmp k4 =>
    L.bind (e2Mul_T L k3 k4) fun c0 k5 => L.bind (e2Add_T L k1 k2) fun tmp k6 => L.bind (e2Sub_T L k5 k6) fun c0 k7 => L.bind (e2MulNonResidue_T L k7) fun c0 k8 =>
    L.bind (e2Add_T L h0 h1) fun c1 k9 => L.bind (e2Mul_T L k9 hb1) fun c1 k10 => L.bind (e2Sub_T L k10 k1) fun c1 k11 => L.bind (e2MulNonResidue_T L k2) fun tmp k12 =>
    L.bind (e2Add_T L k11 k12) fun c1 k13 => L.bind (e2Add_T L h0 h2) fun tmp k14 => L.bind (e2Mul_T L hb2 k14) fun c2 k15 => L.bind (e2Sub_T L k15 k2) fun c2 k16 =>
    L.bind (e2Add_T L k16 k1) fun c2 k17 => L.pure ⟨R2_eq L k8 ?_, R2_eq L k13 ?_, R2_eq L k17 ?_⟩ <;> simp only [K6.mul] <;> ring

theorem e6MulBy0_T {c0 : E2 F} {w0 : K2 P} (hx : R6 L X Z) (hc : R2 L c0 w0) : L.T (e6MulBy0 P X c0) (fun r => R6 L r (Z.mul ⟨w0, 0, 0⟩)) := by
  obtain ⟨h0, h1, h2⟩ := hx
  refine L.bind (e2Mul_T L h0 hc) fun a k1 => L.bind (e2Add_T L h0 h2) fun tmp k2 => L.bind (e2Mul_T L hc k2) fun t2 k3 => L.bind (e2Sub_T L k3 k1) fun t2 k4 =>
    L.bind (e2Add_T L h0 h1) fun tmp k5 => L.bind (e2Mul_T L hc k5) fun t1 k6 => L.bind (e2Sub_T L k6 k1) fun t1 k7 =>
    L.pure ⟨R2_eq L k1 ?_, R2_eq L k7 ?_, R2_eq L k4 ?_⟩ <;> simp only [K6.mul] <;> ring

theorem e6MulBy01_T {c0 c1 : E2 F} {w0 w1 : K2 P} (hx : R6 L X Z) (hc0 : R2 L c0 w0) (hc1 : R2 L c1 w1) :
    L.T (e6MulBy01 P X c0 c1) (fun r => R6 L r (Z.mul ⟨w0, w1, 0⟩)) := by
  obtain ⟨h0, h1, h2⟩ := hx
  refine L.bind (e2Mul_T L h0 hc0) fun a k1 => L.bind (e2Mul_T L h1 hc1) fun b k2 => L.bind (e2Add_T L h1 h2) fun tmp k3 => L.bind (e2Mul_T L hc1 k3) fun t0 k4 =>
    L.bind (e2Sub_T L k4 k2) fun t0 k5 => L.bind (e2MulNonResidue_T L k5) fun t0 k6 => L.bind (e2Add_T L k6 k1) fun t0 k7 => L.bind (e2Mul_T L h2 hc0) fun t2 k8 =>
    L.bind (e2Add_T L k8 k2) fun t2 k9 => L.bind (e2Add_T L hc0 hc1) fun t1 k10 => L.bind (e2Add_T L h0 h1) fun tmp k11 => L.bind (e2Mul_T L k10 k11) fun t1 k12 =>
    L.bind (e2Add_T L k1 k2) fun tmp k13 => L.bind (e2Sub_T L k12 k13) fun t1 k14 => L.pure ⟨R2_eq L k7 ?_, R2_eq L k14 ?_, R2_eq L k9 ?_⟩ <;> simp only [K6.mul] <;> ring

theorem e6Mul_T (hx : R6 L X Z) (hy : R6 L Y W) : L.T (e6Mul P X Y) (fun r => R6 L r (Z.mul W)) := by
  obtain ⟨h0, h1, h2⟩ := hx
  obtain ⟨g0, g1, g2⟩ := hy
  refine L.bind (e2Mul_T L h0 g0) fun t0 k0 => L.bind (e2Mul_T L h1 g1) fun t1 k1 => L.bind (e2Mul_T L h2 g2) fun t2 k2 => L.bind (e2Add_T L h1 h2) fun c0 k3 =>
    L.bind (e2Add_T L g1 g2) fun tmp k4 => L.bind (e2Mul_T L k3 k4) fun c0 k5 => L.bind (e2Add_T L k2 k1) fun tmp k6 => L.bind (e2Sub_T L k5 k6) fun c0 k7 =>
    L.bind (e2MulNonResidue_T L k7) fun c0 k8 => L.bind (e2Add_T L k8 k0) fun c0 k9 => L.bind (e2Add_T L h0 h1) fun c1 k10 => L.bind (e2Add_T L g0 g1) fun tmp k11 =>
    L.bind (e2Mul_T L k10 k11) fun c1 k12 => L.bind (e2Add_T L k0 k1) fun tmp k13 => L.bind (e2Sub_T L k12 k13) fun c1 k14 => L.bind (e2MulNonResidue_T L k2) fun tmp k15 =>
    L.bind (e2Add_T L k14 k15) fun c1 k16 => L.bind (e2Add_T L h0 h2) fun tmp k17 => L.bind (e2Add_T L g0 g2) fun c2 k18 => L.bind (e2Mul_T L k18 k17) fun c2 k19 =>
    L.bind (e2Add_T L k0 k2) fun tmp k20 => L.bind (e2Sub_T L k19 k20) fun c2 k21 => L.bind (e2Add_T L k21 k1) fun c2 k22 =>
    L.pure ⟨R2_eq L k9 ?_, R2_eq L k16 ?_, R2_eq L k22 ?_⟩ <;> simp only [K6.mul] <;> ring

/-- The quadratic extension by a root `w` of `w^2 = v`: pairs `c0 + c1 w`. -/
@[ext] structure K12 (P : Params) where
  c0 : K6 P
  c1 : K6 P

/-- The product of polynomials in `w`, with `w^2 = v`. -/
def K12.mul (x y : K12 P) : K12 P := ⟨(x.c0.mul y.c0).add ((x.c1.mul y.c1).mul (K6.v P)), (x.c0.mul y.c1).add (x.c1.mul y.c0)⟩
def K12.add (x y : K12 P) : K12 P := ⟨x.c0.add y.c0, x.c1.add y.c1⟩
def K12.sub (x y : K12 P) : K12 P := ⟨x.c0.sub y.c0, x.c1.sub y.c1⟩
/-- `w` replaced by `-w`. -/
def K12.conj (x : K12 P) : K12 P := ⟨x.c0, x.c1.neg⟩

/-- `x` is an operand with the value `z`. -/
def R12 (L : Logic cn P) (x : E12 F) (z : K12 P) : Prop := R6 L x.c0 z.c0 ∧ R6 L x.c1 z.c1

variable {A B : E12 F} {U V : K12 P}

theorem e12Add_T (hx : R12 L A U) (hy : R12 L B V) : L.T (e12Add P A B) (fun r => R12 L r (U.add V)) :=
  L.bind (e6Add_T L hx.1 hy.1) fun z0 h0 => L.bind (e6Add_T L hx.2 hy.2) fun z1 h1 => L.pure ⟨h0, h1⟩

theorem e12Sub_T (hx : R12 L A U) (hy : R12 L B V) : L.T (e12Sub P A B) (fun r => R12 L r (U.sub V)) :=
  L.bind (e6Sub_T L hx.1 hy.1) fun z0 h0 => L.bind (e6Sub_T L hx.2 hy.2) fun z1 h1 => L.pure ⟨h0, h1⟩

theorem e12Conj_T (hx : R12 L A U) : L.T (e12Conj P A) (fun r => R12 L r U.conj) :=
  L.bind (e6Neg_T L hx.2) fun z1 h1 => L.pure ⟨hx.1, h1⟩

theorem e12Mul_T (hx : R12 L A U) (hy : R12 L B V) : L.T (e12Mul P A B) (fun r => R12 L r (U.mul V)) := by
  refine L.bind (e6Add_T L hx.1 hx.2) fun a k1 => L.bind (e6Add_T L hy.1 hy.2) fun b k2 => L.bind (e6Mul_T L k1 k2) fun a k3 => L.bind (e6Mul_T L hx.1 hy.1) fun b k4 =>
    L.bind (e6Mul_T L hx.2 hy.2) fun c k5 => L.bind (e6Add_T L k5 k4) fun d k6 => L.bind (e6Sub_T L k3 k6) fun z1 k7 => L.bind (e6MulNonResidue_T L k5) fun z0 k8 =>
    L.bind (e6Add_T L k8 k4) fun z0 k9 => L.pure ⟨R6_eq L k9 ?_, R6_eq L k7 ?_⟩ <;> ext1 <;> simp only [K12.mul, K6.mul, K6.add, K6.sub, K6.v] <;> ring

theorem e12Square_T (hx : R12 L A U) : L.T (e12Square P A) (fun r => R12 L r (U.mul U)) := by
  refine L.bind (e6Sub_T L hx.1 hx.2) fun c0 k1 => L.bind (e6MulNonResidue_T L hx.2) fun c3 k2 => L.bind (e6Sub_T L hx.1 k2) fun c3 k3 => L.bind (e6Mul_T L hx.1 hx.2) fun c2 k4 =>
    L.bind (e6Mul_T L k1 k3) fun c0 k5 => L.bind (e6Add_T L k5 k4) fun c0 k6 => L.bind (e6Double_T L k4) fun z1 k7 => L.bind (e6MulNonResidue_T L k4) fun c2 k8 =>
    L.bind (e6Add_T L k6 k8) fun z0 k9 => L.pure ⟨R6_eq L k9 ?_, R6_eq L k7 ?_⟩ <;> ext1 <;> simp only [K12.mul, K6.mul, K6.add, K6.sub, K6.v] <;> ring

theorem R2_one (hg : Good cn P) : R2 L (e2One P) 1 := ⟨L.one, L.zero, by rw [show (e2One P : E2 F).a0 = oneConst P from rfl, ev_one hg]; rfl, by rw [show (e2One P : E2 F).a1 = zeroConst P from rfl, ev_zero hg]; rfl⟩
theorem R2_zero (hg : Good cn P) : R2 L (e2Zero P) 0 := ⟨L.zero, L.zero, by simp [e2Zero, ev_zero hg], by simp [e2Zero, ev_zero hg]⟩
theorem R2_xi (hg : Good cn P) : R2 L (e2NonResidue P) (xi P) := ⟨L.one, L.one, by simp [e2NonResidue, xi, ev_one hg], by simp [e2NonResidue, xi, ev_one hg]⟩

theorem e12MulBy014_T (hg : Good cn P) {c0 c1 : E2 F} {w0 w1 : K2 P} (hx : R12 L A U) (hc0 : R2 L c0 w0) (hc1 : R2 L c1 w1) :
    L.T (e12MulBy014 P A c0 c1) (fun r => R12 L r (U.mul ⟨⟨w0, w1, 0⟩, ⟨0, 1, 0⟩⟩)) := by
  refine L.bind (e6MulBy01_T L hx.1 hc0 hc1) fun a k1 => L.bind (e2MulNonResidue_T L hx.2.2.2) fun b0 k2 => L.bind (e2Add_T L hc1 (R2_one L hg)) fun d k3 =>
    L.bind (e6Add_T L hx.2 hx.1) fun zc1 k4 => L.bind (e6MulBy01_T L k4 hc0 k3) fun zc1 k5 =>
    L.bind (e6Add_T L (X := ⟨b0, A.c1.b0, A.c1.b1⟩) (Z := ⟨xi P * U.c1.b2, U.c1.b0, U.c1.b1⟩) ⟨k2, hx.2.1, hx.2.2.1⟩ k1) fun tmp k6 =>
    L.bind (e6Sub_T L k5 k6) fun zc1 k7 => L.bind (e6MulNonResidue_T L (X := ⟨b0, A.c1.b0, A.c1.b1⟩) (Z := ⟨xi P * U.c1.b2, U.c1.b0, U.c1.b1⟩) ⟨k2, hx.2.1, hx.2.2.1⟩) fun zc0 k8 =>
    L.bind (e6Add_T L k8 k1) fun zc0 k9 => L.pure ⟨R6_eq L k9 ?_, R6_eq L k7 ?_⟩ <;> ext1 <;> simp only [K12.mul, K6.mul, K6.add, K6.sub, K6.v] <;> ring

theorem e12Mul014_T (hg : Good cn P) {d0 d1 c0 c1 : E2 F} {v0 v1 w0 w1 : K2 P} (hd0 : R2 L d0 v0) (hd1 : R2 L d1 v1) (hc0 : R2 L c0 w0) (hc1 : R2 L c1 w1) :
    L.T (e12Mul014 P d0 d1 c0 c1) (fun r => ∃ z0 z1 z2 z3 z4 : K2 P, R2 L r.1 z0 ∧ R2 L r.2.1 z1 ∧ R2 L r.2.2.1 z2 ∧ R2 L r.2.2.2.1 z3 ∧ R2 L r.2.2.2.2 z4 ∧
      K12.mul ⟨⟨v0, v1, 0⟩, ⟨0, 1, 0⟩⟩ ⟨⟨w0, w1, 0⟩, ⟨0, 1, 0⟩⟩ = (⟨⟨z0, z1, z2⟩, ⟨0, z3, z4⟩⟩ : K12 P)) := by
  refine L.bind (e2Mul_T L hc0 hd0) fun x0 k1 => L.bind (e2Mul_T L hc1 hd1) fun x1 k2 => L.bind (e2Add_T L hc0 hd0) fun x04 k3 => L.bind (e2Add_T L hc0 hc1) fun tmp k4 =>
    L.bind (e2Add_T L hd0 hd1) fun x01 k5 => L.bind (e2Mul_T L k5 k4) fun x01 k6 => L.bind (e2Add_T L k2 k1) fun tmp k7 => L.bind (e2Sub_T L k6 k7) fun x01 k8 =>
    L.bind (e2Add_T L hc1 hd1) fun x14 k9 => L.bind (e2Add_T L (R2_xi L hg) k1) fun z k10 => L.pure ⟨_, _, _, _, _, k10, k8, k2, k3, k9, ?_⟩
  ext1 <;> ext1 <;> simp only [K12.mul, K6.mul, K6.add, K6.sub, K6.v] <;> ring

end Verif.Std.Emu
