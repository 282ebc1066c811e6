import Verif.Std.TowerProof2
import Mathlib.Tactic.FieldSimp
/-!
The tower over the BLS12-381 base field as a ring: multiplicativity of the Frobenius maps, squares and powers of cyclotomic elements.
-/
set_option linter.unusedSectionVars false
set_option linter.unusedSimpArgs false
namespace Verif.Std.Emu

variable {P : Params}

instance k12Monoid : CommMonoid (K12 P) where
  mul := K12.mul
  one := ⟨⟨1, 0, 0⟩, ⟨0, 0, 0⟩⟩
  mul_assoc x y z := by
    show (x.mul y).mul z = x.mul (y.mul z)
    ext1 <;> ext1 <;> simp only [K12.mul, K6.mul, K6.add, K6.v] <;> ring
  mul_comm x y := by
    show x.mul y = y.mul x
    ext1 <;> ext1 <;> simp only [K12.mul, K6.mul, K6.add, K6.v] <;> ring
  one_mul x := by
    show K12.mul ⟨⟨1, 0, 0⟩, ⟨0, 0, 0⟩⟩ x = x
    ext1 <;> ext1 <;> simp only [K12.mul, K6.mul, K6.add, K6.v] <;> ring
  mul_one x := by
    show x.mul ⟨⟨1, 0, 0⟩, ⟨0, 0, 0⟩⟩ = x
    ext1 <;> ext1 <;> simp only [K12.mul, K6.mul, K6.add, K6.v] <;> ring

theorem mul12_def (x y : K12 P) : x * y = x.mul y := rfl

theorem cj_mul (a b : K2 P) : cj (a * b) = cj a * cj b := by ext <;> simp [cj] <;> ring
theorem cj_add (a b : K2 P) : cj (a + b) = cj a + cj b := by ext <;> simp [cj] <;> ring
theorem cj_one : cj (1 : K2 P) = 1 := by
  ext
  · rfl
  · exact neg_zero
theorem cj_zero : cj (0 : K2 P) = 0 := by ext <;> simp [cj]

/-- The Frobenius map is multiplicative if `gam` are the powers of `gam 1`, whose sixth power is the quotient of the images of `xi`. -/
theorem frob_mul_of {g : K2 P} (h1 : gam P 1 = g) (h2 : gam P 2 = g ^ 2) (h3 : gam P 3 = g ^ 3) (h4 : gam P 4 = g ^ 4) (h5 : gam P 5 = g ^ 5)
    (hx : cj (xi P) = g ^ 6 * xi P) (x y : K12 P) : (x.mul y).frob = x.frob.mul y.frob := by
  ext1 <;> ext1 <;> simp only [K12.frob, K12.mul, K6.mul, K6.add, K6.v, cj_mul, cj_add, cj_zero, cj_one, h1, h2, h3, h4, h5, hx] <;> ring

theorem frob2_mul_of {g : K2 P} (h1 : (gam2 1 : K2 P) = g) (h2 : (gam2 2 : K2 P) = g ^ 2) (h3 : (gam2 3 : K2 P) = g ^ 3) (h4 : (gam2 4 : K2 P) = g ^ 4)
    (h5 : (gam2 5 : K2 P) = g ^ 5) (hx : g ^ 6 = 1) (x y : K12 P) : (x.mul y).frob2 = x.frob2.mul y.frob2 := by
  ext1 <;> ext1 <;> simp only [K12.frob2, K12.mul, K6.mul, K6.add, K6.v, h1, h2, h3, h4, h5]
  · linear_combination (-xi P * (x.c0.b1 * y.c0.b2 + x.c0.b2 * y.c0.b1 + x.c1.b0 * y.c1.b2 + x.c1.b1 * y.c1.b1 + x.c1.b2 * y.c1.b0)) * hx
  · linear_combination (-xi P * (x.c0.b2 * y.c0.b2 + x.c1.b1 * y.c1.b2 + x.c1.b2 * y.c1.b1)) * g ^ 2 * hx
  · linear_combination (-xi P * (x.c1.b2 * y.c1.b2)) * g ^ 4 * hx
  · linear_combination (-xi P * (x.c0.b1 * y.c1.b2 + x.c0.b2 * y.c1.b1 + x.c1.b1 * y.c0.b2 + x.c1.b2 * y.c0.b1)) * g * hx
  · linear_combination (-xi P * (x.c0.b2 * y.c1.b2 + x.c1.b2 * y.c0.b2)) * g ^ 3 * hx
  · ring

/-- Cyclotomic elements: the units among them are those with `x ^ (p^4 - p^2 + 1) = 1`, if `frob2` is `x ^ (p^2)`. -/
def Cyclotomic (x : K12 P) : Prop := x.frob2.frob2.mul x = x.frob2

theorem cyclotomic_mul (hm : ∀ x y : K12 P, (x.mul y).frob2 = x.frob2.mul y.frob2) {x y : K12 P} (hx : Cyclotomic x) (hy : Cyclotomic y) :
    Cyclotomic (x.mul y) := by
  unfold Cyclotomic at *
  simp only [← mul12_def] at *
  rw [hm, hm, mul_mul_mul_comm, hx, hy]

/-- The squares of cyclotomic elements (Granger and Scott). -/
theorem cyc_eq {g : K2 P} (h1 : (gam2 1 : K2 P) = g) (h2 : (gam2 2 : K2 P) = g - 1) (h3 : (gam2 3 : K2 P) = -1) (h4 : (gam2 4 : K2 P) = -g)
    (h5 : (gam2 5 : K2 P) = 1 - g) (hg : g ^ 2 = g - 1) {x : K12 P} (hx : Cyclotomic x) : x.cyc = x.mul x := by
  obtain ⟨⟨a0, a2, a4⟩, ⟨a1, a3, a5⟩⟩ := x
  have e := hx
  simp only [Cyclotomic, K12.frob2, K12.mul, K6.mul, K6.add, K6.v, h1, h2, h3, h4, h5, K12.mk.injEq, K6.mk.injEq] at e
  obtain ⟨⟨e0, e2, e4⟩, ⟨e1, e3, e5⟩⟩ := e
  ext1 <;> ext1 <;> simp only [K12.cyc, K12.mul, K6.mul, K6.add, K6.v]
  · linear_combination (2) * 1 * e0 + ((-4) * xi P * a1 * a5 + (-4) * xi P * a2 * a4) * hg
  · linear_combination (2) * (-g) * e2 + ((2) * a1 * a1 * g ^ 1 + (2) * a0 * a2 * g ^ 1 + (2) * xi P * a4 * a4 * g ^ 1 + (2) * xi P * a3 * a5 * g ^ 1 + (-2) * a0 * a2 + (-2) * xi P * a3 * a5 + (-2) * a2 + (2) * a1 * a1 + (2) * xi P * a4 * a4) * hg
  · linear_combination (2) * (g - 1) * e4 + ((-2) * a1 * a3 * g ^ 1 + (-2) * a2 * a2 * g ^ 1 + (-2) * a0 * a4 * g ^ 1 + (-2) * xi P * a5 * a5 * g ^ 1 + (4) * a2 * a2 + (4) * xi P * a5 * a5 + (-2) * a4) * hg
  · linear_combination (-2) * (1 - g) * e1 + ((-2) * a0 * a1 * g ^ 1 + (-4) * xi P * a2 * a5 * g ^ 1 + (-2) * xi P * a3 * a4 * g ^ 1 + (8) * xi P * a2 * a5 + (2) * a1) * hg
  · linear_combination (-2) * (-1) * e3 + ((-4) * a1 * a2 + (-4) * xi P * a4 * a5) * hg
  · linear_combination (-2) * g * e5 + ((4) * a1 * a4 * g ^ 1 + (2) * a2 * a3 * g ^ 1 + (2) * a0 * a5 * g ^ 1 + (-2) * a2 * a3 + (-2) * a0 * a5 + (2) * a5 + (4) * a1 * a4) * hg

/-- A power of a cyclotomic element. -/
theorem cyclotomic_pow (hm : ∀ x y : K12 P, (x.mul y).frob2 = x.frob2.mul y.frob2) {x : K12 P} (hx : Cyclotomic x) (n : Nat) : Cyclotomic (x ^ (n + 1)) := by
  induction n with
  | zero => rw [Nat.zero_add, pow_one]; exact hx
  | succ n ih => rw [pow_succ]; exact cyclotomic_mul hm ih hx

theorem cycN_pow (hm : ∀ x y : K12 P, (x.mul y).frob2 = x.frob2.mul y.frob2) (hc : ∀ x : K12 P, Cyclotomic x → x.cyc = x.mul x) (n : Nat) :
    ∀ x : K12 P, Cyclotomic x → x.cycN n = x ^ 2 ^ n := by
  induction n with
  | zero => exact fun x _ => (pow_one x).symm
  | succ n ih =>
    intro x hx
    have h2 : x.cyc = x ^ 2 := by rw [hc x hx, pow_two]; rfl
    rw [K12.cycN, ih x.cyc (h2 ▸ cyclotomic_pow hm hx 1), h2, ← pow_mul, Nat.pow_succ, Nat.mul_comm]

/-- `expt` is the power by `0xd201000000010000`. -/
theorem expt_pow (hm : ∀ x y : K12 P, (x.mul y).frob2 = x.frob2.mul y.frob2) (hc : ∀ x : K12 P, Cyclotomic x → x.cyc = x.mul x) {x : K12 P} (hx : Cyclotomic x) :
    x.expt = x ^ 0xd201000000010000 := by
  have sq : ∀ n k : Nat, (x ^ (n + 1)).cycN k = x ^ ((n + 1) * 2 ^ k) := fun n k => by rw [cycN_pow hm hc k _ (cyclotomic_pow hm hx n), pow_mul]
  have mu : ∀ n : Nat, x.mul (x ^ n) = x ^ (n + 1) := fun n => (pow_succ' x n).symm
  have h2 : x.cyc = x ^ 2 := by rw [hc x hx, pow_two]; rfl
  rw [K12.expt, h2, mu 2, sq 2 2, mu, sq _ 3, mu, sq _ 9, mu, sq _ 32, mu, sq _ 16]
  simp only [Nat.reduceAdd, Nat.reduceMul, Nat.reducePow]

/-! The constants of BLS12-381. -/

theorem k2_natCast_mul (hp : 1 ≤ P.modulus) (a b c d : Nat) : (⟨(a : ZMod P.modulus), (b : ZMod P.modulus)⟩ : K2 P) * ⟨(c : ZMod P.modulus), (d : ZMod P.modulus)⟩ =
    ⟨((a * c + (P.modulus - 1) * (b * d) : Nat) : ZMod P.modulus), ((a * d + b * c : Nat) : ZMod P.modulus)⟩ := by
  ext
  · simp [Nat.cast_sub hp]
  · simp

theorem k2_natCast_eq {a b c d : Nat} (h1 : a ≡ c [MOD P.modulus]) (h2 : b ≡ d [MOD P.modulus]) :
    (⟨(a : ZMod P.modulus), (b : ZMod P.modulus)⟩ : K2 P) = ⟨(c : ZMod P.modulus), (d : ZMod P.modulus)⟩ := by
  rw [(ZMod.natCast_eq_natCast_iff _ _ _).2 h1, (ZMod.natCast_eq_natCast_iff _ _ _).2 h2]

private theorem k2_gam_mul {a b c d e f : Nat} (h1 : (a * c + (bls12381Fp.modulus - 1) * (b * d)) % bls12381Fp.modulus = e % bls12381Fp.modulus)
    (h2 : (a * d + b * c) % bls12381Fp.modulus = f % bls12381Fp.modulus) :
    (⟨(e : ZMod bls12381Fp.modulus), (f : ZMod bls12381Fp.modulus)⟩ : K2 bls12381Fp) =
      (⟨(a : ZMod bls12381Fp.modulus), (b : ZMod bls12381Fp.modulus)⟩ : K2 bls12381Fp) * ⟨(c : ZMod bls12381Fp.modulus), (d : ZMod bls12381Fp.modulus)⟩ := by
  rw [k2_natCast_mul (by decide +kernel)]
  exact (k2_natCast_eq h1 h2).symm

theorem gam_two : gam bls12381Fp 2 = gam bls12381Fp 1 ^ 2 := by
  rw [pow_two]
  have h := k2_gam_mul (a := 3850754370037169011952147076051364057158807420970682438676050522613628423219637725072182697113062777891589506424760)
    (b := 151655185184498381465642749684540099398075398968325446656007613510403227271200139370504932015952886146304766135027)
    (c := 3850754370037169011952147076051364057158807420970682438676050522613628423219637725072182697113062777891589506424760)
    (d := 151655185184498381465642749684540099398075398968325446656007613510403227271200139370504932015952886146304766135027)
    (e := 0) (f := 4002409555221667392624310435006688643935503118305586438271171395842971157480381377015405980053539358417135540939436)
    (by decide +kernel) (by decide +kernel)
  rw [Nat.cast_zero] at h
  exact h

theorem gam_three : gam bls12381Fp 3 = gam bls12381Fp 1 ^ 3 := by
  rw [pow_succ, ← gam_two]
  have h := k2_gam_mul (a := 0) (b := 4002409555221667392624310435006688643935503118305586438271171395842971157480381377015405980053539358417135540939436)
    (c := 3850754370037169011952147076051364057158807420970682438676050522613628423219637725072182697113062777891589506424760)
    (d := 151655185184498381465642749684540099398075398968325446656007613510403227271200139370504932015952886146304766135027)
    (e := 1028732146235106349975324479215795277384839936929757896155643118032610843298655225875571310552543014690878354869257)
    (f := 1028732146235106349975324479215795277384839936929757896155643118032610843298655225875571310552543014690878354869257)
    (by decide +kernel) (by decide +kernel)
  rw [Nat.cast_zero] at h
  exact h

theorem gam_four : gam bls12381Fp 4 = gam bls12381Fp 1 ^ 4 := by
  rw [show (4 : Nat) = 2 * 2 from rfl, pow_mul, ← gam_two, pow_two]
  have h := k2_gam_mul (a := 0) (b := 4002409555221667392624310435006688643935503118305586438271171395842971157480381377015405980053539358417135540939436)
    (c := 0) (d := 4002409555221667392624310435006688643935503118305586438271171395842971157480381377015405980053539358417135540939436)
    (e := 4002409555221667392624310435006688643935503118305586438271171395842971157480381377015405980053539358417135540939437) (f := 0)
    (by decide +kernel) (by decide +kernel)
  rw [Nat.cast_zero] at h
  exact h

theorem gam_five : gam bls12381Fp 5 = gam bls12381Fp 1 ^ 5 := by
  rw [pow_succ, ← gam_four]
  have h := k2_gam_mul (a := 4002409555221667392624310435006688643935503118305586438271171395842971157480381377015405980053539358417135540939437) (b := 0)
    (c := 3850754370037169011952147076051364057158807420970682438676050522613628423219637725072182697113062777891589506424760)
    (d := 151655185184498381465642749684540099398075398968325446656007613510403227271200139370504932015952886146304766135027)
    (e := 877076961050607968509681729531255177986764537961432449499635504522207616027455086505066378536590128544573588734230)
    (f := 3125332594171059424908108096204648978570118281977575435832422631601824034463382777937621250592425535493320683825557)
    (by decide +kernel) (by decide +kernel)
  rw [Nat.cast_zero] at h
  exact h

theorem cj_xi : cj (xi bls12381Fp) = gam bls12381Fp 1 ^ 6 * xi bls12381Fp := by
  rw [show (6 : Nat) = 2 * 3 from rfl, pow_mul', ← gam_three, pow_two]
  have h := k2_gam_mul (a := 1028732146235106349975324479215795277384839936929757896155643118032610843298655225875571310552543014690878354869257)
    (b := 1028732146235106349975324479215795277384839936929757896155643118032610843298655225875571310552543014690878354869257)
    (c := 1028732146235106349975324479215795277384839936929757896155643118032610843298655225875571310552543014690878354869257)
    (d := 1028732146235106349975324479215795277384839936929757896155643118032610843298655225875571310552543014690878354869257)
    (e := 0) (f := bls12381Fp.modulus - 1) (by decide +kernel) (by decide +kernel)
  rw [gam, ← h]
  ext
  · simp [cj, xi, Nat.cast_sub (show 1 ≤ bls12381Fp.modulus by decide +kernel)]
  · simp [cj, xi, Nat.cast_sub (show 1 ≤ bls12381Fp.modulus by decide +kernel)]

/-- `frobenius` is multiplicative. -/
theorem frob_mul (x y : K12 bls12381Fp) : (x.mul y).frob = x.frob.mul y.frob :=
  frob_mul_of rfl gam_two gam_three gam_four gam_five cj_xi x y

theorem gam2_rel : (gam2 2 : K2 bls12381Fp) = (gam2 1 : K2 bls12381Fp) - 1 ∧ (gam2 3 : K2 bls12381Fp) = -1 ∧ (gam2 4 : K2 bls12381Fp) = -(gam2 1 : K2 bls12381Fp) ∧
    (gam2 5 : K2 bls12381Fp) = 1 - (gam2 1 : K2 bls12381Fp) ∧ (gam2 1 : K2 bls12381Fp) ^ 2 = (gam2 1 : K2 bls12381Fp) - 1 := by
  have key : ∀ {a b : Nat}, a % bls12381Fp.modulus = b % bls12381Fp.modulus → (a : K2 bls12381Fp) = (b : K2 bls12381Fp) := fun {a b} h => by
    rw [natCast_K2, natCast_K2, (ZMod.natCast_eq_natCast_iff _ _ _).2 h]
  have h2 := key (a := gam2 2 + 1) (b := gam2 1) (by decide +kernel)
  have h3 := key (a := gam2 3 + 1) (b := 0) (by decide +kernel)
  have h4 := key (a := gam2 4 + gam2 1) (b := 0) (by decide +kernel)
  have h5 := key (a := gam2 5 + gam2 1) (b := 1) (by decide +kernel)
  have h6 := key (a := gam2 1 ^ 2 + 1) (b := gam2 1) (by decide +kernel)
  simp only [Nat.cast_add, Nat.cast_pow, Nat.cast_one, Nat.cast_zero] at h2 h3 h4 h5 h6
  exact ⟨by linear_combination h2, by linear_combination h3, by linear_combination h4, by linear_combination h5, by linear_combination h6⟩

/-- `frobenius_square` is multiplicative, and the square of `frobenius`. -/
theorem frob2_mul (x y : K12 bls12381Fp) : (x.mul y).frob2 = x.frob2.mul y.frob2 := by
  obtain ⟨h2, h3, h4, h5, hg⟩ := gam2_rel
  refine frob2_mul_of rfl ?_ ?_ ?_ ?_ ?_ x y
  · rw [h2, hg]
  · rw [h3]; linear_combination (-1) * ((gam2 1 : K2 bls12381Fp) + 1) * hg
  · rw [h4]; linear_combination (-1) * ((gam2 1 : K2 bls12381Fp) ^ 2 + gam2 1) * hg
  · rw [h5]; linear_combination (-1) * ((gam2 1 : K2 bls12381Fp) ^ 3 + (gam2 1 : K2 bls12381Fp) ^ 2 - 1) * hg
  · linear_combination ((gam2 1 : K2 bls12381Fp) ^ 4 + (gam2 1 : K2 bls12381Fp) ^ 3 - (gam2 1 : K2 bls12381Fp) - 1) * hg

theorem cyc_sq (x : K12 bls12381Fp) (hx : Cyclotomic x) : x.cyc = x.mul x := by
  obtain ⟨h2, h3, h4, h5, hg⟩ := gam2_rel
  exact cyc_eq rfl h2 h3 h4 h5 hg hx

theorem expt_eq {x : K12 bls12381Fp} (hx : Cyclotomic x) : x.expt = x ^ 0xd201000000010000 := expt_pow frob2_mul cyc_sq hx

end Verif.Std.Emu
