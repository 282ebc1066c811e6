import Verif.Std.TowerAlg
/-!
The easy part of the final exponentiation makes cyclotomic elements.
-/
set_option linter.unusedSectionVars false
set_option linter.unusedSimpArgs false
namespace Verif.Std.Emu

variable {P : Params}

theorem conj_mul (x y : K12 P) : (x.mul y).conj = x.conj.mul y.conj := by
  ext1 <;> ext1 <;> simp only [K12.conj, K12.mul, K6.mul, K6.add, K6.neg, K6.v] <;> ring

theorem conj_conj (x : K12 P) : x.conj.conj = x := by
  ext1 <;> ext1 <;> simp only [K12.conj, K6.neg, neg_neg]

theorem conj_one : (1 : K12 P).conj = 1 := by
  show K12.conj ⟨⟨1, 0, 0⟩, ⟨0, 0, 0⟩⟩ = ⟨⟨1, 0, 0⟩, ⟨0, 0, 0⟩⟩
  simp only [K12.conj, K6.neg, neg_zero]

/-- Three times the square of the Frobenius automorphism is conjugation. -/
theorem frob2_cube (x : K12 bls12381Fp) : x.frob2.frob2.frob2 = x.conj := by
  obtain ⟨h2, h3, h4, h5, hg⟩ := gam2_rel
  ext1 <;> ext1 <;> simp only [K12.conj, K12.frob2, K6.neg, h2, h3, h4, h5]
  · linear_combination x.c0.b1 * ((gam2 1 : K2 bls12381Fp) - 2) * hg
  · linear_combination (-1) * x.c0.b2 * ((gam2 1 : K2 bls12381Fp) + 1) * hg
  · linear_combination x.c1.b0 * ((gam2 1 : K2 bls12381Fp) + 1) * hg
  · ring
  · linear_combination (-1) * x.c1.b2 * ((gam2 1 : K2 bls12381Fp) - 2) * hg

private theorem cj_gam_one : cj (gam bls12381Fp 1) * gam bls12381Fp 1 = (gam2 1 : K2 bls12381Fp) := by
  have hb : -((151655185184498381465642749684540099398075398968325446656007613510403227271200139370504932015952886146304766135027 : Nat) : ZMod bls12381Fp.modulus) = ((3850754370037169011952147076051364057158807420970682438676050522613628423219637725072182697113062777891589506424760 : Nat) : ZMod bls12381Fp.modulus) := by
    refine neg_eq_of_add_eq_zero_right ?_
    rw [← Nat.cast_add, ZMod.natCast_eq_zero_iff]
    decide +kernel
  have h1 : cj (gam bls12381Fp 1) = ⟨((3850754370037169011952147076051364057158807420970682438676050522613628423219637725072182697113062777891589506424760 : Nat) : ZMod bls12381Fp.modulus), ((3850754370037169011952147076051364057158807420970682438676050522613628423219637725072182697113062777891589506424760 : Nat) : ZMod bls12381Fp.modulus)⟩ := by
    simp only [gam, cj, hb]
  have h2 : gam bls12381Fp 1 = ⟨((3850754370037169011952147076051364057158807420970682438676050522613628423219637725072182697113062777891589506424760 : Nat) : ZMod bls12381Fp.modulus), ((151655185184498381465642749684540099398075398968325446656007613510403227271200139370504932015952886146304766135027 : Nat) : ZMod bls12381Fp.modulus)⟩ := by rw [gam]
  rw [h1, h2, k2_natCast_mul (by decide +kernel), natCast_K2]
  have k := k2_natCast_eq (P := bls12381Fp) (a := 3850754370037169011952147076051364057158807420970682438676050522613628423219637725072182697113062777891589506424760 * 3850754370037169011952147076051364057158807420970682438676050522613628423219637725072182697113062777891589506424760 + (bls12381Fp.modulus - 1) * (3850754370037169011952147076051364057158807420970682438676050522613628423219637725072182697113062777891589506424760 * 151655185184498381465642749684540099398075398968325446656007613510403227271200139370504932015952886146304766135027)) (b := 3850754370037169011952147076051364057158807420970682438676050522613628423219637725072182697113062777891589506424760 * 151655185184498381465642749684540099398075398968325446656007613510403227271200139370504932015952886146304766135027 + 3850754370037169011952147076051364057158807420970682438676050522613628423219637725072182697113062777891589506424760 * 3850754370037169011952147076051364057158807420970682438676050522613628423219637725072182697113062777891589506424760) (c := gam2 1) (d := 0)
    (by unfold Nat.ModEq; decide +kernel) (by unfold Nat.ModEq; decide +kernel)
  rw [Nat.cast_zero] at k
  exact k

private theorem frob_frob_of {P : Params} (n1 : cj (gam P 1) * gam P 1 = (gam2 1 : K2 P)) (n2 : cj (gam P 2) * gam P 2 = (gam2 2 : K2 P))
    (n3 : cj (gam P 3) * gam P 3 = (gam2 3 : K2 P)) (n4 : cj (gam P 4) * gam P 4 = (gam2 4 : K2 P)) (n5 : cj (gam P 5) * gam P 5 = (gam2 5 : K2 P))
    (x : K12 P) : x.frob.frob = x.frob2 := by
  have cc : ∀ z : K2 P, cj (cj z) = z := fun z => by ext <;> simp only [cj, neg_neg]
  ext1 <;> ext1 <;> simp only [K12.frob, K12.frob2, cj_mul, cc, mul_assoc, n1, n2, n3, n4, n5]

/-- `frobenius_square` is the square of `frobenius`. -/
theorem frob_frob (x : K12 bls12381Fp) : x.frob.frob = x.frob2 := by
  obtain ⟨h2, h3, h4, h5, hg⟩ := gam2_rel
  have cp : ∀ (z : K2 bls12381Fp) (n : Nat), cj (z ^ n) = cj z ^ n := fun z n => by
    induction n with
    | zero => rw [pow_zero, pow_zero, cj_one]
    | succ n ih => rw [pow_succ, pow_succ, cj_mul, ih]
  have np : ∀ n : Nat, cj (gam bls12381Fp 1 ^ n) * gam bls12381Fp 1 ^ n = (gam2 1 : K2 bls12381Fp) ^ n := fun n => by rw [cp, ← mul_pow, cj_gam_one]
  have n2 : cj (gam bls12381Fp 2) * gam bls12381Fp 2 = (gam2 2 : K2 bls12381Fp) := by rw [gam_two, np]; exact hg.trans h2.symm
  have n3 : cj (gam bls12381Fp 3) * gam bls12381Fp 3 = (gam2 3 : K2 bls12381Fp) := by
    rw [gam_three, np]; refine Eq.trans ?_ h3.symm; linear_combination ((gam2 1 : K2 bls12381Fp) + 1) * hg
  have n4 : cj (gam bls12381Fp 4) * gam bls12381Fp 4 = (gam2 4 : K2 bls12381Fp) := by
    rw [gam_four, np]; refine Eq.trans ?_ h4.symm; linear_combination ((gam2 1 : K2 bls12381Fp) ^ 2 + gam2 1) * hg
  have n5 : cj (gam bls12381Fp 5) * gam bls12381Fp 5 = (gam2 5 : K2 bls12381Fp) := by
    rw [gam_five, np]; refine Eq.trans ?_ h5.symm; linear_combination ((gam2 1 : K2 bls12381Fp) ^ 3 + (gam2 1 : K2 bls12381Fp) ^ 2 - 1) * hg
  exact frob_frob_of cj_gam_one n2 n3 n4 n5 x

theorem frob_add (x y : K12 P) : (x.add y).frob = x.frob.add y.frob := by
  ext1 <;> ext1 <;> simp only [K12.frob, K12.add, K6.add, cj_add, add_mul]

theorem frob_one : (1 : K12 P).frob = 1 := by
  show K12.frob ⟨⟨1, 0, 0⟩, ⟨0, 0, 0⟩⟩ = ⟨⟨1, 0, 0⟩, ⟨0, 0, 0⟩⟩
  simp only [K12.frob, cj_one, cj_zero, zero_mul]

/-- `t = conj x / x`, `frob2 t * t` is cyclotomic. -/
theorem easy_cyclotomic {x t : K12 bls12381Fp} (hx : IsUnit x) (h : t * x = x.conj) : (t.frob2 * t).frob2.frob2 * (t.frob2 * t) = (t.frob2 * t).frob2 := by
  have hc : ∀ x y : K12 bls12381Fp, (x * y).conj = x.conj * y.conj := conj_mul
  have hf : ∀ x y : K12 bls12381Fp, (x * y).frob2 = x.frob2 * y.frob2 := frob2_mul
  have h1 : t.conj * x.conj = x := by rw [← hc, h, conj_conj]
  have h2 : t.conj * t = 1 := by
    refine hx.mul_right_cancel ?_
    rw [mul_assoc, h, h1, one_mul]
  rw [hf, hf, frob2_cube]
  calc t.conj * t.frob2.frob2 * (t.frob2 * t) = t.conj * t * (t.frob2.frob2 * t.frob2) := by ac_rfl
    _ = _ := by rw [h2, one_mul]

/-- `1 + w` is a unit. -/
theorem unit_one_w : (⟨⟨1, 0, 0⟩, ⟨1, 0, 0⟩⟩ : K12 P) * ⟨⟨⟨0, 1⟩, ⟨0, 1⟩, ⟨0, 1⟩⟩, ⟨-⟨0, 1⟩, -⟨0, 1⟩, -⟨0, 1⟩⟩⟩ = 1 := by
  show K12.mul _ _ = ⟨⟨1, 0, 0⟩, ⟨0, 0, 0⟩⟩
  have hu : (⟨0, 1⟩ : K2 P) * (1 - xi P) = 1 := by
    ext
    · rw [QuadraticAlgebra.re_mul]; simp only [xi, QuadraticAlgebra.re_sub, QuadraticAlgebra.im_sub, QuadraticAlgebra.re_one, QuadraticAlgebra.im_one]; ring
    · rw [QuadraticAlgebra.im_mul]; simp only [xi, QuadraticAlgebra.re_sub, QuadraticAlgebra.im_sub, QuadraticAlgebra.re_one, QuadraticAlgebra.im_one]; ring
  ext1 <;> ext1 <;> simp only [K12.mul, K6.mul, K6.add, K6.v]
  · linear_combination hu
  all_goals ring

/-- A cyclotomic element that is not one. -/
theorem cyclotomic_example : ∃ U : K12 bls12381Fp, U.frob2.frob2 * U = U.frob2 ∧ U ≠ 1 := by
  have hf : ∀ x y : K12 bls12381Fp, (x * y).frob2 = x.frob2 * y.frob2 := frob2_mul
  obtain ⟨y, hy⟩ : ∃ y : K12 bls12381Fp, (⟨⟨1, 0, 0⟩, ⟨1, 0, 0⟩⟩ : K12 bls12381Fp) * y = 1 := ⟨_, unit_one_w⟩
  have ht : (K12.conj ⟨⟨1, 0, 0⟩, ⟨1, 0, 0⟩⟩ * y) * (⟨⟨1, 0, 0⟩, ⟨1, 0, 0⟩⟩ : K12 bls12381Fp) = K12.conj ⟨⟨1, 0, 0⟩, ⟨1, 0, 0⟩⟩ := by
    rw [mul_assoc, mul_comm y, hy, mul_one]
  refine ⟨_, easy_cyclotomic (IsUnit.of_mul_eq_one _ hy) ht, fun h => ?_⟩
  have e := congrArg (· * (K12.frob2 ⟨⟨1, 0, 0⟩, ⟨1, 0, 0⟩⟩ * (⟨⟨1, 0, 0⟩, ⟨1, 0, 0⟩⟩ : K12 bls12381Fp))) h
  rw [mul_mul_mul_comm, ← hf, ht, one_mul] at e
  have e1 := congrArg (fun k => k.c1.b0) e
  simp only [mul12_def, K12.conj, K12.frob2, K12.mul, K6.mul, K6.add, K6.neg, K6.v] at e1
  have e2 : ((2 * (1 + gam2 1) : Nat) : K2 bls12381Fp) = 0 := by
    push_cast
    linear_combination (-1) * e1
  rw [natCast_K2] at e2
  have e3 : ((2 * (1 + gam2 1) : Nat) : ZMod bls12381Fp.modulus) = 0 := congrArg QuadraticAlgebra.re e2
  rw [ZMod.natCast_eq_zero_iff] at e3
  exact absurd e3 (by decide +kernel)

variable {F : Type} [Field F] [DecidableEq F]

/-- sw_bls12381/pairing.rs:57-61 (the easy part of the final exponentiation, in `pairing_check`). -/
def pairingEasy (P : Params) (f : E12 F) : Gad F (E12 F) := do
  let buf ← e12Conj P f
  let buf ← e12Div P buf f
  let f ← e12Frob2 P buf
  e12Mul P f buf

/-- sw_bls12381/pairing.rs:57-63 (what `pairing_check` does with the result of the Miller loop). -/
def pairingTail (P : Params) (f : E12 F) : Gad F Unit := do
  let f ← pairingEasy P f
  e12FinalExp P f

theorem pairingEasy_T {cn : Canon F} (L : Logic cn P) (hg : Good cn P) {A : E12 F} {U q : K12 P} (hx : R12 L A U) (h : L.hon → q * U = U.conj) :
    L.T (pairingEasy P A) (fun r => ∃ t : K12 P, R12 L r (t.frob2 * t) ∧ t * U = U.conj) :=
  L.bind (e12Conj_T L hx) fun _ h1 => L.bind (e12Div_T L h1 hx (q := q) h) fun _ ⟨t, ht, e⟩ => L.bind (e12Frob2_T L hg ht) fun _ h2 =>
    L.mono (e12Mul_T L h2 ht) fun _ h3 => ⟨t, h3, e⟩

theorem pairingTail_T {cn : Canon F} (L : Logic cn P) (hg : Good cn P) {A : E12 F} {U q : K12 P} (hx : R12 L A U) (h : L.hon → q * U = U.conj) :
    L.T (pairingTail P A) (fun _ => True) :=
  L.bind (pairingEasy_T L hg hx h) fun _ ⟨_, h1, _⟩ => L.mono (e12FinalExp_T L hg h1 (r := K12.zero P) (s := ⟨0, 0, 0⟩) fun _ => finalExp_zero) fun _ _ => trivial

end Verif.Std.Emu
