import Verif.Std.TowerProof
/-!
The tower, continued: quotients, copies, powers of the Frobenius automorphism, squares of cyclotomic elements, final exponentiation.
-/
set_option linter.unusedSectionVars false
set_option linter.unusedSimpArgs false
namespace Verif.Std.Emu

variable {F : Type} [Field F] [DecidableEq F] {cn : Canon F} {P : Params} (L : Logic cn P)
variable {x y : E2 F} {z w : K2 P} {X Y : E6 F} {Z W : K6 P} {A B : E12 F} {U V : K12 P}

theorem e2Hint_T (v : K2 P) : L.T (e2Hint P) (fun r => ∃ z, R2 L r z ∧ (L.hon → z = v)) :=
  L.bind (L.hint v.re) fun z0 h0 => L.bind (L.hint v.im) fun z1 h1 =>
    L.pure ⟨⟨ev cn P z0, ev cn P z1⟩, ⟨h0.1, h1.1, rfl, rfl⟩, fun h => by ext <;> simp [h0.2 h, h1.2 h]⟩

theorem e6Hint_T (v : K6 P) : L.T (e6Hint P) (fun r => ∃ z, R6 L r z ∧ (L.hon → z = v)) :=
  L.bind (e2Hint_T L v.b0) fun _ ⟨z0, r0, h0⟩ => L.bind (e2Hint_T L v.b1) fun _ ⟨z1, r1, h1⟩ => L.bind (e2Hint_T L v.b2) fun _ ⟨z2, r2, h2⟩ =>
    L.pure ⟨⟨z0, z1, z2⟩, ⟨r0, r1, r2⟩, fun h => by rw [h0 h, h1 h, h2 h]⟩

theorem e12Hint_T (v : K12 P) : L.T (e12Hint P) (fun r => ∃ z, R12 L r z ∧ (L.hon → z = v)) :=
  L.bind (e6Hint_T L v.c0) fun _ ⟨z0, r0, h0⟩ => L.bind (e6Hint_T L v.c1) fun _ ⟨z1, r1, h1⟩ =>
    L.pure ⟨⟨z0, z1⟩, ⟨r0, r1⟩, fun h => by rw [h0 h, h1 h]⟩

theorem e2Equal_T (hx : R2 L x z) (hy : R2 L y w) (h : L.hon → z = w) : L.T (e2Equal P x y) (fun _ => z = w) := by
  refine L.bind (L.equal hx.1 hy.1 fun k => by rw [hx.2.2.1, hy.2.2.1, h k]) fun _ h0 =>
    L.mono (L.equal hx.2.1 hy.2.1 fun k => by rw [hx.2.2.2, hy.2.2.2, h k]) fun _ h1 => ?_
  rw [hx.2.2.1, hy.2.2.1] at h0
  rw [hx.2.2.2, hy.2.2.2] at h1
  ext <;> assumption

theorem e6Equal_T (hx : R6 L X Z) (hy : R6 L Y W) (h : L.hon → Z = W) : L.T (e6Equal P X Y) (fun _ => Z = W) :=
  L.bind (e2Equal_T L hx.1 hy.1 fun k => by rw [h k]) fun _ h0 => L.bind (e2Equal_T L hx.2.1 hy.2.1 fun k => by rw [h k]) fun _ h1 =>
    L.mono (e2Equal_T L hx.2.2 hy.2.2 fun k => by rw [h k]) fun _ h2 => by ext1 <;> assumption

theorem e12Equal_T (hx : R12 L A U) (hy : R12 L B V) (h : L.hon → U = V) : L.T (e12Equal P A B) (fun _ => U = V) :=
  L.bind (e6Equal_T L hx.1 hy.1 fun k => by rw [h k]) fun _ h0 => L.mono (e6Equal_T L hx.2 hy.2 fun k => by rw [h k]) fun _ h1 => by ext1 <;> assumption

/-! Quotients: the honest prover needs one. -/

theorem e2Div_T (hx : R2 L x z) (hy : R2 L y w) {q : K2 P} (h : L.hon → q * w = z) : L.T (e2Div P x y) (fun r => ∃ d, R2 L r d ∧ d * w = z) :=
  L.bind (e2Hint_T L q) fun _ ⟨d, hd, he⟩ => L.bind (e2Mul_T L hd hy) fun _ hm => L.bind (e2Equal_T L hx hm fun k => by rw [he k, h k]) fun _ e =>
    L.pure ⟨d, hd, e.symm⟩

theorem e2Inverse_T (hg : Good cn P) (hx : R2 L x z) {q : K2 P} (h : L.hon → q * z = 1) : L.T (e2Inverse P x) (fun r => ∃ d, R2 L r d ∧ d * z = 1) :=
  L.bind (e2Hint_T L q) fun _ ⟨d, hd, he⟩ => L.bind (e2Mul_T L hd hx) fun _ hm => L.bind (e2Equal_T L (R2_one L hg) hm fun k => by rw [he k, h k]) fun _ e =>
    L.pure ⟨d, hd, e.symm⟩

theorem e2Copy_T (hx : R2 L x z) : L.T (e2Copy P x) (fun r => R2 L r z) :=
  L.bind (e2Hint_T L z) fun _ ⟨d, hd, he⟩ => L.bind (e2Equal_T L hx hd fun k => (he k).symm) fun _ e => L.pure (e ▸ hd)

theorem e6Div_T (hx : R6 L X Z) (hy : R6 L Y W) {q : K6 P} (h : L.hon → q.mul W = Z) : L.T (e6Div P X Y) (fun r => ∃ d, R6 L r d ∧ d.mul W = Z) :=
  L.bind (e6Hint_T L q) fun _ ⟨d, hd, he⟩ => L.bind (e6Mul_T L hd hy) fun _ hm => L.bind (e6Equal_T L hx hm fun k => by rw [he k, h k]) fun _ e =>
    L.pure ⟨d, hd, e.symm⟩

theorem e6Inverse_T (hg : Good cn P) (hx : R6 L X Z) {q : K6 P} (h : L.hon → q.mul Z = ⟨1, 0, 0⟩) :
    L.T (e6Inverse P X) (fun r => ∃ d, R6 L r d ∧ d.mul Z = ⟨1, 0, 0⟩) :=
  L.bind (e6Hint_T L q) fun _ ⟨d, hd, he⟩ => L.bind (e6Mul_T L hd hx) fun _ hm =>
    L.bind (e6Equal_T L (X := e6One P) (Z := ⟨1, 0, 0⟩) ⟨R2_one L hg, R2_zero L hg, R2_zero L hg⟩ hm fun k => by rw [he k, h k]) fun _ e => L.pure ⟨d, hd, e.symm⟩

theorem e12Div_T (hx : R12 L A U) (hy : R12 L B V) {q : K12 P} (h : L.hon → q.mul V = U) : L.T (e12Div P A B) (fun r => ∃ d, R12 L r d ∧ d.mul V = U) :=
  L.bind (e12Hint_T L q) fun _ ⟨d, hd, he⟩ => L.bind (e12Mul_T L hd hy) fun _ hm => L.bind (e12Equal_T L hx hm fun k => by rw [he k, h k]) fun _ e =>
    L.pure ⟨d, hd, e.symm⟩

theorem R6_zero (hg : Good cn P) : R6 L (⟨e2Zero P, e2Zero P, e2Zero P⟩ : E6 F) ⟨0, 0, 0⟩ := ⟨R2_zero L hg, R2_zero L hg, R2_zero L hg⟩

theorem e12Inverse_T (hg : Good cn P) (hx : R12 L A U) {q : K12 P} (h : L.hon → q.mul U = ⟨⟨1, 0, 0⟩, ⟨0, 0, 0⟩⟩) :
    L.T (e12Inverse P A) (fun r => ∃ d, R12 L r d ∧ d.mul U = ⟨⟨1, 0, 0⟩, ⟨0, 0, 0⟩⟩) :=
  L.bind (e12Hint_T L q) fun _ ⟨d, hd, he⟩ => L.bind (e12Mul_T L hd hx) fun _ hm =>
    L.bind (e12Equal_T L (A := e12One P) (U := ⟨⟨1, 0, 0⟩, ⟨0, 0, 0⟩⟩) ⟨⟨R2_one L hg, R2_zero L hg, R2_zero L hg⟩, R6_zero L hg⟩ hm fun k => by rw [he k, h k]) fun _ e =>
      L.pure ⟨d, hd, e.symm⟩

theorem e12Copy_T (hx : R12 L A U) : L.T (e12Copy P A) (fun r => R12 L r U) :=
  L.bind (e12Hint_T L U) fun _ ⟨d, hd, he⟩ => L.bind (e12Equal_T L hx hd fun k => (he k).symm) fun _ e => L.pure (e ▸ hd)

/-! The Frobenius automorphism and its square. -/

theorem natCast_K2 (v : Nat) : (v : K2 P) = ⟨(v : ZMod P.modulus), 0⟩ := by ext <;> simp

theorem R2_valueOf (hg : Good cn P) (a b : Nat) : R2 L (⟨valueOf P a, valueOf P b⟩ : E2 F) ⟨(a : ZMod P.modulus), (b : ZMod P.modulus)⟩ :=
  ⟨L.const a, L.const b, ev_valueOf hg a, ev_valueOf hg b⟩

theorem e2MulFp_T (hg : Good cn P) (v : Nat) (hx : R2 L x z) : L.T (e2MulFp P v x) (fun r => R2 L r (z * (v : K2 P))) := by
  refine L.bind (L.mul hx.1 (L.const v)) fun z0 h0 => L.bind (L.mul hx.2.1 (L.const v)) fun z1 h1 => L.pure ⟨h0.1, h1.1, ?_, ?_⟩
  · rw [h0.2, hx.2.2.1, ev_valueOf hg]; simp
  · rw [h1.2, hx.2.2.2, ev_valueOf hg]; simp

/-- The coefficients of the Frobenius automorphism: the image of `w^k` is `gam k * w^k`. -/
def gam (P : Params) : Nat → K2 P
  | 1 => ⟨(3850754370037169011952147076051364057158807420970682438676050522613628423219637725072182697113062777891589506424760 : Nat),
    (151655185184498381465642749684540099398075398968325446656007613510403227271200139370504932015952886146304766135027 : Nat)⟩
  | 2 => ⟨0, (4002409555221667392624310435006688643935503118305586438271171395842971157480381377015405980053539358417135540939436 : Nat)⟩
  | 3 => ⟨(1028732146235106349975324479215795277384839936929757896155643118032610843298655225875571310552543014690878354869257 : Nat),
    (1028732146235106349975324479215795277384839936929757896155643118032610843298655225875571310552543014690878354869257 : Nat)⟩
  | 4 => ⟨(4002409555221667392624310435006688643935503118305586438271171395842971157480381377015405980053539358417135540939437 : Nat), 0⟩
  | 5 => ⟨(877076961050607968509681729531255177986764537961432449499635504522207616027455086505066378536590128544573588734230 : Nat),
    (3125332594171059424908108096204648978570118281977575435832422631601824034463382777937621250592425535493320683825557 : Nat)⟩
  | _ => 1

/-- `u` replaced by `-u`. -/
def cj (z : K2 P) : K2 P := ⟨z.re, -z.im⟩

/-- The map of `u` to `-u` and of `w` to `gam 1 * w`, if `gam k` is the `k`-th power of `gam 1` (`gam_pow`). -/
def K12.frob (x : K12 P) : K12 P :=
  ⟨⟨cj x.c0.b0, cj x.c0.b1 * gam P 2, cj x.c0.b2 * gam P 4⟩, ⟨cj x.c1.b0 * gam P 1, cj x.c1.b1 * gam P 3, cj x.c1.b2 * gam P 5⟩⟩

theorem e12Frob_T (hg : Good cn P) (hx : R12 L A U) : L.T (e12Frob P A) (fun r => R12 L r U.frob) := by
  refine L.bind (e2Conj_T L hx.1.1) fun z00 h00 => L.bind (e2Conj_T L hx.1.2.1) fun z01 h01 => L.bind (e2Conj_T L hx.1.2.2) fun z02 h02 =>
    L.bind (e2Conj_T L hx.2.1) fun z10 h10 => L.bind (e2Conj_T L hx.2.2.1) fun z11 h11 => L.bind (e2Conj_T L hx.2.2.2) fun z12 h12 =>
    L.bind (Q := fun r => R2 L r (cj U.c0.b1 * gam P 2)) ?_ fun z01 k01 => L.bind (Q := fun r => R2 L r (cj U.c0.b2 * gam P 4)) ?_ fun z02 k02 =>
    L.bind (e2Mul_T L h10 (R2_valueOf L hg _ _)) fun z10 k10 => L.bind (e2Mul_T L h11 (R2_valueOf L hg _ _)) fun z11 k11 =>
    L.bind (e2Mul_T L h12 (R2_valueOf L hg _ _)) fun z12 k12 => L.pure ⟨⟨h00, k01, k02⟩, ⟨k10, k11, k12⟩⟩
  · refine L.bind (L.mul h01.2.1 (L.const _)) fun a ha => L.bind (L.neg ha.1) fun a ha' => L.bind (L.mul h01.1 (L.const _)) fun b hb => L.pure ⟨ha'.1, hb.1, ?_, ?_⟩
    · rw [ha'.2, ha.2, h01.2.2.2, ev_valueOf hg]; simp [cj, gam]
    · rw [hb.2, h01.2.2.1, ev_valueOf hg]; simp [cj, gam]
  · refine L.mono (e2MulFp_T L hg _ h02) fun r hr => R2_eq L hr ?_
    rw [natCast_K2]; rfl

/-- The coefficients of the square of the Frobenius automorphism. -/
def gam2 : Nat → Nat
  | 1 => 793479390729215512621379701633421447060886740281060493010456487427281649075476305620758731620351
  | 2 => 793479390729215512621379701633421447060886740281060493010456487427281649075476305620758731620350
  | 3 => 4002409555221667393417789825735904156556882819939007885332058136124031650490837864442687629129015664037894272559786
  | 4 => 4002409555221667392624310435006688643935503118305586438271171395842971157480381377015405980053539358417135540939436
  | 5 => 4002409555221667392624310435006688643935503118305586438271171395842971157480381377015405980053539358417135540939437
  | _ => 1

/-- The map of `w` to `gam2 1 * w`, if `gam2 k` is the `k`-th power of `gam2 1` (`gam2_pow`). -/
def K12.frob2 (x : K12 P) : K12 P :=
  ⟨⟨x.c0.b0, x.c0.b1 * (gam2 2 : K2 P), x.c0.b2 * (gam2 4 : K2 P)⟩, ⟨x.c1.b0 * (gam2 1 : K2 P), x.c1.b1 * (gam2 3 : K2 P), x.c1.b2 * (gam2 5 : K2 P)⟩⟩

theorem e12Frob2_T (hg : Good cn P) (hx : R12 L A U) : L.T (e12Frob2 P A) (fun r => R12 L r U.frob2) :=
  L.bind (e2MulFp_T L hg _ hx.1.2.1) fun z01 k01 => L.bind (e2MulFp_T L hg _ hx.1.2.2) fun z02 k02 =>
    L.bind (e2MulFp_T L hg _ hx.2.1) fun z10 k10 => L.bind (e2MulFp_T L hg _ hx.2.2.1) fun z11 k11 =>
    L.bind (e2MulFp_T L hg _ hx.2.2.2) fun z12 k12 => L.pure ⟨⟨hx.1.1, k01, k02⟩, ⟨k10, k11, k12⟩⟩

/-! Squares of cyclotomic elements. -/

/-- What `cyclotomic_square` computes. -/
def K12.cyc (x : K12 P) : K12 P :=
  ⟨⟨3 * (x.c0.b0 * x.c0.b0 + xi P * (x.c1.b1 * x.c1.b1)) - 2 * x.c0.b0, 3 * (x.c1.b0 * x.c1.b0 + xi P * (x.c0.b2 * x.c0.b2)) - 2 * x.c0.b1,
    3 * (x.c0.b1 * x.c0.b1 + xi P * (x.c1.b2 * x.c1.b2)) - 2 * x.c0.b2⟩,
   ⟨6 * (xi P * (x.c1.b2 * x.c0.b1)) + 2 * x.c1.b0, 6 * (x.c1.b1 * x.c0.b0) + 2 * x.c1.b1, 6 * (x.c0.b2 * x.c1.b0) + 2 * x.c1.b2⟩⟩

theorem e12CycSquare_T (hx : R12 L A U) : L.T (e12CycSquare P A) (fun r => R12 L r U.cyc) := by
  refine L.bind (e2Square_T L hx.2.2.1) fun t0 k0 => L.bind (e2Square_T L hx.1.1) fun t1 k1 => L.bind (e2Add_T L hx.2.2.1 hx.1.1) fun t6 k6 =>
    L.bind (e2Square_T L k6) fun t6 k6 => L.bind (e2Sub_T L k6 k0) fun t6 k6 => L.bind (e2Sub_T L k6 k1) fun t6 k6 =>
    L.bind (e2Square_T L hx.1.2.2) fun t2 k2 => L.bind (e2Square_T L hx.2.1) fun t3 k3 => L.bind (e2Add_T L hx.1.2.2 hx.2.1) fun t7 k7 =>
    L.bind (e2Square_T L k7) fun t7 k7 => L.bind (e2Sub_T L k7 k2) fun t7 k7 => L.bind (e2Sub_T L k7 k3) fun t7 k7 =>
    L.bind (e2Square_T L hx.2.2.2) fun t4 k4 => L.bind (e2Square_T L hx.1.2.1) fun t5 k5 => L.bind (e2Add_T L hx.2.2.2 hx.1.2.1) fun t8 k8 =>
    L.bind (e2Square_T L k8) fun t8 k8 => L.bind (e2Sub_T L k8 k4) fun t8 k8 => L.bind (e2Sub_T L k8 k5) fun t8 k8 => L.bind (e2MulNonResidue_T L k8) fun t8 k8 =>
    L.bind (e2MulNonResidue_T L k0) fun t0 k0 => L.bind (e2Add_T L k0 k1) fun t0 k0 => L.bind (e2MulNonResidue_T L k2) fun t2 k2 => L.bind (e2Add_T L k2 k3) fun t2 k2 =>
    L.bind (e2MulNonResidue_T L k4) fun t4 k4 => L.bind (e2Add_T L k4 k5) fun t4 k4 =>
    L.bind (e2Sub_T L k0 hx.1.1) fun z00 h00 => L.bind (e2Double_T L h00) fun z00 h00 => L.bind (e2Add_T L h00 k0) fun z00 h00 =>
    L.bind (e2Sub_T L k2 hx.1.2.1) fun z01 h01 => L.bind (e2Double_T L h01) fun z01 h01 => L.bind (e2Add_T L h01 k2) fun z01 h01 =>
    L.bind (e2Sub_T L k4 hx.1.2.2) fun z02 h02 => L.bind (e2Double_T L h02) fun z02 h02 => L.bind (e2Add_T L h02 k4) fun z02 h02 =>
    L.bind (e2Add_T L k8 hx.2.1) fun z10 h10 => L.bind (e2Double_T L h10) fun z10 h10 => L.bind (e2Add_T L h10 k8) fun z10 h10 =>
    L.bind (e2Add_T L k6 hx.2.2.1) fun z11 h11 => L.bind (e2Double_T L h11) fun z11 h11 => L.bind (e2Add_T L h11 k6) fun z11 h11 =>
    L.bind (e2Add_T L k7 hx.2.2.2) fun z12 h12 => L.bind (e2Double_T L h12) fun z12 h12 => L.bind (e2Add_T L h12 k7) fun z12 h12 =>
    L.pure ⟨⟨R2_eq L h00 ?_, R2_eq L h01 ?_, R2_eq L h02 ?_⟩, ⟨R2_eq L h10 ?_, R2_eq L h11 ?_, R2_eq L h12 ?_⟩⟩ <;> simp only [K12.cyc] <;> ring

/-- `n` such squares. -/
def K12.cycN (x : K12 P) : Nat → K12 P
  | 0 => x
  | n + 1 => K12.cycN x.cyc n

theorem e12SquareLoop_T (n : Nat) : ∀ {A : E12 F} {U : K12 P}, R12 L A U → L.T (e12SquareLoop P n A) (fun r => R12 L r (U.cycN n)) := by
  induction n with
  | zero => exact fun h => L.pure h
  | succ n ih => exact fun h => L.bind (e12CycSquare_T L h) fun _ h1 => L.bind (e12Copy_T L h1) fun _ h2 => ih h2

theorem cycN_cyc (n : Nat) : ∀ U : K12 P, (U.cycN n).cyc = U.cycN (n + 1) := by
  induction n with
  | zero => exact fun _ => rfl
  | succ n ih => exact fun U => ih U.cyc

theorem e12SquareN_T (hx : R12 L A U) (n : Nat) : L.T (e12SquareN P A (n + 1)) (fun r => R12 L r (U.cycN (n + 1))) :=
  L.bind (e12Copy_T L hx) fun _ h1 => L.bind (e12SquareLoop_T L n h1) fun _ h2 => L.mono (e12CycSquare_T L h2) fun _ h3 => cycN_cyc n U ▸ h3

/-- What `expt` computes. -/
def K12.expt (x : K12 P) : K12 P :=
  (x.mul ((x.mul ((x.mul ((x.mul ((x.mul x.cyc).cycN 2)).cycN 3)).cycN 9)).cycN 32)).cycN 16

theorem e12Expt_T (hx : R12 L A U) : L.T (e12Expt P A) (fun r => R12 L r U.expt) :=
  L.bind (e12CycSquare_T L hx) fun _ h => L.bind (e12Mul_T L hx h) fun _ h => L.bind (e12SquareN_T L h 1) fun _ h => L.bind (e12Mul_T L hx h) fun _ h =>
    L.bind (e12SquareN_T L h 2) fun _ h => L.bind (e12Mul_T L hx h) fun _ h => L.bind (e12SquareN_T L h 8) fun _ h => L.bind (e12Mul_T L hx h) fun _ h =>
    L.bind (e12SquareN_T L h 31) fun _ h => L.bind (e12Mul_T L hx h) fun _ h => L.bind (e12SquareN_T L h 14) fun _ h =>
    L.mono (e12CycSquare_T L h) fun _ h => by rw [K12.expt, ← cycN_cyc 15]; exact h

/-! Final exponentiation. -/

theorem e12FinalExp_T (hg : Good cn P) (hx : R12 L A U) {r : K12 P} {s : K6 P} (h : L.hon → r.frob.mul r.expt = U.mul ⟨s, ⟨0, 0, 0⟩⟩) :
    L.T (e12FinalExp P A) (fun _ => ∃ (r : K12 P) (s : K6 P), r.frob.mul r.expt = U.mul ⟨s, ⟨0, 0, 0⟩⟩) :=
  L.bind (e12Hint_T L r) fun _ ⟨r', hr, er⟩ => L.bind (e6Hint_T L s) fun _ ⟨s', hs, es⟩ => L.bind (e12Frob_T L hg hr) fun _ h0 => L.bind (e12Expt_T L hr) fun _ h1 =>
    L.bind (e12Mul_T L h0 h1) fun _ h2 => L.bind (e12Mul_T L hx (B := ⟨_, _⟩) (V := ⟨s', ⟨0, 0, 0⟩⟩) ⟨hs, R6_zero L hg⟩) fun _ h3 =>
    L.mono (e12Equal_T L h2 h3 fun k => by rw [er k, es k, h k]) fun _ e => ⟨r', s', e⟩

/-- Zero. -/
def K12.zero (P : Params) : K12 P := ⟨⟨0, 0, 0⟩, ⟨0, 0, 0⟩⟩

theorem mul_zero12 (x : K12 P) : x.mul (K12.zero P) = K12.zero P := by
  ext1 <;> ext1 <;> simp [K12.mul, K6.mul, K6.add, K6.v, K12.zero]

theorem zero_mul12 (x : K12 P) : (K12.zero P).mul x = K12.zero P := by
  ext1 <;> ext1 <;> simp [K12.mul, K6.mul, K6.add, K6.v, K12.zero]

theorem frob_zero : (K12.zero P).frob = K12.zero P := by
  have : cj (0 : K2 P) = 0 := by ext <;> simp [cj]
  ext1 <;> ext1 <;> simp [K12.frob, K12.zero, this]

/-- Zeros satisfy the equation of the final exponentiation, whatever its operand. -/
theorem finalExp_zero : (K12.zero P).frob.mul (K12.zero P).expt = U.mul ⟨⟨0, 0, 0⟩, ⟨0, 0, 0⟩⟩ := by
  rw [frob_zero, zero_mul12]
  exact (mul_zero12 U).symm

end Verif.Std.Emu
