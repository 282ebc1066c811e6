import Verif.Std.TowerEasy
import Verif.Props.C52
/-!
C53: the extension tower of BLS12-381 over the emulated base field (gnark/emulated/field_bls12381/{e2,e6,e12}.rs).

`K2 P` is the extension of the integers modulo the modulus by `u` with `u^2 = -1`; `K6 P`, its extension by `v` with `v^3 = 1 + u`; `K12 P`, the
extension of that by `w` with `w^2 = v`: products there are products of polynomials.  A variable of the circuit (`E2`, `E6`, `E12`)
represents an element (`Rep2`, `Rep6`, `Rep12`) if its limbs are in range and the numbers of its coordinates are the coordinates of the
element, modulo the modulus.

For each operation, `C53_*_partial`: if the checks registered on the way hold over the integers, whatever the outputs of the hints, the
result represents the right element.  (Missing: checks that hold in the native field only; see C52.)  `C53_*_complete`: a prover exists
whose checks hold at every challenge, with the right result.

`assert_final_exponentiation_is_one` accepts every element, even of checks over the integers (`C53_finalExp_violated`): its witness may be zero.
-/
set_option linter.unusedSectionVars false
set_option linter.unusedSimpArgs false
namespace Verif.Props
open Verif.Std.Emu

variable {F : Type} [Field F] [DecidableEq F] {cn : Canon F} {P : Params}

/-- Every result of `g` is right, if the checks hold over the integers. -/
def Right (cn : Canon F) (P : Params) {α : Type} (g : Gad F α) (Q : α → Prop) : Prop :=
  ∀ r l, g r l → (∀ mc ∈ l, mc.Holds cn P) → Q r

/-- Some prover makes `g` end with the right result, and its checks hold (over the integers, and at every challenge). -/
def Complete (cn : Canon F) (P : Params) {α : Type} (g : Gad F α) (Q : α → Prop) : Prop :=
  ∃ r l, g r l ∧ Q r ∧ (∀ mc ∈ l, mc.Holds cn P) ∧ ∀ ch, checkMul P l ch

/-- In range. -/
def InRange (cn : Canon F) (P : Params) (e : El F) : Prop := Ok cn P e ∧ Full cn P e

/-- `x` represents `z`, with coordinates that satisfy `R`. -/
def Rep2 (cn : Canon F) (R : El F → Prop) (x : E2 F) (z : K2 P) : Prop :=
  R x.a0 ∧ R x.a1 ∧ (value cn P x.a0.limbs : ZMod P.modulus) = z.re ∧ (value cn P x.a1.limbs : ZMod P.modulus) = z.im
/-- `x` represents `z`. -/
def Rep6 (cn : Canon F) (R : El F → Prop) (x : E6 F) (z : K6 P) : Prop := Rep2 cn R x.b0 z.b0 ∧ Rep2 cn R x.b1 z.b1 ∧ Rep2 cn R x.b2 z.b2
/-- `x` represents `z`. -/
def Rep12 (cn : Canon F) (R : El F → Prop) (x : E12 F) (z : K12 P) : Prop := Rep6 cn R x.c0 z.c0 ∧ Rep6 cn R x.c1 z.c1

theorem right_of {hg : Good cn P} {h8 : P.bits ≤ 8} {α : Type} {g : Gad F α} {Q : α → Prop} (h : (soundLogic hg h8).T g Q) : Right cn P g Q := h
theorem complete_of {ht : Tight cn P} {h8 : P.bits ≤ 8} {α : Type} {g : Gad F α} {Q : α → Prop} (h : (honestLogic ht h8).T g Q) : Complete cn P g Q :=
  honest_checks h

variable {x y : E2 F} {z w : K2 P} {X Y : E6 F} {Z W : K6 P} {A B : E12 F} {U V : K12 P}

/-- e2.rs `add`. -/
theorem C53_e2_add_partial (hg : Good cn P) (h8 : P.bits ≤ 8)  (hx : Rep2 cn (InRange cn P) x z) (hy : Rep2 cn (InRange cn P) y w) :
    Right cn P (e2Add P x y) (fun r => Rep2 cn (InRange cn P) r (z + w)) :=
  right_of (e2Add_T (soundLogic hg h8) hx hy)

theorem C53_e2_add_complete (ht : Tight cn P) (h8 : P.bits ≤ 8)  (hx : Rep2 cn (Valid cn P) x z) (hy : Rep2 cn (Valid cn P) y w) :
    Complete cn P (e2Add P x y) (fun r => Rep2 cn (Valid cn P) r (z + w)) :=
  complete_of (e2Add_T (honestLogic ht h8) hx hy)

/-- e2.rs `sub`. -/
theorem C53_e2_sub_partial (hg : Good cn P) (h8 : P.bits ≤ 8)  (hx : Rep2 cn (InRange cn P) x z) (hy : Rep2 cn (InRange cn P) y w) :
    Right cn P (e2Sub P x y) (fun r => Rep2 cn (InRange cn P) r (z - w)) :=
  right_of (e2Sub_T (soundLogic hg h8) hx hy)

theorem C53_e2_sub_complete (ht : Tight cn P) (h8 : P.bits ≤ 8)  (hx : Rep2 cn (Valid cn P) x z) (hy : Rep2 cn (Valid cn P) y w) :
    Complete cn P (e2Sub P x y) (fun r => Rep2 cn (Valid cn P) r (z - w)) :=
  complete_of (e2Sub_T (honestLogic ht h8) hx hy)

/-- e2.rs `neg`. -/
theorem C53_e2_neg_partial (hg : Good cn P) (h8 : P.bits ≤ 8)  (hx : Rep2 cn (InRange cn P) x z) :
    Right cn P (e2Neg P x) (fun r => Rep2 cn (InRange cn P) r (-z)) :=
  right_of (e2Neg_T (soundLogic hg h8) hx)

theorem C53_e2_neg_complete (ht : Tight cn P) (h8 : P.bits ≤ 8)  (hx : Rep2 cn (Valid cn P) x z) :
    Complete cn P (e2Neg P x) (fun r => Rep2 cn (Valid cn P) r (-z)) :=
  complete_of (e2Neg_T (honestLogic ht h8) hx)

/-- e2.rs `double`. -/
theorem C53_e2_double_partial (hg : Good cn P) (h8 : P.bits ≤ 8)  (hx : Rep2 cn (InRange cn P) x z) :
    Right cn P (e2Double P x) (fun r => Rep2 cn (InRange cn P) r (z + z)) :=
  right_of (e2Double_T (soundLogic hg h8) hx)

theorem C53_e2_double_complete (ht : Tight cn P) (h8 : P.bits ≤ 8)  (hx : Rep2 cn (Valid cn P) x z) :
    Complete cn P (e2Double P x) (fun r => Rep2 cn (Valid cn P) r (z + z)) :=
  complete_of (e2Double_T (honestLogic ht h8) hx)

/-- e2.rs `mul`. -/
theorem C53_e2_mul_partial (hg : Good cn P) (h8 : P.bits ≤ 8)  (hx : Rep2 cn (InRange cn P) x z) (hy : Rep2 cn (InRange cn P) y w) :
    Right cn P (e2Mul P x y) (fun r => Rep2 cn (InRange cn P) r (z * w)) :=
  right_of (e2Mul_T (soundLogic hg h8) hx hy)

theorem C53_e2_mul_complete (ht : Tight cn P) (h8 : P.bits ≤ 8)  (hx : Rep2 cn (Valid cn P) x z) (hy : Rep2 cn (Valid cn P) y w) :
    Complete cn P (e2Mul P x y) (fun r => Rep2 cn (Valid cn P) r (z * w)) :=
  complete_of (e2Mul_T (honestLogic ht h8) hx hy)

/-- e2.rs `mul_by_element`. -/
theorem C53_e2_mulElement_partial (hg : Good cn P) (h8 : P.bits ≤ 8) {e : El F} (he : InRange cn P e) (hx : Rep2 cn (InRange cn P) x z) :
    Right cn P (e2MulElement P x e) (fun r => Rep2 cn (InRange cn P) r (z * ⟨(value cn P e.limbs : ZMod P.modulus), 0⟩)) :=
  right_of (e2MulElement_T (soundLogic hg h8) hx he)

theorem C53_e2_mulElement_complete (ht : Tight cn P) (h8 : P.bits ≤ 8) {e : El F} (he : Valid cn P e) (hx : Rep2 cn (Valid cn P) x z) :
    Complete cn P (e2MulElement P x e) (fun r => Rep2 cn (Valid cn P) r (z * ⟨(value cn P e.limbs : ZMod P.modulus), 0⟩)) :=
  complete_of (e2MulElement_T (honestLogic ht h8) hx he)

/-- e2.rs `mul_by_const_element`. -/
theorem C53_e2_mulConst_partial (hg : Good cn P) (h8 : P.bits ≤ 8) {c : Nat} (hc : c.size ≤ 20) (hx : Rep2 cn (InRange cn P) x z) :
    Right cn P (e2MulConst P x c) (fun r => Rep2 cn (InRange cn P) r (z * (c : K2 P))) :=
  right_of (e2MulConst_T (soundLogic hg h8) hx hc)

theorem C53_e2_mulConst_complete (ht : Tight cn P) (h8 : P.bits ≤ 8) {c : Nat} (hc : c.size ≤ 20) (hx : Rep2 cn (Valid cn P) x z) :
    Complete cn P (e2MulConst P x c) (fun r => Rep2 cn (Valid cn P) r (z * (c : K2 P))) :=
  complete_of (e2MulConst_T (honestLogic ht h8) hx hc)

/-- e2.rs `mul_by_non_residue`: by `1 + u`. -/
theorem C53_e2_mulNonResidue_partial (hg : Good cn P) (h8 : P.bits ≤ 8)  (hx : Rep2 cn (InRange cn P) x z) :
    Right cn P (e2MulNonResidue P x) (fun r => Rep2 cn (InRange cn P) r (⟨1, 1⟩ * z)) :=
  right_of (e2MulNonResidue_T (soundLogic hg h8) hx)

theorem C53_e2_mulNonResidue_complete (ht : Tight cn P) (h8 : P.bits ≤ 8)  (hx : Rep2 cn (Valid cn P) x z) :
    Complete cn P (e2MulNonResidue P x) (fun r => Rep2 cn (Valid cn P) r (⟨1, 1⟩ * z)) :=
  complete_of (e2MulNonResidue_T (honestLogic ht h8) hx)

/-- e2.rs `square`. -/
theorem C53_e2_square_partial (hg : Good cn P) (h8 : P.bits ≤ 8)  (hx : Rep2 cn (InRange cn P) x z) :
    Right cn P (e2Square P x) (fun r => Rep2 cn (InRange cn P) r (z * z)) :=
  right_of (e2Square_T (soundLogic hg h8) hx)

theorem C53_e2_square_complete (ht : Tight cn P) (h8 : P.bits ≤ 8)  (hx : Rep2 cn (Valid cn P) x z) :
    Complete cn P (e2Square P x) (fun r => Rep2 cn (Valid cn P) r (z * z)) :=
  complete_of (e2Square_T (honestLogic ht h8) hx)

/-- e2.rs `conjugate`. -/
theorem C53_e2_conj_partial (hg : Good cn P) (h8 : P.bits ≤ 8)  (hx : Rep2 cn (InRange cn P) x z) :
    Right cn P (e2Conj P x) (fun r => Rep2 cn (InRange cn P) r ⟨z.re, -z.im⟩) :=
  right_of (e2Conj_T (soundLogic hg h8) hx)

theorem C53_e2_conj_complete (ht : Tight cn P) (h8 : P.bits ≤ 8)  (hx : Rep2 cn (Valid cn P) x z) :
    Complete cn P (e2Conj P x) (fun r => Rep2 cn (Valid cn P) r ⟨z.re, -z.im⟩) :=
  complete_of (e2Conj_T (honestLogic ht h8) hx)

/-- e2.rs `copy`. -/
theorem C53_e2_copy_partial (hg : Good cn P) (h8 : P.bits ≤ 8)  (hx : Rep2 cn (InRange cn P) x z) :
    Right cn P (e2Copy P x) (fun r => Rep2 cn (InRange cn P) r z) :=
  right_of (e2Copy_T (soundLogic hg h8) hx)

theorem C53_e2_copy_complete (ht : Tight cn P) (h8 : P.bits ≤ 8)  (hx : Rep2 cn (Valid cn P) x z) :
    Complete cn P (e2Copy P x) (fun r => Rep2 cn (Valid cn P) r z) :=
  complete_of (e2Copy_T (honestLogic ht h8) hx)

/-- e2.rs `div`. -/
theorem C53_e2_div_partial (hg : Good cn P) (h8 : P.bits ≤ 8)  (hx : Rep2 cn (InRange cn P) x z) (hy : Rep2 cn (InRange cn P) y w) :
    Right cn P (e2Div P x y) (fun r => ∃ d, Rep2 cn (InRange cn P) r d ∧ d * w = z) :=
  right_of (e2Div_T (q := 0) (soundLogic hg h8) hx hy (fun h => h.elim))

theorem C53_e2_div_complete (ht : Tight cn P) (h8 : P.bits ≤ 8) {q : K2 P} (hq : q * w = z) (hx : Rep2 cn (Valid cn P) x z) (hy : Rep2 cn (Valid cn P) y w) :
    Complete cn P (e2Div P x y) (fun r => ∃ d, Rep2 cn (Valid cn P) r d ∧ d * w = z) :=
  complete_of (e2Div_T (honestLogic ht h8) hx hy (fun _ => hq))

/-- e2.rs `inverse`. -/
theorem C53_e2_inverse_partial (hg : Good cn P) (h8 : P.bits ≤ 8)  (hx : Rep2 cn (InRange cn P) x z) :
    Right cn P (e2Inverse P x) (fun r => ∃ d, Rep2 cn (InRange cn P) r d ∧ d * z = 1) :=
  right_of (e2Inverse_T (q := 0) (soundLogic hg h8) hg hx (fun h => h.elim))

theorem C53_e2_inverse_complete (ht : Tight cn P) (h8 : P.bits ≤ 8) {q : K2 P} (hq : q * z = 1) (hx : Rep2 cn (Valid cn P) x z) :
    Complete cn P (e2Inverse P x) (fun r => ∃ d, Rep2 cn (Valid cn P) r d ∧ d * z = 1) :=
  complete_of (e2Inverse_T (honestLogic ht h8) ht.good hx (fun _ => hq))

/-- e2.rs `assert_isequal`. -/
theorem C53_e2_equal_partial (hg : Good cn P) (h8 : P.bits ≤ 8)  (hx : Rep2 cn (InRange cn P) x z) (hy : Rep2 cn (InRange cn P) y w) :
    Right cn P (e2Equal P x y) (fun _ => z = w) :=
  right_of (e2Equal_T (soundLogic hg h8) hx hy (fun h => h.elim))

theorem C53_e2_equal_complete (ht : Tight cn P) (h8 : P.bits ≤ 8) (hq : z = w) (hx : Rep2 cn (Valid cn P) x z) (hy : Rep2 cn (Valid cn P) y w) :
    Complete cn P (e2Equal P x y) (fun _ => z = w) :=
  complete_of (e2Equal_T (honestLogic ht h8) hx hy (fun _ => hq))

/-- e6.rs `add`. -/
theorem C53_e6_add_partial (hg : Good cn P) (h8 : P.bits ≤ 8)  (hx : Rep6 cn (InRange cn P) X Z) (hy : Rep6 cn (InRange cn P) Y W) :
    Right cn P (e6Add P X Y) (fun r => Rep6 cn (InRange cn P) r (Z.add W)) :=
  right_of (e6Add_T (soundLogic hg h8) hx hy)

theorem C53_e6_add_complete (ht : Tight cn P) (h8 : P.bits ≤ 8)  (hx : Rep6 cn (Valid cn P) X Z) (hy : Rep6 cn (Valid cn P) Y W) :
    Complete cn P (e6Add P X Y) (fun r => Rep6 cn (Valid cn P) r (Z.add W)) :=
  complete_of (e6Add_T (honestLogic ht h8) hx hy)

/-- e6.rs `sub`. -/
theorem C53_e6_sub_partial (hg : Good cn P) (h8 : P.bits ≤ 8)  (hx : Rep6 cn (InRange cn P) X Z) (hy : Rep6 cn (InRange cn P) Y W) :
    Right cn P (e6Sub P X Y) (fun r => Rep6 cn (InRange cn P) r (Z.sub W)) :=
  right_of (e6Sub_T (soundLogic hg h8) hx hy)

theorem C53_e6_sub_complete (ht : Tight cn P) (h8 : P.bits ≤ 8)  (hx : Rep6 cn (Valid cn P) X Z) (hy : Rep6 cn (Valid cn P) Y W) :
    Complete cn P (e6Sub P X Y) (fun r => Rep6 cn (Valid cn P) r (Z.sub W)) :=
  complete_of (e6Sub_T (honestLogic ht h8) hx hy)

/-- e6.rs `neg`. -/
theorem C53_e6_neg_partial (hg : Good cn P) (h8 : P.bits ≤ 8)  (hx : Rep6 cn (InRange cn P) X Z) :
    Right cn P (e6Neg P X) (fun r => Rep6 cn (InRange cn P) r Z.neg) :=
  right_of (e6Neg_T (soundLogic hg h8) hx)

theorem C53_e6_neg_complete (ht : Tight cn P) (h8 : P.bits ≤ 8)  (hx : Rep6 cn (Valid cn P) X Z) :
    Complete cn P (e6Neg P X) (fun r => Rep6 cn (Valid cn P) r Z.neg) :=
  complete_of (e6Neg_T (honestLogic ht h8) hx)

/-- e6.rs `double`. -/
theorem C53_e6_double_partial (hg : Good cn P) (h8 : P.bits ≤ 8)  (hx : Rep6 cn (InRange cn P) X Z) :
    Right cn P (e6Double P X) (fun r => Rep6 cn (InRange cn P) r (Z.add Z)) :=
  right_of (e6Double_T (soundLogic hg h8) hx)

theorem C53_e6_double_complete (ht : Tight cn P) (h8 : P.bits ≤ 8)  (hx : Rep6 cn (Valid cn P) X Z) :
    Complete cn P (e6Double P X) (fun r => Rep6 cn (Valid cn P) r (Z.add Z)) :=
  complete_of (e6Double_T (honestLogic ht h8) hx)

/-- e6.rs `mul`. -/
theorem C53_e6_mul_partial (hg : Good cn P) (h8 : P.bits ≤ 8)  (hx : Rep6 cn (InRange cn P) X Z) (hy : Rep6 cn (InRange cn P) Y W) :
    Right cn P (e6Mul P X Y) (fun r => Rep6 cn (InRange cn P) r (Z.mul W)) :=
  right_of (e6Mul_T (soundLogic hg h8) hx hy)

theorem C53_e6_mul_complete (ht : Tight cn P) (h8 : P.bits ≤ 8)  (hx : Rep6 cn (Valid cn P) X Z) (hy : Rep6 cn (Valid cn P) Y W) :
    Complete cn P (e6Mul P X Y) (fun r => Rep6 cn (Valid cn P) r (Z.mul W)) :=
  complete_of (e6Mul_T (honestLogic ht h8) hx hy)

/-- e6.rs `square`. -/
theorem C53_e6_square_partial (hg : Good cn P) (h8 : P.bits ≤ 8)  (hx : Rep6 cn (InRange cn P) X Z) :
    Right cn P (e6Square P X) (fun r => Rep6 cn (InRange cn P) r (Z.mul Z)) :=
  right_of (e6Square_T (soundLogic hg h8) hx)

theorem C53_e6_square_complete (ht : Tight cn P) (h8 : P.bits ≤ 8)  (hx : Rep6 cn (Valid cn P) X Z) :
    Complete cn P (e6Square P X) (fun r => Rep6 cn (Valid cn P) r (Z.mul Z)) :=
  complete_of (e6Square_T (honestLogic ht h8) hx)

/-- e6.rs `mul_by_e2`. -/
theorem C53_e6_mulE2_partial (hg : Good cn P) (h8 : P.bits ≤ 8)  (hx : Rep6 cn (InRange cn P) X Z) (hy : Rep2 cn (InRange cn P) y w) :
    Right cn P (e6MulE2 P X y) (fun r => Rep6 cn (InRange cn P) r (Z.mul ⟨w, 0, 0⟩)) :=
  right_of (e6MulE2_T (soundLogic hg h8) hx hy)

theorem C53_e6_mulE2_complete (ht : Tight cn P) (h8 : P.bits ≤ 8)  (hx : Rep6 cn (Valid cn P) X Z) (hy : Rep2 cn (Valid cn P) y w) :
    Complete cn P (e6MulE2 P X y) (fun r => Rep6 cn (Valid cn P) r (Z.mul ⟨w, 0, 0⟩)) :=
  complete_of (e6MulE2_T (honestLogic ht h8) hx hy)

/-- e6.rs `mul_by_12`. -/
theorem C53_e6_mulBy12_partial (hg : Good cn P) (h8 : P.bits ≤ 8)  (hx : Rep6 cn (InRange cn P) X Z) (h1 : Rep2 cn (InRange cn P) x z) (h2 : Rep2 cn (InRange cn P) y w) :
    Right cn P (e6MulBy12 P X x y) (fun r => Rep6 cn (InRange cn P) r (Z.mul ⟨0, z, w⟩)) :=
  right_of (e6MulBy12_T (soundLogic hg h8) hx h1 h2)

theorem C53_e6_mulBy12_complete (ht : Tight cn P) (h8 : P.bits ≤ 8)  (hx : Rep6 cn (Valid cn P) X Z) (h1 : Rep2 cn (Valid cn P) x z) (h2 : Rep2 cn (Valid cn P) y w) :
    Complete cn P (e6MulBy12 P X x y) (fun r => Rep6 cn (Valid cn P) r (Z.mul ⟨0, z, w⟩)) :=
  complete_of (e6MulBy12_T (honestLogic ht h8) hx h1 h2)

/-- e6.rs `mul_by_0`. -/
theorem C53_e6_mulBy0_partial (hg : Good cn P) (h8 : P.bits ≤ 8)  (hx : Rep6 cn (InRange cn P) X Z) (hy : Rep2 cn (InRange cn P) y w) :
    Right cn P (e6MulBy0 P X y) (fun r => Rep6 cn (InRange cn P) r (Z.mul ⟨w, 0, 0⟩)) :=
  right_of (e6MulBy0_T (soundLogic hg h8) hx hy)

theorem C53_e6_mulBy0_complete (ht : Tight cn P) (h8 : P.bits ≤ 8)  (hx : Rep6 cn (Valid cn P) X Z) (hy : Rep2 cn (Valid cn P) y w) :
    Complete cn P (e6MulBy0 P X y) (fun r => Rep6 cn (Valid cn P) r (Z.mul ⟨w, 0, 0⟩)) :=
  complete_of (e6MulBy0_T (honestLogic ht h8) hx hy)

/-- e6.rs `mul_by_01`. -/
theorem C53_e6_mulBy01_partial (hg : Good cn P) (h8 : P.bits ≤ 8)  (hx : Rep6 cn (InRange cn P) X Z) (h1 : Rep2 cn (InRange cn P) x z) (h2 : Rep2 cn (InRange cn P) y w) :
    Right cn P (e6MulBy01 P X x y) (fun r => Rep6 cn (InRange cn P) r (Z.mul ⟨z, w, 0⟩)) :=
  right_of (e6MulBy01_T (soundLogic hg h8) hx h1 h2)

theorem C53_e6_mulBy01_complete (ht : Tight cn P) (h8 : P.bits ≤ 8)  (hx : Rep6 cn (Valid cn P) X Z) (h1 : Rep2 cn (Valid cn P) x z) (h2 : Rep2 cn (Valid cn P) y w) :
    Complete cn P (e6MulBy01 P X x y) (fun r => Rep6 cn (Valid cn P) r (Z.mul ⟨z, w, 0⟩)) :=
  complete_of (e6MulBy01_T (honestLogic ht h8) hx h1 h2)

/-- e6.rs `mul_by_non_residue`: by `v`. -/
theorem C53_e6_mulNonResidue_partial (hg : Good cn P) (h8 : P.bits ≤ 8)  (hx : Rep6 cn (InRange cn P) X Z) :
    Right cn P (e6MulNonResidue P X) (fun r => Rep6 cn (InRange cn P) r (Z.mul ⟨0, 1, 0⟩)) :=
  right_of (e6MulNonResidue_T (soundLogic hg h8) hx)

theorem C53_e6_mulNonResidue_complete (ht : Tight cn P) (h8 : P.bits ≤ 8)  (hx : Rep6 cn (Valid cn P) X Z) :
    Complete cn P (e6MulNonResidue P X) (fun r => Rep6 cn (Valid cn P) r (Z.mul ⟨0, 1, 0⟩)) :=
  complete_of (e6MulNonResidue_T (honestLogic ht h8) hx)

/-- e6.rs `div`. -/
theorem C53_e6_div_partial (hg : Good cn P) (h8 : P.bits ≤ 8)  (hx : Rep6 cn (InRange cn P) X Z) (hy : Rep6 cn (InRange cn P) Y W) :
    Right cn P (e6Div P X Y) (fun r => ∃ d, Rep6 cn (InRange cn P) r d ∧ d.mul W = Z) :=
  right_of (e6Div_T (q := ⟨0, 0, 0⟩) (soundLogic hg h8) hx hy (fun h => h.elim))

theorem C53_e6_div_complete (ht : Tight cn P) (h8 : P.bits ≤ 8) {q : K6 P} (hq : q.mul W = Z) (hx : Rep6 cn (Valid cn P) X Z) (hy : Rep6 cn (Valid cn P) Y W) :
    Complete cn P (e6Div P X Y) (fun r => ∃ d, Rep6 cn (Valid cn P) r d ∧ d.mul W = Z) :=
  complete_of (e6Div_T (honestLogic ht h8) hx hy (fun _ => hq))

/-- e6.rs `inverse`. -/
theorem C53_e6_inverse_partial (hg : Good cn P) (h8 : P.bits ≤ 8)  (hx : Rep6 cn (InRange cn P) X Z) :
    Right cn P (e6Inverse P X) (fun r => ∃ d, Rep6 cn (InRange cn P) r d ∧ d.mul Z = ⟨1, 0, 0⟩) :=
  right_of (e6Inverse_T (q := ⟨0, 0, 0⟩) (soundLogic hg h8) hg hx (fun h => h.elim))

theorem C53_e6_inverse_complete (ht : Tight cn P) (h8 : P.bits ≤ 8) {q : K6 P} (hq : q.mul Z = ⟨1, 0, 0⟩) (hx : Rep6 cn (Valid cn P) X Z) :
    Complete cn P (e6Inverse P X) (fun r => ∃ d, Rep6 cn (Valid cn P) r d ∧ d.mul Z = ⟨1, 0, 0⟩) :=
  complete_of (e6Inverse_T (honestLogic ht h8) ht.good hx (fun _ => hq))

/-- e6.rs `assert_isequal`. -/
theorem C53_e6_equal_partial (hg : Good cn P) (h8 : P.bits ≤ 8)  (hx : Rep6 cn (InRange cn P) X Z) (hy : Rep6 cn (InRange cn P) Y W) :
    Right cn P (e6Equal P X Y) (fun _ => Z = W) :=
  right_of (e6Equal_T (soundLogic hg h8) hx hy (fun h => h.elim))

theorem C53_e6_equal_complete (ht : Tight cn P) (h8 : P.bits ≤ 8) (hq : Z = W) (hx : Rep6 cn (Valid cn P) X Z) (hy : Rep6 cn (Valid cn P) Y W) :
    Complete cn P (e6Equal P X Y) (fun _ => Z = W) :=
  complete_of (e6Equal_T (honestLogic ht h8) hx hy (fun _ => hq))

/-- e12.rs `add`. -/
theorem C53_e12_add_partial (hg : Good cn P) (h8 : P.bits ≤ 8)  (hx : Rep12 cn (InRange cn P) A U) (hy : Rep12 cn (InRange cn P) B V) :
    Right cn P (e12Add P A B) (fun r => Rep12 cn (InRange cn P) r (U.add V)) :=
  right_of (e12Add_T (soundLogic hg h8) hx hy)

theorem C53_e12_add_complete (ht : Tight cn P) (h8 : P.bits ≤ 8)  (hx : Rep12 cn (Valid cn P) A U) (hy : Rep12 cn (Valid cn P) B V) :
    Complete cn P (e12Add P A B) (fun r => Rep12 cn (Valid cn P) r (U.add V)) :=
  complete_of (e12Add_T (honestLogic ht h8) hx hy)

/-- e12.rs `sub`. -/
theorem C53_e12_sub_partial (hg : Good cn P) (h8 : P.bits ≤ 8)  (hx : Rep12 cn (InRange cn P) A U) (hy : Rep12 cn (InRange cn P) B V) :
    Right cn P (e12Sub P A B) (fun r => Rep12 cn (InRange cn P) r (U.sub V)) :=
  right_of (e12Sub_T (soundLogic hg h8) hx hy)

theorem C53_e12_sub_complete (ht : Tight cn P) (h8 : P.bits ≤ 8)  (hx : Rep12 cn (Valid cn P) A U) (hy : Rep12 cn (Valid cn P) B V) :
    Complete cn P (e12Sub P A B) (fun r => Rep12 cn (Valid cn P) r (U.sub V)) :=
  complete_of (e12Sub_T (honestLogic ht h8) hx hy)

/-- e12.rs `conjugate`. -/
theorem C53_e12_conj_partial (hg : Good cn P) (h8 : P.bits ≤ 8)  (hx : Rep12 cn (InRange cn P) A U) :
    Right cn P (e12Conj P A) (fun r => Rep12 cn (InRange cn P) r ⟨U.c0, U.c1.neg⟩) :=
  right_of (e12Conj_T (soundLogic hg h8) hx)

theorem C53_e12_conj_complete (ht : Tight cn P) (h8 : P.bits ≤ 8)  (hx : Rep12 cn (Valid cn P) A U) :
    Complete cn P (e12Conj P A) (fun r => Rep12 cn (Valid cn P) r ⟨U.c0, U.c1.neg⟩) :=
  complete_of (e12Conj_T (honestLogic ht h8) hx)

/-- e12.rs `mul`. -/
theorem C53_e12_mul_partial (hg : Good cn P) (h8 : P.bits ≤ 8)  (hx : Rep12 cn (InRange cn P) A U) (hy : Rep12 cn (InRange cn P) B V) :
    Right cn P (e12Mul P A B) (fun r => Rep12 cn (InRange cn P) r (U * V)) :=
  right_of (e12Mul_T (soundLogic hg h8) hx hy)

theorem C53_e12_mul_complete (ht : Tight cn P) (h8 : P.bits ≤ 8)  (hx : Rep12 cn (Valid cn P) A U) (hy : Rep12 cn (Valid cn P) B V) :
    Complete cn P (e12Mul P A B) (fun r => Rep12 cn (Valid cn P) r (U * V)) :=
  complete_of (e12Mul_T (honestLogic ht h8) hx hy)

/-- e12.rs `square`. -/
theorem C53_e12_square_partial (hg : Good cn P) (h8 : P.bits ≤ 8)  (hx : Rep12 cn (InRange cn P) A U) :
    Right cn P (e12Square P A) (fun r => Rep12 cn (InRange cn P) r (U * U)) :=
  right_of (e12Square_T (soundLogic hg h8) hx)

theorem C53_e12_square_complete (ht : Tight cn P) (h8 : P.bits ≤ 8)  (hx : Rep12 cn (Valid cn P) A U) :
    Complete cn P (e12Square P A) (fun r => Rep12 cn (Valid cn P) r (U * U)) :=
  complete_of (e12Square_T (honestLogic ht h8) hx)

/-- e12.rs `mul_by_014`. -/
theorem C53_e12_mulBy014_partial (hg : Good cn P) (h8 : P.bits ≤ 8)  (hx : Rep12 cn (InRange cn P) A U) (h1 : Rep2 cn (InRange cn P) x z) (h2 : Rep2 cn (InRange cn P) y w) :
    Right cn P (e12MulBy014 P A x y) (fun r => Rep12 cn (InRange cn P) r (U * ⟨⟨z, w, 0⟩, ⟨0, 1, 0⟩⟩)) :=
  right_of (e12MulBy014_T (soundLogic hg h8) hg hx h1 h2)

theorem C53_e12_mulBy014_complete (ht : Tight cn P) (h8 : P.bits ≤ 8)  (hx : Rep12 cn (Valid cn P) A U) (h1 : Rep2 cn (Valid cn P) x z) (h2 : Rep2 cn (Valid cn P) y w) :
    Complete cn P (e12MulBy014 P A x y) (fun r => Rep12 cn (Valid cn P) r (U * ⟨⟨z, w, 0⟩, ⟨0, 1, 0⟩⟩)) :=
  complete_of (e12MulBy014_T (honestLogic ht h8) ht.good hx h1 h2)

/-- e12.rs `mul_014_by_014`: the product has five coordinates. -/
theorem C53_e12_mul014_partial (hg : Good cn P) (h8 : P.bits ≤ 8) {x' y' : E2 F} {z' w' : K2 P} (h1 : Rep2 cn (InRange cn P) x z) (h2 : Rep2 cn (InRange cn P) y w) (h3 : Rep2 cn (InRange cn P) x' z') (h4 : Rep2 cn (InRange cn P) y' w') :
    Right cn P (e12Mul014 P x y x' y') (fun r => ∃ z0 z1 z2 z3 z4 : K2 P, Rep2 cn (InRange cn P) r.1 z0 ∧ Rep2 cn (InRange cn P) r.2.1 z1 ∧ Rep2 cn (InRange cn P) r.2.2.1 z2 ∧ Rep2 cn (InRange cn P) r.2.2.2.1 z3 ∧ Rep2 cn (InRange cn P) r.2.2.2.2 z4 ∧
      (⟨⟨z, w, 0⟩, ⟨0, 1, 0⟩⟩ * ⟨⟨z', w', 0⟩, ⟨0, 1, 0⟩⟩ : K12 P) = ⟨⟨z0, z1, z2⟩, ⟨0, z3, z4⟩⟩) :=
  right_of (e12Mul014_T (soundLogic hg h8) hg h1 h2 h3 h4)

theorem C53_e12_mul014_complete (ht : Tight cn P) (h8 : P.bits ≤ 8) {x' y' : E2 F} {z' w' : K2 P} (h1 : Rep2 cn (Valid cn P) x z) (h2 : Rep2 cn (Valid cn P) y w) (h3 : Rep2 cn (Valid cn P) x' z') (h4 : Rep2 cn (Valid cn P) y' w') :
    Complete cn P (e12Mul014 P x y x' y') (fun r => ∃ z0 z1 z2 z3 z4 : K2 P, Rep2 cn (Valid cn P) r.1 z0 ∧ Rep2 cn (Valid cn P) r.2.1 z1 ∧ Rep2 cn (Valid cn P) r.2.2.1 z2 ∧ Rep2 cn (Valid cn P) r.2.2.2.1 z3 ∧ Rep2 cn (Valid cn P) r.2.2.2.2 z4 ∧
      (⟨⟨z, w, 0⟩, ⟨0, 1, 0⟩⟩ * ⟨⟨z', w', 0⟩, ⟨0, 1, 0⟩⟩ : K12 P) = ⟨⟨z0, z1, z2⟩, ⟨0, z3, z4⟩⟩) :=
  complete_of (e12Mul014_T (honestLogic ht h8) ht.good h1 h2 h3 h4)

/-- e12.rs `copy`. -/
theorem C53_e12_copy_partial (hg : Good cn P) (h8 : P.bits ≤ 8)  (hx : Rep12 cn (InRange cn P) A U) :
    Right cn P (e12Copy P A) (fun r => Rep12 cn (InRange cn P) r U) :=
  right_of (e12Copy_T (soundLogic hg h8) hx)

theorem C53_e12_copy_complete (ht : Tight cn P) (h8 : P.bits ≤ 8)  (hx : Rep12 cn (Valid cn P) A U) :
    Complete cn P (e12Copy P A) (fun r => Rep12 cn (Valid cn P) r U) :=
  complete_of (e12Copy_T (honestLogic ht h8) hx)

/-- e12.rs `div`. -/
theorem C53_e12_div_partial (hg : Good cn P) (h8 : P.bits ≤ 8)  (hx : Rep12 cn (InRange cn P) A U) (hy : Rep12 cn (InRange cn P) B V) :
    Right cn P (e12Div P A B) (fun r => ∃ d, Rep12 cn (InRange cn P) r d ∧ d * V = U) :=
  right_of (e12Div_T (q := ⟨⟨0, 0, 0⟩, ⟨0, 0, 0⟩⟩) (soundLogic hg h8) hx hy (fun h => h.elim))

theorem C53_e12_div_complete (ht : Tight cn P) (h8 : P.bits ≤ 8) {q : K12 P} (hq : q * V = U) (hx : Rep12 cn (Valid cn P) A U) (hy : Rep12 cn (Valid cn P) B V) :
    Complete cn P (e12Div P A B) (fun r => ∃ d, Rep12 cn (Valid cn P) r d ∧ d * V = U) :=
  complete_of (e12Div_T (honestLogic ht h8) hx hy (fun _ => hq))

/-- e12.rs `inverse`. -/
theorem C53_e12_inverse_partial (hg : Good cn P) (h8 : P.bits ≤ 8)  (hx : Rep12 cn (InRange cn P) A U) :
    Right cn P (e12Inverse P A) (fun r => ∃ d, Rep12 cn (InRange cn P) r d ∧ d * U = 1) :=
  right_of (e12Inverse_T (q := ⟨⟨0, 0, 0⟩, ⟨0, 0, 0⟩⟩) (soundLogic hg h8) hg hx (fun h => h.elim))

theorem C53_e12_inverse_complete (ht : Tight cn P) (h8 : P.bits ≤ 8) {q : K12 P} (hq : q * U = 1) (hx : Rep12 cn (Valid cn P) A U) :
    Complete cn P (e12Inverse P A) (fun r => ∃ d, Rep12 cn (Valid cn P) r d ∧ d * U = 1) :=
  complete_of (e12Inverse_T (honestLogic ht h8) ht.good hx (fun _ => hq))

/-- e12.rs `assert_isequal`. -/
theorem C53_e12_equal_partial (hg : Good cn P) (h8 : P.bits ≤ 8)  (hx : Rep12 cn (InRange cn P) A U) (hy : Rep12 cn (InRange cn P) B V) :
    Right cn P (e12Equal P A B) (fun _ => U = V) :=
  right_of (e12Equal_T (soundLogic hg h8) hx hy (fun h => h.elim))

theorem C53_e12_equal_complete (ht : Tight cn P) (h8 : P.bits ≤ 8) (hq : U = V) (hx : Rep12 cn (Valid cn P) A U) (hy : Rep12 cn (Valid cn P) B V) :
    Complete cn P (e12Equal P A B) (fun _ => U = V) :=
  complete_of (e12Equal_T (honestLogic ht h8) hx hy (fun _ => hq))

/-- e12.rs `frobenius`: `u` is replaced by `-u`, `w` by `gam 1 * w` (`C53_frobenius`). -/
theorem C53_e12_frob_partial (hg : Good cn P) (h8 : P.bits ≤ 8)  (hx : Rep12 cn (InRange cn P) A U) :
    Right cn P (e12Frob P A) (fun r => Rep12 cn (InRange cn P) r U.frob) :=
  right_of (e12Frob_T (soundLogic hg h8) hg hx)

theorem C53_e12_frob_complete (ht : Tight cn P) (h8 : P.bits ≤ 8)  (hx : Rep12 cn (Valid cn P) A U) :
    Complete cn P (e12Frob P A) (fun r => Rep12 cn (Valid cn P) r U.frob) :=
  complete_of (e12Frob_T (honestLogic ht h8) ht.good hx)

/-- e12.rs `frobenius_square`: `w` is replaced by `gam2 1 * w` (`C53_frobenius`). -/
theorem C53_e12_frob2_partial (hg : Good cn P) (h8 : P.bits ≤ 8)  (hx : Rep12 cn (InRange cn P) A U) :
    Right cn P (e12Frob2 P A) (fun r => Rep12 cn (InRange cn P) r U.frob2) :=
  right_of (e12Frob2_T (soundLogic hg h8) hg hx)

theorem C53_e12_frob2_complete (ht : Tight cn P) (h8 : P.bits ≤ 8)  (hx : Rep12 cn (Valid cn P) A U) :
    Complete cn P (e12Frob2 P A) (fun r => Rep12 cn (Valid cn P) r U.frob2) :=
  complete_of (e12Frob2_T (honestLogic ht h8) ht.good hx)

/-! ## The field of BLS12-381 -/

/-- `frobenius` is an automorphism, and `frobenius_square` its square; its constants are the powers of the first, and `(1 + u)` is mapped to the sixth of them times `(1 + u)`, as `w^6 = 1 + u`
wants; `frobenius_square` is multiplicative, and multiplies by powers of a primitive sixth root of unity. -/
theorem C53_frobenius (U V : K12 bls12381Fp) : (U * V).frob = U.frob * V.frob ∧ (U.add V).frob = U.frob.add V.frob ∧
    (1 : K12 bls12381Fp).frob = 1 ∧ (U * V).frob2 = U.frob2 * V.frob2 ∧ U.frob.frob = U.frob2 ∧
    (∀ k ≤ 5, gam bls12381Fp k = gam bls12381Fp 1 ^ k) ∧ (⟨1, -1⟩ : K2 bls12381Fp) = gam bls12381Fp 1 ^ 6 * ⟨1, 1⟩ ∧
    (gam2 1 : K2 bls12381Fp) ^ 2 - (gam2 1 : K2 bls12381Fp) + 1 = 0 := by
  refine ⟨frob_mul U V, frob_add U V, frob_one, frob2_mul U V, frob_frob U, fun k hk => ?_, cj_xi, by rw [gam2_rel.2.2.2.2]; ring⟩
  match k, hk with
  | 0, _ => exact (pow_zero _).symm
  | 1, _ => exact (pow_one _).symm
  | 2, _ => exact gam_two
  | 3, _ => exact gam_three
  | 4, _ => exact gam_four
  | 5, _ => exact gam_five
  | k + 6, h => omega

/-- e12.rs `cyclotomic_square`: the square, of cyclotomic elements (those with `frob2 (frob2 U) * U = frob2 U`). -/
theorem C53_cyclotomicSquare_partial {cn : Canon F} (hg : Good cn bls12381Fp) {A : E12 F} {U : K12 bls12381Fp} (hx : Rep12 cn (InRange cn bls12381Fp) A U)
    (hc : U.frob2.frob2 * U = U.frob2) : Right cn bls12381Fp (e12CycSquare bls12381Fp A) (fun r => Rep12 cn (InRange cn bls12381Fp) r (U * U)) := by
  have h := e12CycSquare_T (soundLogic hg (by decide)) hx
  rw [cyc_sq U hc] at h
  exact h

theorem C53_cyclotomicSquare_complete {cn : Canon F} (ht : Tight cn bls12381Fp) {A : E12 F} {U : K12 bls12381Fp} (hx : Rep12 cn (Valid cn bls12381Fp) A U)
    (hc : U.frob2.frob2 * U = U.frob2) : Complete cn bls12381Fp (e12CycSquare bls12381Fp A) (fun r => Rep12 cn (Valid cn bls12381Fp) r (U * U)) := by
  have h := e12CycSquare_T (honestLogic ht (by decide)) hx
  rw [cyc_sq U hc] at h
  exact complete_of h

/-- e12.rs `expt`: the power by `0xd201000000010000`, of cyclotomic elements. -/
theorem C53_expt_partial {cn : Canon F} (hg : Good cn bls12381Fp) {A : E12 F} {U : K12 bls12381Fp} (hx : Rep12 cn (InRange cn bls12381Fp) A U)
    (hc : U.frob2.frob2 * U = U.frob2) : Right cn bls12381Fp (e12Expt bls12381Fp A) (fun r => Rep12 cn (InRange cn bls12381Fp) r (U ^ 0xd201000000010000)) := by
  have h := e12Expt_T (soundLogic hg (by decide)) hx
  rw [expt_eq hc] at h
  exact h

theorem C53_expt_complete {cn : Canon F} (ht : Tight cn bls12381Fp) {A : E12 F} {U : K12 bls12381Fp} (hx : Rep12 cn (Valid cn bls12381Fp) A U)
    (hc : U.frob2.frob2 * U = U.frob2) : Complete cn bls12381Fp (e12Expt bls12381Fp A) (fun r => Rep12 cn (Valid cn bls12381Fp) r (U ^ 0xd201000000010000)) := by
  have h := e12Expt_T (honestLogic ht (by decide)) hx
  rw [expt_eq hc] at h
  exact complete_of h

/-- The easy part of the final exponentiation (pairing.rs `pairing_check`): from a unit it makes a cyclotomic element, `frob2 t * t` with `t = conj U / U`. -/
theorem C53_easyPart_partial {cn : Canon F} (hg : Good cn bls12381Fp) {A : E12 F} {U : K12 bls12381Fp} (hx : Rep12 cn (InRange cn bls12381Fp) A U) (hu : IsUnit U) :
    Right cn bls12381Fp (pairingEasy bls12381Fp A) (fun r => ∃ t : K12 bls12381Fp, t * U = ⟨U.c0, U.c1.neg⟩ ∧ Rep12 cn (InRange cn bls12381Fp) r (t.frob2 * t) ∧
      (t.frob2 * t).frob2.frob2 * (t.frob2 * t) = (t.frob2 * t).frob2) := fun r l h hl => by
  obtain ⟨t, h1, h2⟩ := pairingEasy_T (soundLogic hg (by decide)) hg (q := 1) hx (fun h => h.elim) r l h hl
  exact ⟨t, h2, h1, easy_cyclotomic hu h2⟩

theorem C53_easyPart_complete {cn : Canon F} (ht : Tight cn bls12381Fp) {A : E12 F} {U : K12 bls12381Fp} (hx : Rep12 cn (Valid cn bls12381Fp) A U) (hu : IsUnit U) :
    Complete cn bls12381Fp (pairingEasy bls12381Fp A) (fun r => ∃ t : K12 bls12381Fp, t * U = ⟨U.c0, U.c1.neg⟩ ∧ Rep12 cn (Valid cn bls12381Fp) r (t.frob2 * t) ∧
      (t.frob2 * t).frob2.frob2 * (t.frob2 * t) = (t.frob2 * t).frob2) := by
  obtain ⟨V, hV⟩ := hu.exists_left_inv
  have h := pairingEasy_T (honestLogic ht (by decide)) ht.good (q := U.conj * V) hx (fun _ => by rw [mul_assoc, hV, mul_one])
  exact complete_of ((honestLogic ht (by decide)).mono h fun r ⟨t, h1, h2⟩ => ⟨t, h2, h1, easy_cyclotomic hu h2⟩)

/-- **The assertion that the final exponentiation is one holds of every element**: the residue witness and the scaling factor may be zero. -/
theorem C53_finalExp_any (ht : Tight cn P) (h8 : P.bits ≤ 8) (hx : Rep12 cn (Valid cn P) A U) :
    ∃ l, e12FinalExp P A () l ∧ (∀ mc ∈ l, mc.Holds cn P) ∧ ∀ ch, checkMul P l ch := by
  obtain ⟨_, l, h1, -, h2⟩ := complete_of (e12FinalExp_T (honestLogic ht h8) ht.good (r := K12.zero P) (s := ⟨0, 0, 0⟩) hx fun _ => finalExp_zero)
  exact ⟨l, h1, h2⟩

/-- Hence `pairing_check` accepts every unit that its Miller loop may give. -/
theorem C53_pairingTail_any (ht : Tight cn P) (h8 : P.bits ≤ 8) (hx : Rep12 cn (Valid cn P) A U) (hu : IsUnit U) :
    ∃ l, pairingTail P A () l ∧ (∀ mc ∈ l, mc.Holds cn P) ∧ ∀ ch, checkMul P l ch := by
  obtain ⟨V, hV⟩ := hu.exists_left_inv
  obtain ⟨_, l, h1, -, h2⟩ := complete_of (pairingTail_T (honestLogic ht h8) ht.good (q := U.conj * V) hx fun _ => by rw [mul_assoc, hV, mul_one])
  exact ⟨l, h1, h2⟩

/-- The element zero. -/
def zero12 (P : Params) : E12 F := ⟨⟨e2Zero P, e2Zero P, e2Zero P⟩, ⟨e2Zero P, e2Zero P, e2Zero P⟩⟩

/-- `assert_final_exponentiation_is_one` is not sound: it accepts an element no power of which is one. -/
theorem C53_finalExp_violated : ∃ (A : E12 M31) (U : K12 bls12381Fp) (l : List (MulCheck M31)), Rep12 m31cn (Valid m31cn bls12381Fp) A U ∧
    (∀ n, n ≠ 0 → U ^ n ≠ 1) ∧ e12FinalExp bls12381Fp A () l ∧ (∀ mc ∈ l, mc.Holds m31cn bls12381Fp) ∧ ∀ ch, checkMul bls12381Fp l ch := by
  have hz := R6_zero (honestLogic tight_fp (by decide)) tight_fp.good
  have hx : Rep12 m31cn (Valid m31cn bls12381Fp) (zero12 bls12381Fp) (K12.zero bls12381Fp) := ⟨hz, hz⟩
  obtain ⟨l, hl⟩ := C53_finalExp_any tight_fp (by decide) hx
  refine ⟨_, _, l, hx, fun n hn h => ?_, hl⟩
  obtain ⟨n, rfl⟩ := Nat.exists_eq_succ_of_ne_zero hn
  rw [Nat.succ_eq_add_one, pow_succ, show K12.zero bls12381Fp ^ n * K12.zero bls12381Fp = K12.zero bls12381Fp from mul_zero12 _] at h
  have h0 := congrArg (fun k => k.c0.b0.re.val) h
  exact absurd h0 (by decide +kernel)

/-! ## Non-vacuity -/

/-- `a + b u`, below the modulus. -/
theorem fp2_rep {a b : Nat} (ha : a < bls12381Fp.modulus) (hb : b < bls12381Fp.modulus) :
    Rep2 m31cn (Valid m31cn bls12381Fp) (⟨fpEl a, fpEl b⟩ : E2 M31) (⟨(a : ZMod bls12381Fp.modulus), (b : ZMod bls12381Fp.modulus)⟩ : K2 bls12381Fp) := by
  have l : ∀ {x : Nat}, x < bls12381Fp.modulus → x < 2 ^ 384 := fun h => Nat.lt_trans h (by decide +kernel)
  exact ⟨fpEl_valid a ha, fpEl_valid b hb, by rw [(fpEl_ok a (l ha)).1], by rw [(fpEl_ok b (l hb)).1]⟩

/-- An element with nonzero coordinates. -/
def el12 : E12 M31 := ⟨⟨⟨fpEl 1, fpEl 2⟩, ⟨fpEl 3, fpEl 4⟩, ⟨fpEl 5, fpEl 6⟩⟩, ⟨⟨fpEl 7, fpEl 8⟩, ⟨fpEl 9, fpEl 10⟩, ⟨fpEl 11, fpEl 12⟩⟩⟩

theorem el12_rep : ∃ U : K12 bls12381Fp, Rep12 m31cn (Valid m31cn bls12381Fp) el12 U ∧ U.c0.b0 = ⟨((1 : Nat) : ZMod bls12381Fp.modulus), ((2 : Nat) : ZMod bls12381Fp.modulus)⟩ :=
  ⟨⟨⟨_, _, _⟩, ⟨_, _, _⟩⟩, ⟨⟨fp2_rep (by decide +kernel) (by decide +kernel), fp2_rep (by decide +kernel) (by decide +kernel), fp2_rep (by decide +kernel) (by decide +kernel)⟩,
    ⟨fp2_rep (by decide +kernel) (by decide +kernel), fp2_rep (by decide +kernel) (by decide +kernel), fp2_rep (by decide +kernel) (by decide +kernel)⟩⟩, rfl⟩

/-- The theorems apply to products of products, and a valid operand is in range. -/
example : ∃ U : K12 bls12381Fp, Rep12 m31cn (Valid m31cn bls12381Fp) el12 U ∧
    Complete m31cn bls12381Fp (e12Mul bls12381Fp el12 el12 >>= fun r => e12Mul bls12381Fp r el12) (fun r => Rep12 m31cn (Valid m31cn bls12381Fp) r (U * U * U)) := by
  obtain ⟨U, hU, -⟩ := el12_rep
  exact ⟨U, hU, complete_of ((honestLogic tight_fp (by decide)).bind (e12Mul_T _ hU hU) fun r hr => e12Mul_T _ hr hU)⟩

example : ∃ U : K12 bls12381Fp, Rep12 m31cn (InRange m31cn bls12381Fp) el12 U := by
  obtain ⟨U, hU, -⟩ := el12_rep
  have k : ∀ {e : El M31}, Valid m31cn bls12381Fp e → InRange m31cn bls12381Fp e := fun h => ⟨h.1, h.2.1⟩
  have k2 : ∀ {e : E2 M31} {z : K2 bls12381Fp}, Rep2 m31cn (Valid m31cn bls12381Fp) e z → Rep2 m31cn (InRange m31cn bls12381Fp) e z := fun h => ⟨k h.1, k h.2.1, h.2.2⟩
  exact ⟨U, ⟨k2 hU.1.1, k2 hU.1.2.1, k2 hU.1.2.2⟩, ⟨k2 hU.2.1, k2 hU.2.2.1, k2 hU.2.2.2⟩⟩

/-- A quotient exists: `(3 + 4 u) / u = 4 - 3 u`. -/
example : (⟨4, -3⟩ : K2 bls12381Fp) * ⟨0, 1⟩ = ⟨3, 4⟩ := by ext <;> simp

/-- A cyclotomic element that is not one. -/
example : ∃ U : K12 bls12381Fp, U.frob2.frob2 * U = U.frob2 ∧ U ≠ 1 := cyclotomic_example

/-- A unit that is not in the base field. -/
example : IsUnit (⟨⟨1, 0, 0⟩, ⟨1, 0, 0⟩⟩ : K12 bls12381Fp) := IsUnit.of_mul_eq_one _ unit_one_w

end Verif.Props
