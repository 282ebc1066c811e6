import Verif.Std.TowerSel
import Verif.Props.C53
/-!
C53, continued: `select` at every level of the tower of BLS12-381, and `div_e6_by_6`.
-/
set_option linter.unusedSectionVars false
namespace Verif.Props
open Verif.Std.Emu

variable {F : Type} [Field F] [DecidableEq F] {cn : Canon F} {P : Params}
variable {x y : E2 F} {z w : K2 P} {X Y : E6 F} {Z W : K6 P} {A B : E12 F} {U V : K12 P}

/-- e2.rs `select`: the first operand if the selector is one, the second if it is zero. -/
theorem C53_e2_select_partial (hg : Good cn P) (h8 : P.bits ≤ 8) (s : Bool) (hx : Rep2 cn (InRange cn P) x z) (hy : Rep2 cn (InRange cn P) y w) :
    Right cn P (e2Select P (if s then 1 else 0) x y) (fun r => Rep2 cn (InRange cn P) r (if s then z else w)) :=
  right_of (e2Select_T (soundLogic hg h8) (sound_sel hg h8) s hx hy)

theorem C53_e2_select_complete (ht : Tight cn P) (h8 : P.bits ≤ 8) (s : Bool) (hx : Rep2 cn (Valid cn P) x z) (hy : Rep2 cn (Valid cn P) y w) :
    Complete cn P (e2Select P (if s then 1 else 0) x y) (fun r => Rep2 cn (Valid cn P) r (if s then z else w)) :=
  complete_of (e2Select_T (honestLogic ht h8) (honest_sel ht h8) s hx hy)

/-- e6.rs `select`. -/
theorem C53_e6_select_partial (hg : Good cn P) (h8 : P.bits ≤ 8) (s : Bool) (hx : Rep6 cn (InRange cn P) X Z) (hy : Rep6 cn (InRange cn P) Y W) :
    Right cn P (e6Select P (if s then 1 else 0) X Y) (fun r => Rep6 cn (InRange cn P) r (if s then Z else W)) :=
  right_of (e6Select_T (soundLogic hg h8) (sound_sel hg h8) s hx hy)

theorem C53_e6_select_complete (ht : Tight cn P) (h8 : P.bits ≤ 8) (s : Bool) (hx : Rep6 cn (Valid cn P) X Z) (hy : Rep6 cn (Valid cn P) Y W) :
    Complete cn P (e6Select P (if s then 1 else 0) X Y) (fun r => Rep6 cn (Valid cn P) r (if s then Z else W)) :=
  complete_of (e6Select_T (honestLogic ht h8) (honest_sel ht h8) s hx hy)

/-- e12.rs `select`. -/
theorem C53_e12_select_partial (hg : Good cn P) (h8 : P.bits ≤ 8) (s : Bool) (hx : Rep12 cn (InRange cn P) A U) (hy : Rep12 cn (InRange cn P) B V) :
    Right cn P (e12Select P (if s then 1 else 0) A B) (fun r => Rep12 cn (InRange cn P) r (if s then U else V)) :=
  right_of (e12Select_T (soundLogic hg h8) (sound_sel hg h8) s hx hy)

theorem C53_e12_select_complete (ht : Tight cn P) (h8 : P.bits ≤ 8) (s : Bool) (hx : Rep12 cn (Valid cn P) A U) (hy : Rep12 cn (Valid cn P) B V) :
    Complete cn P (e12Select P (if s then 1 else 0) A B) (fun r => Rep12 cn (Valid cn P) r (if s then U else V)) :=
  complete_of (e12Select_T (honestLogic ht h8) (honest_sel ht h8) s hx hy)

/-- e6.rs `div_e6_by_6`: six times the result is the operand. -/
theorem C53_e6_divBy6_partial (hg : Good cn P) (h8 : P.bits ≤ 8) (hx : Rep6 cn (InRange cn P) X Z) :
    Right cn P (e6DivBy6 P X) (fun r => ∃ d : K6 P, Rep6 cn (InRange cn P) r d ∧
      d.b0 * ((6 : ℕ) : K2 P) = Z.b0 ∧ d.b1 * ((6 : ℕ) : K2 P) = Z.b1 ∧ d.b2 * ((6 : ℕ) : K2 P) = Z.b2) :=
  right_of (e6DivBy6_T (q := Z) (soundLogic hg h8) hx fun h => h.elim)

/-- A quotient exists whenever the modulus is prime to six. -/
theorem C53_e6_divBy6_complete (ht : Tight cn P) (h8 : P.bits ≤ 8) (h6 : Nat.Coprime 6 P.modulus) (hx : Rep6 cn (Valid cn P) X Z) :
    Complete cn P (e6DivBy6 P X) (fun r => ∃ d : K6 P, Rep6 cn (Valid cn P) r d ∧
      d.b0 * ((6 : ℕ) : K2 P) = Z.b0 ∧ d.b1 * ((6 : ℕ) : K2 P) = Z.b1 ∧ d.b2 * ((6 : ℕ) : K2 P) = Z.b2) := by
  obtain ⟨i, hi⟩ : ∃ i : ZMod P.modulus, i * ((6 : ℕ) : ZMod P.modulus) = 1 := by
    have := (ZMod.unitOfCoprime 6 h6).inv_mul
    exact ⟨_, by simpa only [ZMod.coe_unitOfCoprime] using this⟩
  have k : ∀ t : K2 P, (⟨t.re * i, t.im * i⟩ : K2 P) * ((6 : ℕ) : K2 P) = t := fun t => by
    ext
    · simp only [QuadraticAlgebra.re_mul, QuadraticAlgebra.re_natCast, QuadraticAlgebra.im_natCast, mul_assoc, hi]; ring
    · simp only [QuadraticAlgebra.im_mul, QuadraticAlgebra.re_natCast, QuadraticAlgebra.im_natCast, mul_assoc, hi]; ring
  exact complete_of (e6DivBy6_T (q := ⟨_, _, _⟩) (honestLogic ht h8) hx fun _ => ⟨k _, k _, k _⟩)

/-- The modulus of BLS12-381 is prime to six. -/
example : Nat.Coprime 6 bls12381Fp.modulus := by decide +kernel

/-- Selecting between an element and its square. -/
example : ∃ U : K12 bls12381Fp, Rep12 m31cn (Valid m31cn bls12381Fp) el12 U ∧
    Complete m31cn bls12381Fp (e12Mul bls12381Fp el12 el12 >>= fun r => e12Select bls12381Fp 1 r el12) (fun r => Rep12 m31cn (Valid m31cn bls12381Fp) r (U * U)) := by
  obtain ⟨U, hU, -⟩ := el12_rep
  exact ⟨U, hU, complete_of ((honestLogic tight_fp (by decide)).bind (e12Mul_T _ hU hU) fun r hr => e12Select_T _ (honest_sel tight_fp (by decide)) true hr hU)⟩

end Verif.Props
