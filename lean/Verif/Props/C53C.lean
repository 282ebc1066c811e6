import Verif.Props.C53B
/-!
C53, continued: `is_zero` at every level of the tower of BLS12-381.
-/
set_option linter.unusedSectionVars false
namespace Verif.Props
open Verif.Std.Emu

variable {F : Type} [Field F] [DecidableEq F] {cn : Canon F} {P : Params}
variable {x : E2 F} {z : K2 P} {X : E6 F} {Z : K6 P} {A : E12 F} {U : K12 P}

/-- e2.rs:140-144 (`is_zero`; `and` of the API is the product). -/
def e2IsZero (P : Params) (z : E2 F) : Gad F F := do
  let a0 ← isZero P z.a0
  let a1 ← isZero P z.a1
  pure (a0 * a1)

/-- e6.rs:35-41 (`is_zero`). -/
def e6IsZero (P : Params) (z : E6 F) : Gad F F := do
  let b0 ← e2IsZero P z.b0
  let b1 ← e2IsZero P z.b1
  let b2 ← e2IsZero P z.b2
  pure (b0 * b1 * b2)

/-- e12.rs:88-92 (`is_zero`). -/
def e12IsZero (P : Params) (z : E12 F) : Gad F F := do
  let c0 ← e6IsZero P z.c0
  let c1 ← e6IsZero P z.c1
  pure (c0 * c1)

/-- `o` is a bit, and one only if `p`. -/
def Says (o : F) (p : Prop) : Prop := (o = 0 ∨ o = 1) ∧ (o = 1 → p)

theorem says_and {a b : F} {p q : Prop} (ha : Says a p) (hb : Says b q) : Says (a * b) (p ∧ q) := by
  obtain ⟨rfl | rfl, h1⟩ := ha
  · exact ⟨.inl (zero_mul _), fun h => by rw [zero_mul] at h; exact absurd h zero_ne_one⟩
  · rw [one_mul]; exact ⟨hb.1, fun h => ⟨h1 rfl, hb.2 h⟩⟩

theorem says_mono {a : F} {p q : Prop} (ha : Says a p) (h : p → q) : Says a q := ⟨ha.1, fun k => h (ha.2 k)⟩

theorem isZero_says (hg : Good cn P) (h8 : P.bits ≤ 8) {a : El F} (ha : Ok cn P a) :
    Spec cn P (isZero P a) (fun o => Says o ((value cn P a.limbs : ZMod P.modulus) = 0)) := fun o l h hl => by
  obtain ⟨h0, h1, -⟩ := C52_isZero_partial hg h8 ha h hl
  exact ⟨h0, fun k => by have := (ZMod.natCast_eq_natCast_iff _ _ _).2 (h1 k); rwa [Nat.cast_zero] at this⟩

/-- e2.rs `is_zero`: a bit, one only of zero.  (Missing: one of every representation of zero, which fails, `C53_isZero_violated`.) -/
theorem C53_e2_isZero_partial (hg : Good cn P) (h8 : P.bits ≤ 8) (hx : Rep2 cn (InRange cn P) x z) :
    Right cn P (e2IsZero P x) (fun o => (o = 0 ∨ o = 1) ∧ (o = 1 → z = 0)) :=
  spec_bind cn P (isZero_says hg h8 hx.1.1) fun _ h0 => spec_bind cn P (isZero_says hg h8 hx.2.1.1) fun _ h1 =>
    spec_pure cn P (says_mono (says_and h0 h1) fun ⟨k0, k1⟩ => by ext; exacts [hx.2.2.1.symm.trans k0, hx.2.2.2.symm.trans k1])

/-- e6.rs `is_zero`. -/
theorem C53_e6_isZero_partial (hg : Good cn P) (h8 : P.bits ≤ 8) (hx : Rep6 cn (InRange cn P) X Z) :
    Right cn P (e6IsZero P X) (fun o => (o = 0 ∨ o = 1) ∧ (o = 1 → Z = ⟨0, 0, 0⟩)) :=
  spec_bind cn P (C53_e2_isZero_partial hg h8 hx.1) fun _ h0 => spec_bind cn P (C53_e2_isZero_partial hg h8 hx.2.1) fun _ h1 =>
    spec_bind cn P (C53_e2_isZero_partial hg h8 hx.2.2) fun _ h2 =>
    spec_pure cn P (says_mono (says_and (says_and h0 h1) h2) fun ⟨⟨k0, k1⟩, k2⟩ => by ext1 <;> assumption)

/-- e12.rs `is_zero`. -/
theorem C53_e12_isZero_partial (hg : Good cn P) (h8 : P.bits ≤ 8) (hx : Rep12 cn (InRange cn P) A U) :
    Right cn P (e12IsZero P A) (fun o => (o = 0 ∨ o = 1) ∧ (o = 1 → U = ⟨⟨0, 0, 0⟩, ⟨0, 0, 0⟩⟩)) :=
  spec_bind cn P (C53_e6_isZero_partial hg h8 hx.1) fun _ h0 => spec_bind cn P (C53_e6_isZero_partial hg h8 hx.2) fun _ h1 =>
    spec_pure cn P (says_mono (says_and h0 h1) fun ⟨k0, k1⟩ => by ext1 <;> assumption)

/-- `is_zero` says "not zero" of representations of zero, at the level of the quadratic extension too, whose limbs are in range. -/
theorem C53_isZero_violated : ∃ x : E2 M31, Rep2 m31cn (fun e => Ok m31cn bls12381Fp e ∧ enforceWidth bls12381Fp e.limbs true) x (0 : K2 bls12381Fp) ∧
    ∀ o l, e2IsZero bls12381Fp x o l ↔ o = 0 ∧ l = [] := by
  obtain ⟨a, h1, h2, h3, h4⟩ := C52_isZero_violated
  have hv : (value m31cn bls12381Fp a.limbs : ZMod bls12381Fp.modulus) = 0 := (ev_modEq (e := a) h3).trans Nat.cast_zero
  refine ⟨⟨a, a⟩, ⟨⟨h1, h2⟩, ⟨h1, h2⟩, hv, hv⟩, fun o l => ⟨?_, ?_⟩⟩
  · rintro ⟨o0, l1, l2, g1, ⟨o1, l3, l4, g2, ⟨rfl, rfl⟩, rfl⟩, rfl⟩
    obtain ⟨rfl, rfl⟩ := (h4 _ _).1 g1
    obtain ⟨rfl, rfl⟩ := (h4 _ _).1 g2
    exact ⟨zero_mul _, rfl⟩
  · rintro ⟨rfl, rfl⟩
    exact ⟨0, [], [], (h4 _ _).2 ⟨rfl, rfl⟩, ⟨0, [], [], (h4 _ _).2 ⟨rfl, rfl⟩, ⟨(zero_mul _).symm, rfl⟩, rfl⟩, rfl⟩

/-- The hypotheses are met by an element of twelve nonzero coordinates. -/
example : ∃ U : K12 bls12381Fp, Rep12 m31cn (InRange m31cn bls12381Fp) el12 U ∧
    Right m31cn bls12381Fp (e12IsZero bls12381Fp el12) (fun o => (o = 0 ∨ o = 1) ∧ (o = 1 → U = ⟨⟨0, 0, 0⟩, ⟨0, 0, 0⟩⟩)) := by
  obtain ⟨U, hU, -⟩ := el12_rep
  have k : ∀ {e : El M31}, Valid m31cn bls12381Fp e → InRange m31cn bls12381Fp e := fun h => ⟨h.1, h.2.1⟩
  have k2 : ∀ {e : E2 M31} {z : K2 bls12381Fp}, Rep2 m31cn (Valid m31cn bls12381Fp) e z → Rep2 m31cn (InRange m31cn bls12381Fp) e z := fun h => ⟨k h.1, k h.2.1, h.2.2⟩
  have h : Rep12 m31cn (InRange m31cn bls12381Fp) el12 U := ⟨⟨k2 hU.1.1, k2 hU.1.2.1, k2 hU.1.2.2⟩, ⟨k2 hU.2.1, k2 hU.2.2.1, k2 hU.2.2.2⟩⟩
  exact ⟨U, h, C53_e12_isZero_partial good_fp (by decide) h⟩

end Verif.Props
