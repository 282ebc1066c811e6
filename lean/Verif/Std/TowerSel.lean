import Verif.Std.TowerProof2
/-!
Selection and division by six in the extension tower of BLS12-381 (gnark/emulated/field_bls12381/{e2,e6,e12}.rs).
-/
set_option linter.unusedSectionVars false
namespace Verif.Std.Emu

variable {F : Type} [Field F] [DecidableEq F]

/-- e2.rs:265-275 (`select`). -/
def e2Select (P : Params) (selector : F) (z1 z0 : E2 F) : Gad F (E2 F) := do
  let a0 ← select P selector z1.a0 z0.a0
  let a1 ← select P selector z1.a1 z0.a1
  pure ⟨a0, a1⟩

/-- e6.rs:203-220 (`select`). -/
def e6Select (P : Params) (selector : F) (z1 z0 : E6 F) : Gad F (E6 F) := do
  let b0 ← e2Select P selector z1.b0 z0.b0
  let b1 ← e2Select P selector z1.b1 z0.b1
  let b2 ← e2Select P selector z1.b2 z0.b2
  pure ⟨b0, b1, b2⟩

/-- e12.rs:374-384 (`select`). -/
def e12Select (P : Params) (selector : F) (z1 z0 : E12 F) : Gad F (E12 F) := do
  let c0 ← e6Select P selector z1.c0 z0.c0
  let c1 ← e6Select P selector z1.c1 z0.c1
  pure ⟨c0, c1⟩

/-- e6.rs:332-368 (`div_e6_by_6`; the array of six is here the six coordinates in the order of `GE6`). -/
def e6DivBy6 (P : Params) (x : E6 F) : Gad F (E6 F) := do
  let y ← e6Hint P
  let x0 ← e2MulConst P y.b0 6
  let x1 ← e2MulConst P y.b1 6
  let x2 ← e2MulConst P y.b2 6
  e6Equal P x ⟨x0, x1, x2⟩
  pure y

variable {cn : Canon F} {P : Params}

theorem select_internal (c : F) (a b : El F) : Internal (select P c a b) := internal_bind fun _ => internal_bind fun _ => internal_pure rfl

theorem select_honest (ht : Tight cn P) {a b : El F} (ha : Valid cn P a) (hb : Valid cn P b) (s : Bool) :
    Honest cn P (select P (Hints.ofBool s) a b) (fun r => Valid cn P r ∧ value cn P r.limbs = value cn P (if s then a.limbs else b.limbs)) := by
  have h : Honest cn P (select P (Hints.ofBool s) a b) (fun r => P.nlimbs ≤ r.limbs.length ∧ r.internal = true) := by
    unfold select
    refine honest_bind (honest_cond ha) fun _ _ => honest_bind (honest_cond hb) fun _ _ => honest_pure ⟨?_, rfl⟩
    have := ha.2.2.1
    simp only [El.int, List.length_map, List.length_range]
    omega
  refine honest_mono (honest_spec h (select_spec ht.good ha.1 hb.1 s)) fun r ⟨⟨h1, h2⟩, h3, h4⟩ => ⟨⟨h3, h3.1 h2, h1, fun h => ?_⟩, h4⟩
  rw [h2] at h; cases h

/-- `select` is right. -/
def SelOk (L : Logic cn P) : Prop := ∀ (s : Bool) {a b : El F}, L.R a → L.R b →
  L.T (select P (Hints.ofBool s) a b) (fun r => L.R r ∧ ev cn P r = if s then ev cn P a else ev cn P b)

theorem sound_sel (hg : Good cn P) (h8 : P.bits ≤ 8) : SelOk (soundLogic hg h8) := fun s a b ha hb =>
  spec_mono cn P (spec_internal (select_internal _ a b) (select_spec hg ha.1 hb.1 s)) fun r hr => ⟨hr.1, by rw [ev, hr.2]; cases s <;> rfl⟩

theorem honest_sel (ht : Tight cn P) (h8 : P.bits ≤ 8) : SelOk (honestLogic ht h8) := fun s a b ha hb =>
  honest_mono (select_honest ht ha hb s) fun r hr => ⟨hr.1, by rw [ev, hr.2]; cases s <;> rfl⟩

variable (L : Logic cn P) (hs : SelOk L) (s : Bool) {x y : E2 F} {z w : K2 P} {X Y : E6 F} {Z W : K6 P} {A B : E12 F} {U V : K12 P}

include hs in
theorem e2Select_T (hx : R2 L x z) (hy : R2 L y w) : L.T (e2Select P (Hints.ofBool s) x y) (fun r => R2 L r (if s then z else w)) := by
  obtain ⟨x0, x1, x2, x3⟩ := hx
  obtain ⟨y0, y1, y2, y3⟩ := hy
  refine L.bind (hs s x0 y0) fun z0 h0 => L.bind (hs s x1 y1) fun z1 h1 => L.pure ⟨h0.1, h1.1, h0.2.trans ?_, h1.2.trans ?_⟩ <;> cases s <;> assumption

include hs in
theorem e6Select_T (hx : R6 L X Z) (hy : R6 L Y W) : L.T (e6Select P (Hints.ofBool s) X Y) (fun r => R6 L r (if s then Z else W)) :=
  L.bind (e2Select_T L hs s hx.1 hy.1) fun _ h0 => L.bind (e2Select_T L hs s hx.2.1 hy.2.1) fun _ h1 =>
    L.bind (e2Select_T L hs s hx.2.2 hy.2.2) fun _ h2 => L.pure (by cases s <;> exact ⟨h0, h1, h2⟩)

include hs in
theorem e12Select_T (hx : R12 L A U) (hy : R12 L B V) : L.T (e12Select P (Hints.ofBool s) A B) (fun r => R12 L r (if s then U else V)) :=
  L.bind (e6Select_T L hs s hx.1 hy.1) fun _ h0 => L.bind (e6Select_T L hs s hx.2 hy.2) fun _ h1 => L.pure (by cases s <;> exact ⟨h0, h1⟩)

theorem e6DivBy6_T (hx : R6 L X Z) {q : K6 P} (h : L.hon → q.b0 * ((6 : ℕ) : K2 P) = Z.b0 ∧ q.b1 * ((6 : ℕ) : K2 P) = Z.b1 ∧ q.b2 * ((6 : ℕ) : K2 P) = Z.b2) :
    L.T (e6DivBy6 P X) (fun r => ∃ d : K6 P, R6 L r d ∧ d.b0 * ((6 : ℕ) : K2 P) = Z.b0 ∧ d.b1 * ((6 : ℕ) : K2 P) = Z.b1 ∧ d.b2 * ((6 : ℕ) : K2 P) = Z.b2) :=
  L.bind (e6Hint_T L q) fun _ ⟨d, hd, he⟩ => L.bind (e2MulConst_T L hd.1 (c := 6) (by decide)) fun _ h0 => L.bind (e2MulConst_T L hd.2.1 (c := 6) (by decide)) fun _ h1 =>
    L.bind (e2MulConst_T L hd.2.2 (c := 6) (by decide)) fun _ h2 =>
    L.bind (e6Equal_T L hx (Y := ⟨_, _, _⟩) (W := ⟨_, _, _⟩) ⟨h0, h1, h2⟩ fun k => by
      obtain ⟨q0, q1, q2⟩ := h k
      rw [he k, q0, q1, q2]) fun _ e => L.pure ⟨d, hd, by rw [e], by rw [e], by rw [e]⟩

end Verif.Std.Emu
