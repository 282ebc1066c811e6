import Verif.Layered.Rel
import Verif.Layered.Hom
import Mathlib.Algebra.MvPolynomial.SchwartzZippel

/-!
# How often a circuit with random coefficients accepts

The values that must vanish are polynomials in the random coefficients.  `Circuit.randDegree` bounds their degree by evaluating the circuit
over the semiring of degrees; the lemma of Schwartz and Zippel turns the degree into a bound for the number of tapes on which a circuit
accepts although some tape makes it reject.
-/

set_option linter.unusedSectionVars false
set_option linter.unusedSimpArgs false

namespace Verif.Layered

open List (Forall₂)

/-- Degrees: `bot` for the zero polynomial; `val d n` for a function of the first `n` random coefficients that is a polynomial of degree
at most `d` (`none` if nothing is known). -/
inductive Deg
  | bot
  | val (d : Option Nat) (n : Nat)
  deriving DecidableEq

namespace Deg

def maxD : Option Nat → Option Nat → Option Nat
  | some a, some b => some (max a b)
  | _, _ => none

def addD : Option Nat → Option Nat → Option Nat
  | some a, some b => some (a + b)
  | _, _ => none

/-- The degree of a sum. -/
def add : Deg → Deg → Deg
  | bot, y => y
  | val d n, bot => val d n
  | val d n, val e m => val (maxD d e) (max n m)

/-- The degree of a product. -/
def mul : Deg → Deg → Deg
  | bot, _ => bot
  | val _ _, bot => bot
  | val d n, val e m => val (addD d e) (max n m)

theorem maxD_comm (a b : Option Nat) : maxD a b = maxD b a := by cases a <;> cases b <;> simp [maxD]; omega
theorem maxD_assoc (a b c : Option Nat) : maxD (maxD a b) c = maxD a (maxD b c) := by cases a <;> cases b <;> cases c <;> simp [maxD, Nat.max_assoc]
theorem addD_comm (a b : Option Nat) : addD a b = addD b a := by cases a <;> cases b <;> simp [addD, Nat.add_comm]
theorem addD_assoc (a b c : Option Nat) : addD (addD a b) c = addD a (addD b c) := by cases a <;> cases b <;> cases c <;> simp [addD, Nat.add_assoc]
theorem addD_maxD (a b c : Option Nat) : addD a (maxD b c) = maxD (addD a b) (addD a c) := by
  cases a <;> cases b <;> cases c <;> simp [addD, maxD]

theorem add_comm' (x y : Deg) : add x y = add y x := by
  cases x <;> cases y <;> simp [add, maxD_comm, Nat.max_comm]

theorem mul_comm' (x y : Deg) : mul x y = mul y x := by
  cases x <;> cases y <;> simp [mul, addD_comm, Nat.max_comm]

theorem mul_add' (x y z : Deg) : mul x (add y z) = add (mul x y) (mul x z) := by
  cases x <;> cases y <;> cases z <;> simp [add, mul, addD_maxD]
  omega

instance : Zero Deg := ⟨bot⟩
instance : One Deg := ⟨val (some 0) 0⟩
instance : Add Deg := ⟨add⟩
instance : Mul Deg := ⟨mul⟩

instance : CommSemiring Deg where
  nsmul := nsmulRec
  add_assoc x y z := by
    show add (add x y) z = add x (add y z)
    cases x <;> cases y <;> cases z <;> simp [add, maxD_assoc, Nat.max_assoc]
  zero_add x := rfl
  add_zero x := by show add x bot = x; cases x <;> rfl
  add_comm := add_comm'
  mul_assoc x y z := by
    show mul (mul x y) z = mul x (mul y z)
    cases x <;> cases y <;> cases z <;> simp [mul, addD_assoc, Nat.max_assoc]
  one_mul x := by
    show mul (val (some 0) 0) x = x
    cases x with
    | bot => rfl
    | val d n => cases d <;> simp [mul, addD]
  mul_one x := by
    show mul x (val (some 0) 0) = x
    cases x with
    | bot => rfl
    | val d n => cases d <;> simp [mul, addD]
  zero_mul x := rfl
  mul_zero x := by show mul x bot = bot; cases x <;> rfl
  left_distrib := mul_add'
  right_distrib x y z := by
    show mul (add x y) z = add (mul x z) (mul y z)
    rw [mul_comm', mul_add', mul_comm' z x, mul_comm' z y]
  mul_comm := mul_comm'

/-- The degree is zero. -/
def isConst : Deg → Bool
  | bot => true
  | val d _ => decide (d = some 0)

/-- How many coefficients it may depend on. -/
def bound : Deg → Nat
  | bot => 0
  | val _ n => n

end Deg

/-- Interpretation of coefficients and custom gates as degrees: nothing is known of a custom gate unless its inputs do not depend on
random coefficients. -/
def degEnv (F : Type) : LEnv F Deg where
  const := fun _ => .val (some 0) 0
  pub := fun _ => some (.val (some 0) 0)
  custom := fun _ vs => .val (if vs.all Deg.isConst then some 0 else none) (vs.foldr (fun v m => max v.bound m) 0)

/-- The largest degree, in the random coefficients, of the values that must vanish, and how many coefficients they depend on. -/
def Circuit.randDegree {F : Type} (c : Circuit F) : Option Deg :=
  (c.inputSize).bind fun n => (c.evalRaw (degEnv F) (List.replicate n (.val (some 0) 0)) fun i => .val (some 1) (i + 1)).map fun r => r.2.sum

/-- The first coefficients, followed by zeroes. -/
def prefixTape {F : Type} [Zero F] {n : Nat} (r : Fin n → F) : Nat → F := fun i => if h : i < n then r ⟨i, h⟩ else 0

section
variable {F : Type} [Field F] [DecidableEq F]

/-- Values as functions of the tape. -/
def funEnv (V : LEnv F F) : LEnv F ((Nat → F) → F) where
  const := fun c _ => V.const c
  pub := fun i => (V.pub i).map fun v _ => v
  custom := fun t vs tp => V.custom t (vs.map (· tp))

theorem funEnv_hom (V : LEnv F F) (tp : Nat → F) : EnvHom (Pi.evalRingHom (fun _ : Nat → F => F) tp) (funEnv V) V := by
  constructor
  · intro c; rfl
  · intro i
    simp only [funEnv, Option.map_map]
    cases V.pub i <;> rfl
  · intro t vs
    simp only [funEnv, Pi.evalRingHom_apply]
    rfl

/-- `x` bounds the degree and the dependence of `f`. -/
def DegRel (f : (Nat → F) → F) : Deg → Prop
  | .bot => f = 0
  | .val d n => (∀ t u, (∀ i < n, t i = u i) → f t = f u) ∧
      ∀ k, d = some k → ∃ p : MvPolynomial ℕ F, p.totalDegree ≤ k ∧ ∀ t, f t = MvPolynomial.eval t p

theorem DegRel.dep {f : (Nat → F) → F} {x : Deg} (h : DegRel f x) : ∀ t u, (∀ i < x.bound, t i = u i) → f t = f u := by
  cases x with
  | bot => intro t u _; cases h; rfl
  | val d n => exact h.1

theorem DegRel.of_const (a : F) (n : Nat) : DegRel (fun _ => a) (.val (some 0) n) :=
  ⟨fun _ _ _ => rfl, fun k hk => ⟨.C a, by simp, fun t => by simp⟩⟩

theorem DegRel.const {f : (Nat → F) → F} {x : Deg} (h : DegRel f x) (hx : x.isConst = true) : ∃ a, ∀ t, f t = a := by
  cases x with
  | bot => cases h; exact ⟨0, fun _ => rfl⟩
  | val d n =>
    simp only [Deg.isConst, decide_eq_true_eq] at hx
    obtain ⟨p, hp, hf⟩ := h.2 0 hx
    have := MvPolynomial.totalDegree_eq_zero_iff_eq_C.1 (Nat.le_zero.1 hp)
    refine ⟨MvPolynomial.coeff 0 p, fun t => ?_⟩
    rw [hf t]
    conv_lhs => rw [this]
    simp

theorem DegRel.mono {f : (Nat → F) → F} {x : Deg} (h : DegRel f x) (y : Deg) : DegRel f (x + y) ∨ x = 0 := by
  cases x with
  | bot => exact .inr rfl
  | val d n =>
    left
    cases y with
    | bot => exact h
    | val e m =>
      refine ⟨fun t u ht => h.1 t u fun i hi => ht i (lt_of_lt_of_le hi (Nat.le_max_left _ _)), fun k hk => ?_⟩
      cases d <;> cases e <;> simp [Deg.maxD] at hk
      rename_i a b
      obtain ⟨p, hp, hf⟩ := h.2 a rfl
      exact ⟨p, by omega, hf⟩

theorem degRel_env (V : LEnv F F) : EnvRel (DegRel (F := F)) (funEnv V) (degEnv F) where
  zero := rfl
  one := DegRel.of_const 1 0
  add := by
    intro a b c d hac hbd
    cases c with
    | bot => cases hac; rw [zero_add]; exact hbd
    | val c1 c2 =>
      cases d with
      | bot => cases hbd; rw [add_zero]; exact hac
      | val d1 d2 =>
        refine ⟨fun t u ht => ?_, fun k hk => ?_⟩
        · have h1 := hac.1 t u fun i hi => ht i (lt_of_lt_of_le hi (Nat.le_max_left _ _))
          have h2 := hbd.1 t u fun i hi => ht i (lt_of_lt_of_le hi (Nat.le_max_right _ _))
          simp [h1, h2]
        · cases c1 <;> cases d1 <;> simp [Deg.maxD] at hk
          rename_i x y
          obtain ⟨p, hp, hf⟩ := hac.2 x rfl
          obtain ⟨q, hq, hg⟩ := hbd.2 y rfl
          refine ⟨p + q, (MvPolynomial.totalDegree_add p q).trans (by omega), fun t => by simp [hf, hg]⟩
  mul := by
    intro a b c d hac hbd
    cases c with
    | bot => cases hac; rw [zero_mul]; rfl
    | val c1 c2 =>
      cases d with
      | bot => cases hbd; rw [mul_zero]; rfl
      | val d1 d2 =>
        refine ⟨fun t u ht => ?_, fun k hk => ?_⟩
        · have h1 := hac.1 t u fun i hi => ht i (lt_of_lt_of_le hi (Nat.le_max_left _ _))
          have h2 := hbd.1 t u fun i hi => ht i (lt_of_lt_of_le hi (Nat.le_max_right _ _))
          simp [h1, h2]
        · cases c1 <;> cases d1 <;> simp [Deg.addD] at hk
          rename_i x y
          obtain ⟨p, hp, hf⟩ := hac.2 x rfl
          obtain ⟨q, hq, hg⟩ := hbd.2 y rfl
          refine ⟨p * q, (MvPolynomial.totalDegree_mul p q).trans (by omega), fun t => by simp [hf, hg]⟩
  const := fun c => DegRel.of_const _ 0
  pub := by
    intro i
    simp only [funEnv, degEnv]
    cases V.pub i with
    | none => trivial
    | some v => exact DegRel.of_const v 0
  custom := by
    intro t vs ws h
    simp only [funEnv, degEnv]
    refine ⟨fun u u' hu => ?_, fun k hk => ?_⟩
    · have : vs.map (· u) = vs.map (· u') := by
        induction h with
        | nil => rfl
        | cons h1 h2 ih =>
          simp only [List.map_cons, List.cons.injEq]
          refine ⟨h1.dep u u' fun i hi => hu i (lt_of_lt_of_le hi (by simp [List.foldr])), ih fun i hi => hu i (lt_of_lt_of_le hi (by simp [List.foldr]))⟩
      simp only [this]
    · by_cases hc : ws.all Deg.isConst = true
      · rw [if_pos hc] at hk
        cases hk
        have : ∃ as : List F, ∀ u, vs.map (· u) = as := by
          induction h with
          | nil => exact ⟨[], fun _ => rfl⟩
          | cons h1 h2 ih =>
            simp only [List.all_cons, Bool.and_eq_true] at hc
            obtain ⟨a, ha⟩ := h1.const hc.1
            obtain ⟨as, has⟩ := ih hc.2
            exact ⟨a :: as, fun u => by simp [ha u, has u]⟩
        obtain ⟨as, has⟩ := this
        exact ⟨.C (V.custom t as), by simp, fun u => by simp [has u]⟩
      · rw [if_neg hc] at hk
        cases hk

/-- Schwartz and Zippel for a prefix of the tape. -/
theorem count_prefix [Fintype F] (p : MvPolynomial ℕ F) {n D : Nat} (hd : p.totalDegree ≤ D) (hn : ∃ t : Fin n → F, MvPolynomial.eval (prefixTape t) p ≠ 0) :
    Fintype.card { t : Fin n → F // MvPolynomial.eval (prefixTape t) p = 0 } * Fintype.card F ≤ D * Fintype.card F ^ n := by
  classical
  let g : ℕ → MvPolynomial (Fin n) F := fun i => if h : i < n then .X ⟨i, h⟩ else 0
  let q : MvPolynomial (Fin n) F := MvPolynomial.eval₂ MvPolynomial.C g p
  have hg : ∀ (t : Fin n → F) i, MvPolynomial.eval t (g i) = prefixTape t i := by
    intro t i
    simp only [g, prefixTape]
    by_cases h : i < n <;> simp [h]
  have hq : ∀ t : Fin n → F, MvPolynomial.eval t q = MvPolynomial.eval (prefixTape t) p := by
    intro t
    simp only [q, MvPolynomial.eval₂_eq, MvPolynomial.eval_eq (prefixTape t), map_sum, map_mul, map_prod, map_pow, hg, MvPolynomial.eval_C]
  have hg1 : ∀ i, (g i).totalDegree ≤ 1 := by
    intro i
    simp only [g]
    by_cases h : i < n <;> simp [h]
  have hdeg : q.totalDegree ≤ D := by
    refine le_trans ?_ hd
    simp only [q, MvPolynomial.eval₂_eq]
    refine MvPolynomial.totalDegree_finsetSum_le fun m hm => ?_
    refine (MvPolynomial.totalDegree_mul _ _).trans ?_
    rw [MvPolynomial.totalDegree_C, zero_add]
    refine (MvPolynomial.totalDegree_finsetProd _ _).trans ?_
    refine le_trans (Finset.sum_le_sum fun i _ => ?_) (MvPolynomial.le_totalDegree hm)
    exact (MvPolynomial.totalDegree_pow _ _).trans (by simpa using Nat.mul_le_mul_left (m i) (hg1 i))
  have hne : q ≠ 0 := by
    rintro h0
    obtain ⟨t, ht⟩ := hn
    rw [← hq, h0] at ht
    simp at ht
  have := MvPolynomial.schwartz_zippel_totalDegree hne (Finset.univ : Finset F)
  have hcard : (Finset.univ.filter fun t : Fin n → F => MvPolynomial.eval t q = 0).card = Fintype.card { t : Fin n → F // MvPolynomial.eval (prefixTape t) p = 0 } := by
    rw [Fintype.card_subtype]
    congr 1
    ext t
    simp [hq]
  rw [Fintype.piFinset_univ, hcard, Finset.card_univ, div_le_div_iff₀ (by exact_mod_cast pow_pos Fintype.card_pos n) (by exact_mod_cast Fintype.card_pos)] at this
  have h2 : Fintype.card { t : Fin n → F // MvPolynomial.eval (prefixTape t) p = 0 } * Fintype.card F ≤ q.totalDegree * Fintype.card F ^ n := by exact_mod_cast this
  exact h2.trans (Nat.mul_le_mul_right _ hdeg)

/-- What the evaluation over the degrees says of a run. -/
theorem zeros_rel (V : LEnv F F) {c : Circuit F} {w : List F} {x : Deg} (hx : c.randDegree = some x) {t0 : Nat → F} (h0 : (c.eval V w t0).isSome = true) :
    ∃ fs : List ((Nat → F) → F), (∀ f ∈ fs, DegRel f x) ∧
      ∀ t, ∃ outs, c.eval V w t = some (outs, fs.all fun f => decide (f t = 0)) := by
  classical
  have hom : ∀ t : Nat → F, c.evalRaw V w t = (c.evalRaw (funEnv V) (w.map fun v _ => v) fun i t => t i).map fun r => (r.1.map (· t), r.2.map (· t)) := by
    intro t
    have := evalRaw_map (funEnv_hom V t) c (w.map fun v _ => v) (fun i t => t i)
    simp only [Pi.evalRingHom_apply, List.map_map] at this
    rw [show (List.map (⇑(Pi.evalRingHom (fun _ : Nat → F => F) t) ∘ fun v _ => v) w) = w from List.map_id'' (fun _ => rfl) w] at this
    exact this
  unfold Circuit.randDegree at hx
  cases hn : c.inputSize with
  | none => rw [hn] at hx; cases hx
  | some n =>
    rw [hn, Option.bind_some, Option.map_eq_some_iff] at hx
    obtain ⟨r, hr, rfl⟩ := hx
    cases hf : c.evalRaw (funEnv V) (w.map fun v _ => v) fun i t => t i with
    | none =>
      have := hom t0
      rw [hf] at this
      simp [Circuit.eval, this] at h0
    | some rf =>
      have hw : n = w.length := by
        by_contra hne
        have : c.wires V w t0 = none := by
          unfold Circuit.wires
          rw [if_neg]
          rw [hn]
          intro e
          exact hne (Option.some.inj e)
        simp [Circuit.eval, Circuit.evalRaw, this] at h0
      have hin : Forall₂ (DegRel (F := F)) (w.map fun v _ => v) (List.replicate n (.val (some 0) 0)) := by
        subst hw
        clear h0 hom hn hr hf
        induction w with
        | nil => exact .nil
        | cons v w ih => exact .cons (DegRel.of_const v 0) ih
      have htape : ∀ i, DegRel (F := F) (fun t => t i) (.val (some 1) (i + 1)) := fun i =>
        ⟨fun t u h => h i (by omega), fun k hk => ⟨.X i, by cases hk; exact (MvPolynomial.totalDegree_X i).le, fun t => by simp⟩⟩
      have hrel := evalRaw_rel (degRel_env V) c hin htape
      rw [hf, hr] at hrel
      refine ⟨rf.2, ?_, ?_⟩
      · have h2 := hrel.2
        generalize rf.2 = fs at h2
        generalize r.2 = xs at h2
        induction h2 with
        | nil => simp
        | cons h1 h2 ih =>
          rename_i f1 x1 fs xs
          intro f hm
          rw [List.sum_cons]
          rcases List.mem_cons.1 hm with rfl | hm
          · rcases h1.mono xs.sum with h | h
            · exact h
            · subst h
              rw [zero_add]
              cases h1
              cases xs.sum with
              | bot => rfl
              | val d n => exact ⟨fun _ _ _ => rfl, fun k _ => ⟨0, by simp, fun t => by simp⟩⟩
          · rcases (ih f hm).mono x1 with h | h
            · rwa [add_comm] at h
            · have := ih f hm
              rw [h] at this ⊢
              cases this
              rw [add_zero]
              cases x1 with
              | bot => rfl
              | val d n => exact ⟨fun _ _ _ => rfl, fun k _ => ⟨0, by simp, fun t => by simp⟩⟩
      · intro t
        refine ⟨rf.1.map (· t), ?_⟩
        unfold Circuit.eval
        rw [hom t, hf]
        simp [List.all_map, Function.comp_def]

/-- The verdict depends only on the first coefficients. -/
theorem verdict_depends (V : LEnv F F) {c : Circuit F} {w : List F} {x : Deg} (hx : c.randDegree = some x) (t u : Nat → F) (htu : ∀ i < x.bound, t i = u i) :
    (c.eval V w t).map Prod.snd = (c.eval V w u).map Prod.snd := by
  have key : ∀ t u : Nat → F, (∀ i < x.bound, t i = u i) → (c.eval V w t).isSome = true → (c.eval V w t).map Prod.snd = (c.eval V w u).map Prod.snd := by
    intro t u htu h
    obtain ⟨fs, h1, h2⟩ := zeros_rel V hx h
    obtain ⟨o1, e1⟩ := h2 t
    obtain ⟨o2, e2⟩ := h2 u
    rw [e1, e2]
    simp only [Option.map_some, Option.some.injEq]
    rw [Bool.eq_iff_iff, List.all_eq_true, List.all_eq_true]
    constructor
    · intro h f hf
      rw [← (h1 f hf).dep t u htu]; exact h f hf
    · intro h f hf
      rw [(h1 f hf).dep t u htu]; exact h f hf
  cases ht : (c.eval V w t).isSome with
  | true => exact key t u htu ht
  | false =>
    cases hu : (c.eval V w u).isSome with
    | true => exact (key u t (fun i hi => (htu i hi).symm) hu).symm
    | false => rw [Option.isSome_eq_false_iff.1 ht |> Option.isNone_iff_eq_none.1, Option.isSome_eq_false_iff.1 hu |> Option.isNone_iff_eq_none.1]

/-- If some tape makes the circuit reject the input, at most a fraction `D / |F|` of the tapes makes it accept. -/
theorem accept_bound [Fintype F] (V : LEnv F F) {c : Circuit F} {w : List F} {x : Deg} (hx : c.randDegree = some x) {D n : Nat}
    (hD : x = .bot ∨ ∃ d m, x = .val (some d) m ∧ d ≤ D) (hn : x.bound ≤ n) {t0 : Nat → F} {o0 : List F} (h0 : c.eval V w t0 = some (o0, false)) :
    Nat.card { r : Fin n → F // ∃ outs, c.eval V w (prefixTape r) = some (outs, true) } * Fintype.card F ≤ D * Fintype.card F ^ n := by
  classical
  obtain ⟨fs, h1, h2⟩ := zeros_rel V hx (by rw [h0]; rfl : (c.eval V w t0).isSome = true)
  obtain ⟨o, e⟩ := h2 t0
  rw [h0] at e
  simp only [Option.some.injEq, Prod.mk.injEq] at e
  obtain ⟨f, hf, hne⟩ : ∃ f ∈ fs, f t0 ≠ 0 := by
    have := e.2.symm
    rw [List.all_eq_false] at this
    obtain ⟨f, hf, h⟩ := this
    exact ⟨f, hf, by simpa using h⟩
  have hfx := h1 f hf
  obtain ⟨p, hp, hpe⟩ : ∃ p : MvPolynomial ℕ F, p.totalDegree ≤ D ∧ ∀ t, f t = MvPolynomial.eval t p := by
    rcases hD with rfl | ⟨d, m, rfl, hd⟩
    · exact ⟨0, by simp, fun t => by rw [hfx]; simp⟩
    · obtain ⟨p, h, h'⟩ := hfx.2 d rfl
      exact ⟨p, h.trans hd, h'⟩
  have hpre : MvPolynomial.eval (prefixTape fun i : Fin n => t0 i) p ≠ 0 := by
    rw [← hpe, hfx.dep _ t0]
    · exact hne
    · intro i hi
      simp [prefixTape, lt_of_lt_of_le hi hn]
  refine le_trans (Nat.mul_le_mul_right _ ?_) (count_prefix p hp ⟨_, hpre⟩)
  rw [Nat.card_eq_fintype_card]
  refine Fintype.card_le_of_injective (fun r => ⟨r.1, ?_⟩) (fun a b h => Subtype.ext (Subtype.mk.inj h))
  obtain ⟨outs, hr⟩ := r.2
  obtain ⟨o, e⟩ := h2 (prefixTape r.1)
  rw [hr] at e
  simp only [Option.some.injEq, Prod.mk.injEq] at e
  have := List.all_eq_true.1 e.2.symm f hf
  rw [← hpe]
  simpa using this

end

end Verif.Layered
