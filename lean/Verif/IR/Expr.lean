import Verif.IR.Langs
import Mathlib.Data.List.Lex
import Mathlib.Data.List.Sort
import Mathlib.Tactic.Ring

/-!
# Expressions (circuit/ir/expr.rs) and the expression-level instruction set (circuit/ir/dest/mod.rs)
-/

set_option linter.unusedSectionVars false
set_option linter.unusedSimpArgs false
set_option linter.unnecessarySimpa false

namespace Verif.IR

variable {F : Type} [Field F] [DecidableEq F]

/-- `enum VarSpec` (expr.rs:20-29). -/
inductive VarSpec
  | const
  | linear (x : Nat)
  | quad (x y : Nat)
  | custom (g : Nat) (xs : List Nat)
  | randomLinear (x : Nat)
  deriving DecidableEq

namespace VarSpec

/-- `normalize` (expr.rs:32-44). -/
def normalize : VarSpec → VarSpec
  | .quad x y => if x < y then .quad y x else .quad x y
  | v => v

/-- `is_normalized` (expr.rs:45-53). -/
def isNormalized : VarSpec → Bool
  | .quad x y => y ≤ x
  | _ => true

/-- `mul` (expr.rs:54-81); `none` is the panic "invalid multiplication" / "unexpected situation". -/
def mul : VarSpec → VarSpec → Option VarSpec
  | .const, .const => some .const
  | .const, .linear x => some (.linear x)
  | .const, .quad x y => some (.quad x y)
  | .const, .custom g xs => some (.custom g xs)
  | .linear x, .const => some (.linear x)
  | .linear x, .linear y => some (.quad x y)
  | .quad x y, .const => some (.quad x y)
  | .custom g xs, .const => some (.custom g xs)
  | _, _ => none

/-- `replace_vars` (expr.rs:82-93). -/
def replaceVars (v : VarSpec) (f : Nat → Nat) : VarSpec :=
  match v with
  | .const => .const
  | .linear x => .linear (f x)
  | .quad x y => .quad (f x) (f y)
  | .custom g xs => .custom g (xs.map f)
  | .randomLinear x => .randomLinear (f x)

/-- The variables of a term (expr.rs:297-303). -/
def vars : VarSpec → List Nat
  | .const => []
  | .linear x => [x]
  | .quad x y => [x, y]
  | .custom _ xs => xs
  | .randomLinear x => [x]

/-- The derived `Ord` of the enum (expr.rs:20): variant first, then the fields lexicographically; `Vec` compares
lexicographically.  `key` lists variant and fields, so the derived order is the lexicographic order of the keys. -/
def key : VarSpec → List Nat
  | .const => [0]
  | .linear x => [1, x]
  | .quad x y => [2, x, y]
  | .custom g xs => 3 :: g :: xs
  | .randomLinear x => [4, x]

theorem key_injective {a b : VarSpec} (h : a.key = b.key) : a = b := by
  cases a <;> cases b <;> simp_all [key]

def lt (a b : VarSpec) : Prop := a.key < b.key

instance (a b : VarSpec) : Decidable (lt a b) := inferInstanceAs (Decidable (a.key < b.key))

/-- `<=` of the derived order, as a Boolean comparison function. -/
def le (a b : VarSpec) : Bool := decide (a.key ≤ b.key)

/-- The value of a monomial under an assignment (dest/mod.rs:121-148).  `RandomLinear` multiplies by a fresh random value. -/
def Sem (E : Env F) (val : Nat → Option F) : VarSpec → F → Prop
  | .const, y => y = 1
  | .linear x, y => val x = some y
  | .quad x1 x2, y => ∃ a b, val x1 = some a ∧ val x2 = some b ∧ y = a * b
  | .custom g xs, y => ∃ as, mapOpt val xs = some as ∧ y = E.custom g as
  | .randomLinear x, y => ∃ a r, val x = some a ∧ y = a * r

end VarSpec

/-- `struct Term` (expr.rs:14-18). -/
structure Term (F : Type) where
  coef : F
  vars : VarSpec
  deriving DecidableEq

/-- `Term::default()` (expr.rs:149-153). -/
def Term.zero : Term F := ⟨0, .const⟩

/-- `Term::normalize` (expr.rs:141-143). -/
def Term.normalize (t : Term F) : Term F := { t with vars := t.vars.normalize }

/-- The contribution of one term (dest/mod.rs:121-148); the coefficient of `RandomLinear` is ignored. -/
def Term.Sem (E : Env F) (val : Nat → Option F) (t : Term F) (y : F) : Prop :=
  match t.vars with
  | .randomLinear x => (VarSpec.randomLinear x).Sem E val y
  | v => ∃ m, v.Sem E val m ∧ y = m * t.coef

/-- `struct Expression` (expr.rs:213-216). -/
abbrev Expr (F : Type) := List (Term F)

namespace Expr

/-- `eval_unsafe` of `InternalVariable` (dest/mod.rs:118-150): the sum of the terms. -/
def Sem (E : Env F) (val : Nat → Option F) : Expr F → F → Prop
  | [], y => y = 0
  | t :: e, y => ∃ a b, t.Sem E val a ∧ Sem E val e b ∧ y = a + b

/-- `get_vars` (expr.rs:294-305). -/
def getVars (e : Expr F) : List Nat := e.flatMap (fun t => t.vars.vars)

/-- `replace_vars` (expr.rs:306-316). -/
def replaceVars (e : Expr F) (f : Nat → Nat) : Expr F := e.map (fun t => { t with vars := t.vars.replaceVars f })

/-- The merging loop of `compress_identical_terms` (expr.rs:251-260): `cur` is `terms[i]`. -/
def mergeAdj (cur : Term F) : List (Term F) → List (Term F)
  | [] => [cur]
  | t :: ts => if cur.vars = t.vars then mergeAdj { cur with coef := cur.coef + t.coef } ts else cur :: mergeAdj t ts

/-- `compress_identical_terms` (expr.rs:250-267). -/
def compress : List (Term F) → List (Term F)
  | [] => [Term.zero]
  | t :: ts =>
    let r := (mergeAdj t ts).filter (fun t => decide (t.coef ≠ 0))
    if r.isEmpty then [Term.zero] else r

/-- `terms.sort()` (expr.rs:276): sorting by monomial. -/
def sortTerms (ts : List (Term F)) : List (Term F) := ts.insertionSort (fun a b => a.vars.le b.vars = true)

/-- `from_terms` (expr.rs:275-282).  The Rust sort breaks ties between equal monomials by coefficient; since `compress` adds
those coefficients up, sorting by monomial only gives the same result. -/
def fromTerms (ts : List (Term F)) : Expr F :=
  compress (sortTerms (ts.map Term.normalize))

/-- `mul_constant` (expr.rs:355-367), without the assertion that the terms are sorted. -/
def mulConstant (e : Expr F) (v : F) : Expr F :=
  if v = 0 then [Term.zero] else e.map (fun t => { t with coef := t.coef * v })

/-! ### Value of an expression without random terms -/

/-- The value of a monomial when every variable is defined. -/
def mon (E : Env F) (val : Nat → Option F) : VarSpec → F
  | .const => 1
  | .linear x => (val x).getD 0
  | .quad x y => (val x).getD 0 * (val y).getD 0
  | .custom g xs => E.custom g (xs.map (fun x => (val x).getD 0))
  | .randomLinear _ => 0

/-- Weighted sum of the terms for a given valuation of monomials. -/
def lin (w : VarSpec → F) (ts : List (Term F)) : F := (ts.map (fun t => w t.vars * t.coef)).sum

/-- No random term. -/
def NoRandom (ts : List (Term F)) : Prop := ∀ t ∈ ts, ∀ x, t.vars ≠ .randomLinear x

/-- Every variable that occurs has a value. -/
def Defined (val : Nat → Option F) (ts : List (Term F)) : Prop := ∀ v ∈ getVars ts, (val v).isSome

theorem mapOpt_getD {α : Type} {val : Nat → Option α} (d : α) : ∀ {xs : List Nat}, (∀ x ∈ xs, (val x).isSome) →
    mapOpt val xs = some (xs.map (fun x => (val x).getD d)) := by
  intro xs
  induction xs with
  | nil => intro _; rfl
  | cons x xs ih =>
    intro h
    have h1 := h x (by simp)
    rw [mapOpt, ih (fun y hy => h y (by simp [hy]))]
    obtain ⟨a, ha⟩ := Option.isSome_iff_exists.1 h1
    simp [ha]

theorem mon_spec (E : Env F) (val : Nat → Option F) (v : VarSpec) (hr : ∀ x, v ≠ .randomLinear x)
    (hd : ∀ x ∈ v.vars, (val x).isSome) (y : F) : v.Sem E val y ↔ y = mon E val v := by
  cases v with
  | const => simp [VarSpec.Sem, mon]
  | linear x =>
    obtain ⟨a, ha⟩ := Option.isSome_iff_exists.1 (hd x (by simp [VarSpec.vars]))
    simp [VarSpec.Sem, mon, ha, eq_comm]
  | quad x1 x2 =>
    obtain ⟨a, ha⟩ := Option.isSome_iff_exists.1 (hd x1 (by simp [VarSpec.vars]))
    obtain ⟨b, hb⟩ := Option.isSome_iff_exists.1 (hd x2 (by simp [VarSpec.vars]))
    simp [VarSpec.Sem, mon, ha, hb]
  | custom g xs =>
    have := mapOpt_getD (val := val) (0 : F) hd
    simp only [VarSpec.vars] at this
    simp [VarSpec.Sem, mon, this]
  | randomLinear x => exact absurd rfl (hr x)

theorem term_spec (E : Env F) (val : Nat → Option F) (t : Term F) (hr : ∀ x, t.vars ≠ .randomLinear x)
    (hd : ∀ x ∈ t.vars.vars, (val x).isSome) (y : F) : t.Sem E val y ↔ y = mon E val t.vars * t.coef := by
  have h := mon_spec E val t.vars hr hd
  have e : t.Sem E val y ↔ ∃ m, t.vars.Sem E val m ∧ y = m * t.coef := by
    unfold Term.Sem
    split
    · rename_i x hx; exact absurd hx (hr x)
    · rfl
  rw [e]
  constructor
  · rintro ⟨m, hm, rfl⟩; rw [(h m).1 hm]
  · intro hy; exact ⟨_, (h _).2 rfl, hy⟩

theorem sem_iff_lin (E : Env F) (val : Nat → Option F) : ∀ (ts : List (Term F)), NoRandom ts → Defined val ts →
    ∀ y, Sem E val ts y ↔ y = lin (mon E val) ts := by
  intro ts
  induction ts with
  | nil => intro _ _ y; simp [Sem, lin]
  | cons t ts ih =>
    intro hr hd y
    have h1 := term_spec E val t (hr t (by simp)) (fun x hx => hd x (by simp [getVars, hx]))
    have h2 := ih (fun s hs => hr s (by simp [hs])) (fun x hx => hd x (by
      simp only [getVars, List.flatMap_cons, List.mem_append]; exact Or.inr hx))
    simp only [Sem, h1, h2, lin, List.map_cons, List.sum_cons]
    constructor
    · rintro ⟨a, b, rfl, rfl, rfl⟩; rfl
    · intro h; exact ⟨_, _, rfl, rfl, h⟩

theorem mon_normalize (E : Env F) (val : Nat → Option F) (v : VarSpec) : mon E val v.normalize = mon E val v := by
  cases v with
  | quad x y =>
    simp only [VarSpec.normalize]
    split
    · simp [mon, mul_comm]
    · rfl
  | _ => rfl

theorem lin_perm (w : VarSpec → F) {a b : List (Term F)} (h : a.Perm b) : lin w a = lin w b :=
  (h.map _).sum_eq

theorem lin_mergeAdj (w : VarSpec → F) : ∀ (ts : List (Term F)) (cur : Term F), lin w (mergeAdj cur ts) = lin w (cur :: ts) := by
  intro ts
  induction ts with
  | nil => intro cur; rfl
  | cons t ts ih =>
    intro cur
    simp only [mergeAdj]
    split
    · rename_i h
      rw [ih]; simp only [lin, List.map_cons, List.sum_cons, ← h]; ring
    · simp only [lin, List.map_cons, List.sum_cons] at ih ⊢; rw [ih]

theorem lin_filter (w : VarSpec → F) (ts : List (Term F)) : lin w (ts.filter (fun t => decide (t.coef ≠ 0))) = lin w ts := by
  induction ts with
  | nil => rfl
  | cons t ts ih =>
    simp only [lin, List.filter_cons] at ih ⊢
    by_cases h : t.coef = 0
    · simp only [h, ne_eq, not_true_eq_false, decide_false, Bool.false_eq_true, if_false, List.map_cons, List.sum_cons, mul_zero, zero_add]
      exact ih
    · simp only [h, ne_eq, not_false_eq_true, decide_true, if_true, List.map_cons, List.sum_cons]
      rw [ih]

theorem lin_compress (w : VarSpec → F) (ts : List (Term F)) : lin w (compress ts) = lin w ts := by
  cases ts with
  | nil => simp [compress, lin, Term.zero]
  | cons t ts =>
    simp only [compress]
    have := lin_filter w (mergeAdj t ts)
    rw [lin_mergeAdj] at this
    split
    · rename_i h
      rw [List.isEmpty_iff] at h
      rw [h] at this
      rw [← this]; simp [lin, Term.zero]
    · exact this

theorem lin_fromTerms (E : Env F) (val : Nat → Option F) (ts : List (Term F)) :
    lin (mon E val) (fromTerms ts) = lin (mon E val) ts := by
  unfold fromTerms
  rw [lin_compress, sortTerms, lin_perm _ (List.perm_insertionSort _ _)]
  simp [lin, Function.comp_def, Term.normalize, mon_normalize]

/-! ### Shape of a normalised expression -/

theorem mem_mergeAdj : ∀ (ts : List (Term F)) (cur t : Term F), t ∈ mergeAdj cur ts → ∃ s ∈ cur :: ts, s.vars = t.vars := by
  intro ts
  induction ts with
  | nil => intro cur t h; simp [mergeAdj] at h; exact ⟨cur, by simp, by rw [h]⟩
  | cons a ts ih =>
    intro cur t h
    simp only [mergeAdj] at h
    split at h
    · obtain ⟨s, hs, e⟩ := ih _ _ h
      rcases List.mem_cons.1 hs with rfl | hs
      · exact ⟨cur, by simp, e⟩
      · exact ⟨s, by simp [hs], e⟩
    · rcases List.mem_cons.1 h with rfl | h
      · exact ⟨t, by simp, rfl⟩
      · obtain ⟨s, hs, e⟩ := ih _ _ h
        exact ⟨s, List.mem_cons_of_mem _ hs, e⟩

theorem mergeAdj_sorted : ∀ (ts : List (Term F)) (cur : Term F),
    (cur :: ts).Pairwise (fun a b => a.vars.key ≤ b.vars.key) →
    (mergeAdj cur ts).Pairwise (fun a b => a.vars.lt b.vars) := by
  intro ts
  induction ts with
  | nil => intro cur _; simp [mergeAdj]
  | cons a ts ih =>
    intro cur h
    rw [List.pairwise_cons] at h
    simp only [mergeAdj]
    split
    · rename_i e
      refine ih _ ?_
      rw [List.pairwise_cons]
      exact ⟨fun x hx => h.1 x (by simp [hx]), (List.pairwise_cons.1 h.2).2⟩
    · rename_i e
      rw [List.pairwise_cons]
      refine ⟨fun t ht => ?_, ih _ h.2⟩
      obtain ⟨s, hs, es⟩ := mem_mergeAdj _ _ _ ht
      have h1 : cur.vars.key ≤ a.vars.key := h.1 a (by simp)
      have h2 : cur.vars.key ≠ a.vars.key := fun k => e (VarSpec.key_injective k)
      have h3 : a.vars.key ≤ t.vars.key := by
        rw [← es]
        rcases List.mem_cons.1 hs with rfl | hs
        · exact le_refl _
        · exact (List.pairwise_cons.1 h.2).1 s hs
      exact lt_of_lt_of_le (lt_of_le_of_ne h1 h2) h3

theorem sort_sorted (ts : List (Term F)) :
    (sortTerms ts).Pairwise (fun a b => a.vars.key ≤ b.vars.key) := by
  have : Std.Total (fun (a b : Term F) => a.vars.le b.vars = true) :=
    ⟨fun a b => by simp only [VarSpec.le, decide_eq_true_eq]; exact le_total _ _⟩
  have : IsTrans (Term F) (fun (a b : Term F) => a.vars.le b.vars = true) :=
    ⟨fun a b c h1 h2 => by simp only [VarSpec.le, decide_eq_true_eq] at *; exact le_trans h1 h2⟩
  have := List.pairwise_insertionSort (fun (a b : Term F) => a.vars.le b.vars = true) ts
  exact this.imp (fun h => by simpa [VarSpec.le] using h)

theorem fromTerms_sorted (ts : List (Term F)) : (fromTerms ts).Pairwise (fun a b => a.vars.lt b.vars) := by
  unfold fromTerms
  have h := sort_sorted (ts.map Term.normalize)
  revert h
  generalize sortTerms (ts.map Term.normalize) = l
  intro h
  cases l with
  | nil => simp [compress]
  | cons t l =>
    simp only [compress]
    split
    · simp
    · exact (mergeAdj_sorted _ _ h).filter _

theorem fromTerms_mem (ts : List (Term F)) (t : Term F) (h : t ∈ fromTerms ts) (hz : t ≠ Term.zero) :
    ∃ s ∈ ts, s.vars.normalize = t.vars := by
  unfold fromTerms at h
  have hp : (sortTerms (ts.map Term.normalize)).Perm (ts.map Term.normalize) := List.perm_insertionSort _ _
  revert h hp
  generalize sortTerms (ts.map Term.normalize) = l
  intro h hp
  have key : ∃ s ∈ l, s.vars = t.vars := by
    cases l with
    | nil => simp [compress] at h; exact absurd h hz
    | cons a l =>
      simp only [compress] at h
      split at h
      · simp at h; exact absurd h hz
      · exact mem_mergeAdj _ _ _ (List.mem_filter.1 h).1
  obtain ⟨s, hs, e⟩ := key
  obtain ⟨s', hs', rfl⟩ := List.mem_map.1 (hp.mem_iff.1 hs)
  exact ⟨s', hs', e⟩

theorem isNormalized_normalize (v : VarSpec) : v.normalize.isNormalized = true := by
  cases v with
  | quad x y => simp only [VarSpec.normalize]; split <;> simp [VarSpec.isNormalized] <;> omega
  | _ => rfl

theorem fromTerms_normalized (ts : List (Term F)) : ∀ t ∈ fromTerms ts, t.vars.isNormalized = true := by
  intro t ht
  by_cases hz : t = Term.zero
  · subst hz; rfl
  · obtain ⟨s, _, e⟩ := fromTerms_mem ts t ht hz
    rw [← e]; exact isNormalized_normalize _

theorem fromTerms_nonzero (ts : List (Term F)) : fromTerms ts = [Term.zero] ∨ (fromTerms ts ≠ [] ∧ ∀ t ∈ fromTerms ts, t.coef ≠ 0) := by
  unfold fromTerms
  generalize sortTerms (ts.map Term.normalize) = l
  cases l with
  | nil => exact Or.inl rfl
  | cons a l =>
    simp only [compress]
    split
    · exact Or.inl rfl
    · rename_i h
      right
      refine ⟨fun e => h (by rw [e]; rfl), fun t ht => ?_⟩
      simpa using (List.mem_filter.1 ht).2

theorem vars_normalize (v : VarSpec) (x : Nat) : x ∈ v.normalize.vars ↔ x ∈ v.vars := by
  cases v with
  | quad a b => simp only [VarSpec.normalize]; split <;> simp [VarSpec.vars, or_comm]
  | _ => rfl

theorem fromTerms_noRandom {ts : List (Term F)} (h : NoRandom ts) : NoRandom (fromTerms ts) := by
  intro t ht x hx
  by_cases hz : t = Term.zero
  · subst hz; simp [Term.zero] at hx
  · obtain ⟨s, hs, e⟩ := fromTerms_mem ts t ht hz
    rw [hx] at e
    have : s.vars = .randomLinear x := by
      cases hv : s.vars with
      | quad a b => rw [hv] at e; simp only [VarSpec.normalize] at e; split at e <;> cases e
      | _ => rw [hv] at e; simpa [VarSpec.normalize] using e
    exact h s hs x this

theorem fromTerms_vars (ts : List (Term F)) (x : Nat) (h : x ∈ getVars (fromTerms ts)) : x ∈ getVars ts := by
  obtain ⟨t, ht, hx⟩ := List.mem_flatMap.1 h
  by_cases hz : t = Term.zero
  · subst hz; simp [Term.zero, VarSpec.vars] at hx
  · obtain ⟨s, hs, e⟩ := fromTerms_mem ts t ht hz
    rw [← e, vars_normalize] at hx
    exact List.mem_flatMap.2 ⟨s, hs, hx⟩

/-- Building an expression from terms does not change its value. -/
theorem sem_fromTerms (E : Env F) (val : Nat → Option F) (ts : List (Term F)) (hr : NoRandom ts) (hd : Defined val ts) (y : F) :
    Sem E val (fromTerms ts) y ↔ Sem E val ts y := by
  rw [sem_iff_lin E val ts hr hd, sem_iff_lin E val _ (fromTerms_noRandom hr) (fun v hv => hd v (fromTerms_vars ts v hv)),
    lin_fromTerms]

end Expr

end Verif.IR
