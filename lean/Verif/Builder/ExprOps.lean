import Verif.IR.Expr
import Mathlib.Tactic.Ring

/-!
# Expression operations of the builder (builder/basic.rs)

`None` results are Rust panics (failed `assert!`, `unwrap` of `None`, index out of range).
-/

set_option linter.unusedSectionVars false
set_option linter.unusedSimpArgs false

namespace Verif.Builder

open Verif.IR

variable {F : Type} [Field F] [DecidableEq F]

/-- `Expression::degree` (expr.rs:317-333); the panic on `RandomLinear` is not modelled (such terms never reach it). -/
def degree (e : Expr F) : Nat :=
  if e.any (fun t => match t.vars with | .const => false | .linear _ => false | _ => true) then 2
  else if e.any (fun t => match t.vars with | .linear _ => true | _ => false) then 1 else 0

/-- `Expression::constant_value` (expr.rs:347-353). -/
def constValue (e : Expr F) : Option F :=
  match e with
  | [⟨c, .const⟩] => some c
  | _ => none

/-- Consecutive monomials strictly increase (`terms.windows(2).all(|w| w[0].vars < w[1].vars)`, expr.rs:290). -/
def strictly : List (Term F) → Bool
  | [] => true
  | [_] => true
  | a :: b :: ts => decide (a.vars.lt b.vars) && strictly (b :: ts)

/-- `from_terms_sorted` (expr.rs:283-292). -/
def fromTermsSorted (ts : List (Term F)) : Option (Expr F) :=
  let ts := if ts.isEmpty then [Term.zero] else ts
  if ts.all (fun t => t.vars.isNormalized) && strictly ts then some ts else none

/-- `mul_constant` (expr.rs:354-367). -/
def mulConst (e : Expr F) (v : F) : Option (Expr F) :=
  if v = 0 then some [Term.zero] else fromTermsSorted (e.map (fun t => ⟨t.coef * v, t.vars⟩))

/-- The constant term found by the loop of `strip_constants` (basic.rs:428-434): the last one. -/
def constPart (e : Expr F) : F := e.foldl (fun c t => if t.vars = .const then t.coef else c) 0

/-- `strip_constants` (basic.rs:423-446; the same code is in final_build_opt.rs). -/
def strip (e : Expr F) : Option (Expr F × F × F) :=
  match e.filter (fun t => decide (t.vars ≠ .const)) with
  | [] => some ([Term.zero], 0, constPart e)
  | t :: ts =>
    if t.coef = 0 then none
    else match fromTermsSorted ((t :: ts).map (fun s => ⟨s.coef * t.coef⁻¹, s.vars⟩)) with
      | some r => some (r, t.coef, constPart e)
      | none => none

/-! ## k-way merge -/

/-- The heap of `lin_comb_inner` (basic.rs:468-501): take a term with least monomial among the heads.  Which of several equal
monomials comes first is unspecified in Rust; it does not influence the result, since their coefficients are added. -/
def pickMin : List (List (Term F)) → Option (Term F × List (List (Term F)))
  | [] => none
  | [] :: ls => pickMin ls
  | (t :: ts) :: ls => match pickMin ls with
    | none => some (t, ts :: ls)
    | some (s, ls') => if s.vars.lt t.vars then some (s, (t :: ts) :: ls') else some (t, ts :: ls)

/-- The order in which the heap loop (basic.rs:487-503) visits the terms; `fuel` = number of terms left. -/
def kmerge : Nat → List (List (Term F)) → List (Term F)
  | 0, _ => []
  | fuel + 1, ls => match pickMin ls with
    | none => []
    | some (t, ls') => t :: kmerge fuel ls'

/-- The body of the loop (basic.rs:504-517): add to the last term if it has the same monomial (and remove it when the sum is
zero), push otherwise.  `res` is the result so far, in reverse. -/
def pushTerm (res : List (Term F)) (t : Term F) : List (Term F) :=
  if t.coef = 0 then res
  else match res with
    | [] => [t]
    | l :: ls => if l.vars = t.vars then (if l.coef + t.coef = 0 then ls else ⟨l.coef + t.coef, l.vars⟩ :: ls) else t :: l :: ls

/-- The loop and the final conversion (basic.rs:486-523), on the lists of already scaled terms. -/
def mergeAll (ls : List (List (Term F))) : Option (Expr F) :=
  let res := ((kmerge (ls.map List.length).sum ls).foldl pushTerm []).reverse
  if res.isEmpty then some [Term.zero] else fromTermsSorted res

/-! ## Well-formed expressions -/

/-- Invariant of the expressions handled by the builder: not empty, strictly sorted, normalised, no zero coefficient (except in
the constant expression), no random terms, variables below `n`. -/
structure EOk (n : Nat) (e : Expr F) : Prop where
  ne : e ≠ []
  sorted : e.Pairwise (fun a b => a.vars.lt b.vars)
  norm : ∀ t ∈ e, t.vars.isNormalized = true
  coef : (∃ c, e = [⟨c, .const⟩]) ∨ ∀ t ∈ e, t.coef ≠ 0
  norandom : Expr.NoRandom e
  vars : ∀ v ∈ Expr.getVars e, v < n

/-- The value of an expression under a total assignment of the middle variables. -/
def value (E : Env F) (ρ : Nat → F) (e : Expr F) : F := Expr.lin (Expr.mon E (fun v => some (ρ v))) e

theorem EOk.mono {n m : Nat} {e : Expr F} (h : EOk n e) (hm : n ≤ m) : EOk m e :=
  ⟨h.ne, h.sorted, h.norm, h.coef, h.norandom, fun v hv => lt_of_lt_of_le (h.vars v hv) hm⟩

theorem eok_const (n : Nat) (c : F) : EOk n [⟨c, .const⟩] :=
  ⟨by simp, by simp, by simp [VarSpec.isNormalized], Or.inl ⟨c, rfl⟩, by intro t ht; simp at ht; simp [ht], by simp [Expr.getVars, VarSpec.vars]⟩

theorem eok_zero (n : Nat) : EOk n ([Term.zero] : Expr F) := eok_const n 0

theorem eok_linear {n x : Nat} {k : F} (hx : x < n) (hk : k ≠ 0) : EOk n [⟨k, .linear x⟩] :=
  ⟨by simp, by simp, by simp [VarSpec.isNormalized], Or.inr (by simpa using hk), by intro t ht; simp at ht; simp [ht],
    by simpa [Expr.getVars, VarSpec.vars] using hx⟩

theorem strictly_iff (ts : List (Term F)) : strictly ts = true ↔ ts.Pairwise (fun a b => a.vars.lt b.vars) := by
  induction ts with
  | nil => simp [strictly]
  | cons a ts ih =>
    cases ts with
    | nil => simp [strictly]
    | cons b ts =>
      simp only [strictly, Bool.and_eq_true, decide_eq_true_eq, ih]
      rw [List.pairwise_cons (a := a)]
      constructor
      · rintro ⟨h1, h2⟩
        refine ⟨fun x hx => ?_, h2⟩
        rcases List.mem_cons.1 hx with rfl | hx
        · exact h1
        · exact lt_trans h1 ((List.pairwise_cons.1 h2).1 x hx)
      · rintro ⟨h1, h2⟩
        exact ⟨h1 b (by simp), h2⟩

theorem fromTermsSorted_some {ts : List (Term F)} (hne : ts ≠ []) (hs : ts.Pairwise (fun a b => a.vars.lt b.vars))
    (hn : ∀ t ∈ ts, t.vars.isNormalized = true) : fromTermsSorted ts = some ts := by
  unfold fromTermsSorted
  have : ts.isEmpty = false := by simpa using hne
  simp only [this, Bool.false_eq_true, if_false]
  rw [if_pos]
  simp only [Bool.and_eq_true, List.all_eq_true]
  exact ⟨hn, (strictly_iff ts).2 hs⟩

/-! ### Values -/

theorem value_cons (E : Env F) (ρ : Nat → F) (t : Term F) (e : Expr F) :
    value E ρ (t :: e) = Expr.mon E (fun v => some (ρ v)) t.vars * t.coef + value E ρ e := by
  simp [value, Expr.lin]

theorem value_nil (E : Env F) (ρ : Nat → F) : value E ρ ([] : Expr F) = 0 := by simp [value, Expr.lin]

theorem value_append (E : Env F) (ρ : Nat → F) (a b : Expr F) : value E ρ (a ++ b) = value E ρ a + value E ρ b := by
  simp [value, Expr.lin]

theorem value_perm (E : Env F) (ρ : Nat → F) {a b : Expr F} (h : a.Perm b) : value E ρ a = value E ρ b := Expr.lin_perm _ h

theorem value_const (E : Env F) (ρ : Nat → F) (c : F) : value E ρ ([⟨c, .const⟩] : Expr F) = c := by
  simp [value, Expr.lin, Expr.mon]

theorem value_linear (E : Env F) (ρ : Nat → F) (k : F) (x : Nat) : value E ρ ([⟨k, .linear x⟩] : Expr F) = ρ x * k := by
  simp [value, Expr.lin, Expr.mon]

theorem value_scale (E : Env F) (ρ : Nat → F) (e : Expr F) (v : F) :
    value E ρ (e.map (fun t => (⟨t.coef * v, t.vars⟩ : Term F))) = value E ρ e * v := by
  induction e with
  | nil => simp [value_nil]
  | cons t e ih => simp only [List.map_cons, value_cons, ih]; ring

theorem mon_congr (E : Env F) (ρ ρ' : Nat → F) (v : VarSpec) (h : ∀ x ∈ v.vars, ρ x = ρ' x) :
    Expr.mon E (fun x => some (ρ x)) v = Expr.mon E (fun x => some (ρ' x)) v := by
  cases v with
  | const => rfl
  | linear x => simp [Expr.mon, h x (by simp [VarSpec.vars])]
  | quad x y => simp [Expr.mon, h x (by simp [VarSpec.vars]), h y (by simp [VarSpec.vars])]
  | custom g xs =>
    simp only [Expr.mon, Option.getD_some]
    congr 1
    exact List.map_congr_left (fun x hx => h x (by simpa [VarSpec.vars] using hx))
  | randomLinear x => rfl

theorem value_congr (E : Env F) (ρ ρ' : Nat → F) : ∀ (e : Expr F), (∀ v ∈ Expr.getVars e, ρ v = ρ' v) → value E ρ e = value E ρ' e := by
  intro e
  induction e with
  | nil => intro _; rfl
  | cons t e ih =>
    intro h
    rw [value_cons, value_cons, ih (fun v hv => h v (by
        rw [Expr.getVars, List.flatMap_cons, List.mem_append]; exact Or.inr hv)),
      mon_congr E ρ ρ' t.vars (fun v hv => h v (by
        rw [Expr.getVars, List.flatMap_cons, List.mem_append]; exact Or.inl hv))]

theorem value_constValue (E : Env F) (ρ : Nat → F) {e : Expr F} {c : F} (h : constValue e = some c) : value E ρ e = c := by
  unfold constValue at h
  split at h
  · rename_i c'
    cases h
    exact value_const E ρ c
  · cases h

/-! ### `mul_constant` -/

theorem mulConst_spec {n : Nat} {e : Expr F} (h : EOk n e) (v : F) :
    ∃ r, mulConst e v = some r ∧ EOk n r ∧ ∀ (E : Env F) ρ, value E ρ r = value E ρ e * v := by
  unfold mulConst
  split
  · rename_i hv
    exact ⟨_, rfl, eok_zero n, fun E ρ => by rw [hv, mul_zero]; exact value_const E ρ 0⟩
  · rename_i hv
    have hs : (e.map (fun t => (⟨t.coef * v, t.vars⟩ : Term F))).Pairwise (fun a b => a.vars.lt b.vars) := by
      rw [List.pairwise_map]; exact h.sorted
    have hn : ∀ t ∈ e.map (fun t => (⟨t.coef * v, t.vars⟩ : Term F)), t.vars.isNormalized = true := by
      intro t ht
      obtain ⟨s, hs, rfl⟩ := List.mem_map.1 ht
      exact h.norm s hs
    have hne : e.map (fun t => (⟨t.coef * v, t.vars⟩ : Term F)) ≠ [] := by simpa using h.ne
    refine ⟨_, fromTermsSorted_some hne hs hn, ⟨hne, hs, hn, ?_, ?_, ?_⟩, fun E ρ => value_scale E ρ e v⟩
    · rcases h.coef with ⟨c, rfl⟩ | hc
      · exact Or.inl ⟨c * v, rfl⟩
      · right
        intro t ht
        obtain ⟨s, hs, rfl⟩ := List.mem_map.1 ht
        exact mul_ne_zero (hc s hs) hv
    · intro t ht
      obtain ⟨s, hs, rfl⟩ := List.mem_map.1 ht
      exact h.norandom s hs
    · intro x hx
      refine h.vars x ?_
      simpa [Expr.getVars, List.flatMap_map] using hx

/-! ### `strip_constants` -/

theorem constPart_eq {e : Expr F} (hs : e.Pairwise (fun a b => a.vars.lt b.vars)) (E : Env F) (ρ : Nat → F) :
    value E ρ (e.filter (fun t => decide (t.vars ≠ .const))) + constPart e = value E ρ e := by
  have gen : ∀ (e : Expr F), e.Pairwise (fun a b => a.vars.lt b.vars) → ∀ c, (∀ t ∈ e, t.vars ≠ .const) →
      e.foldl (fun c t => if t.vars = .const then t.coef else c) c = c := by
    intro e
    induction e with
    | nil => intro _ c _; rfl
    | cons t e ih =>
      intro h c hc
      rw [List.foldl_cons, if_neg (hc t (by simp))]
      exact ih (List.pairwise_cons.1 h).2 c (fun s hs => hc s (by simp [hs]))
  cases e with
  | nil => simp [constPart, value_nil]
  | cons t e =>
    have hno : ∀ s ∈ e, s.vars ≠ .const := by
      intro s hs' hc
      have := (List.pairwise_cons.1 hs).1 s hs'
      rw [VarSpec.lt, hc] at this
      revert this
      cases t.vars <;> simp [VarSpec.key, List.cons_lt_cons_iff, -List.not_lt]
    have hf : e.filter (fun t => decide (t.vars ≠ .const)) = e := List.filter_eq_self.2 (by simpa using hno)
    unfold constPart
    rw [List.foldl_cons, gen e (List.pairwise_cons.1 hs).2 _ hno, List.filter_cons, hf, value_cons]
    by_cases h : t.vars = .const
    · simp [h, Expr.mon]; ring
    · simp [h, value_cons]

theorem strip_spec {n : Nat} {e : Expr F} (h : EOk n e) :
    ∃ r v c, strip e = some (r, v, c) ∧ EOk n r ∧ (∀ (E : Env F) ρ, value E ρ e = value E ρ r * v + c) ∧
      ((r = [Term.zero] ∧ v = 0 ∧ ∃ k, e = [⟨k, .const⟩]) ∨ (v ≠ 0 ∧ degree r ≠ 0 ∧ r.length ≤ e.length ∧ degree r = degree e ∧ (∀ t ∈ r, t.vars ≠ .const))) := by
  unfold strip
  have hv : ∀ (E : Env F) ρ, value E ρ (e.filter (fun t => decide (t.vars ≠ .const))) + constPart e = value E ρ e :=
    fun E ρ => constPart_eq h.sorted E ρ
  have hsub : (e.filter (fun t => decide (t.vars ≠ .const))).Sublist e := List.filter_sublist
  have hdeg : degree (e.filter (fun t => decide (t.vars ≠ .const))) = degree e := by
    have key : ∀ (p : Term F → Bool), (∀ t, t.vars = .const → p t = false) →
        (e.filter (fun t => decide (t.vars ≠ .const))).any p = e.any p := by
      intro p hp
      rw [List.any_filter]
      congr 1
      funext t
      by_cases ht : t.vars = .const
      · simp [ht, hp t ht]
      · simp [ht]
    unfold degree
    rw [key _ (by intro t ht; simp [ht]), key _ (by intro t ht; simp [ht])]
  have hnc : ∀ t ∈ e.filter (fun t => decide (t.vars ≠ .const)), t.vars ≠ .const := by
    intro t ht
    simpa using (List.mem_filter.1 ht).2
  have hall : e.filter (fun t => decide (t.vars ≠ .const)) = [] → ∃ k, e = [⟨k, .const⟩] := by
    intro hf
    have hc : ∀ t ∈ e, t.vars = .const := by
      intro t ht
      by_contra hne
      have : t ∈ e.filter (fun t => decide (t.vars ≠ .const)) := List.mem_filter.2 ⟨ht, by simpa using hne⟩
      rw [hf] at this
      simp at this
    rcases e with _ | ⟨⟨k, v⟩, _ | ⟨s, e⟩⟩
    · exact absurd rfl h.ne
    · have := hc ⟨k, v⟩ (by simp)
      simp only at this
      exact ⟨k, by rw [this]⟩
    · exfalso
      have h1 := hc ⟨k, v⟩ (by simp)
      have h2 := hc s (by simp)
      have := (List.pairwise_cons.1 h.sorted).1 s (by simp)
      rw [VarSpec.lt, h1, h2] at this
      exact lt_irrefl _ this
  revert hv hsub hdeg hnc hall
  generalize e.filter (fun t => decide (t.vars ≠ .const)) = r
  intro hv hsub hdeg hnc hall
  cases r with
  | nil =>
    refine ⟨_, _, _, rfl, eok_zero n, fun E ρ => ?_, Or.inl ⟨rfl, rfl, hall rfl⟩⟩
    rw [← hv E ρ, value_nil]; simp
  | cons t ts =>
    have hcoef : ∀ s ∈ t :: ts, s.coef ≠ 0 := by
      intro s hs
      rcases h.coef with ⟨c, rfl⟩ | hc
      · have := hnc s hs
        have h2 := hsub.subset hs
        simp at h2
        exact absurd (by rw [h2]) this
      · exact hc s (hsub.subset hs)
    have ht := hcoef t (by simp)
    have h0 := hsub.subset
    simp only [if_neg ht]
    have hs : ((t :: ts).map (fun s => (⟨s.coef * t.coef⁻¹, s.vars⟩ : Term F))).Pairwise (fun a b => a.vars.lt b.vars) := by
      rw [List.pairwise_map]; exact h.sorted.sublist hsub
    have hn : ∀ s ∈ (t :: ts).map (fun s => (⟨s.coef * t.coef⁻¹, s.vars⟩ : Term F)), s.vars.isNormalized = true := by
      intro s hs
      obtain ⟨u, hu, rfl⟩ := List.mem_map.1 hs
      exact h.norm u (h0 hu)
    rw [fromTermsSorted_some (by simp) hs hn]
    refine ⟨_, _, _, rfl, ⟨by simp, hs, hn, Or.inr ?_, ?_, ?_⟩, fun E ρ => ?_, Or.inr ⟨ht, ?_, ?_, ?_, ?_⟩⟩
    · intro s hs
      obtain ⟨u, hu, rfl⟩ := List.mem_map.1 hs
      exact mul_ne_zero (hcoef u hu) (inv_ne_zero ht)
    · intro s hs
      obtain ⟨u, hu, rfl⟩ := List.mem_map.1 hs
      exact h.norandom u (h0 hu)
    · intro x hx
      refine h.vars x ?_
      have hx' : x ∈ Expr.getVars (t :: ts) := by simpa [Expr.getVars, List.flatMap_map] using hx
      obtain ⟨u, hu, hxu⟩ := List.mem_flatMap.1 hx'
      exact List.mem_flatMap.2 ⟨u, h0 hu, hxu⟩
    · rw [value_scale, ← hv E ρ, mul_assoc, inv_mul_cancel₀ ht, mul_one]
    · have h1 := hnc t (by simp)
      unfold degree
      split
      · simp
      · rename_i hq
        have : (t :: ts).any (fun t => match t.vars with | .linear _ => true | _ => false) = true := by
          rw [List.any_eq_true]
          refine ⟨t, by simp, ?_⟩
          rw [Bool.not_eq_true, List.any_eq_false] at hq
          have := hq ⟨t.coef * t.coef⁻¹, t.vars⟩ (by simp)
          revert this h1
          cases t.vars <;> simp
        have h2 : ((t :: ts).map (fun s => (⟨s.coef * t.coef⁻¹, s.vars⟩ : Term F))).any (fun t => match t.vars with | .linear _ => true | _ => false) = true := by
          rw [List.any_map]; exact this
        rw [if_pos h2]; simp
    · have := hsub.length_le
      simpa using this
    · rw [← hdeg]
      unfold degree
      rw [List.any_map, List.any_map]
      rfl
    · intro s hs
      obtain ⟨u, hu, rfl⟩ := List.mem_map.1 hs
      exact hnc u hu

/-! ### merge -/

theorem pickMin_perm : ∀ {ls : List (List (Term F))} {t ls'}, pickMin ls = some (t, ls') → ls.flatten.Perm (t :: ls'.flatten) := by
  intro ls
  induction ls with
  | nil => intro t ls' h; cases h
  | cons l ls ih =>
    intro t ls' h
    cases l with
    | nil => simpa [pickMin] using ih h
    | cons a l =>
      simp only [pickMin] at h
      split at h
      · rename_i hn
        simp only [Option.some.injEq, Prod.mk.injEq] at h
        obtain ⟨rfl, rfl⟩ := h
        simp
      · rename_i s ls2 hs
        split at h
        · simp only [Option.some.injEq, Prod.mk.injEq] at h
          obtain ⟨rfl, rfl⟩ := h
          have := ih hs
          simp only [List.flatten_cons]
          exact (List.Perm.append_left (a :: l) this).trans List.perm_middle
        · simp only [Option.some.injEq, Prod.mk.injEq] at h
          obtain ⟨rfl, rfl⟩ := h
          simp

theorem pickMin_none : ∀ {ls : List (List (Term F))}, pickMin ls = none → ls.flatten = [] := by
  intro ls
  induction ls with
  | nil => intro _; rfl
  | cons l ls ih =>
    intro h
    cases l with
    | nil => simpa [pickMin] using ih h
    | cons a l =>
      simp only [pickMin] at h
      split at h
      · cases h
      · split at h <;> cases h

theorem pickMin_min : ∀ {ls : List (List (Term F))} {t ls'}, (∀ l ∈ ls, l.Pairwise (fun a b => a.vars.key ≤ b.vars.key)) →
    pickMin ls = some (t, ls') → (∀ s ∈ ls.flatten, t.vars.key ≤ s.vars.key) ∧ (∀ l ∈ ls', l.Pairwise (fun a b => a.vars.key ≤ b.vars.key)) := by
  intro ls
  induction ls with
  | nil => intro t ls' _ h; cases h
  | cons l ls ih =>
    intro t ls' hl h
    have hl' := fun x hx => hl x (List.mem_cons_of_mem _ hx)
    cases l with
    | nil => simpa [pickMin] using ih hl' h
    | cons a l =>
      have ha := hl (a :: l) (by simp)
      have ha1 : ∀ s ∈ a :: l, a.vars.key ≤ s.vars.key := by
        intro s hs
        rcases List.mem_cons.1 hs with rfl | hs
        · exact le_refl _
        · exact (List.pairwise_cons.1 ha).1 s hs
      simp only [pickMin] at h
      split at h
      · rename_i hn
        simp only [Option.some.injEq, Prod.mk.injEq] at h
        obtain ⟨rfl, rfl⟩ := h
        refine ⟨?_, ?_⟩
        · rw [List.flatten_cons, pickMin_none hn]
          simpa using ha1
        · intro x hx
          rcases List.mem_cons.1 hx with rfl | hx
          · exact (List.pairwise_cons.1 ha).2
          · exact hl' x hx
      · rename_i s ls2 hs
        obtain ⟨h1, h2⟩ := ih hl' hs
        split at h
        · rename_i hlt
          simp only [Option.some.injEq, Prod.mk.injEq] at h
          obtain ⟨rfl, rfl⟩ := h
          refine ⟨?_, ?_⟩
          · intro x hx
            rw [List.flatten_cons, List.mem_append] at hx
            rcases hx with hx | hx
            · exact le_trans (le_of_lt hlt) (ha1 x hx)
            · exact h1 x hx
          · intro x hx
            rcases List.mem_cons.1 hx with rfl | hx
            · exact ha
            · exact h2 x hx
        · rename_i hlt
          simp only [Option.some.injEq, Prod.mk.injEq] at h
          obtain ⟨rfl, rfl⟩ := h
          refine ⟨?_, ?_⟩
          · intro x hx
            rw [List.flatten_cons, List.mem_append] at hx
            rcases hx with hx | hx
            · exact ha1 x hx
            · exact le_trans (not_lt.1 hlt) (h1 x hx)
          · intro x hx
            rcases List.mem_cons.1 hx with rfl | hx
            · exact (List.pairwise_cons.1 ha).2
            · exact hl' x hx

theorem kmerge_perm : ∀ (fuel : Nat) (ls : List (List (Term F))), ls.flatten.length ≤ fuel → (kmerge fuel ls).Perm ls.flatten := by
  intro fuel
  induction fuel with
  | zero =>
    intro ls h
    have : ls.flatten = [] := List.length_eq_zero_iff.1 (by omega)
    rw [this]; exact List.Perm.refl _
  | succ n ih =>
    intro ls h
    rw [kmerge]
    cases hp : pickMin ls with
    | none => rw [pickMin_none hp]
    | some r =>
      obtain ⟨t, ls'⟩ := r
      have := pickMin_perm hp
      have hl := this.length_eq
      rw [List.length_cons] at hl
      exact ((ih ls' (by omega)).cons t).trans this.symm

theorem kmerge_sorted : ∀ (fuel : Nat) (ls : List (List (Term F))), ls.flatten.length ≤ fuel →
    (∀ l ∈ ls, l.Pairwise (fun a b => a.vars.key ≤ b.vars.key)) → (kmerge fuel ls).Pairwise (fun a b => a.vars.key ≤ b.vars.key) := by
  intro fuel
  induction fuel with
  | zero => intro ls _ _; exact List.Pairwise.nil
  | succ n ih =>
    intro ls h hl
    rw [kmerge]
    cases hp : pickMin ls with
    | none => exact List.Pairwise.nil
    | some r =>
      obtain ⟨t, ls'⟩ := r
      have hperm := pickMin_perm hp
      have hlen := hperm.length_eq
      rw [List.length_cons] at hlen
      obtain ⟨h1, h2⟩ := pickMin_min hl hp
      simp only
      rw [List.pairwise_cons]
      refine ⟨fun s hs => h1 s ?_, ih ls' (by omega) h2⟩
      rw [hperm.mem_iff]
      exact List.mem_cons_of_mem _ ((kmerge_perm n ls' (by omega)).mem_iff.1 hs)

theorem value_pushTerm (E : Env F) (ρ : Nat → F) (res : List (Term F)) (t : Term F) :
    value E ρ (pushTerm res t) = value E ρ res + Expr.mon E (fun v => some (ρ v)) t.vars * t.coef := by
  unfold pushTerm
  split
  · rename_i h; rw [h]; ring
  · split
    · simp [value_cons, value_nil]
    · rename_i l ls
      split
      · rename_i hv
        split
        · rename_i hz
          have : l.coef = - t.coef := eq_neg_of_add_eq_zero_left hz
          rw [value_cons, this, hv]; ring
        · simp only [value_cons, ← hv]; ring
      · simp only [value_cons]; ring

theorem value_foldPush (E : Env F) (ρ : Nat → F) : ∀ (ts res : List (Term F)),
    value E ρ (ts.foldl pushTerm res) = value E ρ res + value E ρ ts := by
  intro ts
  induction ts with
  | nil => intro res; simp [value_nil]
  | cons t ts ih => intro res; rw [List.foldl_cons, ih, value_pushTerm, value_cons]; ring

/-- The shape invariant of the merge loop: the result so far (in reverse) strictly decreases, and nothing in it exceeds the terms to come. -/
theorem foldPush_shape : ∀ (ts res : List (Term F)), ts.Pairwise (fun a b => a.vars.key ≤ b.vars.key) →
    res.Pairwise (fun a b => b.vars.lt a.vars) → (∀ r ∈ res, r.coef ≠ 0) → (∀ r ∈ res, ∀ t ∈ ts, r.vars.key ≤ t.vars.key) →
    let out := ts.foldl pushTerm res
    out.Pairwise (fun a b => b.vars.lt a.vars) ∧ (∀ r ∈ out, r.coef ≠ 0) ∧ (∀ r ∈ out, ∃ t ∈ res ++ ts, t.vars = r.vars) := by
  intro ts
  induction ts with
  | nil => intro res _ h1 h2 _; exact ⟨h1, h2, fun r hr => ⟨r, by simpa using hr, rfl⟩⟩
  | cons t ts ih =>
    intro res hts h1 h2 h3
    have hts' := List.pairwise_cons.1 hts
    have step : (pushTerm res t).Pairwise (fun a b => b.vars.lt a.vars) ∧ (∀ r ∈ pushTerm res t, r.coef ≠ 0) ∧
        (∀ r ∈ pushTerm res t, ∃ s ∈ res ++ [t], s.vars = r.vars) := by
      unfold pushTerm
      split
      · exact ⟨h1, h2, fun r hr => ⟨r, by simp [hr], rfl⟩⟩
      · rename_i ht
        split
        · exact ⟨by simp, by simpa using ht, fun r hr => ⟨r, by simpa using hr, rfl⟩⟩
        · rename_i l ls
          have h1' := List.pairwise_cons.1 h1
          split
          · rename_i hv
            split
            · exact ⟨h1'.2, fun r hr => h2 r (by simp [hr]), fun r hr => ⟨r, by simp [hr], rfl⟩⟩
            · rename_i hz
              refine ⟨?_, ?_, ?_⟩
              · rw [List.pairwise_cons]; exact h1'
              · intro r hr
                rcases List.mem_cons.1 hr with rfl | hr
                · exact hz
                · exact h2 r (by simp [hr])
              · intro r hr
                rcases List.mem_cons.1 hr with rfl | hr
                · exact ⟨l, by simp, rfl⟩
                · exact ⟨r, by simp [hr], rfl⟩
          · rename_i hv
            refine ⟨?_, ?_, ?_⟩
            · rw [List.pairwise_cons]
              refine ⟨fun r hr => ?_, h1⟩
              have hle : l.vars.key ≤ t.vars.key := h3 l (by simp) t (by simp)
              have hlt : l.vars.key < t.vars.key := lt_of_le_of_ne hle (fun k => hv (VarSpec.key_injective k))
              rcases List.mem_cons.1 hr with rfl | hr
              · exact hlt
              · exact lt_trans (h1'.1 r hr) hlt
            · intro r hr
              rcases List.mem_cons.1 hr with rfl | hr
              · exact ht
              · exact h2 r hr
            · intro r hr
              rcases List.mem_cons.1 hr with rfl | hr
              · exact ⟨r, by simp, rfl⟩
              · exact ⟨r, by simp only [List.mem_append]; exact Or.inl hr, rfl⟩
    obtain ⟨s1, s2, s3⟩ := step
    have := ih (pushTerm res t) hts'.2 s1 s2 (by
      intro r hr u hu
      obtain ⟨s, hs, e⟩ := s3 r hr
      rw [← e]
      rcases List.mem_append.1 hs with hs | hs
      · exact h3 s hs u (by simp [hu])
      · simp at hs; subst hs; exact hts'.1 u hu)
    obtain ⟨o1, o2, o3⟩ := this
    refine ⟨o1, o2, fun r hr => ?_⟩
    obtain ⟨s, hs, e⟩ := o3 r hr
    rcases List.mem_append.1 hs with hs | hs
    · obtain ⟨u, hu, e'⟩ := s3 s hs
      refine ⟨u, ?_, by rw [e', e]⟩
      rcases List.mem_append.1 hu with hu | hu
      · exact List.mem_append_left _ hu
      · simp at hu; simp [hu]
    · exact ⟨s, by simp [hs], e⟩

theorem mem_sum_flatten (ls : List (List (Term F))) : ls.flatten.length = (ls.map List.length).sum := by
  rw [List.length_flatten]

/-- Merging sorted lists of terms: the result is well-formed and its value is the sum of all terms. -/
theorem mergeAll_spec {n : Nat} {ls : List (List (Term F))}
    (hs : ∀ l ∈ ls, l.Pairwise (fun a b => a.vars.lt b.vars))
    (hn : ∀ l ∈ ls, ∀ t ∈ l, t.vars.isNormalized = true)
    (hr : ∀ l ∈ ls, Expr.NoRandom l) (hv : ∀ l ∈ ls, ∀ v ∈ Expr.getVars l, v < n) :
    ∃ r, mergeAll ls = some r ∧ EOk n r ∧ ∀ (E : Env F) ρ, value E ρ r = (ls.map (value E ρ)).sum := by
  unfold mergeAll
  have hlen := (mem_sum_flatten ls).le
  have hperm := kmerge_perm _ ls hlen
  have hsort := kmerge_sorted _ ls hlen (fun l hl => (hs l hl).imp (fun h => le_of_lt h))
  revert hperm hsort
  generalize kmerge (ls.map List.length).sum ls = ts
  intro hperm hsort
  obtain ⟨h1, h2, h3⟩ := foldPush_shape ts [] hsort (by simp) (by simp) (by simp)
  have hval : ∀ (E : Env F) ρ, value E ρ (ts.foldl pushTerm []).reverse = (ls.map (value E ρ)).sum := by
    intro E ρ
    rw [value_perm E ρ (List.reverse_perm _), value_foldPush, value_nil, zero_add, value_perm E ρ hperm]
    clear hperm hs hn hr hv hlen
    induction ls with
    | nil => simp [value_nil]
    | cons l ls ih => rw [List.flatten_cons, value_append, ih]; simp
  revert h1 h2 h3 hval
  simp only
  generalize ts.foldl pushTerm [] = out
  intro h1 h2 h3 hval
  have hmem : ∀ r ∈ out.reverse, ∃ l ∈ ls, ∃ t ∈ l, t.vars = r.vars := by
    intro r hr
    obtain ⟨t, ht, e⟩ := h3 r (by simpa using hr)
    have := hperm.mem_iff.1 (by simpa using ht)
    obtain ⟨l, hl, htl⟩ := List.mem_flatten.1 this
    exact ⟨l, hl, t, htl, e⟩
  split
  · rename_i he
    rw [List.isEmpty_iff] at he
    refine ⟨_, rfl, eok_zero n, fun E ρ => ?_⟩
    rw [← hval E ρ, he, value_nil]; exact value_const E ρ 0
  · rename_i he
    have hne : out.reverse ≠ [] := fun e => he (by rw [e]; rfl)
    have hst : out.reverse.Pairwise (fun a b => a.vars.lt b.vars) := by rw [List.pairwise_reverse]; exact h1
    have hnm : ∀ t ∈ out.reverse, t.vars.isNormalized = true := by
      intro r hr'
      obtain ⟨l, hl, t, ht, e⟩ := hmem r hr'
      rw [← e]; exact hn l hl t ht
    refine ⟨_, fromTermsSorted_some hne hst hnm, ⟨hne, hst, hnm, Or.inr (fun t ht => h2 t (by simpa using ht)), ?_, ?_⟩, hval⟩
    · intro r hr'
      obtain ⟨l, hl, t, ht, e⟩ := hmem r hr'
      rw [← e]; exact hr l hl t ht
    · intro v hv'
      obtain ⟨r, hr', hvr⟩ := List.mem_flatMap.1 hv'
      obtain ⟨l, hl, t, ht, e⟩ := hmem r hr'
      rw [← e] at hvr
      exact hv l hl v (List.mem_flatMap.2 ⟨t, ht, hvr⟩)

theorem EOk.scaled {n : Nat} {e : Expr F} (h : EOk n e) (c : F) :
    let l := e.map (fun t => (⟨t.coef * c, t.vars⟩ : Term F))
    l.Pairwise (fun a b => a.vars.lt b.vars) ∧ (∀ t ∈ l, t.vars.isNormalized = true) ∧ Expr.NoRandom l ∧ (∀ v ∈ Expr.getVars l, v < n) := by
  refine ⟨by rw [List.pairwise_map]; exact h.sorted, ?_, ?_, ?_⟩
  · intro t ht; obtain ⟨s, hs, rfl⟩ := List.mem_map.1 ht; exact h.norm s hs
  · intro t ht; obtain ⟨s, hs, rfl⟩ := List.mem_map.1 ht; exact h.norandom s hs
  · intro x hx
    refine h.vars x ?_
    simpa [Expr.getVars, List.flatMap_map] using hx

/-- `from_terms` on terms without random parts gives a well-formed expression with the same value. -/
theorem fromTerms_spec {n : Nat} {ts : List (Term F)} (hr : Expr.NoRandom ts) (hv : ∀ v ∈ Expr.getVars ts, v < n) :
    EOk n (Expr.fromTerms ts) ∧ ∀ (E : Env F) ρ, value E ρ (Expr.fromTerms ts) = value E ρ ts := by
  refine ⟨⟨?_, Expr.fromTerms_sorted ts, Expr.fromTerms_normalized ts, ?_, Expr.fromTerms_noRandom hr,
    fun v h => hv v (Expr.fromTerms_vars ts v h)⟩, fun E ρ => Expr.lin_fromTerms E _ ts⟩
  · rcases Expr.fromTerms_nonzero ts with h | h
    · rw [h]; simp
    · exact h.1
  · rcases Expr.fromTerms_nonzero ts with h | h
    · exact Or.inl ⟨0, h⟩
    · exact Or.inr h.2

end Verif.Builder
