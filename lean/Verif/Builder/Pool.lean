import Verif.Builder.ExprOps

/-!
# The pool of middle variables and the operations that extend it (builder/basic.rs)
-/

set_option linter.unusedSectionVars false
set_option linter.unusedSimpArgs false

namespace Verif.Builder

open Verif.IR

variable {F : Type} [Field F] [DecidableEq F]

/-- `Pool<Expression>` (utils/pool.rs:3-57): the vector; the hash map from values to indices is its inverse. -/
abbrev Pool (F : Type) := List (Expr F)

/-- `Pool::add` (utils/pool.rs:20-28). -/
def poolAdd (p : Pool F) (e : Expr F) : Pool F × Nat :=
  match p.idxOf? e with
  | some i => (p, i)
  | none => (p ++ [e], p.length)

/-- `unstrip_constants_single` (basic.rs:448-459). -/
def unstripSingle (vid : Nat) (coef c : F) : Option (Expr F) :=
  if vid = 0 then none
  else some (Expr.fromTerms (⟨coef, .linear vid⟩ :: (if c = 0 then [] else [⟨c, .const⟩])))

/-- `to_single` (basic.rs:379-386). -/
def toSingle (p : Pool F) (e : Expr F) : Option (Pool F × Expr F) :=
  match strip e with
  | none => none
  | some (r, v, c) =>
    if r.length = 1 ∧ degree r ≤ 1 then some (p, e)
    else match unstripSingle (poolAdd p r).2 v c with
      | none => none
      | some s => some ((poolAdd p r).1, s)

/-- `to_single_stripped` (basic.rs:388-398). -/
def toSingleStripped (p : Pool F) (e : Expr F) : Option (Pool F × Nat × F × F) :=
  match strip e with
  | none => none
  | some (r, v, c) => if degree r = 0 then some (p, 0, v, c) else some ((poolAdd p r).1, (poolAdd p r).2, v, c)

/-- `to_really_single` (basic.rs:400-410), the effect on the pool (the only caller ignores the returned expression). -/
def toReallySingle (p : Pool F) (e : Expr F) : Pool F :=
  if e.length = 1 ∧ degree e = 1 ∧ (e.map Term.coef)[0]? = some 1 then p else (poolAdd p e).1

/-- `COMPRESS_THRESHOLD_ADD` (basic.rs:461). -/
def thresholdAdd : Nat := 10
/-- `COMPRESS_THRESHOLD_MUL` (basic.rs:462). -/
def thresholdMul : Nat := 40

/-- First loop of `lin_comb_inner` (basic.rs:475-498): drop zero coefficients, compress long expressions; the terms are scaled
here rather than when they leave the heap.  `v[0]` panics on an empty expression. -/
def compressAll : Pool F → List (Expr F × F) → Option (Pool F × List (List (Term F)))
  | p, [] => some (p, [])
  | p, (e, c) :: vs =>
    if c = 0 then compressAll p vs
    else if thresholdAdd < e.length then
      match toSingle p e with
      | none => none
      | some (p', r) => if r.isEmpty then none else match compressAll p' vs with
        | none => none
        | some (p'', ls) => some (p'', r.map (fun t => ⟨t.coef * c, t.vars⟩) :: ls)
    else if e.isEmpty then none else match compressAll p vs with
      | none => none
      | some (p'', ls) => some (p'', e.map (fun t => ⟨t.coef * c, t.vars⟩) :: ls)

/-- `lin_comb_inner` (basic.rs:464-524): expressions with their coefficients. -/
def linCombInner (p : Pool F) (vs : List (Expr F × F)) : Option (Pool F × Expr F) :=
  match vs with
  | [] => some (p, [Term.zero])
  | [(e, c)] => match mulConst e c with
    | some r => some (p, r)
    | none => none
  | vs => match compressAll p vs with
    | none => none
    | some (p', ls) => match mergeAll ls with
      | some r => some (p', r)
      | none => none

/-- `Term::mul` (expr.rs:155-162). -/
def mulTerm (a b : Term F) : Option (Term F) :=
  match a.vars.mul b.vars with
  | some v => some ⟨a.coef * b.coef, v⟩
  | none => none

/-- The rows of a product (basic.rs:577-582). -/
def rows (v1 v2 : Expr F) : Option (List (Expr F)) :=
  mapOpt (fun x1 => match mapOpt (mulTerm x1) v2 with | some ts => some (Expr.fromTerms ts) | none => none) v1

/-- Compression of an operand of degree two (basic.rs:541-552). -/
def lowerDegree (p : Pool F) (e : Expr F) : Option (Pool F × Expr F) :=
  if degree e = 2 then toSingle p e else some (p, e)

/-- Compression of long operands (basic.rs:556-576), after the swap that puts the shorter operand first. -/
def shorten (p : Pool F) (v1 v2 : Expr F) : Option (Pool F × Expr F × Expr F) :=
  if thresholdMul < v1.length then
    match toSingle p v1 with
    | none => none
    | some (p1, w1) => match toSingle p1 v2 with
      | none => none
      | some (p2, w2) => some (p2, w1, w2)
  else if thresholdMul < v1.length * v2.length then
    match toSingle p v2 with
    | none => none
    | some (p2, w2) => some (p2, v1, w2)
  else some (p, v1, v2)

/-- End of `mul_two_expr` (basic.rs:556-590). -/
def finishMul (p : Pool F) (v1 v2 : Expr F) : Option (Pool F × Expr F) :=
  match shorten p v1 v2 with
  | none => none
  | some (p3, w1, w2) => match rows w1 w2 with
    | none => none
    | some rs => linCombInner p3 (rs.map (fun r => (r, 1)))

/-- `mul_two_expr` (basic.rs:526-590). -/
def mulTwo (p : Pool F) (a b : Expr F) : Option (Pool F × Expr F) :=
  if degree a = 0 then
    match constValue a with
    | none => none
    | some c => match mulConst b c with
      | some r => some (p, r)
      | none => none
  else if degree b = 0 then
    match constValue b with
    | none => none
    | some c => match mulConst a c with
      | some r => some (p, r)
      | none => none
  else match lowerDegree p a with
    | none => none
    | some (p1, v1) => match lowerDegree p1 b with
      | none => none
      | some (p2, v2) =>
        if v2.length < v1.length then finishMul p2 v2 v1 else finishMul p2 v1 v2

/-! ## Invariants -/

/-- Entry 0 is the invalid expression; entry `i` refers to variables up to `i`. -/
structure PoolWF (p : Pool F) : Prop where
  zero : p[0]? = some []
  ok : ∀ (i : Nat) e, p[i]? = some e → i ≠ 0 → EOk (i + 1) e

/-- `p'` extends `p` by entries that refer to strictly smaller variables. -/
structure Ext (p p' : Pool F) : Prop where
  pre : p <+: p'
  ok : ∀ (i : Nat) e, p.length ≤ i → p'[i]? = some e → EOk i e

/-- The assignment respects the pool: a variable has the value of its expression. -/
def PoolOk (E : Env F) (ρ : Nat → F) (p : Pool F) : Prop := ∀ (i : Nat) e, p[i]? = some e → i ≠ 0 → ρ i = value E ρ e

theorem Ext.refl (p : Pool F) : Ext p p :=
  ⟨List.prefix_rfl, fun i e h1 h2 => absurd (List.getElem?_eq_some_iff.1 h2).1 (by omega)⟩

theorem Ext.len {p p' : Pool F} (h : Ext p p') : p.length ≤ p'.length := h.pre.length_le

theorem prefix_getElem? {α : Type} {p p' : List α} (h : p <+: p') {i : Nat} (hi : i < p.length) : p'[i]? = p[i]? := by
  obtain ⟨t, rfl⟩ := h
  rw [List.getElem?_append_left hi]

theorem Ext.trans {p q r : Pool F} (h1 : Ext p q) (h2 : Ext q r) : Ext p r := by
  refine ⟨h1.pre.trans h2.pre, fun i e hi he => ?_⟩
  by_cases hq : i < q.length
  · rw [prefix_getElem? h2.pre hq] at he
    exact h1.ok i e hi he
  · exact h2.ok i e (by omega) he

theorem PoolWF.pos {p : Pool F} (h : PoolWF p) : 0 < p.length := by
  have := (List.getElem?_eq_some_iff.1 h.zero).1; omega

theorem Ext.wf {p p' : Pool F} (h : Ext p p') (hp : PoolWF p) : PoolWF p' := by
  refine ⟨by rw [prefix_getElem? h.pre hp.pos]; exact hp.zero, fun i e he hi => ?_⟩
  by_cases hq : i < p.length
  · rw [prefix_getElem? h.pre hq] at he
    exact hp.ok i e he hi
  · exact (h.ok i e (by omega) he).mono (by omega)

theorem PoolOk.prefix {E : Env F} {ρ : Nat → F} {p p' : Pool F} (h : PoolOk E ρ p') (hp : p <+: p') : PoolOk E ρ p := by
  intro i e he hi
  have : i < p.length := (List.getElem?_eq_some_iff.1 he).1
  exact h i e (by rw [prefix_getElem? hp this]; exact he) hi

theorem PoolOk.congr {E : Env F} {ρ ρ' : Nat → F} {p : Pool F} (hp : PoolWF p) (h : PoolOk E ρ p) (he : ∀ i, i < p.length → ρ' i = ρ i) :
    PoolOk E ρ' p := by
  intro i e hi h0
  have hlt : i < p.length := (List.getElem?_eq_some_iff.1 hi).1
  rw [he i hlt, h i e hi h0]
  exact value_congr E ρ ρ' e (fun v hv => (he v (by have := (hp.ok i e hi h0).vars v hv; omega)).symm)

/-- Any consistent assignment can be extended to new internal variables. -/
theorem Ext.extend (E : Env F) {p p' : Pool F} (h : Ext p p') (hp : PoolWF p) {ρ : Nat → F} (ho : PoolOk E ρ p) :
    ∃ ρ', (∀ i, i < p.length → ρ' i = ρ i) ∧ PoolOk E ρ' p' := by
  obtain ⟨t, rfl⟩ := h.pre
  induction t using List.reverseRecOn with
  | nil => exact ⟨ρ, fun _ _ => rfl, by simpa using ho⟩
  | append_singleton t e ih =>
    have hx : Ext p (p ++ t) := by
      refine ⟨List.prefix_append _ _, fun i d hi hd => h.ok i d hi ?_⟩
      rw [← List.append_assoc, List.getElem?_append_left (List.getElem?_eq_some_iff.1 hd).1]
      exact hd
    obtain ⟨ρ1, h1, h2⟩ := ih hx
    have hwf := hx.wf hp
    have hnew : EOk (p ++ t).length e := h.ok _ e (by simp) (by rw [← List.append_assoc]; simp)
    refine ⟨fun i => if i = (p ++ t).length then value E ρ1 e else ρ1 i, fun i hi => ?_, ?_⟩
    · have hlt : i ≠ (p ++ t).length := by rw [List.length_append]; omega
      simp only [if_neg hlt]
      exact h1 i hi
    · have hold := h2.congr (ρ' := fun i => if i = (p ++ t).length then value E ρ1 e else ρ1 i) hwf (fun i hi => by
        have hlt : i ≠ (p ++ t).length := by omega
        simp only [if_neg hlt])
      intro i d hd hi
      rw [← List.append_assoc] at hd
      by_cases hlt : i < (p ++ t).length
      · rw [List.getElem?_append_left hlt] at hd
        exact hold i d hd hi
      · have hl := (List.getElem?_eq_some_iff.1 hd).1
        simp only [List.length_append, List.length_singleton] at hl hlt
        have hi' : i = (p ++ t).length := by rw [List.length_append]; omega
        subst hi'
        simp at hd
        subst hd
        simp only [if_true]
        refine value_congr E _ _ _ (fun v hv => ?_)
        have := hnew.vars v hv
        have hne : v ≠ (p ++ t).length := by omega
        simp only [if_neg hne]

/-! ## Specifications -/

theorem idxOf?_get {α : Type} [BEq α] [LawfulBEq α] {l : List α} {a : α} {i : Nat} (h : l.idxOf? a = some i) : l[i]? = some a := by
  induction l generalizing i with
  | nil => simp [List.idxOf?] at h
  | cons b l ih =>
    rw [List.idxOf?_cons] at h
    split at h
    · rename_i hb
      simp at h hb
      subst h; simp [hb]
    · simp only [Option.map_eq_some_iff] at h
      obtain ⟨j, hj, rfl⟩ := h
      simpa using ih hj

theorem poolAdd_spec {p : Pool F} {e : Expr F} (hp : PoolWF p) (he : EOk p.length e) :
    Ext p (poolAdd p e).1 ∧ (poolAdd p e).2 ≠ 0 ∧ (poolAdd p e).1[(poolAdd p e).2]? = some e := by
  unfold poolAdd
  split
  · rename_i i hi
    have := idxOf?_get hi
    refine ⟨Ext.refl p, fun h0 => ?_, this⟩
    simp only at h0
    rw [h0, hp.zero] at this
    exact he.ne (by cases this; rfl)
  · refine ⟨⟨List.prefix_append _ _, fun i d hi hd => ?_⟩, by have := hp.pos; simp only; omega, by simp⟩
    have hl := (List.getElem?_eq_some_iff.1 hd).1
    simp only [List.length_append, List.length_singleton] at hl
    have : i = p.length := by omega
    subst this
    simp at hd
    subst hd
    exact he

theorem degree_le_one (e : Expr F) : degree e ≤ 1 ↔ ∀ t ∈ e, t.vars = .const ∨ ∃ x, t.vars = .linear x := by
  unfold degree
  constructor
  · intro h
    split at h
    · omega
    · rename_i hq
      intro t ht
      rw [Bool.not_eq_true, List.any_eq_false] at hq
      have := hq t ht
      revert this
      cases t.vars <;> simp
  · intro h
    rw [if_neg]
    · split <;> omega
    · rw [Bool.not_eq_true, List.any_eq_false]
      intro t ht
      rcases h t ht with h | ⟨x, h⟩ <;> simp [h]

theorem degree_le_two (e : Expr F) : degree e ≤ 2 := by unfold degree; split <;> [omega; (split <;> omega)]

theorem degree_zero {n : Nat} {e : Expr F} (h : EOk n e) (hd : degree e = 0) : ∃ c, e = [⟨c, .const⟩] := by
  have hall : ∀ t ∈ e, t.vars = .const := by
    intro t ht
    rcases (degree_le_one e).1 (by omega) t ht with h | ⟨x, hx⟩
    · exact h
    · exfalso
      unfold degree at hd
      split at hd
      · omega
      · rw [if_pos] at hd
        · omega
        · rw [List.any_eq_true]; exact ⟨t, ht, by simp [hx]⟩
  rcases e with _ | ⟨⟨k, v⟩, _ | ⟨s, e⟩⟩
  · exact absurd rfl h.ne
  · have := hall ⟨k, v⟩ (by simp)
    simp only at this
    exact ⟨k, by rw [this]⟩
  · exfalso
    have h1 := hall ⟨k, v⟩ (by simp)
    have h2 := hall s (by simp)
    have := (List.pairwise_cons.1 h.sorted).1 s (by simp)
    rw [VarSpec.lt, h1, h2] at this
    exact lt_irrefl _ this

theorem toSingle_spec {p : Pool F} {e : Expr F} (hp : PoolWF p) (he : EOk p.length e) :
    ∃ p' r, toSingle p e = some (p', r) ∧ Ext p p' ∧ EOk p'.length r ∧ degree r ≤ 1 ∧ ∀ E ρ, PoolOk E ρ p' → value E ρ r = value E ρ e := by
  obtain ⟨r, v, c, hs, hr, hv, hcase⟩ := strip_spec he
  unfold toSingle
  rw [hs]
  simp only
  split
  · rename_i hc
    refine ⟨p, e, rfl, Ext.refl p, he, ?_, fun _ _ _ => rfl⟩
    rcases hcase with ⟨_, _, k, rfl⟩ | ⟨_, _, _, h, _⟩
    · simp [degree]
    · rw [← h]; exact hc.2
  · rename_i hc
    obtain ⟨h1, h2, h3⟩ := poolAdd_spec hp hr
    unfold unstripSingle
    rw [if_neg h2]
    have hlt := (List.getElem?_eq_some_iff.1 h3).1
    have hnr : Expr.NoRandom (⟨v, .linear (poolAdd p r).2⟩ :: (if c = 0 then [] else [⟨c, .const⟩]) : List (Term F)) := by
      intro t ht
      rcases List.mem_cons.1 ht with rfl | ht
      · simp
      · split at ht
        · simp at ht
        · simp at ht; simp [ht]
    have hvs : ∀ x ∈ Expr.getVars (⟨v, .linear (poolAdd p r).2⟩ :: (if c = 0 then [] else [⟨c, .const⟩]) : List (Term F)), x < (poolAdd p r).1.length := by
      intro x hx
      obtain ⟨t, ht, hxt⟩ := List.mem_flatMap.1 hx
      rcases List.mem_cons.1 ht with rfl | ht
      · simp [VarSpec.vars] at hxt; omega
      · split at ht
        · simp at ht
        · simp at ht; rw [ht] at hxt; simp [VarSpec.vars] at hxt
    obtain ⟨g1, g2⟩ := fromTerms_spec hnr hvs
    refine ⟨_, _, rfl, h1, g1, ?_, fun E ρ hρ => ?_⟩
    · rw [degree_le_one]
      intro t ht
      by_cases hz : t = Term.zero
      · subst hz; exact Or.inl rfl
      · obtain ⟨s, hs, e⟩ := Expr.fromTerms_mem _ t ht hz
        rcases List.mem_cons.1 hs with rfl | hs
        · right; exact ⟨_, by rw [← e]; rfl⟩
        · split at hs
          · simp at hs
          · simp at hs; left; rw [← e, hs]; rfl
    · rw [g2, hv, value_cons]
      have := hρ _ _ h3 h2
      simp only [Expr.mon, Option.getD_some, this]
      congr 1
      split
      · rename_i hc0; rw [hc0, value_nil]
      · exact value_const E ρ c

theorem toSingleStripped_spec {p : Pool F} {e : Expr F} (hp : PoolWF p) (he : EOk p.length e) :
    ∃ p' i v c, toSingleStripped p e = some (p', i, v, c) ∧ Ext p p' ∧
      ((i = 0 ∧ v = 0 ∧ p' = p ∧ e = [⟨c, .const⟩]) ∨
       (i ≠ 0 ∧ v ≠ 0 ∧ (∃ r, p'[i]? = some r ∧ strip e = some (r, v, c)) ∧ constValue e = none ∧
          ∀ E ρ, PoolOk E ρ p' → value E ρ e = ρ i * v + c)) := by
  obtain ⟨r, v, c, hs, hr, hv, hcase⟩ := strip_spec he
  unfold toSingleStripped
  rw [hs]
  simp only
  rcases hcase with ⟨rfl, rfl, k, rfl⟩ | ⟨hv0, hd, _, hde, hnc⟩
  · refine ⟨p, 0, 0, c, ?_, Ext.refl p, Or.inl ⟨rfl, rfl, rfl, ?_⟩⟩
    · rw [if_pos (by simp [degree, Term.zero])]
    · have : strip ([⟨k, .const⟩] : Expr F) = some ([Term.zero], 0, k) := by
        simp [strip, constPart]
      rw [this] at hs
      simp at hs
      rw [hs]
  · rw [if_neg hd]
    obtain ⟨h1, h2, h3⟩ := poolAdd_spec hp hr
    refine ⟨_, _, v, c, rfl, h1, Or.inr ⟨h2, hv0, ⟨r, h3, rfl⟩, ?_, fun E ρ hρ => ?_⟩⟩
    · unfold constValue
      split
      · exact absurd (by rw [hde]; simp [degree]) hd
      · rfl
    · rw [hv, hρ _ _ h3 h2]

theorem toReallySingle_spec {p : Pool F} {e : Expr F} (hp : PoolWF p) (he : EOk p.length e) : Ext p (toReallySingle p e) := by
  unfold toReallySingle
  split
  · exact Ext.refl p
  · exact (poolAdd_spec hp he).1

theorem compressAll_spec : ∀ (vs : List (Expr F × F)) {p : Pool F}, PoolWF p → (∀ x ∈ vs, EOk p.length x.1) →
    ∃ p' ls, compressAll p vs = some (p', ls) ∧ Ext p p' ∧
      (∀ l ∈ ls, l.Pairwise (fun a b => a.vars.lt b.vars) ∧ (∀ t ∈ l, t.vars.isNormalized = true) ∧ Expr.NoRandom l ∧
        (∀ v ∈ Expr.getVars l, v < p'.length)) ∧
      ∀ E ρ, PoolOk E ρ p' → (ls.map (value E ρ)).sum = (vs.map (fun x => value E ρ x.1 * x.2)).sum := by
  intro vs
  induction vs with
  | nil => intro p _ _; exact ⟨p, [], rfl, Ext.refl p, by simp, by simp⟩
  | cons x vs ih =>
    obtain ⟨e, c⟩ := x
    intro p hp hv
    have he : EOk p.length e := hv (e, c) (by simp)
    rw [compressAll]
    split
    · rename_i hc
      obtain ⟨p', ls, h1, h2, h3, h4⟩ := ih hp (fun x hx => hv x (by simp [hx]))
      exact ⟨p', ls, h1, h2, h3, fun E ρ hρ => by rw [h4 E ρ hρ]; simp [hc]⟩
    · split
      · obtain ⟨p1, r, hs, h1, h2, _, h3⟩ := toSingle_spec hp he
        obtain ⟨p', ls, g1, g2, g3, g4⟩ := ih (h1.wf hp) (fun x hx => (hv x (by simp [hx])).mono h1.len)
        have hre : r.isEmpty = false := by simpa using h2.ne
        rw [hs]
        simp only [hre, Bool.false_eq_true, if_false, g1]
        refine ⟨p', _, rfl, h1.trans g2, ?_, fun E ρ hρ => ?_⟩
        · intro l hl
          rcases List.mem_cons.1 hl with rfl | hl
          · exact (h2.mono g2.len).scaled c
          · exact g3 l hl
        · simp only [List.map_cons, List.sum_cons, g4 E ρ hρ, value_scale, h3 E ρ (hρ.prefix g2.pre)]
      · obtain ⟨p', ls, g1, g2, g3, g4⟩ := ih hp (fun x hx => hv x (by simp [hx]))
        have hre : e.isEmpty = false := by simpa using he.ne
        simp only [hre, Bool.false_eq_true, if_false, g1]
        refine ⟨p', _, rfl, g2, ?_, fun E ρ hρ => ?_⟩
        · intro l hl
          rcases List.mem_cons.1 hl with rfl | hl
          · exact (he.mono g2.len).scaled c
          · exact g3 l hl
        · simp only [List.map_cons, List.sum_cons, g4 E ρ hρ, value_scale]

theorem linCombInner_spec {vs : List (Expr F × F)} {p : Pool F} (hp : PoolWF p) (hv : ∀ x ∈ vs, EOk p.length x.1) :
    ∃ p' r, linCombInner p vs = some (p', r) ∧ Ext p p' ∧ EOk p'.length r ∧
      ∀ E ρ, PoolOk E ρ p' → value E ρ r = (vs.map (fun x => value E ρ x.1 * x.2)).sum := by
  unfold linCombInner
  split
  · exact ⟨p, _, rfl, Ext.refl p, eok_zero _, fun E ρ _ => by simp; exact value_const E ρ 0⟩
  · rename_i e c
    obtain ⟨r, h1, h2, h3⟩ := mulConst_spec (hv (e, c) (by simp)) c
    rw [h1]
    exact ⟨p, r, rfl, Ext.refl p, h2, fun E ρ _ => by rw [h3]; simp⟩
  · obtain ⟨p', ls, h1, h2, h3, h4⟩ := compressAll_spec vs hp hv
    obtain ⟨r, g1, g2, g3⟩ := mergeAll_spec (n := p'.length) (ls := ls) (fun l hl => (h3 l hl).1) (fun l hl => (h3 l hl).2.1)
      (fun l hl => (h3 l hl).2.2.1) (fun l hl => (h3 l hl).2.2.2)
    rw [h1]
    simp only [g1]
    exact ⟨p', r, rfl, h2, g2, fun E ρ hρ => by rw [g3, h4 E ρ hρ]⟩

theorem mulTerm_spec {a b : Term F} (ha : a.vars = .const ∨ ∃ x, a.vars = .linear x) (hb : b.vars = .const ∨ ∃ x, b.vars = .linear x) :
    ∃ r, mulTerm a b = some r ∧ (∀ x, r.vars ≠ .randomLinear x) ∧ (∀ v ∈ r.vars.vars, v ∈ a.vars.vars ∨ v ∈ b.vars.vars) ∧
      ∀ (E : Env F) (ρ : Nat → F), Expr.mon E (fun v => some (ρ v)) r.vars * r.coef =
        (Expr.mon E (fun v => some (ρ v)) a.vars * a.coef) * (Expr.mon E (fun v => some (ρ v)) b.vars * b.coef) := by
  unfold mulTerm
  rcases ha with ha | ⟨x, ha⟩ <;> rcases hb with hb | ⟨y, hb⟩ <;> rw [ha, hb] <;>
    refine ⟨_, rfl, by simp, by simp [VarSpec.vars], fun E ρ => ?_⟩ <;> simp [Expr.mon] <;> ring

theorem mulTerms_spec {a : Term F} (ha : a.vars = .const ∨ ∃ x, a.vars = .linear x) :
    ∀ {b : Expr F}, (∀ t ∈ b, t.vars = .const ∨ ∃ x, t.vars = .linear x) →
    ∃ ts, mapOpt (mulTerm a) b = some ts ∧ Expr.NoRandom ts ∧ (∀ v ∈ Expr.getVars ts, v ∈ a.vars.vars ∨ v ∈ Expr.getVars b) ∧
      ∀ (E : Env F) (ρ : Nat → F), value E ρ ts = (Expr.mon E (fun v => some (ρ v)) a.vars * a.coef) * value E ρ b := by
  intro b
  induction b with
  | nil => intro _; exact ⟨[], rfl, by intro t ht; simp at ht, by simp [Expr.getVars], fun E ρ => by simp [value_nil]⟩
  | cons t b ih =>
    intro hb
    obtain ⟨ts, h1, h2, h3, h4⟩ := ih (fun s hs => hb s (by simp [hs]))
    obtain ⟨r, g1, g2, g3, g4⟩ := mulTerm_spec ha (hb t (by simp))
    refine ⟨r :: ts, mapOpt_cons.2 ⟨r, ts, g1, h1, rfl⟩, ?_, ?_, fun E ρ => ?_⟩
    · intro s hs
      rcases List.mem_cons.1 hs with rfl | hs
      · exact g2
      · exact h2 s hs
    · intro v hv
      simp only [Expr.getVars, List.flatMap_cons, List.mem_append] at hv ⊢
      rcases hv with hv | hv
      · rcases g3 v hv with h | h
        · exact Or.inl h
        · exact Or.inr (Or.inl h)
      · rcases h3 v hv with h | h
        · exact Or.inl h
        · exact Or.inr (Or.inr h)
    · rw [value_cons, value_cons, g4, h4]; ring

theorem rows_spec {n : Nat} {b : Expr F} (hb : EOk n b) (hdb : degree b ≤ 1) :
    ∀ {a : Expr F}, (∀ v ∈ Expr.getVars a, v < n) → (degree a ≤ 1) →
    ∃ rs, rows a b = some rs ∧ (∀ r ∈ rs, EOk n r) ∧
      ∀ (E : Env F) (ρ : Nat → F), (rs.map (value E ρ)).sum = value E ρ a * value E ρ b := by
  intro a
  induction a with
  | nil => intro _ _; exact ⟨[], rfl, by simp, fun E ρ => by simp [value_nil]⟩
  | cons t a ih =>
    intro hv hd
    have hd' := (degree_le_one _).1 hd
    obtain ⟨rs, h1, h2, h3⟩ := ih (fun v hv' => hv v (by
      simp only [Expr.getVars, List.flatMap_cons, List.mem_append]; exact Or.inr hv'))
      ((degree_le_one _).2 (fun s hs => hd' s (by simp [hs])))
    obtain ⟨ts, g1, g2, g3, g4⟩ := mulTerms_spec (hd' t (by simp)) ((degree_le_one _).1 hdb)
    obtain ⟨k1, k2⟩ := fromTerms_spec (n := n) g2 (fun v hv' => by
      rcases g3 v hv' with h | h
      · exact hv v (by simp only [Expr.getVars, List.flatMap_cons, List.mem_append]; exact Or.inl h)
      · exact hb.vars v h)
    refine ⟨Expr.fromTerms ts :: rs, ?_, ?_, fun E ρ => ?_⟩
    · unfold rows
      exact mapOpt_cons.2 ⟨_, _, by simp only [g1], h1, rfl⟩
    · intro r hr
      rcases List.mem_cons.1 hr with rfl | hr
      · exact k1
      · exact h2 r hr
    · rw [List.map_cons, List.sum_cons, h3, k2, g4, value_cons]; ring

theorem lowerDegree_spec {p : Pool F} {e : Expr F} (hp : PoolWF p) (he : EOk p.length e) :
    ∃ p' r, lowerDegree p e = some (p', r) ∧ Ext p p' ∧ EOk p'.length r ∧ degree r ≤ 1 ∧ ∀ E ρ, PoolOk E ρ p' → value E ρ r = value E ρ e := by
  unfold lowerDegree
  split
  · exact toSingle_spec hp he
  · exact ⟨p, e, rfl, Ext.refl p, he, by have := degree_le_two e; omega, fun _ _ _ => rfl⟩

theorem shorten_spec {p : Pool F} {a b : Expr F} (hp : PoolWF p) (ha : EOk p.length a) (hb : EOk p.length b) (hda : degree a ≤ 1) (hdb : degree b ≤ 1) :
    ∃ p' r s, shorten p a b = some (p', r, s) ∧ Ext p p' ∧ EOk p'.length r ∧ EOk p'.length s ∧ degree r ≤ 1 ∧ degree s ≤ 1 ∧
      ∀ E ρ, PoolOk E ρ p' → value E ρ r = value E ρ a ∧ value E ρ s = value E ρ b := by
  unfold shorten
  split
  · obtain ⟨p1, r, h1, h2, h3, h4, h5⟩ := toSingle_spec hp ha
    obtain ⟨p2, s, g1, g2, g3, g4, g5⟩ := toSingle_spec (h2.wf hp) (hb.mono h2.len)
    simp only [h1, g1]
    exact ⟨p2, r, s, rfl, h2.trans g2, h3.mono g2.len, g3, h4, g4, fun E ρ hρ => ⟨h5 E ρ (hρ.prefix g2.pre), g5 E ρ hρ⟩⟩
  · split
    · obtain ⟨p2, s, g1, g2, g3, g4, g5⟩ := toSingle_spec hp hb
      simp only [g1]
      exact ⟨p2, a, s, rfl, g2, ha.mono g2.len, g3, hda, g4, fun E ρ hρ => ⟨rfl, g5 E ρ hρ⟩⟩
    · exact ⟨p, a, b, rfl, Ext.refl p, ha, hb, hda, hdb, fun _ _ _ => ⟨rfl, rfl⟩⟩

theorem mulTwo_spec {p : Pool F} {a b : Expr F} (hp : PoolWF p) (ha : EOk p.length a) (hb : EOk p.length b) :
    ∃ p' r, mulTwo p a b = some (p', r) ∧ Ext p p' ∧ EOk p'.length r ∧ ∀ E ρ, PoolOk E ρ p' → value E ρ r = value E ρ a * value E ρ b := by
  unfold mulTwo
  split
  · rename_i hd
    obtain ⟨c, rfl⟩ := degree_zero ha hd
    obtain ⟨r, h1, h2, h3⟩ := mulConst_spec hb c
    simp only [constValue, h1]
    exact ⟨p, r, rfl, Ext.refl p, h2, fun E ρ _ => by rw [h3, value_const, mul_comm]⟩
  · split
    · rename_i hd
      obtain ⟨c, rfl⟩ := degree_zero hb hd
      obtain ⟨r, h1, h2, h3⟩ := mulConst_spec ha c
      simp only [constValue, h1]
      exact ⟨p, r, rfl, Ext.refl p, h2, fun E ρ _ => by rw [h3, value_const]⟩
    · obtain ⟨p1, v1, h1, h2, h3, h4, h5⟩ := lowerDegree_spec hp ha
      obtain ⟨p2, v2, g1, g2, g3, g4, g5⟩ := lowerDegree_spec (h2.wf hp) (hb.mono h2.len)
      simp only [h1, g1]
      have hw2 := g2.wf (h2.wf hp)
      have h3' := h3.mono g2.len
      have key : ∀ (x y : Expr F), EOk p2.length x → EOk p2.length y → degree x ≤ 1 → degree y ≤ 1 →
          (∀ (E : Env F) (ρ : Nat → F), value E ρ x * value E ρ y = value E ρ v1 * value E ρ v2) →
          ∃ p' r, finishMul p2 x y = some (p', r) ∧ Ext p p' ∧ EOk p'.length r ∧
            ∀ E ρ, PoolOk E ρ p' → value E ρ r = value E ρ a * value E ρ b := by
        intro x y hx hy hdx hdy hxy
        obtain ⟨p3, w1, w2, k1, k2, k3, k4, k5, k6, k7⟩ := shorten_spec hw2 hx hy hdx hdy
        obtain ⟨rs, l1, l2, l3⟩ := rows_spec k4 k6 k3.vars k5
        obtain ⟨p4, r, m1, m2, m3, m4⟩ := linCombInner_spec (vs := rs.map (fun r => (r, (1 : F)))) (k2.wf hw2) (by
          intro x hx
          obtain ⟨r, hr, rfl⟩ := List.mem_map.1 hx
          exact l2 r hr)
        unfold finishMul
        rw [k1]
        simp only [l1, m1]
        refine ⟨p4, r, rfl, ((h2.trans g2).trans k2).trans m2, m3, fun E ρ hρ => ?_⟩
        have h3p := hρ.prefix m2.pre
        have h2p := h3p.prefix k2.pre
        have h1p := h2p.prefix g2.pre
        rw [m4 E ρ hρ, List.map_map]
        have : (fun x : Expr F × F => value E ρ x.1 * x.2) ∘ (fun r => (r, (1 : F))) = value E ρ := by
          funext r; simp
        rw [this, l3, (k7 E ρ h3p).1, (k7 E ρ h3p).2, hxy, h5 E ρ h1p, g5 E ρ h2p]
      split
      · exact key v2 v1 g3 h3' g4 h4 (fun E ρ => mul_comm _ _)
      · exact key v1 v2 h3' g3 h4 g4 (fun E ρ => rfl)

end Verif.Builder
