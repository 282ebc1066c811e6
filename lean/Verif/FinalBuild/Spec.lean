import Verif.FinalBuild.Basic
import Mathlib.Tactic.LinearCombination

/-!
# Specifications of the expression-level functions of `final_build_opt.rs`

Each function keeps the existing middle variables, adds new ones that only refer to earlier ones, and returns an expression with the intended
value for every assignment in which each middle variable has the value of its definition.
-/

set_option linter.unusedSectionVars false
set_option linter.unusedSimpArgs false

namespace Verif.FinalBuild

open Verif.IR Verif.Builder

variable {F : Type} [Field F] [DecidableEq F]

/-- Well-formed expressions that do not mention variable 0. -/
structure GOk (n : Nat) (e : Expr F) : Prop extends EOk n e where
  nz : ∀ v ∈ Expr.getVars e, v ≠ 0

theorem GOk.mono {n m : Nat} {e : Expr F} (h : GOk n e) (hm : n ≤ m) : GOk m e := ⟨h.toEOk.mono hm, h.nz⟩

theorem gok_const (n : Nat) (c : F) : GOk n [⟨c, .const⟩] := ⟨eok_const n c, by simp [Expr.getVars, VarSpec.vars]⟩

theorem gok_zero (n : Nat) : GOk n ([Term.zero] : Expr F) := gok_const n 0

theorem gok_linear {n x : Nat} {k : F} (hx : x < n) (h0 : x ≠ 0) (hk : k ≠ 0) : GOk n [⟨k, .linear x⟩] :=
  ⟨eok_linear hx hk, by simpa [Expr.getVars, VarSpec.vars] using h0⟩

theorem nz_of_mem {e r : Expr F} (h : ∀ v ∈ Expr.getVars e, v ≠ 0) (hm : ∀ t ∈ r, t = Term.zero ∨ ∃ s ∈ e, s.vars = t.vars) :
    ∀ v ∈ Expr.getVars r, v ≠ 0 := by
  intro v hv
  obtain ⟨t, ht, hvt⟩ := List.mem_flatMap.1 hv
  rcases hm t ht with rfl | ⟨s, hs, e1⟩
  · simp [Term.zero, VarSpec.vars] at hvt
  · exact h v (List.mem_flatMap.2 ⟨s, hs, by rw [e1]; exact hvt⟩)

/-- A materialised expression. -/
def Mid.Internal (i : Nat) (m : Mid F) : Prop := GOk i m.expr ∧ m.kinv * m.k = 1 ∧ (m.force = true → m.k = 1 ∧ m.b = 0)

/-- A variable that is not the value of an expression (input, call output, random value, public input). -/
def Mid.Own (i : Nat) (m : Mid F) : Prop := m.expr = [⟨1, .linear i⟩] ∧ m.k = 1 ∧ m.kinv = 1 ∧ m.b = 0 ∧ m.force = false

structure MidsWF (ms : Mids F) : Prop where
  zero : ∃ m, ms[0]? = some m ∧ m.expr = []
  ok : ∀ (i : Nat) m, ms[i]? = some m → i ≠ 0 → m.Internal i ∨ m.Own i

/-- Later states: prefix, and the new variables are materialised expressions. -/
structure Ext (ms ms' : Mids F) : Prop where
  pre : ms <+: ms'
  ok : ∀ (i : Nat) m, ms.length ≤ i → ms'[i]? = some m → m.Internal i

/-- Every middle variable has the value of its definition. -/
def MidsOk (E : Env F) (ρ : Nat → F) (ms : Mids F) : Prop := ∀ (i : Nat) m, ms[i]? = some m → i ≠ 0 → ρ i = value E ρ m.expr * m.k + m.b

theorem Ext.refl (p : Mids F) : Ext p p :=
  ⟨List.prefix_rfl, fun i m hi hm => by have := (List.getElem?_eq_some_iff.1 hm).1; omega⟩

theorem Ext.len {p p' : Mids F} (h : Ext p p') : p.length ≤ p'.length := h.pre.length_le

theorem Ext.trans {p q r : Mids F} (h1 : Ext p q) (h2 : Ext q r) : Ext p r := by
  refine ⟨h1.pre.trans h2.pre, fun i m hi hm => ?_⟩
  by_cases hq : i < q.length
  · rw [prefix_getElem? h2.pre hq] at hm
    exact h1.ok i m hi hm
  · exact h2.ok i m (by omega) hm

theorem MidsWF.pos {p : Mids F} (h : MidsWF p) : 0 < p.length := by
  obtain ⟨m, hm, _⟩ := h.zero
  exact (List.getElem?_eq_some_iff.1 hm).1

theorem Ext.wf {p p' : Mids F} (h : Ext p p') (hp : MidsWF p) : MidsWF p' := by
  refine ⟨?_, fun i m hm hi => ?_⟩
  · obtain ⟨m, h0, h1⟩ := hp.zero
    exact ⟨m, by rw [prefix_getElem? h.pre hp.pos]; exact h0, h1⟩
  · by_cases hl : i < p.length
    · rw [prefix_getElem? h.pre hl] at hm
      exact hp.ok i m hm hi
    · exact Or.inl (h.ok i m (by omega) hm)

theorem MidsOk.prefix {E : Env F} {ρ : Nat → F} {p p' : Mids F} (h : MidsOk E ρ p') (hp : p <+: p') : MidsOk E ρ p := by
  intro i m hm hi
  refine h i m ?_ hi
  rw [prefix_getElem? hp (List.getElem?_eq_some_iff.1 hm).1]; exact hm

theorem ext_push {ms : Mids F} {m : Mid F} (h : m.Internal ms.length) : Ext ms (ms ++ [m]) := by
  refine ⟨List.prefix_append _ _, fun i m' hi hm => ?_⟩
  have := (List.getElem?_eq_some_iff.1 hm).1
  simp only [List.length_append, List.length_singleton] at this
  have : i = ms.length := by omega
  subst this
  simp at hm
  subst hm; exact h

theorem get_push (ms : Mids F) (m : Mid F) : (ms ++ [m])[ms.length]? = some m := by simp

/-! ## Stripping -/

/-- The non-constant terms. -/
def nonConst (e : Expr F) : List (Term F) := e.filter (fun t => decide (t.vars ≠ .const))

/-- Expressions that `make_single` leaves alone: at most one term besides the constant, and that one linear. -/
def compact (e : Expr F) : Bool := decide (degree e ≤ 1) && decide ((nonConst e).length ≤ 1)

theorem stripC_eq (e : Expr F) (h : ∃ r, strip e = some r) : stripC e = (strip e).map (fun r => (r.1, if r.2.1 = 0 then 1 else r.2.1, r.2.2)) := by
  unfold stripC strip at *
  cases hf : e.filter (fun t => decide (t.vars ≠ .const)) with
  | nil => simp
  | cons t ts =>
    simp only [hf] at h ⊢
    by_cases ht : t.coef = 0
    · simp [ht]
    · simp only [ht, if_false] at h ⊢
      cases hs : fromTermsSorted ((t :: ts).map (fun s => (⟨s.coef * t.coef⁻¹, s.vars⟩ : Term F))) with
      | none => simp
      | some r => simp [ht]

theorem stripC_length {e r : Expr F} {v c : F} (h : stripC e = some (r, v, c)) : r.length = max 1 (nonConst e).length := by
  unfold stripC at h
  unfold nonConst
  cases hf : e.filter (fun t => decide (t.vars ≠ .const)) with
  | nil => rw [hf] at h; cases h; simp
  | cons t ts =>
    rw [hf] at h
    simp only at h
    split at h
    · cases h
    · split at h
      · rename_i r' hs
        cases h
        unfold fromTermsSorted at hs
        simp only [List.isEmpty_iff, List.map_eq_nil_iff, reduceCtorEq, if_false] at hs
        split at hs
        · cases hs; simp
        · cases hs
      · cases h

theorem stripC_nz {e r : Expr F} {v c : F} (h : stripC e = some (r, v, c)) (hz : ∀ v ∈ Expr.getVars e, v ≠ 0) : ∀ v ∈ Expr.getVars r, v ≠ 0 := by
  refine nz_of_mem hz ?_
  unfold stripC at h
  cases hf : e.filter (fun t => decide (t.vars ≠ .const)) with
  | nil => rw [hf] at h; cases h; simp
  | cons t ts =>
    rw [hf] at h
    simp only at h
    split at h
    · cases h
    · split at h
      · rename_i r' hs
        cases h
        unfold fromTermsSorted at hs
        simp only [List.isEmpty_iff, List.map_eq_nil_iff, reduceCtorEq, if_false] at hs
        split at hs
        · cases hs
          intro s hs'
          obtain ⟨u, hu, rfl⟩ := List.mem_map.1 hs'
          refine Or.inr ⟨u, ?_, rfl⟩
          rw [← hf] at hu
          exact (List.mem_filter.1 hu).1
        · cases hs
      · cases h

theorem stripC_spec {n : Nat} {e : Expr F} (h : GOk n e) :
    ∃ r v c, stripC e = some (r, v, c) ∧ GOk n r ∧ v ≠ 0 ∧ (∀ (E : Env F) ρ, value E ρ e = value E ρ r * v + c) ∧
      degree r = degree e ∧ ((r.length = 1 ∧ degree r ≤ 1) ↔ compact e = true) := by
  obtain ⟨r, v, c, hs, hr, hv, hcase⟩ := strip_spec h.toEOk
  have hq : stripC e = some (r, if v = 0 then 1 else v, c) := by rw [stripC_eq e ⟨_, hs⟩, hs]; rfl
  have hlen := stripC_length hq
  have hdeg : degree r = degree e := by
    rcases hcase with ⟨rfl, _, k, rfl⟩ | ⟨_, _, _, h, _⟩
    · simp [degree, Term.zero]
    · exact h
  refine ⟨r, if v = 0 then 1 else v, c, hq, ⟨hr, stripC_nz hq h.nz⟩, ?_, fun E ρ => ?_, hdeg, ?_⟩
  · split
    · exact one_ne_zero
    · assumption
  · rw [hv E ρ]
    split
    · rename_i h0
      rcases hcase with ⟨rfl, _, _⟩ | ⟨h1, _⟩
      · rw [h0]; rw [show value E ρ ([Term.zero] : Expr F) = 0 from value_const E ρ 0]; simp
      · exact absurd h0 h1
    · rfl
  · unfold compact
    rw [hlen, hdeg]
    simp only [Bool.and_eq_true, decide_eq_true_eq]
    constructor
    · rintro ⟨h1, h2⟩; exact ⟨h2, by omega⟩
    · rintro ⟨h1, h2⟩; exact ⟨by omega, h1⟩

theorem find_some {ms : Mids F} {e : Expr F} {f : Bool} {i : Nat} (h : find ms e f = some i) :
    ∃ m, ms[i]? = some m ∧ m.expr = e ∧ m.force = f := by
  unfold find at h
  rw [List.findIdx?_eq_some_iff_getElem] at h
  obtain ⟨hi, h1, _⟩ := h
  simp only [decide_eq_true_eq] at h1
  exact ⟨ms[i], List.getElem?_eq_getElem hi, h1⟩

theorem find_ne_zero {ms : Mids F} (hm : MidsWF ms) {e : Expr F} {f : Bool} {i : Nat} (he : e ≠ []) (h : find ms e f = some i) : i ≠ 0 := by
  rintro rfl
  obtain ⟨m, h1, h2, _⟩ := find_some h
  obtain ⟨m0, h3, h4⟩ := hm.zero
  rw [h1] at h3; cases h3
  exact he (h2.symm.trans h4)

theorem same_vars_length {l : List (Term F)} {v : VarSpec} (hs : l.Pairwise (fun a b => a.vars.lt b.vars)) (h : ∀ t ∈ l, t.vars = v) : l.length ≤ 1 := by
  rcases l with _ | ⟨a, _ | ⟨b, l⟩⟩
  · simp
  · simp
  · exfalso
    have := (List.pairwise_cons.1 hs).1 b (by simp)
    rw [h a (by simp), h b (by simp)] at this
    exact lt_irrefl _ this

theorem compact_of {e : Expr F} {x : Nat} (hs : e.Pairwise (fun a b => a.vars.lt b.vars)) (h : ∀ t ∈ e, t.vars = .const ∨ t.vars = .linear x) : compact e = true := by
  unfold compact
  simp only [Bool.and_eq_true, decide_eq_true_eq]
  refine ⟨(degree_le_one e).2 (fun t ht => (h t ht).imp_right (fun h => ⟨x, h⟩)), ?_⟩
  refine same_vars_length (v := .linear x) (hs.sublist List.filter_sublist) (fun t ht => ?_)
  have := List.mem_filter.1 ht
  exact (h t this.1).resolve_left (by simpa using this.2)

theorem unstrip_spec {n idx : Nat} {coef c : F} {m : Mid F} (hi : idx ≠ 0) (hlt : idx < n) :
    ∃ r, unstrip idx coef c m = some r ∧ GOk n r ∧ compact r = true ∧
      ∀ (E : Env F) ρ, m.kinv * m.k = 1 → ∀ x, ρ idx = x * m.k + m.b → value E ρ r = x * coef + c := by
  unfold unstrip
  rw [if_neg hi]
  generalize hk : (⟨m.kinv * coef, .linear idx⟩ ::
    (if c - m.b * (m.kinv * coef) = 0 then [] else [⟨c - m.b * (m.kinv * coef), .const⟩]) : List (Term F)) = ts
  have hall : ∀ t ∈ ts, t.vars = .const ∨ t.vars = .linear idx := by
    intro t ht
    rw [← hk] at ht
    rcases List.mem_cons.1 ht with rfl | ht
    · exact Or.inr rfl
    · split at ht
      · simp at ht
      · simp at ht; left; rw [ht]
  have hnr : Expr.NoRandom ts := by
    intro t ht x hx
    rcases hall t ht with h | h <;> rw [h] at hx <;> cases hx
  have hvs : ∀ x ∈ Expr.getVars ts, x < n := by
    intro x hx
    obtain ⟨t, ht, hxt⟩ := List.mem_flatMap.1 hx
    rcases hall t ht with h | h <;> rw [h] at hxt <;> simp [VarSpec.vars] at hxt
    omega
  have hnz : ∀ x ∈ Expr.getVars ts, x ≠ 0 := by
    intro x hx
    obtain ⟨t, ht, hxt⟩ := List.mem_flatMap.1 hx
    rcases hall t ht with h | h <;> rw [h] at hxt <;> simp [VarSpec.vars] at hxt
    omega
  obtain ⟨g1, g2⟩ := fromTerms_spec hnr hvs
  refine ⟨_, rfl, ⟨g1, fun v hv => hnz v (Expr.fromTerms_vars _ v hv)⟩, compact_of (x := idx) g1.sorted ?_, fun E ρ hkk x hx => ?_⟩
  · intro t ht
    by_cases hz : t = Term.zero
    · subst hz; exact Or.inl rfl
    · obtain ⟨s, hs, e⟩ := Expr.fromTerms_mem _ t ht hz
      rcases hall s hs with h | h
      · left; rw [← e, h]; rfl
      · right; rw [← e, h]; rfl
  · rw [g2, ← hk, value_cons]
    simp only [Expr.mon, Option.getD_some, hx]
    have : value E ρ (if c - m.b * (m.kinv * coef) = 0 then [] else [⟨c - m.b * (m.kinv * coef), .const⟩] : List (Term F)) = c - m.b * (m.kinv * coef) := by
      split
      · rename_i h0; rw [h0, value_nil]
      · exact value_const E ρ _
    rw [this]
    have h2 : x * m.k * (m.kinv * coef) = x * coef := by
      calc x * m.k * (m.kinv * coef) = x * (m.kinv * m.k) * coef := by ring
        _ = x * coef := by rw [hkk]; ring
    linear_combination h2

/-- The value of a middle variable found in the pool. -/
theorem mid_kk {ms : Mids F} (hm : MidsWF ms) {i : Nat} {m : Mid F} (h : ms[i]? = some m) (hi : i ≠ 0) : m.kinv * m.k = 1 := by
  rcases hm.ok i m h hi with h | h
  · exact h.2.1
  · rw [h.2.1, h.2.2.1, one_mul]

theorem compact_linear (x : Nat) (k : F) : compact ([⟨k, .linear x⟩] : Expr F) = true := by
  refine compact_of (x := x) (by simp) (by simp)

theorem makeSingle_spec {p : Mids F} {e : Expr F} (hp : MidsWF p) (he : GOk p.length e) :
    ∃ p' r, makeSingle p e = some (p', r) ∧ Ext p p' ∧ GOk p'.length r ∧ compact r = true ∧ ∀ E ρ, MidsOk E ρ p' → value E ρ r = value E ρ e := by
  obtain ⟨es, v, c, h1, h2, h3, h4, h5, h6⟩ := stripC_spec he
  unfold makeSingle
  rw [h1]
  simp only
  by_cases hc : es.length = 1 ∧ degree es ≤ 1
  · rw [if_pos hc]
    exact ⟨p, e, rfl, Ext.refl p, he, h6.1 hc, fun _ _ _ => rfl⟩
  · rw [if_neg hc]
    cases hf : find p es false with
    | none =>
      simp only [if_neg h3]
      have hint : (⟨es, false, v, v⁻¹, c, layerOf p es + 1⟩ : Mid F).Internal p.length := ⟨h2, inv_mul_cancel₀ h3, by simp⟩
      refine ⟨_, _, rfl, ext_push hint, gok_linear (by simp) (by have := hp.pos; omega) one_ne_zero, compact_linear _ _, fun E ρ hρ => ?_⟩
      have := hρ p.length _ (get_push _ _) (by have := hp.pos; omega)
      rw [value_linear, mul_one, this, h4]
    | some idx =>
      obtain ⟨m, g1, g2, _⟩ := find_some hf
      have hi := find_ne_zero hp h2.ne hf
      simp only [g1]
      obtain ⟨r, k1, k2, k3, k4⟩ := unstrip_spec (n := p.length) (coef := v) (c := c) (m := m) hi (List.getElem?_eq_some_iff.1 g1).1
      rw [k1]
      refine ⟨p, r, rfl, Ext.refl p, k2, k3, fun E ρ hρ => ?_⟩
      rw [k4 E ρ (mid_kk hp g1 hi) (value E ρ m.expr) (hρ idx m g1 hi), g2, h4]

theorem tryMakeSingle_spec {p : Mids F} {e : Expr F} (hp : MidsWF p) (he : GOk p.length e) :
    ∃ r, tryMakeSingle p e = some r ∧ GOk p.length r ∧ ∀ E ρ, MidsOk E ρ p → value E ρ r = value E ρ e := by
  obtain ⟨es, v, c, h1, h2, h3, h4, h5, h6⟩ := stripC_spec he
  unfold tryMakeSingle
  rw [h1]
  simp only
  split
  · exact ⟨e, rfl, he, fun _ _ _ => rfl⟩
  · cases hf : find p es false with
    | none => exact ⟨e, rfl, he, fun _ _ _ => rfl⟩
    | some idx =>
      obtain ⟨m, g1, g2, _⟩ := find_some hf
      have hi := find_ne_zero hp h2.ne hf
      simp only [g1]
      obtain ⟨r, k1, k2, k3, k4⟩ := unstrip_spec (n := p.length) (coef := v) (c := c) (m := m) hi (List.getElem?_eq_some_iff.1 g1).1
      rw [k1]
      refine ⟨r, rfl, k2, fun E ρ hρ => ?_⟩
      rw [k4 E ρ (mid_kk hp g1 hi) (value E ρ m.expr) (hρ idx m g1 hi), g2, h4]

theorem slow_spec {p : Mids F} {e : Expr F} (hp : MidsWF p) (he : GOk p.length e) :
    ∃ p' i, makeReallySingle.slow p e = some (p', i) ∧ Ext p p' ∧ i ≠ 0 ∧ i < p'.length ∧ ∀ E ρ, MidsOk E ρ p' → ρ i = value E ρ e := by
  obtain ⟨es, v, c, h1, h2, h3, h4, h5, h6⟩ := stripC_spec he
  unfold makeReallySingle.slow
  rw [h1]
  simp only
  have hpos := hp.pos
  cases hf : find p es false with
  | none =>
    simp only [if_neg h3]
    have hint : (⟨es, false, v, v⁻¹, c, layerOf p e + 1⟩ : Mid F).Internal p.length := ⟨h2, inv_mul_cancel₀ h3, by simp⟩
    refine ⟨_, _, rfl, ext_push hint, by omega, by simp, fun E ρ hρ => ?_⟩
    rw [hρ p.length _ (get_push _ _) (by omega), h4]
  | some idx =>
    obtain ⟨m, g1, g2, _⟩ := find_some hf
    have hi := find_ne_zero hp h2.ne hf
    simp only [g1]
    split
    · rename_i hc
      refine ⟨p, idx, rfl, Ext.refl p, hi, (List.getElem?_eq_some_iff.1 g1).1, fun E ρ hρ => ?_⟩
      rw [hρ idx m g1 hi, g2, h4, hc.1, hc.2]
    · obtain ⟨p', e', k1, k2, k3, k4, k5⟩ := makeSingle_spec hp he
      rw [k1]
      simp only
      cases hf' : find p' e' true with
      | some i =>
        obtain ⟨m', j1, j2, j3⟩ := find_some hf'
        have hi' := find_ne_zero (k2.wf hp) k3.ne hf'
        refine ⟨p', i, rfl, k2, hi', (List.getElem?_eq_some_iff.1 j1).1, fun E ρ hρ => ?_⟩
        have hkb : m'.k = 1 ∧ m'.b = 0 := by
          rcases (k2.wf hp).ok i m' j1 hi' with h | h
          · exact h.2.2 j3
          · exact ⟨h.2.1, h.2.2.2.1⟩
        rw [hρ i m' j1 hi', hkb.1, hkb.2, mul_one, add_zero, j2]
        exact k5 E ρ hρ
      | none =>
        have hint : (⟨e', true, 1, 1, 0, layerOf p' e' + 1⟩ : Mid F).Internal p'.length := ⟨k3, one_mul 1, fun _ => ⟨rfl, rfl⟩⟩
        refine ⟨_, _, rfl, k2.trans (ext_push hint), by have := k2.len; omega, by simp, fun E ρ hρ => ?_⟩
        rw [hρ p'.length _ (get_push _ _) (by have := k2.len; omega)]
        simp only [mul_one, add_zero]
        exact k5 E ρ (hρ.prefix (List.prefix_append _ _))

theorem makeReallySingle_spec {p : Mids F} {e : Expr F} (hp : MidsWF p) (he : GOk p.length e) :
    ∃ p' i, makeReallySingle p e = some (p', i) ∧ Ext p p' ∧ i ≠ 0 ∧ i < p'.length ∧ ∀ E ρ, MidsOk E ρ p' → ρ i = value E ρ e := by
  unfold makeReallySingle
  split
  · rename_i c v
    split
    · rename_i hc
      subst hc
      refine ⟨p, v, rfl, Ext.refl p, he.nz v (by simp [Expr.getVars, VarSpec.vars]), he.vars v (by simp [Expr.getVars, VarSpec.vars]), fun E ρ _ => ?_⟩
      rw [value_linear, mul_one]
    · exact slow_spec hp he
  · exact slow_spec hp he

end Verif.FinalBuild
