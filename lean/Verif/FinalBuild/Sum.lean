import Verif.FinalBuild.Spec

/-!
# Linear combinations in `final_build_opt.rs`
-/

set_option linter.unusedSectionVars false
set_option linter.unusedSimpArgs false

namespace Verif.FinalBuild

open Verif.IR Verif.Builder

variable {F : Type} [Field F] [DecidableEq F]

/-- Lists of terms that can be summed up. -/
structure TOk (n : Nat) (ts : List (Term F)) : Prop where
  norandom : Expr.NoRandom ts
  vars : ∀ v ∈ Expr.getVars ts, v < n
  nz : ∀ v ∈ Expr.getVars ts, v ≠ 0

theorem GOk.tok {n : Nat} {e : Expr F} (h : GOk n e) : TOk n e := ⟨h.norandom, h.vars, h.nz⟩

theorem TOk.mono {n m : Nat} {ts : List (Term F)} (h : TOk n ts) (hm : n ≤ m) : TOk m ts := ⟨h.norandom, fun v hv => lt_of_lt_of_le (h.vars v hv) hm, h.nz⟩

theorem tok_nil (n : Nat) : TOk n ([] : List (Term F)) := ⟨by intro t ht; simp at ht, by simp [Expr.getVars], by simp [Expr.getVars]⟩

theorem tok_append {n : Nat} {a b : List (Term F)} : TOk n (a ++ b) ↔ TOk n a ∧ TOk n b := by
  constructor
  · intro h
    refine ⟨⟨fun t ht => h.norandom t (by simp [ht]), fun v hv => h.vars v ?_, fun v hv => h.nz v ?_⟩, ⟨fun t ht => h.norandom t (by simp [ht]), fun v hv => h.vars v ?_, fun v hv => h.nz v ?_⟩⟩ <;>
      (simp only [Expr.getVars, List.flatMap_append, List.mem_append] at hv ⊢; tauto)
  · rintro ⟨h1, h2⟩
    refine ⟨fun t ht => ?_, fun v hv => ?_, fun v hv => ?_⟩
    · rcases List.mem_append.1 ht with h | h
      · exact h1.norandom t h
      · exact h2.norandom t h
    · simp only [Expr.getVars, List.flatMap_append, List.mem_append] at hv
      exact hv.elim (h1.vars v) (h2.vars v)
    · simp only [Expr.getVars, List.flatMap_append, List.mem_append] at hv
      exact hv.elim (h1.nz v) (h2.nz v)

theorem TOk.perm {n : Nat} {a b : List (Term F)} (h : TOk n a) (hp : a.Perm b) : TOk n b := by
  have hv : ∀ v, v ∈ Expr.getVars b ↔ v ∈ Expr.getVars a := fun v => (hp.flatMap_right _).symm.mem_iff
  exact ⟨fun t ht => h.norandom t (hp.mem_iff.2 ht), fun v hv' => h.vars v ((hv v).1 hv'), fun v hv' => h.nz v ((hv v).1 hv')⟩

theorem gok_fromTerms {n : Nat} {ts : List (Term F)} (h : TOk n ts) :
    GOk n (Expr.fromTerms ts) ∧ ∀ (E : Env F) ρ, value E ρ (Expr.fromTerms ts) = value E ρ ts := by
  obtain ⟨h1, h2⟩ := fromTerms_spec h.norandom h.vars
  exact ⟨⟨h1, fun v hv => h.nz v (Expr.fromTerms_vars ts v hv)⟩, h2⟩

theorem layerLoop_spec : ∀ (ts : List (Term F)) {p : Mids F} {cur : List (Term F)} (last : Option Nat), MidsWF p → TOk p.length cur → TOk p.length ts →
    ∃ p' r, layerLoop p cur last ts = some (p', r) ∧ Ext p p' ∧ TOk p'.length r ∧ ∀ E ρ, MidsOk E ρ p' → value E ρ r = value E ρ cur + value E ρ ts := by
  intro ts
  induction ts with
  | nil => intro p cur last hp hc _; exact ⟨p, cur, rfl, Ext.refl p, hc, fun E ρ _ => by rw [value_nil, add_zero]⟩
  | cons t ts ih =>
    intro p cur last hp hc ht
    rw [show t :: ts = [t] ++ ts from rfl, tok_append] at ht
    simp only [layerLoop]
    by_cases hl : last ≠ none ∧ last ≠ some (layerOfVars p t.vars.vars)
    · rw [if_pos hl]
      obtain ⟨g1, g2⟩ := gok_fromTerms hc
      obtain ⟨p1, e, h1, h2, h3, h4, h5⟩ := makeSingle_spec hp g1
      rw [h1]
      obtain ⟨p2, r, k1, k2, k3, k4⟩ := ih (p := p1) (cur := e ++ [t]) (some (layerOfVars p t.vars.vars)) (h2.wf hp) (tok_append.2 ⟨h3.tok, ht.1.mono h2.len⟩) (ht.2.mono h2.len)
      refine ⟨p2, r, k1, h2.trans k2, k3, fun E ρ hρ => ?_⟩
      rw [k4 E ρ hρ, value_append, h5 E ρ (hρ.prefix k2.pre), g2, show t :: ts = [t] ++ ts from rfl, value_append]; ring
    · rw [if_neg hl]
      obtain ⟨p2, r, k1, k2, k3, k4⟩ := ih (p := p) (cur := cur ++ [t]) (some (layerOfVars p t.vars.vars)) hp (tok_append.2 ⟨hc, ht.1⟩) ht.2
      refine ⟨p2, r, k1, k2, k3, fun E ρ hρ => ?_⟩
      rw [k4 E ρ hρ, value_append, show t :: ts = [t] ++ ts from rfl, value_append]; ring

theorem layeredAdd_spec {p : Mids F} {ts : Expr F} (hp : MidsWF p) (ht : GOk p.length ts) :
    ∃ p' r, layeredAdd p ts = some (p', r) ∧ Ext p p' ∧ GOk p'.length r ∧ ∀ E ρ, MidsOk E ρ p' → value E ρ r = value E ρ ts := by
  simp only [layeredAdd]
  split
  · rw [fromTermsSorted_some ht.ne ht.sorted ht.norm]
    exact ⟨p, ts, rfl, Ext.refl p, ht, fun _ _ _ => rfl⟩
  · have hperm := List.perm_insertionSort (fun a b => layerLe p a b = true) ts
    obtain ⟨p', cur, h1, h2, h3, h4⟩ := layerLoop_spec (ts.insertionSort (fun a b => layerLe p a b = true)) none hp (tok_nil _) (ht.tok.perm hperm.symm)
    rw [h1]
    obtain ⟨g1, g2⟩ := gok_fromTerms h3
    refine ⟨p', _, rfl, h2, g1, fun E ρ hρ => ?_⟩
    rw [g2, h4 E ρ hρ, value_nil, zero_add, value_perm E ρ hperm]

theorem fromTermsSorted_eq {ts r : List (Term F)} (h : fromTermsSorted ts = some r) : r = if ts.isEmpty then [Term.zero] else ts := by
  unfold fromTermsSorted at h
  simp only at h
  generalize (if ts.isEmpty then [Term.zero] else ts) = q at *
  split at h
  · exact (Option.some.inj h).symm
  · cases h

theorem mulConst_nz {e r : Expr F} {v : F} (h : mulConst e v = some r) (hz : ∀ v ∈ Expr.getVars e, v ≠ 0) : ∀ v ∈ Expr.getVars r, v ≠ 0 := by
  refine nz_of_mem hz ?_
  unfold mulConst at h
  split at h
  · cases h; simp
  · have := fromTermsSorted_eq h
    subst this
    intro t ht
    split at ht
    · simp at ht; exact Or.inl ht
    · obtain ⟨u, hu, rfl⟩ := List.mem_map.1 ht
      exact Or.inr ⟨u, hu, rfl⟩

theorem gok_mulConst {n : Nat} {e : Expr F} (h : GOk n e) (v : F) :
    ∃ r, mulConst e v = some r ∧ GOk n r ∧ ∀ (E : Env F) ρ, value E ρ r = value E ρ e * v := by
  obtain ⟨r, h1, h2, h3⟩ := mulConst_spec h.toEOk v
  exact ⟨r, h1, ⟨h2, mulConst_nz h1 h.nz⟩, h3⟩

theorem mergeTerms_mem {ls : List (List (Term F))} (hs : ∀ l ∈ ls, l.Pairwise (fun a b => a.vars.lt b.vars)) :
    ∀ t ∈ mergeTerms ls, ∃ l ∈ ls, ∃ s ∈ l, s.vars = t.vars := by
  have hlen := (mem_sum_flatten ls).le
  have hperm := kmerge_perm _ ls hlen
  have hsort := kmerge_sorted _ ls hlen (fun l hl => (hs l hl).imp (fun h => le_of_lt h))
  obtain ⟨_, _, h3⟩ := foldPush_shape _ [] hsort (by simp) (by simp) (by simp)
  intro t ht
  obtain ⟨s, hs, e⟩ := h3 t (by simpa [mergeTerms] using ht)
  obtain ⟨l, hl, hsl⟩ := List.mem_flatten.1 (hperm.mem_iff.1 (by simpa using hs))
  exact ⟨l, hl, s, hsl, e⟩

theorem mergeTerms_spec {n : Nat} {ls : List (List (Term F))}
    (hs : ∀ l ∈ ls, l.Pairwise (fun a b => a.vars.lt b.vars)) (hn : ∀ l ∈ ls, ∀ t ∈ l, t.vars.isNormalized = true)
    (hr : ∀ l ∈ ls, Expr.NoRandom l) (hv : ∀ l ∈ ls, ∀ v ∈ Expr.getVars l, v < n) (hz : ∀ l ∈ ls, ∀ v ∈ Expr.getVars l, v ≠ 0) :
    (mergeTerms ls = [] ∨ GOk n (mergeTerms ls)) ∧ ∀ (E : Env F) ρ, value E ρ (mergeTerms ls) = (ls.map (value E ρ)).sum := by
  obtain ⟨r, h1, h2, h3⟩ := mergeAll_spec hs hn hr hv
  have hmem := mergeTerms_mem hs
  have he : mergeAll ls = if (mergeTerms ls).isEmpty then some [Term.zero] else fromTermsSorted (mergeTerms ls) := rfl
  rw [he] at h1
  cases hm : mergeTerms ls with
  | nil =>
    rw [hm] at h1
    simp at h1
    subst h1
    exact ⟨Or.inl rfl, fun E ρ => by rw [← h3 E ρ, value_nil]; exact (value_const E ρ 0).symm⟩
  | cons t ts =>
    rw [hm] at h1
    simp only [List.isEmpty_cons, Bool.false_eq_true, if_false] at h1
    have hre : r = t :: ts := by
      unfold fromTermsSorted at h1
      simp only [List.isEmpty_cons, Bool.false_eq_true, if_false] at h1
      split at h1
      · exact (Option.some.inj h1).symm
      · cases h1
    subst hre
    refine ⟨Or.inr ⟨h2, fun v hv' => ?_⟩, h3⟩
    obtain ⟨s, hs', hvs⟩ := List.mem_flatMap.1 hv'
    obtain ⟨l, hl, u, hu, e⟩ := hmem s (by rw [hm]; exact hs')
    exact hz l hl v (List.mem_flatMap.2 ⟨u, hu, by rw [e]; exact hvs⟩)

theorem tryAll_spec {p : Mids F} (hp : MidsWF p) : ∀ (vs : List (Expr F × F)), (∀ x ∈ vs, GOk p.length x.1) →
    ∃ ws, mapOpt (fun x : Expr F × F => (tryMakeSingle p x.1).map (fun r => (r, x.2))) vs = some ws ∧ ws.length = vs.length ∧ (∀ x ∈ ws, GOk p.length x.1) ∧
      ∀ E ρ, MidsOk E ρ p → ws.map (fun x => value E ρ x.1 * x.2) = vs.map (fun x => value E ρ x.1 * x.2) := by
  intro vs
  induction vs with
  | nil => intro _; exact ⟨[], rfl, rfl, by simp, fun _ _ _ => rfl⟩
  | cons x vs ih =>
    intro h
    obtain ⟨ws, h1, h2, h3, h4⟩ := ih (fun y hy => h y (by simp [hy]))
    obtain ⟨r, g1, g2, g3⟩ := tryMakeSingle_spec hp (h x (by simp))
    refine ⟨(r, x.2) :: ws, mapOpt_cons.2 ⟨(r, x.2), ws, by rw [g1]; rfl, h1, rfl⟩, by simp [h2], ?_, fun E ρ hρ => ?_⟩
    · intro y hy
      rcases List.mem_cons.1 hy with rfl | hy
      · exact g2
      · exact h3 y hy
    · rw [List.map_cons, List.map_cons, h4 E ρ hρ, g3 E ρ hρ]

theorem sum_filter_zero (E : Env F) (ρ : Nat → F) : ∀ (ws : List (Expr F × F)),
    ((ws.filter (fun x => decide (x.2 ≠ 0))).map (fun x => value E ρ x.1 * x.2)).sum = (ws.map (fun x => value E ρ x.1 * x.2)).sum := by
  intro ws
  induction ws with
  | nil => rfl
  | cons x ws ih =>
    by_cases h : x.2 = 0
    · rw [List.filter_cons_of_neg (by simpa using h), ih]; simp [h]
    · rw [List.filter_cons_of_pos (by simpa using h), List.map_cons, List.sum_cons, ih]; simp

theorem linCombInner_spec {vs : List (Expr F × F)} {p : Mids F} (hp : MidsWF p) (hv : ∀ x ∈ vs, GOk p.length x.1) :
    ∃ p' r, linCombInner p vs = some (p', r) ∧ Ext p p' ∧ GOk p'.length r ∧
      ∀ E ρ, MidsOk E ρ p' → value E ρ r = (vs.map (fun x => value E ρ x.1 * x.2)).sum := by
  obtain ⟨ws, h1, h2, h3, h4⟩ := tryAll_spec hp vs hv
  unfold linCombInner
  rw [h1]
  rcases ws with _ | ⟨⟨e, c⟩, _ | ⟨y, ws⟩⟩
  · refine ⟨p, _, rfl, Ext.refl p, gok_zero _, fun E ρ hρ => ?_⟩
    rw [← h4 E ρ hρ]; simp; exact value_const E ρ 0
  · obtain ⟨r, g1, g2, g3⟩ := gok_mulConst (h3 (e, c) (by simp)) c
    simp only [g1]
    obtain ⟨p', r', k1, k2, k3, k4⟩ := layeredAdd_spec hp g2
    refine ⟨p', r', k1, k2, k3, fun E ρ hρ => ?_⟩
    rw [k4 E ρ hρ, g3, ← h4 E ρ (hρ.prefix k2.pre)]; simp
  · simp only
    generalize (⟨e, c⟩ :: y :: ws : List (Expr F × F)) = zs at *
    obtain ⟨g1, g2⟩ := mergeTerms_spec (n := p.length) (ls := (zs.filter (fun x : Expr F × F => decide (x.2 ≠ 0))).map (fun x : Expr F × F => x.1.map (fun t => (⟨t.coef * x.2, t.vars⟩ : Term F))))
      (by
        intro l hl
        obtain ⟨x, hx, rfl⟩ := List.mem_map.1 hl
        exact ((h3 x (List.mem_filter.1 hx).1).toEOk.scaled x.2).1)
      (by
        intro l hl
        obtain ⟨x, hx, rfl⟩ := List.mem_map.1 hl
        exact ((h3 x (List.mem_filter.1 hx).1).toEOk.scaled x.2).2.1)
      (by
        intro l hl
        obtain ⟨x, hx, rfl⟩ := List.mem_map.1 hl
        exact ((h3 x (List.mem_filter.1 hx).1).toEOk.scaled x.2).2.2.1)
      (by
        intro l hl
        obtain ⟨x, hx, rfl⟩ := List.mem_map.1 hl
        exact ((h3 x (List.mem_filter.1 hx).1).toEOk.scaled x.2).2.2.2)
      (by
        intro l hl
        obtain ⟨x, hx, rfl⟩ := List.mem_map.1 hl
        refine nz_of_mem (h3 x (List.mem_filter.1 hx).1).nz ?_
        intro t ht
        obtain ⟨u, hu, rfl⟩ := List.mem_map.1 ht
        exact Or.inr ⟨u, hu, rfl⟩)
    have hval : ∀ (E : Env F) ρ, value E ρ (mergeTerms ((zs.filter (fun x : Expr F × F => decide (x.2 ≠ 0))).map (fun x : Expr F × F => x.1.map (fun t => (⟨t.coef * x.2, t.vars⟩ : Term F))))) =
        (zs.map (fun x => value E ρ x.1 * x.2)).sum := by
      intro E ρ
      rw [g2, ← sum_filter_zero E ρ zs, List.map_map]
      congr 1
      refine List.map_congr_left (fun x _ => ?_)
      exact value_scale E ρ x.1 x.2
    clear g2
    generalize mergeTerms ((zs.filter (fun x : Expr F × F => decide (x.2 ≠ 0))).map (fun x : Expr F × F => x.1.map (fun t => (⟨t.coef * x.2, t.vars⟩ : Term F)))) = m at *
    cases m with
    | nil =>
      refine ⟨p, _, rfl, Ext.refl p, gok_zero _, fun E ρ hρ => ?_⟩
      rw [← h4 E ρ hρ, ← hval E ρ, value_nil]; exact value_const E ρ 0
    | cons t ts =>
      have g1 := g1.resolve_left (by simp)
      obtain ⟨p', r', k1, k2, k3, k4⟩ := layeredAdd_spec hp g1
      exact ⟨p', r', k1, k2, k3, fun E ρ hρ => by rw [k4 E ρ hρ, hval, h4 E ρ (hρ.prefix k2.pre)]⟩

end Verif.FinalBuild
