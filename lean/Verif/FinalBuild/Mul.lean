import Verif.FinalBuild.Sum
import Mathlib.Algebra.BigOperators.Group.List.Basic

/-!
# Products in `final_build_opt.rs`

`mul_vec` multiplies the operands two at a time, compressing operands when its cost estimate says so.  It always terminates (for costs like
those of the shipped configurations) and its result has the value of the product.
-/

set_option linter.unusedSectionVars false
set_option linter.unusedSimpArgs false

namespace Verif.FinalBuild

open Verif.IR Verif.Builder

variable {F : Type} [Field F] [DecidableEq F]

/-! ## The heap holds the pushed elements, whatever the order -/

theorem siftUp_perm (lt : Nat → Nat → Bool) : ∀ (f : Nat) (s : List Nat) (i : Nat), i < s.length → (Heap.siftUp lt f s i).Perm s := by
  intro f
  induction f with
  | zero => intro s i _; exact List.Perm.refl _
  | succ f ih =>
    intro s i hi
    simp only [Heap.siftUp]
    split
    · split
      · exact (ih _ _ (by rw [Heap.swap_length]; omega)).trans (Heap.swap_perm hi (by omega))
      · exact List.Perm.refl _
    · exact List.Perm.refl _

theorem push_perm (lt : Nat → Nat → Bool) (s : List Nat) (x : Nat) : (Heap.push lt s x).Perm (x :: s) :=
  (siftUp_perm lt _ _ _ (by simp)).trans (by simpa using List.perm_append_comm (l₁ := s) (l₂ := [x]))

theorem siftDown_perm (lt : Nat → Nat → Bool) : ∀ (f : Nat) (s : List Nat) (i : Nat), i < s.length → (Heap.siftDown lt f s i).Perm s := by
  intro f
  induction f with
  | zero => intro s i _; exact List.Perm.refl _
  | succ f ih =>
    intro s i hi
    simp only [Heap.siftDown]
    split
    · rename_i h1
      generalize hj : (if (2 * i + 2 < s.length && lt (Heap.at' s (2 * i + 2)) (Heap.at' s (2 * i + 1))) = true then 2 * i + 2 else 2 * i + 1) = j
      have hjl : j < s.length := by
        rw [← hj]
        split
        · rename_i h; simp only [Bool.and_eq_true, decide_eq_true_eq] at h; exact h.1
        · exact h1
      split
      · exact (ih _ _ (by rw [Heap.swap_length]; exact hjl)).trans (Heap.swap_perm hi hjl)
      · exact List.Perm.refl _
    · exact List.Perm.refl _

theorem pop_perm (lt : Nat → Nat → Bool) (s : List Nat) (h : s ≠ []) : ∃ x r, Heap.pop lt s = some (x, r) ∧ s.Perm (x :: r) := by
  rcases s with _ | ⟨x, _ | ⟨y, t⟩⟩
  · exact absurd rfl h
  · exact ⟨x, [], rfl, List.Perm.refl _⟩
  · refine ⟨x, _, rfl, List.Perm.cons _ ?_⟩
    have h1 := siftDown_perm lt (y :: t).length (((y :: t).getLast?.getD 0) :: (y :: t).dropLast) 0 (by simp)
    refine (h1.trans ?_).symm
    have h2 : (y :: t) = (y :: t).dropLast ++ [(y :: t).getLast?.getD 0] := by
      rw [List.getLast?_eq_some_getLast (by simp)]
      simp [List.dropLast_append_getLast]
    conv_rhs => rw [h2]
    simpa using List.perm_append_comm (l₁ := [(y :: t).getLast?.getD 0]) (l₂ := (y :: t).dropLast)

theorem pushAll_perm (lt : Nat → Nat → Bool) : ∀ (ps heap : List Nat), (ps.foldl (fun h p => Heap.push lt h p) heap).Perm (heap ++ ps) := by
  intro ps
  induction ps with
  | nil => intro heap; simp
  | cons p ps ih =>
    intro heap
    rw [List.foldl_cons]
    refine (ih _).trans ?_
    refine ((push_perm lt heap p).append_right ps).trans ?_
    exact List.perm_middle.symm

/-! ## Costs -/

/-- The costs of the shipped configurations satisfy this (circuit/config.rs:24-28, 63). -/
structure CostOk (cs : Costs) : Prop where
  const : cs.const = cs.add
  mul : cs.add ≤ cs.mul
  var : 3 * cs.add ≤ cs.var
  pos : 0 < cs.var

theorem counts {n : Nat} {e : Expr F} (he : EOk n e) (hd : degree e = 1) :
    ∃ d0 d1, countDeg e = (d0, d1, 0) ∧ d0 ≤ 1 ∧ 1 ≤ d1 ∧ e.length = d0 + d1 ∧ (compact e = true → d1 = 1) := by
  have hle := (degree_le_one e).1 (by omega)
  have h2 : e.countP (fun t => match t.vars with | .const => false | .linear _ => false | _ => true) = 0 := by
    rw [List.countP_eq_zero]
    intro t ht
    rcases hle t ht with h | ⟨x, h⟩ <;> simp [h]
  have hnc : (nonConst e).length = e.countP (fun t => match t.vars with | .linear _ => true | _ => false) := by
    rw [nonConst, ← List.countP_eq_length_filter]
    refine List.countP_congr (fun t ht => ?_)
    rcases hle t ht with h | ⟨x, h⟩ <;> simp [h]
  have h0 : e.countP (fun t => decide (t.vars = .const)) ≤ 1 := by
    rw [List.countP_eq_length_filter]
    refine same_vars_length (v := .const) (he.sorted.sublist List.filter_sublist) (fun t ht => ?_)
    simpa using (List.mem_filter.1 ht).2
  have h1 : 1 ≤ e.countP (fun t => match t.vars with | .linear _ => true | _ => false) := by
    rw [Nat.one_le_iff_ne_zero, Ne, List.countP_eq_zero]
    intro hall
    unfold degree at hd
    split at hd
    · omega
    · split at hd
      · rename_i h3
        obtain ⟨t, ht, h4⟩ := List.any_eq_true.1 h3
        exact hall t ht h4
      · omega
  refine ⟨_, _, Prod.ext rfl (Prod.ext rfl h2), h0, h1, ?_, fun hc => ?_⟩
  · rw [List.length_eq_countP_add_countP (fun t : Term F => decide (t.vars = .const)) (l := e)]
    congr 1
    refine List.countP_congr (fun t ht => ?_)
    rcases hle t ht with h | ⟨x, h⟩ <;> simp [h]
  · unfold compact at hc
    simp only [Bool.and_eq_true, decide_eq_true_eq] at hc
    exact le_antisymm (le_of_eq_of_le hnc.symm hc.2) h1

theorem choose_noncompact {cs : Costs} (hcs : CostOk cs) {n : Nat} {ms : Mids F} {a b : Expr F} (ha : EOk n a) (hb : EOk n b) (hda : degree a = 1) (hdb : degree b = 1)
    (hl : a.length ≤ b.length) (hc : (chooseCompress cs ms a b).1 = true) :
    ((chooseCompress cs ms a b).2 = true → compact a = false) ∧ ((chooseCompress cs ms a b).2 = false → compact b = false) := by
  obtain ⟨a0, a1, hA, hA0, hA1, hAl, hAc⟩ := counts ha hda
  obtain ⟨b0, b1, hB, hB0, hB1, hBl, hBc⟩ := counts hb hdb
  obtain ⟨c1, c2, c3, c4⟩ := hcs
  revert hc
  unfold chooseCompress
  simp only [hA, hB]
  by_cases hlay : layerOf ms a = layerOf ms b
  · rw [if_pos hlay]
    simp only [decide_eq_true_eq, decide_eq_false_iff_not]
    intro hc
    constructor
    · intro h1
      by_contra hcon
      have h := hAc (by simpa using hcon)
      subst h
      simp only [costMultiply, costCompress, c1] at h1
      have h2 : cs.mul * b1 + cs.add ≥ cs.add * b1 + cs.mul := by
        obtain ⟨k, hk⟩ := Nat.exists_eq_add_of_le c2
        obtain ⟨j, rfl⟩ := Nat.exists_eq_add_of_le hB1
        rw [hk]
        have : (cs.add + k) * (1 + j) + cs.add = cs.add * (1 + j) + (cs.add + k) + k * j := by ring
        omega
      have h3 := (lt_min_iff.1 h1).1
      simp only [Nat.mul_zero, Nat.zero_mul, Nat.mul_one, Nat.one_mul, Nat.add_zero, Nat.zero_add] at h3
      omega
    · intro h1
      by_contra hcon
      have h := hBc (by simpa using hcon)
      subst h
      simp only [costMultiply, costCompress, c1] at h1 hc
      simp only [Nat.mul_zero, Nat.zero_mul, Nat.mul_one, Nat.one_mul, Nat.add_zero, Nat.zero_add] at h1 hc
      have hb0 : b0 = 0 ∨ b0 = 1 := by omega
      have ha0 : a0 = 0 ∨ a0 = 1 := by omega
      have ha1 : a1 = 1 ∨ (a1 = 2 ∧ a0 = 0 ∧ b0 = 1) := by omega
      rcases ha1 with rfl | ⟨rfl, rfl, rfl⟩
      · rcases hb0 with rfl | rfl <;> rcases ha0 with rfl | rfl <;> simp only [Nat.mul_zero, Nat.zero_mul, Nat.mul_one, Nat.one_mul, Nat.add_zero, Nat.zero_add] at h1 hc <;> omega
      · simp only [Nat.mul_zero, Nat.zero_mul, Nat.mul_one, Nat.one_mul, Nat.add_zero, Nat.zero_add] at h1 hc
        omega
  · rw [if_neg hlay]
    have aux : ∀ (e : Expr F) (d0 d1 : Nat), d0 ≤ 1 → e.length = d0 + d1 → (compact e = true → d1 = 1) → 2 < e.length → compact e = false := by
      intro e d0 d1 h1 h2 h3 h4
      by_contra hcon
      have := h3 (by simpa using hcon)
      omega
    split
    · intro hc
      simp only [decide_eq_true_eq] at hc
      exact ⟨fun _ => aux a a0 a1 hA0 hAl hAc hc, fun h => by simp at h⟩
    · split
      · intro hc
        simp only [decide_eq_true_eq] at hc
        exact ⟨fun h => by simp at h, fun _ => aux b b0 b1 hB0 hBl hBc hc⟩
      · intro hc; simp at hc

/-! ## One step -/

/-- Work left: two per operand, and one more for each operand that can still be compressed. -/
def work (es : List (Expr F)) : Nat := 2 * es.length + es.countP (fun e => !compact e)

theorem work_perm {a b : List (Expr F)} (h : a.Perm b) : work a = work b := by
  unfold work; rw [h.length_eq, h.countP_eq]

theorem work_append (a b : List (Expr F)) : work (a ++ b) = work a + work b := by
  unfold work; rw [List.length_append, List.countP_append]; omega

theorem degree_two_noncompact {e : Expr F} (h : degree e = 2) : compact e = false := by simp [compact, h]

theorem rows_gok {n : Nat} {a b : Expr F} (ha : GOk n a) (hb : GOk n b) (hda : degree a ≤ 1) (hdb : degree b ≤ 1) :
    ∃ rs, rows a b = some rs ∧ (∀ r ∈ rs, GOk n r) ∧ ∀ (E : Env F) (ρ : Nat → F), (rs.map (value E ρ)).sum = value E ρ a * value E ρ b := by
  obtain ⟨rs, h1, h2, h3⟩ := rows_spec hb.toEOk hdb ha.vars hda
  refine ⟨rs, h1, fun r hr => ⟨h2 r hr, ?_⟩, h3⟩
  unfold rows at h1
  obtain ⟨i, hi, hir⟩ := List.mem_iff_getElem.1 hr
  have hlen := mapOpt_length h1
  have hia : i < a.length := by omega
  have hg := mapOpt_getElem? h1 i a[i] (List.getElem?_eq_getElem hia)
  rw [List.getElem?_eq_getElem hi, hir] at hg
  obtain ⟨ts, g1, g2, g3, _⟩ := mulTerms_spec ((degree_le_one _).1 hda a[i] (List.getElem_mem hia)) ((degree_le_one _).1 hdb)
  rw [g1] at hg
  simp only [Option.some.injEq] at hg
  intro v hv
  rw [← hg] at hv
  rcases g3 v (Expr.fromTerms_vars ts v hv) with h | h
  · exact ha.nz v (List.mem_flatMap.2 ⟨a[i], List.getElem_mem hia, h⟩)
  · exact hb.nz v h

theorem mulStep_spec {cs : Costs} (hcs : CostOk cs) {p : Mids F} {a b : Expr F} (hp : MidsWF p) (ha : GOk p.length a) (hb : GOk p.length b) :
    ∃ p' new, mulStep cs p a b = some (p', new) ∧ Ext p p' ∧ new ≠ [] ∧ (∀ r ∈ new, GOk p'.length r) ∧ work new < work [a, b] ∧
      ∀ E ρ, MidsOk E ρ p' → (new.map (value E ρ)).prod = value E ρ a * value E ρ b := by
  have hswap : ∀ e1 e2, e1 = (if a.length > b.length then b else a) → e2 = (if a.length > b.length then a else b) →
      e1.length ≤ e2.length ∧ GOk p.length e1 ∧ GOk p.length e2 ∧ work [a, b] = work [e1, e2] ∧ ∀ (E : Env F) ρ, value E ρ a * value E ρ b = value E ρ e1 * value E ρ e2 := by
    intro e1 e2 h1 h2
    by_cases h : a.length > b.length
    · rw [if_pos h] at h1 h2
      subst h1 h2
      exact ⟨by omega, hb, ha, work_perm (List.Perm.swap _ _ _), fun E ρ => mul_comm _ _⟩
    · rw [if_neg h] at h1 h2
      subst h1 h2
      exact ⟨by omega, ha, hb, rfl, fun E ρ => rfl⟩
  simp only [mulStep]
  generalize hq1 : (if a.length > b.length then b else a) = e1
  generalize hq2 : (if a.length > b.length then a else b) = e2
  obtain ⟨hl, g1, g2, gw, gv⟩ := hswap e1 e2 hq1.symm hq2.symm
  rw [gw]
  simp only [gv]
  clear hswap hq1 hq2 gw gv ha hb
  have one : ∀ r : Expr F, work [r] < work [e1, e2] := by
    intro r
    simp only [work, List.length_cons, List.length_nil]
    have := List.countP_le_length (p := fun e => !compact e) (l := [r])
    simp only [List.length_cons, List.length_nil] at this
    omega
  have two1 : ∀ r1 : Expr F, compact r1 = true → compact e1 = false → work [r1, e2] < work [e1, e2] := by
    intro r1 h1 h2
    simp [work, List.countP_cons, h1, h2]
  have two2 : ∀ r2 : Expr F, compact r2 = true → compact e2 = false → work [e1, r2] < work [e1, e2] := by
    intro r1 h1 h2
    simp [work, List.countP_cons, h1, h2]
  by_cases h10 : degree e1 = 0
  · rw [if_pos h10]
    obtain ⟨c, rfl⟩ := degree_zero g1.toEOk h10
    obtain ⟨r, h1, h2, h3⟩ := gok_mulConst g2 c
    simp only [constValue, h1]
    refine ⟨p, [r], rfl, Ext.refl p, by simp, by simpa using h2, one r, fun E ρ _ => ?_⟩
    rw [value_const]; simp [h3, mul_comm]
  rw [if_neg h10]
  by_cases h20 : degree e2 = 0
  · rw [if_pos h20]
    obtain ⟨c, rfl⟩ := degree_zero g2.toEOk h20
    obtain ⟨r, h1, h2, h3⟩ := gok_mulConst g1 c
    simp only [constValue, h1]
    refine ⟨p, [r], rfl, Ext.refl p, by simp, by simpa using h2, one r, fun E ρ _ => ?_⟩
    rw [value_const]; simp [h3]
  rw [if_neg h20]
  by_cases h12 : degree e1 = 2
  · rw [if_pos h12]
    by_cases h22 : degree e2 = 2
    · rw [if_pos h22]
      obtain ⟨p1, r2, k1, k2, k3, k4, k5⟩ := makeSingle_spec hp g2
      rw [k1]
      obtain ⟨p2, r1, j1, j2, j3, j4, j5⟩ := makeSingle_spec (k2.wf hp) (g1.mono k2.len)
      simp only [j1]
      refine ⟨p2, [r2, r1], rfl, k2.trans j2, by simp, ?_, ?_, fun E ρ hρ => ?_⟩
      · intro r hr
        simp only [List.mem_cons, List.not_mem_nil, or_false] at hr
        rcases hr with rfl | rfl
        · exact k3.mono j2.len
        · exact j3
      · simp [work, List.countP_cons, k4, j4, degree_two_noncompact h12, degree_two_noncompact h22]
      · simp only [List.map_cons, List.map_nil, List.prod_cons, List.prod_nil, mul_one]
        rw [k5 E ρ (hρ.prefix j2.pre), j5 E ρ hρ, mul_comm]
    · rw [if_neg h22]
      obtain ⟨p1, r1, k1, k2, k3, k4, k5⟩ := makeSingle_spec hp g1
      rw [k1]
      refine ⟨p1, [e2, r1], rfl, k2, by simp, ?_, ?_, fun E ρ hρ => ?_⟩
      · intro r hr
        simp only [List.mem_cons, List.not_mem_nil, or_false] at hr
        rcases hr with rfl | rfl
        · exact g2.mono k2.len
        · exact k3
      · rw [work_perm (List.Perm.swap r1 e2 [])]
        exact two1 r1 k4 (degree_two_noncompact h12)
      · simp only [List.map_cons, List.map_nil, List.prod_cons, List.prod_nil, mul_one]
        rw [k5 E ρ hρ, mul_comm]
  rw [if_neg h12]
  by_cases h22 : degree e2 = 2
  · rw [if_pos h22]
    obtain ⟨p1, r1, k1, k2, k3, k4, k5⟩ := makeSingle_spec hp g2
    rw [k1]
    refine ⟨p1, [e1, r1], rfl, k2, by simp, ?_, two2 r1 k4 (degree_two_noncompact h22), fun E ρ hρ => ?_⟩
    · intro r hr
      simp only [List.mem_cons, List.not_mem_nil, or_false] at hr
      rcases hr with rfl | rfl
      · exact g1.mono k2.len
      · exact k3
    · simp only [List.map_cons, List.map_nil, List.prod_cons, List.prod_nil, mul_one]
      rw [k5 E ρ hρ]
  rw [if_neg h22]
  have d1 : degree e1 = 1 := by have := degree_le_two e1; omega
  have d2 : degree e2 = 1 := by have := degree_le_two e2; omega
  by_cases hc : (chooseCompress cs p e1 e2).1 = true
  · rw [if_pos hc]
    obtain ⟨n1, n2⟩ := choose_noncompact hcs g1.toEOk g2.toEOk d1 d2 hl hc
    by_cases hc1 : (chooseCompress cs p e1 e2).2 = true
    · rw [if_pos hc1]
      obtain ⟨p1, r1, k1, k2, k3, k4, k5⟩ := makeSingle_spec hp g1
      rw [k1]
      refine ⟨p1, [r1, e2], rfl, k2, by simp, ?_, two1 r1 k4 (n1 hc1), fun E ρ hρ => ?_⟩
      · intro r hr
        simp only [List.mem_cons, List.not_mem_nil, or_false] at hr
        rcases hr with rfl | rfl
        · exact k3
        · exact g2.mono k2.len
      · simp only [List.map_cons, List.map_nil, List.prod_cons, List.prod_nil, mul_one]
        rw [k5 E ρ hρ]
    · rw [if_neg hc1]
      obtain ⟨p1, r1, k1, k2, k3, k4, k5⟩ := makeSingle_spec hp g2
      rw [k1]
      refine ⟨p1, [e1, r1], rfl, k2, by simp, ?_, two2 r1 k4 (n2 (by simpa using hc1)), fun E ρ hρ => ?_⟩
      · intro r hr
        simp only [List.mem_cons, List.not_mem_nil, or_false] at hr
        rcases hr with rfl | rfl
        · exact g1.mono k2.len
        · exact k3
      · simp only [List.map_cons, List.map_nil, List.prod_cons, List.prod_nil, mul_one]
        rw [k5 E ρ hρ]
  · rw [if_neg hc]
    obtain ⟨rs, k1, k2, k3⟩ := rows_gok g1 g2 (by omega) (by omega)
    rw [k1]
    obtain ⟨p', r, j1, j2, j3, j4⟩ := linCombInner_spec (vs := rs.map (fun r => (r, (1 : F)))) hp (by
      intro x hx
      obtain ⟨r, hr, rfl⟩ := List.mem_map.1 hx
      exact k2 r hr)
    simp only [j1]
    refine ⟨p', [r], rfl, j2, by simp, by simpa using j3, one r, fun E ρ hρ => ?_⟩
    simp only [List.map_cons, List.map_nil, List.prod_cons, List.prod_nil, mul_one]
    rw [j4 E ρ hρ, ← k3 E ρ, List.map_map]
    congr 1
    refine List.map_congr_left (fun x _ => ?_)
    simp

/-! ## The loop -/

theorem mulLoop_spec {cs : Costs} (hcs : CostOk cs) (ltE : Expr F → Expr F → Bool) : ∀ (fuel : Nat) {p : Mids F} {exprs : List (Expr F)} {heap : List Nat} {next : Nat},
    MidsWF p → next ≤ exprs.length → (heap ++ List.range' next (exprs.length - next)).Nodup → (∀ q ∈ heap, q < exprs.length) →
    ∀ {live : List (Expr F)}, live = (heap ++ List.range' next (exprs.length - next)).map (fun q => exprs.getD q []) → live ≠ [] →
    (∀ e ∈ live, GOk p.length e) → work live < fuel →
    ∃ p' r, mulLoop cs ltE fuel p exprs heap next = some (p', r) ∧ Ext p p' ∧ GOk p'.length r ∧
      ∀ E ρ, MidsOk E ρ p' → value E ρ r = (live.map (value E ρ)).prod := by
  intro fuel
  induction fuel with
  | zero => intro p exprs heap next _ _ _ _ live _ _ _ h; omega
  | succ fuel ih =>
    intro p exprs heap next hp hn hnd hh live hlive hne hok hw
    simp only [mulLoop]
    have hperm := pushAll_perm (fun i j => cmpMul ltE p (exprs.getD i []) (exprs.getD j [])) (List.range' next (exprs.length - next)) heap
    generalize (List.range' next (exprs.length - next)).foldl (fun h q => Heap.push (fun i j => cmpMul ltE p (exprs.getD i []) (exprs.getD j [])) h q) heap = H at *
    have hlt : ∀ q ∈ H, q < exprs.length := by
      intro q hq
      rcases List.mem_append.1 (hperm.mem_iff.1 hq) with h | h
      · exact hh q h
      · have := List.mem_range'_1.1 h; omega
    have hHn : H.Nodup := hperm.nodup_iff.2 hnd
    have hlp : live.Perm (H.map (fun q => exprs.getD q [])) := by rw [hlive]; exact (hperm.map _).symm
    have hvals : ∀ (E : Env F) ρ, (live.map (value E ρ)).prod = ((H.map (fun q => exprs.getD q [])).map (value E ρ)).prod :=
      fun E ρ => (hlp.map _).prod_eq
    have hHok : ∀ q ∈ H, GOk p.length (exprs.getD q []) := fun q hq => hok _ (hlp.mem_iff.2 (List.mem_map.2 ⟨q, hq, rfl⟩))
    rw [work_perm hlp] at hw
    have hHne : H ≠ [] := by
      rintro rfl
      exact hne (List.perm_nil.1 (by simpa using hlp))
    clear hperm hnd hh hlive hok
    rcases H with _ | ⟨x, _ | ⟨y, H⟩⟩
    · exact absurd rfl hHne
    · simp only
      have hx := hlt x (by simp)
      rw [List.getElem?_eq_getElem hx]
      have hg : exprs.getD x [] = exprs[x] := by simp [List.getD_eq_getElem?_getD, hx]
      refine ⟨p, exprs[x], rfl, Ext.refl p, ?_, fun E ρ _ => ?_⟩
      · have := hHok x (by simp); rw [hg] at this; exact this
      · rw [hvals E ρ]; simp [List.getD_eq_getElem?_getD, hx]
    · simp only
      obtain ⟨p1, h1, e1, q1⟩ := pop_perm (fun i j => cmpMul ltE p (exprs.getD i []) (exprs.getD j [])) (x :: y :: H) (by simp)
      have hl1 : h1 ≠ [] := by
        rintro rfl
        have := q1.length_eq
        simp at this
      obtain ⟨p2, h2, e2, q2⟩ := pop_perm (fun i j => cmpMul ltE p (exprs.getD i []) (exprs.getD j [])) h1 hl1
      rw [e1]; simp only [e2]
      have q3 : (x :: y :: H).Perm (p1 :: p2 :: h2) := q1.trans (q2.cons _)
      generalize (x :: y :: H) = H at *
      have hl2 : ∀ q ∈ p1 :: p2 :: h2, q < exprs.length := fun q hq => hlt q (q3.mem_iff.2 hq)
      have hok2 : ∀ q ∈ p1 :: p2 :: h2, GOk p.length (exprs.getD q []) := fun q hq => hHok q (q3.mem_iff.2 hq)
      have hn2 : (p1 :: p2 :: h2).Nodup := q3.nodup_iff.1 hHn
      rw [work_perm (q3.map _)] at hw
      have hvals2 : ∀ (E : Env F) ρ, (live.map (value E ρ)).prod = (((p1 :: p2 :: h2).map (fun q => exprs.getD q [])).map (value E ρ)).prod := by
        intro E ρ; rw [hvals E ρ]; exact ((q3.map _).map _).prod_eq
      have hp1 := hl2 p1 (by simp)
      have hp2 := hl2 p2 (by simp)
      have ga : exprs.getD p1 [] = exprs[p1] := by simp [List.getD_eq_getElem?_getD, hp1]
      have gb : exprs.getD p2 [] = exprs[p2] := by simp [List.getD_eq_getElem?_getD, hp2]
      simp only [List.getElem?_eq_getElem hp1, List.getElem?_eq_getElem hp2]
      have oka := hok2 p1 (by simp)
      have okb := hok2 p2 (by simp)
      rw [ga] at oka; rw [gb] at okb
      obtain ⟨ms', new, k1, k2, k3, k4, k5, k6⟩ := mulStep_spec hcs hp oka okb
      rw [k1]
      simp only
      have hlen : (((exprs.set p1 [Term.zero]).set p2 [Term.zero]) ++ new).length = exprs.length + new.length := by simp
      have hsub : exprs.length + new.length - exprs.length = new.length := by omega
      have hkeep : ∀ q ∈ h2, (((exprs.set p1 [Term.zero]).set p2 [Term.zero]) ++ new).getD q [] = exprs.getD q [] := by
        intro q hq
        have hql := hl2 q (by simp [hq])
        have hq1 : p1 ≠ q := by rintro rfl; simp [hq] at hn2
        have hq2 : p2 ≠ q := by rintro rfl; simp [hq] at hn2
        rw [List.getD_eq_getElem?_getD, List.getElem?_append_left (by simpa using hql), List.getElem?_set_ne hq2, List.getElem?_set_ne hq1, List.getD_eq_getElem?_getD]
      have hnew : (List.range' exprs.length new.length).map (fun q => (((exprs.set p1 [Term.zero]).set p2 [Term.zero]) ++ new).getD q []) = new := by
        refine List.ext_getElem (by simp) (fun i hi1 hi2 => ?_)
        simp only [List.getElem_map, List.getElem_range', Nat.one_mul]
        rw [List.getD_eq_getElem?_getD, List.getElem?_append_right (by simp)]
        simp [hi2]
      have hlive' : h2.map (fun q => exprs.getD q []) ++ new = (h2 ++ List.range' exprs.length ((((exprs.set p1 [Term.zero]).set p2 [Term.zero]) ++ new).length - exprs.length)).map
          (fun q => (((exprs.set p1 [Term.zero]).set p2 [Term.zero]) ++ new).getD q []) := by
        rw [hlen, hsub, List.map_append, hnew, List.map_congr_left hkeep]
      have hw2 : work (h2.map (fun q => exprs.getD q []) ++ new) < fuel := by
        have e : (p1 :: p2 :: h2).map (fun q => exprs.getD q []) = [exprs[p1], exprs[p2]] ++ h2.map (fun q => exprs.getD q []) := by
          simp only [List.map_cons, ga, gb]; rfl
        rw [e, work_append] at hw
        rw [work_append]
        omega
      obtain ⟨p', r, j1, j2, j3, j4⟩ := ih (k2.wf hp) (exprs := ((exprs.set p1 [Term.zero]).set p2 [Term.zero]) ++ new) (heap := h2) (next := exprs.length) (by rw [hlen]; omega)
        (by
          rw [hlen, hsub]
          rw [List.nodup_append]
          refine ⟨(List.nodup_cons.1 (List.nodup_cons.1 hn2).2).2, List.nodup_range' , ?_⟩
          intro q hq q' hq' e
          have := hl2 q (by simp [hq])
          have := List.mem_range'_1.1 hq'
          omega)
        (fun q hq => by rw [hlen]; have := hl2 q (by simp [hq]); omega)
        hlive' (by simp [k3])
        (by
          intro e he
          rcases List.mem_append.1 he with h | h
          · obtain ⟨q, hq, rfl⟩ := List.mem_map.1 h
            exact (hok2 q (by simp [hq])).mono k2.len
          · exact k4 e h)
        hw2
      refine ⟨p', r, j1, k2.trans j2, j3, fun E ρ hρ => ?_⟩
      rw [j4 E ρ hρ, hvals2 E ρ, List.map_append, List.prod_append, k6 E ρ (hρ.prefix j2.pre)]
      simp only [List.map_cons, ga, gb, List.prod_cons]
      ring

theorem tryAll'_spec {p : Mids F} (hp : MidsWF p) : ∀ (vs : List (Expr F)), (∀ x ∈ vs, GOk p.length x) →
    ∃ ws, mapOpt (tryMakeSingle p) vs = some ws ∧ ws.length = vs.length ∧ (∀ x ∈ ws, GOk p.length x) ∧
      ∀ E ρ, MidsOk E ρ p → ws.map (value E ρ) = vs.map (value E ρ) := by
  intro vs
  induction vs with
  | nil => intro _; exact ⟨[], rfl, rfl, by simp, fun _ _ _ => rfl⟩
  | cons x vs ih =>
    intro h
    obtain ⟨ws, h1, h2, h3, h4⟩ := ih (fun y hy => h y (by simp [hy]))
    obtain ⟨r, g1, g2, g3⟩ := tryMakeSingle_spec hp (h x (by simp))
    refine ⟨r :: ws, mapOpt_cons.2 ⟨r, ws, g1, h1, rfl⟩, by simp [h2], ?_, fun E ρ hρ => ?_⟩
    · intro y hy
      rcases List.mem_cons.1 hy with rfl | hy
      · exact g2
      · exact h3 y hy
    · rw [List.map_cons, List.map_cons, h4 E ρ hρ, g3 E ρ hρ]

/-- `mul_vec` terminates without panic and computes the product. -/
theorem mulVec_spec {cs : Costs} (hcs : CostOk cs) (ltE : Expr F → Expr F → Bool) {p : Mids F} {es : List (Expr F)} (hp : MidsWF p) (hl : 2 ≤ es.length)
    (he : ∀ e ∈ es, GOk p.length e) :
    ∃ p' r, mulVec cs ltE p es = some (p', r) ∧ Ext p p' ∧ GOk p'.length r ∧ ∀ E ρ, MidsOk E ρ p' → value E ρ r = (es.map (value E ρ)).prod := by
  obtain ⟨ws, h1, h2, h3, h4⟩ := tryAll'_spec hp es he
  unfold mulVec
  rw [if_neg (by omega), h1]
  simp only
  obtain ⟨p', r, j1, j2, j3, j4⟩ := mulLoop_spec hcs ltE (3 * ws.length + 1) (exprs := ws) (heap := []) (next := 0) hp (by omega)
    (by simpa using List.nodup_range') (by simp) (live := ws)
    (by
      refine List.ext_getElem (by simp) (fun i hi1 hi2 => ?_)
      simp [hi1])
    (by rintro rfl; simp at h2; omega) h3
    (by
      unfold work
      have := List.countP_le_length (p := fun e => !compact e) (l := ws)
      omega)
  exact ⟨p', r, j1, j2, j3, fun E ρ hρ => by rw [j4 E ρ hρ, h4 E ρ (hρ.prefix j2.pre)]⟩

end Verif.FinalBuild
