import Verif.Layering.CcParts
import Verif.Layering.CtxOk

/-!
# The context computed for a valid circuit is usable
-/

set_option linter.unusedSectionVars false
set_option linter.unusedSimpArgs false

namespace Verif.Layering

open Verif.IR (Expr Coef)

variable {F : Type} [Field F] [DecidableEq F] {cross root : Bool} {p : Prog F} {subs : List (Ctx F)} {c : Ctx F} {tab : Nat → Option (Ctx F)}

/-- What is known of the contexts of the called circuits. -/
structure SubsOk (tab : Nat → Option (Ctx F)) (p : Prog F) (subs : List (Ctx F)) : Prop where
  get : ∀ (k : Nat) (q : Call), p.calls[k]? = some q → ∃ s, subs[k]? = some s ∧ tab q.sub = some s ∧ q.outputs.length = s.prog.outs.length ∧
    q.inputs.length = s.prog.numInputs ∧ 1 ≤ s.outL

/-- How the combined constraints cover the constraints. -/
structure CcOk (tab : Nat → Option (Ctx F)) (root : Bool) (c : Ctx F) : Prop where
  cov : ∀ v ∈ c.prog.cons, ∃ j cc, c.cc.getD j none = some cc ∧ v ∈ cc.vars
  covSub : ∀ (k : Nat) (q : Call) (s : Ctx F) j cc, c.prog.calls[k]? = some q → tab q.sub = some s → s.cc.getD j none = some cc →
    ∃ cc', c.cc.getD (c.start k + j + 1) none = some cc' ∧ k ∈ cc'.subs
  subsNodup : ∀ j cc, c.cc.getD j none = some cc → cc.subs.Nodup
  vars : ∀ j cc v, c.cc.getD j none = some cc → v ∈ cc.vars → v ∈ c.prog.cons ∨ (root = true ∧ c.prog.nv ≤ v)
  nonRoot : root = false → ∀ j cc, c.cc.getD j none = some cc → j < c.outL
  chain : root = true → ∀ j cc, c.cc.getD j none = some cc → j < c.outL → ∃ cc' ws, c.cc.getD (j + 1) none = some cc' ∧ cc'.vars = ws ++ [cc.id] ∧ ∀ w ∈ ws, w < c.prog.nv

theorem foldl_max_le (l : List Nat) (a B : Nat) (ha : a ≤ B) (h : ∀ x ∈ l, x ≤ B) : l.foldl max a ≤ B := by
  induction l generalizing a with
  | nil => exact ha
  | cons x l ih => exact ih _ (max_le ha (h x (by simp))) fun y hy => h y (by simp [hy])

theorem le_foldl_min (l : List Nat) (a B : Nat) (ha : B ≤ a) (h : ∀ x ∈ l, B ≤ x) : B ≤ l.foldl min a := by
  induction l generalizing a with
  | nil => exact ha
  | cons x l ih => exact ih _ (le_min ha (h x (by simp))) fun y hy => h y (by simp [hy])

theorem foldl_min_le' (l : List Nat) (a : Nat) : l.foldl min a ≤ a ∧ ∀ x ∈ l, l.foldl min a ≤ x := by
  induction l generalizing a with
  | nil => simp
  | cons x l ih =>
    obtain ⟨h1, h2⟩ := ih (min a x)
    refine ⟨le_trans h1 (min_le_left _ _), fun y hy => ?_⟩
    rcases List.mem_cons.1 hy with rfl | hy
    · exact le_trans h1 (min_le_right _ _)
    · exact h2 y hy

/-- The part of `Parts` that bounds the layers of variables and calls. -/
structure Sched (root : Bool) (p : Prog F) (subs : List (Ctx F)) : Prop where
  rootLen : root = true → pOut1 root p subs < (pCC1 root p subs).length
  endLe : ∀ k < p.calls.length, (pStarts p subs).getD k 0 + pDep subs k ≤ pOutL root p subs

theorem Parts.sched (P : Parts cross root p subs c) : Sched root p subs :=
  ⟨P.rootLen, fun k hk => by have := P.endLe k hk; rwa [P.starts, P.outL] at this⟩

section
variable (hp : ProgOk p) (hs : SubsOk tab p subs) (P : Sched root p subs)
include hp hs P

theorem pDep_eq {k : Nat} {q : Call} {s : Ctx F} (hq : p.calls[k]? = some q) (ht : tab q.sub = some s) : pDep subs k = s.outL ∧ subs[k]? = some s := by
  obtain ⟨s', h1, h2, -⟩ := hs.get k q hq
  rw [ht] at h2; cases h2
  exact ⟨by rw [pDep, h1]; rfl, h1⟩

theorem pM_ok : MinOk p (pDep subs) (pM p subs) := minOk hp _

theorem starts_get {k : Nat} (hk : k < p.calls.length) : (pStarts p subs).getD k 0 = (pM p subs).getD (p.nv + k) 0 - advOf p (pDep subs) (p.nv + k) := by
  rw [pStarts, List.getD_eq_getElem?_getD, List.getElem?_map, List.getElem?_range hk]; rfl

theorem adv_call {k : Nat} : advOf p (pDep subs) (p.nv + k) = pDep subs k - 1 := by
  unfold advOf
  rw [if_pos (by omega), Nat.add_sub_cancel_left]

theorem adv_expr {y : Nat} {e : Expr F} (h : p.defn y = some (.expr e)) : advOf p (pDep subs) y = 1 := by
  unfold advOf
  rw [if_neg (by have := defn_lt h; omega), h]

theorem adv_out {y k j : Nat} (h : p.defn y = some (.out k j)) : advOf p (pDep subs) y = 1 := by
  unfold advOf
  rw [if_neg (by have := defn_lt h; omega), h]

/-- Every variable appears before the output layer. -/
theorem out_ge {x : Nat} (h1 : 1 ≤ x) (h2 : x < p.nv) : (pM p subs).getD x 0 ≤ pOutL root p subs ∧ 1 ≤ pOutL root p subs := by
  have a : (pM p subs).getD x 0 ≤ pOut0 p subs := by
    unfold pOut0
    refine le_trans (le_maxOf (List.mem_map.2 ⟨x, List.mem_range.2 h2, ?_⟩)) (le_max_left _ _)
    rw [if_neg (by omega)]
  have b : pOut0 p subs ≤ pOut1 root p subs := bumpOut_le _ _ _ _
  have d : pOut1 root p subs ≤ pOut3 root p subs := by
    unfold pOut3
    cases hr : root with
    | false => simp
    | true => have := P.rootLen hr; subst hr; simp only [if_true]; omega
  have e : pOut3 root p subs ≤ pOutL root p subs := by unfold pOutL; split <;> omega
  have f : 1 ≤ pOut3 root p subs := by unfold pOut3; omega
  omega

/-- The combined constraints: variables. -/
theorem cc_vars {i : Nat} {cc : CC} (h : (pCC root p subs).getD i none = some cc) {v : Nat} (hv : v ∈ cc.vars) :
    (v ∈ p.cons ∧ (pM p subs).getD v 0 + 1 = i) ∨ (root = true ∧ pFirst p subs < i ∧ v = i - 1 - pFirst p subs + (p.nv + p.calls.length)) := by
  obtain ⟨x, h1, h2, rfl⟩ := pCC_some.1 h
  obtain ⟨h3, h4⟩ := pMerged_get h1
  have raw : ∀ v, v ∈ (rawCC p (pM p subs) (pStarts p subs) (pSubCC subs) i).1 → (v ∈ p.cons ∧ (pM p subs).getD v 0 + 1 = i) := by
    intro v hv
    simp only [rawCC, List.mem_filter, beq_iff_eq] at hv
    exact hv
  rcases h4 with ⟨rfl, _⟩ | ⟨hr, hf, _, rfl⟩
  · exact .inl (raw v hv)
  · dsimp only at hv
    rcases List.mem_append.1 hv with hv | hv
    · exact .inl (raw v hv)
    · exact .inr ⟨hr, hf, by simpa using hv⟩

theorem cc_subs {i : Nat} {cc : CC} (h : (pCC root p subs).getD i none = some cc) : cc.subs = (rawCC p (pM p subs) (pStarts p subs) (pSubCC subs) i).2 := by
  obtain ⟨x, h1, h2, rfl⟩ := pCC_some.1 h
  obtain ⟨h3, h4⟩ := pMerged_get h1
  rcases h4 with ⟨rfl, _⟩ | ⟨hr, hf, _, rfl⟩ <;> rfl

theorem pCC1_getD (i : Nat) : (pCC1 root p subs).getD i none = (pCC root p subs).getD i none := by
  rw [pCC_getD, pCC1, popRev_getD]

/-- Uses of a variable. -/
theorem mem_uses {x u : Nat} : u ∈ pUses root p subs x ↔ (∃ y, (x, y) ∈ p.edges ∧ u = (pM p subs).getD y 0 - advOf p (pDep subs) y) ∨
    ∃ i cc, (pCC root p subs).getD i none = some cc ∧ x ∈ cc.vars ∧ u = i - 1 := by
  unfold pUses uses
  rw [List.mem_append, List.mem_map, List.mem_flatMap]
  refine or_congr ?_ ?_
  · constructor
    · rintro ⟨y, h1, rfl⟩; exact ⟨y, mem_succs.1 h1, rfl⟩
    · rintro ⟨y, h1, rfl⟩; exact ⟨y, mem_succs.2 h1, rfl⟩
  · constructor
    · rintro ⟨i, -, h⟩
      rw [pCC1_getD hp hs P] at h
      cases hcc : (pCC root p subs).getD i none with
      | none => rw [hcc] at h; cases h
      | some cc =>
        rw [hcc] at h
        obtain ⟨v, hv, rfl⟩ := List.mem_map.1 h
        obtain ⟨hv1, hv2⟩ := List.mem_filter.1 hv
        rw [beq_iff_eq] at hv2
        subst hv2
        exact ⟨i, cc, hcc, hv1, rfl⟩
    · rintro ⟨i, cc, hcc, hx, rfl⟩
      have hcc1 := hcc
      rw [← pCC1_getD hp hs P] at hcc1
      refine ⟨i, ?_, ?_⟩
      · rw [List.mem_range]
        by_contra hn
        rw [List.getD_eq_getElem?_getD, List.getElem?_eq_none (by omega)] at hcc1
        cases hcc1
      · rw [hcc1]
        exact List.mem_map.2 ⟨x, List.mem_filter.2 ⟨hx, by simp⟩, rfl⟩

/-- Uses of a variable lie between its first layer and the output layer. -/
theorem uses_range {x u : Nat} (h1 : 1 ≤ x) (h2 : x < p.nv) (hu : u ∈ pUses root p subs x) : (pM p subs).getD x 0 ≤ u ∧ u ≤ pOutL root p subs := by
  have mo := pM_ok hp hs P
  rcases (mem_uses hp hs P).1 hu with ⟨y, h, rfl⟩ | ⟨i, cc, hcc, hx, rfl⟩
  · have := mo.edge x y h
    refine ⟨by omega, ?_⟩
    rcases edges_mem.1 h with ⟨e, h3, h4⟩ | ⟨k, q, h3, ⟨h4, h5⟩ | ⟨h4, h5⟩⟩
    · have := defn_lt h3
      have := (out_ge hp hs P (x := y) (by omega) (by omega)).1
      omega
    · subst h4
      have hk : k < p.calls.length := (List.getElem?_eq_some_iff.1 h3).1
      have := P.endLe k hk
      rw [starts_get hp hs P hk] at this
      omega
    · omega
  · rcases cc_vars hp hs P hcc hx with ⟨_, h4⟩ | ⟨_, _, h4⟩
    · have := (out_ge hp hs P h1 h2).1
      omega
    · omega

theorem minL_le {x : Nat} (h1 : 1 ≤ x) (h2 : x < p.nv) : (∀ u ∈ pUses root p subs x, pMinL root p subs x ≤ u ∧ u ≤ pMaxL root p subs x) ∧
    pMinL root p subs x ≤ pMaxL root p subs x ∧ (pM p subs).getD x 0 ≤ pMinL root p subs x := by
  have mo := pM_ok hp hs P
  have hmx : ∀ u ∈ pUses root p subs x, u ≤ pMaxL root p subs x := by
    intro u hu
    unfold pMaxL
    split
    · exact (uses_range hp hs P h1 h2 hu).2
    · exact (le_foldl_max _ _).2.1 u hu
  have hm : (pM p subs).getD x 0 ≤ pMaxL root p subs x := by
    unfold pMaxL
    split
    · exact (out_ge hp hs P h1 h2).1
    · exact (le_foldl_max _ _).1
  have key : (∀ u ∈ pUses root p subs x, pMinL root p subs x ≤ u) ∧ pMinL root p subs x ≤ pMaxL root p subs x ∧ (pM p subs).getD x 0 ≤ pMinL root p subs x := by
    have base : (∀ u ∈ pUses root p subs x, (pM p subs).getD x 0 ≤ u) := fun u hu => (uses_range hp hs P h1 h2 hu).1
    unfold pMinL
    cases hd : p.defn x with
    | none => exact ⟨base, hm, le_refl _⟩
    | some d =>
      cases d with
      | expr e => exact ⟨base, hm, le_refl _⟩
      | out k j => exact ⟨base, hm, le_refl _⟩
      | const a =>
        simp only
        split
        · exact ⟨base, hm, le_refl _⟩
        · unfold constLayer
          obtain ⟨a1, a2⟩ := foldl_min_le' (pUses root p subs x) (min (pOutL root p subs) (pMaxL root p subs x))
          refine ⟨a2, le_trans a1 (min_le_right _ _), ?_⟩
          refine le_foldl_min _ _ _ (le_min (out_ge hp hs P h1 h2).1 hm) base
  exact ⟨fun u hu => ⟨key.1 u hu, hmx u hu⟩, key.2⟩

end

section
variable (hp : ProgOk p) (hs : SubsOk tab p subs) (P : Parts cross root p subs c)
include hp hs P

theorem lay_eq {x : Nat} (h : x < p.nv) : c.lay x = pMinL root p subs x := by
  rw [Ctx.lay, P.minL, List.getD_eq_getElem?_getD, List.getElem?_map, List.getElem?_range h]; rfl

theorem lay_big {x : Nat} (h : p.nv ≤ x) : c.lay x = 0 := by
  rw [Ctx.lay, P.minL, List.getD_eq_getElem?_getD, List.getElem?_eq_none (by simpa using h)]; rfl

theorem occ_eq {x : Nat} (h : x < p.nv) : layersOf cross x (pMinL root p subs x) (pMaxL root p subs x) (pOutL root p subs) (decide (x ∈ p.outs)) (pUses root p subs x) = some (c.occOf x) := by
  have h1 := mapOpt_getElem? P.occ x x (List.getElem?_range h)
  rw [h1, Ctx.occOf, List.getD_eq_getElem?_getD]
  have hl : c.occ.length = p.nv := by have := mapOpt_length P.occ; simpa using this
  rw [List.getElem?_eq_getElem (by omega)]; rfl

theorem occ_big {x : Nat} (h : p.nv ≤ x) : c.occOf x = [] := by
  have hl : c.occ.length = p.nv := by have := mapOpt_length P.occ; simpa using this
  rw [Ctx.occOf, List.getD_eq_getElem?_getD, List.getElem?_eq_none (by omega)]; rfl

theorem nv_pos : p.numInputs < p.nv := by unfold Prog.nv; omega

theorem occ_zero : c.occOf 0 = [] := by
  have h := occ_eq hp hs P (x := 0) (by have := nv_pos hp hs P; omega)
  unfold layersOf at h
  simpa using h.symm

theorem occ_spec {x : Nat} (h1 : 1 ≤ x) (h2 : x < p.nv) : (c.occOf x).Pairwise (· < ·) ∧ (c.occOf x).head? = some (c.lay x) ∧
    (∀ u ∈ pUses root p subs x, u ∈ c.occOf x) ∧ (x ∈ p.outs → c.outL ∈ c.occOf x) := by
  obtain ⟨a, b, d⟩ := minL_le hp hs P.sched h1 h2
  have := layersOf_spec (occ_eq hp hs P h2) (by omega) b a (fun ho => by
    unfold pMaxL
    rw [if_pos (by simpa using ho)])
  rw [lay_eq hp hs P h2, P.outL]
  refine ⟨this.1, this.2.1, this.2.2.1, fun ho => this.2.2.2 (by simpa using ho)⟩

theorem pM_le {x : Nat} : (pM p subs).getD x 0 ≤ maxOf (pM p subs) := getD_le_maxOf _ _

/-- Combined constraints at the root. -/
theorem root_last (hr : root = true) {i : Nat} {cc : CC} (h : (pCC root p subs).getD i none = some cc) :
    pOutL root p subs = maxOf (pM p subs) + 1 ∧ pFirst p subs ≤ i ∧ (pMerged root p subs).length = maxOf (pM p subs) + 2 := by
  subst hr
  obtain ⟨x, h1, h2, rfl⟩ := pCC_some.1 h
  rw [root_nonEmpty h1, decide_eq_true_eq] at h2
  obtain ⟨h3, h4⟩ := pMerged_get h1
  have hf : pFirst p subs < (pRaw p subs).length := by rw [pRaw_length]; omega
  have hlen : (pMerged true p subs).length = maxOf (pM p subs) + 2 := by
    unfold pMerged rootMerge
    simp only [if_true]
    change (if pFirst p subs < (pRaw p subs).length then _ else _ : List _).length = _
    rw [if_pos hf, List.length_mapIdx, List.length_take, pRaw_length]
    omega
  have hi : i < maxOf (pM p subs) + 2 := by rw [← hlen]; exact (List.getElem?_eq_some_iff.1 h1).1
  have hlast : (pCC0 true p subs).getLast? ≠ none ∧ ∃ d, (pCC0 true p subs).getLast? = some (some d) := by
    have hy : (pMerged true p subs)[maxOf (pM p subs) + 1]? = some _ := List.getElem?_eq_getElem (by omega)
    have hne := root_nonEmpty hy
    rw [decide_eq_true (by omega)] at hne
    have hsome := pCC_some.2 ⟨_, hy, hne, rfl⟩
    rw [pCC_getD, List.getD_eq_getElem?_getD] at hsome
    have h0 : (pCC0 true p subs).length = maxOf (pM p subs) + 2 := by rw [pCC0, number_length, hlen]
    rw [List.getLast?_eq_getElem?, h0, show maxOf (pM p subs) + 2 - 1 = maxOf (pM p subs) + 1 by omega]
    rw [List.getElem?_eq_getElem (by omega)] at hsome ⊢
    simp only [Option.getD_some] at hsome
    exact ⟨by simp, _, by rw [hsome]⟩
  obtain ⟨-, d, hd⟩ := hlast
  have hcc1 : pCC1 true p subs = pCC0 true p subs := popRev_last _ _ hd
  have h3l : pOut3 true p subs = maxOf (pM p subs) + 1 := by
    unfold pOut3
    rw [hcc1, pCC0, number_length, hlen]
    simp
  have hb : outBump p (pM p subs) (pOut3 true p subs) (fun k => (pSubCC subs k).any Option.isSome) = false := by
    rw [h3l]
    unfold outBump
    rw [List.any_eq_false]
    intro k hk
    dsimp only
    cases ho : (p.calls.getD k ⟨0, [], []⟩).outputs with
    | nil => simp
    | cons y l =>
      have := getD_le_maxOf (pM p subs) y
      rw [List.all_cons]
      have e : ((pM p subs).getD y 0 == maxOf (pM p subs) + 1) = false := by rw [beq_eq_false_iff_ne]; omega
      rw [e]
      simp
  refine ⟨?_, h2, hlen⟩
  unfold pOutL
  rw [hb]
  simpa using h3l

theorem ctxOk : CtxOk tab c := by
  have mo := pM_ok hp hs P.sched
  have hnv := nv_pos hp hs P
  have hpr := P.prog
  have hout := P.outL
  have hstart : ∀ k, k < p.calls.length → c.start k = (pM p subs).getD (p.nv + k) 0 - advOf p (pDep subs) (p.nv + k) := by
    intro k hk; rw [Ctx.start, P.starts]; exact starts_get hp hs P.sched hk
  have hklt : ∀ {k : Nat} {q : Call}, p.calls[k]? = some q → k < p.calls.length := fun h => (List.getElem?_eq_some_iff.1 h).1
  have hmu : ∀ i, i < c.outL → c.mu.getD (i + 1) 0 = muAt c.starts ((List.range p.calls.length).map (pDep subs)) (fun k => ((subs[k]?).map (·.mu)).getD []) c.occ (i + 1) := by
    intro i hi
    rw [P.mu, List.getD_eq_getElem?_getD, List.getElem?_map, List.getElem?_range (by omega)]; rfl
  have hsl : c.starts.length = p.calls.length := by rw [P.starts, pStarts]; simp
  refine ⟨?_, ?_, ?_, ?_, ?_, ?_, ?_, ?_, ?_, ?_, ?_, ?_, ?_, ?_, ?_, ?_, ?_, ?_, ?_, ?_, ?_, ?_, ?_, ?_, ?_, ?_, ?_, ?_, ?_, ?_, ?_⟩
  all_goals try rw [hpr]
  · -- sub
    intro k q hq
    obtain ⟨s, _, h, _⟩ := hs.get k q hq
    exact ⟨s, h⟩
  · intro k q s hq ht
    obtain ⟨s', _, h, h2, _⟩ := hs.get k q hq
    rw [ht] at h; cases h; exact h2
  · intro k q s hq ht
    obtain ⟨s', _, h, _, h2, _⟩ := hs.get k q hq
    rw [ht] at h; cases h; exact h2
  · intro x k j; exact defn_out
  · intro k q hq; exact (call_out hq).1
  · intro x d h; have := defn_lt h; omega
  · -- layIn
    intro x h1 h2 h3
    by_contra hn
    obtain ⟨d, hd⟩ := defn_some (p := p) (x := x) (by omega) h2
    rw [hd] at h3; cases h3
  · exact hnv
  · -- lay0
    intro x hx
    have hd : p.defn x = none := by unfold Prog.defn; rw [if_pos hx]
    refine ⟨hd, ?_⟩
    rw [lay_eq hp hs P (by omega)]
    unfold pMinL
    rw [hd]
    exact mo.input x hx
  · intro x hx; exact lay_big hp hs P hx
  · -- layPos
    intro x d hd
    have hlt := defn_lt hd
    rw [lay_eq hp hs P hlt.2]
    refine le_trans ?_ (minL_le hp hs P.sched (by omega) hlt.2).2.2
    cases d with
    | expr e => exact mo.expr x e hd
    | const a => rw [mo.const x a hd]
    | out k j =>
      obtain ⟨q, hq, hj⟩ := defn_out.1 hd
      have := mo.out k q hq x (List.mem_of_getElem? hj)
      omega
  · -- outLay
    intro k q s y hq ht hy
    have hy' := (call_out hq).2 y hy
    obtain ⟨j, hj⟩ := List.getElem?_of_mem hy
    have hd : p.defn y = some (.out k j) := defn_out.2 ⟨q, hq, hj⟩
    have h1 := mo.out k q hq y hy
    obtain ⟨h2, h3⟩ := pDep_eq hp hs P.sched hq ht
    rw [lay_eq hp hs P hy'.2, hstart k (hklt hq), adv_call hp hs P.sched, h2]
    have h4 := P.advLe k (hklt hq)
    rw [adv_call hp hs P.sched, h2] at h4
    obtain ⟨s', h5, h6, _, _, h7⟩ := hs.get k q hq
    rw [ht] at h6; cases h6
    have : pMinL root p subs y = (pM p subs).getD y 0 := by unfold pMinL; rw [hd]
    omega
  · -- inUse
    intro k q y hq hy
    obtain ⟨h1, h2⟩ := call_in hp hq y hy
    refine ⟨h1, h2, ?_⟩
    apply (occ_spec hp hs P h1 h2).2.2.1
    rw [mem_uses hp hs P.sched, hstart k (hklt hq)]
    exact .inl ⟨p.nv + k, edges_mem.2 (.inr ⟨k, q, hq, .inl ⟨rfl, hy⟩⟩), rfl⟩
  · -- exprUse
    intro x e v hd hv
    have hx := defn_lt hd
    obtain ⟨h1, h2⟩ := expr_in hp hd v hv
    refine ⟨h1, by omega, ?_⟩
    apply (occ_spec hp hs P h1 (by omega)).2.2.1
    rw [mem_uses hp hs P.sched, lay_eq hp hs P hx.2]
    refine .inl ⟨x, edges_mem.2 (.inl ⟨e, hd, hv⟩), ?_⟩
    rw [adv_expr hp hs P.sched hd]
    unfold pMinL
    rw [hd]
  · -- occSorted
    intro x
    by_cases h1 : 1 ≤ x
    · by_cases h2 : x < p.nv
      · exact (occ_spec hp hs P h1 h2).1
      · rw [occ_big hp hs P (by omega)]; exact .nil
    · rw [show x = 0 by omega, occ_zero hp hs P]; exact .nil
  · intro x h1 h2; exact (occ_spec hp hs P h1 h2).2.1
  · -- occLe
    intro x j hj
    rw [Ctx.occOf, List.getD_eq_getElem?_getD] at hj
    cases ho : c.occ[x]? with
    | none => rw [ho] at hj; cases hj
    | some l => rw [ho] at hj; exact P.occLe l (List.mem_of_getElem? ho) j hj
  · -- occRange
    intro x j hj
    by_cases h1 : 1 ≤ x
    · by_cases h2 : x < p.nv
      · exact ⟨h1, h2⟩
      · rw [occ_big hp hs P (by omega)] at hj; cases hj
    · rw [show x = 0 by omega, occ_zero hp hs P] at hj; cases hj
  · intro y hy
    obtain ⟨h1, h2⟩ := hp.outs y hy
    exact (occ_spec hp hs P h1 h2).2.2.2 hy
  · rw [hout]
    have e3 : pOut3 root p subs ≤ pOutL root p subs := by unfold pOutL; split <;> omega
    have e4 : 1 ≤ pOut3 root p subs := le_max_right _ _
    omega
  · intro k q s hq ht
    have := P.endLe k (hklt hq)
    rw [(pDep_eq hp hs P.sched hq ht).1] at this
    exact this
  · -- mu1
    intro i hi
    rw [hmu i hi]
    unfold muAt
    exact (foldl_min_le' _ _).1
  · -- muOcc
    intro x u i hi hx
    rw [hmu i hi]
    unfold muAt
    refine (foldl_min_le' _ _).2 u ?_
    rw [List.mem_append]
    right
    rw [List.mem_filterMap]
    refine ⟨(u, i + 1), ?_, by simp⟩
    rw [Ctx.occOf, List.getD_eq_getElem?_getD] at hx
    cases ho : c.occ[x]? with
    | none => rw [ho] at hx; simp [pairs] at hx
    | some l => rw [ho] at hx; exact List.mem_flatMap.2 ⟨l, List.mem_of_getElem? ho, hx⟩
  · -- muSub
    intro k q s i hq ht h1 h2
    have he := P.endLe k (hklt hq)
    obtain ⟨d1, d2⟩ := pDep_eq hp hs P.sched hq ht
    have hks : c.start k = c.starts.getD k 0 := rfl
    rw [hmu i (by rw [d1] at he; omega)]
    unfold muAt
    refine (foldl_min_le' _ _).2 _ ?_
    rw [List.mem_append]
    left
    rw [List.mem_filterMap]
    refine ⟨k, List.mem_range.2 (by rw [hsl]; exact hklt hq), ?_⟩
    have e1 : ((List.range p.calls.length).map (pDep subs)).getD k 0 = s.outL := by
      rw [List.getD_eq_getElem?_getD, List.getElem?_map, List.getElem?_range (hklt hq)]; exact d1
    rw [e1, if_pos ⟨by omega, by omega⟩]
    dsimp only
    rw [d2]
    rfl
  · intro j hj
    rw [Ctx.varsOf, P.vars, List.getD_eq_getElem?_getD, List.getElem?_map, List.getElem?_range (by omega)]; rfl
  · -- cc0
    rw [P.cc]
    cases h : (pCC root p subs).getD 0 none with
    | none => rfl
    | some cc =>
      obtain ⟨x, h1, h2, rfl⟩ := pCC_some.1 h
      obtain ⟨h3, ⟨rfl, _⟩ | ⟨_, h4, _⟩⟩ := pMerged_get h1
      · rw [rawCC_zero] at h2; simp [nonEmpty] at h2
      · omega
  · -- ccLen
    intro j hj
    rw [P.cc]
    cases h : (pCC root p subs).getD j none with
    | none => rfl
    | some cc =>
      exfalso
      rw [← pCC1_getD hp hs P.sched] at h
      have hj1 : j < (pCC1 root p subs).length := by
        by_contra hn
        rw [List.getD_eq_getElem?_getD, List.getElem?_eq_none (by omega)] at h; cases h
      have e3 : pOut3 root p subs ≤ pOutL root p subs := by unfold pOutL; split <;> omega
      rw [hout] at hj
      cases hr : root with
      | true =>
        subst hr
        have : (pCC1 true p subs).length - 1 ≤ pOut3 true p subs := by unfold pOut3; simp
        omega
      | false =>
        subst hr
        have h0 : (pCC0 false p subs)[j]? = some (some cc) := by
          rw [pCC1, popRev_getD, List.getD_eq_getElem?_getD] at h
          cases hh : (pCC0 false p subs)[j]? with
          | none => rw [hh] at h; cases h
          | some z => rw [hh] at h; simp at h; rw [h]
        have h1 := bumpOut_some (pCC0 false p subs) 0 (pOut0 p subs) j h0
        have h2 : pOut1 false p subs = bumpOut false 0 (pCC0 false p subs) (pOut0 p subs) := rfl
        have : pOut1 false p subs ≤ pOut3 false p subs := by unfold pOut3; simp
        omega
  · intro j cc h
    rw [P.cc] at h
    obtain ⟨x, h1, h2, rfl⟩ := pCC_some.1 h
    dsimp only; omega
  · intro j j' cc cc' h h' hid
    rw [P.cc] at h h'
    obtain ⟨x, h1, h2, rfl⟩ := pCC_some.1 h
    obtain ⟨x', h1', h2', rfl⟩ := pCC_some.1 h'
    dsimp only at hid
    exact ccNum_inj h1 h1' h2 h2' (by omega)
  · -- ccVars
    intro j cc v h hv
    rw [P.cc] at h ⊢
    rcases cc_vars hp hs P.sched h hv with ⟨h1, h2⟩ | ⟨hr, h1, h2⟩
    · left
      obtain ⟨a, b⟩ := hp.cons v h1
      refine ⟨a, b, ?_⟩
      apply (occ_spec hp hs P a b).2.2.1
      exact (mem_uses hp hs P.sched).2 (.inr ⟨j + 1, cc, h, hv, rfl⟩)
    · right
      subst hr
      obtain ⟨x, g1, g2, -⟩ := pCC_some.1 h
      have hlt : j + 1 < (pMerged true p subs).length := (List.getElem?_eq_some_iff.1 g1).1
      have hy : (pMerged true p subs)[j]? = some _ := List.getElem?_eq_getElem (by omega)
      have hne := root_nonEmpty hy
      rw [decide_eq_true (by omega)] at hne
      refine ⟨_, pCC_some.2 ⟨_, hy, hne, rfl⟩, ?_⟩
      dsimp only
      rw [root_ccNum j (by omega), h2]
      omega
  · -- ccSubs
    intro j cc k h hk
    rw [P.cc] at h
    rw [cc_subs hp hs P.sched h] at hk
    simp only [rawCC, List.mem_filter, List.mem_range, Bool.and_eq_true, decide_eq_true_eq] at hk
    obtain ⟨hk1, hk2, hk3⟩ := hk
    have hq : p.calls[k]? = some _ := List.getElem?_eq_getElem hk1
    obtain ⟨s, h5, h6, -⟩ := hs.get k _ hq
    obtain ⟨cc', hcc'⟩ := Option.isSome_iff_exists.1 hk3
    refine ⟨_, s, cc', hq, h6, ?_, ?_⟩
    · rw [Ctx.start, P.starts]; omega
    · rw [pSubCC, h5] at hcc'
      rw [Ctx.start, P.starts, show j - (pStarts p subs).getD k 0 = j + 1 - ((pStarts p subs).getD k 0 + 1) by omega]
      exact hcc'

theorem ccOk (hnr : ∀ (k : Nat) (q : Call) (s : Ctx F), p.calls[k]? = some q → tab q.sub = some s → ∀ j cc, s.cc.getD j none = some cc → j < s.outL) : CcOk tab root c := by
  have mo := pM_ok hp hs P.sched
  have hpr := P.prog
  have hstart : ∀ k, k < p.calls.length → c.start k = (pM p subs).getD (p.nv + k) 0 - advOf p (pDep subs) (p.nv + k) := by
    intro k hk; rw [Ctx.start, P.starts]; exact starts_get hp hs P.sched hk
  have hklt : ∀ {k : Nat} {q : Call}, p.calls[k]? = some q → k < p.calls.length := fun h => (List.getElem?_eq_some_iff.1 h).1
  refine ⟨?_, ?_, ?_, ?_, ?_, ?_⟩
  all_goals try rw [hpr]
  all_goals try rw [P.cc]
  · intro v hv
    have hle := getD_le_maxOf (pM p subs) v
    obtain ⟨x, h1, h2, h3⟩ := pMerged_some (root := root) (p := p) (subs := subs) (i := (pM p subs).getD v 0 + 1) (by omega) (fun _ => by omega)
    have hvx : v ∈ x.1 := h2 v (by simp only [rawCC, List.mem_filter, beq_iff_eq]; exact ⟨hv, trivial⟩)
    refine ⟨_, _, pCC_some.2 ⟨x, h1, ?_, rfl⟩, hvx⟩
    unfold nonEmpty
    cases hx : x.1 with
    | nil => rw [hx] at hvx; cases hvx
    | cons => simp
  · intro k q s j cc hq ht hcc
    obtain ⟨d1, d2⟩ := pDep_eq hp hs P.sched hq ht
    obtain ⟨s', h5, h6, _, _, h7⟩ := hs.get k q hq
    rw [ht] at h6; cases h6
    have hj := hnr k q s hq ht j cc hcc
    have ha := P.advLe k (hklt hq)
    have hle := getD_le_maxOf (pM p subs) (p.nv + k)
    have hst := starts_get hp hs P.sched (hklt hq)
    rw [adv_call hp hs P.sched, d1] at ha hst
    rw [show c.start k = (pStarts p subs).getD k 0 by rw [Ctx.start, P.starts]]
    obtain ⟨x, h1, h2, h3⟩ := pMerged_some (root := root) (p := p) (subs := subs) (i := (pStarts p subs).getD k 0 + j + 1) (by omega) (fun _ => by omega)
    have hkx : k ∈ x.2 := by
      rw [h3]
      simp only [rawCC, List.mem_filter, List.mem_range, Bool.and_eq_true, decide_eq_true_eq]
      refine ⟨hklt hq, by omega, ?_⟩
      rw [show (pStarts p subs).getD k 0 + j + 1 - ((pStarts p subs).getD k 0 + 1) = j by omega, pSubCC, d2]
      show ((s.cc.getD j none).isSome) = true
      rw [hcc]; rfl
    refine ⟨_, pCC_some.2 ⟨x, h1, ?_, rfl⟩, hkx⟩
    unfold nonEmpty
    cases hx : x.2 with
    | nil => rw [hx] at hkx; cases hkx
    | cons => simp
  · intro j cc h
    rw [cc_subs hp hs P.sched h]
    exact (List.nodup_range).filter _
  · intro j cc v h hv
    rcases cc_vars hp hs P.sched h hv with ⟨h1, h2⟩ | ⟨hr, h1, h2⟩
    · exact .inl h1
    · exact .inr ⟨hr, by omega⟩
  · intro hr j cc h
    subst hr
    rw [P.outL]
    rw [← pCC1_getD hp hs P.sched] at h
    have h0 : (pCC0 false p subs)[j]? = some (some cc) := by
      rw [pCC1, popRev_getD, List.getD_eq_getElem?_getD] at h
      cases hh : (pCC0 false p subs)[j]? with
      | none => rw [hh] at h; cases h
      | some z => rw [hh] at h; simp at h; rw [h]
    have h1 := bumpOut_some (pCC0 false p subs) 0 (pOut0 p subs) j h0
    have h2 : pOut1 false p subs = bumpOut false 0 (pCC0 false p subs) (pOut0 p subs) := rfl
    have h3 : pOut1 false p subs ≤ pOut3 false p subs := by unfold pOut3; simp
    have e3 : pOut3 false p subs ≤ pOutL false p subs := by unfold pOutL; split <;> omega
    omega
  · intro hr j cc h hj
    rw [P.outL] at hj
    obtain ⟨h1, h2, h3⟩ := root_last hp hs P hr h
    subst hr
    obtain ⟨x, g1, g2, rfl⟩ := pCC_some.1 h
    have hy : (pMerged true p subs)[j + 1]? = some _ := List.getElem?_eq_getElem (by omega)
    have hne := root_nonEmpty hy
    rw [decide_eq_true (by omega)] at hne
    obtain ⟨-, ⟨-, h5⟩ | ⟨-, -, -, h5⟩⟩ := pMerged_get hy
    · have := h5 rfl; omega
    · refine ⟨_, (rawCC p (pM p subs) (pStarts p subs) (pSubCC subs) (j + 1)).1, pCC_some.2 ⟨_, hy, hne, rfl⟩, ?_, ?_⟩
      · have e := congrArg Prod.fst h5
        dsimp only at e ⊢
        rw [e, root_ccNum j (by omega), show j + 1 - 1 - pFirst p subs + (p.nv + p.calls.length) = p.nv + p.calls.length + (j - pFirst p subs) by omega]
      · intro w hw
        simp only [rawCC, List.mem_filter] at hw
        exact (hp.cons w hw.1).2

end

end Verif.Layering
