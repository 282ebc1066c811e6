import Verif.Layering.ScheduleOk

/-!
# The schedule of a circuit always exists

`computeCtx` (`compute_min_max_layers`, compile.rs:201-512) returns a context for every circuit whose calls have inputs: none of its index
accesses, subtractions and assertions fails.
-/

set_option linter.unusedSectionVars false
set_option linter.unusedSimpArgs false

namespace Verif.Layering

open Verif.IR (Expr Coef)

variable {F : Type} [Field F] [DecidableEq F] {cross root : Bool} {p : Prog F} {subs : List (Ctx F)} {tab : Nat → Option (Ctx F)}

theorem head_of_min {l : List Nat} (hs : l.Pairwise (· < ·)) {a : Nat} (ha : a ∈ l) (h : ∀ x ∈ l, a ≤ x) : l.head? = some a := by
  cases l with
  | nil => cases ha
  | cons b l =>
    rw [List.pairwise_cons] at hs
    rcases List.mem_cons.1 ha with rfl | e
    · rfl
    · have := hs.1 a e; have := h b (by simp); omega

theorem last_of_max {l : List Nat} (hs : l.Pairwise (· < ·)) {a : Nat} (ha : a ∈ l) (h : ∀ x ∈ l, x ≤ a) : l.getLast? = some a := by
  induction l with
  | nil => cases ha
  | cons b l ih =>
    rw [List.pairwise_cons] at hs
    cases l with
    | nil => simp at ha; subst ha; rfl
    | cons d l =>
      rw [List.getLast?_cons_cons]
      refine ih hs.2 ?_ (fun x hx => h x (by simp [hx]))
      rcases List.mem_cons.1 ha with rfl | e
      · have := hs.1 d (by simp); have := h d (by simp); omega
      · exact e

/-- The layers of a variable can be listed. -/
theorem layersOf_some {cross : Bool} {x mn mx outL : Nat} {isOut : Bool} {us : List Nat} (hm : mn ≤ mx) (hus : ∀ u ∈ us, mn ≤ u ∧ u ≤ mx)
    (ho : isOut = true → mx = outL) (hmx : isOut = false → mx = mn ∨ mx ∈ us) :
    ∃ l, layersOf cross x mn mx outL isOut us = some l ∧ ∀ j ∈ l, j ≤ mx := by
  unfold layersOf
  by_cases h0 : x = 0
  · rw [if_pos h0]; exact ⟨[], rfl, by simp⟩
  · rw [if_neg h0]
    cases cross with
    | false =>
      refine ⟨_, rfl, ?_⟩
      intro j hj
      rw [List.mem_range'_1] at hj
      omega
    | true =>
      simp only [if_true]
      generalize ht : mn :: us ++ (if isOut = true then [outL] else []) = t
      have hall : ∀ u ∈ t, mn ≤ u ∧ u ≤ mx := by
        intro u hu
        rw [← ht] at hu
        rcases List.mem_append.1 hu with hu | hu
        · rcases List.mem_cons.1 hu with rfl | hu
          · exact ⟨le_refl _, hm⟩
          · exact hus u hu
        · cases isOut with
          | false => simp at hu
          | true => simp at hu; have := ho rfl; omega
      have hmn : mn ∈ t := by rw [← ht]; simp
      have hmxm : mx ∈ t := by
        rw [← ht]
        cases isOut with
        | true => have := ho rfl; subst this; simp
        | false => rcases hmx rfl with rfl | h <;> simp [*]
      have h1 : (sortDedup t).head? = some mn := head_of_min (sortDedup_sorted t) (sortDedup_mem.2 hmn) (fun u hu => (hall u (sortDedup_mem.1 hu)).1)
      have h2 : (sortDedup t).getLast? = some mx := last_of_max (sortDedup_sorted t) (sortDedup_mem.2 hmxm) (fun u hu => (hall u (sortDedup_mem.1 hu)).2)
      rw [if_pos ⟨h1, h2⟩]
      exact ⟨_, rfl, fun j hj => (hall j (sortDedup_mem.1 hj)).2⟩

theorem maxOf_le {l : List Nat} {B : Nat} (h : ∀ x ∈ l, x ≤ B) : maxOf l ≤ B := foldl_max_le l 0 B (by omega) h

theorem bumpOut_upper (root : Bool) : ∀ (l : List (Option CC)) (i o B : Nat), o ≤ B →
    (∀ (j : Nat) (c : CC), l[j]? = some (some c) → (if root then i + j else i + j + 1) ≤ B) → bumpOut root i l o ≤ B := by
  intro l
  induction l with
  | nil => intro i o B h _; exact h
  | cons x l ih =>
    intro i o B h hl
    unfold bumpOut
    refine ih _ _ _ ?_ ?_
    · cases x with
      | none => simpa using h
      | some c =>
        have := hl 0 c rfl
        cases root <;> simp only [Option.isSome_some, Bool.true_and, decide_eq_true_eq, Bool.false_eq_true, if_false, if_true] at this ⊢ <;> split <;> omega
    · intro j c hc
      have := hl (j + 1) c (by simpa using hc)
      cases root <;> simp only [Bool.false_eq_true, if_false, if_true] at this ⊢ <;> omega

theorem popRev_length (o : Nat) : ∀ (r : List (Option CC)), o < r.length → o < (popRev o r).length := by
  intro r
  induction r with
  | nil => intro h; simpa using h
  | cons x r ih =>
    intro h
    cases x with
    | some c => exact h
    | none =>
      unfold popRev
      split
      · rename_i h'; exact ih h'
      · exact h

/-- What the schedule of a circuit needs of the circuits it calls: their combined constraints lie before their output layer. -/
def SubsCc (p : Prog F) (subs : List (Ctx F)) : Prop :=
  ∀ (k : Nat) (s : Ctx F), subs[k]? = some s → ∀ j cc, s.cc.getD j none = some cc → j < s.outL

section
variable (hp : ProgOk p) (hs : SubsOk tab p subs) (hi : ∀ q ∈ p.calls, q.inputs ≠ []) (hcc : SubsCc p subs)
include hp hs hi hcc

theorem advLe_total {k : Nat} (hk : k < p.calls.length) : advOf p (pDep subs) (p.nv + k) ≤ (pM p subs).getD (p.nv + k) 0 := by
  have hq := List.getElem?_eq_getElem hk
  generalize p.calls[k] = q at hq
  have hne := hi q (List.mem_of_getElem? hq)
  cases hx : q.inputs with
  | nil => exact absurd hx hne
  | cons y l =>
    have he : (y, p.nv + k) ∈ p.edges := edges_mem.2 (.inr ⟨k, q, hq, .inl ⟨rfl, by rw [hx]; simp⟩⟩)
    have := (minOk hp (pDep subs)).edge _ _ he
    change (pM p subs).getD y 0 + _ ≤ (pM p subs).getD (p.nv + k) 0 at this
    omega

theorem start_end {k : Nat} (hk : k < p.calls.length) : (pStarts p subs).getD k 0 + pDep subs k = (pM p subs).getD (p.nv + k) 0 + 1 := by
  have h1 := advLe_total hp hs hi hcc hk
  have hq := List.getElem?_eq_getElem hk
  obtain ⟨s, h2, h3, -, -, h4⟩ := hs.get k _ hq
  have h5 : pDep subs k = s.outL := by rw [pDep, h2]; rfl
  have h6 : advOf p (pDep subs) (p.nv + k) = pDep subs k - 1 := by
    unfold advOf
    rw [if_pos (by omega), Nat.add_sub_cancel_left]
  have h7 : (pStarts p subs).getD k 0 = (pM p subs).getD (p.nv + k) 0 - advOf p (pDep subs) (p.nv + k) := by
    rw [pStarts, List.getD_eq_getElem?_getD, List.getElem?_map, List.getElem?_range hk]; rfl
  omega

theorem subCC_lt {k j : Nat} {cc : CC} (h : (pSubCC subs k).getD j none = some cc) : j < pDep subs k := by
  unfold pSubCC at h
  unfold pDep
  cases hk : subs[k]? with
  | none => rw [hk] at h; simp at h
  | some s =>
    rw [hk] at h
    exact hcc k s hk j cc h

theorem pOut0_le : pOut0 p subs ≤ maxOf (pM p subs) + 1 := by
  unfold pOut0
  refine max_le (maxOf_le ?_) (maxOf_le ?_)
  · intro y hy
    obtain ⟨x, hx, rfl⟩ := List.mem_map.1 hy
    have := getD_le_maxOf (pM p subs) x
    split <;> omega
  · intro y hy
    obtain ⟨k, hk, rfl⟩ := List.mem_map.1 hy
    have := start_end hp hs hi hcc (List.mem_range.1 hk)
    have := getD_le_maxOf (pM p subs) (p.nv + k)
    omega

/-- Combined constraints are numbered within the layers. -/
theorem cc0_le {i : Nat} {cc : CC} (h : (pCC0 root p subs)[i]? = some (some cc)) : i ≤ maxOf (pM p subs) + 1 := by
  have h' : (pCC root p subs).getD i none = some cc := by rw [pCC_getD, List.getD_eq_getElem?_getD, h]; rfl
  obtain ⟨x, h1, h2, -⟩ := pCC_some.1 h'
  obtain ⟨h3, h4⟩ := pMerged_get h1
  rcases h4 with ⟨rfl, _⟩ | ⟨_, _, h4, _⟩
  · unfold nonEmpty at h2
    rw [Bool.not_eq_true', Bool.and_eq_false_iff] at h2
    rcases h2 with h2 | h2
    · have : (rawCC p (pM p subs) (pStarts p subs) (pSubCC subs) i).1 ≠ [] := by intro e; rw [e] at h2; cases h2
      obtain ⟨v, hv⟩ := List.exists_mem_of_ne_nil _ this
      simp only [rawCC, List.mem_filter, beq_iff_eq] at hv
      have := getD_le_maxOf (pM p subs) v
      omega
    · have : (rawCC p (pM p subs) (pStarts p subs) (pSubCC subs) i).2 ≠ [] := by intro e; rw [e] at h2; cases h2
      obtain ⟨k, hk⟩ := List.exists_mem_of_ne_nil _ this
      simp only [rawCC, List.mem_filter, List.mem_range, Bool.and_eq_true, decide_eq_true_eq] at hk
      obtain ⟨hk1, hk2, hk3⟩ := hk
      obtain ⟨cc', hcc'⟩ := Option.isSome_iff_exists.1 hk3
      have := subCC_lt hp hs hi hcc hcc'
      have := start_end hp hs hi hcc hk1
      have := getD_le_maxOf (pM p subs) (p.nv + k)
      omega
  · exact h4

theorem out1_lt : pOut1 root p subs < (pCC1 root p subs).length := by
  have key : pOut1 root p subs < (pCC0 root p subs).length := by
    have hlen : (if root = true then maxOf (pM p subs) + 2 else maxOf (pM p subs) + 3) ≤ (pCC0 root p subs).length := by
      rw [pCC0, number_length]
      cases root with
      | false => simp [pMerged, pRaw_length]
      | true =>
        simp only [pMerged, if_true, rootMerge]
        split
        · rw [List.length_mapIdx, List.length_take, pRaw_length]; omega
        · rw [pRaw_length]; omega
    have h0 := pOut0_le hp hs hi hcc
    have hb := bumpOut_upper root (pCC0 root p subs) 0 (pOut0 p subs) (if root = true then maxOf (pM p subs) + 1 else maxOf (pM p subs) + 2)
      (by split <;> omega) (by
        intro j c hc
        have := cc0_le hp hs hi hcc hc
        cases root <;> simp only [Bool.false_eq_true, if_false, if_true] <;> omega)
    unfold pOut1
    cases root <;> simp only [Bool.false_eq_true, if_false, if_true] at hb hlen <;> omega
  have := popRev_length (pOut1 root p subs) (pCC0 root p subs).reverse (by simpa using key)
  simpa [pCC1] using this

theorem sched_total : Sched root p subs := by
  refine ⟨fun _ => out1_lt hp hs hi hcc, ?_⟩
  intro k hk
  have a : (pStarts p subs).getD k 0 + pDep subs k ≤ pOut0 p subs := by
    unfold pOut0
    exact le_trans (le_maxOf (List.mem_map.2 ⟨k, List.mem_range.2 hk, rfl⟩)) (le_max_right _ _)
  have b : pOut0 p subs ≤ pOut1 root p subs := bumpOut_le _ _ _ _
  have d : pOut1 root p subs ≤ pOut3 root p subs := by
    unfold pOut3
    cases hr : root with
    | false => simp
    | true => have := out1_lt (root := true) hp hs hi hcc; simp only [if_true]; omega
  have e : pOut3 root p subs ≤ pOutL root p subs := by unfold pOutL; split <;> omega
  omega

theorem ccLen_total : pOutL root p subs < (pCC root p subs).length := by
  have h1 := out1_lt (root := root) hp hs hi hcc
  have bump : outBump p (pM p subs) (pOut3 root p subs) (fun k => (pSubCC subs k).any Option.isSome) = true → 1 ≤ pOut1 root p subs := by
    intro h
    unfold outBump at h
    obtain ⟨k, hk, h⟩ := List.any_eq_true.1 h
    dsimp only at h
    rw [Bool.and_eq_true, Bool.and_eq_true] at h
    obtain ⟨h2, -, h3⟩ := h
    have hk := List.mem_range.1 hk
    have hq := List.getElem?_eq_getElem hk
    have hqd : p.calls.getD k ⟨0, [], []⟩ = p.calls[k] := by rw [List.getD_eq_getElem?_getD, hq]; rfl
    rw [hqd] at h2 h3
    generalize p.calls[k] = q at *
    cases ho : q.outputs with
    | nil => rw [ho] at h3; simp at h3
    | cons y l =>
      have hy : y ∈ q.outputs := by rw [ho]; simp
      have h4 := List.all_eq_true.1 h2 y hy
      rw [beq_iff_eq] at h4
      have h5 := (call_out hq).2 y hy
      have a : (pM p subs).getD y 0 ≤ pOut0 p subs := by
        unfold pOut0
        refine le_trans (le_maxOf (List.mem_map.2 ⟨y, List.mem_range.2 h5.2, ?_⟩)) (le_max_left _ _)
        rw [if_neg (by omega)]
      have b : pOut0 p subs ≤ pOut1 root p subs := bumpOut_le _ _ _ _
      have f : 1 ≤ pOut3 root p subs := by unfold pOut3; omega
      omega
  have h3 : pOut3 root p subs = max (if root then (pCC1 root p subs).length - 1 else pOut1 root p subs) 1 := rfl
  have hO : pOutL root p subs = pOut3 root p subs ∨ (pOutL root p subs = pOut3 root p subs + 1 ∧ 1 ≤ pOut1 root p subs) := by
    unfold pOutL
    split
    · rename_i hb; exact .inr ⟨rfl, bump hb⟩
    · exact .inl rfl
  unfold pCC
  split
  · rename_i e; rw [List.length_append, ← e]; simp
  · rename_i e
    cases hr : root with
    | false => rw [hr] at h3 hO h1 e; simp only [Bool.false_eq_true, if_false] at h3; omega
    | true => rw [hr] at h3 hO h1 e; simp only [if_true] at h3; omega

/-- `compute_min_max_layers` returns. -/
theorem computeCtx_total : ∃ c, computeCtx cross root p subs = some c := by
  have S : Sched root p subs := sched_total hp hs hi hcc
  have mo := pM_ok hp hs S
  rw [computeCtx_eq]
  have hin : ∀ (k : Nat) (q : Call), p.calls[k]? = some q → k < p.calls.length := fun k q h => (List.getElem?_eq_some_iff.1 h).1
  rw [if_neg]
  swap
  · rw [Decidable.not_not]
    refine ⟨?_, ?_, ?_⟩
    · rw [List.all_eq_true]
      rintro ⟨x, y⟩ he
      rw [Bool.and_eq_true, decide_eq_true_eq, decide_eq_true_eq]
      rcases edges_mem.1 he with ⟨e, h1, h2⟩ | ⟨k, q, h1, ⟨h2, h3⟩ | ⟨h2, h3⟩⟩
      · have := defn_lt h1; have := expr_in hp h1 x h2; dsimp only; omega
      · have := hin k q h1; have := call_in hp h1 x h3; dsimp only; omega
      · have := hin k q h1; have := (call_out h1).2 y h3; dsimp only; omega
    · rw [List.all_eq_true]; intro x hx; rw [decide_eq_true_eq]; have := hp.cons x hx; omega
    · rw [List.all_eq_true]; intro x hx; rw [decide_eq_true_eq]; have := hp.outs x hx; omega
  rw [if_neg]
  swap
  · rw [Decidable.not_not, List.all_eq_true]
    intro k hk
    rw [decide_eq_true_eq]
    exact advLe_total hp hs hi hcc (List.mem_range.1 hk)
  rw [if_neg]
  swap
  · rw [Decidable.not_not, List.all_eq_true]
    intro k hk
    rw [List.all_eq_true]
    intro j _
    cases hj : (pSubCC subs k).getD j none with
    | none => rfl
    | some cc =>
      rw [Option.isSome_some, Bool.not_true, Bool.false_or, decide_eq_true_eq]
      have := subCC_lt hp hs hi hcc hj
      have := start_end hp hs hi hcc (List.mem_range.1 hk)
      have := getD_le_maxOf (pM p subs) (p.nv + k)
      omega
  rw [if_neg]
  swap
  · rw [Bool.and_eq_true, decide_eq_true_eq]
    rintro ⟨-, h⟩
    have := out1_lt (root := root) hp hs hi hcc
    omega
  rw [if_neg]
  swap
  · rw [Decidable.not_not, List.all_eq_true]
    intro k hk
    rw [List.all_eq_true]
    intro l hl
    rw [decide_eq_true_eq]
    have hk := List.mem_range.1 hk
    rcases (mem_uses hp hs S).1 hl with ⟨y, he, rfl⟩ | ⟨i, cc, h1, h2, rfl⟩
    · rcases edges_mem.1 he with ⟨e, h1, h2⟩ | ⟨k', q, h1, ⟨h2, h3⟩ | ⟨h2, h3⟩⟩
      · have := defn_lt h1; have := expr_in hp h1 _ h2; omega
      · have := call_in hp h1 _ h3; omega
      · have hkk : k' = k := by omega
        subst hkk
        have := mo.out k' q h1 y h3
        obtain ⟨j, hj⟩ := List.getElem?_of_mem h3
        have := adv_out hp hs S (defn_out.2 ⟨q, h1, hj⟩)
        omega
    · rcases cc_vars hp hs S h1 h2 with ⟨h3, _⟩ | ⟨_, _, h3⟩
      · have := hp.cons _ h3; omega
      · omega
  have hmx : ∀ x, 1 ≤ x → x < p.nv → pMaxL root p subs x ≤ pOutL root p subs := by
    intro x h1 h2
    unfold pMaxL
    split
    · exact le_refl _
    · exact foldl_max_le _ _ _ (out_ge hp hs S h1 h2).1 fun u hu => (uses_range hp hs S h1 h2 hu).2
  have hlay : ∀ x ∈ List.range p.nv, ∃ l, layersOf cross x (pMinL root p subs x) (pMaxL root p subs x) (pOutL root p subs) (decide (x ∈ p.outs)) (pUses root p subs x) = some l ∧
      ∀ j ∈ l, j ≤ pOutL root p subs := by
    intro x hx
    have hx := List.mem_range.1 hx
    by_cases h0 : x = 0
    · refine ⟨[], ?_, by simp⟩
      unfold layersOf; rw [if_pos h0]
    · obtain ⟨a, b, d⟩ := minL_le hp hs S (x := x) (by omega) hx
      obtain ⟨l, h1, h2⟩ := layersOf_some (cross := cross) (x := x) (outL := pOutL root p subs) (isOut := decide (x ∈ p.outs)) b a
        (fun h => by unfold pMaxL; rw [if_pos (by simpa using h)]) (fun h => by
          have hn : x ∉ p.outs := by simpa using h
          have he : pMaxL root p subs x = (pUses root p subs x).foldl max ((pM p subs).getD x 0) := by unfold pMaxL; rw [if_neg hn]
          rcases (le_foldl_max (pUses root p subs x) ((pM p subs).getD x 0)).2.2 with e | e
          · left; rw [← he] at e; omega
          · right; rw [he]; exact e)
      exact ⟨l, h1, fun j hj => le_trans (h2 j hj) (hmx x (by omega) hx)⟩
  have hsome := mapOpt_isSome (f := fun x => layersOf cross x (pMinL root p subs x) (pMaxL root p subs x) (pOutL root p subs) (decide (x ∈ p.outs)) (pUses root p subs x))
    (l := List.range p.nv)
  have : ∃ occ, mapOpt (fun x => layersOf cross x (pMinL root p subs x) (pMaxL root p subs x) (pOutL root p subs) (decide (x ∈ p.outs)) (pUses root p subs x)) (List.range p.nv) = some occ := by
    refine hsome ?_
    intro x hx
    obtain ⟨l, h, -⟩ := hlay x hx
    rw [h]; rfl
  obtain ⟨occ, hocc⟩ := this
  rw [hocc]
  dsimp only
  rw [if_neg]
  · exact ⟨_, rfl⟩
  · rw [Decidable.not_not]
    refine ⟨?_, ?_, ccLen_total hp hs hi hcc⟩
    · rw [List.all_eq_true]
      intro k hk
      rw [decide_eq_true_eq]
      exact S.endLe k (List.mem_range.1 hk)
    · rw [List.all_eq_true]
      intro l hl
      rw [List.all_eq_true]
      intro j hj
      rw [decide_eq_true_eq]
      obtain ⟨i, hi⟩ := List.getElem?_of_mem hl
      have hlt : i < (List.range p.nv).length := by rw [← mapOpt_length hocc]; exact (List.getElem?_eq_some_iff.1 hi).1
      have hxl := (mapOpt_getElem? hocc i _ (List.getElem?_eq_getElem hlt)).trans hi
      have hx := List.getElem_mem hlt
      generalize (List.range p.nv)[i] = x at hxl hx
      obtain ⟨l', h1, h2⟩ := hlay x hx
      rw [hxl] at h1
      cases h1
      exact h2 j hj

end

end Verif.Layering
