import Verif.Layered.Twins
import Verif.Layered.GateSort
import Verif.Layered.CommonProof

/-!
# `dedup_gates`: doing it twice is doing it once; the number of gates
-/

set_option linter.unusedSectionVars false
set_option linter.unusedSimpArgs false

namespace Verif.Layered

open Verif.IR (Coef)

variable {F : Type} [CommRing F] [DecidableEq F]

/-- The function sorts by an order that refines `gateKey` (the derived order of `Coef`, layered/mod.rs:18-23, also compares field elements and numbers of public inputs),
and leaves a sorted list as it is. -/
def Stays {F : Type} (srt : List (Gate F) → List (Gate F)) : Prop :=
  ∃ le : Gate F → Gate F → Prop, (∀ a b, gateKey a < gateKey b → le a b) ∧ (∀ l, (srt l).Pairwise le) ∧ ∀ l : List (Gate F), l.Pairwise le → srt l = l

/-- The order of gates (`Ord`, opt.rs:18-97): `gateKey`, then the constant or the number of the public input; `v` is the order of field elements. -/
def GateLe {F : Type} (v : F → Nat) (a b : Gate F) : Prop := gateKey a < gateKey b ∨ gateKey a = gateKey b ∧
  match a.coef, b.coef with
  | .const x, .const y => v x ≤ v y
  | .pub i, .pub j => i ≤ j
  | _, _ => True

instance gateLe_dec {F : Type} (v : F → Nat) : DecidableRel (GateLe v) := fun a b => by unfold GateLe; cases a.coef <;> cases b.coef <;> exact inferInstance

theorem gateKey_coef {F : Type} {a b : Gate F} (h : gateKey a = gateKey b) : (match a.coef with | .const _ => 0 | .random => 1 | .pub _ => 2) = (match b.coef with | .const _ => 0 | .random => 1 | .pub _ => 2) := by
  simp only [gateKey, List.cons_append, List.cons.injEq] at h
  obtain ⟨-, e2, e3⟩ := h
  have := (flat_inj e2 e3).2
  simp only [List.cons.injEq, and_true] at this
  exact this.2

theorem gateLe_total {F : Type} (v : F → Nat) (a b : Gate F) : GateLe v a b ∨ GateLe v b a := by
  unfold GateLe
  rcases lt_trichotomy (gateKey a) (gateKey b) with h | h | h
  · exact .inl (.inl h)
  · cases ha : a.coef <;> cases hb : b.coef <;> simp only [h, true_and, and_true, or_true, lt_self_iff_false, false_or]
    · exact le_total _ _
    · exact le_total _ _
  · exact .inr (.inl h)

theorem gateLe_trans {F : Type} (v : F → Nat) (a b c : Gate F) (h1 : GateLe v a b) (h2 : GateLe v b c) : GateLe v a c := by
  unfold GateLe at *
  rcases h1 with h1 | ⟨h1, k1⟩
  · rcases h2 with h2 | ⟨h2, -⟩
    · exact .inl (h1.trans h2)
    · exact .inl (h2 ▸ h1)
  · rcases h2 with h2 | ⟨h2, k2⟩
    · exact .inl (h1 ▸ h2)
    · refine .inr ⟨h1.trans h2, ?_⟩
      have e1 := gateKey_coef h1
      have e2 := gateKey_coef h2
      cases ha : a.coef <;> cases hb : b.coef <;> cases hc : c.coef <;> simp only [ha, hb, hc] at * <;> first | trivial | omega

/-- The order Rust derives for gates meets what the theorems ask of it. -/
theorem gateLe_sorts {F : Type} (v : F → Nat) : Sorts (List.insertionSort (GateLe v)) ∧ Stays (List.insertionSort (GateLe v)) := by
  haveI : Std.Total (GateLe v) := ⟨gateLe_total v⟩
  haveI : IsTrans (Gate F) (GateLe v) := ⟨gateLe_trans v⟩
  refine ⟨fun l => ⟨List.perm_insertionSort _ l, ?_⟩, GateLe v, fun a b h => .inl h, fun l => List.pairwise_insertionSort _ l, fun l h => h.insertionSort_eq⟩
  rw [List.pairwise_map]
  refine (List.pairwise_insertionSort (GateLe v) l).imp ?_
  rintro a b (h | ⟨h, -⟩)
  · exact le_of_lt h
  · exact le_of_eq h

theorem sortGates_stays {F : Type} : Stays (sortGates (F := F)) := by
  refine ⟨fun a b => gateKey a ≤ gateKey b, fun a b h => le_of_lt h, fun l => ?_, fun l h => h.insertionSort_eq⟩
  have := (sortGates_sorts l).2
  rwa [List.pairwise_map] at this

theorem gateKey_coefAdd {g h : Gate F} (hm : canMerge g h = true) : gateKey (coefAdd g h) = gateKey g := by
  obtain ⟨_, _, _, x, y, hx, hy⟩ := canMerge_iff.1 hm
  simp only [coefAdd, hx, hy, gateKey]

theorem gateKey_mergeRun : ∀ (t : List (Gate F)) (g : Gate F), ((mergeRun g t).map gateKey).Sublist ((g :: t).map gateKey) := by
  intro t
  induction t with
  | nil => intro g; exact List.Sublist.refl _
  | cons h t ih =>
    intro g
    simp only [mergeRun]
    split
    · rename_i hm
      refine (ih _).trans ?_
      rw [List.map_cons, gateKey_coefAdd hm, List.map_cons, List.map_cons]
      exact (List.sublist_cons_self _ _).cons_cons _
    · rw [List.map_cons, List.map_cons]
      exact (ih h).cons_cons _

theorem gateKey_mergeAdj (l : List (Gate F)) : ((mergeAdj l).map gateKey).Sublist (l.map gateKey) := by
  cases l with
  | nil => exact List.Sublist.refl _
  | cons g t => exact gateKey_mergeRun t g

theorem mergeRun_id : ∀ (t : List (Gate F)) (g : Gate F), ((g :: t).Pairwise fun a b => canMerge a b = false) → mergeRun g t = g :: t := by
  intro t
  induction t with
  | nil => intro g _; rfl
  | cons h t ih =>
    intro g hp
    obtain ⟨h1, h2⟩ := List.pairwise_cons.1 hp
    simp only [mergeRun]
    rw [if_neg (by rw [h1 h (by simp)]; simp), ih h h2]

theorem mergeAdj_id {l : List (Gate F)} (hp : l.Pairwise fun a b => canMerge a b = false) : mergeAdj l = l := by
  cases l with
  | nil => rfl
  | cons g t => exact mergeRun_id t g hp

theorem mergeAdj_apart {l : List (Gate F)} (h : Grouped l) : (mergeAdj l).Pairwise fun a b => canMerge a b = false := by
  cases l with
  | nil => exact List.Pairwise.nil
  | cons g t => exact mergeRun_apart t g h

variable {srt : List (Gate F) → List (Gate F)}

theorem dedupGates_unmerged (hs : Sorts srt) (trim : Bool) (gs : List (Gate F)) : (dedupGates srt trim gs).Pairwise fun a b => canMerge a b = false := by
  have h1 := mergeAdj_apart (hs.grouped gs)
  unfold dedupGates
  cases trim
  · exact h1
  · exact h1.filter _

/-- The coefficient is a constant. -/
def Fixed (g : Gate F) : Prop := ∃ x, g.coef = .const x

theorem mergeRun_mem : ∀ (t : List (Gate F)) (g x : Gate F), x ∈ mergeRun g t → x ∈ g :: t ∨ Fixed x ∧ ∃ y ∈ g :: t, Fixed y ∧ gateKey x = gateKey y := by
  intro t
  induction t with
  | nil => intro g x hx; exact .inl hx
  | cons h t ih =>
    intro g x hx
    simp only [mergeRun] at hx
    split at hx
    · rename_i hm
      obtain ⟨_, _, _, a, b, ha, hb⟩ := canMerge_iff.1 hm
      have hf : Fixed (coefAdd g h) := ⟨a + b, by simp only [coefAdd, ha, hb]⟩
      rcases ih _ x hx with h1 | ⟨h1, y, h2, h3, h4⟩
      · rcases List.mem_cons.1 h1 with rfl | h1
        · exact .inr ⟨hf, g, by simp, ⟨a, ha⟩, gateKey_coefAdd hm⟩
        · exact .inl (by simp [h1])
      · rcases List.mem_cons.1 h2 with rfl | h2
        · exact .inr ⟨h1, g, by simp, ⟨a, ha⟩, h4.trans (gateKey_coefAdd hm)⟩
        · exact .inr ⟨h1, y, by simp [h2], h3, h4⟩
    · rcases List.mem_cons.1 hx with rfl | hx
      · exact .inl (by simp)
      · rcases ih h x hx with h1 | ⟨h1, y, h2, h3⟩
        · exact .inl (List.mem_cons_of_mem _ h1)
        · exact .inr ⟨h1, y, List.mem_cons_of_mem _ h2, h3⟩

/-- Sorted up to the values of constants. -/
def UpTo (le : Gate F → Gate F → Prop) (a b : Gate F) : Prop := gateKey a ≤ gateKey b ∧ (Fixed a ∧ Fixed b ∨ gateKey a < gateKey b ∨ le a b)

theorem gateKey_fixed {a b : Gate F} (e : gateKey a = gateKey b) (h : Fixed a) : Fixed b := (gateKey_inj e).2.2.2 h

theorem upTo_right {le : Gate F → Gate F → Prop} {a x y : Gate F} (h : UpTo le a y) (e : gateKey x = gateKey y) (hx : Fixed x) (hy : Fixed y) : UpTo le a x := by
  obtain ⟨h1, h2⟩ := h
  refine ⟨e ▸ h1, ?_⟩
  rcases lt_or_eq_of_le h1 with h3 | h3
  · exact .inr (.inl (e ▸ h3))
  · exact .inl ⟨gateKey_fixed h3.symm hy, hx⟩

theorem upTo_left {le : Gate F → Gate F → Prop} {a x y : Gate F} (h : UpTo le y a) (e : gateKey x = gateKey y) (hx : Fixed x) (hy : Fixed y) : UpTo le x a := by
  obtain ⟨h1, h2⟩ := h
  refine ⟨e ▸ h1, ?_⟩
  rcases lt_or_eq_of_le h1 with h3 | h3
  · exact .inr (.inl (e ▸ h3))
  · exact .inl ⟨hx, gateKey_fixed h3 hy⟩

theorem mergeRun_upTo {le : Gate F → Gate F → Prop} : ∀ (t : List (Gate F)) (g : Gate F), (g :: t).Pairwise (UpTo le) → (mergeRun g t).Pairwise (UpTo le) := by
  intro t
  induction t with
  | nil => intro g h; exact h
  | cons h t ih =>
    intro g hp
    obtain ⟨p1, p2⟩ := List.pairwise_cons.1 hp
    obtain ⟨p3, p4⟩ := List.pairwise_cons.1 p2
    simp only [mergeRun]
    split
    · rename_i hm
      obtain ⟨_, _, _, a, b, ha, hb⟩ := canMerge_iff.1 hm
      have hf : Fixed (coefAdd g h) := ⟨a + b, by simp only [coefAdd, ha, hb]⟩
      exact ih _ (List.pairwise_cons.2 ⟨fun x hx => upTo_left (p1 x (List.mem_cons_of_mem _ hx)) (gateKey_coefAdd hm) hf ⟨a, ha⟩, p4⟩)
    · refine List.pairwise_cons.2 ⟨fun x hx => ?_, ih h p2⟩
      rcases mergeRun_mem t h x hx with h1 | ⟨h1, y, h2, h3, h4⟩
      · exact p1 x h1
      · exact upTo_right (p1 y h2) h4 h1 h3

theorem canMerge_of_key {a b : Gate F} (e : gateKey a = gateKey b) (ha : Fixed a) (hb : Fixed b) : canMerge a b = true := by
  obtain ⟨h1, h2, h3, -⟩ := gateKey_inj e
  obtain ⟨x, hx⟩ := ha
  obtain ⟨y, hy⟩ := hb
  exact canMerge_iff.2 ⟨h1, h2, h3, x, y, hx, hy⟩

/-- After merging, the list is sorted again. -/
theorem dedupGates_le (hs : Sorts srt) {le : Gate F → Gate F → Prop} (hk : ∀ a b, gateKey a < gateKey b → le a b) (hle : ∀ l, (srt l).Pairwise le) (trim : Bool) (gs : List (Gate F)) :
    (dedupGates srt trim gs).Pairwise le := by
  have h1 : (mergeAdj (srt gs)).Pairwise (UpTo le) := by
    have : (srt gs).Pairwise (UpTo le) := by
      have hkey := (hs gs).2
      rw [List.pairwise_map] at hkey
      exact (hkey.and (hle gs)).imp fun ⟨p, q⟩ => ⟨p, .inr (.inr q)⟩
    cases hl : srt gs with
    | nil => exact List.Pairwise.nil
    | cons g t => rw [hl] at this; exact mergeRun_upTo t g this
  have h2 : (mergeAdj (srt gs)).Pairwise le := by
    refine (h1.and (mergeAdj_apart (hs.grouped gs))).imp ?_
    rintro a b ⟨⟨p, q⟩, r⟩
    rcases q with ⟨qa, qb⟩ | q | q
    · rcases lt_or_eq_of_le p with p | p
      · exact hk _ _ p
      · rw [canMerge_of_key p qa qb] at r; cases r
    · exact hk _ _ q
    · exact q
  unfold dedupGates
  cases trim
  · exact h2
  · exact h2.sublist List.filter_sublist

/-- What `dedupGates` does not change. -/
theorem dedupGates_id {trim : Bool} {l : List (Gate F)} (h1 : srt l = l) (h2 : l.Pairwise fun a b => canMerge a b = false)
    (h3 : trim = true → ∀ g ∈ l, (getConst g.coef == some 0) = false) : dedupGates srt trim l = l := by
  simp only [dedupGates, h1, mergeAdj_id h2]
  cases trim with
  | false => rfl
  | true =>
    refine List.filter_eq_self.2 fun g hg => ?_
    rw [h3 rfl g hg]; rfl

theorem dedupGates_twice (hs : Sorts srt) (hst : Stays srt) (trim : Bool) (gs : List (Gate F)) : dedupGates srt trim (dedupGates srt trim gs) = dedupGates srt trim gs := by
  obtain ⟨le, hk, hle, hid⟩ := hst
  refine dedupGates_id (hid _ (dedupGates_le hs hk hle trim gs)) (dedupGates_unmerged hs trim gs) ?_
  rintro rfl g hg
  have := (List.mem_filter.1 hg).2
  simpa using this

theorem Stays.again (hst : Stays srt) (l : List (Gate F)) : srt (srt l) = srt l := by
  obtain ⟨le, -, hle, hid⟩ := hst
  exact hid _ (hle l)

theorem canMerge_comm (a b : Gate F) : canMerge a b = canMerge b a := by
  rw [Bool.eq_iff_iff, canMerge_iff, canMerge_iff]
  constructor <;> rintro ⟨h1, h2, h3, x, y, h4, h5⟩ <;> exact ⟨h1.symm, h2.symm, h3.symm, y, x, h5, h4⟩

theorem dedup_twice (hs : Sorts srt) (hst : Stays srt) (s : Segment F) : (s.dedup srt).dedup srt = s.dedup srt := by
  have hC : dedupGates srt false (s.dedup srt).gateConsts = (s.dedup srt).gateConsts := by
    refine dedupGates_id (hst.again _) ?_ (by simp)
    refine (hs _).1.symm.pairwise ?_ (fun {a b} h => (canMerge_comm b a).trans h)
    refine List.pairwise_append.2 ⟨dedupGates_unmerged hs false _, ?_, ?_⟩
    · rw [List.pairwise_map]
      have : (lostOutputs s.numOutputs s.allGates (dedupGates srt true s.gateMuls ++ dedupGates srt true s.gateAdds ++ dedupGates srt false s.gateConsts ++
          dedupGates srt true s.gateCustoms)).Nodup := List.nodup_range.filter _
      refine this.imp fun {a b} hab => ?_
      cases hc : canMerge (⟨none, [], a, .const 0⟩ : Gate F) ⟨none, [], b, .const 0⟩ with
      | false => rfl
      | true => exact absurd (canMerge_iff.1 hc).2.2.1 hab
    · intro a ha b hb
      obtain ⟨i, hi, rfl⟩ := List.mem_map.1 hb
      cases hc : canMerge a (⟨none, [], i, .const 0⟩ : Gate F) with
      | false => rfl
      | true =>
        have := (canMerge_iff.1 hc).2.2.1
        simp only [lostOutputs, List.mem_filter, Bool.and_eq_true, Bool.not_eq_true', List.any_eq_false, beq_iff_eq] at hi
        exact absurd this (hi.2.2 a (by simp [ha]))
  have hl : lostOutputs (s.dedup srt).numOutputs (s.dedup srt).allGates (s.dedup srt).allGates = [] := by
    unfold lostOutputs
    rw [List.filter_eq_nil_iff]
    intro i _
    cases (s.dedup srt).allGates.any fun g => g.output == i <;> simp
  have key : ∀ t : Segment F, dedupGates srt true t.gateMuls = t.gateMuls → dedupGates srt true t.gateAdds = t.gateAdds → dedupGates srt false t.gateConsts = t.gateConsts →
      dedupGates srt true t.gateCustoms = t.gateCustoms → lostOutputs t.numOutputs t.allGates t.allGates = [] → srt t.gateConsts = t.gateConsts → t.dedup srt = t := by
    intro t h1 h2 h3 h4 h5 h6
    have h5' : lostOutputs t.numOutputs t.allGates (t.gateMuls ++ t.gateAdds ++ t.gateConsts ++ t.gateCustoms) = [] := h5
    simp only [Segment.dedup, h1, h2, h3, h4, h5', List.map_nil, List.append_nil, h6]
  exact key _ (dedupGates_twice hs hst _ _) (dedupGates_twice hs hst _ _) hC (dedupGates_twice hs hst _ _) hl (hst.again _)

/-! ## Counting gates -/

/-- Number of gates; the gates with inputs count twice. -/
def Segment.weight {F : Type} (s : Segment F) : Nat := 2 * (s.gateMuls.length + s.gateAdds.length + s.gateCustoms.length) + s.gateConsts.length

/-- Number of gates. -/
def Segment.own {F : Type} (s : Segment F) : Nat := s.gateMuls.length + s.gateAdds.length + s.gateConsts.length + s.gateCustoms.length

theorem own_le_weight {F : Type} (s : Segment F) : s.own ≤ s.weight := by simp only [Segment.own, Segment.weight]; omega

theorem mergeAdj_length (l : List (Gate F)) : (mergeAdj l).length ≤ l.length := by
  simpa using (gateKey_mergeAdj l).length_le

theorem mergeRun_outputs : ∀ (t : List (Gate F)) (g : Gate F), ∀ y ∈ g :: t, ∃ x ∈ mergeRun g t, x.output = y.output := by
  intro t
  induction t with
  | nil => intro g y hy; exact ⟨y, hy, rfl⟩
  | cons h t ih =>
    intro g y hy
    simp only [mergeRun]
    split
    · rename_i hm
      have e := (canMerge_iff.1 hm).2.2.1
      have e2 := (coefAdd_wires g h).2.2
      rcases List.mem_cons.1 hy with rfl | hy
      · obtain ⟨x, hx, q⟩ := ih (coefAdd y h) (coefAdd y h) (by simp)
        exact ⟨x, hx, q.trans e2⟩
      · rcases List.mem_cons.1 hy with rfl | hy
        · obtain ⟨x, hx, q⟩ := ih (coefAdd g y) (coefAdd g y) (by simp)
          exact ⟨x, hx, (q.trans e2).trans e⟩
        · exact ih (coefAdd g h) y (by simp [hy])
    · rcases List.mem_cons.1 hy with rfl | hy
      · exact ⟨y, by simp, rfl⟩
      · obtain ⟨x, hx, q⟩ := ih h y hy
        exact ⟨x, by simp [hx], q⟩

theorem mergeAdj_outputs {l : List (Gate F)} {y : Gate F} (hy : y ∈ l) : ∃ x ∈ mergeAdj l, x.output = y.output := by
  cases l with
  | nil => cases hy
  | cons g t => exact mergeRun_outputs t g y hy

/-- The gates that are dropped because their coefficient is zero. -/
def dropped (srt : List (Gate F) → List (Gate F)) (gs : List (Gate F)) : List (Gate F) := (mergeAdj (srt gs)).filter fun g => getConst g.coef == some 0

theorem dropped_length (hs : ∀ l, (srt l).Perm l) (gs : List (Gate F)) : (dropped srt gs).length + (dedupGates srt true gs).length ≤ gs.length := by
  have h1 := mergeAdj_length (srt gs)
  rw [(hs gs).length_eq] at h1
  have h2 := List.length_eq_countP_add_countP (l := mergeAdj (srt gs)) (fun g => getConst g.coef == some 0)
  rw [List.countP_eq_length_filter, List.countP_eq_length_filter] at h2
  simp only [dropped, dedupGates, if_true]
  have e : (List.filter (fun a => decide ¬(getConst a.coef == some 0) = true) (mergeAdj (srt gs))) = (mergeAdj (srt gs)).filter fun g => !(getConst g.coef == some 0) := by
    apply List.filter_congr
    intro x _
    cases (getConst x.coef == some 0) <;> rfl
  rw [e] at h2
  omega

theorem lost_length (hs : ∀ l, (srt l).Perm l) (s : Segment F) :
    (lostOutputs s.numOutputs s.allGates (dedupGates srt true s.gateMuls ++ dedupGates srt true s.gateAdds ++ dedupGates srt false s.gateConsts ++ dedupGates srt true s.gateCustoms)).length ≤
      (dropped srt s.gateMuls).length + (dropped srt s.gateAdds).length + (dropped srt s.gateCustoms).length := by
  have hnd : (lostOutputs s.numOutputs s.allGates (dedupGates srt true s.gateMuls ++ dedupGates srt true s.gateAdds ++ dedupGates srt false s.gateConsts ++
      dedupGates srt true s.gateCustoms)).Nodup := List.nodup_range.filter _
  have hsub : lostOutputs s.numOutputs s.allGates (dedupGates srt true s.gateMuls ++ dedupGates srt true s.gateAdds ++ dedupGates srt false s.gateConsts ++
      dedupGates srt true s.gateCustoms) ⊆ ((dropped srt s.gateMuls ++ dropped srt s.gateAdds ++ dropped srt s.gateCustoms).map Gate.output) := by
    intro o ho
    simp only [lostOutputs, List.mem_filter, Bool.and_eq_true, List.any_eq_true, Bool.not_eq_true', List.any_eq_false, beq_iff_eq] at ho
    obtain ⟨_, ⟨y, hy, rfl⟩, hno⟩ := ho
    have lift : ∀ gs : List (Gate F), y ∈ gs → (∀ x ∈ dedupGates srt true gs, ¬ x.output = y.output) → ∃ x ∈ dropped srt gs, x.output = y.output := by
      intro gs hyg hn
      obtain ⟨x, hx, e⟩ := mergeAdj_outputs ((hs gs).mem_iff.2 hyg)
      refine ⟨x, List.mem_filter.2 ⟨hx, ?_⟩, e⟩
      cases hz : (getConst x.coef == some 0) with
      | true => rfl
      | false => exact absurd e (hn x (by simp only [dedupGates, if_true]; exact List.mem_filter.2 ⟨hx, by rw [hz]; rfl⟩))
    simp only [List.mem_map, List.mem_append]
    simp only [Segment.allGates, List.mem_append] at hy
    rcases hy with ((hy | hy) | hy) | hy
    · obtain ⟨x, hx, e⟩ := lift _ hy (fun x hx => hno x (by simp [hx]))
      exact ⟨x, .inl (.inl hx), e⟩
    · obtain ⟨x, hx, e⟩ := lift _ hy (fun x hx => hno x (by simp [hx]))
      exact ⟨x, .inl (.inr hx), e⟩
    · obtain ⟨x, hx, e⟩ := mergeAdj_outputs ((hs s.gateConsts).mem_iff.2 hy)
      exact absurd e (hno x (by simp [dedupGates, hx]))
    · obtain ⟨x, hx, e⟩ := lift _ hy (fun x hx => hno x (by simp [hx]))
      exact ⟨x, .inr hx, e⟩
  have := (List.subperm_of_subset hnd hsub).length_le
  simp only [List.length_map, List.length_append] at this
  omega

/-- The weight does not grow, and the number of gates drops at most by the loss of weight. -/
theorem dedup_weight (hs : ∀ l, (srt l).Perm l) (s : Segment F) : (s.dedup srt).weight ≤ s.weight ∧ s.own + (s.dedup srt).weight ≤ (s.dedup srt).own + s.weight := by
  have h0 := lost_length hs s
  have h1 := dropped_length hs s.gateMuls
  have h2 := dropped_length hs s.gateAdds
  have h3 := dropped_length hs s.gateCustoms
  have h4 : (dedupGates srt false s.gateConsts).length ≤ s.gateConsts.length := by
    have := mergeAdj_length (srt s.gateConsts)
    rw [(hs _).length_eq] at this
    simpa [dedupGates] using this
  simp only [Segment.weight, Segment.own, Segment.dedup, (hs _).length_eq, List.length_append, List.length_map] at *
  omega

end Verif.Layered
