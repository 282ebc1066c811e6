import Verif.Layering.SolveOk

/-!
# Merging layouts keeps every entry

`merge_layouts` (layer_layout.rs:359-432) and the loop over the placement groups (layer_layout.rs:303-311) always return, and the result
contains exactly the entries of the parts.
-/

set_option linter.unusedSectionVars false
set_option linter.unusedSimpArgs false

namespace Verif.Layering

/-- The entries of a placement, in order. -/
def contents (l : List (Option Nat)) : List Nat := l.filterMap id

@[simp] theorem contents_nil : contents [] = [] := rfl

theorem contents_append (a b : List (Option Nat)) : contents (a ++ b) = contents a ++ contents b := List.filterMap_append

theorem contents_replicate (n : Nat) : contents (List.replicate n none) = [] := by
  simp [contents, List.filterMap_replicate]

theorem contents_cons (x : Option Nat) (l : List (Option Nat)) : contents (x :: l) = x.toList ++ contents l := by
  cases x <;> simp [contents]

theorem mem_contents {l : List (Option Nat)} {v : Nat} : v ∈ contents l ↔ some v ∈ l := by simp [contents]

/-- Adding two placements without a common slot. -/
theorem contents_or : ∀ (a b : List (Option Nat)), a.length = b.length → (∀ (j : Nat) (x y : Nat), a[j]? = some (some x) → b[j]? = some (some y) → False) →
    (contents (List.zipWith (fun x y => x.or y) a b)).Perm (contents b ++ contents a) := by
  intro a
  induction a with
  | nil => intro b h _; cases b with
    | nil => exact .refl _
    | cons y b => cases h
  | cons x a ih =>
    intro b h hd
    cases b with
    | nil => cases h
    | cons y b =>
      rw [List.zipWith_cons_cons, contents_cons, contents_cons, contents_cons]
      have h1 := ih b (by simpa using h) (fun j u v hu hv => hd (j + 1) u v (by simpa using hu) (by simpa using hv))
      cases x with
      | none =>
        simp only [Option.none_or, Option.toList_none, List.nil_append, List.append_assoc]
        exact h1.append_left _
      | some u =>
        cases y with
        | none =>
          simp only [Option.some_or, Option.toList_none, List.nil_append, Option.toList_some, List.cons_append]
          exact (h1.cons u).trans List.perm_middle.symm
        | some v => exact (hd 0 u v rfl rfl).elim

theorem putAt_eq {res pg : List (Option Nat)} {i : Nat} (h : i + pg.length ≤ res.length) :
    putAt res pg i = res.take i ++ (List.zipWith (fun x y => x.or y) pg ((res.drop i).take pg.length) ++ res.drop (i + pg.length)) := by
  apply List.ext_getElem?
  intro j
  have hz : (List.zipWith (fun x y : Option Nat => x.or y) pg ((res.drop i).take pg.length)).length = pg.length := by
    rw [List.length_zipWith, List.length_take, List.length_drop]; omega
  unfold putAt
  rw [List.getElem?_mapIdx]
  by_cases h1 : j < i
  · rw [List.getElem?_append_left (by rw [List.length_take]; omega), List.getElem?_take, if_pos h1]
    cases res[j]? with
    | none => rfl
    | some x => simp; omega
  · have hl : (res.take i).length = i := by rw [List.length_take]; omega
    rw [List.getElem?_append_right (by omega), hl]
    by_cases h2 : j < i + pg.length
    · rw [List.getElem?_append_left (by omega), List.getElem?_zipWith, List.getElem?_take, if_pos (by omega), List.getElem?_drop,
        show i + (j - i) = j by omega, List.getElem?_eq_getElem (show j < res.length by omega), List.getElem?_eq_getElem (show j - i < pg.length by omega)]
      simp only [Option.map_some]
      rw [if_pos (by omega), List.getD_eq_getElem?_getD, List.getElem?_eq_getElem (show j - i < pg.length by omega)]
      rfl
    · rw [List.getElem?_append_right (by omega), hz, List.getElem?_drop, show i + pg.length + (j - i - pg.length) = j by omega]
      cases res[j]? with
      | none => rfl
      | some x => simp; omega

theorem putAt_contents {res pg : List (Option Nat)} {i : Nat} (h : i + pg.length ≤ res.length) (hf : fits res pg i = true) :
    (contents (putAt res pg i)).Perm (contents res ++ contents pg) := by
  rw [putAt_eq h, contents_append, contents_append]
  have hz := contents_or pg ((res.drop i).take pg.length) (by rw [List.length_take, List.length_drop]; omega) (by
    intro j x y hx hy
    have hj : j < pg.length := (List.getElem?_eq_some_iff.1 hx).1
    have := List.all_eq_true.1 hf j (List.mem_range.2 hj)
    rw [List.getElem?_take, if_pos hj, List.getElem?_drop] at hy
    rw [List.getD_eq_getElem?_getD, List.getD_eq_getElem?_getD, hx, hy] at this
    simp at this)
  have e : contents res = contents (res.take i) ++ (contents ((res.drop i).take pg.length) ++ contents (res.drop (i + pg.length))) := by
    rw [← contents_append, ← contents_append, ← List.drop_drop, List.take_append_drop, List.take_append_drop]
  rw [e, List.append_assoc]
  refine List.Perm.append_left _ ?_
  refine (hz.append_right _).trans ?_
  rw [List.append_assoc, List.append_assoc]
  exact List.Perm.append_left _ List.perm_append_comm

theorem putAt_length (res pg : List (Option Nat)) (i : Nat) : (putAt res pg i).length = res.length := by simp [putAt]

/-- One group. -/
theorem placeGroup_total {res pg : List (Option Nat)} (hp : 0 < pg.length) (hd : pg.length ∣ res.length) :
    ∃ r, placeGroup res pg = some r ∧ (contents r).Perm (contents res ++ contents pg) ∧ (r.length = res.length ∨ r.length = res.length + pg.length) := by
  unfold placeGroup
  rw [if_neg (by rw [not_or]; exact ⟨by omega, by rw [not_not]; exact Nat.mod_eq_zero_of_dvd hd⟩)]
  cases hfind : ((List.range (res.length / pg.length)).map (· * pg.length)).find? (fits res pg) with
  | none => exact ⟨_, rfl, by rw [contents_append], .inr (by simp)⟩
  | some i =>
    refine ⟨_, rfl, putAt_contents ?_ (List.find?_some hfind), .inl (putAt_length _ _ _)⟩
    obtain ⟨m, hm, rfl⟩ := List.mem_map.1 (List.mem_of_find?_eq_some hfind)
    rw [List.mem_range] at hm
    have h1 : (m + 1) * pg.length ≤ res.length / pg.length * pg.length := Nat.mul_le_mul_right _ hm
    have h2 := Nat.div_mul_le_self res.length pg.length
    rw [Nat.add_mul] at h1
    omega

theorem addSlot_contents (res : List (Option Nat)) (x : Nat) : (contents (addSlot res x)).Perm (contents res ++ [x]) := by
  unfold addSlot
  dsimp only
  split
  · rename_i h
    have hg : res[res.findIdx Option.isNone]? = some none := by
      rw [List.getElem?_eq_getElem h]
      have := List.findIdx_getElem (w := h)
      rw [Option.isNone_iff_eq_none] at this
      rw [this]
    generalize res.findIdx Option.isNone = i at h hg
    have e : res = res.take i ++ none :: res.drop (i + 1) := by
      have hd := List.drop_eq_getElem_cons h
      rw [List.getElem?_eq_getElem h] at hg
      simp only [Option.some.injEq] at hg
      rw [hg] at hd
      rw [← hd, List.take_append_drop]
    have e2 : res.set i (some x) = res.take i ++ some x :: res.drop (i + 1) := by
      rw [List.set_eq_take_append_cons_drop, if_pos h]
    rw [e2, contents_append, contents_cons]
    conv => rhs; rw [e, contents_append, contents_cons]
    simp only [Option.toList_some, Option.toList_none, List.nil_append, List.append_assoc]
    exact List.Perm.append_left _ List.perm_append_comm
  · rw [contents_append]; exact .refl _

theorem addSlots_contents : ∀ (a : List Nat) (res : List (Option Nat)), (contents (a.foldl addSlot res)).Perm (contents res ++ a) := by
  intro a
  induction a with
  | nil => intro res; simp
  | cons x a ih =>
    intro res
    rw [List.foldl_cons]
    refine (ih _).trans (((addSlot_contents res x).append_right a).trans ?_)
    simp

/-- The loop over the groups in order of decreasing size. -/
theorem placeGroups_total : ∀ (L : List (List (Option Nat))) (res : List (Option Nat)), (∀ g ∈ L, ∃ m, g.length = 2 ^ m) →
    (∀ g ∈ L, g.length ∣ res.length) → (L.Pairwise fun a b => b.length ≤ a.length) →
    ∃ r, L.foldl (fun r g => r.bind fun res => placeGroup res g) (some res) = some r ∧ (contents r).Perm (contents res ++ L.flatMap contents) := by
  intro L
  induction L with
  | nil => intro res _ _ _; exact ⟨res, rfl, by simp⟩
  | cons g L ih =>
    intro res hpow hdvd hsort
    rw [List.pairwise_cons] at hsort
    obtain ⟨m, hm⟩ := hpow g (by simp)
    have hpos : 0 < g.length := by rw [hm]; exact Nat.two_pow_pos m
    obtain ⟨r1, h1, h2, h3⟩ := placeGroup_total hpos (hdvd g (by simp))
    rw [List.foldl_cons, Option.bind_some, h1]
    have hd' : ∀ g' ∈ L, g'.length ∣ r1.length := by
      intro g' hg'
      have hd1 := hdvd g' (by simp [hg'])
      have hd2 : g'.length ∣ g.length := by
        obtain ⟨m', hm'⟩ := hpow g' (by simp [hg'])
        have hle := hsort.1 g' hg'
        rw [hm, hm'] at hle ⊢
        exact Nat.pow_dvd_pow 2 ((Nat.pow_le_pow_iff_right (by omega)).1 hle)
      rcases h3 with h3 | h3 <;> rw [h3]
      · exact hd1
      · exact Nat.dvd_add hd1 hd2
    obtain ⟨r, h4, h5⟩ := ih r1 (fun x hx => hpow x (by simp [hx])) hd' hsort.2
    refine ⟨r, h4, h5.trans ?_⟩
    rw [List.flatMap_cons, ← List.append_assoc]
    exact h2.append_right _

theorem two_pow_and (m : Nat) : 2 ^ m &&& (2 ^ m - 1) = 0 := by
  rw [Nat.and_two_pow_sub_one_eq_mod, Nat.mod_self]

theorem range_getD {α : Type} (s : List α) (d : α) : (List.range s.length).map (fun i => s.getD i d) = s := by
  apply List.ext_getElem?
  intro i
  rw [List.getElem?_map]
  by_cases h : i < s.length
  · rw [List.getElem?_range h, Option.map_some, List.getD_eq_getElem?_getD, List.getElem?_eq_getElem h]; rfl
  · rw [List.getElem?_eq_none (by simpa using h), List.getElem?_eq_none (by simpa using h)]; rfl

/-- `merge_layouts` returns and keeps all entries. -/
theorem mergeLayouts_total {s : List (List (Option Nat))} (a : List Nat) (hs : ∀ g ∈ s, ∃ m, g.length = 2 ^ m) :
    ∃ r, mergeLayouts s a = some r ∧ (contents r).Perm (s.flatMap contents ++ a) ∧ ∃ m, r.length = 2 ^ m := by
  have hmain : ∃ r, mergeLayouts s a = some r ∧ (contents r).Perm (s.flatMap contents ++ a) := by
    unfold mergeLayouts
    rw [if_neg]
    swap
    · rw [Decidable.not_not, List.all_eq_true]
      intro g hg
      obtain ⟨m, hm⟩ := hs g hg
      rw [hm, two_pow_and]
      simp
    dsimp only
    generalize ho : (List.range s.length).insertionSort (fun i j =>
      (s.getD j []).length < (s.getD i []).length ∨ ((s.getD j []).length = (s.getD i []).length ∧ i ≤ j)) = order
    have hperm : order.Perm (List.range s.length) := ho ▸ List.perm_insertionSort _ _
    have hsorted : order.Pairwise fun i j => (s.getD j []).length ≤ (s.getD i []).length := by
      rw [← ho]
      have ht : Std.Total (α := Nat) (fun i j => (s.getD j []).length < (s.getD i []).length ∨ ((s.getD j []).length = (s.getD i []).length ∧ i ≤ j)) := ⟨fun i j => by omega⟩
      have htr : IsTrans Nat (fun i j => (s.getD j []).length < (s.getD i []).length ∨ ((s.getD j []).length = (s.getD i []).length ∧ i ≤ j)) := ⟨fun i j k => by omega⟩
      exact (List.pairwise_insertionSort _ _).imp fun h => by omega
    have hfold : order.foldl (fun r i => r.bind fun res => placeGroup res (s.getD i [])) (some []) =
        (order.map fun i => s.getD i []).foldl (fun r g => r.bind fun res => placeGroup res g) (some []) := by rw [List.foldl_map]
    have hpm : (order.map fun i => s.getD i []).Perm s := by
      have := hperm.map fun i => s.getD i []
      rwa [range_getD] at this
    obtain ⟨r, h1, h2⟩ := placeGroups_total (order.map fun i => s.getD i []) [] (fun g hg => hs g (hpm.mem_iff.1 hg)) (by simp)
      (by rw [List.pairwise_map]; exact hsorted)
    rw [hfold, h1]
    refine ⟨_, rfl, ?_⟩
    rw [contents_append, contents_replicate, List.append_nil]
    refine (addSlots_contents a r).trans (List.Perm.append_right _ ?_)
    refine h2.trans ?_
    rw [contents_nil, List.nil_append]
    exact List.Perm.flatMap_right _ hpm
  obtain ⟨r, h1, h2⟩ := hmain
  exact ⟨r, h1, h2, mergeLayouts_pow h1⟩

/-- The groups that have no parent among the groups from `i` on. -/
def tops (parent : List Nat) (i : Nat) : List Nat :=
  (List.range' i (parent.length - i)).filter fun g => g == 0 || decide (parent.getD g 0 < i)

/-- Loop over the placement groups: everything directly placed in some group ends up in the outermost group. -/
theorem mergeGroups_total {parent : List Nat} {cv : Nat → List Nat} {cp : Nat → List (List (Option Nat))}
    (hpar : ∀ g, 0 < g → g < parent.length → parent.getD g 0 < g) (hcp : ∀ i, ∀ l ∈ cp i, ∃ m, l.length = 2 ^ m) :
    ∀ (i : Nat) (acc : List (Nat × List (Option Nat))), i ≤ parent.length →
      (∀ g, i ≤ g → g < parent.length → ∃ l, acc.lookup g = some l ∧ ∃ m, l.length = 2 ^ m) →
      ((tops parent i).flatMap fun g => contents ((acc.lookup g).getD [])).Perm
        ((List.range' i (parent.length - i)).flatMap fun g => (cp g).flatMap contents ++ cv g) →
      ∃ acc', mergeGroups parent cv cp i acc = some acc' ∧
        ((tops parent 0).flatMap fun g => contents ((acc'.lookup g).getD [])).Perm
          ((List.range' 0 parent.length).flatMap fun g => (cp g).flatMap contents ++ cv g) := by
  intro i
  induction i with
  | zero => intro acc _ _ h; exact ⟨acc, rfl, by simpa using h⟩
  | succ i ih =>
    intro acc hi hacc hperm
    unfold mergeGroups
    dsimp only
    generalize hn : ((List.range parent.length).filter fun g => g != 0 && parent.getD g 0 == i) = nodes
    have hnodes : ∀ g ∈ nodes, i + 1 ≤ g ∧ g < parent.length ∧ parent.getD g 0 = i := by
      intro g hg
      rw [← hn, List.mem_filter, List.mem_range, Bool.and_eq_true, bne_iff_ne, beq_iff_eq] at hg
      obtain ⟨h1, h2, h3⟩ := hg
      have := hpar g (by omega) h1
      omega
    obtain ⟨r, h1, h2, h3⟩ := mergeLayouts_total (s := nodes.map (fun g => (acc.lookup g).getD []) ++ cp i) (cv i) (by
      intro l hl
      rcases List.mem_append.1 hl with hl | hl
      · obtain ⟨g, hg, rfl⟩ := List.mem_map.1 hl
        obtain ⟨a, b, _⟩ := hnodes g hg
        obtain ⟨l, hl, m, hm⟩ := hacc g a b
        exact ⟨m, by rw [hl]; exact hm⟩
      · exact hcp i l hl)
    rw [h1]
    dsimp only
    have hlk : ∀ g, g ≠ i → ((i, r) :: acc).lookup g = acc.lookup g := by
      intro g hg
      rw [List.lookup_cons, beq_false_of_ne hg]
    refine ih ((i, r) :: acc) (by omega) ?_ ?_
    · intro g hg1 hg2
      by_cases e : g = i
      · subst e; exact ⟨r, by simp [List.lookup_cons], h3⟩
      · rw [hlk g e]; exact hacc g (by omega) hg2
    · have hr' : List.range' i (parent.length - i) = i :: List.range' (i + 1) (parent.length - (i + 1)) := by
        rw [show parent.length - i = (parent.length - (i + 1)) + 1 by omega, List.range'_succ]
      have hti : tops parent i = i :: (List.range' (i + 1) (parent.length - (i + 1))).filter fun g => g == 0 || decide (parent.getD g 0 < i) := by
        unfold tops
        rw [hr', List.filter_cons, if_pos]
        by_cases e : i = 0
        · simp [e]
        · have := hpar i (by omega) (by omega)
          rw [decide_eq_true this, Bool.or_true]
      rw [hti, hr', List.flatMap_cons, List.flatMap_cons]
      have hself : contents ((((i, r) :: acc).lookup i).getD []) = contents r := by simp [List.lookup_cons]
      rw [hself]
      have hrest : ((List.range' (i + 1) (parent.length - (i + 1))).filter fun g => g == 0 || decide (parent.getD g 0 < i)).flatMap
          (fun g => contents ((((i, r) :: acc).lookup g).getD [])) =
          ((List.range' (i + 1) (parent.length - (i + 1))).filter fun g => decide (parent.getD g 0 < i)).flatMap (fun g => contents ((acc.lookup g).getD [])) := by
        have e1 : ((List.range' (i + 1) (parent.length - (i + 1))).filter fun g => g == 0 || decide (parent.getD g 0 < i)) =
            ((List.range' (i + 1) (parent.length - (i + 1))).filter fun g => decide (parent.getD g 0 < i)) := by
          apply List.filter_congr
          intro g hg
          rw [List.mem_range'_1] at hg
          rw [beq_false_of_ne (by omega), Bool.false_or]
        rw [e1]
        apply List.flatMap_congr
        intro g hg
        have := (List.mem_range'_1.1 (List.mem_filter.1 hg).1).1
        rw [hlk g (by omega)]
      rw [hrest]
      have hnd : nodes.Perm ((List.range' (i + 1) (parent.length - (i + 1))).filter fun g => parent.getD g 0 == i) := by
        rw [List.perm_ext_iff_of_nodup]
        · intro g
          constructor
          · intro hg
            obtain ⟨a, b, d⟩ := hnodes g hg
            rw [List.mem_filter, List.mem_range'_1, beq_iff_eq]
            exact ⟨by omega, d⟩
          · intro hg
            rw [List.mem_filter, List.mem_range'_1, beq_iff_eq] at hg
            rw [← hn, List.mem_filter, List.mem_range, Bool.and_eq_true, bne_iff_ne, beq_iff_eq]
            exact ⟨by omega, by omega, hg.2⟩
        · rw [← hn]; exact List.nodup_range.filter _
        · exact List.Nodup.filter _ List.nodup_range'
      -- the previous tops are the remaining tops and the nodes
      have hprev : (tops parent (i + 1)).Perm (((List.range' (i + 1) (parent.length - (i + 1))).filter fun g => decide (parent.getD g 0 < i)) ++ nodes) := by
        refine List.Perm.trans ?_ (hnd.symm.append_left _)
        unfold tops
        generalize hR : List.range' (i + 1) (parent.length - (i + 1)) = R
        have hRpos : ∀ g ∈ R, g ≠ 0 := by intro g hg; rw [← hR, List.mem_range'_1] at hg; omega
        clear hR hrest hr' hti hnd hperm
        induction R with
        | nil => simp
        | cons g R ihR =>
          have ihR := ihR fun x hx => hRpos x (by simp [hx])
          have hg := hRpos g (by simp)
          simp only [List.filter_cons, beq_false_of_ne hg, Bool.false_or]
          rcases Nat.lt_trichotomy (parent.getD g 0) i with h | h | h
          · rw [decide_eq_true (by omega), decide_eq_true h, if_pos rfl, if_pos rfl, beq_false_of_ne (by omega), if_neg (by simp)]
            exact ihR.cons g
          · rw [decide_eq_true (by omega), decide_eq_false (by omega), if_pos rfl, if_neg (by simp), h, beq_self_eq_true, if_pos rfl]
            exact (ihR.cons g).trans List.perm_middle.symm
          · rw [decide_eq_false (by omega), decide_eq_false (by omega), if_neg (by simp), if_neg (by simp), beq_false_of_ne (by omega), if_neg (by simp)]
            exact ihR
      have h5 := (List.Perm.flatMap_right (fun g => contents ((acc.lookup g).getD [])) hprev).symm.trans hperm
      rw [List.flatMap_append] at h5
      have h6 : (contents r).Perm ((nodes.flatMap fun g => contents ((acc.lookup g).getD [])) ++ ((cp i).flatMap contents ++ cv i)) := by
        refine h2.trans ?_
        rw [List.flatMap_append, List.flatMap_map, List.append_assoc]
      refine (h6.append_right _).trans ?_
      refine List.Perm.trans ?_ (h5.append_left _)
      generalize (nodes.flatMap fun g => contents ((acc.lookup g).getD [])) = A
      generalize ((cp i).flatMap contents ++ cv i) = B
      generalize (((List.range' (i + 1) (parent.length - (i + 1))).filter fun g => decide (parent.getD g 0 < i)).flatMap fun g => contents ((acc.lookup g).getD [])) = C
      rw [List.append_assoc]
      refine (List.perm_append_comm (l₁ := A) (l₂ := B ++ C)).trans ?_
      rw [List.append_assoc]

end Verif.Layering
