import Verif.IR.DceProof

/-!
# The traversal of `remove_unreachable` computes a closed set
-/

namespace Verif.IR

open Verif.Utils

/-- number of entries of `T` not yet visited -/
def unv (T vis : List Elem) : Nat := (T.filter (fun x => decide (x ∉ vis))).length

theorem unv_cons {T vis : List Elem} {n : Elem} (hT : n ∈ T) (hn : n ∉ vis) : unv T (n :: vis) + 1 ≤ unv T vis := by
  unfold unv
  induction T with
  | nil => simp at hT
  | cons t T ih =>
    have mono : (T.filter (fun x => decide (x ∉ n :: vis))).length ≤ (T.filter (fun x => decide (x ∉ vis))).length := by
      have : (T.filter (fun x => decide (x ∉ n :: vis))) = (T.filter (fun x => decide (x ∉ vis))).filter (fun x => decide (x ≠ n)) := by
        rw [List.filter_filter]
        apply List.filter_congr
        intro x _
        simp
      rw [this]
      exact List.length_filter_le _ _
    rcases List.mem_cons.1 hT with rfl | h
    · simp only [List.filter_cons]
      simp only [List.mem_cons, true_or, not_true_eq_false, decide_false, Bool.false_eq_true, if_false, hn,
        not_false_eq_true, decide_true, if_true, List.length_cons]
      simp only [List.mem_cons] at mono
      omega
    · have := ih h
      simp only [List.filter_cons]
      by_cases ht : t ∈ n :: vis
      · rw [if_neg (by simp only [ht, not_true_eq_false, decide_false]; decide)]
        split
        · simp only [List.length_cons]; omega
        · exact this
      · have ht' : t ∉ vis := fun h => ht (List.mem_cons_of_mem _ h)
        rw [if_pos (by simp only [ht, not_false_eq_true, decide_true]), if_pos (by simp only [ht', not_false_eq_true, decide_true])]
        simp only [List.length_cons]; omega

/-- what a push phase guarantees -/
structure Push (T : List Elem) (q vis q' vis' : List Elem) : Prop where
  vis_sub : ∀ x ∈ vis, x ∈ vis'
  q_sub : ∀ x ∈ q, x ∈ q'
  new_pend : ∀ x ∈ vis', x ∈ vis ∨ x ∈ q'
  meas : q'.length + unv T vis' ≤ q.length + unv T vis

theorem Push.refl (T q vis : List Elem) : Push T q vis q vis :=
  ⟨fun _ h => h, fun _ h => h, fun _ h => Or.inl h, Nat.le_refl _⟩

theorem Push.trans {T q vis q1 v1 q2 v2 : List Elem} (h1 : Push T q vis q1 v1) (h2 : Push T q1 v1 q2 v2) : Push T q vis q2 v2 :=
  ⟨fun x h => h2.vis_sub x (h1.vis_sub x h), fun x h => h2.q_sub x (h1.q_sub x h),
   fun x h => (h2.new_pend x h).elim (fun h => (h1.new_pend x h).imp id (h2.q_sub x)) Or.inr,
   Nat.le_trans h2.meas h1.meas⟩

theorem Push.one {T q vis : List Elem} {n : Elem} (hT : n ∈ T) (hn : n ∉ vis) : Push T q vis (q ++ [n]) (n :: vis) :=
  ⟨fun x h => by simp [h], fun x h => by simp [h], fun x h => by
    rcases List.mem_cons.1 h with rfl | h
    · simp
    · exact Or.inl h, by have := unv_cons hT hn; simp; omega⟩

theorem pushNew_spec (T : List Elem) : ∀ (ns q vis : List Elem), (∀ n ∈ ns, n ∈ T) →
    Push T q vis (pushNew ns (q, vis)).1 (pushNew ns (q, vis)).2 ∧ ∀ n ∈ ns, n ∈ (pushNew ns (q, vis)).2 := by
  intro ns
  induction ns with
  | nil => intro q vis _; exact ⟨Push.refl _ _ _, by simp⟩
  | cons n ns ih =>
    intro q vis hT
    simp only [pushNew]
    by_cases h : n ∈ vis
    · rw [if_pos h]
      obtain ⟨h1, h2⟩ := ih q vis (fun x hx => hT x (by simp [hx]))
      refine ⟨h1, fun x hx => ?_⟩
      rcases List.mem_cons.1 hx with rfl | hx
      · exact h1.vis_sub _ h
      · exact h2 x hx
    · rw [if_neg h]
      obtain ⟨h1, h2⟩ := ih (q ++ [n]) (n :: vis) (fun x hx => hT x (by simp [hx]))
      refine ⟨(Push.one (hT n (by simp)) h).trans h1, fun x hx => ?_⟩
      rcases List.mem_cons.1 hx with rfl | hx
      · exact h1.vis_sub _ (by simp)
      · exact h2 x hx

theorem pushDual_spec (T : List Elem) : ∀ (ns : List (Elem × Elem)) (q vis : List Elem), (∀ n ∈ ns, n.2 ∈ T) →
    Push T q vis (pushDual ns (q, vis)).1 (pushDual ns (q, vis)).2 ∧
      ∀ n ∈ ns, n.1 ∈ vis → n.2 ∈ (pushDual ns (q, vis)).2 := by
  intro ns
  induction ns with
  | nil => intro q vis _; exact ⟨Push.refl _ _ _, by simp⟩
  | cons n ns ih =>
    obtain ⟨r, n⟩ := n
    intro q vis hT
    simp only [pushDual]
    by_cases h : r ∈ vis ∧ n ∉ vis
    · rw [if_pos h]
      obtain ⟨h1, h2⟩ := ih (q ++ [n]) (n :: vis) (fun x hx => hT x (by simp [hx]))
      refine ⟨(Push.one (hT (r, n) (by simp)) h.2).trans h1, fun x hx hr => ?_⟩
      rcases List.mem_cons.1 hx with rfl | hx
      · exact h1.vis_sub _ (by simp)
      · exact h2 x hx (by simp [hr])
    · rw [if_neg h]
      obtain ⟨h1, h2⟩ := ih q vis (fun x hx => hT x (by simp [hx]))
      refine ⟨h1, fun x hx hr => ?_⟩
      rcases List.mem_cons.1 hx with rfl | hx
      · have : n ∈ vis := by by_contra hn; exact h ⟨hr, hn⟩
        exact h1.vis_sub _ this
      · exact h2 x hx hr

/-- saturation up to pending elements -/
structure Sat (es : List (Elem × Elem)) (ds : List (Elem × Elem × Elem)) (q vis : List Elem) : Prop where
  e : ∀ x ∈ es, x.1 ∈ vis → x.1 ∈ q ∨ x.2 ∈ vis
  d : ∀ x ∈ ds, x.1 ∈ vis → x.2.1 ∈ vis → x.1 ∈ q ∨ x.2.1 ∈ q ∨ x.2.2 ∈ vis

theorem bfs_spec {es : List (Elem × Elem)} {ds : List (Elem × Elem × Elem)}
    (hsym : ∀ x ∈ ds, (x.2.1, x.1, x.2.2) ∈ ds) : ∀ fuel q vis, Sat es ds q vis →
    q.length + unv (es.map (·.2) ++ ds.map (·.2.2)) vis ≤ fuel →
    ∃ v, bfs es ds fuel q vis = some v ∧ Sat es ds [] v ∧ ∀ x ∈ vis, x ∈ v := by
  intro fuel
  induction fuel with
  | zero =>
    intro q vis hs hm
    cases q with
    | nil => exact ⟨vis, by simp [bfs], hs, fun _ h => h⟩
    | cons c q => simp at hm
  | succ fuel ih =>
    intro q vis hs hm
    cases q with
    | nil => exact ⟨vis, by simp [bfs], hs, fun _ h => h⟩
    | cons cur q =>
      simp only [bfs]
      obtain ⟨p1, f1⟩ := pushNew_spec (es.map (·.2) ++ ds.map (·.2.2)) ((es.filter (fun e => e.1 = cur)).map (·.2)) q vis (by
        intro n hn
        obtain ⟨e, he, rfl⟩ := List.mem_map.1 hn
        exact List.mem_append_left _ (List.mem_map.2 ⟨e, (List.mem_filter.1 he).1, rfl⟩))
      obtain ⟨p2, f2⟩ := pushDual_spec (es.map (·.2) ++ ds.map (·.2.2)) ((ds.filter (fun e => e.1 = cur)).map (·.2))
        (pushNew ((es.filter (fun e => e.1 = cur)).map (·.2)) (q, vis)).1
        (pushNew ((es.filter (fun e => e.1 = cur)).map (·.2)) (q, vis)).2 (by
        intro n hn
        obtain ⟨e, he, rfl⟩ := List.mem_map.1 hn
        exact List.mem_append_right _ (List.mem_map.2 ⟨e, (List.mem_filter.1 he).1, rfl⟩))
      have p := p1.trans p2
      have hs' : Sat es ds (pushDual ((ds.filter (fun e => e.1 = cur)).map (·.2)) (pushNew ((es.filter (fun e => e.1 = cur)).map (·.2)) (q, vis))).1
          (pushDual ((ds.filter (fun e => e.1 = cur)).map (·.2)) (pushNew ((es.filter (fun e => e.1 = cur)).map (·.2)) (q, vis))).2 := by
        constructor
        · intro x hx hv
          rcases p.new_pend _ hv with hv | hv
          swap
          · exact Or.inl hv
          rcases hs.e x hx hv with h | h
          · rcases List.mem_cons.1 h with h | h
            · right
              refine p2.vis_sub _ (f1 _ (List.mem_map.2 ⟨x, List.mem_filter.2 ⟨hx, by simpa using h⟩, rfl⟩))
            · exact Or.inl (p.q_sub _ h)
          · exact Or.inr (p.vis_sub _ h)
        · intro x hx hv1 hv2
          rcases p.new_pend _ hv1 with hv1 | hv1
          swap
          · exact Or.inl hv1
          rcases p.new_pend _ hv2 with hv2 | hv2
          swap
          · exact Or.inr (Or.inl hv2)
          rcases hs.d x hx hv1 hv2 with h | h | h
          · rcases List.mem_cons.1 h with h | h
            · right; right
              exact f2 (x.2) (List.mem_map.2 ⟨x, List.mem_filter.2 ⟨hx, by simpa using h⟩, rfl⟩) (p1.vis_sub _ hv2)
            · exact Or.inl (p.q_sub _ h)
          · rcases List.mem_cons.1 h with h | h
            · right; right
              exact f2 (x.1, x.2.2) (List.mem_map.2 ⟨_, List.mem_filter.2 ⟨hsym x hx, by simpa using h⟩, rfl⟩)
                (p1.vis_sub _ hv1)
            · exact Or.inr (Or.inl (p.q_sub _ h))
          · exact Or.inr (Or.inr (p.vis_sub _ h))
      obtain ⟨v, h1, h2, h3⟩ := ih _ _ hs' (by
        have h1 := p.meas
        simp only [List.length_cons] at hm
        have h2 : ∀ a b : Nat, a + b ≤ q.length + unv (es.map (·.2) ++ ds.map (·.2.2)) vis → a + b ≤ fuel := by
          intro a b hab; omega
        exact h2 _ _ h1)
      exact ⟨v, h1, h2, fun x hx => h3 x (p.vis_sub x hx)⟩

variable {F : Type} {L : Lang F}

theorem allDuals_symm (rc : RootCircuit L) (order : List Nat) : ∀ x ∈ allDuals rc order, (x.2.1, x.1, x.2.2) ∈ allDuals rc order := by
  intro x hx
  obtain ⟨c, hc, hx⟩ := List.mem_flatMap.1 hx
  refine List.mem_flatMap.2 ⟨c, hc, ?_⟩
  cases hg : rc.get c with
  | none => simp [hg] at hx
  | some circ =>
    simp only [hg] at hx ⊢
    generalize 0 = i at hx ⊢
    generalize circ.instructions = is at hx ⊢
    induction is generalizing i with
    | nil => simp [insnDuals] at hx
    | cons insn is ih =>
      rcases List.mem_append.1 hx with h | h
      · refine List.mem_append_left _ ?_
        unfold insnDuals1 at h ⊢
        cases hc' : L.asCall insn with
        | none => simp [hc'] at h
        | some t =>
          obtain ⟨d, a, n⟩ := t
          simp only [hc', List.mem_flatMap] at h ⊢
          obtain ⟨p, hp, hm⟩ := h
          refine ⟨p, hp, ?_⟩
          simp at hm ⊢
          rcases hm with rfl | rfl <;> simp
      · exact List.mem_append_right _ (ih _ h)

/-! ### Nothing else is visited -/

theorem pushNew_min : ∀ (ns q vis : List Elem) (e : Elem), e ∈ (pushNew ns (q, vis)).2 → e ∈ vis ∨ e ∈ ns := by
  intro ns
  induction ns with
  | nil => intro q vis e h; exact .inl h
  | cons n ns ih =>
    intro q vis e h
    simp only [pushNew] at h
    split at h
    · rcases ih _ _ _ h with h | h
      · exact .inl h
      · exact .inr (List.mem_cons_of_mem _ h)
    · rcases ih _ _ _ h with h | h
      · rcases List.mem_cons.1 h with rfl | h
        · exact .inr (by simp)
        · exact .inl h
      · exact .inr (List.mem_cons_of_mem _ h)

theorem pushDual_min : ∀ (ns : List (Elem × Elem)) (q vis : List Elem) (e : Elem), e ∈ (pushDual ns (q, vis)).2 → e ∈ vis ∨ ∃ r, (r, e) ∈ ns := by
  intro ns
  induction ns with
  | nil => intro q vis e h; exact .inl h
  | cons p ns ih =>
    intro q vis e h
    obtain ⟨r, n⟩ := p
    simp only [pushDual] at h
    split at h
    · rcases ih _ _ _ h with h | ⟨r', h⟩
      · rcases List.mem_cons.1 h with rfl | h
        · exact .inr ⟨r, by simp⟩
        · exact .inl h
      · exact .inr ⟨r', List.mem_cons_of_mem _ h⟩
    · rcases ih _ _ _ h with h | ⟨r', h⟩
      · exact .inl h
      · exact .inr ⟨r', List.mem_cons_of_mem _ h⟩

theorem pushNew_sub : ∀ (ns q vis : List Elem), (∀ e ∈ q, e ∈ vis) → (∀ e ∈ vis, e ∈ (pushNew ns (q, vis)).2) ∧
    ∀ e ∈ (pushNew ns (q, vis)).1, e ∈ (pushNew ns (q, vis)).2 := by
  intro ns
  induction ns with
  | nil => intro q vis h; exact ⟨fun _ h => h, h⟩
  | cons n ns ih =>
    intro q vis h
    simp only [pushNew]
    split
    · exact ih q vis h
    · obtain ⟨h1, h2⟩ := ih (q ++ [n]) (n :: vis) (by
        intro e he
        rcases List.mem_append.1 he with he | he
        · exact List.mem_cons_of_mem _ (h e he)
        · rw [List.mem_singleton.1 he]; simp)
      exact ⟨fun e he => h1 e (List.mem_cons_of_mem _ he), h2⟩

theorem pushDual_sub : ∀ (ns : List (Elem × Elem)) (q vis : List Elem), (∀ e ∈ q, e ∈ vis) → (∀ e ∈ vis, e ∈ (pushDual ns (q, vis)).2) ∧
    ∀ e ∈ (pushDual ns (q, vis)).1, e ∈ (pushDual ns (q, vis)).2 := by
  intro ns
  induction ns with
  | nil => intro q vis h; exact ⟨fun _ h => h, h⟩
  | cons p ns ih =>
    intro q vis h
    obtain ⟨r, n⟩ := p
    simp only [pushDual]
    split
    · obtain ⟨h1, h2⟩ := ih (q ++ [n]) (n :: vis) (by
        intro e he
        rcases List.mem_append.1 he with he | he
        · exact List.mem_cons_of_mem _ (h e he)
        · rw [List.mem_singleton.1 he]; simp)
      exact ⟨fun e he => h1 e (List.mem_cons_of_mem _ he), h2⟩
    · exact ih q vis h

/-- Every visited element was in the queue at the start, or an edge leads to it. -/
theorem bfs_min {es : List (Elem × Elem)} {ds : List (Elem × Elem × Elem)} : ∀ (fuel : Nat) (q vis v : List Elem), (∀ e ∈ q, e ∈ vis) →
    bfs es ds fuel q vis = some v → (∀ e ∈ vis, e ∈ v) ∧
      ∀ e ∈ v, e ∈ vis ∨ (∃ x ∈ v, (x, e) ∈ es) ∨ ∃ x y, (x, y, e) ∈ ds := by
  intro fuel
  induction fuel with
  | zero =>
    intro q vis v hq h
    cases q with
    | nil => simp only [bfs, Option.some.injEq] at h; subst h; exact ⟨fun _ h => h, fun _ h => .inl h⟩
    | cons c q => simp [bfs] at h
  | succ fuel ih =>
    intro q vis v hq h
    cases q with
    | nil => simp only [bfs, Option.some.injEq] at h; subst h; exact ⟨fun _ h => h, fun _ h => .inl h⟩
    | cons cur q =>
      simp only [bfs] at h
      obtain ⟨a1, a2⟩ := pushNew_sub ((es.filter (fun e => e.1 = cur)).map (·.2)) q vis fun e he => hq e (by simp [he])
      obtain ⟨b1, b2⟩ := pushDual_sub ((ds.filter (fun e => e.1 = cur)).map (·.2)) (pushNew ((es.filter (fun e => e.1 = cur)).map (·.2)) (q, vis)).1
        (pushNew ((es.filter (fun e => e.1 = cur)).map (·.2)) (q, vis)).2 a2
      obtain ⟨c1, c2⟩ := ih _ _ v b2 h
      have hsub : ∀ e ∈ vis, e ∈ v := fun e he => c1 e (b1 e (a1 e he))
      refine ⟨hsub, fun e he => ?_⟩
      rcases c2 e he with h1 | h1
      · rcases pushDual_min _ _ _ _ h1 with h1 | ⟨r, h1⟩
        · rcases pushNew_min _ _ _ _ h1 with h1 | h1
          · exact .inl h1
          · obtain ⟨x, hx, rfl⟩ := List.mem_map.1 h1
            obtain ⟨hx1, hx2⟩ := List.mem_filter.1 hx
            refine .inr (.inl ⟨x.1, ?_, hx1⟩)
            rw [of_decide_eq_true hx2]
            exact hsub _ (hq cur (by simp))
        · obtain ⟨x, hx, hx'⟩ := List.mem_map.1 h1
          obtain ⟨x1, x2⟩ := x
          dsimp only at hx'
          subst hx'
          exact .inr (.inr ⟨x1, r, (List.mem_filter.1 hx).1⟩)
      · exact .inr h1

/-! ### Used circuits -/

theorem usedFold_mono (rc : RootCircuit L) : ∀ (l : List Nat) (init : List Nat) x, x ∈ init →
    x ∈ l.foldl (usedStep rc) init := by
  intro l
  induction l with
  | nil => intro init x h; exact h
  | cons c l ih =>
    intro init x h
    refine ih _ x ?_
    unfold usedStep
    split
    · split
      · exact List.mem_append_left _ h
      · exact h
    · exact h

theorem usedFold_mem (rc : RootCircuit L) : ∀ (l : List Nat) (init : List Nat) x, 
    x ∈ l.foldl (usedStep rc) init → x ∈ init ∨ ∃ u ∈ l, Calls rc.get u x := by
  intro l
  induction l with
  | nil => intro init x h; exact Or.inl h
  | cons c l ih =>
    intro init x h
    rcases ih _ x h with h | ⟨u, hu, hc⟩
    · unfold usedStep at h
      split at h
      · split at h
        · rename_i circ hg
          rcases List.mem_append.1 h with h | h
          · exact Or.inl h
          · right
            refine ⟨c, by simp, circ, hg, ?_⟩
            simp only [callees, List.mem_filterMap, Option.map_eq_some_iff] at h
            obtain ⟨i, hi, t, ht, rfl⟩ := h
            exact ⟨i, hi, t.2.1, t.2.2, ht⟩
        · exact Or.inl h
      · exact Or.inl h
    · exact Or.inr ⟨u, by simp [hu], hc⟩

theorem used_closed {rc : RootCircuit L} {order : List Nat} (hn : order.Nodup)
    (hsuf : ∀ l1 v l2, order = l1 ++ v :: l2 → ∀ w, Calls rc.get v w → w ∈ l2) {c d : Nat}
    (hc : c ∈ usedCircuits rc order) (hco : c ∈ order) (hcall : Calls rc.get c d) : d ∈ usedCircuits rc order := by
  obtain ⟨l1, l2, rfl⟩ := List.append_of_mem hco
  unfold usedCircuits at hc ⊢
  rw [List.foldl_append, List.foldl_cons] at hc ⊢
  apply usedFold_mono
  -- `c` was already used when it was processed
  have hmem : c ∈ l1.foldl (usedStep rc) [0] := by
    rcases usedFold_mem rc l2 _ c hc with h | ⟨u, hu, hcu⟩
    · unfold usedStep at h
      split at h
      · rename_i h'; exact h'
      · exact h
    · exfalso
      obtain ⟨m1, m2, rfl⟩ := List.append_of_mem hu
      have h1 := hsuf (l1 ++ c :: m1) u m2 (by simp) c hcu
      have : c ∉ m1 ++ u :: m2 := by
        have := (List.nodup_append.1 hn).2.1
        exact (List.nodup_cons.1 this).1
      exact this (by simp [h1])
  obtain ⟨circ, hg, i, hi, a, n, hca⟩ := hcall
  have e : ∀ X, c ∈ X → usedStep rc X c = X ++ callees circ.instructions := fun X hX => by simp [usedStep, hX, hg]
  rw [e _ hmem]
  refine List.mem_append_right _ ?_
  exact List.mem_filterMap.2 ⟨i, hi, by simp [hca]⟩

end Verif.IR
