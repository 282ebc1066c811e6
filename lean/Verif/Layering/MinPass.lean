import Verif.Layering.ProgOk

/-!
# The loop that computes `min_layer`
-/

set_option linter.unusedSectionVars false
set_option linter.unusedSimpArgs false

namespace Verif.Layering

variable {es : List (Nat × Nat)} {adv : Nat → Nat}

theorem getD_set (m : List Nat) (y v z : Nat) : (m.set y v).getD z 0 = if z = y ∧ y < m.length then v else m.getD z 0 := by
  rw [List.getD_eq_getElem?_getD, List.getD_eq_getElem?_getD, List.getElem?_set]
  by_cases h : y = z
  · subst h
    by_cases hl : y < m.length
    · simp [hl]
    · simp [hl]
  · rw [if_neg h, if_neg (fun e => h e.1.symm)]

theorem relax_length (x : Nat) (m : List Nat) (y : Nat) : (relax adv x m y).length = m.length := by simp [relax]

theorem relax_getD (x : Nat) (m : List Nat) (y z : Nat) : (relax adv x m y).getD z 0 =
    if z = y ∧ y < m.length then max (m.getD y 0) (m.getD x 0 + adv y) else m.getD z 0 := by rw [relax, getD_set]

theorem relax_mono (x : Nat) (m : List Nat) (y z : Nat) : m.getD z 0 ≤ (relax adv x m y).getD z 0 := by
  rw [relax_getD]
  split
  · rename_i h; rw [h.1]; exact le_max_left _ _
  · exact le_refl _

theorem mem_succs {x y : Nat} : y ∈ succs es x ↔ (x, y) ∈ es := by
  simp only [succs, List.mem_map, List.mem_filter, beq_iff_eq]
  constructor
  · rintro ⟨⟨a, b⟩, ⟨h1, h2⟩, rfl⟩; dsimp only at h2; subst h2; exact h1
  · intro h; exact ⟨(x, y), ⟨h, rfl⟩, rfl⟩

/-- Relaxing all edges out of one node. -/
theorem fold_length (x : Nat) : ∀ (ys m : List Nat), (ys.foldl (relax adv x) m).length = m.length := by
  intro ys
  induction ys with
  | nil => intro m; rfl
  | cons y ys ih => intro m; rw [List.foldl_cons, ih, relax_length]

theorem fold_mono (x z : Nat) : ∀ (ys m : List Nat), m.getD z 0 ≤ (ys.foldl (relax adv x) m).getD z 0 := by
  intro ys
  induction ys with
  | nil => intro m; exact le_refl _
  | cons y ys ih => intro m; rw [List.foldl_cons]; exact le_trans (relax_mono _ _ _ _) (ih _)

theorem fold_same (x z : Nat) : ∀ (ys m : List Nat), z ∉ ys → (ys.foldl (relax adv x) m).getD z 0 = m.getD z 0 := by
  intro ys
  induction ys with
  | nil => intro m _; rfl
  | cons y ys ih =>
    intro m h
    rw [List.mem_cons, not_or] at h
    rw [List.foldl_cons, ih _ h.2, relax_getD, if_neg (fun e => h.1 e.1)]

theorem fold_edge (x y : Nat) : ∀ (ys m : List Nat), x ∉ ys → y ∈ ys → y < m.length → m.getD x 0 + adv y ≤ (ys.foldl (relax adv x) m).getD y 0 := by
  intro ys
  induction ys with
  | nil => intro m _ h; cases h
  | cons z ys ih =>
    intro m hx hy hl
    rw [List.mem_cons, not_or] at hx
    rw [List.foldl_cons]
    by_cases e : y = z
    · subst e
      refine le_trans ?_ (fold_mono x y ys _)
      rw [relax_getD, if_pos ⟨rfl, hl⟩]
      exact le_max_right _ _
    · have := ih (relax adv x m z) hx.2 (by rcases List.mem_cons.1 hy with h | h; exact absurd h e; exact h) (by rw [relax_length]; exact hl)
      rw [relax_getD, if_neg (fun h => hx.1 h.1)] at this
      exact this

theorem fold_upper (x y B : Nat) : ∀ (ys m : List Nat), x ∉ ys → (y ∈ ys → m.getD x 0 + adv y ≤ B) → m.getD y 0 ≤ B → (ys.foldl (relax adv x) m).getD y 0 ≤ B := by
  intro ys
  induction ys with
  | nil => intro m _ _ h; exact h
  | cons z ys ih =>
    intro m hx h1 h2
    rw [List.mem_cons, not_or] at hx
    rw [List.foldl_cons]
    refine ih _ hx.2 ?_ ?_
    · intro hy
      rw [relax_getD, if_neg (fun h => hx.1 h.1)]
      exact h1 (by simp [hy])
    · rw [relax_getD]
      split
      · rename_i h
        have := h1 (by simp [h.1])
        rw [h.1] at this h2
        exact max_le h2 this
      · exact h2

theorem minPass_length : ∀ (q m : List Nat), (minPass es adv q m).length = m.length := by
  intro q
  induction q with
  | nil => intro m; rfl
  | cons x q ih => intro m; rw [minPass, List.foldl_cons]; exact (ih _).trans (fold_length _ _ _)

theorem minPass_cons (x : Nat) (q m : List Nat) : minPass es adv (x :: q) m = minPass es adv q ((succs es x).foldl (relax adv x) m) := rfl

theorem minPass_mono (z : Nat) : ∀ (q m : List Nat), m.getD z 0 ≤ (minPass es adv q m).getD z 0 := by
  intro q
  induction q with
  | nil => intro m; exact le_refl _
  | cons x q ih => intro m; rw [minPass_cons]; exact le_trans (fold_mono _ _ _ _) (ih _)

theorem minPass_same (z : Nat) : ∀ (q m : List Nat), (∀ x ∈ q, (x, z) ∉ es) → (minPass es adv q m).getD z 0 = m.getD z 0 := by
  intro q
  induction q with
  | nil => intro m _; rfl
  | cons x q ih =>
    intro m h
    rw [minPass_cons, ih _ (fun y hy => h y (by simp [hy])), fold_same _ _ _ _ (fun e => h x (by simp) (mem_succs.1 e))]

/-- Edges are respected by the final values if the queue is in topological order. -/
theorem minPass_edge {x y : Nat} (he : (x, y) ∈ es) : ∀ (q m : List Nat), q.Pairwise (fun a b => (b, a) ∉ es) → (∀ a, (a, a) ∉ es) → x ∈ q → y < m.length →
    (minPass es adv q m).getD x 0 + adv y ≤ (minPass es adv q m).getD y 0 := by
  intro q
  induction q with
  | nil => intro m _ _ h; cases h
  | cons a q ih =>
    intro m hp hself hx hl
    rw [List.pairwise_cons] at hp
    rw [minPass_cons]
    by_cases e : x = a
    · subst e
      rw [minPass_same x _ _ (fun z hz => hp.1 z hz), fold_same x x _ _ (fun h => hself x (mem_succs.1 h))]
      exact le_trans (fold_edge x y _ m (fun h => hself x (mem_succs.1 h)) (mem_succs.2 he) hl) (minPass_mono _ _ _)
    · exact ih _ hp.2 hself (by rcases List.mem_cons.1 hx with h | h; exact absurd h e; exact h) (by rw [fold_length]; exact hl)

/-- A node with a single predecessor. -/
theorem minPass_upper {n0 y : Nat} (he : ∀ x, (x, y) ∈ es → x = n0) (hself : ∀ a, (a, a) ∉ es) : ∀ (q m : List Nat) (B : Nat), m.getD y 0 ≤ B →
    (minPass es adv q m).getD n0 0 + adv y ≤ B → (minPass es adv q m).getD y 0 ≤ B := by
  intro q
  induction q with
  | nil => intro m B h1 _; exact h1
  | cons a q ih =>
    intro m B h1 h2
    rw [minPass_cons] at h2 ⊢
    refine ih _ B (fold_upper a y B _ m (fun h => hself a (mem_succs.1 h)) ?_ h1) h2
    intro hy
    have := he a (mem_succs.1 hy)
    subst this
    have h3 : m.getD a 0 ≤ (minPass es adv q ((succs es a).foldl (relax adv a) m)).getD a 0 := le_trans (fold_mono _ _ _ _) (minPass_mono _ _ _)
    omega

variable {F : Type}

/-- The queue of a circuit is in topological order. -/
theorem queue_topo {p : Prog F} (h : ArgsOk p.insns (p.numInputs + 1)) : p.queue.Pairwise (fun a b => (b, a) ∉ p.edges) ∧ ∀ a, (a, a) ∉ p.edges := by
  have hnv : p.numInputs + 1 + (defsOf p.insns 0).length ≤ p.nv := le_refl _
  obtain ⟨h1, h2⟩ := queueOf_topo p.nv p.insns (p.numInputs + 1) 0 h hnv
  have hin : ∀ (a b : Nat), a ∈ List.range' 1 p.numInputs → (b, a) ∉ p.edges := by
    intro a b ha he
    have ha := List.mem_range'_1.1 ha
    rw [Prog.edges, edgesOf_mem] at he
    rcases he with ⟨i, e, g1, g2, g3⟩ | ⟨j, q, g1, ⟨g2, g3⟩ | ⟨g2, g3⟩⟩
    · omega
    · unfold Prog.nv at g2; omega
    · have := (callsOf_outputs _ _ q (List.mem_of_getElem? g1)).2 a g3; omega
  have hco : ∀ (a b : Nat), a ∈ constsOf p.insns (p.numInputs + 1) → (b, a) ∉ p.edges := by
    intro a b ha he
    obtain ⟨i0, c, rfl, hi0⟩ := constsOf_def _ _ 0 _ ha
    have hlt := (List.getElem?_eq_some_iff.1 hi0).1
    rw [Prog.edges, edgesOf_mem] at he
    rcases he with ⟨i, e, g1, g2, g3⟩ | ⟨j, q, g1, ⟨g2, g3⟩ | ⟨g2, g3⟩⟩
    · have : i = i0 := by omega
      subst this
      rw [hi0] at g1; cases g1
    · unfold Prog.nv at g2; omega
    · obtain ⟨j', hj'⟩ := List.getElem?_of_mem g3
      have := (defsOf_out p.insns 0 (p.numInputs + 1) i0 j j').2 ⟨by omega, q, by simpa using g1, hj'⟩
      rw [hi0] at this; cases this
  refine ⟨?_, h2⟩
  unfold Prog.queue
  rw [List.pairwise_append, List.pairwise_append]
  refine ⟨?_, ⟨?_, h1, fun a ha b _ => hco a b ha⟩, fun a ha b _ => hin a b ha⟩
  · exact List.Pairwise.imp_of_mem (fun {a b} ha _ _ => hin a b ha) (List.pairwise_of_forall (R := fun _ _ => True) (fun _ _ => trivial))
  · exact List.Pairwise.imp_of_mem (fun {a b} ha _ _ => hco a b ha) (List.pairwise_of_forall (R := fun _ _ => True) (fun _ _ => trivial))

theorem edges_mem {p : Prog F} {x y : Nat} : (x, y) ∈ p.edges ↔ (∃ e, p.defn y = some (.expr e) ∧ x ∈ Verif.IR.Expr.getVars e) ∨
    ∃ (k : Nat) (q : Call), p.calls[k]? = some q ∧ ((y = p.nv + k ∧ x ∈ q.inputs) ∨ (x = p.nv + k ∧ y ∈ q.outputs)) := by
  rw [Prog.edges, edgesOf_mem]
  simp only [Nat.zero_add]
  refine or_congr ⟨?_, ?_⟩ (Iff.rfl)
  · rintro ⟨i, e, h1, rfl, h3⟩
    refine ⟨e, ?_, h3⟩
    unfold Prog.defn
    rw [if_neg (by omega), Nat.add_sub_cancel_left]
    exact h1
  · rintro ⟨e, h1, h3⟩
    unfold Prog.defn at h1
    split at h1
    · cases h1
    · exact ⟨y - (p.numInputs + 1), e, h1, by omega, h3⟩

theorem defn_out {p : Prog F} {x k j : Nat} : p.defn x = some (.out k j) ↔ ∃ q, p.calls[k]? = some q ∧ q.outputs[j]? = some x := by
  unfold Prog.defn
  by_cases hx : x ≤ p.numInputs
  · rw [if_pos hx]
    constructor
    · intro h; cases h
    · rintro ⟨q, h1, h2⟩
      have := (callsOf_outputs _ _ q (List.mem_of_getElem? h1)).2 x (List.mem_of_getElem? h2)
      omega
  · rw [if_neg hx, defsOf_out p.insns 0 (p.numInputs + 1)]
    rw [show p.numInputs + 1 + (x - (p.numInputs + 1)) = x by omega]
    simp only [Nat.zero_le, true_and, Nat.sub_zero]
    exact Iff.rfl

theorem defn_lt {p : Prog F} {x : Nat} {d : Def F} (h : p.defn x = some d) : p.numInputs < x ∧ x < p.nv := by
  unfold Prog.defn at h
  split at h
  · cases h
  · have := (List.getElem?_eq_some_iff.1 h).1
    unfold Prog.nv
    omega

theorem defn_some {p : Prog F} {x : Nat} (h1 : p.numInputs < x) (h2 : x < p.nv) : ∃ d, p.defn x = some d := by
  unfold Prog.defn
  rw [if_neg (by omega)]
  unfold Prog.nv at h2
  exact ⟨_, List.getElem?_eq_getElem (by omega)⟩

theorem call_out {p : Prog F} {k : Nat} {q : Call} (h : p.calls[k]? = some q) : q.outputs.Nodup ∧ ∀ y ∈ q.outputs, p.numInputs < y ∧ y < p.nv := by
  obtain ⟨h1, h2⟩ := callsOf_outputs _ _ q (List.mem_of_getElem? h)
  refine ⟨h1, fun y hy => ?_⟩
  have := h2 y hy
  unfold Prog.nv
  omega

theorem call_in {p : Prog F} (hp : ProgOk p) {k : Nat} {q : Call} (h : p.calls[k]? = some q) : ∀ y ∈ q.inputs, 1 ≤ y ∧ y < p.nv :=
  fun y hy => callsOf_inputs _ _ hp.args q (List.mem_of_getElem? h) y hy

theorem expr_in {p : Prog F} (hp : ProgOk p) {x : Nat} {e : Verif.IR.Expr F} (h : p.defn x = some (.expr e)) : ∀ v ∈ Verif.IR.Expr.getVars e, 1 ≤ v ∧ v < x := by
  intro v hv
  unfold Prog.defn at h
  split at h
  · cases h
  · have := defsOf_expr _ _ 0 hp.args _ _ h v hv
    omega

/-- Every node that something depends on is in the queue. -/
theorem queue_mem {p : Prog F} {x : Nat} (h : (1 ≤ x ∧ x < p.nv) ∨ (p.nv ≤ x ∧ x < p.nv + p.calls.length)) : x ∈ p.queue := by
  unfold Prog.queue
  rw [List.mem_append, List.mem_append]
  obtain ⟨h1, h2⟩ := queueOf_def p.nv p.insns (p.numInputs + 1) 0
  rcases h with h | h
  · by_cases hi : x ≤ p.numInputs
    · left; rw [List.mem_range'_1]; omega
    · right
      have hd : (defsOf p.insns 0)[x - (p.numInputs + 1)]? = some _ := List.getElem?_eq_getElem (by unfold Prog.nv at h; omega)
      have := h1 _ _ hd
      rwa [show p.numInputs + 1 + (x - (p.numInputs + 1)) = x by omega] at this
  · right; right
    have := h2 (x - p.nv) (by unfold Prog.calls at h; omega)
    rwa [show p.nv + (0 + (x - p.nv)) = x by omega] at this

theorem edge_src {p : Prog F} (hp : ProgOk p) {x y : Nat} (h : (x, y) ∈ p.edges) : x ∈ p.queue := by
  apply queue_mem
  rcases edges_mem.1 h with ⟨e, h1, h2⟩ | ⟨k, q, h1, ⟨h2, h3⟩ | ⟨h2, h3⟩⟩
  · have := expr_in hp h1 x h2
    have := defn_lt h1
    left; omega
  · exact .inl (call_in hp h1 x h3)
  · have := (List.getElem?_eq_some_iff.1 h1).1
    right; omega

/-- What the loop computes. -/
structure MinOk (p : Prog F) (dep : Nat → Nat) (m : List Nat) : Prop where
  edge : ∀ x y, (x, y) ∈ p.edges → m.getD x 0 + advOf p dep y ≤ m.getD y 0
  input : ∀ x, x ≤ p.numInputs → m.getD x 0 = 0
  const : ∀ x c, p.defn x = some (.const c) → m.getD x 0 = 1
  expr : ∀ x e, p.defn x = some (.expr e) → 1 ≤ m.getD x 0
  out : ∀ (k : Nat) (q : Call), p.calls[k]? = some q → ∀ y ∈ q.outputs, m.getD y 0 = m.getD (p.nv + k) 0 + 1

theorem minOk {p : Prog F} (hp : ProgOk p) (dep : Nat → Nat) :
    MinOk p dep (minPass p.edges (advOf p dep) p.queue ((List.range (p.nv + p.calls.length)).map (minInit p))) := by
  obtain ⟨t1, t2⟩ := queue_topo hp.args
  have hlen : ((List.range (p.nv + p.calls.length)).map (minInit p)).length = p.nv + p.calls.length := by simp
  have hini : ∀ x, x < p.nv + p.calls.length → ((List.range (p.nv + p.calls.length)).map (minInit p)).getD x 0 = minInit p x := by
    intro x hx
    rw [List.getD_eq_getElem?_getD, List.getElem?_map, List.getElem?_range hx]; rfl
  have hnv : p.numInputs < p.nv := by unfold Prog.nv; omega
  have hedge : ∀ x y, (x, y) ∈ p.edges → (minPass p.edges (advOf p dep) p.queue ((List.range (p.nv + p.calls.length)).map (minInit p))).getD x 0 + advOf p dep y ≤
      (minPass p.edges (advOf p dep) p.queue ((List.range (p.nv + p.calls.length)).map (minInit p))).getD y 0 := by
    intro x y he
    refine minPass_edge he _ _ t1 t2 (edge_src hp he) ?_
    rw [hlen]
    rcases edges_mem.1 he with ⟨e, h1, h2⟩ | ⟨k, q, h1, ⟨h2, h3⟩ | ⟨h2, h3⟩⟩
    · have := defn_lt h1; omega
    · have := (List.getElem?_eq_some_iff.1 h1).1; omega
    · have := (call_out h1).2 y h3; omega
  refine ⟨hedge, ?_, ?_, ?_, ?_⟩
  · intro x hx
    have hd : p.defn x = none := by unfold Prog.defn; rw [if_pos hx]
    rw [minPass_same, hini x (by omega)]
    · unfold minInit; rw [if_neg (by omega), hd]
    · intro z _ he
      rcases edges_mem.1 he with ⟨e, h1, h2⟩ | ⟨k, q, h1, ⟨h2, h3⟩ | ⟨h2, h3⟩⟩
      · rw [hd] at h1; cases h1
      · omega
      · have := (call_out h1).2 x h3; omega
  · intro x c hd
    have hlt := defn_lt hd
    rw [minPass_same, hini x (by omega)]
    · unfold minInit; rw [if_neg (by omega), hd]
    · intro z _ he
      rcases edges_mem.1 he with ⟨e, h1, h2⟩ | ⟨k, q, h1, ⟨h2, h3⟩ | ⟨h2, h3⟩⟩
      · rw [hd] at h1; cases h1
      · omega
      · obtain ⟨j, hj⟩ := List.getElem?_of_mem h3
        have := defn_out.2 ⟨q, h1, hj⟩
        rw [hd] at this; cases this
  · intro x e hd
    have hlt := defn_lt hd
    refine le_trans ?_ (minPass_mono x _ _)
    rw [hini x (by omega)]
    unfold minInit; rw [if_neg (by omega), hd]
  · intro k q hq y hy
    have hy' := (call_out hq).2 y hy
    have hk := (List.getElem?_eq_some_iff.1 hq).1
    obtain ⟨j, hj⟩ := List.getElem?_of_mem hy
    have hd := defn_out.2 ⟨q, hq, hj⟩
    have hadv : advOf p dep y = 1 := by unfold advOf; rw [if_neg (by omega), hd]
    have h1 := hedge (p.nv + k) y (edges_mem.2 (.inr ⟨k, q, hq, .inr ⟨rfl, hy⟩⟩))
    rw [hadv] at h1
    refine le_antisymm ?_ h1
    refine minPass_upper (n0 := p.nv + k) ?_ t2 _ _ _ ?_ ?_
    · intro x he
      rcases edges_mem.1 he with ⟨e, g1, g2⟩ | ⟨k', q', g1, ⟨g2, g3⟩ | ⟨g2, g3⟩⟩
      · rw [hd] at g1; cases g1
      · omega
      · obtain ⟨j', hj'⟩ := List.getElem?_of_mem g3
        have := defn_out.2 ⟨q', g1, hj'⟩
        rw [hd] at this
        cases this
        exact g2
    · rw [hini y (by omega)]
      unfold minInit; rw [if_neg (by omega), hd]
      simp
    · rw [hadv]

end Verif.Layering
