import Mathlib.Data.List.Nodup
import Mathlib.Data.List.Perm.Subperm
import Mathlib.Data.List.Count
import Mathlib.Algebra.BigOperators.Group.List.Basic

/-!
# `topo_order` (Kahn's algorithm), expander_compiler/src/utils/misc.rs:22-62

`HashSet`/`HashMap` iteration order is unspecified in Rust; the model takes the vertices and the adjacency lists as
lists in an arbitrary order, and the theorems hold for every such order.
-/

namespace Verif.Utils

/-- Adjacency: `edges: HashMap<usize, HashSet<usize>>` as an association list. -/
abbrev Edges := List (Nat × List Nat)

/-- `edges.get(&from)`; a missing key has no successors (misc.rs:52). -/
def succs (es : Edges) (u : Nat) : List Nat := (es.lookup u).getD []

/-- In-degrees after misc.rs:35-42: one increment per occurrence of `v` in some adjacency set. -/
def inDeg0 (es : Edges) (v : Nat) : Nat := (es.map (fun e => e.2.count v)).sum

/-- Inner loop misc.rs:53-58 for the successors of one vertex.  `none` models the panics: `in_deg[&to]` for a key that
is not a vertex, and the `*e -= 1` underflow. -/
def relax (vs : List Nat) : List Nat → (Nat → Nat) → List Nat → Option ((Nat → Nat) × List Nat)
  | [], d, p => some (d, p)
  | t :: ts, d, p =>
    if t ∈ vs ∧ d t ≠ 0 then
      relax vs ts (Function.update d t (d t - 1)) (if d t - 1 = 0 then p ++ [t] else p)
    else none

/-- The `while i < queue.len()` loop (misc.rs:48-60).  `done` is `queue[..i]`, `pend` is `queue[i..]`; the fuel is the
number of iterations, running out of it is `none` (proved not to happen). -/
def kahn (vs : List Nat) (es : Edges) : Nat → List Nat → List Nat → (Nat → Nat) → Option (List Nat)
  | _, done, [], _ => some done
  | 0, _, _ :: _, _ => none
  | fuel + 1, done, u :: pend, d =>
    match relax vs (succs es u) d pend with
    | some (d', pend') => kahn vs es fuel (done ++ [u]) pend' d'
    | none => none

/-- `topo_order` (misc.rs:32-62). -/
def topoOrder (vs : List Nat) (es : Edges) : Option (List Nat) :=
  kahn vs es vs.length [] (vs.filter (fun v => inDeg0 es v = 0)) (inDeg0 es)

/-- `topo_order_and_is_dag` (misc.rs:22-29). -/
def topoOrderAndIsDag (vs : List Nat) (es : Edges) : Option (List Nat × Bool) :=
  (topoOrder vs es).map (fun q => (q, q.length == vs.length))

/-- What `HashSet`/`HashMap` guarantee (no duplicates) plus: all endpoints of edges are vertices. -/
structure GoodGraph (vs : List Nat) (es : Edges) : Prop where
  vs_nodup : vs.Nodup
  keys_nodup : (es.map Prod.fst).Nodup
  keys_mem : ∀ e ∈ es, e.1 ∈ vs
  succ_nodup : ∀ e ∈ es, e.2.Nodup
  succ_mem : ∀ e ∈ es, ∀ v ∈ e.2, v ∈ vs

/-- Specification: acyclicity of the edge relation, as the existence of a rank function. -/
def Acyclic (es : Edges) : Prop := ∃ r : Nat → Nat, ∀ u v, v ∈ succs es u → r v < r u


/-! ### Proofs -/

theorem relax_spec (vs : List Nat) : ∀ (ts : List Nat) (d : Nat → Nat) (p : List Nat), ts.Nodup →
    (∀ t ∈ ts, t ∈ vs) → (∀ t ∈ ts, d t ≠ 0) →
    relax vs ts d p = some (fun v => d v - (if v ∈ ts then 1 else 0), p ++ ts.filter (fun t => d t = 1)) := by
  intro ts
  induction ts with
  | nil => intro d p _ _ _; simp [relax]
  | cons t ts ih =>
    intro d p hn hm hd
    have hn' := List.nodup_cons.1 hn
    have h1 : t ∈ vs ∧ d t ≠ 0 := ⟨hm t (by simp), hd t (by simp)⟩
    rw [relax, if_pos h1, ih _ _ hn'.2 (fun x hx => hm x (by simp [hx]))]
    · congr 2
      · funext v
        by_cases hv : v = t
        · subst hv; simp [hn'.1]
        · simp [Function.update, hv]
      · have : ts.filter (fun x => Function.update d t (d t - 1) x = 1) = ts.filter (fun x => d x = 1) := by
          apply List.filter_congr
          intro x hx
          have : x ≠ t := fun h => hn'.1 (h ▸ hx)
          simp [Function.update, this]
        rw [this, List.filter_cons]
        have h0 : d t - 1 = 0 ↔ d t = 1 := by have := h1.2; omega
        by_cases h : d t = 1
        · simp [h]
        · simp [h, h0]
    · intro x hx
      have : x ≠ t := fun h => hn'.1 (h ▸ hx)
      simp [Function.update, this]; exact hd x (by simp [hx])

/-- Remaining in-degree once the vertices in `done` have been processed. -/
def rem (es : Edges) (done : List Nat) (v : Nat) : Nat :=
  (es.map (fun e => if e.1 ∈ done then 0 else e.2.count v)).sum

theorem rem_nil (es : Edges) (v : Nat) : rem es [] v = inDeg0 es v := by simp [rem, inDeg0]

theorem rem_append (es : Edges) (done : List Nat) (u v : Nat) (hu : u ∉ done) (hk : (es.map Prod.fst).Nodup) :
    rem es done v = rem es (done ++ [u]) v + (succs es u).count v := by
  induction es with
  | nil => simp [rem, succs]
  | cons e es ih =>
    simp only [List.map_cons, List.nodup_cons] at hk
    have ih := ih hk.2
    obtain ⟨k, l⟩ := e
    have hr : ∀ D, rem ((k, l) :: es) D v = (if k ∈ D then 0 else l.count v) + rem es D v := by
      intro D; simp [rem]
    rw [hr, hr]
    by_cases h : u = k
    · subst h
      have h0 : rem es done v = rem es (done ++ [u]) v := by
        have hne : ∀ e ∈ es, e.1 ≠ u := fun e he heq => hk.1 (by simp; exact ⟨e.2, by rw [← heq]; exact he⟩)
        unfold rem
        congr 1
        apply List.map_congr_left
        intro e he
        simp [hne e he]
      simp [hu, succs, h0]; omega
    · have hs : succs ((k, l) :: es) u = succs es u := by
        have : (u == k) = false := by simp [h]
        simp [succs, List.lookup, this]
      have hk' : k ∈ done ++ [u] ↔ k ∈ done := by simp; intro h'; exact absurd h'.symm h
      rw [hs]
      by_cases hd : k ∈ done
      · rw [if_pos hd, if_pos (hk'.2 hd)]; omega
      · rw [if_neg hd, if_neg (fun h => hd (hk'.1 h))]; omega

theorem mem_of_lookup {es : Edges} {u : Nat} {l : List Nat} (h : es.lookup u = some l) : (u, l) ∈ es := by
  induction es with
  | nil => simp at h
  | cons e es ih =>
    obtain ⟨k, m⟩ := e
    simp only [List.lookup] at h
    split at h
    · rename_i hk; simp at hk h; subst hk; subst h; simp
    · simp [ih h]

theorem lookup_of_mem {es : Edges} {u : Nat} {l : List Nat} (hk : (es.map Prod.fst).Nodup) (h : (u, l) ∈ es) :
    es.lookup u = some l := by
  induction es with
  | nil => simp at h
  | cons e es ih =>
    obtain ⟨k, m⟩ := e
    simp only [List.map_cons, List.nodup_cons] at hk
    simp only [List.lookup]
    rcases List.mem_cons.1 h with h' | h'
    · cases h'; simp
    · have : (u == k) = false := by
        simp; intro he; subst he; exact hk.1 (List.mem_map.2 ⟨(u, l), h', rfl⟩)
      rw [this]; exact ih hk.2 h'

theorem succs_mem {vs es} (g : GoodGraph vs es) {u v : Nat} (h : v ∈ succs es u) : u ∈ vs ∧ v ∈ vs := by
  unfold succs at h
  cases hl : es.lookup u with
  | none => simp [hl] at h
  | some l =>
    simp [hl] at h
    have := mem_of_lookup hl
    exact ⟨g.keys_mem _ this, g.succ_mem _ this _ h⟩

theorem succs_nodup {vs es} (g : GoodGraph vs es) (u : Nat) : (succs es u).Nodup := by
  unfold succs
  cases hl : es.lookup u with
  | none => simp
  | some l => exact g.succ_nodup _ (mem_of_lookup hl)

theorem rem_eq_zero {vs es} (g : GoodGraph vs es) {done : List Nat} {v : Nat} :
    rem es done v = 0 ↔ ∀ u, v ∈ succs es u → u ∈ done := by
  unfold rem
  rw [List.sum_eq_zero_iff_forall_eq_nat]
  constructor
  · intro h u hu
    unfold succs at hu
    cases hl : es.lookup u with
    | none => simp [hl] at hu
    | some l =>
      simp [hl] at hu
      by_contra hd
      have := h _ (List.mem_map.2 ⟨(u, l), mem_of_lookup hl, rfl⟩)
      rw [if_neg hd] at this
      exact absurd (List.count_eq_zero.1 this) (by simpa using hu)
  · intro h x hx
    obtain ⟨⟨u, l⟩, he, rfl⟩ := List.mem_map.1 hx
    simp only
    split
    · rfl
    · rename_i hd
      by_contra hc
      have hv : v ∈ l := by by_contra hv; exact hc (List.count_eq_zero.2 hv)
      exact hd (h u (by simp [succs, lookup_of_mem g.keys_nodup he, hv]))

/-- `l` lists predecessors before successors. -/
def Ordered (es : Edges) (l : List Nat) : Prop :=
  ∀ l1 v l2, l = l1 ++ v :: l2 → ∀ u, v ∈ succs es u → u ∈ l1

structure KInv (vs : List Nat) (es : Edges) (done pend : List Nat) (d : Nat → Nat) : Prop where
  nodup : (done ++ pend).Nodup
  sub : ∀ v ∈ done ++ pend, v ∈ vs
  deg : ∀ v ∈ vs, d v = rem es done v
  iff : ∀ v ∈ vs, v ∈ done ++ pend ↔ d v = 0
  ord : Ordered es done

theorem KInv.step {vs es done u pend d} (g : GoodGraph vs es) (h : KInv vs es done (u :: pend) d) :
    ∃ d' pend', relax vs (succs es u) d pend = some (d', pend') ∧ KInv vs es (done ++ [u]) pend' d' := by
  have hu : u ∈ vs := h.sub u (by simp)
  have hud : u ∉ done := by
    intro hd
    have := (List.nodup_append.1 h.nodup).2.2 u hd u (by simp)
    exact this rfl
  have hsplit : ∀ v, rem es done v = rem es (done ++ [u]) v + (succs es u).count v :=
    fun v => rem_append es done u v hud g.keys_nodup
  have hd0 : ∀ t ∈ succs es u, d t ≠ 0 := by
    intro t ht
    rw [h.deg t (succs_mem g ht).2, hsplit]
    have := List.count_pos_iff.2 ht
    omega
  refine ⟨_, _, relax_spec vs _ d pend (succs_nodup g u) (fun t ht => (succs_mem g ht).2) hd0, ?_⟩
  have hdeg : ∀ v ∈ vs, d v - (if v ∈ succs es u then 1 else 0) = rem es (done ++ [u]) v := by
    intro v hv
    rw [h.deg v hv, hsplit]
    split
    · rename_i hm
      rw [List.count_eq_one_of_mem (succs_nodup g u) hm]; omega
    · rename_i hm
      rw [List.count_eq_zero.2 hm]; omega
  have hmem : ∀ v ∈ vs, v ∈ (done ++ [u]) ++ (pend ++ (succs es u).filter (fun t => d t = 1)) ↔
      d v - (if v ∈ succs es u then 1 else 0) = 0 := by
    intro v hv
    have hi := h.iff v hv
    constructor
    · intro hm
      have : v ∈ done ++ u :: pend ∨ (v ∈ succs es u ∧ d v = 1) := by
        simp only [List.mem_append, List.mem_cons, List.mem_filter, List.not_mem_nil, or_false,
          decide_eq_true_eq] at hm ⊢
        tauto
      rcases this with hm | ⟨hm, h1⟩
      · have := hi.1 hm; omega
      · rw [if_pos hm]; omega
    · intro h0
      by_cases hz : d v = 0
      · have := hi.2 hz
        simp only [List.mem_append, List.mem_cons, List.not_mem_nil, or_false] at this ⊢
        tauto
      · have hs : v ∈ succs es u := by by_contra hs; rw [if_neg hs] at h0; omega
        rw [if_pos hs] at h0
        have : d v = 1 := by omega
        simp [hs, this]
  refine ⟨?_, ?_, hdeg, hmem, ?_⟩
  · have : (done ++ [u]) ++ (pend ++ (succs es u).filter (fun t => d t = 1)) =
      (done ++ u :: pend) ++ (succs es u).filter (fun t => d t = 1) := by simp
    rw [this]
    refine List.nodup_append.2 ⟨h.nodup, (succs_nodup g u).filter _, ?_⟩
    intro a ha b hb hab
    subst hab
    have hb := List.mem_filter.1 hb
    have h1 : d a = 1 := by simpa using hb.2
    have := (h.iff a (succs_mem g hb.1).2).1 ha
    omega
  · intro v hv
    simp only [List.mem_append, List.mem_cons, List.not_mem_nil, or_false, List.mem_filter] at hv
    rcases hv with (hv | hv) | hv | hv
    · exact h.sub v (by simp [hv])
    · exact hv ▸ hu
    · exact h.sub v (by simp [hv])
    · exact (succs_mem g hv.1).2
  · intro l1 v l2 he w hw
    rcases List.append_eq_append_iff.1 he with ⟨a, rfl, h2⟩ | ⟨a, rfl, h2⟩
    · cases a with
      | nil =>
        simp at h2
        obtain ⟨rfl, rfl⟩ := h2
        have hz : d u = 0 := (h.iff u hu).1 (by simp)
        rw [h.deg u hu] at hz
        simpa using (rem_eq_zero g).1 hz w hw
      | cons x xs => simp at h2
    · cases a with
      | nil =>
        simp at h2
        obtain ⟨rfl, rfl⟩ := h2
        have hz : d v = 0 := (h.iff v hu).1 (by simp)
        rw [h.deg v hu] at hz
        simpa using (rem_eq_zero g).1 hz w hw
      | cons x xs =>
        simp at h2
        obtain ⟨rfl, rfl⟩ := h2
        exact h.ord l1 v xs rfl w hw

theorem le_sum_of_mem {l : List Nat} {x : Nat} (h : x ∈ l) : x ≤ l.sum := by
  induction l with
  | nil => simp at h
  | cons y l ih =>
    rcases List.mem_cons.1 h with rfl | h
    · simp
    · have := ih h; simp; omega

theorem nodup_length_le {l vs : List Nat} (h : l.Nodup) (hs : ∀ v ∈ l, v ∈ vs) : l.length ≤ vs.length :=
  (h.subperm (fun v hv => hs v hv)).length_le

theorem kahn_spec {vs es} (g : GoodGraph vs es) : ∀ fuel done pend d, KInv vs es done pend d →
    vs.length ≤ fuel + done.length → ∃ q d', kahn vs es fuel done pend d = some q ∧ KInv vs es q [] d' := by
  intro fuel
  induction fuel with
  | zero =>
    intro done pend d h hl
    cases pend with
    | nil => exact ⟨done, d, by simp [kahn], h⟩
    | cons u pend =>
      have := nodup_length_le h.nodup h.sub
      simp at this; omega
  | succ n ih =>
    intro done pend d h hl
    cases pend with
    | nil => exact ⟨done, d, by simp [kahn], h⟩
    | cons u pend =>
      obtain ⟨d', pend', hr, hi⟩ := h.step g
      simp only [kahn, hr]
      exact ih _ _ _ hi (by simp; omega)

/-- Main theorem on `topo_order`: it never panics on a graph with closed edges, returns distinct vertices, each after all
its predecessors, and returns all the vertices exactly when the graph is acyclic. -/
theorem topoOrder_spec {vs es} (g : GoodGraph vs es) :
    ∃ q, topoOrder vs es = some q ∧ q.Nodup ∧ (∀ v ∈ q, v ∈ vs) ∧ Ordered es q ∧
      (q.length = vs.length ↔ Acyclic es) := by
  have h0 : KInv vs es [] (vs.filter (fun v => inDeg0 es v = 0)) (inDeg0 es) := by
    refine ⟨by simpa using g.vs_nodup.filter _, ?_, ?_, ?_, ?_⟩
    · intro v hv; simp at hv; exact hv.1
    · intro v _; rw [rem_nil]
    · intro v hv; simp [hv]
    · intro l1 v l2 he; simp at he
  obtain ⟨q, d', hq, hi⟩ := kahn_spec g vs.length [] _ _ h0 (by simp)
  have hnd : q.Nodup := by simpa using hi.nodup
  have hsub : ∀ v ∈ q, v ∈ vs := by simpa using hi.sub
  refine ⟨q, hq, hnd, hsub, hi.ord, ?_, ?_⟩
  · intro hlen
    have hall : ∀ v ∈ vs, v ∈ q := by
      have hp := (hnd.subperm (fun v hv => hsub v hv)).perm_of_length_le (by omega)
      intro v hv; exact hp.mem_iff.2 hv
    refine ⟨fun v => vs.length - q.idxOf v, ?_⟩
    intro u v huv
    have hv := hall v (succs_mem g huv).2
    obtain ⟨l1, l2, he⟩ := List.append_of_mem hv
    have hu : u ∈ l1 := hi.ord l1 v l2 he u huv
    have hvn : v ∉ l1 := by
      intro hv1
      rw [he] at hnd
      exact (List.nodup_append.1 hnd).2.2 v hv1 v (by simp) rfl
    have i1 : q.idxOf u < l1.length := by
      rw [he, List.idxOf_append_of_mem hu]; exact List.idxOf_lt_length_of_mem hu
    have i2 : q.idxOf v = l1.length := by
      rw [he, List.idxOf_append_of_notMem hvn]; simp
    have : l1.length < q.length := by rw [he]; simp
    show vs.length - q.idxOf v < vs.length - q.idxOf u
    omega
  · rintro ⟨r, hr⟩
    have key : ∀ n v, v ∈ vs → (∀ w ∈ vs, r w ≤ n) → n - r v < n + 1 → v ∈ q := by
      intro n
      have : ∀ k v, v ∈ vs → n - r v ≤ k → (∀ w ∈ vs, r w ≤ n) → v ∈ q := by
        intro k
        induction k with
        | zero =>
          intro v hv hk hb
          by_contra hc
          have hne : d' v ≠ 0 := fun h => hc (by simpa using (hi.iff v hv).2 h)
          rw [hi.deg v hv] at hne
          apply hne
          rw [rem_eq_zero g]
          intro u hu
          have h1 := hr u v hu
          have h2 := hb u (succs_mem g hu).1
          omega
        | succ k ih =>
          intro v hv hk hb
          by_contra hc
          have hne : d' v ≠ 0 := fun h => hc (by simpa using (hi.iff v hv).2 h)
          rw [hi.deg v hv] at hne
          apply hne
          rw [rem_eq_zero g]
          intro u hu
          have h1 := hr u v hu
          exact ih u (succs_mem g hu).1 (by have := hb u (succs_mem g hu).1; omega) hb
      intro v hv hb _
      exact this (n - r v) v hv (Nat.le_refl _) hb
    have hbound : ∃ n, ∀ w ∈ vs, r w ≤ n := by
      refine ⟨(vs.map r).sum, fun w hw => ?_⟩
      exact le_sum_of_mem (List.mem_map.2 ⟨w, hw, rfl⟩)
    obtain ⟨n, hn⟩ := hbound
    have hall : ∀ v ∈ vs, v ∈ q := fun v hv => key n v hv hn (by omega)
    have h1 := nodup_length_le hnd hsub
    have h2 := nodup_length_le g.vs_nodup hall
    omega

end Verif.Utils
