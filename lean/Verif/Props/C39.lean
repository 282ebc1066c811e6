import Verif.Utils.UnionFind
import Verif.Utils.Pow2
import Verif.Utils.Heap
import Verif.Utils.Bucket
import Verif.Utils.Pool
import Verif.Utils.StaticHash
import Verif.Utils.Topo
import Mathlib.Logic.Relation
import Mathlib.Data.List.Perm.Basic

/-!
# C39 — Utility data structures meet their contracts

English: union-find represents the equivalence closure of the unions; heap pop returns a minimum and preserves contents; bucket sort is a stable
sort; pool ids are stable and injective; topological order lists callers before callees exactly for DAGs; power-of-two helpers return the tight
bounds; the static hash map returns the index of each key.
-/

namespace Verif.Props

/-! ## Union-find -/

/-- A sequence of unions on a fresh structure of size `n`. -/
def runUnions (p : List Nat) : List (Nat × Nat) → Option (List Nat)
  | [] => some p
  | (x, y) :: ops => match UnionFind.union p x y with | none => none | some p => runUnions p ops

theorem join_iff (r : Nat → Nat) (a b x y : Nat) : UnionFind.join r a b x = UnionFind.join r a b y ↔
    r x = r y ∨ (r x = r a ∧ r y = r b) ∨ (r x = r b ∧ r y = r a) := by
  unfold UnionFind.join
  constructor
  · intro h
    split at h <;> split at h <;> simp_all
  · rintro (h | ⟨h1, h2⟩ | ⟨h1, h2⟩)
    · rw [h]
    · rw [if_pos h1]; split <;> simp_all
    · rw [if_pos h2]; split <;> simp_all

theorem runUnions_spec {n : Nat} : ∀ (ops : List (Nat × Nat)) (done : List (Nat × Nat)) (p : List Nat) (r rank : Nat → Nat), (∀ o ∈ ops, o.1 < n ∧ o.2 < n) →
    UnionFind.Forest p n r rank → (∀ z, n ≤ z → r z = z) → (∀ z, z < n → r z < n) → (∀ x y, r x = r y ↔ Relation.EqvGen (fun a b => (a, b) ∈ done) x y) →
    ∃ p' r' rank', runUnions p ops = some p' ∧ UnionFind.Forest p' n r' rank' ∧ ∀ x y, r' x = r' y ↔ Relation.EqvGen (fun a b => (a, b) ∈ done ++ ops) x y := by
  intro ops
  induction ops with
  | nil => intro done p r rank _ hf _ _ h; exact ⟨p, r, rank, rfl, hf, by simpa using h⟩
  | cons o ops ih =>
    intro done p r rank hops hf hout hin h
    obtain ⟨a, b⟩ := o
    obtain ⟨ha, hb⟩ := hops (a, b) (by simp)
    simp only at ha hb
    obtain ⟨p1, rank1, h1, h2⟩ := UnionFind.union_spec hf ha hb
    simp only [runUnions, h1]
    have hout' : ∀ z, n ≤ z → UnionFind.join r a b z = z := by
      intro z hz
      have := hin a ha
      unfold UnionFind.join
      rw [hout z hz, if_neg (by omega)]
    have hin' : ∀ z, z < n → UnionFind.join r a b z < n := by
      intro z hz
      unfold UnionFind.join
      split
      · exact hin b hb
      · exact hin z hz
    obtain ⟨p', r', rank', g1, g2, g3⟩ := ih (done ++ [(a, b)]) p1 _ rank1 (fun o ho => hops o (by simp [ho])) h2 hout' hin' (by
      intro x y
      rw [join_iff]
      constructor
      · have sub : ∀ x y, Relation.EqvGen (fun a b => (a, b) ∈ done) x y → Relation.EqvGen (fun c d => (c, d) ∈ done ++ [(a, b)]) x y := by
          intro x y hxy
          induction hxy with
          | rel x y h => exact .rel _ _ (by simp [h])
          | refl x => exact .refl _
          | symm x y _ ih => exact .symm _ _ ih
          | trans x y z _ _ i1 i2 => exact .trans _ _ _ i1 i2
        have step : Relation.EqvGen (fun c d => (c, d) ∈ done ++ [(a, b)]) a b := Relation.EqvGen.rel _ _ (by simp)
        rintro (hh | ⟨h3, h4⟩ | ⟨h3, h4⟩)
        · exact sub _ _ ((h x y).1 hh)
        · exact ((sub _ _ ((h x a).1 h3)).trans _ _ _ step).trans _ _ _ (sub _ _ ((h b y).1 h4.symm))
        · exact ((sub _ _ ((h x b).1 h3)).trans _ _ _ (step.symm _ _)).trans _ _ _ (sub _ _ ((h a y).1 h4.symm))
      · intro hxy
        have hd : ∀ x y, (x, y) ∈ done → r x = r y := fun x y hr => (h x y).2 (Relation.EqvGen.rel _ _ hr)
        clear h ih h1 h2 hf
        induction hxy with
        | rel x y hr =>
          simp only [List.mem_append, List.mem_singleton, Prod.mk.injEq] at hr
          rcases hr with hr | ⟨rfl, rfl⟩
          · left; exact hd _ _ hr
          · right; left; exact ⟨rfl, rfl⟩
        | refl x => left; rfl
        | symm x y _ ih => omega
        | trans x y z _ _ ih1 ih2 => omega)
    refine ⟨p', r', rank', g1, g2, ?_⟩
    intro x y
    rw [g3 x y, List.append_assoc]
    rfl

/-- After any sequence of unions, two elements have the same representative exactly when the unions connect them; `find` always returns. -/
theorem C39_unionFind (n : Nat) (ops : List (Nat × Nat)) (hops : ∀ o ∈ ops, o.1 < n ∧ o.2 < n) : ∃ p, runUnions (UnionFind.new n) ops = some p ∧
    ∀ x y, x < n → y < n → ∃ rx ry px py, UnionFind.find p x = some (rx, px) ∧ UnionFind.find p y = some (ry, py) ∧
      (rx = ry ↔ Relation.EqvGen (fun a b => (a, b) ∈ ops) x y) := by
  obtain ⟨p, r, rank, h1, h2, h3⟩ := runUnions_spec ops [] _ id id hops (UnionFind.new_forest n) (fun _ _ => rfl) (fun _ h => h) (by
    intro x y
    constructor
    · intro h; simp only [id] at h; subst h; exact Relation.EqvGen.refl _
    · intro h
      induction h with
      | rel x y h => simp at h
      | refl => rfl
      | symm _ _ _ ih => exact ih.symm
      | trans _ _ _ _ _ i1 i2 => exact i1.trans i2)
  refine ⟨p, h1, ?_⟩
  intro x y hx hy
  obtain ⟨px, f1, _⟩ := UnionFind.find_spec h2 hx
  obtain ⟨py, f2, _⟩ := UnionFind.find_spec h2 hy
  exact ⟨_, _, px, py, f1, f2, by simpa using h3 x y⟩

example : (runUnions (UnionFind.new 5) [(0, 1), (3, 4), (1, 3)]).map (fun p => (UnionFind.find p 0).map Prod.fst) = some (some 4) := by decide

/-! ## Heap -/

/-- Operations on a heap. -/
inductive HeapOp
  | push (x : Nat)
  | pop

/-- Contents reached from the empty heap: the vector after the operations. -/
def runHeap (lt : Nat → Nat → Bool) : List HeapOp → List Nat → List Nat
  | [], s => s
  | .push x :: ops, s => runHeap lt ops (Heap.push lt s x)
  | .pop :: ops, s => runHeap lt ops (match Heap.pop lt s with | none => s | some (_, t) => t)

/-- After any history of operations, for any comparator that is a strict weak order: `pop` on a non-empty heap returns an element such that no
element is smaller, and leaves exactly the others; `push` adds exactly its argument. -/
theorem C39_heap (lt : Nat → Nat → Bool) (hw : Heap.Weak lt) (ops : List HeapOp) (x : Nat) :
    (Heap.push lt (runHeap lt ops []) x).Perm (x :: runHeap lt ops []) ∧
    (Heap.pop lt (runHeap lt ops []) = none ↔ runHeap lt ops [] = []) ∧
    ∀ y t, Heap.pop lt (runHeap lt ops []) = some (y, t) → (runHeap lt ops []).Perm (y :: t) ∧ ∀ z ∈ runHeap lt ops [], lt z y = false := by
  have hinv : ∀ (ops : List HeapOp) (s : List Nat), Heap.IsHeap lt s → Heap.IsHeap lt (runHeap lt ops s) := by
    intro ops
    induction ops with
    | nil => intro s h; exact h
    | cons o ops ih =>
      intro s h
      cases o with
      | push x => exact ih _ (Heap.push_spec hw h x).1
      | pop =>
        simp only [runHeap]
        apply ih
        rcases Heap.pop_spec hw h with ⟨_, hp⟩ | ⟨y, t, hp, _, ht, _⟩
        · rw [hp]; exact h
        · rw [hp]; exact ht
  have hh := hinv ops [] (by intro i _ hi; simp at hi)
  generalize runHeap lt ops [] = s at *
  refine ⟨(Heap.push_spec hw hh x).2, ?_, ?_⟩
  · rcases Heap.pop_spec hw hh with ⟨h1, hp⟩ | ⟨y, t, hp, h1, _, _⟩
    · exact ⟨fun _ => h1, fun _ => hp⟩
    · rw [hp]
      constructor
      · intro h; cases h
      · intro h; rw [h] at h1; have := h1.length_eq; simp at this
  · intro y t h
    rcases Heap.pop_spec hw hh with ⟨h1, hp⟩ | ⟨y', t', hp, h1, _, h2⟩
    · rw [hp] at h; cases h
    · rw [hp] at h; cases h; exact ⟨h1, h2⟩

example : Heap.Weak (fun a b => decide (a < b)) := ⟨by intro a b h; simp at *; omega, by intro a b c h1 h2; simp at *; omega⟩

/-! ## Bucket sort -/

/-- `bucket_sort` on keys below `num_buckets` returns the input rearranged by a bijection of positions such that for `i < j` element `i` comes
before element `j` exactly when its key is not larger (sorted and stable), and `cnt[p]` is the number of elements with a key below `p`. -/
theorem C39_bucketSort {α : Type} (f : α → Nat) (m : Nat) (arr : List α) (hk : ∀ a ∈ arr, f a < m) :
    ∃ res cnt, Bucket.bucketSort f m arr = some (res, cnt) ∧ res.length = arr.length ∧
      (∃ pos : Fin arr.length → Fin arr.length, Function.Bijective pos ∧ (∀ j, res[(pos j).val]? = some (some arr[j])) ∧
        ∀ i j, i < j → (pos i < pos j ↔ f arr[i] ≤ f arr[j])) ∧
      ∀ p, p < m → cnt[p]? = some (arr.countP fun a => decide (f a < p)) := by
  obtain ⟨res, cnt, h1, h2, h3, h4, h5⟩ := Bucket.bucketSort_spec f m arr hk
  have hget : ∀ j : Fin arr.length, arr[j.val]? = some arr[j] := fun j => List.getElem?_eq_getElem j.2
  refine ⟨res, cnt, h1, h2, ⟨fun j => ⟨Bucket.pos f arr j arr[j], Bucket.pos_lt f arr (hget j)⟩, ?_, ?_, ?_⟩, ?_⟩
  · rw [← Finite.injective_iff_bijective]
    intro i j hij
    simp only [Fin.mk.injEq] at hij
    rcases lt_trichotomy i j with h | h | h
    · exact absurd hij (Bucket.pos_order f arr (hget i) (hget j) h).2
    · exact h
    · exact absurd hij.symm (Bucket.pos_order f arr (hget j) (hget i) h).2
  · intro j; exact h5 j _ (hget j)
  · intro i j hij
    exact (Bucket.pos_order f arr (hget i) (hget j) hij).1
  · intro p hp
    have := h4 p hp
    have hl : p < cnt.length := by omega
    simp only [List.getD, List.getElem?_eq_getElem hl, Option.getD_some] at this
    rw [List.getElem?_eq_getElem hl, this]
    rfl

example : Bucket.bucketSort (fun p : Nat × Nat => p.1) 3 [(2, 0), (0, 1), (2, 2), (1, 3), (0, 4)] =
    some ([some (0, 1), some (0, 4), some (1, 3), some (2, 0), some (2, 2)], [0, 2, 3]) := by decide

/-! ## Pool -/

/-- After adding any sequence of values: the id returned for each added value still denotes it at the end, `get_idx` gives back that id, and two
additions return the same id exactly when the values are equal. -/
theorem C39_pool {α : Type} [DecidableEq α] (vs : List α) : (Utils.Pool.new.addAll vs).2.length = vs.length ∧
    (∀ (k : Nat) v i, vs[k]? = some v → (Utils.Pool.new.addAll vs).2[k]? = some i →
      (Utils.Pool.new.addAll vs).1.get i = some v ∧ (Utils.Pool.new.addAll vs).1.tryGetIdx v = some i) ∧
    ∀ (k l : Nat) v w i j, vs[k]? = some v → vs[l]? = some w → (Utils.Pool.new.addAll vs).2[k]? = some i → (Utils.Pool.new.addAll vs).2[l]? = some j →
      (i = j ↔ v = w) := by
  obtain ⟨_, h2, _, h4⟩ := Utils.Pool.addAll_spec vs (Utils.Pool.new_ok (α := α))
  refine ⟨h2, h4, ?_⟩
  intro k l v w i j hk hl hi hj
  obtain ⟨a1, a2⟩ := h4 k v i hk hi
  obtain ⟨b1, b2⟩ := h4 l w j hl hj
  constructor
  · rintro rfl; rw [a1] at b1; exact Option.some.inj b1
  · rintro rfl; rw [a2] at b2; exact Option.some.inj b2

example : (Utils.Pool.new.addAll ["x", "y", "x"]).2 = [0, 1, 0] := by decide

/-! ## Topological order -/

/-- `topo_order_and_is_dag` on a graph whose edges join vertices: no panic; distinct vertices, each after all its predecessors; the flag tells
exactly whether the graph has no cycle, and then every vertex is listed. -/
theorem C39_topo (vs : List Nat) (es : Utils.Edges) (g : Utils.GoodGraph vs es) : ∃ q b, Utils.topoOrderAndIsDag vs es = some (q, b) ∧ q.Nodup ∧
    (∀ v ∈ q, v ∈ vs) ∧ (∀ l1 v l2, q = l1 ++ v :: l2 → ∀ u, v ∈ Utils.succs es u → u ∈ l1) ∧
    (b = true ↔ ∃ r : Nat → Nat, ∀ u v, v ∈ Utils.succs es u → r v < r u) ∧ (b = true → q.Perm vs) := by
  obtain ⟨q, h1, h2, h3, h4, h5⟩ := Utils.topoOrder_spec g
  refine ⟨q, q.length == vs.length, by simp [Utils.topoOrderAndIsDag, h1], h2, h3, h4, by simpa [Utils.Acyclic] using h5, ?_⟩
  intro hb
  exact (h2.subperm h3).perm_of_length_le (by simp at hb; omega)

example : Utils.topoOrderAndIsDag [1, 2, 3] [(1, [2, 3]), (3, [2])] = some ([1, 3, 2], true) := by decide

/-! ## Powers of two -/

/-- `next_power_of_two(x)` is the least power of two `≥ x`; `prev_power_of_two(x)` the largest `≤ x` (0 for 0). -/
theorem C39_pow2 (x : Nat) : ((∃ k, Pow2.next x = 2 ^ k) ∧ x ≤ Pow2.next x ∧ ∀ j, x ≤ 2 ^ j → Pow2.next x ≤ 2 ^ j) ∧
    (x ≠ 0 → (∃ k, Pow2.prev x = 2 ^ k) ∧ Pow2.prev x ≤ x ∧ ∀ j, 2 ^ j ≤ x → 2 ^ j ≤ Pow2.prev x) ∧ Pow2.prev 0 = 0 :=
  ⟨Pow2.next_spec x, Pow2.prev_spec x, rfl⟩

example : Pow2.next 5 = 8 ∧ Pow2.prev 5 = 4 ∧ Pow2.next 8 = 8 := by decide

/-! ## Static hash map -/

/-- Whenever construction returns, `get` gives the index of every key, for every outcome of the random choices. -/
theorem C39_staticHash_partial (s : List Nat) (rng : List (Nat × Nat)) (h : StaticHash.Map) (hn : StaticHash.new s rng = some h) (k x : Nat)
    (hk : s[k]? = some x) : h.get x = some k := StaticHash.new_spec hn k x hk

example : ((StaticHash.new [5, 6, 7] [(1, 0), (0, 1)]).map fun h => (h.get 5, h.get 6, h.get 7)) = some (some 0, some 1, some 2) := by decide

/-- Construction does not return, whatever the random choices, for two distinct keys congruent modulo 1 000 000 007. -/
theorem C39_staticHash_violated (rng : List (Nat × Nat)) : StaticHash.new [1, 1000000008] rng = none :=
  StaticHash.new_diverges (k := 0) (l := 1) rfl rfl (by decide) (by decide) rng

end Verif.Props
