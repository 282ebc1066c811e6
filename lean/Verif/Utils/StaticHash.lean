import Verif.Base
import Mathlib.Data.List.Basic
import Mathlib.Algebra.Order.Ring.Nat

/-!
# `StaticHashMap` (utils/static_hash_map.rs:1-55)

The random parameters `(a, b)` are an arbitrary stream.  64-bit products do not overflow because all factors are below `MOD < 2^30`.
-/

set_option linter.unusedSectionVars false
set_option linter.unusedSimpArgs false

namespace Verif.StaticHash

/-- `MOD` (static_hash_map.rs:10). -/
def MOD : Nat := 1000000007

/-- The position (static_hash_map.rs:32-33, 52-53); `& (m - 1)` is the same as `% m` for the powers of two used. -/
def hpos (m a b x : Nat) : Nat := (((x % MOD) * a + b) % MOD * (x % MOD) % MOD) % m

/-- One attempt (static_hash_map.rs:28-39): the table with entries shifted by one, or `none` on a collision. -/
def attempt (m a b : Nat) : List Nat → Nat → List Nat → Option (List Nat)
  | [], _, v => some v
  | x :: s, i, v => if v.getD (hpos m a b x) 0 ≠ 0 then none else attempt m a b s (i + 1) (v.set (hpos m a b x) (i + 1))

/-- `StaticHashMap` (static_hash_map.rs:3-8). -/
structure Map where
  m : Nat
  a : Nat
  b : Nat
  v : List Nat

/-- The search (static_hash_map.rs:23-48) with the given supply of parameters; `r` is the number of tries left before `m` doubles;
`none` when the supply is used up. -/
def search (s : List Nat) : List (Nat × Nat) → Nat → Nat → Option Map
  | [], _, _ => none
  | (a, b) :: rng, m, r =>
    match attempt m a b s 0 (List.replicate m 0) with
    | some v => some ⟨m, a, b, v.map (· - 1)⟩
    | none => if r = 0 then search s rng (if m < MOD / 250 then m * 2 else m) 9 else search s rng m (r - 1)

/-- `m` starts as the least power of two not below `2 * len` (static_hash_map.rs:18-21). -/
def startM (n : Nat) : Nat → Nat → Nat
  | 0, m => m
  | f + 1, m => if m < n * 2 then startM n f (m * 2) else m

/-- `new` (static_hash_map.rs:13-49). -/
def new (s : List Nat) (rng : List (Nat × Nat)) : Option Map :=
  if s.length > MOD / 1000 then none else search s rng (startM s.length (s.length * 2) 1) 9

/-- `get` (static_hash_map.rs:51-55). -/
def Map.get (h : Map) (x : Nat) : Option Nat := h.v[hpos h.m h.a h.b x]?

theorem attempt_spec {m a b : Nat} (hm : 0 < m) : ∀ (s : List Nat) (i : Nat) (v r : List Nat), v.length = m → attempt m a b s i v = some r →
    r.length = m ∧ (∀ p : Nat, ∀ y, v[p]? = some y → y ≠ 0 → r[p]? = some y) ∧ ∀ (k x : Nat), s[k]? = some x → r[hpos m a b x]? = some (i + k + 1) := by
  intro s
  induction s with
  | nil => intro i v r hv h; simp only [attempt] at h; cases h; exact ⟨hv, fun _ _ h _ => h, by simp⟩
  | cons x s ih =>
    intro i v r hv h
    simp only [attempt] at h
    split at h
    · cases h
    · rename_i hz
      simp only [ne_eq, not_not] at hz
      have hp : hpos m a b x < v.length := by rw [hv]; exact Nat.mod_lt _ hm
      obtain ⟨h1, h2, h3⟩ := ih (i + 1) _ r (by simpa using hv) h
      refine ⟨h1, ?_, ?_⟩
      · intro p y hy hne
        apply h2 p y _ hne
        rw [List.getElem?_set]
        by_cases e : hpos m a b x = p
        · exfalso
          apply hne
          subst e
          simpa [List.getD, hy] using hz
        · rw [if_neg e]; exact hy
      · intro k y hk
        cases k with
        | zero =>
          simp at hk; subst hk
          exact h2 _ _ (by rw [List.getElem?_set]; simp [hp]) (by omega)
        | succ k =>
          have := h3 k y (by simpa using hk)
          rw [this]; congr 1; omega

theorem search_spec (s : List Nat) : ∀ (rng : List (Nat × Nat)) (m r : Nat) (h : Map), 0 < m → search s rng m r = some h →
    ∀ (k x : Nat), s[k]? = some x → h.get x = some k := by
  intro rng
  induction rng with
  | nil => intro m r h _ hs; simp [search] at hs
  | cons ab rng ih =>
    obtain ⟨a, b⟩ := ab
    intro m r h hm hs k x hk
    simp only [search] at hs
    split at hs
    · rename_i v hv
      cases hs
      obtain ⟨h1, _, h3⟩ := attempt_spec hm s 0 _ v (by simp) hv
      have := h3 k x hk
      simp only [Map.get, List.getElem?_map, this, Option.map_some]
      congr 1; omega
    · split at hs
      · exact ih _ _ h (by split <;> omega) hs k x hk
      · exact ih _ _ h hm hs k x hk

theorem startM_pos (n : Nat) : ∀ (f m : Nat), 0 < m → 0 < startM n f m := by
  intro f
  induction f with
  | zero => intro m h; exact h
  | succ f ih => intro m h; simp only [startM]; split <;> [exact ih _ (by omega); exact h]

/-- If `new` returns, `get` gives the index of every key (whatever the random parameters were). -/
theorem new_spec {s : List Nat} {rng : List (Nat × Nat)} {h : Map} (hn : new s rng = some h) : ∀ (k x : Nat), s[k]? = some x → h.get x = some k := by
  unfold new at hn
  split at hn
  · cases hn
  · exact search_spec s rng _ _ h (startM_pos _ _ _ (by omega)) hn

/-- Keys that agree modulo `MOD` collide for every choice of parameters. -/
theorem attempt_collides {m a b : Nat} (hm : 0 < m) {s : List Nat} {k l x y : Nat} (hk : s[k]? = some x) (hl : s[l]? = some y) (hkl : k ≠ l)
    (he : x % MOD = y % MOD) : attempt m a b s 0 (List.replicate m 0) = none := by
  cases h : attempt m a b s 0 (List.replicate m 0) with
  | none => rfl
  | some r =>
    obtain ⟨_, _, h3⟩ := attempt_spec hm s 0 _ r (by simp) h
    have h1 := h3 k x hk
    have h2 := h3 l y hl
    have : hpos m a b x = hpos m a b y := by simp [hpos, he]
    rw [this, h2] at h1
    simp only [Option.some.injEq] at h1
    omega

/-- … so `new` never returns on such keys. -/
theorem new_diverges {s : List Nat} {k l x y : Nat} (hk : s[k]? = some x) (hl : s[l]? = some y) (hkl : k ≠ l) (he : x % MOD = y % MOD)
    (rng : List (Nat × Nat)) : new s rng = none := by
  unfold new
  split
  · rfl
  · have hm := startM_pos s.length (s.length * 2) 1 (by omega)
    revert hm
    generalize startM s.length (s.length * 2) 1 = m
    generalize (9 : Nat) = r
    intro hm
    induction rng generalizing m r with
    | nil => rfl
    | cons ab rng ih =>
      obtain ⟨a, b⟩ := ab
      simp only [search, attempt_collides hm hk hl hkl he]
      split
      · exact ih _ _ (by split <;> omega)
      · exact ih _ _ hm

end Verif.StaticHash
