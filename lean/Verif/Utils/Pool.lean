import Verif.Base
import Mathlib.Data.List.Basic

/-!
# `Pool` (utils/pool.rs:1-57)
-/

set_option linter.unusedSectionVars false
set_option linter.unusedSimpArgs false

namespace Verif.Utils

variable {α : Type} [DecidableEq α]

/-- `Pool` (pool.rs:3-7): the vector and the map from values to indices (latest entry first). -/
structure Pool (α : Type) where
  vec : List α
  map : List (α × Nat)

/-- `Pool::new` (pool.rs:13-18). -/
def Pool.new : Pool α := ⟨[], []⟩

/-- `add` (pool.rs:20-28). -/
def Pool.add (p : Pool α) (v : α) : Pool α × Nat :=
  match p.map.lookup v with
  | some i => (p, i)
  | none => (⟨p.vec ++ [v], (v, p.vec.length) :: p.map⟩, p.vec.length)

/-- `try_get_idx` (pool.rs:34-36); `get_idx` (pool.rs:30-32) panics on `none`. -/
def Pool.tryGetIdx (p : Pool α) (v : α) : Option Nat := p.map.lookup v

/-- `get` (pool.rs:38-40); `none` is a panic. -/
def Pool.get (p : Pool α) (i : Nat) : Option α := p.vec[i]?

/-- Adding a sequence of values; the ids in order. -/
def Pool.addAll (p : Pool α) : List α → Pool α × List Nat
  | [] => (p, [])
  | v :: vs => let q := p.add v; let r := Pool.addAll q.1 vs; (r.1, q.2 :: r.2)

/-- The map is the inverse of the vector. -/
def Pool.Ok (p : Pool α) : Prop := ∀ v i, p.map.lookup v = some i ↔ p.vec[i]? = some v

theorem Pool.new_ok : (Pool.new : Pool α).Ok := by intro v i; simp [Pool.new]

theorem Pool.add_spec {p : Pool α} (h : p.Ok) (v : α) : (p.add v).1.Ok ∧ (p.add v).1.get (p.add v).2 = some v ∧ (p.add v).1.tryGetIdx v = some (p.add v).2 ∧
    (∀ i w, p.get i = some w → (p.add v).1.get i = some w) ∧ (∀ w, w ≠ v → (p.add v).1.tryGetIdx w = p.tryGetIdx w) ∧
    (∀ i, p.tryGetIdx v = some i → (p.add v).1 = p ∧ (p.add v).2 = i) := by
  unfold Pool.add
  split
  · rename_i i hi
    refine ⟨h, (h v i).1 hi, hi, fun _ _ h => h, fun _ _ => rfl, ?_⟩
    intro j hj
    have : p.map.lookup v = some j := hj
    rw [hi] at this
    exact ⟨rfl, Option.some.inj this⟩
  · rename_i hn
    have hnv : ∀ i : Nat, p.vec[i]? ≠ some v := by
      intro i hi
      have := (h v i).2 hi
      rw [hn] at this; cases this
    refine ⟨?_, by simp [Pool.get], by simp [Pool.tryGetIdx, List.lookup], ?_, ?_, ?_⟩
    · intro w i
      simp only [List.lookup]
      by_cases e : w = v
      · subst e
        simp only [beq_self_eq_true]
        rw [List.getElem?_append]
        constructor
        · intro hi; cases hi; simp
        · intro hi
          split at hi
          · exact absurd hi (hnv i)
          · rename_i hlt
            have := (List.getElem?_eq_some_iff.1 hi).1
            simp only [List.length_cons, List.length_nil] at this
            congr 1; omega
      · rw [show (w == v) = false by simpa using e]
        simp only
        rw [h w i, List.getElem?_append]
        split
        · rfl
        · rename_i hlt
          constructor
          · intro hi; exact absurd (List.getElem?_eq_some_iff.1 hi).1 hlt
          · intro hi
            have hl := (List.getElem?_eq_some_iff.1 hi).1
            simp only [List.length_cons, List.length_nil] at hl
            have : i - p.vec.length = 0 := by omega
            rw [this] at hi
            simp at hi
            exact absurd hi.symm e
    · intro i w hi
      have hl : i < p.vec.length := (List.getElem?_eq_some_iff.1 hi).1
      simp only [Pool.get] at hi ⊢
      rw [List.getElem?_append_left hl]; exact hi
    · intro w hw
      simp only [Pool.tryGetIdx, List.lookup]
      rw [show (w == v) = false by simpa using hw]
    · intro i hi
      have : p.map.lookup v = some i := hi
      rw [hn] at this; cases this

theorem Pool.addAll_spec : ∀ (vs : List α) {p : Pool α}, p.Ok → (p.addAll vs).1.Ok ∧ (p.addAll vs).2.length = vs.length ∧
    (∀ i w, p.get i = some w → (p.addAll vs).1.get i = some w) ∧
    ∀ (k : Nat) v i, vs[k]? = some v → (p.addAll vs).2[k]? = some i → (p.addAll vs).1.get i = some v ∧ (p.addAll vs).1.tryGetIdx v = some i := by
  intro vs
  induction vs with
  | nil => intro p h; exact ⟨h, rfl, fun _ _ h => h, by simp⟩
  | cons v vs ih =>
    intro p h
    obtain ⟨h1, h2, _, h4, _⟩ := Pool.add_spec h v
    obtain ⟨g1, g2, g3, g4⟩ := ih h1
    simp only [Pool.addAll]
    refine ⟨g1, by simp [g2], fun i w hi => g3 i w (h4 i w hi), ?_⟩
    intro k w i hk hi
    cases k with
    | zero =>
      simp at hk hi
      subst hk; subst hi
      have := g3 _ _ h2
      exact ⟨this, (g1 _ _).2 this⟩
    | succ k => exact g4 k w i (by simpa using hk) (by simpa using hi)

end Verif.Utils
