import Verif.Std.LogUpHonest
import Mathlib.Data.ZMod.Basic
import Mathlib.Algebra.Field.ZMod
/-!
C40: the LogUp lookup argument (circuit-std-rs/src/logup.rs) is complete and sound.

Values are elements of a field; `alpha` and `draws` are the values returned by `get_random_value`.  `counts` (or `queryCount`)
is arbitrary in the soundness statements: it is chosen by the prover.
-/
set_option linter.unusedSectionVars false
namespace Verif.Props
open Verif.Std.LogUp

variable {F : Type} [Field F] [DecidableEq F]

/-- The declared shape of `LogUpCircuit` (`new_circuit`, logup.rs:191-214): keys of `kl` and values of `vl` columns. -/
structure LogUpShape (c : LogUpCircuit F) (kl vl : Nat) : Prop where
  cols : 0 < kl + vl
  rows : c.tableKeys ≠ []
  tableLen : c.tableKeys.length = c.tableValues.length
  queryLen : c.queryKeys.length = c.queryResults.length
  tk : ∀ r ∈ c.tableKeys, r.length = kl
  tv : ∀ r ∈ c.tableValues, r.length = vl
  qk : ∀ r ∈ c.queryKeys, r.length = kl
  qv : ∀ r ∈ c.queryResults, r.length = vl

/-- The (key, value) pairs of the table and of the queries, as rows. -/
def logUpTable (c : LogUpCircuit F) : List (List F) := List.zipWith (· ++ ·) c.tableKeys c.tableValues
def logUpQueries (c : LogUpCircuit F) : List (List F) := List.zipWith (· ++ ·) c.queryKeys c.queryResults

theorem concatD1_eq (a b : List (List F)) : concatD1 a b = List.zipWith (· ++ ·) a b := by
  simp [concatD1, List.zip, List.map_zipWith]

theorem zipWith_len {kl vl : Nat} : ∀ (a b : List (List F)), (∀ r ∈ a, r.length = kl) → (∀ r ∈ b, r.length = vl) → ∀ r ∈ List.zipWith (· ++ ·) a b, r.length = kl + vl := by
  intro a
  induction a with
  | nil => intro b _ _ r h; simp at h
  | cons x a ih =>
    intro b h1 h2 r h
    cases b with
    | nil => simp at h
    | cons y b =>
      simp only [List.zipWith_cons_cons, List.mem_cons] at h
      rcases h with rfl | h
      · simp [h1 x (by simp), h2 y (by simp)]
      · exact ih b (fun r hr => h1 r (by simp [hr])) (fun r hr => h2 r (by simp [hr])) r h

theorem LogUpShape.columns {c : LogUpCircuit F} {kl vl : Nat} (h : LogUpShape c kl vl) : c.columns = some (kl + vl) := by
  have h1 := h.rows; have h2 := h.tableLen
  unfold LogUpCircuit.columns
  cases hk : c.tableKeys with
  | nil => exact absurd hk h1
  | cons k ks =>
    cases hv : c.tableValues with
    | nil => rw [hk, hv] at h2; simp at h2
    | cons v vs => simp only; rw [h.tk k (by simp [hk]), h.tv v (by simp [hv])]

/-- Completeness of `LogUpCircuit`: if for every row the counts given for it add up to the number of queries equal to it
(in particular every query occurs in the table), the circuit accepts for every challenge. -/
theorem C40_circuit_complete {c : LogUpCircuit F} {kl vl : Nat} (h : LogUpShape c kl vl)
    (hc : ∀ row : List F, ((((logUpTable c).zip c.queryCount).filter (·.1 = row)).map (·.2)).sum = (((logUpQueries c).count row : Nat) : F))
    (alpha : F) (draws : List F) (hd : draws.length = kl + vl - 1) : c.define alpha draws = some true := by
  obtain ⟨k, hk⟩ : ∃ k, kl + vl = k + 1 := ⟨kl + vl - 1, by have := h.cols; omega⟩
  simp only [LogUpCircuit.define, h.columns]
  rw [if_pos (show draws.length = drawsOf (kl + vl) from hd), concatD1_eq, concatD1_eq]
  exact tableCheck_complete (k := k) (fun r hr => hk ▸ zipWith_len _ _ h.tk h.tv r hr) (fun r hr => hk ▸ zipWith_len _ _ h.qk h.qv r hr) hc alpha (by omega)

/-- Soundness of `LogUpCircuit`: if some query is not a row of the table, then whatever counts are supplied, at most
`(2 * rows + queries) * |F|^(columns-1)` of the `|F|^columns` challenge vectors are accepted, in fields whose characteristic exceeds the number of queries. -/
theorem C40_circuit_sound [Fintype F] {c : LogUpCircuit F} {kl vl : Nat} (h : LogUpShape c kl vl) {q : List F} (hq : q ∈ logUpQueries c) (ht : q ∉ logUpTable c)
    (hchar : ∀ n : Nat, 0 < n → n ≤ (logUpQueries c).length → ((n : Nat) : F) ≠ 0) :
    (Finset.univ.filter fun p : F × (Fin (kl + vl - 1) → F) => c.define p.1 (List.ofFn p.2) = some true).card
      ≤ (2 * (logUpTable c).length + (logUpQueries c).length) * Fintype.card F ^ (kl + vl - 1) := by
  have hk : kl + vl = (kl + vl - 1) + 1 := by have := h.cols; omega
  have := tableCheck_card (k := kl + vl - 1) (counts := c.queryCount) (fun r hr => (zipWith_len _ _ h.tk h.tv r hr).trans hk)
    (fun r hr => (zipWith_len _ _ h.qk h.qv r hr).trans hk) hq ht hchar
  refine le_trans (le_of_eq ?_) this
  congr 1
  apply Finset.filter_congr
  intro p _
  simp only [LogUpCircuit.define, h.columns, drawsOf, List.length_ofFn, if_true]
  rw [concatD1_eq, concatD1_eq]

/-- One column: the sharp bound `rows + queries - 1` of the English claim, for a table and queries of field elements (`LogUpRangeProofTable::final_check`). -/
theorem C40_range_sound [Fintype F] (t : RangeTable F) (counts : List F) {q : F} (hq : q ∈ t.queryKeys) (ht : q ∉ t.tableKeys)
    (hchar : ∀ n : Nat, 0 < n → n ≤ t.queryKeys.length → ((n : Nat) : F) ≠ 0) :
    (Finset.univ.filter fun alpha : F => t.finalCheck counts alpha = true).card + 1 ≤ t.tableKeys.length + t.queryKeys.length :=
  check_card (vals := t.tableKeys) (counts := counts) (queries := t.queryKeys) hq ht
    (hchar _ (List.count_pos_iff.2 hq) List.count_le_length)

/-- Completeness of the range table with the registered hint. -/
theorem C40_range_complete (cn : Canon F) {m : Nat} {t : RangeTable F} (ht : t.tableKeys = (List.range (2 ^ m)).map (fun i : Nat => (i : F)))
    (hm : 2 ^ m ≤ cn.modulus) (h64 : m ≤ 64) (hq : ∀ x ∈ t.queryKeys, cn.toNat x < 2 ^ m) (alpha : F) :
    t.finalCheckHonest cn alpha = some true := range_honest cn ht hm h64 hq alpha

/-- `LogUpSingleKeyTable`: with the registered hint, a table with distinct keys and queries taken from it is accepted for every challenge. -/
theorem C40_table_complete (cn : Canon F) {k : Nat} {t : SingleKeyTable F} (hr : t.Reach) (hl : t.table.length < cn.modulus) (hl32 : t.table.length < 2 ^ 32)
    (hT : ∀ r ∈ t.table, r.length = k + 1) (hkeys : (t.table.map fun r => cn.toNat (r.headD 0) % 2 ^ 32).Nodup)
    (hq : t.queryResults ≠ []) (hs : ∀ q ∈ t.queryResults, q ∈ t.table) (alpha : F) {draws : List F} (hd : draws.length = k) :
    t.finalCheckHonest cn alpha draws = some true :=
  finalCheck_honest cn hr hl hl32 hT hkeys hq hs alpha hd

/-- `LogUpSingleKeyTable`: soundness for arbitrary answers of the hint. -/
theorem C40_table_sound [Fintype F] {k : Nat} (t : SingleKeyTable F) (counts : List F) (hT : ∀ r ∈ t.table, r.length = k + 1) (hQ : ∀ r ∈ t.queryResults, r.length = k + 1)
    {q : List F} (hq : q ∈ t.queryResults) (ht : q ∉ t.table) (hchar : ∀ n : Nat, 0 < n → n ≤ t.queryResults.length → ((n : Nat) : F) ≠ 0) :
    (Finset.univ.filter fun p : F × (Fin k → F) => t.finalCheck counts p.1 (List.ofFn p.2) = some true).card
      ≤ (2 * t.table.length + t.queryResults.length) * Fintype.card F ^ k := by
  refine le_trans (Finset.card_le_card ?_) (tableCheck_card (k := k) (counts := counts) hT hQ hq ht hchar)
  intro p hp
  simp only [Finset.mem_filter, Finset.mem_univ, true_and] at hp ⊢
  unfold SingleKeyTable.finalCheck at hp
  split at hp
  · simp at hp
  · split at hp
    · simp at hp
    · split at hp
      · exact hp
      · simp at hp

instance c40_prime3 : Fact (Nat.Prime 3) := ⟨by decide⟩
instance c40_prime7 : Fact (Nat.Prime 7) := ⟨by decide⟩

/-- The hypothesis on the characteristic cannot be dropped: in the field with three elements three queries of an absent row are accepted for every challenge. -/
theorem C40_smallChar_violated : ∃ (t : RangeTable (ZMod 3)) (counts : List (ZMod 3)) (q : ZMod 3), q ∈ t.queryKeys ∧ q ∉ t.tableKeys ∧
    ∀ alpha : ZMod 3, t.finalCheck counts alpha = true :=
  ⟨⟨[0], [2, 2, 2], 1⟩, [0], 2, by decide, by decide, by decide⟩

/-- A circuit with two rows of one key and one value and three queries over the field with seven elements. -/
def c40Ex : LogUpCircuit (ZMod 7) := ⟨[[1], [2]], [[5], [6]], [[2], [1], [2]], [[6], [5], [6]], [1, 2]⟩
def c40Bad : LogUpCircuit (ZMod 7) := { c40Ex with queryResults := [[6], [4], [6]] }

theorem c40Ex_shape : LogUpShape c40Ex 1 1 := by constructor <;> decide
theorem c40Bad_shape : LogUpShape c40Bad 1 1 := by constructor <;> decide

example : c40Ex.define 3 [2] = some true := C40_circuit_complete c40Ex_shape (by
  intro row
  by_cases h1 : row = [1, 5]
  · subst h1; decide
  · by_cases h2 : row = [2, 6]
    · subst h2; decide
    · have n1 : ¬ ([1, 5] : List (ZMod 7)) = row := fun e => h1 e.symm
      have n2 : ¬ ([2, 6] : List (ZMod 7)) = row := fun e => h2 e.symm
      have e1 : logUpTable c40Ex = [[1, 5], [2, 6]] := rfl
      have e2 : logUpQueries c40Ex = [[2, 6], [1, 5], [2, 6]] := rfl
      rw [e1, e2]
      simp [c40Ex, n1, n2, List.count_cons]) 3 [2] rfl

example : (logUpQueries c40Bad).length = 3 ∧ (logUpTable c40Bad).length = 2 ∧ ([1, 4] : List (ZMod 7)) ∈ logUpQueries c40Bad ∧ [1, 4] ∉ logUpTable c40Bad
    ∧ ∀ n : Nat, 0 < n → n ≤ (logUpQueries c40Bad).length → ((n : Nat) : ZMod 7) ≠ 0 := by
  refine ⟨rfl, rfl, by decide, by decide, ?_⟩
  intro n h1 h2
  have : (logUpQueries c40Bad).length = 3 := rfl
  have : n = 1 ∨ n = 2 ∨ n = 3 := by omega
  rcases this with rfl | rfl | rfl <;> decide

end Verif.Props
