import Verif.Std.RangeProof
/-!
The registered hints of the LogUp gadgets answer with the right multiplicities.
-/
set_option linter.unusedSectionVars false
set_option linter.unusedSimpArgs false
namespace Verif.Std.LogUp

variable {F : Type} [Field F] [DecidableEq F]

theorem counts_map {ι : Type} [DecidableEq ι] (f : ι → F) (a : ι) : ∀ l : List ι,
    (((l.zip (l.map f)).filter (·.1 = a)).map (·.2)).sum = (l.count a : F) * f a := by
  intro l
  induction l with
  | nil => simp
  | cons b l ih =>
    rw [List.map_cons, List.zip_cons_cons, List.filter_cons, List.count_cons]
    by_cases hb : b = a
    · simp [hb, ih]; ring
    · simp [hb, ih]

theorem count_map_inj {ι κ : Type} [DecidableEq ι] [DecidableEq κ] (g : ι → κ) (a : ι) : ∀ l : List ι, (∀ q ∈ l, g q = g a → q = a) → (l.map g).count (g a) = l.count a := by
  intro l
  induction l with
  | nil => intro _; rfl
  | cons b l ih =>
    intro h
    rw [List.map_cons, List.count_cons, List.count_cons, ih (fun q hq => h q (by simp [hq]))]
    by_cases hb : b = a
    · simp [hb]
    · have : g b ≠ g a := fun e => hb (h b (by simp) e)
      simp [hb, this]

/-- Counts computed by a map that agrees with the multiplicities on the table are right. -/
theorem counts_right {ι : Type} [DecidableEq ι] {table query : List ι} (hn : table.Nodup) (hs : ∀ q ∈ query, q ∈ table) (f : ι → F)
    (hf : ∀ a ∈ table, f a = ((query.count a : Nat) : F)) (a : ι) :
    (((table.zip (table.map f)).filter (·.1 = a)).map (·.2)).sum = ((query.count a : Nat) : F) := by
  rw [counts_map]
  by_cases ha : a ∈ table
  · rw [hf a ha, List.count_eq_one_of_mem hn ha]; simp
  · rw [List.count_eq_zero_of_not_mem ha, List.count_eq_zero_of_not_mem (fun h => ha (hs a h))]; simp

theorem check_complete {ι : Type} [DecidableEq ι] {table query : List ι} {counts : List F} (comb : ι → F)
    (h : ∀ a : ι, (((table.zip counts).filter (·.1 = a)).map (·.2)).sum = ((query.count a : Nat) : F)) (α : F) :
    check (table.map comb) counts (query.map comb) α = true := by
  rw [check_iff, checkPoly_zero (combine_counts comb h)]; simp

theorem combineColumns_eq {k : Nat} {rows : List (List F)} (h : ∀ r ∈ rows, r.length = k + 1) {draws : List F} (hd : draws.length = k) :
    combineColumns rows (columnRandomness draws) = some (rows.map fun row => combineRow row (columnRandomness draws)) := by
  cases rows with
  | nil => rfl
  | cons x l => simp only [combineColumns, columnRandomness, List.length_cons, hd, h x (by simp), if_true]

theorem count_beq {row : List F} {query : List (List F)} : @List.count (List F) List.instBEq row query = @List.count (List F) instBEqOfDecidableEq row query := by
  congr 1
  exact lawful_beq_subsingleton _ _

theorem tableCheck_complete {k : Nat} {table query : List (List F)} {counts : List F} (hT : ∀ r ∈ table, r.length = k + 1) (hQ : ∀ r ∈ query, r.length = k + 1)
    (h : ∀ row : List F, (((table.zip counts).filter (·.1 = row)).map (·.2)).sum = ((query.count row : Nat) : F)) (α : F) {draws : List F} (hd : draws.length = k) :
    tableCheck table query counts α draws = some true := by
  simp only [tableCheck, combineColumns_eq hT hd, combineColumns_eq hQ hd, Option.some.injEq]
  exact check_complete _ (fun a => by rw [h a, count_beq]) α

/-- States of a table reached through its API. -/
inductive SingleKeyTable.Reach : SingleKeyTable F → Prop
  | new : Reach SingleKeyTable.new
  | newTable {t t' k v} : Reach t → t.newTable k v = some t' → Reach t'
  | addRow {t} (k v) : Reach t → Reach (t.addTableRow k v)
  | query {t} (k v) : Reach t → Reach (t.query k v)
  | batch {t t' ks vs} : Reach t → t.batchQuery ks vs = some t' → Reach t'

theorem batch_keys : ∀ (ks : List F) (vs : List (List F)) (t t' : SingleKeyTable F), t.batchQuery ks vs = some t' →
    t.queryKeys = t.queryResults.map (fun r => r.headD 0) → t'.queryKeys = t'.queryResults.map (fun r => r.headD 0) := by
  intro ks
  induction ks with
  | nil => intro vs t t' h; simp only [SingleKeyTable.batchQuery, Option.some.injEq] at h; subst h; exact id
  | cons k ks ih =>
    intro vs t t' h hk
    cases vs with
    | nil => simp [SingleKeyTable.batchQuery] at h
    | cons v vs => exact ih vs _ t' h (by simp [SingleKeyTable.query, hk])

theorem SingleKeyTable.Reach.keys {t : SingleKeyTable F} (h : t.Reach) : t.queryKeys = t.queryResults.map (fun r => r.headD 0) := by
  induction h with
  | new => rfl
  | newTable _ h ih =>
    unfold SingleKeyTable.newTable at h
    split at h
    · simp at h
    · split at h
      · simp at h
      · simp only [Option.some.injEq] at h; subst h; exact ih
  | addRow _ _ _ ih => exact ih
  | query _ _ _ ih => simp [SingleKeyTable.query, ih]
  | batch _ h ih => exact batch_keys _ _ _ _ h ih

theorem byKeyHint_eq (cn : Canon F) (t : SingleKeyTable F) (hl : t.table.length < cn.modulus) (hl32 : t.table.length < 2 ^ 32) :
    queryCountByKeyHint cn t.hintInputs t.table.length =
      some (t.table.map fun r => (((t.queryKeys.map (key32 cn)).count (key32 cn (r.headD 0)) : Nat) : F)) := by
  have hs : cn.toNat ((t.table.length % 2 ^ 32 : Nat) : F) % 2 ^ 64 = t.table.length := by
    rw [Nat.mod_eq_of_lt hl32, cn.toNat_cast _ hl, Nat.mod_eq_of_lt (by omega)]
  simp only [queryCountByKeyHint, SingleKeyTable.hintInputs, List.cons_append, hs]
  rw [if_pos ⟨by simp, Nat.le_refl _⟩]
  have e1 : ((t.table.map fun r => r.headD 0) ++ t.queryKeys).take t.table.length = t.table.map fun r => r.headD 0 := by
    rw [List.take_append_of_le_length (by simp), List.take_of_length_le (by simp)]
  have e2 : ((t.table.map fun r => r.headD 0) ++ t.queryKeys).drop t.table.length = t.queryKeys := by
    rw [List.drop_append_of_le_length (by simp), List.drop_of_length_le (by simp), List.nil_append]
  rw [e1, e2]; simp [Function.comp_def]

theorem nodup_of_map_nodup {α β : Type} {f : α → β} {l : List α} (h : (l.map f).Nodup) : l.Nodup := List.Nodup.of_map f h

theorem finalCheck_honest (cn : Canon F) {k : Nat} {t : SingleKeyTable F} (hr : t.Reach) (hl : t.table.length < cn.modulus) (hl32 : t.table.length < 2 ^ 32)
    (hT : ∀ r ∈ t.table, r.length = k + 1) (hkeys : (t.table.map fun r => key32 cn (r.headD 0)).Nodup)
    (hq : t.queryResults ≠ []) (hs : ∀ q ∈ t.queryResults, q ∈ t.table) (α : F) {draws : List F} (hd : draws.length = k) :
    t.finalCheckHonest cn α draws = some true := by
  have hk := hr.keys
  simp only [SingleKeyTable.finalCheckHonest, byKeyHint_eq cn t hl hl32]
  have hcheck := tableCheck_complete (table := t.table) (query := t.queryResults)
    (counts := t.table.map fun r => (((t.queryKeys.map (key32 cn)).count (key32 cn (r.headD 0)) : Nat) : F)) hT (fun r h => hT r (hs r h))
    (fun row => by rw [count_beq]; exact counts_right (nodup_of_map_nodup hkeys) hs _ (by
      intro a ha
      congr 1
      rw [hk, List.map_map]
      exact count_map_inj (fun r : List F => key32 cn (r.headD 0)) a t.queryResults (fun q hq' e => List.inj_on_of_nodup_map hkeys (hs q hq') ha e)) row) α hd
  unfold SingleKeyTable.finalCheck
  cases htab : t.table with
  | nil =>
    obtain ⟨q, hq'⟩ := List.exists_mem_of_ne_nil _ hq
    have := hs q hq'
    rw [htab] at this; simp at this
  | cons row rest =>
    rw [htab] at hcheck hT
    simp only
    rw [if_neg (by rw [hk]; simpa using hq), if_pos (by simp [drawsOf, hT row (by simp), hd])]
    exact hcheck

theorem range_honest (cn : Canon F) {t : RangeTable F} {m : Nat} (ht : t.tableKeys = (RangeTable.initial (R := F) m).tableKeys) (hm : 2 ^ m ≤ cn.modulus)
    (h64 : m ≤ 64) (hq : ∀ x ∈ t.queryKeys, cn.toNat x < 2 ^ m) (α : F) : t.finalCheckHonest cn α = some true := by
  have hlen : t.tableKeys.length = 2 ^ m := by rw [ht]; simp [RangeTable.initial]
  have h2 : 2 ^ m ≤ 2 ^ 64 := Nat.pow_le_pow_right (by omega) h64
  have hid : t.queryKeys.map (fun x => cn.toNat x % 2 ^ 64) = t.queryKeys.map cn.toNat := by
    apply List.map_congr_left
    intro x hx; have := hq x hx; exact Nat.mod_eq_of_lt (by omega)
  simp only [RangeTable.finalCheckHonest, queryCountHint, hid, hlen]
  rw [if_pos (by simpa using hq)]
  simp only [Option.some.injEq]
  have htk : t.tableKeys.Nodup := by
    rw [ht]; simp only [RangeTable.initial]
    refine List.Nodup.map_on ?_ List.nodup_range
    intro x hx y hy e
    rw [List.mem_range] at hx hy
    have := congrArg cn.toNat e
    rwa [cn.toNat_cast x (by omega), cn.toNat_cast y (by omega)] at this
  have hc : ((List.range (2 ^ m)).map fun i => (((t.queryKeys.map cn.toNat).count i : Nat) : F)) = t.tableKeys.map fun x => (((t.queryKeys.map cn.toNat).count (cn.toNat x) : Nat) : F) := by
    rw [ht]; simp only [RangeTable.initial, List.map_map]
    apply List.map_congr_left
    intro i hi
    rw [List.mem_range] at hi
    simp only [Function.comp]; rw [cn.toNat_cast i (by omega)]
  rw [hc]
  have := check_complete (table := t.tableKeys) (query := t.queryKeys) (fun x : F => x) (counts_right htk
    (by intro q h; rw [ht]; exact mem_initial.2 ⟨_, hq q h, cn.cast_toNat q⟩) (fun x => (((t.queryKeys.map cn.toNat).count (cn.toNat x) : Nat) : F)) (by
      intro a _; congr 1
      exact count_map_inj cn.toNat a t.queryKeys (fun q _ e => by rw [← cn.cast_toNat q, e, cn.cast_toNat]))) α
  simpa [check, RangeTable.finalCheck] using this

end Verif.Std.LogUp
