import Verif.Layering.SolveTotal

/-!
# Sub-layouts are aligned

Every sub-circuit is stored at a multiple of its size (checked by `Circuit::validate`, layered/mod.rs:502-519): in the sparse case because sizes
are powers of two and the larger parts come first, in `query` because the offset is rounded down.
-/

set_option linter.unusedSectionVars false
set_option linter.unusedSimpArgs false

namespace Verif.Layering

variable {F : Type} [Field F] [DecidableEq F]
variable {tab : Nat → Option (Ctx F)}

/-- All sub-layouts lie at multiples of their sizes. -/
inductive Aligned : Layout → Prop
  | mk {L : Layout} (h : ∀ k off S, (k, off, S) ∈ L.subs → S.size ∣ off) (hs : ∀ k off S, (k, off, S) ∈ L.subs → Aligned S) : Aligned L

theorem Aligned.dense (c l : Nat) (pl : List (Option Nat)) : Aligned (.dense c l pl) := .mk (by simp [Layout.subs]) (by simp [Layout.subs])

theorem placeSparse_aligned {pl : List (Option Nat)} {ml : List (Nat × Layout)} {sz : Nat → Nat} (h0 : sz 0 = pl.length)
    (h1 : ∀ (i k : Nat) (l : Layout), ml[i]? = some (k, l) → sz (i + 1) = l.size) : ∀ (is : List Nat) (cur : Nat) (own : List (Nat × Nat))
    (subs : List (Nat × Nat × Layout)) (r : Nat × List (Nat × Nat) × List (Nat × Nat × Layout)), is.Pairwise (fun i j => sz j ∣ sz i) → (∀ i ∈ is, sz i ∣ cur) →
    (∀ k off S, (k, off, S) ∈ subs → S.size ∣ off) → placeSparse pl ml is cur own subs = some r → ∀ k off S, (k, off, S) ∈ r.2.2 → S.size ∣ off := by
  intro is
  induction is with
  | nil => intro cur own subs r _ _ hs h; simp [placeSparse] at h; subst h; exact hs
  | cons i is ih =>
    intro cur own subs r hp hc hs h
    rw [List.pairwise_cons] at hp
    have hnext : ∀ j ∈ is, sz j ∣ cur + sz i := fun j hj => Nat.dvd_add (hc j (by simp [hj])) (hp.1 j hj)
    cases i with
    | zero =>
      unfold placeSparse at h
      dsimp only at h
      split at h
      · exact ih _ _ _ _ hp.2 (fun j hj => hc j (by simp [hj])) hs h
      · exact ih _ _ _ _ hp.2 (by rw [← h0]; exact hnext) hs h
    | succ i =>
      unfold placeSparse at h
      cases hm : ml[i]? with
      | none => rw [hm] at h; cases h
      | some e =>
        obtain ⟨k, l⟩ := e
        rw [hm] at h
        dsimp only at h
        have e := h1 i k l hm
        refine ih _ _ _ _ hp.2 (by rw [← e]; exact hnext) ?_ h
        intro k' off S hm'
        rcases List.mem_append.1 hm' with hm' | hm'
        · exact hs _ _ _ hm'
        · simp at hm'
          obtain ⟨rfl, rfl, rfl⟩ := hm'
          rw [← e]; exact hc _ (by simp)

theorem solveNormal_aligned {rec : Nat → Nat → Option Layout} (hrec : ∀ id layer L, rec id layer = some L → Aligned L ∧ ∃ m, L.size = 2 ^ m)
    {c : Ctx F} {id layer : Nat} {L : Layout} (h : solveNormal tab rec c id layer = some L) : Aligned L := by
  unfold solveNormal at h
  dsimp only at h
  split at h
  case h_2 => cases h
  rename_i prevs g hprev hg
  split at h
  · cases h
  rename_i acc hacc
  have hpl := mergeGroups_pow _ _ _ (fun e => absurd e (by have := groupsOf_len hg; omega)) hacc
  generalize (acc.lookup 0).getD [] = pl at h hpl
  split at h
  · cases h
    exact Aligned.dense _ _ _
  split at h
  · cases h
  rename_i ml hml
  split at h
  · cases h
  rename_i cur own subs hps
  cases h
  have hmem : ∀ (k : Nat) (S : Layout), (k, S) ∈ ml → Aligned S ∧ ∃ m, S.size = 2 ^ m := by
    intro k S h
    obtain ⟨k', _, h1⟩ := mapOpt_mem hml _ h
    unfold midLayout at h1
    split at h1
    · cases h1
    · obtain ⟨a, h3, h4⟩ := Option.map_eq_some_iff.1 h1
      cases h4
      exact hrec _ _ _ h3
  generalize hsz : pl.length :: ml.map (·.2.size) = sizes at hps
  have hpow : ∀ i, i < sizes.length → ∃ m, sizes.getD i 0 = 2 ^ m := by
    intro i hi
    have : sizes.getD i 0 ∈ sizes := by rw [List.getD_eq_getElem?_getD, List.getElem?_eq_getElem hi]; exact List.getElem_mem hi
    rw [← hsz] at this
    rcases List.mem_cons.1 this with e | e
    · rw [hsz] at e; rw [e]; exact hpl
    · obtain ⟨⟨k, S⟩, h1, h2⟩ := List.mem_map.1 e
      rw [hsz] at h2
      obtain ⟨_, m, hm⟩ := hmem k S h1
      exact ⟨m, by rw [← h2]; exact hm⟩
  have hfin : ∀ k off S, (k, off, S) ∈ subs → S.size ∣ off := by
    refine placeSparse_aligned (sz := fun i => sizes.getD i 0) (by rw [← hsz]; rfl) ?_ _ 0 [] [] _ ?_ (by simp) (by simp) hps
    · intro i k l hi
      rw [← hsz, List.getD_cons_succ, List.getD_eq_getElem?_getD, List.getElem?_map, hi]; rfl
    · have ht : Std.Total (α := Nat) (fun i j => sizes.getD j 0 < sizes.getD i 0 ∨ (sizes.getD j 0 = sizes.getD i 0 ∧ i ≤ j)) := ⟨fun i j => by omega⟩
      have htr : IsTrans Nat (fun i j => sizes.getD j 0 < sizes.getD i 0 ∨ (sizes.getD j 0 = sizes.getD i 0 ∧ i ≤ j)) := ⟨fun i j k => by omega⟩
      have hs := List.pairwise_insertionSort (fun i j => sizes.getD j 0 < sizes.getD i 0 ∨ (sizes.getD j 0 = sizes.getD i 0 ∧ i ≤ j)) (List.range sizes.length)
      refine List.Pairwise.imp_of_mem ?_ hs
      intro a b ha hb hab
      obtain ⟨m, hm⟩ := hpow a (List.mem_range.1 ((List.perm_insertionSort _ _).mem_iff.1 ha))
      obtain ⟨n, hn⟩ := hpow b (List.mem_range.1 ((List.perm_insertionSort _ _).mem_iff.1 hb))
      have hle : sizes.getD b 0 ≤ sizes.getD a 0 := by omega
      rw [hm, hn] at hle ⊢
      exact pow_dvd_pow 2 ((Nat.pow_le_pow_iff_right (by omega)).1 hle)
  have hin : ∀ k off S, (k, off, S) ∈ subs → ∃ i : Nat, ml[i]? = some (k, S) := by
    have : ∀ (is : List Nat) (cur : Nat) (own : List (Nat × Nat)) (su : List (Nat × Nat × Layout)) (r : Nat × List (Nat × Nat) × List (Nat × Nat × Layout)),
        (∀ k off S, (k, off, S) ∈ su → ∃ i : Nat, ml[i]? = some (k, S)) → placeSparse pl ml is cur own su = some r → ∀ k off S, (k, off, S) ∈ r.2.2 → ∃ i : Nat, ml[i]? = some (k, S) := by
      intro is
      induction is with
      | nil => intro cur own su r hs h; simp [placeSparse] at h; subst h; exact hs
      | cons i is ih =>
        intro cur own su r hs h
        cases i with
        | zero =>
          unfold placeSparse at h
          dsimp only at h
          split at h <;> exact ih _ _ _ _ hs h
        | succ i =>
          unfold placeSparse at h
          cases hm : ml[i]? with
          | none => rw [hm] at h; cases h
          | some e =>
            obtain ⟨k, l⟩ := e
            rw [hm] at h
            dsimp only at h
            refine ih _ _ _ _ ?_ h
            intro k' off S hm'
            rcases List.mem_append.1 hm' with hm' | hm'
            · exact hs _ _ _ hm'
            · simp at hm'
              obtain ⟨rfl, rfl, rfl⟩ := hm'
              exact ⟨i, hm⟩
    exact this _ _ _ _ _ (by simp) hps
  refine .mk hfin ?_
  intro k off S h
  obtain ⟨i, hi⟩ := hin k off S h
  exact (hmem k S (List.mem_of_getElem? hi)).1

/-- Layouts computed by `solve` are aligned. -/
theorem solve_aligned (reorder : Bool) : ∀ (f id layer : Nat) (L : Layout), solve reorder tab f id layer = some L → Aligned L := by
  intro f
  induction f with
  | zero => intro id layer L h; cases h
  | succ f ih =>
    intro id layer L h
    unfold solve at h
    cases hc : tab id with
    | none => rw [hc] at h; cases h
    | some c =>
      rw [hc] at h
      dsimp only at h
      split at h
      · unfold solveFixed at h
        obtain ⟨pl, h1, rfl⟩ := Option.map_eq_some_iff.1 h
        exact Aligned.dense _ _ _
      · refine solveNormal_aligned (fun id' layer' L' h' => ⟨ih _ _ _ h', ?_⟩) h
        have := (solve_ok reorder f id' layer' L' h').1
        cases this with
        | mk c hc hp => exact hp

/-- `query` rounds the offset down to a multiple of the size. -/
theorem query_aligned (pos : List (Nat × Nat)) (vs names tv : List Nat) (cid lid : Nat) :
    (query pos vs names tv cid lid).2.size ∣ (query pos vs names tv cid lid).1 ∧ Aligned (query pos vs names tv cid lid).2 := by
  unfold query
  split
  · exact ⟨by simp, Aligned.dense _ _ _⟩
  · dsimp only
    refine ⟨?_, Aligned.dense _ _ _⟩
    simp only [Layout.size, subsMap, List.length_map, queryPl_length, List.length_replicate]
    split
    · exact Nat.dvd_zero _
    · exact Nat.dvd_sub_mod _

end Verif.Layering
