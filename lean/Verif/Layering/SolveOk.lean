import Verif.Layering.Connect

/-!
# Layouts computed by `solve` are well formed
-/

set_option linter.unusedSectionVars false
set_option linter.unusedSimpArgs false

namespace Verif.Layering

variable {F : Type} [Field F] [DecidableEq F]
variable {tab : Nat → Option (Ctx F)}

theorem mergeLayouts_pow {s : List (List (Option Nat))} {a : List Nat} {r : List (Option Nat)} (h : mergeLayouts s a = some r) : ∃ m, r.length = 2 ^ m := by
  unfold mergeLayouts at h
  split at h
  · cases h
  · dsimp only at h
    split at h
    · cases h
    · rename_i res _
      simp only [Option.some.injEq] at h
      subst h
      obtain ⟨⟨k, hk⟩, h2, _⟩ := Pow2.next_spec (a.foldl addSlot res).length
      refine ⟨k, ?_⟩
      rw [List.length_append, List.length_replicate, ← hk]
      omega

theorem mergeGroups_pow {parent : List Nat} {cv : Nat → List Nat} {cp : Nat → List (List (Option Nat))} : ∀ (i : Nat) (acc acc' : List (Nat × List (Option Nat))),
    (i = 0 → ∃ m, ((acc.lookup 0).getD []).length = 2 ^ m) → mergeGroups parent cv cp i acc = some acc' → ∃ m, ((acc'.lookup 0).getD []).length = 2 ^ m := by
  intro i
  induction i with
  | zero => intro acc acc' h0 h; simp [mergeGroups] at h; subst h; exact h0 rfl
  | succ i ih =>
    intro acc acc' _ h
    unfold mergeGroups at h
    dsimp only at h
    split at h
    · cases h
    · rename_i r hr
      refine ih _ _ ?_ h
      rintro rfl
      have := mergeLayouts_pow hr
      simpa [List.lookup_cons] using this

theorem groupsOf_len {c : Ctx F} {ends : List Nat} {layer : Nat} {g : Groups} (h : groupsOf c ends layer = some g) : 0 < g.parent.length := by
  have key : ∀ (l : List Nat) (o : Option Groups) (g : Groups), (∀ g0, o = some g0 → 0 < g0.parent.length) →
      l.foldl (fun g k => g.bind (placeReq c ends (c.prog.calls.getD k ⟨0, [], []⟩).inputs)) o = some g → 0 < g.parent.length := by
    intro l
    induction l with
    | nil => intro o g h0 h; exact h0 g h
    | cons k l ih =>
      intro o g h0 h
      rw [List.foldl_cons] at h
      refine ih _ _ ?_ h
      intro g1 hg1
      cases o with
      | none => cases hg1
      | some g0 =>
        simp only [Option.bind_some] at hg1
        unfold placeReq at hg1
        split at hg1
        · cases hg1
        · dsimp only at hg1
          split at hg1
          · cases hg1; simp
          · cases hg1; exact h0 _ rfl
  unfold groupsOf at h
  refine key _ _ _ ?_ h
  intro g0 hg0
  cases hg0
  simp

/-- What sequential placement guarantees. -/
structure PInv (ml : List (Nat × Layout)) (is : List Nat) (cur : Nat) (own : List (Nat × Nat)) (subs : List (Nat × Nat × Layout)) : Prop where
  ownLt : ∀ p idx, (p, idx) ∈ own → p < cur
  ownNd : (own.map (·.1)).Nodup
  own0 : 0 ∈ is → own = []
  keys : (subs.map (·.1)).Nodup
  subIn : ∀ k off S, (k, off, S) ∈ subs → off + S.size ≤ cur ∧ ∃ i, i + 1 ∉ is ∧ ml[i]? = some (k, S)
  disj : ∀ k off S, (k, off, S) ∈ subs → ∀ p idx, (p, idx) ∈ own → p < off ∨ off + S.size ≤ p
  pw : subs.Pairwise fun a b => a.2.1 + a.2.2.size ≤ b.2.1 ∨ b.2.1 + b.2.2.size ≤ a.2.1

theorem new_slots (pl : List (Option Nat)) (cur : Nat) : ((pl.zipIdx.filterMap fun p => p.1.map fun v => (cur + p.2, v)).map (·.1)).Nodup ∧
    ∀ p idx, (p, idx) ∈ (pl.zipIdx.filterMap fun p => p.1.map fun v => (cur + p.2, v)) → cur ≤ p ∧ p < cur + pl.length := by
  have e : (pl.zipIdx.filterMap fun p => p.1.map fun v => (cur + p.2, v)) = ((Layout.dense 0 0 pl).slots).map fun s => (cur + s.1, s.2) := by
    rw [Layout.slots, List.map_filterMap]
    apply List.filterMap_congr
    rintro ⟨o, i⟩ _
    cases o <;> rfl
  rw [e]
  constructor
  · rw [List.map_map]
    have := dense_nodup 0 0 pl
    have h2 := this.map (f := fun a => cur + a) (fun a b h => by simpa using h)
    rw [List.map_map] at h2
    exact h2
  · intro p idx h
    obtain ⟨⟨p', i'⟩, h1, h2⟩ := List.mem_map.1 h
    cases h2
    have := (List.getElem?_eq_some_iff.1 (dense_slots.1 h1)).1
    dsimp only
    omega

theorem placeSparse_inv {pl : List (Option Nat)} {ml : List (Nat × Layout)} (hml : (ml.map (·.1)).Nodup) : ∀ (is : List Nat) (cur : Nat) (own : List (Nat × Nat))
    (subs : List (Nat × Nat × Layout)) (r : Nat × List (Nat × Nat) × List (Nat × Nat × Layout)), is.Nodup → PInv ml is cur own subs →
    placeSparse pl ml is cur own subs = some r → PInv ml [] r.1 r.2.1 r.2.2 := by
  intro is
  induction is with
  | nil =>
    intro cur own subs r _ inv h
    simp [placeSparse] at h
    subst h
    exact ⟨inv.ownLt, inv.ownNd, by simp, inv.keys, inv.subIn, inv.disj, inv.pw⟩
  | cons i is ih =>
    intro cur own subs r hnd inv h
    obtain ⟨hi, hnd'⟩ := List.nodup_cons.1 hnd
    cases i with
    | zero =>
      have h0 := inv.own0 (by simp)
      subst h0
      unfold placeSparse at h
      dsimp only at h
      split at h
      · refine ih _ _ _ _ hnd' ⟨inv.ownLt, inv.ownNd, fun _ => rfl, inv.keys, ?_, inv.disj, inv.pw⟩ h
        intro k off S hs
        obtain ⟨h1, i, h2, h3⟩ := inv.subIn k off S hs
        exact ⟨h1, i, fun hh => h2 (by simp [hh]), h3⟩
      · obtain ⟨n1, n2⟩ := new_slots pl cur
        refine ih _ _ _ _ hnd' ⟨?_, ?_, fun hh => absurd hh hi, inv.keys, ?_, ?_, inv.pw⟩ h
        · intro p idx hp
          rw [List.nil_append] at hp
          exact (n2 p idx hp).2
        · simpa using n1
        · intro k off S hs
          obtain ⟨h1, i, h2, h3⟩ := inv.subIn k off S hs
          exact ⟨by omega, i, fun hh => h2 (by simp [hh]), h3⟩
        · intro k off S hs p idx hp
          obtain ⟨h1, _⟩ := inv.subIn k off S hs
          rw [List.nil_append] at hp
          have := (n2 p idx hp).1
          omega
    | succ i =>
      unfold placeSparse at h
      cases hm : ml[i]? with
      | none => rw [hm] at h; cases h
      | some e =>
        obtain ⟨k, l⟩ := e
        rw [hm] at h
        dsimp only at h
        refine ih _ _ _ _ hnd' ⟨?_, inv.ownNd, fun hh => inv.own0 (by simp [hh]), ?_, ?_, ?_, ?_⟩ h
        · intro p idx hp
          have := inv.ownLt p idx hp
          omega
        · rw [List.map_append]
          refine List.nodup_append.2 ⟨inv.keys, by simp, ?_⟩
          intro a ha b hb hab
          have hb : b = k := by simpa using hb
          rw [hb] at hab
          obtain ⟨⟨k', off, S⟩, h1, h2⟩ := List.mem_map.1 ha
          dsimp only at h2
          obtain ⟨_, i', h3, h4⟩ := inv.subIn k' off S h1
          have e1 : (ml.map (·.1))[i']? = some k := by rw [List.getElem?_map, h4]; simp [h2, hab]
          have e2 : (ml.map (·.1))[i]? = some k := by rw [List.getElem?_map, hm]; rfl
          have hlt : i' < (ml.map (·.1)).length := (List.getElem?_eq_some_iff.1 e1).1
          have := (List.getElem?_inj hlt hml).1 (e1.trans e2.symm)
          subst this
          exact h3 (by simp)
        · intro k' off S hs
          rcases List.mem_append.1 hs with hs | hs
          · obtain ⟨h1, i', h2, h3⟩ := inv.subIn k' off S hs
            exact ⟨by omega, i', fun hh => h2 (by simp [hh]), h3⟩
          · simp at hs
            obtain ⟨rfl, rfl, rfl⟩ := hs
            exact ⟨by omega, i, hi, hm⟩
        · intro k' off S hs p idx hp
          rcases List.mem_append.1 hs with hs | hs
          · exact inv.disj k' off S hs p idx hp
          · simp at hs
            obtain ⟨rfl, rfl, rfl⟩ := hs
            exact .inl (inv.ownLt p idx hp)
        · rw [List.pairwise_append]
          refine ⟨inv.pw, by simp, ?_⟩
          intro a ha b hb
          simp at hb
          subst hb
          obtain ⟨k', off, S⟩ := a
          exact .inl (inv.subIn k' off S ha).1

theorem mem_midCalls {c : Ctx F} {layer k : Nat} (h : k ∈ midCalls tab c layer) : ∃ q s, c.prog.calls[k]? = some q ∧ tab q.sub = some s ∧
    c.start k < layer ∧ layer < c.start k + s.outL := by
  unfold midCalls at h
  obtain ⟨_, h2⟩ := List.mem_filter.1 h
  unfold subCtx at h2
  cases hq : c.prog.calls[k]? with
  | none => simp [hq] at h2
  | some q =>
    cases hs : tab q.sub with
    | none => simp [hq, hs] at h2
    | some s =>
      simp [hq, hs] at h2
      exact ⟨q, s, rfl, hs, h2⟩

theorem solveNormal_ok {rec : Nat → Nat → Option Layout} (hrec : ∀ id layer L, rec id layer = some L → LayoutOk tab L ∧ L.circ = id ∧ L.layer = layer)
    {c : Ctx F} {id layer : Nat} {L : Layout} (hc : tab id = some c) (h : solveNormal tab rec c id layer = some L) :
    LayoutOk tab L ∧ L.circ = id ∧ L.layer = layer := by
  unfold solveNormal at h
  dsimp only at h
  split at h
  case h_2 => cases h
  rename_i prevs g hprev hg
  split at h
  · cases h
  rename_i acc hacc
  have hpl := mergeGroups_pow _ _ _ (fun e => absurd e (by have := groupsOf_len hg; omega)) hacc
  generalize (acc.lookup 0).getD [] = pl at h hpl
  split at h
  · cases h
    exact ⟨query_ok hc hpl, rfl, rfl⟩
  split at h
  · cases h
  rename_i ml hml
  split at h
  · cases h
  rename_i cur own subs hps
  cases h
  refine ⟨?_, rfl, rfl⟩
  have hmem : ∀ (i k : Nat) (S : Layout), ml[i]? = some (k, S) → k ∈ midCalls tab c layer ∧ (midCalls tab c layer)[i]? = some k ∧ ∃ q, c.prog.calls[k]? = some q ∧ rec q.sub (layer - c.start k) = some S := by
    intro i k S h
    have hi : i < (midCalls tab c layer).length := by rw [← mapOpt_length hml]; exact (List.getElem?_eq_some_iff.1 h).1
    obtain ⟨y, h1, h2⟩ := mapOpt_get hml (List.getElem?_eq_getElem hi)
    rw [h] at h2; cases h2
    unfold midLayout at h1
    cases hq : c.prog.calls[(midCalls tab c layer)[i]]? with
    | none => rw [hq] at h1; cases h1
    | some q =>
      rw [hq] at h1
      simp only [Option.map_eq_some_iff, Prod.mk.injEq] at h1
      obtain ⟨a, h3, h4, h5⟩ := h1
      subst h5
      rw [← h4]
      exact ⟨List.getElem_mem hi, List.getElem?_eq_getElem hi, q, hq, h3⟩
  have hnd : (ml.map (·.1)).Nodup := by
    have : ml.map (·.1) = midCalls tab c layer := by
      apply List.ext_getElem?
      intro i
      rw [List.getElem?_map]
      cases hi : ml[i]? with
      | none =>
        rw [List.getElem?_eq_none_iff, mapOpt_length hml] at hi
        rw [List.getElem?_eq_none hi]; rfl
      | some e =>
        obtain ⟨k, S⟩ := e
        rw [(hmem i k S hi).2.1]; rfl
    rw [this]
    exact List.Nodup.filter _ List.nodup_range
  have inv := placeSparse_inv hnd _ 0 [] [] _ ((List.perm_insertionSort _ _).nodup_iff.2 List.nodup_range) ⟨by simp, by simp, by simp, by simp, by simp, by simp, by simp⟩ hps
  obtain ⟨hk, hle, _⟩ := Pow2.next_spec cur
  refine .mk c hc hk ?_ inv.ownNd inv.keys ?_ ?_ inv.disj inv.pw ?_
  · intro p idx hp
    have := inv.ownLt p idx hp
    show p < Pow2.next cur
    omega
  · intro k off S hs
    obtain ⟨_, i, _, hi⟩ := inv.subIn k off S hs
    obtain ⟨_, _, q, _, h2⟩ := hmem i k S hi
    exact (hrec _ _ _ h2).1
  · intro k off S hs
    have := (inv.subIn k off S hs).1
    show off + S.size ≤ Pow2.next cur
    dsimp only at this
    omega
  · intro k off S hs
    obtain ⟨_, i, _, hi⟩ := inv.subIn k off S hs
    obtain ⟨h1, _, q, hq, h2⟩ := hmem i k S hi
    obtain ⟨q', s, hq', hs', h3, h4⟩ := mem_midCalls h1
    rw [hq] at hq'; cases hq'
    obtain ⟨_, h5, h6⟩ := hrec _ _ _ h2
    exact ⟨q, s, hq, hs', h5, h3, h4, h6⟩

/-- Every layout computed by `solve` is usable. -/
theorem solve_ok (reorder : Bool) : ∀ (f id layer : Nat) (L : Layout), solve reorder tab f id layer = some L →
    LayoutOk tab L ∧ L.circ = id ∧ L.layer = layer := by
  intro f
  induction f with
  | zero => intro id layer L h; cases h
  | succ f ih =>
    intro id layer L h
    unfold solve at h
    cases hc : tab id with
    | none => rw [hc] at h; cases h
    | some c =>
      rw [hc] at h
      dsimp only at h
      split at h
      · unfold solveFixed at h
        obtain ⟨pl, h1, rfl⟩ := Option.map_eq_some_iff.1 h
        exact ⟨query_ok hc (mergeLayouts_pow h1), rfl, rfl⟩
      · exact solveNormal_ok ih hc h

end Verif.Layering
