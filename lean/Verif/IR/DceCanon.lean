import Verif.IR.ReassignCanon

/-!
# `remove_unreachable` removes unused duplicate outputs
-/

set_option linter.unusedSectionVars false
set_option linter.unusedSimpArgs false

namespace Verif.IR

variable {F : Type} [Field F] [DecidableEq F] {L : Lang F}

theorem mem_insnEdges_O {c d j : Nat} {x : Elem} : ∀ (is : List L.Insn) (i cur : Nat), (x, eO d j) ∈ insnEdges L c i cur is →
    ∃ v, x = eV c v ∧ CallOut L v d j cur is := by
  intro is
  induction is with
  | nil => intro i cur h; simp [insnEdges] at h
  | cons a is ih =>
    intro i cur h
    rw [insnEdges, List.mem_append] at h
    rcases h with h | h
    · unfold insnEdges1 at h
      cases hc : L.asCall a with
      | none => simp [hc, eO, eI, eV] at h
      | some t =>
        obtain ⟨d', a', n'⟩ := t
        simp only [hc, List.mem_append, List.mem_flatMap, List.mem_range, List.mem_cons, Prod.mk.injEq, List.not_mem_nil, or_false] at h
        rcases h with ⟨k, hk, ⟨rfl, h⟩ | ⟨_, h⟩⟩ | ⟨_, h⟩ | ⟨_, h⟩
        · simp only [eO, Elem.mk.injEq, and_true] at h
          obtain ⟨rfl, rfl⟩ := h
          exact ⟨_, rfl, .inl ⟨a', n', hc, hk, rfl⟩⟩
        all_goals simp [eO, eI, eC] at h
    · obtain ⟨v, h1, h2⟩ := ih _ _ h
      exact ⟨v, h1, .inr h2⟩

theorem mem_insnEdges_V {c c' v : Nat} {x : Elem} : ∀ (is : List L.Insn) (i cur : Nat), (x, eV c' v) ∈ insnEdges L c i cur is →
    c' = c ∧ v ∈ is.flatMap L.inputs := by
  intro is
  induction is with
  | nil => intro i cur h; simp [insnEdges] at h
  | cons a is ih =>
    intro i cur h
    rw [insnEdges, List.mem_append] at h
    rcases h with h | h
    · unfold insnEdges1 at h
      cases hc : L.asCall a with
      | none =>
        simp only [hc, List.mem_append, List.mem_map, List.mem_range, Prod.mk.injEq] at h
        rcases h with ⟨k, _, _, h⟩ | ⟨w, hw, _, h⟩
        · simp [eI, eV] at h
        · simp only [eV, Elem.mk.injEq, and_true] at h
          obtain ⟨rfl, rfl⟩ := h
          exact ⟨rfl, List.mem_flatMap.2 ⟨a, by simp, hw⟩⟩
      | some t =>
        obtain ⟨d', a', n'⟩ := t
        simp only [hc, List.mem_append, List.mem_flatMap, List.mem_range, List.mem_cons, Prod.mk.injEq, List.not_mem_nil, or_false] at h
        rcases h with ⟨k, hk, ⟨_, h⟩ | ⟨_, h⟩⟩ | ⟨_, h⟩ | ⟨_, h⟩
        all_goals simp [eO, eI, eC, eV] at h
    · obtain ⟨h1, h2⟩ := ih _ _ h
      exact ⟨h1, by rw [List.flatMap_cons]; exact List.mem_append_right _ h2⟩

theorem mem_insnDuals (hL : L.Lawful) {c : Nat} {x y e : Elem} : ∀ (is : List L.Insn) (i : Nat), (x, y, e) ∈ insnDuals L c i is →
    ∃ v, e = eV c v ∧ v ∈ is.flatMap L.inputs := by
  intro is
  induction is with
  | nil => intro i h; simp [insnDuals] at h
  | cons a is ih =>
    intro i h
    rw [insnDuals, List.mem_append] at h
    rcases h with h | h
    · unfold insnDuals1 at h
      cases hc : L.asCall a with
      | none => simp [hc] at h
      | some t =>
        obtain ⟨d', a', n'⟩ := t
        simp only [hc, List.mem_flatMap, List.mem_cons, Prod.mk.injEq, List.not_mem_nil, or_false] at h
        obtain ⟨p, hp, h⟩ := h
        have hm : p.1 ∈ a' := by
          have := List.mem_zipIdx_iff_getElem?.1 (show (p.1, p.2) ∈ a'.zipIdx from hp)
          exact List.mem_of_getElem? this
        refine ⟨p.1, ?_, List.mem_flatMap.2 ⟨a, by simp, by rw [hL.call_inputs _ _ _ _ hc]; exact hm⟩⟩
        rcases h with ⟨_, _, h⟩ | ⟨_, _, h⟩ <;> exact h
    · obtain ⟨v, h1, h2⟩ := ih _ h
      exact ⟨v, h1, by rw [List.flatMap_cons]; exact List.mem_append_right _ h2⟩

theorem nodup_filter_zipIdx {xs : List Nat} {p : Nat → Bool} (h : ∀ j, p j = true → ∀ i, i < j → j < xs.length → xs[i]? ≠ xs[j]?) :
    ((xs.zipIdx.filter (fun q => p q.2)).map (·.1)).Nodup := by
  have hz : xs.zipIdx.Nodup := by
    refine List.Nodup.of_map (f := Prod.snd) ?_
    have : xs.zipIdx.map Prod.snd = List.range xs.length := by simp [List.range_eq_range']
    rw [this]; exact List.nodup_range
  refine List.Nodup.map_on ?_ (hz.filter _)
  rintro ⟨x, i⟩ hx ⟨y, j⟩ hy he
  simp only [List.mem_filter] at hx hy
  have e1 := List.mem_zipIdx_iff_getElem?.1 hx.1
  have e2 := List.mem_zipIdx_iff_getElem?.1 hy.1
  dsimp only at e1 e2 he
  subst he
  have l1 := (List.getElem?_eq_some_iff.1 e1).1
  have l2 := (List.getElem?_eq_some_iff.1 e2).1
  rcases lt_trichotomy i j with hlt | rfl | hlt
  · exact (h j hy.2 i hlt l2 (e1.trans e2.symm)).elim
  · rfl
  · exact (h i hx.2 j hlt l1 (e2.trans e1.symm)).elim

theorem dce_noDup (hL : L.Lawful) (rc : RootCircuit L) {npi : Option Nat} (hk : rc.vertices.Nodup) (hw : WFAt npi rc)
    (hroot : ∀ root, rc.get 0 = some root → root.outputs.Nodup) (hcan : Canonical rc.get)
    {rc' : RootCircuit L} {im : InputMapping} (h : removeUnreachable rc = some (rc', im)) : NoDupOut rc'.get := by
  obtain ⟨root, hr, _⟩ := hw.root
  obtain ⟨rc1, im1, order, vis, h1, _, _, h4, h5, hcl, _, _, _, h10, h11, h12, hwhy⟩ := removeUnreachable_full rc hk hw hr
  rw [h1] at h
  cases h
  intro d sub' hs'
  rw [h4 d] at hs'
  simp only [rebuildGet] at hs'
  split at hs'
  case isFalse => cases hs'
  rename_i hd
  cases hg : rc.get d with
  | none => rw [hg] at hs'; cases hs'
  | some sub =>
    rw [hg, Option.map_some, Option.some.injEq] at hs'
    subst hs'
    have hok := hw.wf.circ d sub hg
    unfold rebuildCircuit
    dsimp only
    have hinl : (inFlags vis d sub.numInputs).length = sub.numInputs + 1 := by simp [inFlags]
    have hinv : VMInv (finalFlags L vis d 0 sub.instructions (inFlags vis d sub.numInputs)) (rebuildInsns L vis d 0 sub.instructions (inputState vis d sub.numInputs)).2 :=
      rebuild_inv _ _ _ _ _ _ (inputState_inv vis d sub.numInputs)
    have hkeep : KeepOk vis d (finalFlags L vis d 0 sub.instructions (inFlags vis d sub.numInputs)) :=
      keep_final hL _ _ sub.numInputs _ hinl (hcl.edges d sub hd hg) (keep_inputs vis d _)
    have hlen : (finalFlags L vis d 0 sub.instructions (inFlags vis d sub.numInputs)).length = numVars sub.numInputs sub.instructions + 1 := by
      rw [finalFlags_length hL, hinl, numVars_add]
    refine lk_nodup hinv _ ?_ (nodup_filter_zipIdx (p := fun j => vis (eO d j)) ?_)
    · intro v hv
      simp only [List.mem_map, List.mem_filter] at hv
      obtain ⟨⟨w, j⟩, ⟨hm, hj⟩, rfl⟩ := hv
      have hvis : vis (eV d w) = true := hcl.outs d sub hd hg (eO d j, eV d w) (List.mem_map.2 ⟨(w, j), hm, rfl⟩) hj
      have hvb := hok.outs w (List.mem_of_getElem? (List.mem_zipIdx_iff_getElem?.1 hm))
      exact ⟨hvb.2, hkeep w hvb.2 (by omega) hvis⟩
    · intro j hj j' hlt hjl
      by_cases hd0 : d = 0
      · subst hd0
        intro he
        have := (List.nodup_iff_injective_get.1 (hroot _ hg))
        rw [List.getElem?_eq_getElem (by omega), List.getElem?_eq_getElem hjl] at he
        have h2 := @this ⟨j', by omega⟩ ⟨j, hjl⟩ (by simpa using he)
        simp at h2
        omega
      · rcases hwhy _ hj with hq | ⟨x, hx, he⟩ | ⟨x, y, he⟩
        · exfalso
          unfold initQueue at hq
          rw [hr, List.mem_append, List.mem_flatMap] at hq
          rcases hq with ⟨c, _, hq⟩ | hq
          · cases hgc : rc.get c with
            | none => simp [hgc] at hq
            | some circ =>
              simp only [hgc, List.mem_append, List.mem_map] at hq
              rcases hq with ⟨k, _, hq⟩ | hq
              · simp [eO, eV] at hq
              · split at hq <;> simp [eO, eC] at hq
          · simp only [List.mem_map] at hq
            obtain ⟨k, _, hq⟩ := hq
            simp only [eO, Elem.mk.injEq] at hq
            exact hd0 hq.1.symm
        · unfold allEdges at he
          rw [List.mem_flatMap] at he
          obtain ⟨c, hc, he⟩ := he
          cases hgc : rc.get c with
          | none => simp [hgc] at he
          | some circ =>
            simp only [hgc, List.mem_append] at he
            rcases he with he | he
            · obtain ⟨v, rfl, hco⟩ := mem_insnEdges_O _ _ _ he
              refine hcan c circ hgc v ?_ d j hco sub hg j' hlt
              unfold refs
              rw [List.mem_append, List.mem_append]
              rcases hwhy _ hx with hq | ⟨x, _, he⟩ | ⟨x, y, he⟩
              · unfold initQueue at hq
                rw [hr, List.mem_append, List.mem_flatMap] at hq
                rcases hq with ⟨c1, _, hq⟩ | hq
                · cases hgc1 : rc.get c1 with
                  | none => simp [hgc1] at hq
                  | some circ1 =>
                    simp only [hgc1, List.mem_append, List.mem_map] at hq
                    rcases hq with ⟨k, hk1, hq⟩ | hq
                    · simp only [eV, Elem.mk.injEq, and_true] at hq
                      obtain ⟨rfl, rfl⟩ := hq
                      rw [hgc] at hgc1; cases hgc1
                      exact .inr (.inl (List.mem_map.2 ⟨k, hk1, rfl⟩))
                    · split at hq <;> simp [eV, eC] at hq
                · simp [eO, eV] at hq
              · unfold allEdges at he
                rw [List.mem_flatMap] at he
                obtain ⟨c1, _, he⟩ := he
                cases hgc1 : rc.get c1 with
                | none => simp [hgc1] at he
                | some circ1 =>
                  simp only [hgc1, List.mem_append] at he
                  rcases he with he | he
                  · obtain ⟨rfl, hv⟩ := mem_insnEdges_V _ _ _ he
                    rw [hgc] at hgc1; cases hgc1
                    exact .inl hv
                  · unfold outEdges at he
                    simp only [List.mem_map, Prod.mk.injEq] at he
                    obtain ⟨⟨w, k⟩, hm, _, he⟩ := he
                    simp only [eV, Elem.mk.injEq, and_true] at he
                    obtain ⟨rfl, rfl⟩ := he
                    rw [hgc] at hgc1; cases hgc1
                    exact .inr (.inr (List.mem_of_getElem? (List.mem_zipIdx_iff_getElem?.1 hm)))
              · unfold allDuals at he
                rw [List.mem_flatMap] at he
                obtain ⟨c1, _, he⟩ := he
                cases hgc1 : rc.get c1 with
                | none => simp [hgc1] at he
                | some circ1 =>
                  simp only [hgc1] at he
                  obtain ⟨w, hw1, hw2⟩ := mem_insnDuals hL _ _ he
                  simp only [eV, Elem.mk.injEq, and_true] at hw1
                  obtain ⟨rfl, rfl⟩ := hw1
                  rw [hgc] at hgc1; cases hgc1
                  exact .inl hw2
            · exfalso
              unfold outEdges at he
              simp only [List.mem_map, Prod.mk.injEq] at he
              obtain ⟨p, _, _, he⟩ := he
              simp [eO, eV] at he
        · exfalso
          unfold allDuals at he
          rw [List.mem_flatMap] at he
          obtain ⟨c, _, he⟩ := he
          cases hgc : rc.get c with
          | none => simp [hgc] at he
          | some circ =>
            simp only [hgc] at he
            obtain ⟨v, hv, _⟩ := mem_insnDuals hL _ _ he
            simp [eO, eV] at hv

theorem reassign_noDup {rc : RootCircuit L} (h : NoDupOut rc.get) (hk : rc.vertices.Nodup) : reassign rc false = some rc := by
  have : rc.hasDupOutputs = false := by
    simp only [RootCircuit.hasDupOutputs, List.any_eq_false, Bool.not_eq_true', decide_eq_false_iff_not, not_not]
    rintro ⟨c, circ⟩ hm
    exact h c circ (get_of_mem hk hm)
  simp [reassign, this]

end Verif.IR
