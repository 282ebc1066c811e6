import Verif.IR.ReassignProof

/-!
# `reassign_duplicate_sub_circuit_outputs` on whole circuit families
-/

set_option linter.unusedSectionVars false

namespace Verif.IR

open Verif.Utils

variable {F : Type} [Field F] [DecidableEq F] {L : Lang F}

theorem reassignInsns_congr {om om' : Nat → List Nat} : ∀ (is : List L.Insn) (vm : List Nat),
    (∀ i ∈ is, ∀ d a n, L.asCall i = some (d, a, n) → om d = om' d) → reassignInsns L om is vm = reassignInsns L om' is vm := by
  intro is
  induction is with
  | nil => intro vm _; rfl
  | cons i is ih =>
    intro vm h
    have hp : pushed L om i = pushed L om' i := by
      unfold pushed
      cases hc : L.asCall i with
      | none => rfl
      | some t => obtain ⟨d, a, n⟩ := t; exact h i (by simp) d a n hc
    rw [reassignInsns_cons, reassignInsns_cons, hp, ih _ (fun j hj => h j (by simp [hj]))]

theorem reassign_calls (hL : L.Lawful) {om : Nat → List Nat} : ∀ (is : List L.Insn) (vm : List Nat) (x : L.Insn),
    x ∈ (reassignInsns L om is vm).1 → ∀ d a n, L.asCall x = some (d, a, n) →
    ∃ i ∈ is, ∃ a', L.asCall i = some (d, a', n) ∧ a'.length = a.length := by
  intro is
  induction is with
  | nil => intro vm x h; simp [reassignInsns] at h
  | cons i is ih =>
    intro vm x h d a n hc
    rw [reassignInsns_cons] at h
    rcases List.mem_cons.1 h with rfl | h
    · rw [hL.asCall_replace] at hc
      cases hi : L.asCall i with
      | none => simp [hi] at hc
      | some t =>
        obtain ⟨d', a', n'⟩ := t
        simp [hi] at hc
        obtain ⟨rfl, rfl, rfl⟩ := hc
        exact ⟨i, by simp, a', hi, by simp⟩
    · obtain ⟨j, hj, a', h1, h2⟩ := ih _ x h d a n hc
      exact ⟨j, by simp [hj], a', h1, h2⟩

theorem reassign_calls' (hL : L.Lawful) {om : Nat → List Nat} : ∀ (is : List L.Insn) (vm : List Nat) (i : L.Insn),
    i ∈ is → ∀ d a n, L.asCall i = some (d, a, n) → ∃ x ∈ (reassignInsns L om is vm).1, ∃ a', L.asCall x = some (d, a', n) := by
  intro is
  induction is with
  | nil => intro vm x h; simp at h
  | cons j is ih =>
    intro vm i h d a n hc
    rw [reassignInsns_cons]
    rcases List.mem_cons.1 h with rfl | h
    · exact ⟨_, List.mem_cons_self .., _, by rw [hL.asCall_replace, hc]; rfl⟩
    · obtain ⟨x, hx, a', h2⟩ := ih _ i h d a n hc
      exact ⟨x, List.mem_cons_of_mem _ hx, a', h2⟩

/-- Structure of the circuit produced for one circuit. -/
theorem reassignCircuit_struct (hL : L.Lawful) (h1 : L.allowDupInputs = true) (h2 : L.allowDupConstraints = true)
    (h3 : L.allowDupOutputs = true) {npi : Option Nat} {get : Nat → Option (Circuit L)} (om : Nat → List Nat) (fresh : Bool) (circ : Circuit L)
    (hco : CircOk npi circ) (hc : CallsOk get circ.instructions)
    (ho : ∀ i ∈ circ.instructions, ∀ d a n, L.asCall i = some (d, a, n) → OmOk n (om d)) :
    CircOk npi (reassignCircuit om fresh circ).1 ∧ (reassignCircuit om fresh circ).1.numInputs = circ.numInputs ∧
    (reassignCircuit om fresh circ).1.outputs.length = circ.outputs.length ∧
    (reassignCircuit om fresh circ).1.constraints.length = circ.constraints.length ∧
    (∀ x ∈ (reassignCircuit om fresh circ).1.instructions, ∀ d a n, L.asCall x = some (d, a, n) →
      ∃ i ∈ circ.instructions, ∃ a', L.asCall i = some (d, a', n) ∧ a'.length = a.length) ∧
    (∀ i ∈ circ.instructions, ∀ d a n, L.asCall i = some (d, a, n) →
      ∃ x ∈ (reassignCircuit om fresh circ).1.instructions, ∃ a', L.asCall x = some (d, a', n)) ∧
    (fresh = true → (reassignCircuit om fresh circ).1.outputs.Nodup) := by
  obtain ⟨i1, i2, i3, i4⟩ := reassign_insns_ok hL h1 npi om circ.instructions (List.range (circ.numInputs + 1)) circ.numInputs
    VMOk.range (by simp) hco.insns hc ho
  have hcons : ∀ k ∈ circ.constraints, vmGet (reassignInsns L om circ.instructions (List.range (circ.numInputs + 1))).2 k.var ≤
      numVars circ.numInputs circ.instructions ∧ vmGet (reassignInsns L om circ.instructions (List.range (circ.numInputs + 1))).2 k.var ≠ 0 := by
    intro k hk
    obtain ⟨a, b⟩ := hco.cons k hk
    obtain ⟨c, d⟩ := i2 k.var (by omega)
    exact ⟨by omega, d b⟩
  have houts : ∀ o ∈ circ.outputs.map (vmGet (reassignInsns L om circ.instructions (List.range (circ.numInputs + 1))).2),
      o ≠ 0 ∧ o ≤ numVars circ.numInputs circ.instructions := by
    intro o hm
    obtain ⟨v, hv, rfl⟩ := List.mem_map.1 hm
    obtain ⟨a, b⟩ := hco.outs v hv
    obtain ⟨c, d⟩ := i2 v (by omega)
    exact ⟨d b, by omega⟩
  cases fresh with
  | false =>
    simp only [reassignCircuit, Bool.false_eq_true, if_false]
    refine ⟨⟨i1, ?_, Or.inl h2, ?_, Or.inl h3⟩, trivial, by simp, by simp, ?_, ?_, by simp⟩
    · intro k hk
      obtain ⟨k', hk', rfl⟩ := List.mem_map.1 hk
      simp only [Constraint.replaceVar]; rw [i4]; exact hcons k' hk'
    · intro o hm; rw [i4]; exact ⟨(houts o hm).2, (houts o hm).1⟩
    · exact fun x hx => reassign_calls hL _ _ x hx
    · exact fun x hx => reassign_calls' hL _ _ x hx
  | true =>
    simp only [reassignCircuit, if_true, i3, Nat.add_sub_cancel]
    obtain ⟨f1, f2, f3, f4⟩ := fresh_ok hL h1 npi _ _ _ 0 _ (fun _ h => h) houts (le_refl _)
    have hnv := numVars_append (L := L) circ.numInputs (reassignInsns L om circ.instructions (List.range (circ.numInputs + 1))).1
      (freshOutputs L (circ.outputs.map (vmGet (reassignInsns L om circ.instructions (List.range (circ.numInputs + 1))).2)) 0
        (numVars circ.numInputs circ.instructions) (circ.outputs.map (vmGet (reassignInsns L om circ.instructions (List.range (circ.numInputs + 1))).2))).1
    rw [i4] at hnv
    refine ⟨⟨?_, ?_, Or.inl h2, ?_, Or.inl h3⟩, trivial, by simpa using f4, by simp, ?_, ?_, ?_⟩
    · have : ∀ (is js : List L.Insn) (cur : Nat), InsnsOk L npi cur is → InsnsOk L npi (numVars cur is) js → InsnsOk L npi cur (is ++ js) := by
        intro is
        induction is with
        | nil => intro js cur _ h; simpa [numVars] using h
        | cons i is ih =>
          intro js cur h h'
          rw [numVars_cons] at h'
          exact ⟨h.1, h.2.1, h.2.2.1, ih _ _ h.2.2.2 h'⟩
      exact this _ _ _ i1 (by rw [i4]; exact f1)
    · intro k hk
      obtain ⟨k', hk', rfl⟩ := List.mem_map.1 hk
      simp only [Constraint.replaceVar]; rw [hnv]
      obtain ⟨a, b⟩ := hcons k' hk'
      exact ⟨le_trans a (le_numVars _ _), b⟩
    · intro o hm; rw [hnv]; exact ⟨(f2 o hm).2, (f2 o hm).1⟩
    · intro x hx d a n hcl
      rcases List.mem_append.1 hx with hx | hx
      · exact reassign_calls hL _ _ x hx d a n hcl
      · rw [f3 x hx] at hcl; cases hcl
    · intro i hi d a n hcl
      obtain ⟨x, hx, a', h⟩ := reassign_calls' (om := om) hL _ (List.range (circ.numInputs + 1)) i hi d a n hcl
      exact ⟨x, List.mem_append_left _ hx, a', h⟩
    · intro _
      exact (fresh_nodup (L := L) _ _ (fun o ho => (houts o ho).2) _ [] _ (by simp) (le_refl _)).1

theorem reassignCircuit_congr {om om' : Nat → List Nat} (fresh : Bool) (circ : Circuit L)
    (h : ∀ i ∈ circ.instructions, ∀ d a n, L.asCall i = some (d, a, n) → om d = om' d) :
    reassignCircuit om fresh circ = reassignCircuit om' fresh circ := by
  simp only [reassignCircuit, reassignInsns_congr _ _ h]

/-- The whole pass: it succeeds on a well-formed circuit, the result is well-formed, has the same inputs and the same number of
outputs, evaluates identically, and its output lists are duplicate-free where the option asks for it. -/
theorem reassign_correct' (hL : L.Lawful) (h1 : L.allowDupInputs = true) (h2 : L.allowDupConstraints = true)
    (h3 : L.allowDupOutputs = true) (rc : RootCircuit L) {npi : Option Nat} (hk : rc.vertices.Nodup) (hw : WFAt npi rc) (force : Bool) :
    ∃ rc', reassign rc force = some rc' ∧ rc'.vertices.Nodup ∧ WFAt npi rc' ∧ rc'.numPublicInputs = rc.numPublicInputs ∧
      rc'.expectedNumOutputZeroes = rc.expectedNumOutputZeroes ∧
      (∀ c, (rc'.get c).map (fun k => (k.numInputs, k.outputs.length)) = (rc.get c).map (fun k => (k.numInputs, k.outputs.length))) ∧
      (∀ (ins outs : List F) (b : Bool), Eval rc ins outs b ↔ Eval rc' ins outs b) ∧
      (∀ c circ, rc'.get c = some circ → c = 0 ∨ force = true → circ.outputs.Nodup) := by
  cases hdup : rc.hasDupOutputs with
  | false =>
    refine ⟨rc, by simp [reassign, hdup], hk, hw, rfl, rfl, fun _ => rfl, fun _ _ _ => Iff.rfl, ?_⟩
    intro c circ hg _
    have hm := mem_of_get hg
    simp only [RootCircuit.hasDupOutputs, List.any_eq_false, Bool.not_eq_true', decide_eq_false_iff_not, not_not] at hdup
    exact hdup _ hm
  | true =>
    obtain ⟨rc', tab, hrun, hnd, hp, hz, htab, hget⟩ := mapBottomUp_spec rc hk hw.wf
      (fun tab c circ => reassignCircuit (omGet tab) (c == 0 || force) circ) (·.1) (by
        intro g g' c circ hg h
        refine reassignCircuit_congr _ _ (fun i hi d a n hc => ?_)
        simp only [omGet, h d ⟨circ, hg, i, hi, a, n, hc⟩])
    have hget' : ∀ c circ, rc.get c = some circ → rc'.get c = some (reassignCircuit (omGet tab) (c == 0 || force) circ).1 := by
      intro c circ hg; rw [hget, htab, hg]; rfl
    have hom : ∀ c circ, rc.get c = some circ → omGet tab c = (reassignCircuit (omGet tab) (c == 0 || force) circ).2 := by
      intro c circ hg; unfold omGet; rw [htab, hg]; rfl
    have hback : ∀ c circ', rc'.get c = some circ' → ∃ circ, rc.get c = some circ ∧
        circ' = (reassignCircuit (omGet tab) (c == 0 || force) circ).1 := by
      intro c circ' h
      cases hg : rc.get c with
      | none => rw [hget, htab, hg] at h; cases h
      | some circ => exact ⟨circ, rfl, by rw [hget' c circ hg] at h; exact (Option.some.inj h).symm⟩
    have hsub : ∀ c circ, rc.get c = some circ →
        SubOk rc.get rc'.get circ (reassignCircuit (omGet tab) (c == 0 || force) circ).1 (omGet tab c) := by
      refine call_induction hw.wf.dag ?_
      intro c circ hg ih
      rw [hom c circ hg]
      refine reassignCircuit_ok hL _ _ circ (hw.wf.circ c circ hg) (hw.wf.calls c circ hg) ?_
      intro i hi d a n hc
      obtain ⟨sub, hs, _, _⟩ := hw.wf.calls c circ hg i hi d a n hc
      exact ⟨sub, _, hs, hget' d sub hs, ih d sub ⟨circ, hg, i, hi, a, n, hc⟩ hs⟩
    have hstr : ∀ c circ, rc.get c = some circ → _ := fun c circ hg =>
      reassignCircuit_struct hL h1 h2 h3 (omGet tab) (c == 0 || force) circ (hw.wf.circ c circ hg) (hw.wf.calls c circ hg) (by
        intro i hi d a n hc
        obtain ⟨sub, hs, _, hn⟩ := hw.wf.calls c circ hg i hi d a n hc
        rw [hn]; exact (hsub d sub hs).omOk)
    have hcalls : ∀ c d, Calls rc'.get c d ↔ Calls rc.get c d := by
      intro c d
      constructor
      · rintro ⟨circ', hg', x, hx, a, n, hc⟩
        obtain ⟨circ, hg, rfl⟩ := hback c circ' hg'
        obtain ⟨_, _, _, _, s1, _, _⟩ := hstr c circ hg
        obtain ⟨i, hi, a', h, _⟩ := s1 x hx d a n hc
        exact ⟨circ, hg, i, hi, a', n, h⟩
      · rintro ⟨circ, hg, x, hx, a, n, hc⟩
        obtain ⟨_, _, _, _, _, s1, _⟩ := hstr c circ hg
        obtain ⟨i, hi, a', h⟩ := s1 x hx d a n hc
        exact ⟨_, hget' c circ hg, i, hi, a', n, h⟩
    obtain ⟨root, hroot, hle, hne⟩ := hw.root
    refine ⟨rc', by simp only [reassign, hdup, if_true]; exact hrun, hnd, ⟨⟨?_, ?_, ?_⟩, ?_⟩, hp, hz, ?_, ?_, ?_⟩
    · intro c circ' hg'
      obtain ⟨circ, hg, rfl⟩ := hback c circ' hg'
      exact (hstr c circ hg).1
    · intro c circ' hg' x hx d a n hc
      obtain ⟨circ, hg, rfl⟩ := hback c circ' hg'
      obtain ⟨_, _, _, _, s1, _, _⟩ := hstr c circ hg
      obtain ⟨i, hi, a', h, hl⟩ := s1 x hx d a n hc
      obtain ⟨sub, hs, ha, hn⟩ := hw.wf.calls c circ hg i hi d a' n h
      obtain ⟨_, t1, t2, _⟩ := hstr d sub hs
      exact ⟨_, hget' d sub hs, by rw [t1]; omega, by rw [t2]; exact hn⟩
    · obtain ⟨r, hr⟩ := hw.wf.dag
      exact ⟨r, fun c d h => hr c d ((hcalls c d).1 h)⟩
    · obtain ⟨_, t1, t2, _⟩ := hstr 0 root hroot
      refine ⟨_, hget' 0 root hroot, by rw [t2, hz]; exact hle, ?_⟩
      intro he
      have : root.outputs = [] := by
        rw [he] at t2; exact List.length_eq_zero_iff.1 t2.symm
      obtain ⟨d, circ, hr, hg, hcn⟩ := hne this
      obtain ⟨_, _, _, t4, _⟩ := hstr d circ hg
      refine ⟨d, _, ?_, hget' d circ hg, ?_⟩
      · exact Relation.ReflTransGen.mono (fun a b h => (hcalls a b).2 h) _ _ hr
      · intro h; rw [h] at t4; exact hcn (List.length_eq_zero_iff.1 t4.symm)
    · intro c
      cases hg : rc.get c with
      | none =>
        have : rc'.get c = none := by rw [hget, htab, hg]; rfl
        rw [this]
      | some circ =>
        obtain ⟨_, t1, t2, _⟩ := hstr c circ hg
        rw [hget' c circ hg]; simp [t1, t2]
    · intro ins outs b
      obtain ⟨_, t1, _⟩ := hstr 0 root hroot
      constructor
      · rintro ⟨r0, all, b0, hg, hl, hs, hz', rfl, rfl⟩
        rw [hroot] at hg; cases hg
        exact ⟨_, all, b0, hget' 0 root hroot, by rw [t1]; exact hl, ((hsub 0 root hroot).eval ins all b0 hl).1 hs, by rw [hz]; exact hz',
          by rw [hz], by rw [hz]⟩
      · rintro ⟨r0, all, b0, hg, hl, hs, hz', rfl, rfl⟩
        rw [hget' 0 root hroot] at hg; cases hg
        rw [t1] at hl
        exact ⟨root, all, b0, hroot, hl, ((hsub 0 root hroot).eval ins all b0 hl).2 hs, by rw [← hz]; exact hz', by rw [hz], by rw [hz]⟩
    · intro c circ' hg' hor
      obtain ⟨circ, hg, rfl⟩ := hback c circ' hg'
      refine (hstr c circ hg).2.2.2.2.2.2 ?_
      rcases hor with rfl | h
      · simp
      · simp [h]

/-- The same for a circuit that passed validation. -/
theorem reassign_correct (hL : L.Lawful) (h1 : L.allowDupInputs = true) (h2 : L.allowDupConstraints = true)
    (h3 : L.allowDupOutputs = true) (rc : RootCircuit L) (hk : rc.vertices.Nodup) (hw : WF rc) (force : Bool) :
    ∃ rc', reassign rc force = some rc' ∧ rc'.vertices.Nodup ∧ WF rc' ∧ rc'.numPublicInputs = rc.numPublicInputs ∧
      rc'.expectedNumOutputZeroes = rc.expectedNumOutputZeroes ∧
      (∀ c, (rc'.get c).map (fun k => (k.numInputs, k.outputs.length)) = (rc.get c).map (fun k => (k.numInputs, k.outputs.length))) ∧
      (∀ (ins outs : List F) (b : Bool), Eval rc ins outs b ↔ Eval rc' ins outs b) ∧
      (∀ c circ, rc'.get c = some circ → c = 0 ∨ force = true → circ.outputs.Nodup) := by
  obtain ⟨rc', a, b, c, d, e⟩ := reassign_correct' hL h1 h2 h3 rc hk hw force
  exact ⟨rc', a, b, by rw [WF, d]; exact c, d, e⟩

end Verif.IR
