import Verif.Compile.Terminates

/-!
# The source circuit is valid after its optimisation

`detect_chains` leaves products with fewer than two factors behind, which `validate` rejects. Nothing refers to them, so the following
`remove_unreachable` deletes them (compile/mod.rs:106-118), and the check after the source-level optimisation succeeds.
-/

set_option linter.unusedSectionVars false
set_option linter.unusedSimpArgs false

namespace Verif.Compile

open Verif.IR Verif.IR.Source

variable {F : Type} [Field F] [DecidableEq F]

section generic
variable {L : Lang F}

theorem insnsOk_strict {n : Nat} : ∀ (is : List L.Insn) (cur : Nat), InsnsOk L none cur is → (∀ i ∈ is, L.validInsn n i = true) → InsnsOk L (some n) cur is := by
  intro is
  induction is with
  | nil => intro _ _ _; trivial
  | cons i is ih =>
    intro cur h hv
    exact ⟨h.1, hv i (by simp), h.2.2.1, ih _ h.2.2.2 fun j hj => hv j (by simp [hj])⟩

theorem insnsOk_valid {n : Nat} : ∀ (is : List L.Insn) (cur : Nat), InsnsOk L (some n) cur is → ∀ i ∈ is, L.validInsn n i = true := by
  intro is
  induction is with
  | nil => intro _ _ i hi; cases hi
  | cons a is ih =>
    intro cur h i hi
    rcases List.mem_cons.1 hi with rfl | hi
    · exact h.2.1
    · exact ih _ h.2.2.2 i hi

theorem wf_strict {n : Nat} {rc : RootCircuit L} (hw : WFAt none rc) (hv : ∀ c circ, rc.get c = some circ → ∀ i ∈ circ.instructions, L.validInsn n i = true) :
    WFAt (some n) rc :=
  ⟨⟨fun c circ hg => let h := hw.wf.circ c circ hg; ⟨insnsOk_strict _ _ h.insns (hv c circ hg), h.cons, h.consNodup, h.outs, h.outsNodup⟩, hw.wf.calls, hw.wf.dag⟩, hw.root⟩

theorem wf_none {npi : Option Nat} {rc : RootCircuit L} (hw : WFAt npi rc) : WFAt none rc :=
  ⟨⟨fun c circ hg => let h := hw.wf.circ c circ hg; ⟨Chains.insnsOk_none _ _ h.insns, h.cons, h.consNodup, h.outs, h.outsNodup⟩, hw.wf.calls, hw.wf.dag⟩, hw.root⟩

/-- What the instructions of a rebuilt circuit come from. -/
theorem mem_rebuildInsns (vis : Elem → Bool) (c : Nat) {i' : L.Insn} : ∀ (is : List L.Insn) (k0 : Nat) (s : List (Option Nat) × Nat),
    i' ∈ (rebuildInsns L vis c k0 is s).1 → ∃ k i, is[k]? = some i ∧ vis (eI c (k0 + k)) = true ∧
      ((∃ d a n, i' = L.mkCall d a n) ∨ (L.asCall i = none ∧ ∃ f, i' = L.replaceVars i f)) := by
  intro is
  induction is with
  | nil => intro k0 s h; cases h
  | cons a is ih =>
    intro k0 s h
    have shift : ∀ s', i' ∈ (rebuildInsns L vis c (k0 + 1) is s').1 → ∃ k i, (a :: is)[k]? = some i ∧ vis (eI c (k0 + k)) = true ∧
      ((∃ d a n, i' = L.mkCall d a n) ∨ (L.asCall i = none ∧ ∃ f, i' = L.replaceVars i f)) := by
      intro s' h'
      obtain ⟨k, i, h1, h2, h3⟩ := ih _ _ h'
      exact ⟨k + 1, i, by simpa using h1, by rw [← h2]; congr 2; omega, h3⟩
    unfold rebuildInsns at h
    by_cases hv : vis (eI c k0) = false
    · rw [if_pos hv] at h
      exact shift _ h
    · rw [if_neg hv] at h
      cases hc : L.asCall a with
      | none =>
        simp only [hc, List.mem_cons] at h
        rcases h with h | h
        · exact ⟨0, a, rfl, by simpa using hv, .inr ⟨hc, _, h⟩⟩
        · exact shift _ h
      | some t =>
        obtain ⟨d, ar, n⟩ := t
        simp only [hc, List.mem_cons] at h
        rcases h with h | h
        · exact ⟨0, a, rfl, by simpa using hv, .inl ⟨_, _, _, h⟩⟩
        · exact shift _ h

/-- Why an instruction is visited. -/
theorem mem_insnEdges_I {c c' k' : Nat} {x : Elem} : ∀ (is : List L.Insn) (k0 cur : Nat), (x, eI c' k') ∈ insnEdges L c k0 cur is →
    c' = c ∧ ∃ k i, k' = k0 + k ∧ is[k]? = some i ∧
      ((L.asCall i).isSome = true ∨ ∃ j, j < L.numOutputs i ∧ x = eV c (cur + 1 + ((is.take k).map L.numOutputs).sum + j)) := by
  intro is
  induction is with
  | nil => intro k0 cur h; simp [insnEdges] at h
  | cons a is ih =>
    intro k0 cur h
    rw [insnEdges, List.mem_append] at h
    rcases h with h | h
    · unfold insnEdges1 at h
      cases hc : L.asCall a with
      | none =>
        simp only [hc, List.mem_append, List.mem_map, List.mem_range, Prod.mk.injEq] at h
        rcases h with ⟨j, hj, h1, h2⟩ | ⟨v, hv, h1, h2⟩
        · simp only [eI, Elem.mk.injEq, and_true] at h2
          refine ⟨h2.1.symm, 0, a, by omega, rfl, .inr ⟨j, hj, ?_⟩⟩
          rw [← h1]; simp
        · simp [eV, eI] at h2
      | some t =>
        obtain ⟨d, ar, n⟩ := t
        have hk : c' = c ∧ k' = k0 := by
          simp only [hc, List.mem_append, List.mem_flatMap, List.mem_range, List.mem_cons, List.not_mem_nil, or_false, Prod.mk.injEq] at h
          rcases h with ⟨j, hj, ⟨_, h2⟩ | ⟨_, h2⟩⟩ | ⟨_, h2⟩ | ⟨_, h2⟩
          · simp [eO, eI] at h2
          · simpa [eI] using h2
          · simpa [eI] using h2
          · simp [eC, eI] at h2
        exact ⟨hk.1, 0, a, by omega, rfl, .inl (by rw [hc]; rfl)⟩
    · obtain ⟨h1, k, i, h2, h3, h4⟩ := ih _ _ h
      refine ⟨h1, k + 1, i, by omega, by simpa using h3, ?_⟩
      rcases h4 with h4 | ⟨j, hj, h4⟩
      · exact .inl h4
      · refine .inr ⟨j, hj, ?_⟩
        rw [h4]
        congr 1
        simp only [List.take_succ_cons, List.map_cons, List.sum_cons]
        omega

/-- Every instruction is valid, or it has one output, to which nothing refers. -/
def Soft (n : Nat) (rc : RootCircuit L) : Prop :=
  ∀ c circ, rc.get c = some circ → ∀ k i, circ.instructions[k]? = some i → L.validInsn n i = true ∨
    L.numOutputs i = 1 ∧ L.asCall i = none ∧ circ.numInputs + 1 + ((circ.instructions.take k).map L.numOutputs).sum ∉
      circ.instructions.flatMap L.inputs ++ (circ.outputs ++ circ.constraints.map (·.var))

theorem soft_of_valid {n : Nat} {rc : RootCircuit L} (hw : WFAt (some n) rc) : Soft n rc := fun c circ hg k i hi =>
  .inl (insnsOk_valid _ _ (hw.wf.circ c circ hg).insns i (List.mem_of_getElem? hi))

/-- `remove_unreachable` removes instructions to which nothing refers. -/
theorem prune_strict (hL : L.Lawful) {n : Nat} {rc rc' : RootCircuit L} {im : InputMapping} (hk : rc.vertices.Nodup) (hw : WFAt none rc) (hs : Soft n rc)
    (h : removeUnreachable rc = some (rc', im)) : WFAt (some n) rc' := by
  obtain ⟨root, hroot, _, _⟩ := hw.root
  obtain ⟨r1, im1, e1, -, w1, -⟩ := removeUnreachable_correct' hL rc hk hw root hroot
  rw [h] at e1; cases e1
  refine wf_strict w1 fun c circ' hg' i' hi' => ?_
  obtain ⟨r2, im2, order, vis, e2, -, -, hget, -, -, -, -, -, -, -, -, hwhy⟩ := removeUnreachable_full rc hk hw hroot
  rw [h] at e2; cases e2
  rw [hget] at hg'
  unfold rebuildGet at hg'
  split at hg'
  swap
  · cases hg'
  rename_i hord
  cases hg : rc.get c with
  | none => rw [hg] at hg'; cases hg'
  | some circ =>
    rw [hg] at hg'
    simp only [Option.map_some, Option.some.injEq] at hg'
    subst hg'
    obtain ⟨k, i, hi, hv, hform⟩ := mem_rebuildInsns vis c circ.instructions 0 _ hi'
    rcases hform with ⟨d, a, m, rfl⟩ | ⟨hnc, f, rfl⟩
    · exact hL.valid_call _ _ _ _
    rw [hL.valid_replace]
    rcases hs c circ hg k i hi with hok | ⟨ho, -, hno⟩
    · exact hok
    exfalso
    rw [Nat.zero_add] at hv
    -- the instruction is visited because of its output
    have hedge : ∀ x e, (x, e) ∈ allEdges rc order → ∃ c2 circ2, rc.get c2 = some circ2 ∧
        ((x, e) ∈ insnEdges L c2 0 circ2.numInputs circ2.instructions ∨ (x, e) ∈ outEdges c2 circ2.outputs) := by
      intro x e hx
      obtain ⟨c2, -, h2⟩ := List.mem_flatMap.1 hx
      cases hg2 : rc.get c2 with
      | none => rw [hg2] at h2; cases h2
      | some circ2 => rw [hg2] at h2; exact ⟨c2, circ2, hg2, List.mem_append.1 h2⟩
    have hinit : ∀ e, e ∈ initQueue rc order → (∃ c2 circ2 q, rc.get c2 = some circ2 ∧ q ∈ circ2.constraints ∧ e = eV c2 q.var) ∨ (∃ c2, e = eC c2) ∨ ∃ j, e = eO 0 j := by
      intro e he
      unfold initQueue at he
      rcases List.mem_append.1 he with he | he
      · obtain ⟨c2, -, h2⟩ := List.mem_flatMap.1 he
        cases hg2 : rc.get c2 with
        | none => rw [hg2] at h2; cases h2
        | some circ2 =>
          rw [hg2] at h2
          rcases List.mem_append.1 h2 with h2 | h2
          · obtain ⟨q, hq, rfl⟩ := List.mem_map.1 h2
            exact .inl ⟨c2, circ2, q, hg2, hq, rfl⟩
          · split at h2
            · cases h2
            · exact .inr (.inl ⟨c2, by simpa using h2⟩)
      · rw [hroot] at he
        obtain ⟨j, -, rfl⟩ := List.mem_map.1 he
        exact .inr (.inr ⟨j, rfl⟩)
    have hdual : ∀ x y e, (x, y, e) ∈ allDuals rc order → ∃ c2 circ2 v, rc.get c2 = some circ2 ∧ e = eV c2 v ∧ v ∈ circ2.instructions.flatMap L.inputs := by
      intro x y e hx
      obtain ⟨c2, -, h2⟩ := List.mem_flatMap.1 hx
      cases hg2 : rc.get c2 with
      | none => rw [hg2] at h2; cases h2
      | some circ2 =>
        rw [hg2] at h2
        obtain ⟨v, h3, h4⟩ := mem_insnDuals hL _ _ h2
        exact ⟨c2, circ2, v, hg2, h3, h4⟩
    have hvar : vis (eV c (circ.numInputs + 1 + ((circ.instructions.take k).map L.numOutputs).sum)) = true := by
      rcases hwhy _ hv with h1 | ⟨x, hx, h1⟩ | ⟨x, y, h1⟩
      · rcases hinit _ h1 with ⟨_, _, _, _, _, e⟩ | ⟨_, e⟩ | ⟨_, e⟩ <;> simp [eI, eV, eC, eO] at e
      · obtain ⟨c2, circ2, hg2, h2 | h2⟩ := hedge _ _ h1
        · obtain ⟨rfl, k2, i2, e, hi2, h3⟩ := mem_insnEdges_I _ _ _ h2
          rw [hg] at hg2; cases hg2
          have : k2 = k := by omega
          subst this
          rw [hi] at hi2; cases hi2
          rcases h3 with h3 | ⟨j, hj, rfl⟩
          · rw [hnc] at h3; cases h3
          · have : j = 0 := by omega
            subst this
            exact hx
        · simp [outEdges, eI, eV] at h2
      · obtain ⟨_, _, _, _, e, _⟩ := hdual _ _ _ h1
        simp [eI, eV] at e
    -- but nothing refers to its output
    refine hno ?_
    simp only [List.mem_append]
    rcases hwhy _ hvar with h1 | ⟨x, hx, h1⟩ | ⟨x, y, h1⟩
    · rcases hinit _ h1 with ⟨c2, circ2, q, hg2, hq, e⟩ | ⟨_, e⟩ | ⟨_, e⟩
      · simp only [eV, Elem.mk.injEq, and_true] at e
        obtain ⟨rfl, e⟩ := e
        rw [hg] at hg2; cases hg2
        exact .inr (.inr (by rw [e]; exact List.mem_map.2 ⟨q, hq, rfl⟩))
      · simp [eV, eC] at e
      · simp [eV, eO] at e
    · obtain ⟨c2, circ2, hg2, h2 | h2⟩ := hedge _ _ h1
      · obtain ⟨rfl, h3⟩ := mem_insnEdges_V _ _ _ h2
        rw [hg] at hg2; cases hg2
        exact .inl h3
      · obtain ⟨p, hp, e⟩ := List.mem_map.1 h2
        simp only [Prod.mk.injEq, eV, Elem.mk.injEq, and_true] at e
        obtain ⟨-, rfl, e⟩ := e
        rw [hg] at hg2; cases hg2
        rw [← e]
        exact .inr (.inl (List.fst_mem_of_mem_zipIdx hp))
    · obtain ⟨c2, circ2, v, hg2, e, h3⟩ := hdual _ _ _ h1
      simp only [eV, Elem.mk.injEq, and_true] at e
      obtain ⟨rfl, e⟩ := e
      rw [hg] at hg2; cases hg2
      rw [e]; exact .inl h3

end generic

variable {E : Env F}

/-- After `detect_chains` every instruction is valid or unused. -/
theorem detect_soft (hE : E.HintLen) {n : Nat} {rc : RootCircuit (source E)} (hw : WFAt (some n) rc) : Soft (L := source E) n (Chains.detectChains rc) := by
  intro c circ' hg' k i hi
  obtain ⟨circ, hg, rfl⟩ := detect_back (q := Insn.sem E) (vd := Insn.valid) hg'
  have hin := (hw.wf.circ c circ hg).insns
  have hv := insnsOk_valid _ _ hin
  have inv := Chains.detectCircuit_inv (get := rc.get) (Chains.qok_source hE) (hw.wf.calls c circ hg) (Chains.insnsOk_none _ _ hin)
  have h0 : Chains.SoftIs circ circ.instructions := fun k xs hx => .inl (by
    have := hv _ (List.mem_of_getElem? hx)
    simpa [Insn.valid] using this)
  by_cases hd : Chains.Det i
  · cases i with
    | linComb lc => exact .inl rfl
    | mul xs =>
      rcases inv.soft h0 k xs hi with h1 | h1
      · exact .inl (by simpa [Insn.valid] using h1)
      · refine .inr ⟨rfl, rfl, ?_⟩
        have e : (((Chains.detectCircuit circ).instructions.take k).map (source E).numOutputs) = ((circ.instructions.take k).map Insn.numOutputs) := by
          rw [List.map_take, List.map_take]
          exact congrArg (List.take k) inv.outputs
        rw [e]
        exact h1
    | _ => exact hd.elim
  · exact .inl (hv i (inv.mem i (List.mem_of_getElem? hi) hd))

end Verif.Compile
