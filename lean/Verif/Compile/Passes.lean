import Verif.Compile.FixedPoint
import Verif.IR.DceRoot
import Verif.IR.ReassignRoot
import Verif.IR.ChainsProof

/-!
# The closures passed to `optimize_until_fixed_point` (compile/mod.rs)
-/

set_option linter.unusedSectionVars false

namespace Verif.Compile

open Verif.IR

variable {F : Type} [Field F] [DecidableEq F] {L : Lang F}

instance [DecidableEq L.Con] : DecidableEq (Constraint L) := fun a b =>
  decidable_of_iff (a.typ = b.typ ∧ a.var = b.var) (by cases a; cases b; simp)

instance [DecidableEq L.Insn] [DecidableEq L.Con] : DecidableEq (Circuit L) := fun a b =>
  decidable_of_iff (a.instructions = b.instructions ∧ a.constraints = b.constraints ∧ a.outputs = b.outputs ∧ a.numInputs = b.numInputs)
    (by cases a; cases b; simp)

/-- Derived `==` of `RootCircuit` (common/mod.rs:95); `HashMap` equality compares sizes and looks every key up. -/
def rcEq [DecidableEq L.Insn] [DecidableEq L.Con] (a b : RootCircuit L) : Bool :=
  decide (a.numPublicInputs = b.numPublicInputs) && decide (a.expectedNumOutputZeroes = b.expectedNumOutputZeroes) &&
  decide (a.circuits.length = b.circuits.length) && a.circuits.all (fun p => decide (b.get p.1 = some p.2))

/-- `input_size` (common/mod.rs: number of inputs of circuit 0). -/
def inputSize (rc : RootCircuit L) : Nat := ((rc.get 0).map (·.numInputs)).getD 0

/-- Same results. -/
def SameEval (x : RootCircuit L) (ins : List F) (y : RootCircuit L) (ins' : List F) : Prop :=
  ∀ outs b, Eval x ins outs b ↔ Eval y ins' outs b

/-- All results of the first are results of the second. -/
def KeepsEval (x : RootCircuit L) (ins : List F) (y : RootCircuit L) (ins' : List F) : Prop :=
  ∀ outs b, Eval x ins outs b → Eval y ins' outs b

theorem sameEval_preord : Preord (SameEval (L := L)) :=
  ⟨fun _ _ _ _ => Iff.rfl, fun h1 h2 o b => (h1 o b).trans (h2 o b)⟩

theorem keepsEval_preord : Preord (KeepsEval (L := L)) :=
  ⟨fun _ _ _ _ h => h, fun h1 h2 o b h => h2 o b (h1 o b h)⟩

theorem lookup_isSome_iff {l : List (Nat × Circuit L)} {c : Nat} : (l.lookup c).isSome ↔ c ∈ l.map Prod.fst := by
  induction l with
  | nil => simp
  | cons p l ih =>
    obtain ⟨a, k⟩ := p
    rw [List.lookup_cons]
    by_cases h : c = a
    · subst h; simp
    · have : (c == a) = false := by simpa using h
      rw [this]; simp [h, ih]

theorem lookup_of_mem {l : List (Nat × Circuit L)} (hn : (l.map Prod.fst).Nodup) {c : Nat} {k : Circuit L} (h : (c, k) ∈ l) :
    l.lookup c = some k := by
  induction l with
  | nil => cases h
  | cons p l ih =>
    obtain ⟨a, k'⟩ := p
    simp only [List.map_cons, List.nodup_cons] at hn
    rw [List.lookup_cons]
    rcases List.mem_cons.1 h with e | h
    · cases e; simp
    · have : c ≠ a := fun e => hn.1 (e ▸ List.mem_map_of_mem (f := Prod.fst) h)
      have : (c == a) = false := by simpa using this
      rw [this]; exact ih hn.2 h

theorem rcEq_get [DecidableEq L.Insn] [DecidableEq L.Con] {a b : RootCircuit L} (ha : a.vertices.Nodup) (_hb : b.vertices.Nodup)
    (h : rcEq a b = true) : a.get = b.get ∧ a.expectedNumOutputZeroes = b.expectedNumOutputZeroes ∧
      a.numPublicInputs = b.numPublicInputs := by
  simp only [rcEq, Bool.and_eq_true, decide_eq_true_eq, List.all_eq_true] at h
  obtain ⟨⟨⟨h1, h2⟩, h3⟩, h4⟩ := h
  refine ⟨?_, h2, h1⟩
  have hsub : a.vertices ⊆ b.vertices := by
    intro c hc
    obtain ⟨p, hp, rfl⟩ := List.mem_map.1 hc
    have := h4 p hp
    exact lookup_isSome_iff.1 (by show (b.get p.1).isSome; rw [this]; rfl)
  have hperm : a.vertices.Perm b.vertices :=
    (List.subperm_of_subset ha hsub).perm_of_length_le (by simp [RootCircuit.vertices, h3])
  funext c
  by_cases hc : c ∈ a.vertices
  · obtain ⟨p, hp, rfl⟩ := List.mem_map.1 hc
    rw [h4 p hp]
    exact lookup_of_mem ha hp
  · have hc' : c ∉ b.vertices := fun h => hc (hperm.mem_iff.2 h)
    have e1 : ¬ (a.get c).isSome := fun h => hc (lookup_isSome_iff.1 h)
    have e2 : ¬ (b.get c).isSome := fun h => hc' (lookup_isSome_iff.1 h)
    rw [Option.not_isSome_iff_eq_none] at e1 e2
    rw [e1, e2]

theorem rcEq_eval [DecidableEq L.Insn] [DecidableEq L.Con] {a b : RootCircuit L} (ha : a.vertices.Nodup) (hb : b.vertices.Nodup)
    (h : rcEq a b = true) : inputSize a = inputSize b ∧ ∀ ins, SameEval a ins b ins := by
  obtain ⟨h1, h2, _⟩ := rcEq_get ha hb h
  refine ⟨by simp [inputSize, h1], fun ins outs v => ?_⟩
  unfold Eval
  rw [h1, h2]

/-! ### The mapping returned by `remove_unreachable` -/

theorem inputMappingOf_ge (vis : Elem → Bool) : ∀ (is : List Nat) (n : Nat),
    ∀ j, some j ∈ (inputMappingOf vis is n).1 → n ≤ j ∧ j < (inputMappingOf vis is n).2 := by
  intro is
  induction is with
  | nil => intro n j h; simp [inputMappingOf] at h
  | cons i is ih =>
    intro n j h
    have hle : ∀ m, m ≤ (inputMappingOf vis is m).2 := fun m => by rw [(inputMappingOf_length vis is m).2]; omega
    cases hv : vis (eV 0 i) with
    | false =>
      simp [inputMappingOf, hv] at h ⊢
      exact ih n j h
    | true =>
      simp [inputMappingOf, hv] at h ⊢
      rcases h with rfl | h
      · have := hle (j + 1); omega
      · have := ih (n + 1) j h; omega

theorem inputMappingOf_inj (vis : Elem → Bool) : ∀ (is : List Nat) (n : Nat) (i1 i2 j : Nat),
    (inputMappingOf vis is n).1[i1]? = some (some j) → (inputMappingOf vis is n).1[i2]? = some (some j) → i1 = i2 := by
  intro is
  induction is with
  | nil => intro n i1 i2 j h; simp [inputMappingOf] at h
  | cons i is ih =>
    intro n i1 i2 j h1 h2
    cases hv : vis (eV 0 i) with
    | false =>
      simp only [inputMappingOf, hv, Bool.false_eq_true, if_false] at h1 h2
      cases i1 with
      | zero => simp at h1
      | succ i1 => cases i2 with
        | zero => simp at h2
        | succ i2 => simp at h1 h2; rw [ih n i1 i2 j h1 h2]
    | true =>
      simp only [inputMappingOf, hv, if_true] at h1 h2
      have hno : ∀ k : Nat, (inputMappingOf vis is (n + 1)).1[k]? = some (some n) → False := by
        intro k hk
        have := inputMappingOf_ge vis is (n + 1) n (List.mem_of_getElem? hk)
        omega
      cases i1 with
      | zero => cases i2 with
        | zero => rfl
        | succ i2 => simp at h1 h2; subst h1; exact (hno _ h2).elim
      | succ i1 => cases i2 with
        | zero => simp at h1 h2; subst h2; exact (hno _ h1).elim
        | succ i2 => simp at h1 h2; rw [ih (n + 1) i1 i2 j h1 h2]

theorem removeUnreachable_mapping {rc rc' : RootCircuit L} {im : InputMapping} (h : removeUnreachable rc = some (rc', im)) :
    im.InRange ∧ im.Injective := by
  unfold removeUnreachable at h
  split at h
  · cases h
  simp only at h
  split at h
  · rename_i root visited _ _
    simp only [Option.some.injEq, Prod.mk.injEq] at h
    obtain ⟨_, rfl⟩ := h
    exact ⟨fun j hj => (inputMappingOf_ge _ _ _ j hj).2, inputMappingOf_inj _ _ _⟩
  · cases h

theorem inputSize_eq {rc : RootCircuit L} {root : Circuit L} (h : rc.get 0 = some root) : inputSize rc = root.numInputs := by
  simp [inputSize, h]

/-! ### The closures -/

/-- `|r| { let (mut r, im) = r.remove_unreachable(); r.reassign_duplicate_sub_circuit_outputs(false); (r, im) }`
(compile/mod.rs:135-139, 159-163, 177-181, 219-223, 241-245). -/
def cleanup (rc : RootCircuit L) : Option (RootCircuit L × InputMapping) :=
  match removeUnreachable rc with
  | none => none
  | some (r, im) => (reassign r false).map (fun r' => (r', im))

/-- The source-level closure (compile/mod.rs:108-113). -/
def cleanupSource {E : Env F} (rc : RootCircuit (source E)) : Option (RootCircuit (source E) × InputMapping) :=
  (cleanup rc).map (fun p => (Chains.detectChains p.1, p.2))

/-- Invariant of the loops over validated circuits. -/
def Valid (rc : RootCircuit L) : Prop := rc.vertices.Nodup ∧ WF rc

/-- Languages on which the second pass does its job, or has nothing to do. -/
def ReassignOk (L : Lang F) : Prop :=
  (L.allowDupInputs = true ∧ L.allowDupConstraints = true ∧ L.allowDupOutputs = true) ∨ L.allowDupOutputs = false

theorem reassign_any (hL : L.Lawful) (ho : ReassignOk L) (rc : RootCircuit L) {npi : Option Nat} (hk : rc.vertices.Nodup)
    (hw : WFAt npi rc) : ∃ rc', reassign rc false = some rc' ∧ rc'.vertices.Nodup ∧ WFAt npi rc' ∧
      rc'.numPublicInputs = rc.numPublicInputs ∧ inputSize rc' = inputSize rc ∧
      (∀ (ins outs : List F) (b : Bool), Eval rc ins outs b ↔ Eval rc' ins outs b) := by
  rcases ho with ⟨h1, h2, h3⟩ | h
  · obtain ⟨rc', a, b, c, d, _, e, f, _⟩ := reassign_correct' hL h1 h2 h3 rc hk hw false
    refine ⟨rc', a, b, c, d, ?_, f⟩
    have := e 0
    unfold inputSize
    cases h0 : rc.get 0 <;> cases h0' : rc'.get 0 <;> simp [h0, h0'] at this ⊢
    exact this.1
  · have : rc.hasDupOutputs = false := by
      unfold RootCircuit.hasDupOutputs
      rw [List.any_eq_false]
      intro p hp
      have hg : rc.get p.1 = some p.2 := lookup_of_mem hk hp
      rcases (hw.wf.circ _ _ hg).outsNodup with e | e
      · rw [h] at e; cases e
      · simp [e]
    exact ⟨rc, by simp [reassign, this], hk, hw, rfl, rfl, fun _ _ _ => Iff.rfl⟩

theorem cleanup_correct (hL : L.Lawful) (ho : ReassignOk L) (rc : RootCircuit L) {npi : Option Nat} (hk : rc.vertices.Nodup)
    (hw : WFAt npi rc) : ∃ rc' im, cleanup rc = some (rc', im) ∧ rc'.vertices.Nodup ∧ WFAt npi rc' ∧
      rc'.numPublicInputs = rc.numPublicInputs ∧ im.curSize = inputSize rc ∧ im.nextSize = inputSize rc' ∧
      im.InRange ∧ im.Injective ∧
      ∀ ins : List F, ins.length = inputSize rc → ∃ ins', im.mapInputs 0 ins = some ins' ∧ KeepsEval rc ins rc' ins' ∧
        (L.Total → npi.isSome → SameEval rc ins rc' ins') := by
  obtain ⟨root, hroot, _, _⟩ := hw.root
  obtain ⟨r, im, h1, h2, h3, h4, h5, ⟨root', h6, h6'⟩, h7⟩ := removeUnreachable_correct' hL rc hk hw root hroot
  obtain ⟨rc', a, b, c, d, e, f⟩ := reassign_any hL ho r h2 h3
  obtain ⟨m1, m2⟩ := removeUnreachable_mapping h1
  refine ⟨rc', im, by simp [cleanup, h1, a], b, c, d.trans h5, by rw [inputSize_eq hroot, h4],
    by rw [e, inputSize_eq h6, h6'], m1, m2, fun ins hl => ?_⟩
  rw [inputSize_eq hroot] at hl
  obtain ⟨ins', x, y, z⟩ := h7 ins hl
  exact ⟨ins', x, fun o v h => (f _ _ _).1 (y o v h), fun hT hn o v => ⟨fun h => (f _ _ _).1 (y o v h), fun h => z hT hn o v ((f _ _ _).2 h)⟩⟩

/-- The clean-up closure meets the pass contract, in languages whose instructions cannot fail. -/
theorem cleanup_passOk (hL : L.Lawful) (ho : ReassignOk L) (hT : L.Total) :
    PassOk (0 : F) (Valid (L := L)) inputSize SameEval cleanup := by
  rintro rc ⟨hk, hw⟩
  obtain ⟨rc', im, a, b, c, d, e, f, g, h, k⟩ := cleanup_correct hL ho rc hk hw
  refine ⟨rc', im, a, ⟨b, by rw [WF, d]; exact c⟩, e, f, g, h, fun ins hl => ?_⟩
  obtain ⟨ins', x, _, z⟩ := k ins hl
  exact ⟨ins', x, z hT rfl⟩

/-- Step 4 uses `remove_unreachable` alone (compile/mod.rs:291-294). -/
theorem removeUnreachable_passOk (hL : L.Lawful) (hT : L.Total) :
    PassOk (0 : F) (Valid (L := L)) inputSize SameEval removeUnreachable := by
  rintro rc ⟨hk, hw⟩
  obtain ⟨root, hroot, _, _⟩ := hw.root
  obtain ⟨r, im, h1, h2, h3, h4, h5, ⟨root', h6, h6'⟩, h7⟩ := removeUnreachable_correct hL rc hk hw root hroot
  obtain ⟨m1, m2⟩ := removeUnreachable_mapping h1
  refine ⟨r, im, h1, ⟨h2, h3⟩, by rw [inputSize_eq hroot, h4], by rw [inputSize_eq h6, h6'], m1, m2, fun ins hl => ?_⟩
  rw [inputSize_eq hroot] at hl
  obtain ⟨ins', x, y, z⟩ := h7 ins hl
  exact ⟨ins', x, fun o v => ⟨y o v, z hT o v⟩⟩

/-- Invariant of the source-level loop. -/
def ValidS {E : Env F} (rc : RootCircuit (source E)) : Prop := rc.vertices.Nodup ∧ ∃ npi, WFAt npi rc

theorem cleanupSource_passOk {E : Env F} (hE : E.HintLen) :
    PassOk (0 : F) (ValidS (E := E)) inputSize KeepsEval cleanupSource := by
  rintro rc ⟨hk, npi, hw⟩
  obtain ⟨rc', im, a, b, c, d, e, f, g, h, k⟩ := cleanup_correct (source_lawful E hE) (Or.inl ⟨rfl, rfl, rfl⟩) rc hk hw
  obtain ⟨v, w, i, s⟩ := Chains.detectChains_correct (Chains.qok_source hE) rc' c
  refine ⟨_, im, by simp [cleanupSource, a], ⟨by rw [v]; exact b, none, w⟩, e, ?_, g, h, fun ins hl => ?_⟩
  · rw [f]
    have := i 0
    unfold inputSize
    cases h0 : rc'.get 0 <;> cases h0' : (Chains.detectChains rc').get 0 <;> simp [h0, h0'] at this ⊢
    exact this.1.symm
  · obtain ⟨ins', x, y, _⟩ := k ins hl
    exact ⟨ins', x, fun o v h => (s _ _ _).1 (y o v h)⟩

theorem eqOk_valid [DecidableEq L.Insn] [DecidableEq L.Con] : EqOk (Valid (L := L)) inputSize SameEval rcEq :=
  fun _ _ hx hy h => rcEq_eval hx.1 hy.1 h

theorem eqOk_validS {E : Env F} : EqOk (ValidS (E := E)) inputSize KeepsEval rcEq := fun _ _ hx hy h =>
  ⟨(rcEq_eval hx.1 hy.1 h).1, fun ins o b he => ((rcEq_eval hx.1 hy.1 h).2 ins o b).1 he⟩

end Verif.Compile
