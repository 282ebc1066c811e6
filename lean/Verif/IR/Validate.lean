import Verif.IR.Core
import Verif.Utils.Topo
import Mathlib.Logic.Relation
import Mathlib.Data.List.Dedup

/-!
# `RootCircuit::validate` (circuit/ir/common/mod.rs:107-270) and its declarative meaning
-/

namespace Verif.IR

open Verif.Utils

variable {F : Type} {L : Lang F}

/-- The instruction loop of `validate_variable_references` (common/mod.rs:108-133), `cur` is `cur_var_max`. -/
def validateInsns (L : Lang F) (npi : Nat) : Nat → List L.Insn → Bool
  | _, [] => true
  | cur, i :: is =>
    (L.inputs i).all (fun t => decide (t ≤ cur ∧ t ≠ 0)) && L.validInsn npi i &&
    (L.allowDupInputs || match L.asCall i with
      | some (_, a, _) => decide a.Nodup
      | none => true) &&
    validateInsns L npi (cur + L.numOutputs i) is

/-- `validate_variable_references` (common/mod.rs:107-166).  The `HashSet` insertion loops are `Nodup` tests. -/
def Circuit.validateRefs (npi : Nat) (c : Circuit L) : Bool :=
  let cur := numVars c.numInputs c.instructions
  validateInsns L npi c.numInputs c.instructions &&
  c.constraints.all (fun k => decide (k.var ≤ cur ∧ k.var ≠ 0)) &&
  (L.allowDupConstraints || decide (c.constraints.map (·.var)).Nodup) &&
  c.outputs.all (fun o => decide (o ≤ cur ∧ o ≠ 0)) &&
  (L.allowDupOutputs || decide c.outputs.Nodup)

/-- The sub-circuits an instruction list calls, in order. -/
def callees (is : List L.Insn) : List Nat := is.filterMap (fun i => (L.asCall i).map (·.1))

/-- `sub_circuit_graph_vertices` (common/mod.rs:181-183). -/
def RootCircuit.vertices (rc : RootCircuit L) : List Nat := rc.circuits.map Prod.fst

/-- `sub_circuit_graph_edges` (common/mod.rs:185-195); the adjacency `HashSet` is a duplicate-free list. -/
def RootCircuit.edges (rc : RootCircuit L) : Edges :=
  rc.circuits.map (fun p => (p.1, (callees p.2.instructions).dedup))

/-- The call checks of `validate` (common/mod.rs:209-236). -/
def RootCircuit.validateCalls (rc : RootCircuit L) : Bool :=
  rc.circuits.all (fun p => p.2.instructions.all (fun i => match L.asCall i with
    | none => true
    | some (d, a, n) => match rc.get d with
      | none => false
      | some sub => decide (a.length = sub.numInputs) && decide (n = sub.outputs.length)))

/-- `has_constraint` (common/mod.rs:244-261): circuits in reverse topological order. -/
def hasConstraintSet (rc : RootCircuit L) : List Nat → List Nat
  | [] => []
  | c :: order =>
    let acc := hasConstraintSet rc order
    match rc.get c with
    | none => acc
    | some circ =>
      if !circ.constraints.isEmpty || (succs rc.edges c).any (fun o => acc.contains o) then c :: acc else acc

/-- `RootCircuit::validate` (common/mod.rs:197-270). -/
def RootCircuit.validate (rc : RootCircuit L) : Bool :=
  match rc.get 0 with
  | none => false
  | some root =>
    rc.circuits.all (fun p => p.2.validateRefs rc.numPublicInputs) &&
    rc.validateCalls &&
    match topoOrderAndIsDag rc.vertices rc.edges with
    | none => false
    | some (order, isDag) =>
      isDag && (!root.outputs.isEmpty || (hasConstraintSet rc order).contains 0) &&
      decide (rc.expectedNumOutputZeroes ≤ root.outputs.length)

/-! ### Declarative meaning -/

/-- Per-instruction validity relative to the number of public inputs; `none` = not required (used for circuits in the middle
of a pass, which the compiler validates only later). -/
def validAt (L : Lang F) : Option Nat → L.Insn → Bool
  | none, _ => true
  | some npi, i => L.validInsn npi i

/-- Variable references of an instruction list are defined before use. -/
def InsnsOk (L : Lang F) (npi : Option Nat) : Nat → List L.Insn → Prop
  | _, [] => True
  | cur, i :: is =>
    (∀ t ∈ L.inputs i, t ≤ cur ∧ t ≠ 0) ∧ validAt L npi i = true ∧
    (L.allowDupInputs = true ∨ ∀ c a n, L.asCall i = some (c, a, n) → a.Nodup) ∧
    InsnsOk L npi (cur + L.numOutputs i) is

/-- A single circuit is well-formed. -/
structure CircOk (npi : Option Nat) (c : Circuit L) : Prop where
  insns : InsnsOk L npi c.numInputs c.instructions
  cons : ∀ k ∈ c.constraints, k.var ≤ numVars c.numInputs c.instructions ∧ k.var ≠ 0
  consNodup : L.allowDupConstraints = true ∨ (c.constraints.map (·.var)).Nodup
  outs : ∀ o ∈ c.outputs, o ≤ numVars c.numInputs c.instructions ∧ o ≠ 0
  outsNodup : L.allowDupOutputs = true ∨ c.outputs.Nodup

/-- `c` contains a call of `d`. -/
def Calls (get : Nat → Option (Circuit L)) (c d : Nat) : Prop :=
  ∃ circ, get c = some circ ∧ ∃ i ∈ circ.instructions, ∃ a n, L.asCall i = some (d, a, n)

/-- Every call site agrees with the callee's declared arity. -/
def CallsOk (get : Nat → Option (Circuit L)) (is : List L.Insn) : Prop :=
  ∀ i ∈ is, ∀ d a n, L.asCall i = some (d, a, n) →
    ∃ sub, get d = some sub ∧ a.length = sub.numInputs ∧ n = sub.outputs.length

/-- Well-formedness of a circuit family, without the condition that it has an effect. -/
structure WFGet (npi : Option Nat) (get : Nat → Option (Circuit L)) : Prop where
  circ : ∀ c circ, get c = some circ → CircOk npi circ
  calls : ∀ c circ, get c = some circ → CallsOk get circ.instructions
  dag : ∃ r : Nat → Nat, ∀ c d, Calls get c d → r d < r c

/-- Well-formedness of a root circuit. -/
structure WFAt (npi : Option Nat) (rc : RootCircuit L) : Prop where
  wf : WFGet npi rc.get
  root : ∃ root, rc.get 0 = some root ∧ rc.expectedNumOutputZeroes ≤ root.outputs.length ∧
    (root.outputs = [] → ∃ d circ, Relation.ReflTransGen (Calls rc.get) 0 d ∧ rc.get d = some circ ∧ circ.constraints ≠ [])

/-- Well-formedness of a root circuit: what `validate` is meant to accept. -/
abbrev WF (rc : RootCircuit L) : Prop := WFAt (some rc.numPublicInputs) rc

theorem validateInsns_iff (npi : Nat) : ∀ cur (is : List L.Insn),
    validateInsns L npi cur is = true ↔ InsnsOk L (some npi) cur is := by
  intro cur is
  induction is generalizing cur with
  | nil => simp [validateInsns, InsnsOk]
  | cons i is ih =>
    simp only [validateInsns, InsnsOk, validAt, Bool.and_eq_true, List.all_eq_true, decide_eq_true_eq, Bool.or_eq_true, ih]
    have : (match L.asCall i with
      | some (_, a, _) => decide a.Nodup
      | none => true) = true ↔ ∀ c a n, L.asCall i = some (c, a, n) → a.Nodup := by
      cases h : L.asCall i with
      | none => simp
      | some t => obtain ⟨c, a, n⟩ := t; simp
    rw [this]
    tauto

theorem validateRefs_iff (npi : Nat) (c : Circuit L) : c.validateRefs npi = true ↔ CircOk (some npi) c := by
  simp only [Circuit.validateRefs, Bool.and_eq_true, validateInsns_iff, List.all_eq_true, decide_eq_true_eq,
    Bool.or_eq_true]
  constructor
  · rintro ⟨⟨⟨⟨h1, h2⟩, h3⟩, h4⟩, h5⟩; exact ⟨h1, h2, h3, h4, h5⟩
  · rintro ⟨h1, h2, h3, h4, h5⟩; exact ⟨⟨⟨⟨h1, h2⟩, h3⟩, h4⟩, h5⟩

theorem get_of_mem {rc : RootCircuit L} (hk : rc.vertices.Nodup) {p : Nat × Circuit L} (h : p ∈ rc.circuits) :
    rc.get p.1 = some p.2 := by
  unfold RootCircuit.get RootCircuit.vertices at *
  generalize rc.circuits = l at *
  induction l with
  | nil => simp at h
  | cons q l ih =>
    obtain ⟨k, c⟩ := q
    simp only [List.map_cons, List.nodup_cons] at hk
    rcases List.mem_cons.1 h with h' | h'
    · subst h'; simp
    · have : (p.1 == k) = false := by
        simp; intro he; exact hk.1 (List.mem_map.2 ⟨p, h', he⟩)
      simp only [List.lookup, this]; exact ih hk.2 h'

theorem mem_of_get {rc : RootCircuit L} {c : Nat} {circ : Circuit L} (h : rc.get c = some circ) :
    (c, circ) ∈ rc.circuits := by
  unfold RootCircuit.get at h
  generalize rc.circuits = l at *
  induction l with
  | nil => simp at h
  | cons q l ih =>
    obtain ⟨k, m⟩ := q
    simp only [List.lookup] at h
    split at h
    · rename_i hk; simp at hk h; subst hk; subst h; simp
    · simp [ih h]

theorem mem_vertices_iff {rc : RootCircuit L} {c : Nat} : c ∈ rc.vertices ↔ ∃ circ, rc.get c = some circ := by
  constructor
  · intro h
    obtain ⟨p, hp, rfl⟩ := List.mem_map.1 h
    cases hg : rc.get p.1 with
    | some x => exact ⟨x, rfl⟩
    | none =>
      unfold RootCircuit.get at hg
      exact absurd (List.lookup_eq_none_iff.1 hg p hp) (by simp)
  · rintro ⟨circ, h⟩
    exact List.mem_map.2 ⟨_, mem_of_get h, rfl⟩

theorem mem_succs_edges {rc : RootCircuit L} (hk : rc.vertices.Nodup) {c d : Nat} :
    d ∈ succs rc.edges c ↔ Calls rc.get c d := by
  have hkeys : (rc.edges.map Prod.fst).Nodup := by
    simpa [RootCircuit.edges, RootCircuit.vertices, List.map_map, Function.comp_def] using hk
  constructor
  · intro h
    unfold succs at h
    cases hl : rc.edges.lookup c with
    | none => simp [hl] at h
    | some l =>
      simp [hl] at h
      obtain ⟨p, hp, he⟩ := List.mem_map.1 (mem_of_lookup hl)
      cases he
      simp [callees] at h
      obtain ⟨i, hi, a, n, hc⟩ := h
      exact ⟨p.2, get_of_mem hk hp, i, hi, a, n, hc⟩
  · rintro ⟨circ, hg, i, hi, a, n, hc⟩
    have : (c, (callees circ.instructions).dedup) ∈ rc.edges :=
      List.mem_map.2 ⟨_, mem_of_get hg, rfl⟩
    rw [succs, lookup_of_mem hkeys this]
    simp [callees]
    exact ⟨i, hi, a, n, hc⟩

theorem validateCalls_iff {rc : RootCircuit L} (hk : rc.vertices.Nodup) :
    rc.validateCalls = true ↔ ∀ c circ, rc.get c = some circ → CallsOk rc.get circ.instructions := by
  unfold RootCircuit.validateCalls CallsOk
  simp only [List.all_eq_true]
  have key : ∀ i, (match L.asCall i with
    | none => true
    | some (d, a, n) => match rc.get d with
      | none => false
      | some sub => decide (a.length = sub.numInputs) && decide (n = sub.outputs.length)) = true ↔
      ∀ d a n, L.asCall i = some (d, a, n) →
        ∃ sub, rc.get d = some sub ∧ a.length = sub.numInputs ∧ n = sub.outputs.length := by
    intro i
    cases h : L.asCall i with
    | none => simp
    | some t =>
      obtain ⟨d, a, n⟩ := t
      cases hg : rc.get d with
      | none => simp [hg]
      | some sub => simp [hg]
  constructor
  · intro h c circ hg i hi
    exact (key i).1 (h _ (mem_of_get hg) i hi)
  · intro h p hp i hi
    exact (key i).2 (h p.1 p.2 (get_of_mem hk hp) i hi)

theorem goodGraph {rc : RootCircuit L} (hk : rc.vertices.Nodup)
    (hc : ∀ c circ, rc.get c = some circ → CallsOk rc.get circ.instructions) :
    GoodGraph rc.vertices rc.edges := by
  refine ⟨hk, ?_, ?_, ?_, ?_⟩
  · simpa [RootCircuit.edges, RootCircuit.vertices, List.map_map, Function.comp_def] using hk
  · intro e he
    obtain ⟨p, hp, rfl⟩ := List.mem_map.1 he
    exact List.mem_map.2 ⟨p, hp, rfl⟩
  · intro e he
    obtain ⟨p, hp, rfl⟩ := List.mem_map.1 he
    exact List.nodup_dedup _
  · intro e he v hv
    obtain ⟨p, hp, rfl⟩ := List.mem_map.1 he
    simp [callees] at hv
    obtain ⟨i, hi, a, n, hcall⟩ := hv
    obtain ⟨sub, hs, _⟩ := hc p.1 p.2 (get_of_mem hk hp) i hi _ _ _ hcall
    exact mem_vertices_iff.2 ⟨sub, hs⟩

/-- `c` reaches, through calls, a circuit with constraints. -/
def Reaches (rc : RootCircuit L) (c : Nat) : Prop :=
  ∃ d circ, Relation.ReflTransGen (Calls rc.get) c d ∧ rc.get d = some circ ∧ circ.constraints ≠ []

theorem reaches_iff (rc : RootCircuit L) (c : Nat) : Reaches rc c ↔
    (∃ circ, rc.get c = some circ ∧ circ.constraints ≠ []) ∨ ∃ d, Calls rc.get c d ∧ Reaches rc d := by
  constructor
  · rintro ⟨d, circ, hr, hg, hn⟩
    rcases Relation.ReflTransGen.cases_head hr with rfl | ⟨e, he, her⟩
    · exact Or.inl ⟨circ, hg, hn⟩
    · exact Or.inr ⟨e, he, d, circ, her, hg, hn⟩
  · rintro (⟨circ, hg, hn⟩ | ⟨d, hd, e, circ, hr, hg, hn⟩)
    · exact ⟨c, circ, .refl, hg, hn⟩
    · exact ⟨e, circ, Relation.ReflTransGen.head hd hr, hg, hn⟩

/-- Suffix-closed order: all callees of an element occur later. -/
theorem hasConstraintSet_spec {rc : RootCircuit L} (hk : rc.vertices.Nodup) : ∀ (order : List Nat), order.Nodup →
    (∀ l1 v l2, order = l1 ++ v :: l2 → ∀ w, Calls rc.get v w → w ∈ l2) →
    ∀ c, c ∈ hasConstraintSet rc order ↔ c ∈ order ∧ Reaches rc c := by
  intro order
  induction order with
  | nil => intro _ _ c; simp [hasConstraintSet]
  | cons v order ih =>
    intro hn hs c
    have hn' := List.nodup_cons.1 hn
    have ih := ih hn'.2 (fun l1 x l2 he w hw => hs (v :: l1) x l2 (by simp [he]) w hw)
    have hv := hs [] v order rfl
    have hnot : v ∉ hasConstraintSet rc order := fun h => hn'.1 ((ih v).1 h).1
    simp only [hasConstraintSet]
    cases hg : rc.get v with
    | none =>
      simp only
      rw [ih]
      constructor
      · rintro ⟨h1, h2⟩; exact ⟨by simp [h1], h2⟩
      · rintro ⟨h1, h2⟩
        refine ⟨?_, h2⟩
        rcases List.mem_cons.1 h1 with rfl | h1
        · exfalso
          rcases (reaches_iff rc c).1 h2 with ⟨circ, hg', _⟩ | ⟨d, ⟨circ, hg', _⟩, _⟩ <;> simp [hg] at hg'
        · exact h1
    | some circ =>
      simp only
      have hcond : (!circ.constraints.isEmpty || (succs rc.edges v).any
          (fun o => (hasConstraintSet rc order).contains o)) = true ↔ Reaches rc v := by
        rw [reaches_iff]
        simp only [Bool.or_eq_true, Bool.not_eq_true', List.isEmpty_eq_false_iff, List.any_eq_true,
          List.contains_iff_mem, hg, Option.some.injEq]
        constructor
        · rintro (h | ⟨o, h1, h2⟩)
          · exact Or.inl ⟨circ, rfl, h⟩
          · exact Or.inr ⟨o, (mem_succs_edges hk).1 h1, ((ih o).1 h2).2⟩
        · rintro (⟨circ', rfl, h⟩ | ⟨o, h1, h2⟩)
          · exact Or.inl h
          · exact Or.inr ⟨o, (mem_succs_edges hk).2 h1, (ih o).2 ⟨hv o h1, h2⟩⟩
      by_cases hr : Reaches rc v
      · rw [if_pos (hcond.2 hr)]
        simp only [List.mem_cons, ih]
        constructor
        · rintro (rfl | ⟨h1, h2⟩)
          · exact ⟨Or.inl rfl, hr⟩
          · exact ⟨Or.inr h1, h2⟩
        · rintro ⟨rfl | h1, h2⟩
          · exact Or.inl rfl
          · exact Or.inr ⟨h1, h2⟩
      · rw [if_neg (fun h => hr (hcond.1 h)), ih]
        constructor
        · rintro ⟨h1, h2⟩; exact ⟨by simp [h1], h2⟩
        · rintro ⟨h1, h2⟩
          refine ⟨?_, h2⟩
          rcases List.mem_cons.1 h1 with rfl | h1
          · exact absurd h2 hr
          · exact h1

theorem acyclic_iff {rc : RootCircuit L} (hk : rc.vertices.Nodup) :
    Acyclic rc.edges ↔ ∃ r : Nat → Nat, ∀ c d, Calls rc.get c d → r d < r c := by
  unfold Acyclic
  simp only [mem_succs_edges hk]

theorem ordered_suffix {rc : RootCircuit L} (hk : rc.vertices.Nodup) {q : List Nat} (ho : Ordered rc.edges q)
    (hm : ∀ v, v ∈ rc.vertices → v ∈ q) (hn : q.Nodup)
    (hc : ∀ c circ, rc.get c = some circ → CallsOk rc.get circ.instructions) :
    ∀ l1 v l2, q = l1 ++ v :: l2 → ∀ w, Calls rc.get v w → w ∈ l2 := by
  intro l1 v l2 he w hw
  have hwq : w ∈ q := by
    obtain ⟨circ, hg, i, hi, a, n, hcall⟩ := hw
    obtain ⟨sub, hs, _⟩ := hc v circ hg i hi _ _ _ hcall
    exact hm w (mem_vertices_iff.2 ⟨sub, hs⟩)
  obtain ⟨m1, m2, hq⟩ := List.append_of_mem hwq
  have hv : v ∈ m1 := ho m1 w m2 hq v ((mem_succs_edges hk).2 hw)
  rw [he] at hn hwq
  rcases List.mem_append.1 hwq with h | h
  · -- w in l1: then v precedes w precedes v
    exfalso
    obtain ⟨k1, k2, hk'⟩ := List.append_of_mem h
    have hv1 : v ∈ k1 := ho k1 w (k2 ++ v :: l2) (by rw [he, hk']; simp) v ((mem_succs_edges hk).2 hw)
    have := (List.nodup_append.1 hn).2.2 v (by rw [hk']; simp [hv1]) v (by simp)
    exact this rfl
  · rcases List.mem_cons.1 h with rfl | h
    · exfalso
      have hv1 := ho l1 w l2 he w ((mem_succs_edges hk).2 hw)
      exact (List.nodup_append.1 hn).2.2 w hv1 w (by simp) rfl
    · exact h

/-- `validate` accepts exactly the well-formed circuits. -/
theorem validate_iff (rc : RootCircuit L) (hk : rc.vertices.Nodup) : rc.validate = true ↔ WF rc := by
  constructor
  · intro h
    unfold RootCircuit.validate at h
    cases hg : rc.get 0 with
    | none => simp [hg] at h
    | some root =>
      simp only [hg, Bool.and_eq_true, List.all_eq_true] at h
      obtain ⟨⟨h1, h2⟩, h3⟩ := h
      have hcalls := (validateCalls_iff hk).1 h2
      have g := goodGraph hk hcalls
      obtain ⟨q, hq, hnd, hsub, hord, hac⟩ := topoOrder_spec g
      simp only [topoOrderAndIsDag, hq, Option.map_some, Bool.and_eq_true, beq_iff_eq, Bool.or_eq_true,
        decide_eq_true_eq] at h3
      obtain ⟨⟨h4, h5⟩, h6⟩ := h3
      have hmem : ∀ v, v ∈ rc.vertices → v ∈ q := by
        have hp := (hnd.subperm (fun v hv => hsub v hv)).perm_of_length_le (by omega)
        intro v hv; exact hp.mem_iff.2 hv
      refine ⟨⟨?_, hcalls, (acyclic_iff hk).1 (hac.1 h4)⟩, root, hg, h6, ?_⟩
      · intro c circ hc
        exact (validateRefs_iff _ _).1 (h1 _ (mem_of_get hc))
      · intro hout
        rw [hout] at h5
        simp only [List.isEmpty_nil, Bool.not_true, Bool.false_eq_true, false_or, List.contains_iff_mem] at h5
        have := (hasConstraintSet_spec hk q hnd (ordered_suffix hk hord hmem hnd hcalls) 0).1 h5
        exact this.2
  · rintro ⟨⟨h1, hcalls, hd⟩, root, hg, hz, hne⟩
    have g := goodGraph hk hcalls
    obtain ⟨q, hq, hnd, hsub, hord, hac⟩ := topoOrder_spec g
    have h4 := hac.2 ((acyclic_iff hk).2 hd)
    have hmem : ∀ v, v ∈ rc.vertices → v ∈ q := by
      have hp := (hnd.subperm (fun v hv => hsub v hv)).perm_of_length_le (by omega)
      intro v hv; exact hp.mem_iff.2 hv
    unfold RootCircuit.validate
    simp only [hg, topoOrderAndIsDag, hq, Option.map_some, Bool.and_eq_true, List.all_eq_true, beq_iff_eq,
      Bool.or_eq_true, decide_eq_true_eq]
    refine ⟨⟨?_, (validateCalls_iff hk).2 hcalls⟩, ⟨h4, ?_⟩, hz⟩
    · intro p hp
      exact (validateRefs_iff _ _).2 (h1 p.1 p.2 (get_of_mem hk hp))
    · by_cases hout : root.outputs = []
      · right
        rw [List.contains_iff_mem]
        exact (hasConstraintSet_spec hk q hnd (ordered_suffix hk hord hmem hnd hcalls) 0).2
          ⟨hmem 0 (mem_vertices_iff.2 ⟨root, hg⟩), hne hout⟩
      · left; simpa using hout

end Verif.IR
