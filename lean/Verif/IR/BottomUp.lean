import Verif.IR.Compose
import Verif.IR.Validate

/-!
# Passes that visit the circuits in reverse topological order

Several passes run `for id in self.topo_order().iter().rev()` and accumulate a table of results for the circuits visited so
far.  `bottomUp` is that loop, and `bottomUp_spec` says that the table is a solution of the recursive equation.
-/

set_option linter.unusedSectionVars false

namespace Verif.IR

open Verif.Utils

/-- The loop `for id in order.iter().rev() { table.insert(id, f(&table, circuits[id])) }`; the head of the list is the first
circuit of the topological order, so it is processed last. -/
def bottomUp {α β : Type} (get : Nat → Option α) (f : (Nat → Option β) → Nat → α → β) : List Nat → List (Nat × β)
  | [] => []
  | c :: cs =>
    let t := bottomUp get f cs
    match get c with
    | none => t
    | some a => (c, f (fun d => t.lookup d) c a) :: t

section
variable {α β : Type} {get : Nat → Option α} {f : (Nat → Option β) → Nat → α → β}

theorem bottomUp_keys : ∀ (l : List Nat), (bottomUp get f l).map Prod.fst = l.filter (fun c => (get c).isSome) := by
  intro l
  induction l with
  | nil => rfl
  | cons c l ih =>
    simp only [bottomUp, List.filter_cons]
    cases hg : get c with
    | none => simp [ih]
    | some a => simp [ih]

theorem lookup_none_of_not_mem {γ : Type} : ∀ {l : List (Nat × γ)} {c : Nat}, c ∉ l.map Prod.fst → l.lookup c = none := by
  intro l
  induction l with
  | nil => intro c _; rfl
  | cons p l ih =>
    intro c h
    simp only [List.map_cons, List.mem_cons, not_or] at h
    obtain ⟨a, b⟩ := p
    rw [List.lookup_cons, ih h.2]
    have : (c == a) = false := by simpa using h.1
    rw [this]

theorem bottomUp_not_mem {l : List Nat} {c : Nat} (h : c ∉ l) : (bottomUp get f l).lookup c = none := by
  refine lookup_none_of_not_mem ?_
  rw [bottomUp_keys]
  exact fun hm => h (List.mem_filter.1 hm).1

theorem bottomUp_suffix : ∀ (l1 l2 : List Nat) (d : Nat), (l1 ++ l2).Nodup → d ∈ l2 →
    (bottomUp get f (l1 ++ l2)).lookup d = (bottomUp get f l2).lookup d := by
  intro l1
  induction l1 with
  | nil => intro l2 d _ _; rfl
  | cons c l1 ih =>
    intro l2 d hn hd
    rw [List.cons_append] at hn ⊢
    have hn' := List.nodup_cons.1 hn
    simp only [bottomUp]
    cases hg : get c with
    | none => exact ih l2 d hn'.2 hd
    | some a =>
      simp only
      rw [List.lookup_cons]
      have : (d == c) = false := by
        have : d ≠ c := by rintro rfl; exact hn'.1 (by simp [hd])
        simpa using this
      rw [this]; exact ih l2 d hn'.2 hd

/-- The table satisfies the recursive equation. -/
theorem bottomUp_spec {dep : Nat → Nat → Prop} {order : List Nat} (hn : order.Nodup)
    (hs : ∀ l1 v l2, order = l1 ++ v :: l2 → ∀ w, dep v w → w ∈ l2)
    (hl : ∀ g g' c a, get c = some a → (∀ d, dep c d → g d = g' d) → f g c a = f g' c a)
    {c : Nat} {a : α} (hc : c ∈ order) (hg : get c = some a) :
    (bottomUp get f order).lookup c = some (f (fun d => (bottomUp get f order).lookup d) c a) := by
  obtain ⟨l1, l2, rfl⟩ := List.append_of_mem hc
  have hsub : ∀ d, d ∈ l2 → (bottomUp get f (l1 ++ c :: l2)).lookup d = (bottomUp get f l2).lookup d := by
    intro d hd
    have := bottomUp_suffix (get := get) (f := f) (l1 ++ [c]) l2 d (by simpa using hn) hd
    simpa using this
  rw [bottomUp_suffix l1 (c :: l2) c hn (by simp)]
  simp only [bottomUp, hg, List.lookup_cons, beq_self_eq_true]
  congr 1
  refine hl _ _ c a hg (fun d hd => ?_)
  exact (hsub d (hs l1 c l2 rfl d hd)).symm

end

variable {F : Type} [Field F] {L : Lang F} {npi : Option Nat}

/-- The topological order of a well-formed circuit family. -/
theorem topo_of_wf (rc : RootCircuit L) (hk : rc.vertices.Nodup) (hw : WFGet npi rc.get) :
    ∃ q, topoOrder rc.vertices rc.edges = some q ∧ q.Nodup ∧ (∀ v, v ∈ q ↔ ∃ circ, rc.get v = some circ) ∧
      (∀ l1 v l2, q = l1 ++ v :: l2 → ∀ w, Calls rc.get v w → w ∈ l2) := by
  have hcalls := hw.calls
  have g := goodGraph hk hcalls
  obtain ⟨q, hq, hnd, hsub, hord, hac⟩ := topoOrder_spec g
  have hlen := hac.2 ((acyclic_iff hk).2 hw.dag)
  have hp := (hnd.subperm (fun v hv => hsub v hv)).perm_of_length_le (by omega)
  refine ⟨q, hq, hnd, fun v => by rw [hp.mem_iff]; exact mem_vertices_iff, ?_⟩
  exact ordered_suffix hk hord (fun v hv => hp.mem_iff.2 hv) hnd hcalls

/-- A pass that maps every circuit through a bottom-up table. -/
def mapBottomUp {L' : Lang F} {β : Type} (rc : RootCircuit L) (f : (Nat → Option β) → Nat → Circuit L → β)
    (out : β → Circuit L') : Option (RootCircuit L') :=
  match topoOrder rc.vertices rc.edges with
  | none => none
  | some order => some ⟨rc.numPublicInputs, rc.expectedNumOutputZeroes,
      (bottomUp rc.get f order).map (fun p => (p.1, out p.2))⟩

theorem lookup_map_snd {γ δ : Type} (g : γ → δ) : ∀ (l : List (Nat × γ)) (c : Nat),
    (l.map (fun p => (p.1, g p.2))).lookup c = (l.lookup c).map g := by
  intro l
  induction l with
  | nil => intro c; rfl
  | cons p l ih =>
    intro c
    obtain ⟨a, b⟩ := p
    simp only [List.map_cons, List.lookup_cons, ih]
    cases (c == a) <;> rfl

theorem mapBottomUp_spec {L' : Lang F} {β : Type} (rc : RootCircuit L) (hk : rc.vertices.Nodup)
    (hw : WFGet npi rc.get) (f : (Nat → Option β) → Nat → Circuit L → β) (out : β → Circuit L')
    (hl : ∀ g g' c circ, rc.get c = some circ → (∀ d, Calls rc.get c d → g d = g' d) → f g c circ = f g' c circ) :
    ∃ (rc' : RootCircuit L') (tab : Nat → Option β), mapBottomUp rc f out = some rc' ∧ rc'.vertices.Nodup ∧
      rc'.numPublicInputs = rc.numPublicInputs ∧ rc'.expectedNumOutputZeroes = rc.expectedNumOutputZeroes ∧
      (∀ c, tab c = (rc.get c).map (f tab c)) ∧ (∀ c, rc'.get c = (tab c).map out) := by
  obtain ⟨q, hq, hn, hm, hs⟩ := topo_of_wf rc hk hw
  refine ⟨⟨rc.numPublicInputs, rc.expectedNumOutputZeroes, (bottomUp rc.get f q).map (fun p => (p.1, out p.2))⟩,
    fun c => (bottomUp rc.get f q).lookup c, by simp only [mapBottomUp, hq], ?_, rfl, rfl, ?_, ?_⟩
  · simp only [RootCircuit.vertices, List.map_map, Function.comp_def]
    have := bottomUp_keys (get := rc.get) (f := f) q
    rw [show (fun x : Nat × β => x.1) = Prod.fst from rfl, this]; exact hn.filter _
  · intro c
    show (bottomUp rc.get f q).lookup c = _
    cases hg : rc.get c with
    | none =>
      rw [bottomUp_not_mem]; rfl
      intro h; obtain ⟨circ, h⟩ := (hm c).1 h; rw [hg] at h; cases h
    | some circ =>
      rw [bottomUp_spec hn hs hl ((hm c).2 ⟨circ, hg⟩) hg]; rfl
  · intro c
    simp only [RootCircuit.get]
    exact lookup_map_snd out _ _

end Verif.IR
