import Verif.Compile.Track

/-!
# The same circuit under another semantics of its primitive instructions

The compiler only looks at the text of circuits.  `recast p` reads a circuit with `p` as the meaning of the primitive instructions, and the passes commute with it.
-/

set_option linter.unusedSectionVars false
set_option linter.unusedSimpArgs false

namespace Verif.IR

open Verif.Utils Verif.Compile

variable {F : Type} [Field F] [DecidableEq F] {L : Lang F}

/-- The language with another meaning of the primitive instructions and another instruction check in validation. -/
@[reducible] def Lang.withPrim (L : Lang F) (p : L.Insn → (Nat → Option F) → List F → Prop) (v : Nat → L.Insn → Bool) : Lang F :=
  { L with prim := p, validInsn := v }

variable {p : L.Insn → (Nat → Option F) → List F → Prop} {v : Nat → L.Insn → Bool}

/-- The same constraint. -/
def Constraint.recast (p : L.Insn → (Nat → Option F) → List F → Prop) (v : Nat → L.Insn → Bool) (k : Constraint L) : Constraint (L.withPrim p v) := ⟨k.typ, k.var⟩

/-- The same circuit. -/
def Circuit.recast (p : L.Insn → (Nat → Option F) → List F → Prop) (v : Nat → L.Insn → Bool) (c : Circuit L) : Circuit (L.withPrim p v) :=
  ⟨c.instructions, c.constraints.map (Constraint.recast p v), c.outputs, c.numInputs⟩

/-- The same root circuit. -/
def RootCircuit.recast (p : L.Insn → (Nat → Option F) → List F → Prop) (v : Nat → L.Insn → Bool) (rc : RootCircuit L) : RootCircuit (L.withPrim p v) :=
  ⟨rc.numPublicInputs, rc.expectedNumOutputZeroes, rc.circuits.map (fun q => (q.1, q.2.recast p v))⟩

theorem recast_get (rc : RootCircuit L) (c : Nat) : (rc.recast p v).get c = (rc.get c).map (Circuit.recast p v) :=
  lookup_map_snd (Circuit.recast p v) rc.circuits c

theorem recast_vertices (rc : RootCircuit L) : (rc.recast p v).vertices = rc.vertices := by
  simp [RootCircuit.vertices, RootCircuit.recast, List.map_map, Function.comp_def]

theorem recast_edges (rc : RootCircuit L) : (rc.recast p v).edges = rc.edges := by
  simp only [RootCircuit.edges, RootCircuit.recast, List.map_map, Function.comp_def]
  rfl

theorem recast_used (rc : RootCircuit L) (order : List Nat) : usedCircuits (rc.recast p v) order = usedCircuits rc order := by
  have : usedStep (rc.recast p v) = usedStep rc := by
    funext used c
    unfold usedStep
    rw [recast_get]
    cases rc.get c <;> rfl
  simp only [usedCircuits, this]

theorem recast_queue (rc : RootCircuit L) (order : List Nat) : initQueue (rc.recast p v) order = initQueue rc order := by
  unfold initQueue
  congr 1
  · congr 1
    funext c
    rw [recast_get]
    cases rc.get c with
    | none => rfl
    | some circ => simp [Circuit.recast, Constraint.recast, List.map_map, Function.comp_def]
  · rw [recast_get]
    cases rc.get 0 <;> rfl

theorem insnEdges_recast (c : Nat) : ∀ (is : List L.Insn) (i cur : Nat), insnEdges (L.withPrim p v) c i cur is = insnEdges L c i cur is := by
  intro is
  induction is with
  | nil => intro i cur; rfl
  | cons x is ih =>
    intro i cur
    simp only [insnEdges]
    rw [show insnEdges (L.withPrim p v) c (i + 1) (cur + L.numOutputs x) is = _ from ih _ _]
    rfl

theorem insnDuals_recast (c : Nat) : ∀ (is : List L.Insn) (i : Nat), insnDuals (L.withPrim p v) c i is = insnDuals L c i is := by
  intro is
  induction is with
  | nil => intro i; rfl
  | cons x is ih =>
    intro i
    simp only [insnDuals]
    rw [show insnDuals (L.withPrim p v) c (i + 1) is = _ from ih _]
    rfl

theorem recast_allEdges (rc : RootCircuit L) (order : List Nat) : allEdges (rc.recast p v) order = allEdges rc order := by
  unfold allEdges
  congr 1
  funext c
  rw [recast_get]
  cases rc.get c with
  | none => rfl
  | some circ =>
    show insnEdges (L.withPrim p v) c 0 circ.numInputs circ.instructions ++ _ = _
    rw [insnEdges_recast]; rfl

theorem recast_allDuals (rc : RootCircuit L) (order : List Nat) : allDuals (rc.recast p v) order = allDuals rc order := by
  unfold allDuals
  congr 1
  funext c
  rw [recast_get]
  cases rc.get c with
  | none => rfl
  | some circ => exact insnDuals_recast _ _ _

theorem rebuildInsns_recast (vis : Elem → Bool) (c : Nat) : ∀ (is : List L.Insn) (i : Nat) (s : List (Option Nat) × Nat),
    rebuildInsns (L.withPrim p v) vis c i is s = rebuildInsns L vis c i is s := by
  intro is
  induction is with
  | nil => intro i s; rfl
  | cons x is ih =>
    intro i s
    simp only [rebuildInsns]
    by_cases h : vis (eI c i) = false
    · rw [if_pos h, if_pos h]; exact ih _ _
    · rw [if_neg h, if_neg h]
      cases hc : L.asCall x with
      | none =>
        simp only
        rw [show rebuildInsns (L.withPrim p v) vis c (i + 1) is (pushMany (List.replicate (L.numOutputs x) true) s) = _ from ih _ _]
      | some t =>
        obtain ⟨d, a, n⟩ := t
        simp only
        rw [show rebuildInsns (L.withPrim p v) vis c (i + 1) is (pushMany ((List.range n).map fun j => vis (eO d j)) s) = _ from ih _ _]

theorem rebuildCircuit_recast (vis : Elem → Bool) (c : Nat) (circ : Circuit L) :
    rebuildCircuit vis c (circ.recast p v) = (rebuildCircuit vis c circ).recast p v := by
  unfold rebuildCircuit
  dsimp only [Circuit.recast]
  rw [rebuildInsns_recast]
  simp only [List.map_map, Function.comp_def]
  rfl

theorem removeUnreachable_recast (rc : RootCircuit L) :
    removeUnreachable (rc.recast p v) = (removeUnreachable rc).map (fun q => (q.1.recast p v, q.2)) := by
  unfold removeUnreachable
  rw [recast_vertices, recast_edges]
  cases topoOrder rc.vertices rc.edges with
  | none => rfl
  | some order0 =>
    simp only [recast_used, recast_queue, recast_allEdges, recast_allDuals]
    rw [recast_get]
    generalize order0.filter _ = order
    generalize bfs _ _ _ _ _ = o
    cases rc.get 0 with
    | none => cases o <;> rfl
    | some root =>
      cases o with
      | none => rfl
      | some visited =>
        simp only [Option.map_some, Option.some.injEq, Prod.mk.injEq]
        refine ⟨?_, rfl⟩
        simp only [RootCircuit.recast, List.map_filterMap]
        congr 1
        congr 1
        funext c
        rw [show (⟨rc.numPublicInputs, rc.expectedNumOutputZeroes, rc.circuits.map (fun q => (q.1, q.2.recast p v))⟩ : RootCircuit (L.withPrim p v)) = rc.recast p v from rfl]
        rw [recast_get]
        cases rc.get c with
        | none => rfl
        | some circ => simp [rebuildCircuit_recast]

/-! ### Reassigning -/

theorem hasDup_recast (rc : RootCircuit L) : (rc.recast p v).hasDupOutputs = rc.hasDupOutputs := by
  simp only [RootCircuit.hasDupOutputs, RootCircuit.recast, List.any_map]
  rfl

theorem reassignInsns_recast (om : Nat → List Nat) : ∀ (is : List L.Insn) (vm : List Nat), reassignInsns (L.withPrim p v) om is vm = reassignInsns L om is vm := by
  intro is
  induction is with
  | nil => intro vm; rfl
  | cons x is ih =>
    intro vm
    unfold reassignInsns
    dsimp only
    rw [ih]

theorem freshOutputs_recast (outs : List Nat) : ∀ (os : List Nat) (i vmax : Nat), freshOutputs (L.withPrim p v) outs i vmax os = freshOutputs L outs i vmax os := by
  intro os
  induction os with
  | nil => intro i vmax; rfl
  | cons o os ih =>
    intro i vmax
    unfold freshOutputs
    rw [ih, ih]

theorem reassignCircuit_recast (om : Nat → List Nat) (fresh : Bool) (circ : Circuit L) :
    reassignCircuit om fresh (circ.recast p v) = ((reassignCircuit om fresh circ).1.recast p v, (reassignCircuit om fresh circ).2) := by
  unfold reassignCircuit
  dsimp only [Circuit.recast]
  rw [reassignInsns_recast]
  cases fresh with
  | true =>
    simp only [if_true]
    rw [freshOutputs_recast]
    simp only [Circuit.recast, List.map_map, Function.comp_def]
    rfl
  | false =>
    simp only [Bool.false_eq_true, if_false]
    simp only [Circuit.recast, List.map_map, Function.comp_def]
    rfl

theorem bottomUp_map {α α' β β' : Type} {get : Nat → Option α} (ca : α → α') (cb : β → β') {f : (Nat → Option β) → Nat → α → β} {f' : (Nat → Option β') → Nat → α' → β'}
    (h : ∀ t c a, f' (fun d => (t d).map cb) c (ca a) = cb (f t c a)) : ∀ l : List Nat,
    bottomUp (fun c => (get c).map ca) f' l = (bottomUp get f l).map (fun q => (q.1, cb q.2)) := by
  intro l
  induction l with
  | nil => rfl
  | cons c l ih =>
    simp only [bottomUp]
    cases get c with
    | none => simpa using ih
    | some a =>
      simp only [Option.map_some, List.map_cons, ih]
      congr 2
      rw [← h]
      congr 1
      funext d
      exact lookup_map_snd cb _ _

theorem reassign_recast (rc : RootCircuit L) (force : Bool) : reassign (rc.recast p v) force = (reassign rc force).map (RootCircuit.recast p v) := by
  unfold reassign
  rw [hasDup_recast]
  split
  · unfold mapBottomUp
    rw [recast_vertices, recast_edges]
    cases topoOrder rc.vertices rc.edges with
    | none => rfl
    | some order =>
      simp only [Option.map_some, Option.some.injEq]
      have : (rc.recast p v).get = fun c => (rc.get c).map (Circuit.recast p v) := funext fun c => recast_get rc c
      rw [this, bottomUp_map (Circuit.recast p v) (fun q => (q.1.recast p v, q.2)) (f := fun tab c circ => reassignCircuit (omGet tab) (c == 0 || force) circ)]
      · simp only [RootCircuit.recast, List.map_map, Function.comp_def]
      · intro t c a
        rw [← reassignCircuit_recast]
        congr 1
        funext d
        simp only [omGet, Option.map_map]
        rfl
  · rfl

theorem cleanup_recast (rc : RootCircuit L) : cleanup (rc.recast p v) = (cleanup rc).map (fun q => (q.1.recast p v, q.2)) := by
  unfold cleanup
  rw [removeUnreachable_recast]
  cases removeUnreachable rc with
  | none => rfl
  | some q =>
    obtain ⟨r, im⟩ := q
    simp only [Option.map_some]
    rw [reassign_recast]
    cases reassign r false <;> rfl

/-! ### The optimisation loop -/

section
variable {T T' : Type} (c : T → T') {f : T → Option (T × InputMapping)} {f' : T' → Option (T' × InputMapping)} {eq : T → T → Bool} {eq' : T' → T' → Bool}

/-- The image of the outcome of a loop. -/
def Loop.map (c : T → T') : Loop (T × InputMapping) → Loop (T' × InputMapping)
  | .done q => .done (c q.1, q.2)
  | .panic => .panic
  | .running => .running

theorem optLoop_map (hf : ∀ x, f' (c x) = (f x).map (fun q => (c q.1, q.2))) (he : ∀ x y, eq' (c x) (c y) = eq x y) : ∀ (fuel : Nat) (x : T) (im : InputMapping),
    optLoop eq' f' fuel (c x) im = Loop.map c (optLoop eq f fuel x im) := by
  intro fuel
  induction fuel with
  | zero => intro x im; rfl
  | succ n ih =>
    intro x im
    simp only [optLoop, hf]
    cases f x with
    | none => rfl
    | some q =>
      obtain ⟨y, imy⟩ := q
      simp only [Option.map_some, he]
      split
      · rfl
      · cases im.composeInPlace imy with
        | none => rfl
        | some im' => exact ih _ _

theorem optimize_map (hf : ∀ x, f' (c x) = (f x).map (fun q => (c q.1, q.2))) (he : ∀ x y, eq' (c x) (c y) = eq x y) (fuel : Nat) (x : T) (im : InputMapping) :
    optimizeUntilFixedPoint eq' f' fuel (c x) im = Loop.map c (optimizeUntilFixedPoint eq f fuel x im) := by
  simp only [optimizeUntilFixedPoint, hf]
  cases f x with
  | none => rfl
  | some q =>
    obtain ⟨y, imy⟩ := q
    simp only [Option.map_some, he]
    split
    · rfl
    · cases im.composeInPlace imy with
      | none => rfl
      | some im' => exact optLoop_map c hf he _ _ _
end

theorem recast_inj {a b : Circuit L} (h : a.recast p v = b.recast p v) : a = b := by
  obtain ⟨i1, c1, o1, n1⟩ := a
  obtain ⟨i2, c2, o2, n2⟩ := b
  simp only [Circuit.recast, Circuit.mk.injEq] at h ⊢
  refine ⟨h.1, ?_, h.2.2.1, h.2.2.2⟩
  refine List.map_injective_iff.2 ?_ h.2.1
  rintro ⟨t1, v1⟩ ⟨t2, v2⟩ h
  simp only [Constraint.recast, Constraint.mk.injEq] at h ⊢
  exact h

theorem rcEq_recast [DecidableEq L.Insn] [DecidableEq L.Con] (a b : RootCircuit L) :
    rcEq (L := L.withPrim p v) (a.recast p v) (b.recast p v) = rcEq a b := by
  unfold rcEq
  have h : (a.recast p v).circuits.all (fun q => decide ((b.recast p v).get q.1 = some q.2)) = a.circuits.all (fun q => decide (b.get q.1 = some q.2)) := by
    show (a.circuits.map (fun q => (q.1, q.2.recast p v))).all _ = _
    rw [List.all_map]
    congr 1
    funext q
    simp only [Function.comp_def]
    rw [decide_eq_decide, recast_get]
    constructor
    · intro h
      obtain ⟨k, hk, e⟩ := Option.map_eq_some_iff.1 h
      rw [hk, recast_inj e]
    · intro h; rw [h]; rfl
  rw [h]
  simp only [RootCircuit.recast, List.length_map]
  rfl

/-! ### Evaluation -/

theorem checkCons_recast (vs : List F) : ∀ cs : List (Constraint L), checkCons vs (cs.map (Constraint.recast p v)) = checkCons vs cs := by
  intro cs
  induction cs with
  | nil => rfl
  | cons k cs ih => simp only [List.map_cons, checkCons, ih]; rfl

/-- `p` allows everything the language allows, on the instructions of the circuit. -/
def PrimLe (p : L.Insn → (Nat → Option F) → List F → Prop) (get : Nat → Option (Circuit L)) : Prop :=
  ∀ c circ, get c = some circ → ∀ i ∈ circ.instructions, L.asCall i = none → ∀ val outs, L.prim i val outs → p i val outs

/-- The language allows everything `p` allows, on the instructions of the circuit. -/
def PrimGe (p : L.Insn → (Nat → Option F) → List F → Prop) (get : Nat → Option (Circuit L)) : Prop :=
  ∀ c circ, get c = some circ → ∀ i ∈ circ.instructions, L.asCall i = none → ∀ val outs, p i val outs → L.prim i val outs

theorem run_recast {get : Nat → Option (Circuit L)} (hp : PrimLe p get) {is : List L.Insn} {vs vs' : List F} {b : Bool} (h : Run get is vs vs' b) :
    (∀ i ∈ is, L.asCall i = none → ∀ val outs, L.prim i val outs → p i val outs) → Run (L := L.withPrim p v) (fun c => (get c).map (Circuit.recast p v)) is vs vs' b := by
  induction h with
  | nil vs => intro _; exact .nil _
  | prim hc hpr _ ih =>
    intro hi
    exact .prim (L := L.withPrim p v) hc (hi _ (by simp) hc _ _ hpr) (ih fun i h => hi i (by simp [h]))
  | call hc hg ha hs hk ho _ ih1 ih2 =>
    intro hi
    rename_i circ _
    refine .call (L := L.withPrim p v) (circ := circ.recast p v) hc ?_ ha (ih1 (hp _ _ hg)) ?_ ho (ih2 fun i h => hi i (by simp [h]))
    · simp [hg]
    · exact (checkCons_recast _ _).trans hk

theorem eval_recast {rc : RootCircuit L} (hp : PrimLe p rc.get) {ins outs : List F} {b : Bool} (h : Eval rc ins outs b) : Eval (rc.recast p v) ins outs b := by
  obtain ⟨root, all, b0, hg, hl, ⟨vs, sb, cb, hr, hk, ho, hb⟩, hz, he, hv⟩ := h
  refine ⟨root.recast p v, all, b0, by rw [recast_get, hg]; rfl, hl, ⟨vs, sb, cb, ?_, (checkCons_recast _ _).trans hk, ho, hb⟩, hz, he, hv⟩
  rw [show (rc.recast p v).get = fun c => (rc.get c).map (Circuit.recast p v) from funext (recast_get rc)]
  exact run_recast hp hr (hp _ _ hg)

theorem recast_recast (rc : RootCircuit L) : (rc.recast p v).recast (L := L.withPrim p v) L.prim L.validInsn = rc := by
  obtain ⟨n, k, cs⟩ := rc
  simp only [RootCircuit.recast, List.map_map, Function.comp_def]
  congr 1
  conv_rhs => rw [← List.map_id cs]
  refine List.map_congr_left fun q _ => ?_
  obtain ⟨c, circ⟩ := q
  obtain ⟨i, ks, o, m⟩ := circ
  simp only [Circuit.recast, List.map_map, Function.comp_def, id, Prod.mk.injEq, true_and]
  congr 1
  conv_rhs => rw [← List.map_id ks]
  rfl

theorem eval_recast_back {rc : RootCircuit L} (hp : PrimGe p rc.get) {ins outs : List F} {b : Bool} (h : Eval (rc.recast p v) ins outs b) : Eval rc ins outs b := by
  have := eval_recast (L := L.withPrim p v) (p := L.prim) (v := L.validInsn) (rc := rc.recast p v) ?_ h
  · rwa [recast_recast] at this
  · intro c circ hg i hi hcl val outs ho
    rw [recast_get] at hg
    obtain ⟨k, hk, rfl⟩ := Option.map_eq_some_iff.1 hg
    exact hp c k hk i hi hcl val outs ho

end Verif.IR
