import Verif.Layering.ScheduleOk
import Verif.IR.Validate

/-!
# The table of contexts of a valid root circuit
-/

set_option linter.unusedSectionVars false
set_option linter.unusedSimpArgs false

namespace Verif.Layering

open Verif.IR (Expr Coef Env dest Circuit RootCircuit WFGet CallsOk Calls CircOk InsnsOk numVars)

variable {F : Type} [Field F] [DecidableEq F]

/-- What layering reads of a circuit. -/
def progOf {E : Env F} {relaxed : Bool} (c : Circuit (dest E relaxed)) : Prog F :=
  ⟨c.numInputs, c.instructions, c.constraints.map (·.var), c.outputs⟩

/-- The table layering starts from. -/
def progGet {E : Env F} {relaxed : Bool} (get : Nat → Option (Circuit (dest E relaxed))) (id : Nat) : Option (Prog F) := (get id).map progOf

theorem mapOpt_imp {α β : Type} {f g : α → Option β} : ∀ {l : List α} {r : List β}, mapOpt f l = some r → (∀ a ∈ l, ∀ b, f a = some b → g a = some b) → mapOpt g l = some r := by
  intro l
  induction l with
  | nil => intro r h _; exact h
  | cons a l ih =>
    intro r h hfg
    obtain ⟨b, bs, h1, h2, rfl⟩ := mapOpt_cons.1 h
    exact mapOpt_cons.2 ⟨b, bs, hfg a (by simp) b h1, ih h2 (fun x hx => hfg x (by simp [hx])), rfl⟩

theorem ctxOf_mono {cross : Bool} {get : Nat → Option (Prog F)} : ∀ (f f' id : Nat) (c : Ctx F), ctxOf cross get f id = some c → f ≤ f' → ctxOf cross get f' id = some c := by
  intro f
  induction f with
  | zero => intro f' id c h; cases h
  | succ f ih =>
    intro f' id c h hle
    obtain ⟨f', rfl⟩ : ∃ g, f' = g + 1 := ⟨f' - 1, by omega⟩
    unfold ctxOf at h ⊢
    cases hp : get id with
    | none => rw [hp] at h; cases h
    | some p =>
      rw [hp] at h
      simp only at h ⊢
      cases hm : mapOpt (fun c : Call => ctxOf cross get f c.sub) p.calls with
      | none => rw [hm] at h; cases h
      | some subs =>
        rw [hm] at h
        rw [mapOpt_imp (g := fun c : Call => ctxOf cross get f' c.sub) hm (fun a _ b hb => ih f' a.sub b hb (by omega))]
        exact h

section
variable {E : Env F} {relaxed : Bool}

theorem numVars_defs : ∀ (is : List (Verif.IR.Dest.Insn F)) (n k : Nat), numVars (L := dest E relaxed) n is = n + (defsOf is k).length := by
  intro is
  induction is with
  | nil => intro n k; rfl
  | cons a is ih =>
    intro n k
    rw [Verif.IR.numVars_cons]
    cases a with
    | internal e => rw [ih _ k]; simp [defsOf, Verif.IR.Dest.Insn.numOutputs]; omega
    | call d xs m => rw [ih _ (k + 1)]; simp [defsOf, Verif.IR.Dest.Insn.numOutputs]; omega
    | constantLike d => rw [ih _ k]; simp [defsOf, Verif.IR.Dest.Insn.numOutputs]; omega

theorem argsOk_of {npi : Option Nat} : ∀ (is : List (Verif.IR.Dest.Insn F)) (cur : Nat), InsnsOk (dest E relaxed) npi cur is → ArgsOk is (cur + 1) := by
  intro is
  induction is with
  | nil => intro cur _; trivial
  | cons a is ih =>
    intro cur h
    obtain ⟨h1, h2, h3, h4⟩ := h
    cases a with
    | internal e => exact ⟨fun v hv => by have := h1 v hv; omega, ih _ h4⟩
    | call d xs n =>
      refine ⟨fun v hv => by have := h1 v hv; omega, ?_⟩
      have := ih _ h4
      rwa [show cur + (dest E relaxed).numOutputs (.call d xs n) + 1 = cur + 1 + n by
        show cur + n + 1 = _; omega] at this
    | constantLike d => exact ih _ h4

theorem progOk_of {npi : Option Nat} {c : Circuit (dest E false)} (h : CircOk npi c) : ProgOk (progOf c) := by
  have hn : ∀ x, x ≤ numVars c.numInputs c.instructions ↔ x < (progOf c).nv := by
    intro x
    rw [numVars_defs c.instructions c.numInputs 0]
    simp only [Prog.nv, progOf]; omega
  refine ⟨argsOk_of _ _ h.insns, ?_, ?_, ?_⟩
  · intro x hx
    obtain ⟨k, hk, rfl⟩ := List.mem_map.1 hx
    have := h.cons k hk
    rw [← hn]; omega
  · intro x hx
    have := h.outs x hx
    rw [← hn]; omega
  · rcases h.outsNodup with h | h
    · cases h
    · exact h

/-- Calls seen by layering are the calls of the circuit. -/
theorem calls_mem : ∀ (is : List (Verif.IR.Dest.Insn F)) (cur : Nat) (q : Call), q ∈ callsOf is cur →
    ∃ n, Verif.IR.Dest.Insn.call q.sub q.inputs n ∈ is ∧ q.outputs.length = n := by
  intro is
  induction is with
  | nil => intro cur q h; cases h
  | cons a is ih =>
    intro cur q h
    cases a with
    | internal e => obtain ⟨n, h1, h2⟩ := ih _ q h; exact ⟨n, by simp [h1], h2⟩
    | constantLike e => obtain ⟨n, h1, h2⟩ := ih _ q h; exact ⟨n, by simp [h1], h2⟩
    | call d xs n =>
      rcases List.mem_cons.1 h with rfl | h
      · exact ⟨n, by simp, by simp⟩
      · obtain ⟨n, h1, h2⟩ := ih _ q h; exact ⟨n, by simp [h1], h2⟩

end

section
variable {E : Env F} {npi : Option Nat} {get : Nat → Option (Circuit (dest E false))} {cross : Bool}

theorem calls_of {id : Nat} {circ : Circuit (dest E false)} (h : get id = some circ) {k : Nat} {q : Call} (hq : (progOf circ).calls[k]? = some q) : Calls get id q.sub := by
  obtain ⟨n, h1, -⟩ := calls_mem _ _ q (List.mem_of_getElem? hq)
  exact ⟨circ, h, _, h1, q.inputs, n, rfl⟩

/-- One step of the table. -/
theorem table_step (hw : WFGet npi get) {fuel f id : Nat} {c : Ctx F} (hf : f ≤ fuel) (h : ctxOf cross (progGet get) f id = some c) :
    ∃ circ subs, get id = some circ ∧ ProgOk (progOf circ) ∧ computeCtx cross (id == 0) (progOf circ) subs = some c ∧ c.prog = progOf circ ∧
      (∀ (k : Nat) (q : Call), (progOf circ).calls[k]? = some q → ∃ s f', f' < f ∧ subs[k]? = some s ∧ ctxOf cross (progGet get) f' q.sub = some s ∧
        ctxOf cross (progGet get) fuel q.sub = some s ∧ ∃ sub, get q.sub = some sub ∧ q.outputs.length = sub.outputs.length ∧ q.inputs.length = sub.numInputs) := by
  cases f with
  | zero => cases h
  | succ f =>
    unfold ctxOf at h
    cases hp : progGet get id with
    | none => rw [hp] at h; cases h
    | some p =>
      rw [hp] at h
      simp only at h
      obtain ⟨circ, hcirc, rfl⟩ := Option.map_eq_some_iff.1 hp
      cases hm : mapOpt (fun c : Call => ctxOf cross (progGet get) f c.sub) (progOf circ).calls with
      | none => rw [hm] at h; cases h
      | some subs =>
        rw [hm] at h
        refine ⟨circ, subs, hcirc, progOk_of (hw.circ id circ hcirc), h, (parts_of h).prog, ?_⟩
        intro k q hq
        have h1 := mapOpt_getElem? hm k q hq
        have hk : k < subs.length := by
          have := mapOpt_length hm
          have := (List.getElem?_eq_some_iff.1 hq).1
          omega
        rw [List.getElem?_eq_getElem hk] at h1
        refine ⟨_, f, by omega, List.getElem?_eq_getElem hk, h1, ctxOf_mono _ _ _ _ h1 (by omega), ?_⟩
        obtain ⟨n, h2, h3⟩ := calls_mem _ _ q (List.mem_of_getElem? hq)
        obtain ⟨sub, h4, h5, h6⟩ := hw.calls id circ hcirc _ h2 q.sub q.inputs n rfl
        exact ⟨sub, h4, by omega, h5⟩

/-- Every context of the table is usable. -/
theorem table_ok (hw : WFGet npi get) {fuel : Nat} : ∀ (f id : Nat) (c : Ctx F), f ≤ fuel → ctxOf cross (progGet get) f id = some c →
    CtxOk (ctxOf cross (progGet get) fuel) c := by
  intro f
  induction f with
  | zero => intro id c _ h; cases h
  | succ f ih =>
    intro id c hf h
    obtain ⟨circ, subs, h1, h2, h3, h4, h5⟩ := table_step hw hf h
    refine ctxOk h2 ⟨fun k q hq => ?_⟩ (parts_of h3)
    obtain ⟨s, f', g1, g2, g3, g4, sub, g5, g6, g7⟩ := h5 k q hq
    have ok := ih q.sub s (by omega) (ctxOf_mono _ f _ _ g3 (by omega))
    obtain ⟨circ', subs', e1, e2, e3, e4, -⟩ := table_step hw (fuel := fuel) (f := f') (by omega) g3
    rw [g5] at e1; cases e1
    refine ⟨s, g2, g4, ?_, ?_, ok.outPos⟩
    · rw [e4]; exact g6
    · rw [e4]; exact g7

/-- A tree of calls all of whose contexts cover their constraints. -/
inductive CcTree (tab : Nat → Option (Ctx F)) : Bool → Nat → Prop
  | mk {root : Bool} {id : Nat} {c : Ctx F} (hc : tab id = some c) (ok : CcOk tab root c)
      (h : ∀ (k : Nat) (q : Call), c.prog.calls[k]? = some q → CcTree tab false q.sub) : CcTree tab root id

theorem CcTree.tree {tab : Nat → Option (Ctx F)} {root : Bool} {id : Nat} (h : CcTree tab root id) : Tree tab id := by
  induction h with
  | mk hc _ _ ih => exact .mk hc ih

/-- Every circuit that can be reached from the root covers its constraints. -/
theorem table_cc (hw : WFGet npi get) {fuel : Nat} : ∀ (f id : Nat) (c : Ctx F), f ≤ fuel → Relation.ReflTransGen (Calls get) 0 id → ctxOf cross (progGet get) f id = some c →
    CcTree (ctxOf cross (progGet get) fuel) (id == 0) id := by
  intro f
  induction f with
  | zero => intro id c _ _ h; cases h
  | succ f ih =>
    intro id c hf hr h
    obtain ⟨circ, subs, h1, h2, h3, h4, h5⟩ := table_step hw hf h
    obtain ⟨r, hrk⟩ := hw.dag
    have hle : ∀ d, Relation.ReflTransGen (Calls get) 0 d → r d ≤ r 0 := by
      intro d hd
      induction hd with
      | refl => exact le_refl _
      | tail _ hs ih => have := hrk _ _ hs; omega
    have key : ∀ (k : Nat) (q : Call), (progOf circ).calls[k]? = some q → (q.sub == 0) = false ∧ CcTree (ctxOf cross (progGet get) fuel) false q.sub := by
      intro k q hq
      obtain ⟨s, f', g1, g2, g3, g4, sub, g5, g6, g7⟩ := h5 k q hq
      have hcall : Calls get id q.sub := calls_of h1 hq
      have hr' := hr.tail hcall
      have hne : (q.sub == 0) = false := by
        rw [beq_eq_false_iff_ne]
        intro e0
        have := hrk _ _ hcall
        rw [e0] at this
        have := hle id hr
        omega
      have := ih q.sub s (by omega) hr' (ctxOf_mono _ f _ _ g3 (by omega))
      rw [hne] at this
      exact ⟨hne, this⟩
    have hsubs : SubsOk (ctxOf cross (progGet get) fuel) (progOf circ) subs := by
      refine ⟨fun k q hq => ?_⟩
      obtain ⟨s, f', g1, g2, g3, g4, sub, g5, g6, g7⟩ := h5 k q hq
      have ok := table_ok hw (fuel := fuel) f' q.sub s (by omega) g3
      obtain ⟨circ', subs', e1, e2, e3, e4, -⟩ := table_step hw (fuel := fuel) (f := f') (by omega) g3
      rw [g5] at e1; cases e1
      refine ⟨s, g2, g4, ?_, ?_, ok.outPos⟩
      · rw [e4]; exact g6
      · rw [e4]; exact g7
    refine .mk (ctxOf_mono _ _ _ _ h hf) (ccOk h2 hsubs (parts_of h3) ?_) ?_
    · intro k q s hq hs j cc hcc
      cases (key k q hq).2 with
      | mk hc ok _ => rw [hs] at hc; cases hc; exact ok.nonRoot rfl j cc hcc
    · rw [h4]; exact fun k q hq => (key k q hq).2

end

end Verif.Layering
