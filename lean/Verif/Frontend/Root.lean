import Verif.Frontend.Calls

/-!
# `RootBuilder`: programs with memoised sub-circuit calls (builder.rs:605-844)

A program is a tree of commands: API calls and calls of sub-circuit functions.  A sub-circuit function is represented by what it does when it is run: a list of
commands on the variables of its own builder (inputs `1..n`) and the variables it returns.
-/
set_option linter.unusedSectionVars false
set_option linter.unusedSimpArgs false
namespace Verif.Frontend
open Verif.IR

variable {F : Type} [Field F] [DecidableEq F]

/-- A command of a program. -/
inductive Cmd (F : Type)
  | api (c : Call F)
  | sub (id : Nat) (xs : List Nat) (body : List (Cmd F)) (outs : List Nat)

/-- The instruction-level effect of a command: a sub-circuit call becomes a call instruction. -/
def Cmd.flat : Cmd F → Call F
  | .api c => c
  | .sub id xs _ outs => .call id xs outs.length

/-- `sub_circuits: HashMap<usize, Circuit>` (builder.rs:605-612): finished builder and outputs. -/
abbrev Subs (F : Type) := List (Nat × (Builder F × List Nat))

/-- `HashMap::insert`. -/
def Subs.put (S : Subs F) (id : Nat) (v : Builder F × List Nat) : Subs F := (id, v) :: S.filter (fun p => p.1 ≠ id)

/-- The last part of `call_sub_circuit` (builder.rs:751-763): new variables and the call instruction on the current builder. -/
def finishCall (id : Nat) (xs : List Nat) (S : Subs F) (b : Builder F) : Option (List Nat × Subs F × Builder F) :=
  match S.lookup id with
  | none => none
  | some v => match callInsn id xs v.2.length b with
    | none => none
    | some (r, b') => some (r, S, b')

mutual
/-- One command: an API call acts on the last builder (builder.rs:614-709); `call_sub_circuit` (builder.rs:742-763) builds the circuit on first use
(`actually_call_sub_circuit`, builder.rs:831-844, with a fresh builder on the stack) and then calls it by id.  `ensure_variables_valid` first. -/
def execCmd (cn : Canon F) (fs : Nat) : Cmd F → Subs F → Builder F → Option (List Nat × Subs F × Builder F)
  | .api c, S, b => (c.run cn fs b).map fun p => (p.1, S, p.2)
  | .sub id xs body outs, S, b =>
    if 0 ∈ xs then none
    else if (S.lookup id).isSome then finishCall id xs S b
    else match execCmds cn fs body S (Builder.new xs.length) with
      | none => none
      | some r => finishCall id xs (r.2.1.put id (r.2.2, outs)) b
/-- A sequence of commands; collects the variables returned. -/
def execCmds (cn : Canon F) (fs : Nat) : List (Cmd F) → Subs F → Builder F → Option (List (List Nat) × Subs F × Builder F)
  | [], S, b => some ([], S, b)
  | c :: cs, S, b => match execCmd cn fs c S b with
    | none => none
    | some p => match execCmds cn fs cs p.2.1 p.2.2 with
      | none => none
      | some q => some (p.1 :: q.1, q.2.1, q.2.2)
end

/-- A sub-circuit function together with its id: `(id, number of inputs, body, returned variables)`. -/
structure Fun (F : Type) where
  id : Nat
  arity : Nat
  body : List (Cmd F)
  outs : List Nat

mutual
/-- All sub-circuit functions called in a command, also inside bodies. -/
def Cmd.funs : Cmd F → List (Fun F)
  | .api _ => []
  | .sub id xs body outs => ⟨id, xs.length, body, outs⟩ :: funsL body
def funsL : List (Cmd F) → List (Fun F)
  | [] => []
  | c :: cs => c.funs ++ funsL cs
end

mutual
/-- **Specification**: the meaning of a command on values.  A sub-circuit call means: run *the function that was called* on the arguments. -/
def Meaning (adv : Bool) (E : Env F) (fs : Nat) : Cmd F → (args outs : List F) → Prop
  | .api c, args, outs => c.Doc (adv := adv) E (fun _ => none) fs args outs
  | .sub _ xs body os, args, outs => ∃ log b val, runCalls E.canon fs (body.map Cmd.flat) (Builder.new xs.length) = some (log, b) ∧
      (∀ (i : Nat) (a : F), args[i]? = some a → val (i + 1) = a) ∧ Meanings adv E fs body (log.map (·.2)) val ∧ outs = os.map val
/-- The meaning of a sequence of commands with the variables they returned, under an assignment of values to variables. -/
def Meanings (adv : Bool) (E : Env F) (fs : Nat) : List (Cmd F) → List (List Nat) → (Nat → F) → Prop
  | [], [], _ => True
  | c :: cs, r :: rs, val => Meaning adv E fs c (c.flat.args.map (Arg.eval val)) (r.map val) ∧ Meanings adv E fs cs rs val
  | _, _, _ => False
end

/-- Each call uses only variables available to it. -/
def UsesV : List Nat → List (Call F × List Nat) → Prop
  | _, [] => True
  | avail, (c, rets) :: log => (∀ v, Arg.var v ∈ c.args → v ∈ avail) ∧ UsesV (avail ++ rets) log

/-- The input variables of a builder with `n` inputs. -/
def inputVars (n : Nat) : List Nat := (List.range n).map (· + 1)

/-- Not a raw call instruction (those are only made by sub-circuit calls). -/
def Call.isCall : Call F → Bool
  | .call _ _ _ => true
  | _ => false

mutual
/-- The program is well scoped: every function body, run on its own, uses only its inputs and variables returned to it earlier. -/
def Scoped (E : Env F) (npi : Option Nat) (fs : Nat) : Cmd F → Prop
  | .api c => c.isCall = false ∧ c.Ok (adv := false) E (fun _ => none) npi fs
  | .sub _ xs body os => (∃ log b, runCalls E.canon fs (body.map Cmd.flat) (Builder.new xs.length) = some (log, b) ∧ UsesV (inputVars xs.length) log ∧
      ∀ o ∈ os, o ∈ available (inputVars xs.length) log) ∧ ScopedL E npi fs body
def ScopedL (E : Env F) (npi : Option Nat) (fs : Nat) : List (Cmd F) → Prop
  | [] => True
  | c :: cs => Scoped E npi fs c ∧ ScopedL E npi fs cs
end

variable {adv : Bool} {E : Env F} {npi : Option Nat} {fs : Nat}

/-! ### Memoised execution registers exactly the functions called -/

theorem lookup_filter {β : Type} (S : List (Nat × β)) (id k : Nat) (h : k ≠ id) : (S.filter (fun p => p.1 ≠ id)).lookup k = S.lookup k := by
  induction S with
  | nil => rfl
  | cons p S ih =>
    obtain ⟨j, v⟩ := p
    by_cases hj : j = id
    · have : (k == j) = false := by simp [hj, h]
      simp only [List.filter, hj, ne_eq, not_true, decide_false, List.lookup, ih]
      rw [hj] at this
      simp [this]
    · simp only [List.filter, hj, ne_eq, not_false_iff, decide_true, List.lookup, ih]

theorem lookup_put (S : Subs F) (id k : Nat) (v : Builder F × List Nat) : (S.put id v).lookup k = if k = id then some v else S.lookup k := by
  unfold Subs.put
  by_cases h : k = id
  · simp [h, List.lookup]
  · have : (k == id) = false := by simp [h]
    simp only [List.lookup, this, if_neg h]
    exact lookup_filter S id k h

/-- `P` is a set of functions with unique ids. -/
def Unique (P : Fun F → Prop) : Prop := ∀ f g, P f → P g → f.id = g.id → f = g

/-- The functions registered in `S` are functions of `P`, with the circuits their bodies produce, and the functions they call are registered too. -/
def SOk (cn : Canon F) (fs : Nat) (P : Fun F → Prop) (S : Subs F) : Prop :=
  ∀ id v, S.lookup id = some v → ∃ f, P f ∧ f.id = id ∧ f.outs = v.2 ∧ (∃ log, runCalls cn fs (f.body.map Cmd.flat) (Builder.new f.arity) = some (log, v.1)) ∧
    ∀ g ∈ funsL f.body, (S.lookup g.id).isSome

theorem run_snoc {cn : Canon F} (c : Call F) (cs : List (Call F)) (b b1 b2 : Builder F) (r : List Nat) (l : List (Call F × List Nat))
    (h1 : c.run cn fs b = some (r, b1)) (h2 : runCalls cn fs cs b1 = some (l, b2)) : runCalls cn fs (c :: cs) b = some ((c, r) :: l, b2) := by
  simp [runCalls, M.andThen, M.ret, h1, h2]

theorem finishCall_spec {cn : Canon F} {P : Fun F → Prop} (hP : Unique P) {id : Nat} {xs : List Nat} {body : List (Cmd F)} {outs : List Nat} {S : Subs F} {b : Builder F}
    {r : List Nat} {S' : Subs F} {b' : Builder F} (hf : P ⟨id, xs.length, body, outs⟩) (hS : SOk cn fs P S) (h : finishCall id xs S b = some (r, S', b')) :
    (Call.call id xs outs.length).run cn fs b = some (r, b') ∧ S' = S ∧ ∀ g ∈ funsL body, (S.lookup g.id).isSome := by
  unfold finishCall at h
  cases hl : S.lookup id with
  | none => rw [hl] at h; simp at h
  | some v =>
    rw [hl] at h
    simp only at h
    obtain ⟨f, h1, h2, h3, _, h5⟩ := hS id v hl
    have he : f = ⟨id, xs.length, body, outs⟩ := hP _ _ h1 hf h2
    subst he
    simp only at h3 h5
    rw [← h3] at h
    cases hc : callInsn id xs outs.length b with
    | none => rw [hc] at h; simp at h
    | some q =>
      rw [hc] at h
      simp only [Option.some.injEq, Prod.mk.injEq] at h
      obtain ⟨rfl, rfl, rfl⟩ := h
      exact ⟨hc, rfl, h5⟩

mutual
theorem execCmd_spec {cn : Canon F} {P : Fun F → Prop} (hP : Unique P) : ∀ (c : Cmd F) {S S' : Subs F} {b b' : Builder F} {r : List Nat}, (∀ f ∈ c.funs, P f) →
    SOk cn fs P S → execCmd cn fs c S b = some (r, S', b') →
    c.flat.run cn fs b = some (r, b') ∧ SOk cn fs P S' ∧ (∀ id, (S.lookup id).isSome → (S'.lookup id).isSome) ∧ ∀ g ∈ c.funs, (S'.lookup g.id).isSome
  | .api c, S, S', b, b', r, hf, hS, h => by
    simp only [execCmd] at h
    cases hc : c.run cn fs b with
    | none => rw [hc] at h; simp at h
    | some p =>
      rw [hc] at h
      simp only [Option.map_some, Option.some.injEq, Prod.mk.injEq] at h
      obtain ⟨rfl, rfl, rfl⟩ := h
      exact ⟨hc, hS, fun _ h => h, by simp [Cmd.funs]⟩
  | .sub id xs body outs, S, S', b, b', r, hf, hS, h => by
    simp only [execCmd] at h
    have hPf := hf ⟨id, xs.length, body, outs⟩ (by simp [Cmd.funs])
    by_cases h0 : 0 ∈ xs
    · rw [if_pos h0] at h; simp at h
    rw [if_neg h0] at h
    by_cases hi : (S.lookup id).isSome = true
    · rw [if_pos hi] at h
      obtain ⟨h1, rfl, h3⟩ := finishCall_spec hP hPf hS h
      refine ⟨h1, hS, fun _ h => h, ?_⟩
      intro g hg
      simp only [Cmd.funs, List.mem_cons] at hg
      rcases hg with rfl | hg
      · exact hi
      · exact h3 g hg
    · rw [if_neg hi] at h
      cases hb : execCmds cn fs body S (Builder.new xs.length) with
      | none => rw [hb] at h; simp at h
      | some q =>
        obtain ⟨rs, S1, b1⟩ := q
        rw [hb] at h
        simp only at h
        obtain ⟨⟨log, hlog, _⟩, hS1, hm, hfs⟩ := execCmds_spec hP body (fun f hf' => hf f (by simp [Cmd.funs, hf'])) hS hb
        have hS2 : SOk cn fs P (S1.put id (b1, outs)) := by
          intro k v hk
          rw [lookup_put] at hk
          by_cases hki : k = id
          · rw [if_pos hki] at hk
            simp only [Option.some.injEq] at hk
            subst hk
            refine ⟨_, hPf, hki.symm, rfl, ⟨log, hlog⟩, ?_⟩
            intro g hg
            rw [lookup_put]
            split
            · rfl
            · exact hfs g hg
          · rw [if_neg hki] at hk
            obtain ⟨f, h1, h2, h3, h4, h5⟩ := hS1 k v hk
            refine ⟨f, h1, h2, h3, h4, ?_⟩
            intro g hg
            rw [lookup_put]
            split
            · rfl
            · exact h5 g hg
        obtain ⟨h1, rfl, h3⟩ := finishCall_spec hP hPf hS2 h
        refine ⟨h1, hS2, ?_, ?_⟩
        · intro k hk
          rw [lookup_put]
          split
          · rfl
          · exact hm k hk
        · intro g hg
          simp only [Cmd.funs, List.mem_cons] at hg
          rcases hg with rfl | hg
          · rw [lookup_put, if_pos rfl]; rfl
          · exact h3 g hg
theorem execCmds_spec {cn : Canon F} {P : Fun F → Prop} (hP : Unique P) : ∀ (cs : List (Cmd F)) {S S' : Subs F} {b b' : Builder F} {rs : List (List Nat)},
    (∀ f ∈ funsL cs, P f) → SOk cn fs P S → execCmds cn fs cs S b = some (rs, S', b') →
    (∃ log, runCalls cn fs (cs.map Cmd.flat) b = some (log, b') ∧ rs = log.map (·.2)) ∧ SOk cn fs P S' ∧
      (∀ id, (S.lookup id).isSome → (S'.lookup id).isSome) ∧ ∀ g ∈ funsL cs, (S'.lookup g.id).isSome
  | [], S, S', b, b', rs, hf, hS, h => by
    simp only [execCmds, Option.some.injEq, Prod.mk.injEq] at h
    obtain ⟨rfl, rfl, rfl⟩ := h
    exact ⟨⟨[], rfl, rfl⟩, hS, fun _ h => h, by simp [funsL]⟩
  | c :: cs, S, S', b, b', rs, hf, hS, h => by
    simp only [execCmds] at h
    cases hc : execCmd cn fs c S b with
    | none => rw [hc] at h; simp at h
    | some p =>
      obtain ⟨r, S1, b1⟩ := p
      rw [hc] at h
      simp only at h
      cases hcs : execCmds cn fs cs S1 b1 with
      | none => rw [hcs] at h; simp at h
      | some q =>
        obtain ⟨rs', S2, b2⟩ := q
        rw [hcs] at h
        simp only [Option.some.injEq, Prod.mk.injEq] at h
        obtain ⟨rfl, rfl, rfl⟩ := h
        obtain ⟨h1, h2, h3, h4⟩ := execCmd_spec hP c (fun f hf' => hf f (by simp [funsL, hf'])) hS hc
        obtain ⟨⟨log, h5, h5'⟩, h6, h7, h8⟩ := execCmds_spec hP cs (fun f hf' => hf f (by simp [funsL, hf'])) h2 hcs
        refine ⟨⟨_, run_snoc _ _ _ _ _ _ _ h1 h5, by rw [h5']; rfl⟩, h6, fun id hid => h7 id (h3 id hid), ?_⟩
        intro g hg
        simp only [funsL, List.mem_append] at hg
        rcases hg with hg | hg
        · exact h7 _ (h4 g hg)
        · exact h8 g hg
end

/-! ### Meaning -/

/-- The family of circuits knows a function. -/
def Knows (E : Env F) (fs : Nat) (get : Nat → Option (Circuit (srcM adv E))) (f : Fun F) : Prop :=
  ∃ log b, runCalls E.canon fs (f.body.map Cmd.flat) (Builder.new f.arity) = some (log, b) ∧ get f.id = some (b.build E f.outs)

theorem runCalls_length {cn : Canon F} : ∀ (cs : List (Call F)) {b b' : Builder F} {log : List (Call F × List Nat)}, runCalls cn fs cs b = some (log, b') → log.map (·.1) = cs := by
  intro cs
  induction cs with
  | nil =>
    intro b b' log h
    simp only [runCalls, M.ret, Option.some.injEq, Prod.mk.injEq] at h
    rw [← h.1]; rfl
  | cons c cs ih =>
    intro b b' log h
    simp only [runCalls, M.andThen] at h
    cases hc : c.run cn fs b with
    | none => rw [hc] at h; simp at h
    | some p =>
      rw [hc] at h
      simp only at h
      cases hr : runCalls cn fs cs p.2 with
      | none => rw [hr] at h; simp at h
      | some q =>
        rw [hr] at h
        simp only [M.ret, Option.some.injEq, Prod.mk.injEq] at h
        rw [← h.1]
        simp [ih hr]

theorem doc_get_irrelevant {get get' : Nat → Option (Circuit (srcM adv E))} {c : Call F} (hc : c.isCall = false) {args outs : List F} :
    c.Doc E get fs args outs ↔ c.Doc E get' fs args outs := by
  cases c
  case call => exact absurd hc (by simp [Call.isCall])
  all_goals rcases args with _ | ⟨a, _ | ⟨b, _ | ⟨c, l⟩⟩⟩ <;> exact Iff.rfl

theorem ok_get_irrelevant {adv' : Bool} {get : Nat → Option (Circuit (srcM adv E))} {get' : Nat → Option (Circuit (srcM adv' E))} {c : Call F} (hc : c.isCall = false) : c.Ok E get npi fs ↔ c.Ok E get' npi fs := by
  cases c <;> first | exact Iff.rfl | (simp [Call.isCall] at hc)

theorem knows_ok {get : Nat → Option (Circuit (srcM adv E))} (c : Cmd F) (hs : Scoped E npi fs c) (hk : ∀ f ∈ c.funs, Knows E fs get f) : c.flat.Ok E get npi fs := by
  cases c with
  | api c =>
    simp only [Scoped] at hs
    exact (ok_get_irrelevant hs.1).1 hs.2
  | sub id xs body os =>
    intro circ hc
    obtain ⟨log, b, _, hg⟩ := hk ⟨id, xs.length, body, os⟩ (by simp [Cmd.funs])
    rw [hg] at hc
    simp only [Option.some.injEq] at hc
    rw [← hc]; rfl

theorem uses_of {get : Nat → Option (Circuit (srcM adv E))} : ∀ (cs : List (Cmd F)) {avail : List Nat} {log : List (Call F × List Nat)}, log.map (·.1) = cs.map Cmd.flat →
    UsesV avail log → ScopedL E npi fs cs → (∀ f ∈ funsL cs, Knows E fs get f) → Uses E get npi fs avail log := by
  intro cs
  induction cs with
  | nil =>
    intro avail log h _ _ _
    have : log = [] := by simpa using h
    subst this; trivial
  | cons c cs ih =>
    intro avail log h hu hs hk
    cases log with
    | nil => simp at h
    | cons e log =>
      obtain ⟨d, rets⟩ := e
      simp only [List.map_cons, List.cons.injEq] at h
      simp only [UsesV] at hu
      simp only [ScopedL] at hs
      refine ⟨hu.1, ?_, ih h.2 hu.2 hs.2 (fun f hf => hk f (by simp [funsL, hf]))⟩
      rw [h.1]
      exact knows_ok c hs.1 (fun f hf => hk f (by simp [funsL, hf]))

theorem inputVars_range (n : Nat) : ∀ v ∈ inputVars n, v ≠ 0 ∧ v < (Builder.new (F := F) n).varConstId.length := by
  intro v hv
  simp only [inputVars, List.mem_map, List.mem_range] at hv
  obtain ⟨i, hi, rfl⟩ := hv
  simp only [Builder.new, List.length_replicate]
  omega

theorem agrees_inputs {n : Nat} {ins : List F} {val : Nat → F} (hl : ins.length = n) :
    Agrees (0 :: ins) val (inputVars n) ↔ ∀ (i : Nat) (a : F), ins[i]? = some a → val (i + 1) = a := by
  constructor
  · intro h i a hi
    have hlt := (List.getElem?_eq_some_iff.1 hi).1
    have := h (i + 1) (by simp only [inputVars, List.mem_map, List.mem_range]; exact ⟨i, by omega, rfl⟩)
    simp only [List.getElem?_cons_succ, hi, Option.some.injEq] at this
    exact this.symm
  · intro h v hv
    simp only [inputVars, List.mem_map, List.mem_range] at hv
    obtain ⟨i, hi, rfl⟩ := hv
    have e : ins[i]? = some (ins[i]'(by omega)) := List.getElem?_eq_getElem _
    simp only [List.getElem?_cons_succ, e, h i _ e]

/-- Evaluating a builder's circuit, in terms of the documented behaviour of the calls that made it. -/
theorem build_eval (hH : E.HintLen) {get : Nat → Option (Circuit (srcM adv E))} {cs : List (Call F)} {n : Nat} {log : List (Call F × List Nat)} {b : Builder F}
    (hrun : runCalls E.canon fs cs (Builder.new n) = some (log, b)) (hu : Uses E get npi fs (inputVars n) log) {os : List Nat}
    (hos : ∀ o ∈ os, o ∈ available (inputVars n) log) {args outs : List F} (hl : args.length = n) :
    (EvalSub get (b.build E os) args outs true → ∃ val, (∀ (i : Nat) (a : F), args[i]? = some a → val (i + 1) = a) ∧
      (∀ e ∈ log, e.1.Doc E get fs (e.1.args.map (Arg.eval val)) (e.2.map val)) ∧ outs = os.map val) ∧
    (adv = false → (∃ val, (∀ (i : Nat) (a : F), args[i]? = some a → val (i + 1) = a) ∧
      (∀ e ∈ log, e.1.Doc E get fs (e.1.args.map (Arg.eval val)) (e.2.map val)) ∧ outs = os.map val) → EvalSub get (b.build E os) args outs true) := by
  obtain ⟨h1, h2, h3, h4⟩ := runCalls_spec hH cs (inv_new (E := E) (get := get) (npi := npi) n) hrun (inputVars_range n) hu
  have hni : b.numInputs = n := h2
  have hes : EvalSub get (b.build E os) args outs true ↔ ∃ vs, Acc E get b args vs ∧ readAll vs os = some outs := by
    rw [← acc_evalSub, hni]
    simp [hl]
  rw [hes]
  constructor
  · rintro ⟨vs, ha, hr⟩
    have hag : Agrees vs (fun v => vs.getD v 0) (available (inputVars n) log) := by
      intro v hv
      have := (h3 v hv).2
      rw [← ha.length h1] at this
      simp [List.getD, List.getElem?_eq_getElem this]
    obtain ⟨⟨ws, h5, h6⟩, h7⟩ := (h4 args (fun v => vs.getD v 0)).1 ⟨vs, ha, hag⟩
    rw [acc_new] at h5
    rw [h5.2] at h6
    refine ⟨_, (agrees_inputs hl).1 h6, h7, ?_⟩
    have := agrees_read.1 (fun v hv => hag v (hos v hv))
    rw [hr] at this
    simpa using this
  · rintro hf ⟨val, h5, h6, rfl⟩
    obtain ⟨vs, ha, hag⟩ := (h4 args val).2 hf ⟨⟨0 :: args, acc_new.2 ⟨hl, rfl⟩, (agrees_inputs hl).2 h5⟩, h6⟩
    exact ⟨vs, ha, agrees_read.1 (fun v hv => hag v (hos v hv))⟩

mutual
/-- A call instruction means the function that was called. -/
theorem meaning_iff (hH : E.HintLen) {get : Nat → Option (Circuit (srcM adv E))} : ∀ (c : Cmd F), Scoped E npi fs c → (∀ f ∈ c.funs, Knows E fs get f) →
    ∀ args outs : List F, args.length = c.flat.args.length → ((c.flat.Doc E get fs args outs → Meaning adv E fs c args outs) ∧
      (adv = false → Meaning adv E fs c args outs → c.flat.Doc E get fs args outs))
  | .api c, hs, hk, args, outs, _ => by
    simp only [Scoped] at hs
    simp only [Cmd.flat, Meaning]
    have := doc_get_irrelevant (get := get) (get' := fun _ => none) hs.1 (fs := fs) (args := args) (outs := outs)
    exact ⟨this.1, fun _ => this.2⟩
  | .sub id xs body os, hs, hk, args, outs, hl => by
    simp only [Scoped] at hs
    obtain ⟨⟨log0, b0, hrun0, hu0, hos0⟩, hsb⟩ := hs
    obtain ⟨log, b, hrun, hg⟩ := hk ⟨id, xs.length, body, os⟩ (by simp [Cmd.funs])
    simp only at hrun hg
    rw [hrun0] at hrun
    simp only [Option.some.injEq, Prod.mk.injEq] at hrun
    obtain ⟨rfl, rfl⟩ := hrun
    have hkb : ∀ f ∈ funsL body, Knows E fs get f := fun f hf => hk f (by simp [Cmd.funs, hf])
    have hlog := runCalls_length _ hrun0
    have hl' : args.length = xs.length := by simpa [Cmd.flat, Call.args] using hl
    have key := build_eval (npi := npi) hH hrun0 (uses_of body hlog hu0 hsb hkb) hos0 (outs := outs) hl'
    simp only [Cmd.flat, Meaning]
    have e1 : Call.Doc E get fs (Call.call id xs os.length) args outs ↔ EvalSub get (b0.build E os) args outs true := by
      show (∃ circ, get id = some circ ∧ EvalSub get circ args outs true) ↔ _
      rw [hg]; simp
    rw [e1]
    constructor
    · intro h
      obtain ⟨val, h1, h2, h3⟩ := key.1 h
      exact ⟨log0, b0, val, hrun0, h1, (meanings_iff hH body hsb hkb hlog val).1 h2, h3⟩
    · rintro hf ⟨log, b, val, h0, h1, h2, h3⟩
      rw [hrun0] at h0
      simp only [Option.some.injEq, Prod.mk.injEq] at h0
      obtain ⟨rfl, rfl⟩ := h0
      exact key.2 hf ⟨val, h1, (meanings_iff hH body hsb hkb hlog val).2 hf h2, h3⟩
theorem meanings_iff (hH : E.HintLen) {get : Nat → Option (Circuit (srcM adv E))} : ∀ (cs : List (Cmd F)), ScopedL E npi fs cs → (∀ f ∈ funsL cs, Knows E fs get f) →
    ∀ {log : List (Call F × List Nat)}, log.map (·.1) = cs.map Cmd.flat → ∀ val : Nat → F,
    ((∀ e ∈ log, e.1.Doc E get fs (e.1.args.map (Arg.eval val)) (e.2.map val)) → Meanings adv E fs cs (log.map (·.2)) val) ∧
    (adv = false → Meanings adv E fs cs (log.map (·.2)) val → ∀ e ∈ log, e.1.Doc E get fs (e.1.args.map (Arg.eval val)) (e.2.map val))
  | [], _, _, log, hlog, val => by
    have : log = [] := by simpa using hlog
    subst this
    simp [Meanings]
  | c :: cs, hs, hk, log, hlog, val => by
    cases log with
    | nil => simp at hlog
    | cons e log =>
      simp only [List.map_cons, List.cons.injEq] at hlog
      simp only [ScopedL] at hs
      have h1 := meaning_iff hH c hs.1 (fun f hf => hk f (by simp [funsL, hf])) (c.flat.args.map (Arg.eval val)) (e.2.map val) (by simp)
      have h2 := meanings_iff hH cs hs.2 (fun f hf => hk f (by simp [funsL, hf])) hlog.2 val
      simp only [List.map_cons, Meanings, List.forall_mem_cons]
      rw [hlog.1]
      exact ⟨fun h => ⟨h1.1 h.1, h2.1 h.2⟩, fun hf h => ⟨h1.2 hf h.1, h2.2 hf h.2⟩⟩
end

end Verif.Frontend
