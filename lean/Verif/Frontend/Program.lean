import Verif.Frontend.Root

/-!
# `RootBuilder::new` and `RootBuilder::build` (builder.rs:788-825): whole programs
-/
set_option linter.unusedSectionVars false
set_option linter.unusedSimpArgs false
namespace Verif.Frontend
open Verif.IR

variable {F : Type} [Field F] [DecidableEq F]

/-! ### Which call instructions a builder contains -/

/-- `m` adds no call instruction. -/
def NoCall {α : Type} (m : M F α) : Prop := ∀ b a b', m b = some (a, b') → ∀ d xs n, Source.Insn.call d xs n ∈ b'.instructions → Source.Insn.call d xs n ∈ b.instructions

namespace NoCall

theorem ret {α : Type} (a : α) : NoCall (M.ret (F := F) a) := by
  intro b a b' h d xs n hi
  simp only [M.ret, Option.some.injEq, Prod.mk.injEq] at h
  rw [h.2]; exact hi

theorem panic {α : Type} : NoCall (M.panic (F := F) (α := α)) := by
  intro b a b' h; simp [M.panic] at h

theorem bind {α β : Type} {m : M F α} {k : α → M F β} (hm : NoCall m) (hk : ∀ a, NoCall (k a)) : NoCall (m.andThen k) := by
  intro b a b' h d xs n hi
  simp only [M.andThen] at h
  cases hmb : m b with
  | none => rw [hmb] at h; simp at h
  | some p =>
    rw [hmb] at h
    exact hm b p.1 p.2 hmb d xs n (hk p.1 p.2 a b' h d xs n hi)

theorem emit {i : Source.Insn F} (hi : ∀ d xs n, i ≠ .call d xs n) (k : Nat) : NoCall (Frontend.emit i k) := by
  intro b a b' h d xs n hm
  simp only [Frontend.emit, Option.some.injEq, Prod.mk.injEq] at h
  rw [← h.2] at hm
  simp only [List.mem_append, List.mem_singleton] at hm
  rcases hm with hm | hm
  · exact hm
  · exact absurd hm.symm (hi d xs n)

theorem emit1 {i : Source.Insn F} (hi : ∀ d xs n, i ≠ .call d xs n) : NoCall (Frontend.emit1 i) := by
  intro b a b' h d xs n hm
  simp only [Frontend.emit1, Option.some.injEq, Prod.mk.injEq] at h
  rw [← h.2] at hm
  simp only [List.mem_append, List.mem_singleton] at hm
  rcases hm with hm | hm
  · exact hm
  · exact absurd hm.symm (hi d xs n)

theorem pushCon (t : Source.Con) (v : Nat) : NoCall (Frontend.pushCon (F := F) t v) := by
  intro b a b' h d xs n hm
  simp only [Frontend.pushCon, Option.some.injEq, Prod.mk.injEq] at h
  rw [← h.2] at hm
  exact hm

theorem toVar (x : Arg F) : NoCall (Frontend.toVar x) := by
  intro b a b' h d xs n hm
  cases x with
  | var v =>
    simp only [Frontend.toVar] at h
    by_cases hv : v = 0
    · simp [hv] at h
    · simp only [hv, if_false, Option.some.injEq, Prod.mk.injEq] at h
      rw [h.2]; exact hm
  | val x =>
    simp only [Frontend.toVar, Option.some.injEq, Prod.mk.injEq] at h
    rw [← h.2] at hm
    simpa using hm

theorem constantValue (x : Arg F) : NoCall (Frontend.constantValue x) := by
  intro b a b' h d xs n hm
  cases x with
  | val x => exact ret _ b a b' h d xs n hm
  | var v =>
    simp only [Frontend.constantValue] at h
    by_cases hv : v = 0
    · simp [hv] at h
    · simp only [hv, if_false] at h
      have : b' = b := by
        split at h
        · simp at h
        · simp only [Option.some.injEq, Prod.mk.injEq] at h; exact h.2.symm
        · split at h
          · simp at h
          · simp only [Option.some.injEq, Prod.mk.injEq] at h; exact h.2.symm
      rw [← this]; exact hm

theorem constant (x : Arg F) : NoCall (Frontend.constant x) := toVar x

theorem binary {fold : F → F → M F Nat} {mk : Nat → Nat → Source.Insn F} (hf : ∀ a b, NoCall (fold a b)) (hmk : ∀ x y d xs n, mk x y ≠ .call d xs n) (x y : Arg F) :
    NoCall (Frontend.binary fold mk x y) := by
  refine bind (constantValue x) fun xc => bind (constantValue y) fun yc => ?_
  cases xc <;> cases yc
  all_goals first
    | exact hf _ _
    | exact bind (toVar x) fun x => bind (toVar y) fun y => emit1 (hmk x y)

theorem unary {fold : F → M F Nat} {mk : Nat → Source.Insn F} (hf : ∀ a, NoCall (fold a)) (hmk : ∀ x d xs n, mk x ≠ .call d xs n) (x : Arg F) : NoCall (Frontend.unary fold mk x) := by
  refine bind (constantValue x) fun xc => ?_
  cases xc
  all_goals first
    | exact hf _
    | exact bind (toVar x) fun x => emit1 (hmk x)

theorem add (x y : Arg F) : NoCall (Frontend.add x y) := binary (fun _ _ => constant _) (by intros; simp) x y
theorem sub (x y : Arg F) : NoCall (Frontend.sub x y) := binary (fun _ _ => constant _) (by intros; simp) x y
theorem mul (x y : Arg F) : NoCall (Frontend.mul x y) := binary (fun _ _ => constant _) (by intros; simp) x y
theorem neg (x : Arg F) : NoCall (Frontend.neg x) := unary (fun _ => constant _) (by intros; simp) x
theorem isZero (x : Arg F) : NoCall (Frontend.isZero x) := unary (fun _ => constant _) (by intros; simp) x

theorem div (x y : Arg F) (c : Bool) : NoCall (Frontend.div x y c) := by
  refine binary (fun a b => ?_) (by intros; simp) x y
  split
  · split
    · exact panic
    · exact constant _
  · exact constant _

theorem assertCon (t : Source.Con) (x : Arg F) : NoCall (Frontend.assertCon t x) := by
  refine bind (constantValue x) fun xc => ?_
  have h : ∀ c : Bool, NoCall (if c = true then (Frontend.toVar x).andThen fun v => Frontend.pushCon t v else M.panic) := by
    intro c
    cases c
    · exact panic
    · exact bind (toVar x) fun v => pushCon t v
  exact h _

theorem boolOp (op : Source.BoolOp) (x y : Arg F) : NoCall (Frontend.boolOp op x y) :=
  binary (fun _ _ => bind (assertCon _ _) fun _ => bind (assertCon _ _) fun _ => constant _) (by intros; simp) x y

theorem constants : ∀ l : List F, NoCall (Frontend.constants l) := by
  intro l
  induction l with
  | nil => exact ret _
  | cons x l ih => exact bind (constant _) fun _ => bind ih fun _ => ret _

theorem toBinary (cn : Canon F) (x : Arg F) (n : Nat) : NoCall (Frontend.toBinary cn x n) := by
  refine bind (constantValue x) fun xc => ?_
  cases xc with
  | none => exact bind (toVar x) fun x => emit (by intros; simp) n
  | some v =>
    simp only
    split
    · exact panic
    · exact constants _

theorem gtRound (o xb yb r s : Nat) : NoCall (Frontend.gtRound (F := F) o xb yb r s) :=
  bind (sub _ _) fun _ => bind (boolOp _ _ _) fun _ => bind (boolOp _ _ _) fun _ => bind (boolOp _ _ _) fun _ => bind (boolOp _ _ _) fun _ => bind (sub _ _) fun _ =>
    bind (boolOp _ _ _) fun _ => ret _

theorem gtLoop (o : Nat) : ∀ (l : List (Nat × Nat)) (r s : Nat), NoCall (Frontend.gtLoop (F := F) o l r s) := by
  intro l
  induction l with
  | nil => intro r s; exact ret _
  | cons p l ih => intro r s; exact bind (gtRound _ _ _ _ _) fun q => ih _ _

theorem gt (cn : Canon F) (fs : Nat) (x y : Arg F) : NoCall (Frontend.gt cn fs x y) := by
  refine bind (constant _) fun o => bind (toVar x) fun x => bind (toVar y) fun y => ?_
  split
  · exact panic
  · exact bind (toBinary _ _ _) fun _ => bind (toBinary _ _ _) fun _ => bind (constant _) fun _ => bind (constant _) fun _ => gtLoop _ _ _ _

theorem geq (cn : Canon F) (fs : Nat) (x y : Arg F) : NoCall (Frontend.geq cn fs x y) := bind (gt _ _ _ _) fun _ => bind (constant _) fun _ => sub _ _

theorem uIdentity (x : Arg F) : NoCall (Frontend.uIdentity x) := bind (toVar x) fun _ => emit1 (by intros; simp)

theorem ensureValid (vs : List Nat) : NoCall (Frontend.ensureValid (F := F) vs) := by
  intro b a b' h d xs n hm
  simp only [Frontend.ensureValid] at h
  split at h
  · simp at h
  · simp only [Option.some.injEq, Prod.mk.injEq] at h; rw [h.2]; exact hm

theorem call (cn : Canon F) (fs : Nat) (c : Call F) (hc : c.isCall = false) : NoCall (c.run cn fs) := by
  have o : ∀ {m : M F Nat}, NoCall m → NoCall (one1 m) := fun h => bind h fun _ => ret _
  cases c with
  | constant x => exact o (constant x)
  | add x y => exact o (add x y)
  | sub x y => exact o (sub x y)
  | neg x => exact o (neg x)
  | mul x y => exact o (mul x y)
  | div x y c => exact o (div x y c)
  | boolOp op x y => exact o (boolOp op x y)
  | isZero x => exact o (isZero x)
  | toBinary x n => exact toBinary cn x n
  | assertCon t x => exact bind (assertCon t x) fun _ => ret _
  | random => exact o (emit1 (by intros; simp))
  | hint h xs n => exact bind (ensureValid xs) fun _ => emit (by intros; simp) n
  | gt x y => exact o (gt cn fs x y)
  | geq x y => exact o (geq cn fs x y)
  | uOp op x y => exact o (bind (toVar x) fun _ => bind (toVar y) fun _ => emit1 (by intros; simp))
  | uIdentity x => exact o (uIdentity x)
  | uAdd x y => exact o (bind (toVar x) fun _ => bind (toVar y) fun _ => bind (add _ _) fun _ => uIdentity _)
  | uMul x y => exact o (bind (toVar x) fun _ => bind (toVar y) fun _ => bind (mul _ _) fun _ => uIdentity _)
  | call c xs n => simp [Call.isCall] at hc
  | pub i => exact o (emit1 (by intros; simp))

end NoCall

/-- The call instructions of a builder come from call commands. -/
theorem calls_of_run {cn : Canon F} {fs : Nat} : ∀ (cs : List (Call F)) {b b' : Builder F} {log : List (Call F × List Nat)}, runCalls cn fs cs b = some (log, b') →
    ∀ d xs n, Source.Insn.call d xs n ∈ b'.instructions → Source.Insn.call d xs n ∈ b.instructions ∨ Call.call d xs n ∈ cs := by
  intro cs
  induction cs with
  | nil =>
    intro b b' log h d xs n hi
    simp only [runCalls, M.ret, Option.some.injEq, Prod.mk.injEq] at h
    rw [h.2]; exact .inl hi
  | cons c cs ih =>
    intro b b' log h d xs n hi
    simp only [runCalls, M.andThen] at h
    cases hc : c.run cn fs b with
    | none => rw [hc] at h; simp at h
    | some p =>
      rw [hc] at h
      simp only at h
      cases hr : runCalls cn fs cs p.2 with
      | none => rw [hr] at h; simp at h
      | some q =>
        rw [hr] at h
        simp only [M.ret, Option.some.injEq, Prod.mk.injEq] at h
        have hq : runCalls cn fs cs p.2 = some (q.1, b') := by rw [hr, ← h.2]
        rcases ih hq d xs n hi with hi | hi
        · cases hcc : c.isCall with
          | false => exact .inl (NoCall.call cn fs c hcc b p.1 p.2 hc d xs n hi)
          | true =>
            cases c with
            | call c' xs' n' =>
              simp only [Call.run, callInsn, emit, Option.some.injEq] at hc
              rw [← hc] at hi
              simp only [List.mem_append, List.mem_singleton] at hi
              rcases hi with hi | hi
              · exact .inl hi
              · simp only [Source.Insn.call.injEq] at hi
                obtain ⟨rfl, rfl, rfl⟩ := hi
                exact .inr (List.mem_cons_self ..)
            | _ => simp [Call.isCall] at hcc
        · exact .inr (List.mem_cons_of_mem _ hi)

/-! ### Programs -/

/-- A frontend program (`Define::define` run on a `RootBuilder`): number of inputs and public inputs, the commands, and the variables passed to `set_outputs`. -/
structure Program (F : Type) where
  numInputs : Nat
  numPublic : Nat
  cmds : List (Cmd F)
  outs : List Nat

/-- `RootBuilder::new` (builder.rs:789-812): input variables `1..n`, public input variables `n+1..n+np`. -/
def rootNew (n np : Nat) : Builder F :=
  { (Builder.new n : Builder F) with
    varConstId := (Builder.new (F := F) n).varConstId ++ List.replicate np 0
    instructions := (List.range np).map fun i => .constantLike (.pub i) }

/-- Run a program and `RootBuilder::build` (builder.rs:814-825); `set_outputs` checks its variables (builder.rs:782-785).  The root circuit is inserted
last, under id 0. -/
def Program.build {adv : Bool} (E : Env F) (fs : Nat) (p : Program F) : Option (RootCircuit (srcM adv E)) :=
  match execCmds E.canon fs p.cmds [] (rootNew p.numInputs p.numPublic) with
  | none => none
  | some r => if 0 ∈ p.outs then none else some
    { numPublicInputs := p.numPublic
      expectedNumOutputZeroes := 0
      circuits := (0, r.2.2.build E p.outs) :: (r.2.1.filter (fun q => q.1 ≠ 0)).map fun q => (q.1, q.2.1.build E q.2.2) }

/-- The variables each command of the program got back. -/
def Program.rets (E : Env F) (fs : Nat) (p : Program F) : List (List Nat) :=
  match runCalls E.canon fs (p.cmds.map Cmd.flat) (rootNew p.numInputs p.numPublic) with
  | none => []
  | some r => r.1.map (·.2)

/-- Commands creating the public input variables. -/
def pubCmds (np : Nat) : List (Cmd F) := (List.range np).map fun i => .api (.pub i)

theorem run_pub_aux (cn : Canon F) (fs : Nat) : ∀ (np s : Nat) (b : Builder F),
    runCalls cn fs ((List.range' s np).map Call.pub) b =
      some ((List.range' s np).map (fun i => (Call.pub i, [b.varConstId.length + (i - s)])),
        { b with varConstId := b.varConstId ++ List.replicate np 0, instructions := b.instructions ++ (List.range' s np).map fun i => .constantLike (.pub i) }) := by
  intro np
  induction np with
  | zero =>
    intro s b
    simp [runCalls, M.ret]
  | succ np ih =>
    intro s b
    simp only [List.range'_succ, List.map_cons]
    refine run_snoc _ _ _ { b with varConstId := b.varConstId ++ [0], instructions := b.instructions ++ [.constantLike (.pub s)] } _ _ _ ?_ ?_
    · simp [Call.run, one1, emit1, M.andThen, M.ret]
    · rw [ih (s + 1)]
      simp only [Option.some.injEq, Prod.mk.injEq]
      refine ⟨?_, ?_⟩
      · refine List.map_congr_left ?_
        intro i hi
        simp only [List.mem_range'_1] at hi
        simp only [List.length_append, List.length_singleton, Prod.mk.injEq, List.cons.injEq, true_and, and_true]
        omega
      · simp [List.append_assoc, List.replicate_succ]

theorem run_pub (cn : Canon F) (fs n np : Nat) :
    runCalls cn fs ((pubCmds np).map Cmd.flat) (Builder.new n) = some ((List.range np).map (fun i => (Call.pub i, [n + 1 + i])), rootNew n np) := by
  have := run_pub_aux cn fs np 0 (Builder.new n)
  simp only [List.range_eq_range', pubCmds, List.map_map] at this ⊢
  have e : ((Cmd.flat : Cmd F → Call F) ∘ fun i => Cmd.api (Call.pub i)) = Call.pub := rfl
  rw [e, this]
  simp [Builder.new, rootNew, List.range_eq_range']

theorem runCalls_append {cn : Canon F} {fs : Nat} : ∀ (cs ds : List (Call F)) {b b1 b2 : Builder F} {l1 l2 : List (Call F × List Nat)},
    runCalls cn fs cs b = some (l1, b1) → runCalls cn fs ds b1 = some (l2, b2) → runCalls cn fs (cs ++ ds) b = some (l1 ++ l2, b2) := by
  intro cs
  induction cs with
  | nil =>
    intro ds b b1 b2 l1 l2 h1 h2
    simp only [runCalls, M.ret, Option.some.injEq, Prod.mk.injEq] at h1
    obtain ⟨rfl, rfl⟩ := h1
    simpa using h2
  | cons c cs ih =>
    intro ds b b1 b2 l1 l2 h1 h2
    simp only [runCalls, M.andThen] at h1
    cases hc : c.run cn fs b with
    | none => rw [hc] at h1; simp at h1
    | some p =>
      rw [hc] at h1
      simp only at h1
      cases hr : runCalls cn fs cs p.2 with
      | none => rw [hr] at h1; simp at h1
      | some q =>
        rw [hr] at h1
        simp only [M.ret, Option.some.injEq, Prod.mk.injEq] at h1
        have hq : runCalls cn fs cs p.2 = some (q.1, b1) := by rw [hr, ← h1.2]
        rw [← h1.1]
        exact run_snoc c _ b p.2 b2 p.1 _ hc (ih ds hq h2)


/-! ### Functions inside functions -/

mutual
/-- Size of a command. -/
def Cmd.size : Cmd F → Nat
  | .api _ => 0
  | .sub _ _ body _ => sizeL body + 1
def sizeL : List (Cmd F) → Nat
  | [] => 0
  | c :: cs => c.size + sizeL cs
end

/-- What `Scoped` says about one function. -/
def BodyOk (E : Env F) (npi : Option Nat) (fs : Nat) (f : Fun F) : Prop :=
  (∃ log b, runCalls E.canon fs (f.body.map Cmd.flat) (Builder.new f.arity) = some (log, b) ∧ UsesV (inputVars f.arity) log ∧
    ∀ o ∈ f.outs, o ∈ available (inputVars f.arity) log) ∧ ScopedL E npi fs f.body

variable {adv : Bool} {E : Env F} {npi : Option Nat} {fs : Nat}

mutual
theorem funs_props : ∀ (c : Cmd F), Scoped E npi fs c → ∀ f ∈ c.funs, BodyOk E npi fs f ∧ sizeL f.body < c.size ∧ ∀ g ∈ funsL f.body, g ∈ c.funs
  | .api _, _, f, hf => by simp [Cmd.funs] at hf
  | .sub id xs body os, hs, f, hf => by
    simp only [Scoped] at hs
    simp only [Cmd.funs, List.mem_cons] at hf
    rcases hf with rfl | hf
    · exact ⟨hs, by simp [Cmd.size], fun g hg => by simp only [Cmd.funs, List.mem_cons]; exact .inr hg⟩
    · obtain ⟨h1, h2, h3⟩ := funsL_props body hs.2 f hf
      exact ⟨h1, by simp only [Cmd.size]; omega, fun g hg => by simp only [Cmd.funs, List.mem_cons]; exact .inr (h3 g hg)⟩
theorem funsL_props : ∀ (cs : List (Cmd F)), ScopedL E npi fs cs → ∀ f ∈ funsL cs, BodyOk E npi fs f ∧ sizeL f.body < sizeL cs ∧ ∀ g ∈ funsL f.body, g ∈ funsL cs
  | [], _, f, hf => by simp [funsL] at hf
  | c :: cs, hs, f, hf => by
    simp only [ScopedL] at hs
    simp only [funsL, List.mem_append] at hf
    rcases hf with hf | hf
    · obtain ⟨h1, h2, h3⟩ := funs_props c hs.1 f hf
      exact ⟨h1, by simp only [sizeL]; omega, fun g hg => by simp only [funsL, List.mem_append]; exact .inl (h3 g hg)⟩
    · obtain ⟨h1, h2, h3⟩ := funsL_props cs hs.2 f hf
      exact ⟨h1, by simp only [sizeL]; omega, fun g hg => by simp only [funsL, List.mem_append]; exact .inr (h3 g hg)⟩
end

/-- A call instruction among well-scoped commands is the call of a function of theirs. -/
theorem call_mem (d : Nat) (xs : List Nat) (n : Nat) : ∀ (cs : List (Cmd F)), ScopedL E npi fs cs → Call.call d xs n ∈ cs.map Cmd.flat →
    ∃ f ∈ funsL cs, f.id = d ∧ f.arity = xs.length ∧ f.outs.length = n := by
  intro cs
  induction cs with
  | nil => intro _ h; simp at h
  | cons c cs ih =>
    intro hs h
    simp only [ScopedL] at hs
    simp only [List.map_cons, List.mem_cons] at h
    rcases h with h | h
    · cases c with
      | api c =>
        simp only [Cmd.flat] at h
        simp only [Scoped] at hs
        rw [← h] at hs
        simp [Call.isCall] at hs
      | sub id ys body os =>
        simp only [Cmd.flat, Call.call.injEq] at h
        obtain ⟨rfl, rfl, rfl⟩ := h
        exact ⟨⟨d, xs.length, body, os⟩, by simp [funsL, Cmd.funs], rfl, rfl, rfl⟩
    · obtain ⟨f, h1, h2⟩ := ih hs.2 h
      exact ⟨f, by simp [funsL, h1], h2⟩

/-- **Hypotheses on a program**: every function body and the program itself use only variables returned to them before (and the side conditions of the calls hold). -/
def Program.Ok (E : Env F) (fs : Nat) (p : Program F) : Prop :=
  ScopedL E (some p.numPublic) fs p.cmds ∧ ∀ log b, runCalls E.canon fs (p.cmds.map Cmd.flat) (rootNew p.numInputs p.numPublic) = some (log, b) →
    UsesV (inputVars (p.numInputs + p.numPublic)) log ∧ ∀ o ∈ p.outs, o ∈ available (inputVars (p.numInputs + p.numPublic)) log

/-- Ids identify functions, and none is the id of the root. -/
def Program.GoodIds (p : Program F) : Prop := Unique (· ∈ funsL p.cmds) ∧ ∀ f ∈ funsL p.cmds, f.id ≠ 0

theorem lookup_map_build (E : Env F) : ∀ (S : Subs F) (k : Nat), k ≠ 0 →
    (((S.filter (fun q => q.1 ≠ 0)).map fun q => (q.1, q.2.1.build (adv := adv) E q.2.2)).lookup k) = (S.lookup k).map fun v => v.1.build (adv := adv) E v.2 := by
  intro S k hk
  rw [← lookup_filter S 0 k hk]
  generalize S.filter (fun q => q.1 ≠ 0) = T
  induction T with
  | nil => rfl
  | cons p T ih =>
    simp only [List.map_cons, List.lookup]
    cases k == p.1 <;> simp [ih]

/-- What building gives. -/
theorem build_get {p : Program F} {rc : RootCircuit (srcM adv E)} (hu : p.GoodIds) (hb : p.build E fs = some rc) :
    ∃ log b, runCalls E.canon fs (p.cmds.map Cmd.flat) (rootNew p.numInputs p.numPublic) = some (log, b) ∧ p.rets E fs = log.map (·.2) ∧
      rc.numPublicInputs = p.numPublic ∧ rc.expectedNumOutputZeroes = 0 ∧ rc.get 0 = some (b.build E p.outs) ∧ 0 ∉ p.outs ∧
      (∀ f ∈ funsL p.cmds, Knows E fs rc.get f) ∧
      (∀ k circ, rc.get k = some circ → k ≠ 0 → ∃ f ∈ funsL p.cmds, f.id = k) := by
  unfold Program.build at hb
  cases hr : execCmds E.canon fs p.cmds [] (rootNew p.numInputs p.numPublic) with
  | none => rw [hr] at hb; simp at hb
  | some r =>
    obtain ⟨rs, S, b⟩ := r
    rw [hr] at hb
    simp only at hb
    by_cases h0 : 0 ∈ p.outs
    · rw [if_pos h0] at hb; simp at hb
    rw [if_neg h0] at hb
    simp only [Option.some.injEq] at hb
    obtain ⟨⟨log, h1, h1'⟩, h2, _, h4⟩ := execCmds_spec (P := (· ∈ funsL p.cmds)) hu.1 p.cmds (fun f hf => hf) (by intro id v hv; simp at hv) hr
    have hget : ∀ k, k ≠ 0 → rc.get k = (S.lookup k).map fun v => v.1.build E v.2 := by
      intro k hk
      rw [← hb]
      simp only [RootCircuit.get]
      have : (k == 0) = false := by simpa using hk
      rw [List.lookup, this]
      exact lookup_map_build E S k hk
    refine ⟨log, b, h1, ?_, by rw [← hb], by rw [← hb], by rw [← hb]; rfl, h0, ?_, ?_⟩
    · unfold Program.rets; rw [h1]
    · intro f hf
      obtain ⟨v, hv⟩ := Option.isSome_iff_exists.1 (h4 f hf)
      obtain ⟨g, hg, hid, ho, ⟨lg, hlg⟩, _⟩ := h2 _ _ hv
      have := hu.1 g f hg hf hid
      subst this
      exact ⟨lg, v.1, hlg, by rw [hget _ (hu.2 g hf), hv, ho]; rfl⟩
    · intro k circ hk hk0
      rw [hget k hk0] at hk
      cases hv : S.lookup k with
      | none => rw [hv] at hk; simp at hk
      | some v =>
        obtain ⟨g, hg, hid, _⟩ := h2 _ _ hv
        exact ⟨g, hg, hid⟩

theorem scoped_pub (np : Nat) : ScopedL E (some np) fs (pubCmds np) := by
  have : ∀ l : List Nat, (∀ i ∈ l, i < np) → ScopedL E (some np) fs (l.map fun i => Cmd.api (Call.pub i)) := by
    intro l
    induction l with
    | nil => intro _; trivial
    | cons i l ih =>
      intro h
      refine ⟨⟨rfl, ?_⟩, ih (fun j hj => h j (by simp [hj]))⟩
      intro n hn
      simp only [Option.some.injEq] at hn
      rw [← hn]; exact h i (by simp)
  exact this _ (by simp)

theorem scopedL_append : ∀ (cs ds : List (Cmd F)), ScopedL E npi fs (cs ++ ds) ↔ ScopedL E npi fs cs ∧ ScopedL E npi fs ds := by
  intro cs ds
  induction cs with
  | nil => simp [ScopedL]
  | cons c cs ih => simp [ScopedL, ih, and_assoc]

theorem funsL_append : ∀ (cs ds : List (Cmd F)), funsL (cs ++ ds) = funsL cs ++ funsL ds := by
  intro cs ds
  induction cs with
  | nil => simp [funsL]
  | cons c cs ih => simp [funsL, ih]

theorem funsL_pub (np : Nat) : funsL (pubCmds (F := F) np) = [] := by
  have : ∀ l : List Nat, funsL (l.map fun i => Cmd.api (F := F) (Call.pub i)) = [] := by
    intro l
    induction l with
    | nil => rfl
    | cons i l ih => simp [funsL, Cmd.funs, ih]
  exact this _

theorem meanings_append : ∀ (cs ds : List (Cmd F)) (rs qs : List (List Nat)) (val : Nat → F), rs.length = cs.length →
    (Meanings adv E fs (cs ++ ds) (rs ++ qs) val ↔ Meanings adv E fs cs rs val ∧ Meanings adv E fs ds qs val) := by
  intro cs
  induction cs with
  | nil =>
    intro ds rs qs val h
    have : rs = [] := by simpa using h
    subst this
    simp [Meanings]
  | cons c cs ih =>
    intro ds rs qs val h
    cases rs with
    | nil => simp at h
    | cons r rs =>
      simp only [List.cons_append, Meanings, ih ds rs qs val (by simpa using h), and_assoc]

theorem meanings_pub (n np : Nat) (val : Nat → F) :
    Meanings adv E fs (pubCmds np) ((List.range np).map fun i => [n + 1 + i]) val ↔ ∀ i < np, val (n + 1 + i) = E.pub i := by
  have : ∀ l : List Nat, Meanings adv E fs (l.map fun i => Cmd.api (Call.pub i)) (l.map fun i => [n + 1 + i]) val ↔ ∀ i ∈ l, val (n + 1 + i) = E.pub i := by
    intro l
    induction l with
    | nil => simp [Meanings]
    | cons i l ih =>
      simp only [List.map_cons, Meanings, ih, List.forall_mem_cons, Meaning, Cmd.flat, Call.args, List.map_nil]
      simp [Call.Doc]
  have := this (List.range np)
  simp only [List.mem_range] at this
  exact this

theorem usesV_append : ∀ (l1 l2 : List (Call F × List Nat)) (av : List Nat), UsesV av (l1 ++ l2) ↔ UsesV av l1 ∧ UsesV (available av l1) l2 := by
  intro l1 l2
  induction l1 with
  | nil => intro av; simp [UsesV, available]
  | cons e l1 ih =>
    intro av
    obtain ⟨c, r⟩ := e
    have : available av ((c, r) :: l1) = available (av ++ r) l1 := by simp [available, List.append_assoc]
    simp only [List.cons_append, UsesV, ih, this, and_assoc]

theorem available_pub (n np : Nat) : available (inputVars n) ((List.range np).map fun i => (Call.pub (F := F) i, [n + 1 + i])) = inputVars (n + np) := by
  simp only [available, inputVars, List.range_add, List.map_append, List.map_map]
  congr 1
  have : ∀ l : List Nat, (l.map fun i => (Call.pub (F := F) i, [n + 1 + i])).flatMap (·.2) = l.map ((· + 1) ∘ (n + ·)) := by
    intro l
    induction l with
    | nil => rfl
    | cons i l ih =>
      simp only [List.map_cons, List.flatMap_cons, ih, List.singleton_append, Function.comp]
      congr 1
      omega
  exact this _

theorem usesV_pub (n : Nat) : ∀ (l : List Nat) (av : List Nat), UsesV av (l.map fun i => (Call.pub (F := F) i, [n + 1 + i])) := by
  intro l
  induction l with
  | nil => intro av; trivial
  | cons i l ih => intro av; exact ⟨by simp [Call.args], ih _⟩

/-- The root builder as an ordinary builder: first the public inputs, then the program. -/
theorem root_body {p : Program F} (hs : p.Ok E fs) {log : List (Call F × List Nat)} {b : Builder F}
    (hrun : runCalls E.canon fs (p.cmds.map Cmd.flat) (rootNew p.numInputs p.numPublic) = some (log, b)) :
    runCalls E.canon fs ((pubCmds p.numPublic ++ p.cmds).map Cmd.flat) (Builder.new p.numInputs) =
        some ((List.range p.numPublic).map (fun i => (Call.pub i, [p.numInputs + 1 + i])) ++ log, b) ∧
      UsesV (inputVars p.numInputs) ((List.range p.numPublic).map (fun i => (Call.pub i, [p.numInputs + 1 + i])) ++ log) ∧
      (∀ o ∈ p.outs, o ∈ available (inputVars p.numInputs) ((List.range p.numPublic).map (fun i => (Call.pub i, [p.numInputs + 1 + i])) ++ log)) ∧
      ScopedL E (some p.numPublic) fs (pubCmds p.numPublic ++ p.cmds) := by
  obtain ⟨h1, h2⟩ := hs.2 log b hrun
  refine ⟨?_, ?_, ?_, (scopedL_append _ _).2 ⟨scoped_pub _, hs.1⟩⟩
  · rw [List.map_append]
    exact runCalls_append _ _ (run_pub _ _ _ _) hrun
  · rw [usesV_append, available_pub]
    exact ⟨usesV_pub _ _ _, h1⟩
  · intro o ho
    have := h2 o ho
    rw [← available_pub (F := F)] at this
    simpa [available, List.append_assoc] using this

/-- **Specification** of a program on inputs and outputs: some values of the variables agree with the inputs and public inputs, every command has its documented meaning on
them, and the outputs are the values of the output variables. -/
def Program.Spec (adv : Bool) (E : Env F) (fs : Nat) (p : Program F) (ins os : List F) : Prop :=
  ins.length = p.numInputs ∧ ∃ val : Nat → F, (∀ (i : Nat) (a : F), ins[i]? = some a → val (i + 1) = a) ∧
    (∀ i < p.numPublic, val (p.numInputs + 1 + i) = E.pub i) ∧ Meanings adv E fs p.cmds (p.rets E fs) val ∧ os = p.outs.map val

/-- **The compiled frontend program means the program.** -/
theorem program_eval (hH : E.HintLen) {p : Program F} {rc : RootCircuit (srcM adv E)} (hs : p.Ok E fs) (hu : p.GoodIds) (hb : p.build E fs = some rc) (ins os : List F) :
    (Eval rc ins os true → p.Spec adv E fs ins os) ∧ (adv = false → p.Spec adv E fs ins os → Eval rc ins os true) := by
  obtain ⟨log, b, hrun, hrets, _, hz, hroot, _, hk, _⟩ := build_get hu hb
  obtain ⟨h1, h2, h3, h4⟩ := root_body hs hrun
  have hkn : ∀ f ∈ funsL (pubCmds p.numPublic ++ p.cmds), Knows E fs rc.get f := by
    intro f hf
    rw [funsL_append, funsL_pub] at hf
    exact hk f (by simpa using hf)
  have hlog := runCalls_length _ h1
  have huses := uses_of _ hlog h2 h4 hkn
  have hn : b.numInputs = p.numInputs :=
    (runCalls_spec hH _ (inv_new (E := E) (get := rc.get) (npi := some p.numPublic) _) h1 (inputVars_range _) huses).2.1
  have hev : Eval rc ins os true ↔ ins.length = p.numInputs ∧ EvalSub rc.get (b.build E p.outs) ins os true := by
    constructor
    · rintro ⟨root, all, b0, hr, hl, he, _, ho, hbb⟩
      rw [hroot] at hr
      simp only [Option.some.injEq] at hr
      subst hr
      rw [hz] at ho hbb
      simp only [List.drop_zero] at ho
      have : b0 = true := by simpa using hbb.symm
      subst this ho
      exact ⟨hl.trans hn, he⟩
    · rintro ⟨hl, he⟩
      exact ⟨_, os, true, hroot, hl.trans hn.symm, he, by rw [hz]; omega, by rw [hz]; rfl, by rw [hz]; rfl⟩
  rw [hev]
  have e : List.map (·.2) ((List.range p.numPublic).map fun i => (Call.pub (F := F) i, [p.numInputs + 1 + i])) = (List.range p.numPublic).map fun i => [p.numInputs + 1 + i] := by
    rw [List.map_map]; rfl
  have hmm : ∀ val, Meanings adv E fs (pubCmds p.numPublic ++ p.cmds) (((List.range p.numPublic).map (fun i => (Call.pub (F := F) i, [p.numInputs + 1 + i])) ++ log).map (fun q : Call F × List Nat => q.2)) val ↔
      (∀ i < p.numPublic, val (p.numInputs + 1 + i) = E.pub i) ∧ Meanings adv E fs p.cmds (p.rets E fs) val := by
    intro val
    rw [List.map_append, meanings_append _ _ _ _ _ (by simp [pubCmds]), e, meanings_pub, hrets]
  constructor
  · rintro ⟨hl, he⟩
    obtain ⟨val, k1, k2, k3⟩ := (build_eval hH h1 huses h3 hl).1 he
    obtain ⟨k4, k5⟩ := (hmm val).1 ((meanings_iff hH _ h4 hkn hlog val).1 k2)
    exact ⟨hl, val, k1, k4, k5, k3⟩
  · rintro hf ⟨hl, val, k1, k4, k5, k3⟩
    exact ⟨hl, (build_eval hH h1 huses h3 hl).2 hf ⟨val, k1, (meanings_iff hH _ h4 hkn hlog val).2 hf ((hmm val).2 ⟨k4, k5⟩), k3⟩⟩


/-- The circuit of a builder is well formed. -/
theorem build_circOk (hH : E.HintLen) {get : Nat → Option (Circuit (srcM adv E))} {cs : List (Call F)} {n : Nat} {log : List (Call F × List Nat)} {b : Builder F}
    (hrun : runCalls E.canon fs cs (Builder.new n) = some (log, b)) (hu : Uses E get npi fs (inputVars n) log) {os : List Nat}
    (hos : ∀ o ∈ os, o ∈ available (inputVars n) log) : CircOk npi (b.build (adv := adv) E os) ∧ b.numInputs = n := by
  obtain ⟨h1, h2, h3, _⟩ := runCalls_spec hH cs (inv_new (E := E) (get := get) (npi := npi) n) hrun (inputVars_range n) hu
  refine ⟨⟨h1.insns, ?_, .inl rfl, ?_, .inl rfl⟩, h2⟩
  · intro k hk
    simp only [Builder.build, List.mem_map] at hk
    obtain ⟨q, hq, rfl⟩ := hk
    have := h1.cons q hq
    rw [h1.len] at this
    exact ⟨by simp only [Builder.build]; omega, this.1⟩
  · intro o ho
    have := h3 o (hos o ho)
    rw [h1.len] at this
    exact ⟨by simp only [Builder.build]; omega, this.1⟩

/-- The call instructions of a builder made by well-scoped commands. -/
theorem build_calls {cs : List (Cmd F)} {n : Nat} {log : List (Call F × List Nat)} {b : Builder F}
    (hrun : runCalls E.canon fs (cs.map Cmd.flat) (Builder.new n) = some (log, b)) (hs : ScopedL E npi fs cs) {d : Nat} {xs : List Nat} {k : Nat}
    (h : Source.Insn.call d xs k ∈ b.instructions) : ∃ f ∈ funsL cs, f.id = d ∧ f.arity = xs.length ∧ f.outs.length = k := by
  rcases calls_of_run _ hrun d xs k h with h | h
  · simp [Builder.new] at h
  · exact call_mem d xs k cs hs h

theorem asCall_source {i : Source.Insn F} {d : Nat} {a : List Nat} {n : Nat} (h : (srcM adv E).asCall i = some (d, a, n)) : i = .call d a n := by
  cases i <;> simp_all [source, Source.Insn.asCall]

/-- **The compiled frontend program is well formed.** -/
theorem program_wf (hH : E.HintLen) {p : Program F} {rc : RootCircuit (srcM adv E)} (hs : p.Ok E fs) (hu : p.GoodIds) (hb : p.build E fs = some rc) :
    WFGet (some rc.numPublicInputs) rc.get ∧ ∃ root, rc.get 0 = some root ∧ rc.expectedNumOutputZeroes ≤ root.outputs.length ∧ root.outputs = p.outs := by
  obtain ⟨log, b, hrun, hrets, hnp, hz, hroot, _, hk, hinv⟩ := build_get hu hb
  obtain ⟨h1, h2, h3, h4⟩ := root_body hs hrun
  have hkn : ∀ f ∈ funsL (pubCmds p.numPublic ++ p.cmds), Knows E fs rc.get f := by
    intro f hf
    rw [funsL_append, funsL_pub] at hf
    exact hk f (by simpa using hf)
  have hfe : funsL (pubCmds p.numPublic ++ p.cmds) = funsL p.cmds := by rw [funsL_append, funsL_pub]; rfl
  have hrootok := build_circOk hH h1 (uses_of _ (runCalls_length _ h1) h2 h4 hkn) h3
  -- every circuit is the root or a function
  have hcases : ∀ c circ, rc.get c = some circ → (c = 0 ∧ circ = b.build E p.outs) ∨
      ∃ f ∈ funsL p.cmds, f.id = c ∧ ∃ lg b', runCalls E.canon fs (f.body.map Cmd.flat) (Builder.new f.arity) = some (lg, b') ∧ circ = b'.build E f.outs ∧
        UsesV (inputVars f.arity) lg ∧ (∀ o ∈ f.outs, o ∈ available (inputVars f.arity) lg) ∧ ScopedL E (some p.numPublic) fs f.body := by
    intro c circ hc
    by_cases h0 : c = 0
    · subst h0
      rw [hroot] at hc
      simp only [Option.some.injEq] at hc
      exact .inl ⟨rfl, hc.symm⟩
    · obtain ⟨f, hf, hid⟩ := hinv c circ hc h0
      obtain ⟨lg, b', hr', hg'⟩ := hk f hf
      obtain ⟨⟨⟨lg2, b2, hr2, hu2, ho2⟩, hsb⟩, _⟩ := funsL_props p.cmds hs.1 f hf
      rw [hr'] at hr2
      simp only [Option.some.injEq, Prod.mk.injEq] at hr2
      obtain ⟨rfl, rfl⟩ := hr2
      rw [hid, hc] at hg'
      simp only [Option.some.injEq] at hg'
      exact .inr ⟨f, hf, hid, lg, b', hr', hg', hu2, ho2, hsb⟩
  -- circuits of functions
  have hfun : ∀ f ∈ funsL p.cmds, ∃ circ, rc.get f.id = some circ ∧ circ.numInputs = f.arity ∧ circ.outputs.length = f.outs.length := by
    intro f hf
    obtain ⟨lg, b', hr', hg'⟩ := hk f hf
    obtain ⟨⟨⟨lg2, b2, hr2, hu2, ho2⟩, hsb⟩, _, hsub⟩ := funsL_props p.cmds hs.1 f hf
    rw [hr'] at hr2
    simp only [Option.some.injEq, Prod.mk.injEq] at hr2
    obtain ⟨rfl, rfl⟩ := hr2
    have := (build_circOk (get := rc.get) hH hr' (uses_of _ (runCalls_length _ hr') hu2 hsb (fun g hg => hk g (hsub g hg))) ho2).2
    exact ⟨_, hg', this, rfl⟩
  refine ⟨⟨?_, ?_, ?_⟩, b.build E p.outs, hroot, by rw [hz]; omega, rfl⟩
  · intro c circ hc
    rw [hnp]
    rcases hcases c circ hc with ⟨_, rfl⟩ | ⟨f, hf, _, lg, b', hr', rfl, hu', ho', hsb⟩
    · exact hrootok.1
    · obtain ⟨_, _, hsub⟩ := funsL_props p.cmds hs.1 f hf
      exact (build_circOk (get := rc.get) hH hr' (uses_of _ (runCalls_length _ hr') hu' hsb (fun g hg => hk g (hsub g hg))) ho').1
  · intro c circ hc i hi d a n ha
    have hi' := asCall_source ha
    subst hi'
    have : ∃ f ∈ funsL p.cmds, f.id = d ∧ f.arity = a.length ∧ f.outs.length = n := by
      rcases hcases c circ hc with ⟨_, rfl⟩ | ⟨f, hf, _, lg, b', hr', rfl, hu', ho', hsb⟩
      · rw [← hfe]; exact build_calls h1 h4 hi
      · obtain ⟨_, _, hsub⟩ := funsL_props p.cmds hs.1 f hf
        obtain ⟨g, hg, hgg⟩ := build_calls hr' hsb hi
        exact ⟨g, hsub g hg, hgg⟩
    obtain ⟨g, hg, rfl, h6, h7⟩ := this
    obtain ⟨circ', h8, h9, h10⟩ := hfun g hg
    exact ⟨circ', h8, by rw [h9, h6], by rw [h10, h7]⟩
  · classical
    refine ⟨fun k => if k = 0 then sizeL p.cmds else if h : ∃ f ∈ funsL p.cmds, f.id = k then sizeL h.choose.body else 0, ?_⟩
    have hrank : ∀ f ∈ funsL p.cmds, (if f.id = 0 then sizeL p.cmds else if h : ∃ g ∈ funsL p.cmds, g.id = f.id then sizeL h.choose.body else 0) = sizeL f.body := by
      intro f hf
      have hex : ∃ g ∈ funsL p.cmds, g.id = f.id := ⟨f, hf, rfl⟩
      rw [if_neg (hu.2 f hf), dif_pos hex]
      have := hu.1 hex.choose f hex.choose_spec.1 hf hex.choose_spec.2
      rw [this]
    rintro c d ⟨circ, hc, i, hi, a, n, ha⟩
    have hi' := asCall_source ha
    subst hi'
    rcases hcases c circ hc with ⟨rfl, rfl⟩ | ⟨f, hf, rfl, lg, b', hr', rfl, hu', ho', hsb⟩
    · obtain ⟨g, hg, rfl, _⟩ := build_calls h1 h4 hi
      rw [hfe] at hg
      have e0 := hrank g hg
      simp only [if_true]
      rw [e0]
      exact (funsL_props p.cmds hs.1 g hg).2.1
    · obtain ⟨_, _, hsub⟩ := funsL_props p.cmds hs.1 f hf
      obtain ⟨g, hg, rfl, _⟩ := build_calls hr' hsb hi
      have e1 := hrank g (hsub g hg)
      have e2 := hrank f hf
      simp only at e1 e2 ⊢
      rw [e1, e2]
      exact (funsL_props f.body hsb g hg).2.1

/-- **A call panics only if it has no documented behaviour** on any values the preceding calls allow. -/
theorem panic_doc (hH : E.HintLen) {get : Nat → Option (Circuit (srcM adv E))} {cs : List (Call F)} {n : Nat} {log : List (Call F × List Nat)} {b : Builder F}
    (hf : adv = false) (hrun : runCalls E.canon fs cs (Builder.new n) = some (log, b)) (hu : Uses E get npi fs (inputVars n) log) (c : Call F)
    (hv : ∀ v, Arg.var v ∈ c.args → v ∈ available (inputVars n) log) (hok : c.Ok E get npi fs) (hp : c.run E.canon fs b = none)
    (ins : List F) (hl : ins.length = n) (val : Nat → F) (hi : ∀ (i : Nat) (a : F), ins[i]? = some a → val (i + 1) = a)
    (hd : ∀ e ∈ log, e.1.Doc E get fs (e.1.args.map (Arg.eval val)) (e.2.map val)) (outs : List F) : ¬ c.Doc E get fs (c.args.map (Arg.eval val)) outs := by
  intro hdoc
  obtain ⟨h1, h2, h3, h4⟩ := runCalls_spec hH cs (inv_new (E := E) (get := get) (npi := npi) n) hrun (inputVars_range n) hu
  obtain ⟨vs, ha, hag⟩ := (h4 ins val).2 hf ⟨⟨0 :: ins, acc_new.2 ⟨hl, rfl⟩, (agrees_inputs hl).2 hi⟩, hd⟩
  have hargs : ∀ x ∈ c.args, x.Ok b.varConstId.length := by
    intro x hx
    cases x with
    | var v => exact h3 v (hv v hx)
    | val _ => trivial
  exact (tri_call hH h1 c hargs hok).panics hf hp ins vs outs ha ⟨_, agrees_args hag hv, hdoc⟩

end Verif.Frontend
