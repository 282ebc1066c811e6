import Verif.Frontend.Program
import Verif.Props.C07

/-!
# C29: the frontend builder emits well-formed circuits with the documented values

A program is any sequence of API calls (`Verif.Frontend.Call`) and of calls of memoised sub-circuit functions, to any depth.  `Program.build` runs it on the model of
`RootBuilder`; `Call.Doc` is the documented behaviour of each call, `Program.Spec` that of a whole program.  The hypotheses are: only variables returned earlier
are used (`Program.Ok`) and the ids of sub-circuits identify the functions (`Program.GoodIds`, see C31).
-/
set_option linter.unusedSectionVars false
namespace Verif.Props
open Verif.IR Verif.Frontend Verif.Builder

variable {F : Type} [Field F] [DecidableEq F] {fs : Nat}

/-! ### Sub-circuit tables have distinct keys -/

def KeysNodup (S : Subs F) : Prop := (S.map (·.1)).Nodup

theorem keysNodup_filter {S : Subs F} (h : KeysNodup S) (q : Nat × (Verif.Frontend.Builder F × List Nat) → Bool) : KeysNodup (S.filter q) :=
  List.Nodup.sublist (List.Sublist.map _ List.filter_sublist) h

theorem keysNodup_put {S : Subs F} (h : KeysNodup S) (id : Nat) (v : Verif.Frontend.Builder F × List Nat) : KeysNodup (S.put id v) := by
  simp only [Subs.put, KeysNodup, List.map_cons, List.nodup_cons]
  refine ⟨?_, keysNodup_filter h _⟩
  simp

theorem keysNodup_finish {id : Nat} {xs : List Nat} {S S' : Subs F} {b b' : Verif.Frontend.Builder F} {r : List Nat} (h : KeysNodup S)
    (hf : finishCall id xs S b = some (r, S', b')) : KeysNodup S' := by
  unfold finishCall at hf
  split at hf
  · cases hf
  · split at hf
    · cases hf
    · simp only [Option.some.injEq, Prod.mk.injEq] at hf
      rw [← hf.2.1]; exact h

mutual
theorem keysNodup_cmd {cn : Canon F} : ∀ (c : Cmd F) {S S' : Subs F} {b b' : Verif.Frontend.Builder F} {r : List Nat}, KeysNodup S →
    execCmd cn fs c S b = some (r, S', b') → KeysNodup S'
  | .api c, S, S', b, b', r, h, he => by
    simp only [execCmd, Option.map_eq_some_iff] at he
    obtain ⟨p, _, hp⟩ := he
    simp only [Prod.mk.injEq] at hp
    rw [← hp.2.1]; exact h
  | .sub id xs body outs, S, S', b, b', r, h, he => by
    simp only [execCmd] at he
    split at he
    · cases he
    · split at he
      · exact keysNodup_finish h he
      · cases hb : execCmds cn fs body S (Verif.Frontend.Builder.new xs.length) with
        | none => rw [hb] at he; cases he
        | some q =>
          rw [hb] at he
          obtain ⟨q1, q2, q3⟩ := q
          exact keysNodup_finish (keysNodup_put (keysNodup_cmds body h hb) _ _) he
theorem keysNodup_cmds {cn : Canon F} : ∀ (cs : List (Cmd F)) {S S' : Subs F} {b b' : Verif.Frontend.Builder F} {r : List (List Nat)}, KeysNodup S →
    execCmds cn fs cs S b = some (r, S', b') → KeysNodup S'
  | [], S, S', b, b', r, h, he => by
    simp only [execCmds, Option.some.injEq, Prod.mk.injEq] at he
    rw [← he.2.1]; exact h
  | c :: cs, S, S', b, b', r, h, he => by
    simp only [execCmds] at he
    cases hc : execCmd cn fs c S b with
    | none => rw [hc] at he; cases he
    | some p =>
      obtain ⟨p1, p2, p3⟩ := p
      rw [hc] at he
      simp only at he
      cases hd : execCmds cn fs cs p2 p3 with
      | none => rw [hd] at he; cases he
      | some q =>
        obtain ⟨q1, q2, q3⟩ := q
        rw [hd] at he
        simp only [Option.some.injEq, Prod.mk.injEq] at he
        rw [← he.2.1]
        exact keysNodup_cmds cs (keysNodup_cmd c h hc) hd
end

/-- The built circuits have distinct ids. -/
theorem build_nodup {adv : Bool} {E : Env F} {p : Program F} {rc : RootCircuit (srcM adv E)} (hb : p.build E fs = some rc) : rc.vertices.Nodup := by
  unfold Program.build at hb
  cases hr : execCmds E.canon fs p.cmds [] (rootNew p.numInputs p.numPublic) with
  | none => rw [hr] at hb; cases hb
  | some q =>
    obtain ⟨q1, q2, q3⟩ := q
    rw [hr] at hb
    simp only at hb
    split at hb
    · cases hb
    · simp only [Option.some.injEq] at hb
      have h := keysNodup_cmds p.cmds (S := []) (by simp [KeysNodup]) hr
      rw [← hb]
      simp only [RootCircuit.vertices, List.map_cons, List.nodup_cons, List.map_map]
      constructor
      · simp
      · exact keysNodup_filter h _

/-- **Every reference is defined**: the built circuit passes `RootCircuit::validate` (a program without outputs must assert something somewhere: that is
the last check of `validate`; here it is stated for programs with outputs). -/
theorem C29_validate {E : Env F} (hH : E.HintLen) {p : Program F} {rc : RootCircuit (source E)} (hs : p.Ok E fs) (hu : p.GoodIds) (hb : p.build (adv := false) E fs = some rc)
    (ho : p.outs ≠ []) : rc.validate = true := by
  obtain ⟨h1, root, h2, h3, h4⟩ := program_wf (adv := false) hH hs hu hb
  refine (validate_iff rc (build_nodup (adv := false) hb)).2 ⟨h1, root, h2, h3, fun h => ?_⟩
  rw [h4] at h
  exact absurd h ho

/-- **Documented values**: the built circuit accepts exactly the inputs and outputs the program describes. -/
theorem C29_values {E : Env F} (hH : E.HintLen) {p : Program F} {rc : RootCircuit (source E)} (hs : p.Ok E fs) (hu : p.GoodIds) (hb : p.build (adv := false) E fs = some rc)
    (ins os : List F) : Eval rc ins os true ↔ p.Spec false E fs ins os :=
  ⟨(program_eval (adv := false) hH hs hu hb ins os).1, (program_eval (adv := false) hH hs hu hb ins os).2 rfl⟩

/-- The documented behaviour of the calls, spelled out on values. -/
theorem C29_doc (E : Env F) (get : Nat → Option (Circuit (srcM false E))) (x y : Arg F) (a c : F) (outs : List F) :
    ((Call.add x y).Doc E get fs [a, c] outs ↔ outs = [a + c]) ∧
    ((Call.sub x y).Doc E get fs [a, c] outs ↔ outs = [a - c]) ∧
    ((Call.mul x y).Doc E get fs [a, c] outs ↔ outs = [a * c]) ∧
    ((Call.neg x).Doc E get fs [a] outs ↔ outs = [-a]) ∧
    ((Call.isZero x).Doc E get fs [a] outs ↔ outs = [if a = 0 then 1 else 0]) ∧
    ((Call.div x y true).Doc E get fs [a, c] outs ↔ c ≠ 0 ∧ outs = [a / c]) ∧
    ((Call.assertCon .zero x).Doc E get fs [a] outs ↔ outs = [] ∧ a = 0) ∧
    ((Call.assertCon .nonZero x).Doc E get fs [a] outs ↔ outs = [] ∧ a ≠ 0) ∧
    ((Call.assertCon .bool x).Doc E get fs [a] outs ↔ outs = [] ∧ (a = 0 ∨ a = 1)) := by
  simp [Call.Doc]

/-- **`constant_value` is right**: whatever was called before, if it reports a value for a variable, then the variable has this value in every evaluation in which the
calls made so far have their documented values. -/
theorem C29_constant_value {E : Env F} (hH : E.HintLen) {get : Nat → Option (Circuit (srcM false E))} {cs : List (Call F)} {n : Nat} {log : List (Call F × List Nat)}
    {b : Verif.Frontend.Builder F} (hrun : runCalls E.canon fs cs (.new n) = some (log, b)) (hu : Uses E get none fs (inputVars n) log) {v : Nat}
    (hv : v ∈ available (inputVars n) log) {c : F} {b' : Verif.Frontend.Builder F} (hc : constantValue (.var v) b = some (some c, b')) (ins : List F) (hl : ins.length = n) (val : Nat → F)
    (hi : ∀ (i : Nat) (a : F), ins[i]? = some a → val (i + 1) = a) (hd : ∀ e ∈ log, e.1.Doc E get fs (e.1.args.map (Arg.eval val)) (e.2.map val)) :
    val v = c := by
  obtain ⟨h1, h2, h3, h4⟩ := runCalls_spec hH cs (inv_new (E := E) (get := get) (npi := none) n) hrun (inputVars_range n) hu
  obtain ⟨vs, ha, hag⟩ := (h4 ins val).2 rfl ⟨⟨0 :: ins, acc_new.2 ⟨hl, rfl⟩, (agrees_inputs hl).2 hi⟩, hd⟩
  obtain ⟨xc, k1, k2⟩ := constantValue_spec h1 (x := .var v) (h3 v hv)
  rw [hc] at k1
  simp only [Option.some.injEq, Prod.mk.injEq] at k1
  have h5 := k2 c k1.1.symm ins vs ha
  have h6 := hag v hv
  simp only [Arg.ev] at h5
  rw [h6] at h5
  simpa using h5

/-- **A call panics only if it is documented to fail**: no values of the earlier variables and no results meet the documentation of the call. -/
theorem C29_panics {E : Env F} (hH : E.HintLen) {get : Nat → Option (Circuit (srcM false E))} {cs : List (Call F)} {n : Nat} {log : List (Call F × List Nat)}
    {b : Verif.Frontend.Builder F} (hrun : runCalls E.canon fs cs (.new n) = some (log, b)) (hu : Uses E get none fs (inputVars n) log) (c : Call F)
    (hv : ∀ v, Arg.var v ∈ c.args → v ∈ available (inputVars n) log) (hok : c.Ok E get none fs) (hp : c.run E.canon fs b = none)
    (ins : List F) (hl : ins.length = n) (val : Nat → F) (hi : ∀ (i : Nat) (a : F), ins[i]? = some a → val (i + 1) = a)
    (hd : ∀ e ∈ log, e.1.Doc E get fs (e.1.args.map (Arg.eval val)) (e.2.map val)) (outs : List F) : ¬ c.Doc E get fs (c.args.map (Arg.eval val)) outs :=
  panic_doc (adv := false) hH rfl hrun hu c hv hok hp ins hl val hi hd outs

/-! ### Adversarial hints -/

mutual
theorem scoped_anyHint {E : Env F} {npi : Option Nat} : ∀ (c : Cmd F), Scoped E npi fs c → Scoped E.anyHint npi fs c
  | .api c, h => ⟨h.1, by
      cases c <;> first
        | exact h.2
        | (intro circ hc; simp at hc)⟩
  | .sub _ _ body _, h => ⟨h.1, scopedL_anyHint body h.2⟩
theorem scopedL_anyHint {E : Env F} {npi : Option Nat} : ∀ (cs : List (Cmd F)), ScopedL E npi fs cs → ScopedL E.anyHint npi fs cs
  | [], _ => trivial
  | c :: cs, h => ⟨scoped_anyHint c h.1, scopedL_anyHint cs h.2⟩
end

theorem build_adv {E : Env F} {p : Program F} {rc : RootCircuit (source E)} (hb : p.build (adv := false) E fs = some rc) :
    p.build (adv := true) E.anyHint fs = some (advRc E.anyHint rc) := by
  unfold Program.build at hb ⊢
  have e : (E.anyHint : Env F).canon = E.canon := rfl
  rw [e]
  cases hr : execCmds E.canon fs p.cmds [] (rootNew p.numInputs p.numPublic) with
  | none => rw [hr] at hb; cases hb
  | some q =>
    rw [hr] at hb
    simp only at hb ⊢
    split at hb
    · cases hb
    · rename_i h0
      rw [if_neg h0]
      have hb' := Option.some.inj hb
      subst hb'
      refine congrArg some ?_
      have h1 : ∀ (b : Verif.Frontend.Builder F) (os : List Nat), (b.build (adv := true) E.anyHint os : Circuit (sourceAdv E.anyHint)) = advC E.anyHint (b.build (adv := false) E os) := by
        intro b os
        have h3 : ∀ (cs cs' : List (Constraint (sourceAdv E.anyHint))), cs = cs' → (⟨b.instructions, cs, os, b.numInputs⟩ : Circuit (sourceAdv E.anyHint)) = ⟨b.instructions, cs', os, b.numInputs⟩ := by
          rintro cs cs' rfl; rfl
        refine h3 _ _ ?_
        have h4 : ∀ l : List (Source.Con × Nat), (l.map fun k => (⟨k.1, k.2⟩ : Constraint (sourceAdv E.anyHint))) =
            (l.map fun k => (⟨k.1, k.2⟩ : Constraint (source E))).map fun k => ⟨k.typ, k.var⟩ := by
          intro l
          induction l with
          | nil => rfl
          | cons k l ih => simp only [List.map_cons, ih]
        exact h4 b.constraints
      have h2 : ∀ T : Subs F, (T.map fun q => (q.1, (q.2.1.build (adv := true) E.anyHint q.2.2 : Circuit (sourceAdv E.anyHint)))) =
          (T.map fun q => (q.1, q.2.1.build (adv := false) E q.2.2)).map (fun p => (p.1, advC E.anyHint p.2)) := by
        intro T
        rw [List.map_map]
        refine List.map_congr_left ?_
        intro q _
        simp only [Function.comp, h1]
      have h3 : ∀ (x y : Circuit (sourceAdv E.anyHint)) (l m : List (Nat × Circuit (sourceAdv E.anyHint))), x = y → l = m →
          (⟨p.numPublic, 0, (0, x) :: l⟩ : RootCircuit (sourceAdv E.anyHint)) = ⟨p.numPublic, 0, (0, y) :: m⟩ := by
        rintro x y l m rfl rfl; rfl
      exact h3 _ _ _ _ (h1 _ _) (h2 _)

/-- **Soundness of the whole front half**: whatever the prover answers to the hints, if the constraints of the normalised circuit hold, then all calls of the program have
their documented adversarial values (`Spec true`: unconstrained results are arbitrary, everything else is as documented).  Partial, like C07: for programs in which no
recorded assertion is replaced by a mark. -/
theorem C29_adversarial_partial {E : Env F} (hH : E.HintLen) (cn : Canon F) (srt : List (Expr F) → List (Expr F)) (hsrt : ∀ l, (srt l).Perm l) {p : Program F}
    {rc : RootCircuit (source E)} (hs : p.Ok E fs) (hu : p.GoodIds) (hb : p.build (adv := false) E fs = some rc) (ho : p.outs ≠ []) (hok : KeepsAsserts cn srt rc)
    (rc' : RootCircuit (hintNorm E.anyHint)) (hp : process cn srt E.anyHint rc = .ok rc') (ins os : List F) (he : Eval rc' ins os true) :
    p.Spec true E.anyHint fs ins os := by
  have h1 := C07_partial E cn srt hsrt rc (build_nodup (adv := false) hb) (C29_validate hH hs hu hb ho) hok rc' hp ins os he
  exact (program_eval (adv := true) (HintExport.anyHint_len E) ⟨scopedL_anyHint _ hs.1, hs.2⟩ hu (build_adv hb) ins os).1 h1

/-! ## The hypotheses are met

A program over `F₇` with one input and one public input: a memoised function is called twice, with constant folding, a checked division, a comparison with
zero and an assertion. -/

/-- `sq(a) = a² + 1`. -/
def sqBody : List (Cmd Ex.F7) := [.api (.mul (.var 1) (.var 1)), .api (.add (.var 2) (.val 1))]

/-- Variables: 1 input, 2 public input; 3 = sq(1), 4 = sq(3), 5..: the constants 2 and 3 folded to 6 … -/
def exProg : Program Ex.F7 :=
  ⟨1, 1, [.sub 5 [1] sqBody [4], .sub 5 [3] sqBody [4], .api (.mul (.val 2) (.val 5)), .api (.div (.var 4) (.var 5) true), .api (.isZero (.var 2)),
    .api (.assertCon .bool (.var 7))], [6, 7]⟩

/-- Decision procedure for `UsesV`. -/
def argIn {F : Type} (av : List Nat) : Arg F → Bool
  | .var v => decide (v ∈ av)
  | .val _ => true
def usesChk {F : Type} : List Nat → List (Call F × List Nat) → Bool
  | _, [] => true
  | av, (c, rets) :: log => c.args.all (argIn av) && usesChk (av ++ rets) log

theorem usesV_of {F : Type} : ∀ (log : List (Call F × List Nat)) (av : List Nat), usesChk av log = true → UsesV av log := by
  intro log
  induction log with
  | nil => intro _ _; trivial
  | cons e log ih =>
    obtain ⟨c, r⟩ := e
    intro av h
    simp only [usesChk, Bool.and_eq_true, List.all_eq_true] at h
    refine ⟨fun v hv => ?_, ih _ h.2⟩
    have := h.1 _ hv
    simpa [argIn] using this

theorem exProg_ok : exProg.Ok Ex.env 32 ∧ exProg.GoodIds := by
  have hb : ∃ log b, runCalls Ex.env.canon 32 (sqBody.map Cmd.flat) (.new 1) = some (log, b) ∧ UsesV (inputVars 1) log ∧ ∀ o ∈ [4], o ∈ available (inputVars 1) log :=
    ⟨_, _, rfl, usesV_of _ _ (by decide +kernel), by decide +kernel⟩
  have hs : ∀ xs : List Nat, xs.length = 1 → Scoped Ex.env (some 1) 32 (.sub 5 xs sqBody [4]) := by
    intro xs hx
    refine ⟨?_, ⟨rfl, trivial⟩, ⟨rfl, trivial⟩, trivial⟩
    rw [hx]; exact hb
  refine ⟨⟨⟨hs _ rfl, hs _ rfl, ⟨rfl, trivial⟩, ⟨rfl, trivial⟩, ⟨rfl, trivial⟩, ⟨rfl, trivial⟩, trivial⟩, ?_⟩, ?_, ?_⟩
  · intro log b h
    have h' : runCalls Ex.env.canon 32 (exProg.cmds.map Cmd.flat) (rootNew exProg.numInputs exProg.numPublic) = some (_, _) := rfl
    rw [h'] at h
    simp only [Option.some.injEq, Prod.mk.injEq] at h
    rw [← h.1]
    exact ⟨usesV_of _ _ (by decide +kernel), by decide +kernel⟩
  · intro f g hf hg _
    simp only [exProg, funsL, Cmd.funs, sqBody, List.append_nil, List.mem_cons, List.cons_append, List.nil_append, List.length_cons, List.length_nil] at hf hg
    rcases hf with rfl | rfl | hf <;> rcases hg with rfl | rfl | hg <;> first | rfl | simp_all
  · intro f hf
    simp only [exProg, funsL, Cmd.funs, sqBody, List.append_nil, List.mem_cons, List.cons_append, List.nil_append] at hf
    rcases hf with rfl | rfl | hf
    · decide
    · decide
    · simp at hf

/-- The program builds and its circuit is valid: `C29_validate` applies. -/
example : ∃ rc : RootCircuit (source Ex.env), exProg.build (adv := false) Ex.env 32 = some rc ∧ rc.validate = true := by
  have h : ∃ rc : RootCircuit (source Ex.env), exProg.build (adv := false) Ex.env 32 = some rc :=
    Option.isSome_iff_exists.1 (by decide +kernel)
  obtain ⟨rc, h⟩ := h
  exact ⟨rc, h, C29_validate Ex.env_len exProg_ok.1 exProg_ok.2 h (by decide)⟩

/-- The specification of the program, on values: input `a`, public input `0` (`Ex.env` numbers the public inputs): `((a²+1)²+1) / 10` and `1`. -/
example (a : Ex.F7) : exProg.Spec false Ex.env 32 [a] [((a * a + 1) * (a * a + 1) + 1) / (2 * 5), 1] := by
  refine ⟨rfl, fun v => [0, a, 0, a * a + 1, (a * a + 1) * (a * a + 1) + 1, 2 * 5, ((a * a + 1) * (a * a + 1) + 1) / (2 * 5), 1].getD v 0, ?_, ?_, ?_, rfl⟩
  · intro i c h
    rcases i with _ | i
    · simpa using h
    · simp at h
  · intro i hi
    have : i = 0 := by simp only [exProg] at hi; omega
    subst this; rfl
  · have h' : exProg.rets Ex.env 32 = [[3], [4], [5], [6], [7], []] := by decide +kernel
    rw [h']
    have hsq : ∀ (xs : List Nat) (x : Ex.F7), xs.length = 1 → Meaning false Ex.env 32 (.sub 5 xs sqBody [4]) [x] [x * x + 1] := by
      intro xs x hx
      simp only [Meaning]
      rw [hx]
      refine ⟨_, _, fun v => [0, x, x * x, 1, x * x + 1].getD v 0, rfl, ?_, ⟨rfl, rfl, trivial⟩, rfl⟩
      intro i c h
      rcases i with _ | i
      · simpa using h
      · simp at h
    refine ⟨hsq _ _ rfl, hsq _ _ rfl, rfl, .inl ⟨(by decide : (2 * 5 : Ex.F7) ≠ 0), rfl⟩, ?_, ?_, trivial⟩
    · rfl
    · exact ⟨rfl, .inr rfl⟩

end Verif.Props
