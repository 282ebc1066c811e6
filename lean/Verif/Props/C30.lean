import Verif.Props.C29
import Mathlib.NumberTheory.LucasLehmer

/-!
# C30: the comparison API

`gt(x, y)` and `geq(x, y)` decompose both operands into 254 (`FIELD_SIZE = 256`) or 31 (`FIELD_SIZE = 32`) bits and compare the bits.  With the bits the honest prover
supplies the result is right (`C30_gt`, `C30_geq`), whatever was called before.  A dishonest prover may supply any bits with the right sum in the field: the result then
compares arbitrary representatives below `2^n` (`C30_*_adversarial_partial`), so it is right when both operands have only one representative, and the full statement
fails over M31 (`C30_violated`), where `0` is represented by `0` and by `2^31 - 1`.
-/
set_option linter.unusedSectionVars false
set_option linter.unusedSimpArgs false
namespace Verif.Props
open Verif.IR Verif.Frontend Verif.Builder

variable {F : Type} [Field F] [DecidableEq F] {fs : Nat}

/-- The variables used by, and returned to, the calls of a history are available at its end. -/
theorem used_available {adv : Bool} {E : Env F} {get : Nat → Option (Circuit (srcM adv E))} {npi : Option Nat} : ∀ (log : List (Call F × List Nat)) (av : List Nat),
    Uses E get npi fs av log → ∀ e ∈ log, (∀ v, Arg.var v ∈ e.1.args → v ∈ available av log) ∧ ∀ v ∈ e.2, v ∈ available av log := by
  intro log
  induction log with
  | nil => intro av _ e he; simp at he
  | cons d log ih =>
    obtain ⟨c, r⟩ := d
    intro av h e he
    have e1 : available av ((c, r) :: log) = available (av ++ r) log := by simp [available]
    rw [e1]
    rcases List.mem_cons.1 he with rfl | he
    · refine ⟨fun v hv => ?_, fun v hv => ?_⟩
      · have := h.1 v hv
        simp [available, this]
      · simp only at hv
        simp [available, hv]
    · exact ih _ h.2.2 e he

/-- The value of one call of a history, in every accepted evaluation of the circuit built. -/
theorem call_value {adv : Bool} {E : Env F} (hH : E.HintLen) {get : Nat → Option (Circuit (srcM adv E))} {npi : Option Nat} {cs : List (Call F)} {n : Nat}
    {log : List (Call F × List Nat)} {b : Verif.Frontend.Builder F} (hrun : runCalls E.canon fs cs (.new n) = some (log, b)) (hu : Uses E get npi fs (inputVars n) log)
    {c : Call F} {x y : Nat} (hx : c.args = [.var x, .var y]) {r : Nat} (hm : (c, [r]) ∈ log) {ins : List F} (hl : ins.length = n) {a d o : F}
    (he : EvalSub get (b.build E [x, y, r]) ins [a, d, o] true) : c.Doc E get fs [a, d] [o] := by
  obtain ⟨h1, h2⟩ := used_available log _ hu _ hm
  simp only [hx] at h1
  obtain ⟨val, _, k2, k3⟩ := (build_eval hH hrun hu (os := [x, y, r]) (by
    intro t ht
    simp only [List.mem_cons, List.not_mem_nil, or_false] at ht
    rcases ht with rfl | rfl | rfl
    · exact h1 _ (by simp)
    · exact h1 _ (by simp)
    · exact h2 _ (by simp)) hl).1 he
  have := k2 _ hm
  simp only [hx, List.map_cons, List.map_nil, Arg.eval] at this k3
  simp only [List.cons.injEq, and_true] at k3
  obtain ⟨rfl, rfl, rfl⟩ := k3
  exact this

/-- **`gt` with the honest prover**: in every evaluation, the variable `r` returned by `gt(x, y)` is 1 if the canonical value of `x` is greater than that of `y`, else 0. -/
theorem C30_gt {E : Env F} (hH : E.HintLen) {get : Nat → Option (Circuit (srcM false E))} {cs : List (Call F)} {n : Nat} {log : List (Call F × List Nat)}
    {b : Verif.Frontend.Builder F} (hrun : runCalls E.canon fs cs (.new n) = some (log, b)) (hu : Uses E get none fs (inputVars n) log) {x y r : Nat}
    (hm : (Call.gt (.var x) (.var y), [r]) ∈ log) {ins : List F} (hl : ins.length = n) {a c o : F} (he : EvalSub get (b.build E [x, y, r]) ins [a, c, o] true) :
    o = if E.canon.toNat a > E.canon.toNat c then 1 else 0 := by
  have := call_value hH hrun hu rfl hm hl he
  simpa [Call.Doc] using this

/-- **`geq` with the honest prover**. -/
theorem C30_geq {E : Env F} (hH : E.HintLen) {get : Nat → Option (Circuit (srcM false E))} {cs : List (Call F)} {n : Nat} {log : List (Call F × List Nat)}
    {b : Verif.Frontend.Builder F} (hrun : runCalls E.canon fs cs (.new n) = some (log, b)) (hu : Uses E get none fs (inputVars n) log) {x y r : Nat}
    (hm : (Call.geq (.var x) (.var y), [r]) ∈ log) {ins : List F} (hl : ins.length = n) {a c o : F} (he : EvalSub get (b.build E [x, y, r]) ins [a, c, o] true) :
    o = if E.canon.toNat a ≥ E.canon.toNat c then 1 else 0 := by
  have := call_value hH hrun hu rfl hm hl he
  simpa [Call.Doc] using this

/-- A number below `2^n` represents the field element `a` only as its canonical value, if adding the modulus leaves the range. -/
theorem representative (cn : Canon F) (hp : ∀ k : Nat, (k : F) = 0 → cn.modulus ∣ k) {n X : Nat} (hX : X < 2 ^ n) (h : 2 ^ n ≤ cn.toNat (X : F) + cn.modulus) :
    X = cn.toNat (X : F) := by
  have h0 := cn.toNat_lt (X : F)
  rcases Nat.lt_or_ge X cn.modulus with hlt | hge
  · exact (cn.toNat_cast X hlt).symm
  · have hle : cn.toNat (X : F) ≤ X := by omega
    have h1 : ((X - cn.toNat (X : F) : Nat) : F) = 0 := by
      rw [Nat.cast_sub hle, cn.cast_toNat, sub_self]
    obtain ⟨q, hq⟩ := hp _ h1
    rcases q with _ | q
    · omega
    · have h2 : cn.modulus ≤ X - cn.toNat (X : F) := by rw [hq]; exact Nat.le_mul_of_pos_right _ (by omega)
      omega

/-- **`gt` with an adversarial prover, partial**: whatever bits the prover supplies, if adding the modulus to the canonical value of either operand leaves the range of `n`
bits, the result is right.  Over M31 (`n = 31`) this is every operand except 0.  Missing: the other operands, for which the statement is false (`C30_violated`). -/
theorem C30_gt_adversarial_partial {E : Env F} (hH : E.HintLen) (hp : ∀ k : Nat, (k : F) = 0 → E.canon.modulus ∣ k) {get : Nat → Option (Circuit (srcM true E))}
    {cs : List (Call F)} {m : Nat} {log : List (Call F × List Nat)} {b : Verif.Frontend.Builder F} (hrun : runCalls E.canon fs cs (.new m) = some (log, b))
    (hu : Uses E get none fs (inputVars m) log) {x y r : Nat} (hm : (Call.gt (.var x) (.var y), [r]) ∈ log) {ins : List F} (hl : ins.length = m) {a c o : F}
    (he : EvalSub get (b.build E [x, y, r]) ins [a, c, o] true) (n : Nat) (hn : gtBits fs = some n) (ha : 2 ^ n ≤ E.canon.toNat a + E.canon.modulus)
    (hc : 2 ^ n ≤ E.canon.toNat c + E.canon.modulus) : o = if E.canon.toNat a > E.canon.toNat c then 1 else 0 := by
  have := call_value hH hrun hu rfl hm hl he
  simp only [Call.Doc, if_true] at this
  obtain ⟨n', X, Y, h1, h2, h3, rfl, rfl, h6⟩ := this
  rw [hn] at h1
  cases h1
  rw [← representative E.canon hp h2 ha, ← representative E.canon hp h3 hc]
  simpa using h6

/-- **`geq` with an adversarial prover, partial**; see `C30_gt_adversarial_partial`. -/
theorem C30_geq_adversarial_partial {E : Env F} (hH : E.HintLen) (hp : ∀ k : Nat, (k : F) = 0 → E.canon.modulus ∣ k) {get : Nat → Option (Circuit (srcM true E))}
    {cs : List (Call F)} {m : Nat} {log : List (Call F × List Nat)} {b : Verif.Frontend.Builder F} (hrun : runCalls E.canon fs cs (.new m) = some (log, b))
    (hu : Uses E get none fs (inputVars m) log) {x y r : Nat} (hm : (Call.geq (.var x) (.var y), [r]) ∈ log) {ins : List F} (hl : ins.length = m) {a c o : F}
    (he : EvalSub get (b.build E [x, y, r]) ins [a, c, o] true) (n : Nat) (hn : gtBits fs = some n) (ha : 2 ^ n ≤ E.canon.toNat a + E.canon.modulus)
    (hc : 2 ^ n ≤ E.canon.toNat c + E.canon.modulus) : o = if E.canon.toNat a ≥ E.canon.toNat c then 1 else 0 := by
  have := call_value hH hrun hu rfl hm hl he
  simp only [Call.Doc, if_true] at this
  obtain ⟨n', X, Y, h1, h2, h3, rfl, rfl, h6⟩ := this
  rw [hn] at h1
  cases h1
  rw [← representative E.canon hp h2 ha, ← representative E.canon hp h3 hc]
  simpa using h6

/-! ## M31 -/

instance m31_prime : Fact (Nat.Prime 2147483647) := ⟨by
  have : (mersenne 31).Prime := lucas_lehmer_sufficiency _ (by norm_num) (by norm_num)
  simpa [mersenne] using this⟩

/-- The Mersenne-31 field (`FIELD_SIZE = 32`). -/
abbrev M31 := ZMod 2147483647

/-- Hints may answer anything. -/
def m31env : Env M31 := ⟨fun _ => 0, fun _ xs => xs.sum, fun _ _ n o => o.length = n, Canon.zmod _ (by decide)⟩

theorem m31env_len : m31env.HintLen := fun _ _ _ _ h => h

/-- The program `gt(x, y)` on two inputs. -/
def gtProg : Program M31 := ⟨2, 0, [.api (.gt (.var 1) (.var 2))], [281]⟩

theorem gtProg_ok : gtProg.Ok m31env 32 ∧ gtProg.GoodIds := by
  refine ⟨⟨⟨⟨rfl, 31, rfl, by decide +kernel⟩, trivial⟩, ?_⟩, ?_, ?_⟩
  · intro log b h
    have h1 : (runCalls m31env.canon 32 (gtProg.cmds.map Cmd.flat) (rootNew gtProg.numInputs gtProg.numPublic)).map (fun q => (usesChk (inputVars 2) q.1, decide (281 ∈ available (inputVars 2) q.1))) =
      some (true, true) := by decide +kernel
    rw [h] at h1
    simp only [Option.map_some, Option.some.injEq, Prod.mk.injEq, decide_eq_true_eq] at h1
    exact ⟨usesV_of _ _ h1.1, by intro o ho; simp only [gtProg, List.mem_singleton] at ho; subst ho; exact h1.2⟩
  · intro f g hf _ _
    simp [gtProg, funsL, Cmd.funs] at hf
  · intro f hf
    simp [gtProg, funsL, Cmd.funs] at hf

/-- The hypotheses of the theorems above are met by the history with one comparison (and by every other history of calls). -/
example (adv : Bool) : ∃ log b, runCalls m31env.canon 32 [.gt (.var 1) (.var 2)] (.new 2) = some (log, b) ∧
    Uses (adv := adv) m31env (fun _ => none) none 32 (inputVars 2) log ∧ (Call.gt (.var 1) (.var 2), [281]) ∈ log := by
  have h : (runCalls m31env.canon 32 [.gt (.var 1) (.var 2)] (.new 2)).map (fun q => q.1.map (fun e : Call M31 × List Nat => e.2)) = some [[281]] := by decide +kernel
  obtain ⟨⟨log, b⟩, h1, h2⟩ := Option.map_eq_some_iff.1 h
  have h3 := runCalls_length _ h1
  rcases log with _ | ⟨⟨c, r⟩, _ | ⟨e, l⟩⟩ <;> simp at h2 h3
  subst h2 h3
  exact ⟨_, b, h1, ⟨by simp [Call.args, inputVars], ⟨31, rfl, by decide +kernel⟩, trivial⟩, by simp⟩

/-- Over M31 every operand except 0 has one representative. -/
example (a : M31) (ha : m31env.canon.toNat a ≠ 0) : 2 ^ 31 ≤ m31env.canon.toNat a + m31env.canon.modulus := by
  have : m31env.canon.modulus = 2147483647 := rfl
  omega

/-- Decision procedure for adversarial runs of the instructions used, the bits being given. -/
def advStep : Source.Insn M31 → List M31 → List (List M31) → Option (List M31 × List (List M31))
  | .linComb lc, args, o => some ([lc.evalArgs args], o)
  | .boolBinOp _ _ op, [x, y], o => if (x = 0 ∨ x = 1) ∧ (y = 0 ∨ y = 1) then some ([op.eval x y], o) else none
  | .constantLike (.const c), _, o => some ([c], o)
  | .toBinary _ n, [x], bs :: o => if bs.length = n ∧ bs.all (fun b => b = 0 || b = 1) = true ∧ bitsSum bs = x then some (bs, o) else none
  | _, _, _ => none

def advRun : List (Source.Insn M31) → List M31 → List (List M31) → Option (List M31)
  | [], vs, _ => some vs
  | i :: is, vs, o =>
    match mapOpt (fun v => vs[v]?) i.inputs with
    | none => none
    | some args => match advStep i args o with
      | none => none
      | some r => advRun is (vs ++ r.1) r.2

theorem advStep_sem {i : Source.Insn M31} {args outs : List M31} {o o' : List (List M31)} (h : advStep i args o = some (outs, o')) :
    i.asCall = none ∧ semAdv m31env i args outs := by
  unfold advStep at h
  split at h
  · simp only [Option.some.injEq, Prod.mk.injEq] at h
    exact ⟨rfl, h.1.symm⟩
  · split at h
    · rename_i hb
      simp only [Option.some.injEq, Prod.mk.injEq] at h
      exact ⟨rfl, hb.1, hb.2, h.1.symm⟩
    · cases h
  · simp only [Option.some.injEq, Prod.mk.injEq] at h
    exact ⟨rfl, _, rfl, h.1.symm⟩
  · split at h
    · rename_i hb
      simp only [Option.some.injEq, Prod.mk.injEq] at h
      rw [← h.1]
      exact ⟨rfl, hb.1, by simpa using hb.2.1, hb.2.2⟩
    · cases h
  · cases h

theorem advRun_run (get : Nat → Option (Circuit (sourceAdv m31env))) : ∀ (is : List (Source.Insn M31)) (vs vs' : List M31) (o : List (List M31)), advRun is vs o = some vs' →
    Run (L := sourceAdv m31env) get is vs vs' true := by
  intro is
  induction is with
  | nil =>
    intro vs vs' o h
    simp only [advRun, Option.some.injEq] at h
    subst h
    exact .nil _
  | cons i is ih =>
    intro vs vs' o h
    simp only [advRun] at h
    split at h
    · cases h
    · rename_i args ha
      split at h
      · cases h
      · rename_i r hr
        obtain ⟨h1, h2⟩ := advStep_sem (o' := r.2) (outs := r.1) hr
        exact .prim h1 ⟨args, ha, h2⟩ (ih _ _ _ h)

/-- The bits of 5, and 31 ones: both are bit decompositions in M31, of 5 and of 0. -/
def badBits : List (List M31) := [List.replicate 31 1, [1, 0, 1] ++ List.replicate 28 0]

def exactB {F : Type} : Source.Insn F → Bool
  | .linComb _ | .boolBinOp _ _ _ | .constantLike _ | .toBinary _ _ => true
  | _ => false

/-- What a run of the built circuit with the bad bits gives. -/
def badCheck (rc : RootCircuit (source m31env)) : Bool :=
  rc.expectedNumOutputZeroes = 0 &&
  match rc.circuits with
  | [(0, c)] => c.instructions.all exactB && c.constraints.length == 0 && c.numInputs == 2 &&
    (match advRun c.instructions [0, 0, 5] badBits with
      | some vs => readAll vs c.outputs == some [1]
      | none => false)
  | _ => false

theorem bad_ok : (gtProg.build (adv := false) m31env 32).map badCheck = some true := by decide +kernel

/-- **The full statement is false**: over M31 the constraints generated for `gt(x, y)` accept the result 1 for `x = 0` and `y = 5`: the program builds, its circuit is
valid, hint normalisation succeeds, and for suitable answers of the bit-decomposition hint all constraints of the result hold on inputs `[0, 5]` with output `[1]`. -/
theorem C30_violated : ∃ (rc : RootCircuit (source m31env)) (rc' : RootCircuit (hintNorm m31env)), gtProg.build (adv := false) m31env 32 = some rc ∧ rc.validate = true ∧
    process m31env.canon id m31env rc = .ok rc' ∧ Eval rc' [0, 5] [1] true ∧ ¬ (m31env.canon.toNat 0 > m31env.canon.toNat 5) := by
  obtain ⟨rc, hb, hc⟩ := Option.map_eq_some_iff.1 bad_ok
  have hv : rc.validate = true := C29_validate m31env_len gtProg_ok.1 gtProg_ok.2 hb (by decide)
  have hn := build_nodup (adv := false) hb
  simp only [badCheck, Bool.and_eq_true, decide_eq_true_eq] at hc
  obtain ⟨hz, hc⟩ := hc
  split at hc
  case h_2 => cases hc
  rename_i c hcs
  simp only [Bool.and_eq_true, beq_iff_eq, List.all_eq_true] at hc
  obtain ⟨⟨⟨h1, h2⟩, h3⟩, h4⟩ := hc
  split at h4
  case h_2 => cases h4
  rename_i vs hvs
  have hg : ∀ k circ, rc.get k = some circ → k = 0 ∧ circ = c := by
    intro k circ hk
    have := mem_of_get hk
    rw [hcs] at this
    simpa using this
  have hg0 : rc.get 0 = some c := by simp [RootCircuit.get, hcs, List.lookup]
  have hex : ExactRc rc := by
    intro k circ hk i hi
    obtain ⟨_, rfl⟩ := hg k circ hk
    have := h1 i hi
    cases i <;> simp_all [exactB, Exact]
  have hc0 : c.constraints = [] := by simpa using h2
  have hadv : Eval (advRc m31env.anyHint rc) [0, 5] [1] true := by
    refine ⟨advC m31env.anyHint c, [1], true, by rw [advRc_get, hg0]; rfl, h3.symm, ?_, by simp [advRc, hz], by simp [advRc, hz], by simp [advRc, hz]⟩
    refine ⟨vs, true, true, advRun_run _ _ _ _ _ hvs, ?_, eq_of_beq h4, rfl⟩
    simp [advC, hc0, checkCons]
  rcases C06_complete m31env m31env_len (fun _ _ _ _ _ h => h) id (fun _ => List.Perm.refl _) rc hn hv with ⟨_, k, circ, hk, i, hi, hbad⟩ | ⟨rc', hp, _⟩
  · obtain ⟨_, rfl⟩ := hg k circ hk
    have := h1 i hi
    rcases hbad with ⟨x, y, ch, rfl⟩ | ⟨x, y, op, rfl⟩ <;> simp [exactB] at this
  · exact ⟨rc, rc', hb, hv, hp, (C07_exact m31env id (fun _ => List.Perm.refl _) rc hn hv hex rc' hp [0, 5] [1]).1 hadv, by decide +kernel⟩

end Verif.Props
