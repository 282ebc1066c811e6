import Verif.Frontend.MemoExec
import Verif.Props.C29

/-!
# C31: memoised calls run the function that was called

The id of a memoised sub-circuit comes from a hash of a key (`memorized_simple_call`: number of inputs and function id; `#[memorized]`: structure and primitive
arguments, *without* the identity of the function).  `hash` and `idOf` are arbitrary; the specification `Program.Spec` says that every call means the function
called.
-/
set_option linter.unusedSectionVars false
namespace Verif.Props
open Verif.IR Verif.Frontend Verif.Builder

variable {F : Type} [Field F] [DecidableEq F] {fs : Nat} {H : Type} [DecidableEq H]

/-- **Partial**: if in the program equal keys belong to equal functions (`KeyDet`), the hash has no collision on the keys of the program and gives no id 0, then the
circuit built accepts exactly the inputs and outputs of the program in which every call runs the function called — for every history of nested memoised calls.
(Collisions of the 8-byte ids need not be excluded: they panic.)  Missing: `KeyDet` is false for two `#[memorized]` functions, see `C31_violated`. -/
theorem C31_partial {E : Env F} (hH : E.HintLen) {hash : List Nat → H} {idOf : H → Nat} {p : KProgram F} {rc : RootCircuit (source E)}
    (hs : (p.prog fun k => idOf (hash k)).Ok E fs) (hk : p.KeyDet)
    (hinj : ∀ f ∈ kfunsL p.cmds, ∀ g ∈ kfunsL p.cmds, hash f.key = hash g.key → f.key = g.key) (h0 : ∀ f ∈ kfunsL p.cmds, idOf (hash f.key) ≠ 0)
    (hb : p.build (adv := false) hash idOf E fs = some rc) (ins os : List F) :
    Eval rc ins os true ↔ (p.prog fun k => idOf (hash k)).Spec false E fs ins os := by
  obtain ⟨h1, h2⟩ := kbuild_spec (adv := false) hk hinj h0 hb
  exact C29_values hH hs h2 h1 ins os

/-- **One memorized function** is always told apart from itself with other structure or primitives: two calls of the same `#[memorized]` function with the same key
run the same body. -/
theorem C31_same_function {d : Nat} {f : List (AVal Nat) → List (KCmd F) × Nest Nat d} {as bs : List (AVal Nat)} (ht : as.map AVal.param = bs.map AVal.param)
    {key key' xs ys : List Nat} {body body' : List (KCmd F)} {outs outs' : List Nat}
    (ha : memoCall d f as = some (.memo key xs body outs)) (hb : memoCall d f bs = some (.memo key' ys body' outs')) (hk : key = key') :
    (⟨key, xs.length, body, outs⟩ : KFun F) = ⟨key', ys.length, body', outs'⟩ := memoCall_det ht ha hb hk

/-- **`memorized_simple_call`**: if the function id determines the function, equal keys mean equal functions; and its keys differ from all `#[memorized]` keys. -/
theorem C31_simple {fid fid' : Nat} {f g : List Nat → List (KCmd F) × List Nat} (hfg : fid = fid' → f = g) {xs ys : List Nat} (hx : xs.length < 2 ^ 64) (hy : ys.length < 2 ^ 64)
    (hf : fid < 2 ^ 64) (hg : fid' < 2 ^ 64) {key key' xs' ys' : List Nat} {body body' : List (KCmd F)} {outs outs' : List Nat}
    (ha : simpleCall fid f xs = .memo key xs' body outs) (hb : simpleCall fid' g ys = .memo key' ys' body' outs') (hk : key = key') :
    (⟨key, xs'.length, body, outs⟩ : KFun F) = ⟨key', ys'.length, body', outs'⟩ ∧ ∀ args : List (AVal Nat), memoKey args ≠ key := by
  simp only [simpleCall, KCmd.memo.injEq] at ha hb
  obtain ⟨rfl, rfl, rfl, rfl⟩ := ha
  obtain ⟨rfl, rfl, rfl, rfl⟩ := hb
  obtain ⟨h1, h2⟩ := simpleKey_inj hx hy hf hg hk
  have := hfg h2
  subst this
  rw [h1, h2]
  exact ⟨rfl, fun args => keys_differ args _ _⟩

/-! ### The general failure: the second body is ignored -/

theorem memo_ignores_body {hash : List Nat → H} {idOf : H → Nat} {cn : Canon F} {key xs : List Nat} {body body' : List (KCmd F)} {outs outs' : List Nat}
    {T : List (Nat × H)} {S : Subs F} {b : Verif.Frontend.Builder F} (hS : (S.lookup (idOf (hash key))).isSome) :
    kexec hash idOf cn fs (.memo key xs body outs) T S b = kexec hash idOf cn fs (.memo key xs body' outs') T S b := by
  simp only [kexec, hS, if_true]

/-- After a memoised call its id is in the table. -/
theorem memo_registers {hash : List Nat → H} {idOf : H → Nat} {cn : Canon F} {key xs : List Nat} {body : List (KCmd F)} {outs r : List Nat}
    {T T' : List (Nat × H)} {S S' : Subs F} {b b' : Verif.Frontend.Builder F} (h : kexec hash idOf cn fs (.memo key xs body outs) T S b = some (r, T', S', b')) :
    (S'.lookup (idOf (hash key))).isSome := by
  simp only [kexec] at h
  split at h
  · simp at h
  split at h
  · simp at h
  split at h
  · rename_i hS
    simp only [Option.map_eq_some_iff] at h
    obtain ⟨q, hq, he⟩ := h
    have hqs := finish_subs hq
    obtain ⟨q1, q2, q3⟩ := q
    simp only [Prod.mk.injEq] at he
    obtain ⟨rfl, rfl, rfl, rfl⟩ := he
    have hqs : q2 = S := hqs
    rw [hqs]; exact hS
  · split at h
    · simp at h
    · simp only [Option.map_eq_some_iff] at h
      obtain ⟨q, hq, he⟩ := h
      have hqs := finish_subs hq
      obtain ⟨q1, q2, q3⟩ := q
      simp only [Prod.mk.injEq] at he
      obtain ⟨rfl, rfl, rfl, rfl⟩ := he
      have hqs : q2 = _ := hqs
      rw [hqs, lookup_put]; simp

/-- **In general**: when two functions have the same key, a program calling one and then the other builds the circuit in which the first function is called twice. -/
theorem C31_second_ignored {adv : Bool} {E : Env F} {hash : List Nat → H} {idOf : H → Nat} (n np : Nat) (key xs ys : List Nat) (body body' : List (KCmd F))
    (o o' outs : List Nat) (rest : List (KCmd F)) :
    (KProgram.build (adv := adv) hash idOf E fs ⟨n, np, .memo key xs body o :: .memo key ys body' o' :: rest, outs⟩) =
      KProgram.build (adv := adv) hash idOf E fs ⟨n, np, .memo key xs body o :: .memo key ys body o :: rest, outs⟩ := by
  have : kexecs hash idOf E.canon fs (.memo key xs body o :: .memo key ys body' o' :: rest) [] [] (rootNew n np) =
      kexecs hash idOf E.canon fs (.memo key xs body o :: .memo key ys body o :: rest) [] [] (rootNew n np) := by
    simp only [kexecs]
    cases h : kexec hash idOf E.canon fs (.memo key xs body o) [] [] (rootNew n np) with
    | none => rfl
    | some p =>
      simp only []
      rw [memo_ignores_body (body' := body) (outs' := o) (memo_registers h)]
  simp only [KProgram.build, this]

/-! ### A concrete violation -/

/-- `#[memorized] fn square(api, x: Variable) -> Variable { api.mul(x, x) }`. -/
def memoSquare (args : List (AVal Nat)) : List (KCmd Ex.F7) × Nest Nat 0 :=
  match args with
  | [.var 0 x] => ([.api (.mul (.var x) (.var x))], (2 : Nat))
  | _ => ([], (0 : Nat))

/-- `#[memorized] fn double(api, x: Variable) -> Variable { api.add(x, x) }`. -/
def memoDouble (args : List (AVal Nat)) : List (KCmd Ex.F7) × Nest Nat 0 :=
  match args with
  | [.var 0 x] => ([.api (.add (.var x) (.var x))], (2 : Nat))
  | _ => ([], (0 : Nat))

def sqCall (x : Nat) : KCmd Ex.F7 := .memo (memoKey [.var 0 x]) [x] [.api (.mul (.var 1) (.var 1))] [2]
def dblCall (x : Nat) : KCmd Ex.F7 := .memo (memoKey [.var 0 x]) [x] [.api (.add (.var 1) (.var 1))] [2]

example : memoCall 0 memoSquare [.var 0 (1 : Nat)] = some (sqCall 1) := rfl
example : memoCall 0 memoDouble [.var 0 (1 : Nat)] = some (dblCall 1) := rfl

/-- `let y = memorized_square(x); let z = memorized_double(x); set_outputs([y, z])`. -/
def badProg : KProgram Ex.F7 := ⟨1, 0, [sqCall 1, dblCall 1], [2, 3]⟩
def goodProg : KProgram Ex.F7 := ⟨1, 0, [sqCall 1, sqCall 1], [2, 3]⟩

theorem square_meaning (num : List Nat → Nat) (x : Ex.F7) (o : List Ex.F7) : Meaning false Ex.env 32 ((sqCall 1).cmd num) [x] o ↔ o = [x * x] := by
  simp only [sqCall, KCmd.cmd, KCmd.cmds, Meaning]
  constructor
  · rintro ⟨log, b, val, h, hv, hm, rfl⟩
    have h' : runCalls Ex.env.canon 32 [Cmd.flat (Cmd.api (Call.mul (F := Ex.F7) (.var 1) (.var 1)))] (.new 1) = some ([(.mul (.var 1) (.var 1), [2])], _) := rfl
    simp only [List.map_cons, List.map_nil, List.length_cons, List.length_nil] at h
    rw [h'] at h
    simp only [Option.some.injEq, Prod.mk.injEq] at h
    obtain ⟨rfl, _⟩ := h
    have h1 := hv 0 x rfl
    have h2 : ([2].map val) = [val 1 * val 1] := hm.1
    rw [h2, show val 1 = x from h1]
  · rintro rfl
    refine ⟨_, _, fun v => [0, x, x * x].getD v 0, rfl, ?_, ⟨rfl, trivial⟩, rfl⟩
    intro i c h
    rcases i with _ | i
    · simpa using h
    · simp at h

theorem double_meaning (num : List Nat → Nat) (x : Ex.F7) : Meaning false Ex.env 32 ((dblCall 1).cmd num) [x] [x + x] := by
  simp only [dblCall, KCmd.cmd, KCmd.cmds, Meaning]
  refine ⟨_, _, fun v => [0, x, x + x].getD v 0, rfl, ?_, ⟨rfl, trivial⟩, rfl⟩
  intro i c h
  rcases i with _ | i
  · simpa using h
  · simp at h

theorem goodProg_ok (num : List Nat → Nat) : (goodProg.prog num).Ok Ex.env 32 := by
  have hs : Scoped Ex.env (some 0) 32 ((sqCall 1).cmd num) := by
    refine ⟨⟨_, _, rfl, usesV_of _ _ rfl, fun o ho => ?_⟩, ⟨rfl, trivial⟩, trivial⟩
    rw [List.mem_singleton] at ho
    subst ho
    exact of_decide_eq_true rfl
  refine ⟨⟨hs, hs, trivial⟩, ?_⟩
  intro log b h
  have h' : runCalls Ex.env.canon 32 ((goodProg.prog num).cmds.map Cmd.flat) (rootNew 1 0) =
      some ([(.call (num (memoKey [.var 0 (1 : Nat)])) [1] 1, [2]), (.call (num (memoKey [.var 0 (1 : Nat)])) [1] 1, [3])], _) := rfl
  have h := h'.symm.trans h
  simp only [Option.some.injEq, Prod.mk.injEq] at h
  rw [← h.1]
  refine ⟨usesV_of _ _ rfl, ?_⟩
  intro o ho
  simp only [KProgram.prog, goodProg, List.mem_cons, List.not_mem_nil, or_false] at ho
  rcases ho with rfl | rfl <;> exact of_decide_eq_true rfl

theorem good_funs {f : KFun Ex.F7} (h : f ∈ kfunsL goodProg.cmds) : f = ⟨memoKey [.var 0 (1 : Nat)], 1, [.api (.mul (.var 1) (.var 1))], [2]⟩ := by
  simpa [goodProg, sqCall, kfunsL, KCmd.kfuns] using h

theorem good_built (hash : List Nat → H) (idOf : H → Nat) : ∃ rc, goodProg.build (adv := false) hash idOf Ex.env 32 = some rc := by
  apply Option.isSome_iff_exists.1
  obtain ⟨bb, hbb⟩ : ∃ bb, Call.run Ex.env.canon 32 (.mul (.var 1) (.var 1)) (.new 1) = some ([2], bb) := ⟨_, rfl⟩
  simp [KProgram.build, goodProg, sqCall, kexecs, kexec, hashToId, List.lookup, finishCall, Subs.put, callInsn, hbb, emit]

/-- **C31 is violated** by two `#[memorized]` functions with the same parameter types, whatever the hash function: calling `square(x)` and then `double(x)` builds a
circuit that accepts `(x², x²)` and rejects the documented `(x², 2x)`; here `x = 3` over F₇. -/
theorem C31_violated (hash : List Nat → H) (idOf : H → Nat) (h0 : idOf (hash (memoKey [.var 0 (1 : Nat)])) ≠ 0) :
    ∃ rc : RootCircuit (source Ex.env), badProg.build (adv := false) hash idOf Ex.env 32 = some rc ∧
      (badProg.prog fun k => idOf (hash k)).Spec false Ex.env 32 [3] [3 * 3, 3 + 3] ∧ ¬ Eval rc [3] [3 * 3, 3 + 3] true ∧ Eval rc [3] [3 * 3, 3 * 3] true := by
  obtain ⟨rc, hrc⟩ := good_built hash idOf
  have hbad : badProg.build (adv := false) hash idOf Ex.env 32 = some rc :=
    (C31_second_ignored (adv := false) (E := Ex.env) 1 0 (memoKey [.var 0 (1 : Nat)]) [1] [1] [.api (.mul (.var 1) (.var 1))] [.api (.add (.var 1) (.var 1))] [2] [2] [2, 3] []).trans hrc
  have hv := fun os => C31_partial Ex.env_len (goodProg_ok fun k => idOf (hash k)) (fun f hf g hg _ => (good_funs hf).trans (good_funs hg).symm)
    (fun f hf g hg _ => by rw [good_funs hf, good_funs hg]) (fun f hf => by rw [good_funs hf]; exact h0) hrc [3] os
  have hr : (goodProg.prog fun k => idOf (hash k)).rets Ex.env 32 = [[2], [3]] := rfl
  have hr' : (badProg.prog fun k => idOf (hash k)).rets Ex.env 32 = [[2], [3]] := rfl
  refine ⟨rc, hbad, ?_, ?_, ?_⟩
  · refine ⟨rfl, fun v => [0, 3, 3 * 3, 3 + 3].getD v 0, ?_, ?_, ?_, rfl⟩
    · intro i c h
      rcases i with _ | i
      · simpa using h
      · simp at h
    · intro i hi; exact absurd hi (by simp [badProg, KProgram.prog])
    · rw [hr']
      exact ⟨(square_meaning _ 3 _).2 rfl, double_meaning _ 3, trivial⟩
  · rw [hv]
    rintro ⟨_, val, hi, _, hm, ho⟩
    rw [hr] at hm
    have h1 : val 1 = 3 := hi 0 3 rfl
    have h2 := (square_meaning _ (val 1) ([3].map val)).1 hm.2.1
    have h3 : [3 * 3, 3 + 3] = [2, 3].map val := ho
    simp only [List.map_cons, List.map_nil, List.cons.injEq, and_true] at h2 h3
    rw [h1, ← h3.2] at h2
    exact absurd h2 (by decide)
  · rw [hv]
    refine ⟨rfl, fun v => [0, 3, 3 * 3, 3 * 3].getD v 0, ?_, ?_, ?_, rfl⟩
    · intro i c h
      rcases i with _ | i
      · simpa using h
      · simp at h
    · intro i hi; exact absurd hi (by simp [goodProg, KProgram.prog])
    · rw [hr]
      exact ⟨(square_meaning _ 3 _).2 rfl, (square_meaning _ 3 _).2 rfl, trivial⟩

/-- `memorized_simple_call` with closures that capture values: two closures of one type have the same function id.  Here `move |api, x| x · k` for `k = 2` and
`k = 3`: the circuit built for the two calls is the circuit in which the first closure is called twice. -/
def scaleBy (k : Ex.F7) (_ : List Nat) : List (KCmd Ex.F7) × List Nat := ([.api (.mul (.var 1) (.val k))], [3])

theorem C31_simple_violated (hash : List Nat → H) (idOf : H → Nat) (fid : Nat) :
    (KProgram.build (adv := false) hash idOf Ex.env 32 ⟨1, 0, [simpleCall fid (scaleBy 2) [1], simpleCall fid (scaleBy 3) [1]], [2, 3]⟩) =
      KProgram.build (adv := false) hash idOf Ex.env 32 ⟨1, 0, [simpleCall fid (scaleBy 2) [1], simpleCall fid (scaleBy 2) [1]], [2, 3]⟩ ∧
    simpleCall fid (scaleBy 2) [1] ≠ simpleCall fid (scaleBy 3) [1] := by
  refine ⟨C31_second_ignored (adv := false) (E := Ex.env) 1 0 (simpleKey 1 fid) [1] [1] _ _ _ _ [2, 3] [], ?_⟩
  intro h
  simp only [simpleCall, scaleBy, KCmd.memo.injEq, List.cons.injEq, KCmd.api.injEq, Call.mul.injEq, Arg.val.injEq, and_true, true_and] at h
  exact absurd h (by decide)

end Verif.Props
