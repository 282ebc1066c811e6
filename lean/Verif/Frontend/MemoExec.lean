import Verif.Frontend.Memo
import Mathlib.Tactic.NormNum

/-!
# Memoised calls: key → hash → sub-circuit id (builder.rs:712-763, macros/src/lib.rs:225-273)
-/
set_option linter.unusedSectionVars false
set_option linter.unusedSimpArgs false
namespace Verif.Frontend
open Verif.IR

variable {F : Type} [Field F] [DecidableEq F]

/-- A command of a program with memoised calls: `memo key xs body outs` is a call whose id comes from hashing `key`. -/
inductive KCmd (F : Type)
  | api (c : Call F)
  | memo (key : List Nat) (xs : List Nat) (body : List (KCmd F)) (outs : List Nat)

/-- A called function: key, number of inputs, body, returned variables. -/
structure KFun (F : Type) where
  key : List Nat
  arity : Nat
  body : List (KCmd F)
  outs : List Nat

mutual
/-- All functions called in a command, also inside bodies. -/
def KCmd.kfuns : KCmd F → List (KFun F)
  | .api _ => []
  | .memo key xs body outs => ⟨key, xs.length, body, outs⟩ :: kfunsL body
def kfunsL : List (KCmd F) → List (KFun F)
  | [] => []
  | c :: cs => c.kfuns ++ kfunsL cs
end

mutual
/-- The same command with the key replaced by a number. -/
def KCmd.cmd (num : List Nat → Nat) : KCmd F → Cmd F
  | .api c => .api c
  | .memo key xs body outs => .sub (num key) xs (KCmd.cmds num body) outs
def KCmd.cmds (num : List Nat → Nat) : List (KCmd F) → List (Cmd F)
  | [] => []
  | c :: cs => c.cmd num :: KCmd.cmds num cs
end

/-- `usize::to_le_bytes` / `u64::to_le_bytes` (64-bit target). -/
def leBytes (n : Nat) : List Nat := (List.range 8).map fun i => n / 256 ^ i % 256

/-- The key of `memorized_simple_call` (builder.rs:712-723): `fid` is `get_function_id::<F>()`, the hash of the function's `TypeId` (utils/function_id.rs:5-10). -/
def simpleKey (len fid : Nat) : List Nat := "simple".toList.map Char.toNat ++ leBytes len ++ leBytes fid

/-- `memorized_simple_call` (builder.rs:712-728) of `f`. -/
def simpleCall (fid : Nat) (f : List Nat → List (KCmd F) × List Nat) (xs : List Nat) : KCmd F :=
  .memo (simpleKey xs.length fid) xs (f (inputVars xs.length)).1 (f (inputVars xs.length)).2

/-- A call of a `#[memorized]` function (macros/src/lib.rs:230-268): the body gets the arguments rebuilt from the inputs of the new sub-circuit; its result
(`d`-fold nested) is joined.  Simplification: the body is part of the command even if the call turns out not to run it; the output structure registered under
the id is the structure of the first body's result. -/
def memoCall (d : Nat) (f : List (AVal Nat) → List (KCmd F) × Nest Nat d) (args : List (AVal Nat)) : Option (KCmd F) :=
  match joinArgs args with
  | none => none
  | some p => match rebuildArgs args (inputVars p.1.length) p.2 with
    | none => none
    | some as => match join d (f as).2 with
      | none => none
      | some q => some (.memo (memoKey args) p.1 (f as).1 q.1)

/-- `hash_to_sub_circuit_id` (builder.rs:730-740); `idOf` takes the first 8 bytes; panic on collision. -/
def hashToId {H : Type} [DecidableEq H] (idOf : H → Nat) (h : H) (T : List (Nat × H)) : Option (List (Nat × H)) :=
  match T.lookup (idOf h) with
  | some h' => if h' = h then some T else none
  | none => some ((idOf h, h) :: T)

mutual
/-- One command on a `RootBuilder` with `full_hash_id = T`, `sub_circuits = S` and last builder `b` (builder.rs:712-763, 831-844). -/
def kexec {H : Type} [DecidableEq H] (hash : List Nat → H) (idOf : H → Nat) (cn : Canon F) (fs : Nat) :
    KCmd F → List (Nat × H) → Subs F → Builder F → Option (List Nat × List (Nat × H) × Subs F × Builder F)
  | .api c, T, S, b => (c.run cn fs b).map fun p => (p.1, T, S, p.2)
  | .memo key xs body outs, T, S, b =>
    if 0 ∈ xs then none
    else match hashToId idOf (hash key) T with
      | none => none
      | some T => if (S.lookup (idOf (hash key))).isSome then (finishCall (idOf (hash key)) xs S b).map fun r => (r.1, T, r.2)
        else match kexecs hash idOf cn fs body T S (Builder.new xs.length) with
          | none => none
          | some r => (finishCall (idOf (hash key)) xs (r.2.2.1.put (idOf (hash key)) (r.2.2.2, outs)) b).map fun q => (q.1, r.2.1, q.2)
/-- A sequence of commands. -/
def kexecs {H : Type} [DecidableEq H] (hash : List Nat → H) (idOf : H → Nat) (cn : Canon F) (fs : Nat) :
    List (KCmd F) → List (Nat × H) → Subs F → Builder F → Option (List (List Nat) × List (Nat × H) × Subs F × Builder F)
  | [], T, S, b => some ([], T, S, b)
  | c :: cs, T, S, b => match kexec hash idOf cn fs c T S b with
    | none => none
    | some p => match kexecs hash idOf cn fs cs p.2.1 p.2.2.1 p.2.2.2 with
      | none => none
      | some q => some (p.1 :: q.1, q.2.1, q.2.2.1, q.2.2.2)
end

/-! ### Execution with keys is execution with ids -/

section
variable {H : Type} [DecidableEq H] {hash : List Nat → H} {idOf : H → Nat} {cn : Canon F} {fs : Nat}

/-- The table knows this function's hash under its id. -/
def Rec (hash : List Nat → H) (idOf : H → Nat) (T : List (Nat × H)) (f : KFun F) : Prop := T.lookup (idOf (hash f.key)) = some (hash f.key)

/-- Every finished sub-circuit was made for a function of the program, and all functions called in its body are recorded. -/
def KInv (hash : List Nat → H) (idOf : H → Nat) (P : KFun F → Prop) (T : List (Nat × H)) (S : Subs F) : Prop :=
  ∀ id, (S.lookup id).isSome → ∃ f, P f ∧ idOf (hash f.key) = id ∧ Rec hash idOf T f ∧ ∀ g ∈ kfunsL f.body, Rec hash idOf T g

theorem hashToId_spec {h : H} {T T' : List (Nat × H)} (e : hashToId idOf h T = some T') :
    T'.lookup (idOf h) = some h ∧ ∀ i v, T.lookup i = some v → T'.lookup i = some v := by
  unfold hashToId at e
  cases hl : T.lookup (idOf h) with
  | some h' =>
    simp only [hl] at e
    split at e
    · rename_i he
      simp only [Option.some.injEq] at e
      subst e
      exact ⟨by rw [hl, he], fun _ _ h => h⟩
    · simp at e
  | none =>
    simp only [hl, Option.some.injEq] at e
    subst e
    refine ⟨by simp [List.lookup], fun i v hv => ?_⟩
    have : (i == idOf h) = false := by
      apply beq_false_of_ne
      rintro rfl
      rw [hl] at hv; cases hv
    simp only [List.lookup, this]; exact hv

theorem KInv.mono {P : KFun F → Prop} {T T' : List (Nat × H)} {S : Subs F} (h : KInv hash idOf P T S) (hT : ∀ i v, T.lookup i = some v → T'.lookup i = some v) :
    KInv hash idOf P T' S := by
  intro id hid
  obtain ⟨f, h1, h2, h3, h4⟩ := h id hid
  exact ⟨f, h1, h2, hT _ _ h3, fun g hg => hT _ _ (h4 g hg)⟩

theorem finish_subs {id : Nat} {xs : List Nat} {S : Subs F} {b : Builder F} {r : List Nat × Subs F × Builder F} (h : finishCall id xs S b = some r) : r.2.1 = S := by
  unfold finishCall at h
  split at h
  · simp at h
  · split at h
    · simp at h
    · simp only [Option.some.injEq] at h; subst h; rfl

mutual
theorem kexec_spec {P : KFun F → Prop} (hP : ∀ f g, P f → P g → hash f.key = hash g.key → f = g) :
    ∀ (c : KCmd F) {T T' : List (Nat × H)} {S S' : Subs F} {b b' : Builder F} {r : List Nat}, (∀ f ∈ c.kfuns, P f) → KInv hash idOf P T S →
      kexec hash idOf cn fs c T S b = some (r, T', S', b') →
      execCmd cn fs (c.cmd fun k => idOf (hash k)) S b = some (r, S', b') ∧ (∀ i v, T.lookup i = some v → T'.lookup i = some v) ∧ KInv hash idOf P T' S' ∧
        ∀ f ∈ c.kfuns, Rec hash idOf T' f
  | .api c, T, T', S, S', b, b', r, _, hI, h => by
    simp only [kexec, Option.map_eq_some_iff] at h
    obtain ⟨p, hp, he⟩ := h
    simp only [Prod.mk.injEq] at he
    obtain ⟨rfl, rfl, rfl, rfl⟩ := he
    exact ⟨by simp only [KCmd.cmd, execCmd, hp, Option.map_some], fun _ _ h => h, hI, by simp [KCmd.kfuns]⟩
  | .memo key xs body outs, T, T', S, S', b, b', r, hf, hI, h => by
    simp only [kexec] at h
    split at h
    · simp at h
    rename_i h0
    cases hid : hashToId idOf (hash key) T with
    | none => simp [hid] at h
    | some T1 =>
      simp only [hid] at h
      obtain ⟨hr1, hm1⟩ := hashToId_spec hid
      have hme : P ⟨key, xs.length, body, outs⟩ := hf _ (by simp [KCmd.kfuns])
      split at h
      · rename_i hS
        simp only [Option.map_eq_some_iff] at h
        obtain ⟨q, hq, he⟩ := h
        have hqs := finish_subs hq
        obtain ⟨q1, q2, q3⟩ := q
        simp only [Prod.mk.injEq] at he
        obtain ⟨rfl, rfl, rfl, rfl⟩ := he
        simp only at hqs
        subst hqs
        refine ⟨by simp only [KCmd.cmd, execCmd, h0, if_false, hS, if_true, hq], hm1, hI.mono hm1, ?_⟩
        obtain ⟨f, h1, h2, h3, h4⟩ := hI _ hS
        have h3' := hm1 _ _ h3
        rw [h2, hr1, Option.some.injEq] at h3'
        have := hP _ _ h1 hme h3'.symm
        subst this
        intro g hg
        simp only [KCmd.kfuns, List.mem_cons] at hg
        rcases hg with rfl | hg
        · exact hr1
        · exact hm1 _ _ (h4 g hg)
      · rename_i hS
        cases hb : kexecs hash idOf cn fs body T1 S (Builder.new xs.length) with
        | none => simp [hb] at h
        | some q =>
          simp only [hb, Option.map_eq_some_iff] at h
          obtain ⟨w, hw, he⟩ := h
          have hws := finish_subs hw
          obtain ⟨w1, w2, w3⟩ := w
          obtain ⟨q1, q2, q3, q4⟩ := q
          simp only [Prod.mk.injEq] at he
          obtain ⟨rfl, rfl, rfl, rfl⟩ := he
          simp only at hws hw
          obtain ⟨e1, e2, e3, e4⟩ := kexecs_spec hP body (fun f hf' => hf f (by simp [KCmd.kfuns, hf'])) (hI.mono hm1) hb
          refine ⟨?_, fun i v hv => e2 i v (hm1 i v hv), ?_, ?_⟩
          · simp only [KCmd.cmd, execCmd, h0, if_false, hS, Bool.false_eq_true, e1, hw]
          · rw [hws]
            intro id hid'
            rw [lookup_put] at hid'
            split at hid'
            · rename_i he; subst he
              exact ⟨_, hme, rfl, e2 _ _ hr1, e4⟩
            · exact e3 id hid'
          · intro g hg
            simp only [KCmd.kfuns, List.mem_cons] at hg
            rcases hg with rfl | hg
            · exact e2 _ _ hr1
            · exact e4 g hg
theorem kexecs_spec {P : KFun F → Prop} (hP : ∀ f g, P f → P g → hash f.key = hash g.key → f = g) :
    ∀ (cs : List (KCmd F)) {T T' : List (Nat × H)} {S S' : Subs F} {b b' : Builder F} {r : List (List Nat)}, (∀ f ∈ kfunsL cs, P f) → KInv hash idOf P T S →
      kexecs hash idOf cn fs cs T S b = some (r, T', S', b') →
      execCmds cn fs (KCmd.cmds (fun k => idOf (hash k)) cs) S b = some (r, S', b') ∧ (∀ i v, T.lookup i = some v → T'.lookup i = some v) ∧ KInv hash idOf P T' S' ∧
        ∀ f ∈ kfunsL cs, Rec hash idOf T' f
  | [], T, T', S, S', b, b', r, _, hI, h => by
    simp only [kexecs, Option.some.injEq, Prod.mk.injEq] at h
    obtain ⟨rfl, rfl, rfl, rfl⟩ := h
    exact ⟨rfl, fun _ _ h => h, hI, by simp [kfunsL]⟩
  | c :: cs, T, T', S, S', b, b', r, hf, hI, h => by
    simp only [kexecs] at h
    cases hc : kexec hash idOf cn fs c T S b with
    | none => simp [hc] at h
    | some p =>
      obtain ⟨p1, p2, p3, p4⟩ := p
      simp only [hc] at h
      cases hcs : kexecs hash idOf cn fs cs p2 p3 p4 with
      | none => simp [hcs] at h
      | some q =>
        obtain ⟨q1, q2, q3, q4⟩ := q
        simp only [hcs, Option.some.injEq, Prod.mk.injEq] at h
        obtain ⟨rfl, rfl, rfl, rfl⟩ := h
        obtain ⟨a1, a2, a3, a4⟩ := kexec_spec hP c (fun f hf' => hf f (by simp [kfunsL, hf'])) hI hc
        obtain ⟨b1, b2, b3, b4⟩ := kexecs_spec hP cs (fun f hf' => hf f (by simp [kfunsL, hf'])) a3 hcs
        refine ⟨by simp only [KCmd.cmds, execCmds, a1, b1], fun i v hv => b2 i v (a2 i v hv), b3, ?_⟩
        intro f hf'
        simp only [kfunsL, List.mem_append] at hf'
        rcases hf' with hf' | hf'
        · exact b2 _ _ (a4 f hf')
        · exact b4 f hf'
end

end

/-! ### Whole programs -/

/-- A program with memoised calls. -/
structure KProgram (F : Type) where
  numInputs : Nat
  numPublic : Nat
  cmds : List (KCmd F)
  outs : List Nat

/-- The same program with each key replaced by a number. -/
def KProgram.prog (num : List Nat → Nat) (p : KProgram F) : Program F := ⟨p.numInputs, p.numPublic, KCmd.cmds num p.cmds, p.outs⟩

/-- Run a program on a new `RootBuilder` and build (builder.rs:789-825). -/
def KProgram.build {adv : Bool} {H : Type} [DecidableEq H] (hash : List Nat → H) (idOf : H → Nat) (E : Env F) (fs : Nat) (p : KProgram F) : Option (RootCircuit (srcM adv E)) :=
  match kexecs hash idOf E.canon fs p.cmds [] [] (rootNew p.numInputs p.numPublic) with
  | none => none
  | some r => if 0 ∈ p.outs then none else some
    { numPublicInputs := p.numPublic
      expectedNumOutputZeroes := 0
      circuits := (0, r.2.2.2.build E p.outs) :: (r.2.2.1.filter (fun q => q.1 ≠ 0)).map fun q => (q.1, q.2.1.build E q.2.2) }

/-- **Key determines function**: two calls in the program with the same key call functions with the same body. -/
def KProgram.KeyDet (p : KProgram F) : Prop := ∀ f ∈ kfunsL p.cmds, ∀ g ∈ kfunsL p.cmds, f.key = g.key → f = g

mutual
theorem cmd_funs (num : List Nat → Nat) : ∀ (c : KCmd F), (c.cmd num).funs = c.kfuns.map fun f => ⟨num f.key, f.arity, KCmd.cmds num f.body, f.outs⟩
  | .api _ => rfl
  | .memo key xs body outs => by simp only [KCmd.cmd, Cmd.funs, KCmd.kfuns, List.map_cons, cmds_funs num body]
theorem cmds_funs (num : List Nat → Nat) : ∀ (cs : List (KCmd F)), funsL (KCmd.cmds num cs) = (kfunsL cs).map fun f => ⟨num f.key, f.arity, KCmd.cmds num f.body, f.outs⟩
  | [] => rfl
  | c :: cs => by simp only [KCmd.cmds, funsL, kfunsL, List.map_append, cmd_funs num c, cmds_funs num cs]
end

theorem kbuild_spec {adv : Bool} {H : Type} [DecidableEq H] {hash : List Nat → H} {idOf : H → Nat} {E : Env F} {fs : Nat} {p : KProgram F} {rc : RootCircuit (srcM adv E)}
    (hk : p.KeyDet) (hinj : ∀ f ∈ kfunsL p.cmds, ∀ g ∈ kfunsL p.cmds, hash f.key = hash g.key → f.key = g.key)
    (h0 : ∀ f ∈ kfunsL p.cmds, idOf (hash f.key) ≠ 0) (hb : p.build hash idOf E fs = some rc) :
    (p.prog fun k => idOf (hash k)).build E fs = some rc ∧ (p.prog fun k => idOf (hash k)).GoodIds := by
  have hP : ∀ f g, f ∈ kfunsL p.cmds → g ∈ kfunsL p.cmds → hash f.key = hash g.key → f = g := fun f g hf hg h => hk f hf g hg (hinj f hf g hg h)
  unfold KProgram.build at hb
  cases hr : kexecs hash idOf E.canon fs p.cmds [] [] (rootNew p.numInputs p.numPublic) with
  | none => simp [hr] at hb
  | some r =>
    obtain ⟨r1, r2, r3, r4⟩ := r
    obtain ⟨a1, a2, a3, a4⟩ := kexecs_spec (P := fun f => f ∈ kfunsL p.cmds) hP p.cmds (fun _ h => h) (fun id hid => by simp at hid) hr
    rw [hr] at hb
    refine ⟨?_, ?_, ?_⟩
    · unfold Program.build
      simp only [KProgram.prog]
      rw [a1]
      exact hb
    · intro f g hf hg he
      simp only [KProgram.prog, cmds_funs, List.mem_map] at hf hg
      obtain ⟨f, hf, rfl⟩ := hf
      obtain ⟨g, hg, rfl⟩ := hg
      have h1 := a4 f hf
      have h2 := a4 g hg
      simp only at he
      unfold Rec at h1 h2
      rw [he, h2, Option.some.injEq] at h1
      rw [hP f g hf hg h1.symm]
    · intro f hf
      simp only [KProgram.prog, cmds_funs, List.mem_map] at hf
      obtain ⟨f, hf, rfl⟩ := hf
      exact h0 f hf

/-! ### Where equal keys come from -/

/-- Two calls of one `#[memorized]` function with equal keys call the same function. -/
theorem memoCall_det {d : Nat} {f : List (AVal Nat) → List (KCmd F) × Nest Nat d} {as bs : List (AVal Nat)} (ht : as.map AVal.param = bs.map AVal.param)
    {key key' xs ys : List Nat} {body body' : List (KCmd F)} {outs outs' : List Nat}
    (ha : memoCall d f as = some (.memo key xs body outs)) (hb : memoCall d f bs = some (.memo key' ys body' outs')) (hk : key = key') :
    (⟨key, xs.length, body, outs⟩ : KFun F) = ⟨key', ys.length, body', outs'⟩ := by
  unfold memoCall at ha hb
  cases hja : joinArgs as with
  | none => simp [hja] at ha
  | some p =>
    cases hjb : joinArgs bs with
    | none => simp [hjb] at hb
    | some q =>
      simp only [hja] at ha
      simp only [hjb] at hb
      cases hra : rebuildArgs as (inputVars p.1.length) p.2 with
      | none => simp [hra] at ha
      | some a =>
        cases hrb : rebuildArgs bs (inputVars q.1.length) q.2 with
        | none => simp [hrb] at hb
        | some b =>
          simp only [hra] at ha
          simp only [hrb] at hb
          cases hoa : join d (f a).2 with
          | none => simp [hoa] at ha
          | some u =>
            cases hob : join d (f b).2 with
            | none => simp [hob] at hb
            | some w =>
              simp only [hoa, Option.some.injEq, KCmd.memo.injEq] at ha
              simp only [hob, Option.some.injEq, KCmd.memo.injEq] at hb
              obtain ⟨rfl, rfl, rfl, rfl⟩ := ha
              obtain ⟨rfl, rfl, rfl, rfl⟩ := hb
              obtain ⟨h1, h2, h3⟩ := rebuildArgs_congr as bs p q (memoKey_inj ht hk) hja hjb
              rw [h1, h2, h3, hrb, Option.some.injEq] at hra
              subst hra
              rw [hob, Option.some.injEq] at hoa
              subst hoa
              rw [hk, h2]

/-- A call of a `#[memorized]` function goes through whenever its variables are valid and the result's variables are valid. -/
theorem memoCall_isSome {d : Nat} {f : List (AVal Nat) → List (KCmd F) × Nest Nat d} {as : List (AVal Nat)} (ha : (joinArgs as).isSome)
    (hf : ∀ a, (join d (f a).2).isSome) : (memoCall d f as).isSome := by
  obtain ⟨p, hp⟩ := Option.isSome_iff_exists.1 ha
  have hl : (inputVars p.1.length).length = p.1.length := by simp [inputVars]
  obtain ⟨a, h1, _⟩ := rebuildArgs_fresh as p hp (inputVars p.1.length) [] [] hl
  simp only [List.append_nil] at h1
  obtain ⟨q, hq⟩ := Option.isSome_iff_exists.1 (hf a)
  simp [memoCall, hp, h1, hq]

theorem leBytes_inj {a b : Nat} (ha : a < 2 ^ 64) (hb : b < 2 ^ 64) (h : leBytes a = leBytes b) : a = b := by
  simp only [leBytes, List.range_succ, List.range_zero, List.nil_append, List.cons_append, List.map_cons, List.map_nil, List.cons.injEq] at h
  norm_num at h
  omega

theorem leBytes_length (a : Nat) : (leBytes a).length = 8 := by simp [leBytes]

/-- Two `memorized_simple_call`s with equal keys have the same number of inputs and the same function id. -/
theorem simpleKey_inj {l l' i i' : Nat} (hl : l < 2 ^ 64) (hl' : l' < 2 ^ 64) (hi : i < 2 ^ 64) (hi' : i' < 2 ^ 64) (h : simpleKey l i = simpleKey l' i') : l = l' ∧ i = i' := by
  unfold simpleKey at h
  rw [List.append_assoc, List.append_assoc] at h
  have h := List.append_cancel_left h
  obtain ⟨h1, h2⟩ := List.append_inj h (by rw [leBytes_length, leBytes_length])
  exact ⟨leBytes_inj hl hl' h1, leBytes_inj hi hi' h2⟩

/-- Keys of the two kinds of memoised calls never coincide. -/
theorem keys_differ {V : Type} (as : List (AVal V)) (l i : Nat) : memoKey as ≠ simpleKey l i := by
  intro h
  have h1 : memoKey as = 'm'.toNat :: (['e', 'm', 'o', 'r', 'i', 'z', 'e', 'd'] ++ as.flatMap AVal.enc).map Char.toNat := by
    unfold memoKey
    rw [show "memorized".toList = ['m', 'e', 'm', 'o', 'r', 'i', 'z', 'e', 'd'] by rfl]
    rfl
  have h2 : ∃ r, simpleKey l i = 's'.toNat :: r := by
    unfold simpleKey
    rw [show "simple".toList = ['s', 'i', 'm', 'p', 'l', 'e'] by rfl]
    exact ⟨_, rfl⟩
  obtain ⟨r, h2⟩ := h2
  rw [h1, h2, List.cons.injEq] at h
  exact absurd h.1 (by decide)

end Verif.Frontend
