import Verif.IR.HintExportRoot
import Verif.IR.AddBack
import Verif.IR.Dest

/-!
# `solve_duplicates` (circuit/ir/dest/mod.rs:166-243, 305-315)

A variable used twice as argument of one call is copied.
-/

set_option linter.unusedSectionVars false
set_option linter.unusedSimpArgs false

namespace Verif.IR

open Verif.IR.HintExport Verif.Utils

variable {F : Type} [Field F] [DecidableEq F]

namespace SolveDup

open Dest

/-- `copy_insn` (dest/mod.rs:197-202): a clone of the defining instruction, or `1 * i`. -/
def copyInsn (acc : List (Insn F)) (iov : List (Option Nat)) (i : Nat) : Insn F :=
  match iov[i]? with
  | some (some k) => match acc[k]? with
    | some insn => insn
    | none => .internal [⟨1, .linear i⟩]
  | _ => .internal [⟨1, .linear i⟩]

/-- The loop over the call arguments (dest/mod.rs:189-209): instructions emitted, new arguments; `seen` is `occured`,
`acc` is `new_instructions`, `iov` is `insn_of_var`, `mx` is `new_var_max`. -/
def dedupArgs : List Nat → List Nat → List (Insn F) → List (Option Nat) → Nat → List (Insn F) × List Nat
  | [], _, _, _, _ => ([], [])
  | i :: is, seen, acc, iov, mx =>
    if i ∈ seen then
      let r := dedupArgs is seen (acc ++ [copyInsn acc iov i]) (iov ++ [none]) (mx + 1)
      (copyInsn acc iov i :: r.1, (mx + 1) :: r.2)
    else
      let r := dedupArgs is (i :: seen) acc iov mx
      (r.1, i :: r.2)

/-- The instruction loop (dest/mod.rs:175-226): the instructions emitted for the remaining instructions, and the final `new_id`. -/
def solveInsns : List (Insn F) → List Nat → List (Insn F) → List (Option Nat) → Nat → List (Insn F) × List Nat
  | [], vm, _, _, _ => ([], vm)
  | i :: is, vm, acc, iov, mx =>
    match i.replaceVars (vmGet vm) with
    | .call c xs n =>
      let d := dedupArgs xs [] acc iov mx
      let mx' := mx + d.1.length
      let r := solveInsns is (vm ++ List.range' (mx' + 1) n) (acc ++ d.1 ++ [.call c d.2 n])
        (iov ++ List.replicate d.1.length none ++ List.replicate n none) (mx' + n)
      (d.1 ++ .call c d.2 n :: r.1, r.2)
    | j =>
      let r := solveInsns is (vm ++ [mx + 1]) (acc ++ [j]) (iov ++ [some acc.length]) (mx + 1)
      (j :: r.1, r.2)

/-- `Circuit::solve_duplicates` (dest/mod.rs:167-243).  `ord` is the iteration order of the `HashSet` of constraints.
`none` is the panic on duplicate outputs. -/
def solveCircuit (E : Env F) (ord : List Nat → List Nat) (circ : Circuit (dest E true)) : Option (Circuit (dest E false)) :=
  let n := circ.numInputs
  let r := solveInsns circ.instructions (List.range (n + 1)) [] (List.replicate (n + 1) none) n
  if circ.outputs.Nodup then
    some ⟨r.1, (ord ((circ.constraints.map (fun k => vmGet r.2 k.var)).dedup)).map (fun v => ⟨(), v⟩), circ.outputs.map (vmGet r.2), n⟩
  else none

/-- `RootCircuit::solve_duplicates` (dest/mod.rs:305-315). -/
def solveDuplicates (E : Env F) (ord : List Nat → List Nat) (rc : RootCircuit (dest E true)) : Option (RootCircuit (dest E false)) :=
  (mapOpt (fun p => (solveCircuit E ord p.2).map (fun c => (p.1, c))) rc.circuits).map
    (fun cs => ⟨rc.numPublicInputs, rc.expectedNumOutputZeroes, cs⟩)

/-- The instruction does not draw a random value. -/
def NoRandom : Insn F → Prop
  | .internal e => Expr.NoRandom e
  | .constantLike c => c ≠ .random
  | .call _ _ _ => True

theorem sem_det {E : Env F} {val : Nat → Option F} {e : Expr F} (h : Expr.NoRandom e) : ∀ {x y : F}, Expr.Sem E val e x → Expr.Sem E val e y → x = y := by
  induction e with
  | nil => intro x y h1 h2; rw [show x = 0 from h1, show y = 0 from h2]
  | cons t e ih =>
    rintro x y ⟨a, b, h1, h2, rfl⟩ ⟨a', b', h1', h2', rfl⟩
    rw [ih (fun t ht => h t (by simp [ht])) h2 h2']
    congr 1
    obtain ⟨c, v⟩ := t
    have hv : ∀ m m' : F, v.Sem E val m → v.Sem E val m' → (∀ x, v ≠ .randomLinear x) → m = m' := by
      intro m m' e1 e2 hne
      cases v with
      | const => rw [show m = 1 from e1, show m' = 1 from e2]
      | linear x => simp only [VarSpec.Sem] at e1 e2; rw [e1] at e2; cases e2; rfl
      | quad a b =>
        obtain ⟨p, q, r1, r2, rfl⟩ := e1
        obtain ⟨p', q', r1', r2', rfl⟩ := e2
        rw [r1] at r1'; rw [r2] at r2'; cases r1'; cases r2'; rfl
      | custom g xs =>
        obtain ⟨p, r1, rfl⟩ := e1
        obtain ⟨p', r1', rfl⟩ := e2
        rw [r1] at r1'; cases r1'; rfl
      | randomLinear x => exact absurd rfl (hne x)
    have hne : ∀ x, v ≠ .randomLinear x := fun x => h ⟨c, v⟩ (by simp) x
    cases v with
    | randomLinear x => exact absurd rfl (hne x)
    | _ =>
      obtain ⟨m, m1, rfl⟩ := h1
      obtain ⟨m', m1', rfl⟩ := h1'
      rw [hv m m' m1 m1' hne]

theorem prim_det {E : Env F} {val : Nat → Option F} {i : Insn F} (h : NoRandom i) {x y : List F} (h1 : i.Prim E val x) (h2 : i.Prim E val y) : x = y := by
  cases i with
  | internal e =>
    obtain ⟨a, h1, rfl⟩ := h1
    obtain ⟨b, h2, rfl⟩ := h2
    rw [sem_det h h1 h2]
  | constantLike c =>
    obtain ⟨a, h1, rfl⟩ := h1
    obtain ⟨b, h2, rfl⟩ := h2
    cases c with
    | const k => rw [show a = k from h1, show b = k from h2]
    | random => exact absurd rfl h
    | pub k => rw [show a = _ from h1, show b = _ from h2]
  | call c xs n => exact h1.elim

theorem noRandom_replace {i : Insn F} (h : NoRandom i) (f : Nat → Nat) : NoRandom (i.replaceVars f) := by
  cases i with
  | internal e =>
    intro t ht x
    simp only [Expr.replaceVars, List.mem_map] at ht
    obtain ⟨t0, ht0, rfl⟩ := ht
    have := h t0 ht0
    cases hv : t0.vars <;> simp_all [VarSpec.replaceVars]
  | constantLike c => exact h
  | call c xs n => trivial

/-- No call comes after an instruction that draws a random value. -/
def RandLast : List (Insn F) → Prop
  | [] => True
  | i :: is => (NoRandom i ∨ ∀ j ∈ is, j.asCall = none) ∧ RandLast is

theorem RandLast.of_noRandom : ∀ {is : List (Insn F)}, (∀ j ∈ is, NoRandom j) → RandLast is
  | [], _ => trivial
  | i :: is, h => ⟨.inl (h i (by simp)), RandLast.of_noRandom fun j hj => h j (by simp [hj])⟩

/-! ### The invariant on `insn_of_var` -/

/-- `insn_of_var` points to instructions that can reproduce the value of the variable. -/
structure Inv (E : Env F) (acc : List (Insn F)) (iov : List (Option Nat)) (ws : List F) : Prop where
  len : iov.length = ws.length
  src : ∀ (i k : Nat), iov[i]? = some (some k) → ∃ insn y, acc[k]? = some insn ∧ insn.asCall = none ∧ ws[i]? = some y ∧
    insn.Prim E (fun v => ws[v]?) [y] ∧ ∀ v ∈ insn.inputs, v < ws.length

variable {E : Env F}

theorem prim_extend {insn : Insn F} {ws xs : List F} {o : List F} (hc : insn.asCall = none) (hb : ∀ v ∈ insn.inputs, v < ws.length) :
    insn.Prim E (fun v => (ws ++ xs)[v]?) o ↔ insn.Prim E (fun v => ws[v]?) o := by
  have h : ∀ v ∈ insn.inputs, ws[v]? = (ws ++ xs)[v]? := fun v hv => (List.getElem?_append_left (hb v hv)).symm
  exact ⟨(dest_lawful E true).prim_local _ _ _ _ hc (fun v hv => (h v hv).symm), (dest_lawful E true).prim_local _ _ _ _ hc h⟩

theorem Inv.extend {acc : List (Insn F)} {iov : List (Option Nat)} {ws : List F} (h : Inv E acc iov ws) (more : List (Insn F)) (xs : List F) :
    Inv E (acc ++ more) (iov ++ List.replicate xs.length none) (ws ++ xs) := by
  refine ⟨by simp [h.len], ?_⟩
  intro i k hi
  by_cases hlt : i < iov.length
  · rw [List.getElem?_append_left hlt] at hi
    obtain ⟨insn, y, h1, h2, h3, h4, h5⟩ := h.src i k hi
    refine ⟨insn, y, ?_, h2, ?_, (prim_extend h2 h5).2 h4, fun v hv => by have := h5 v hv; simp; omega⟩
    · rw [List.getElem?_append_left (List.getElem?_eq_some_iff.1 h1).1]; exact h1
    · rw [List.getElem?_append_left (List.getElem?_eq_some_iff.1 h3).1]; exact h3
  · rw [List.getElem?_append_right (by omega), List.getElem?_replicate] at hi
    split at hi <;> simp at hi

theorem copy_spec {acc : List (Insn F)} {iov : List (Option Nat)} {ws : List F} (h : Inv E acc iov ws) {i : Nat} {y : F} (hy : ws[i]? = some y) :
    (copyInsn acc iov i).asCall = none ∧ (copyInsn acc iov i).Prim E (fun v => ws[v]?) [y] ∧ (∀ v ∈ (copyInsn acc iov i).inputs, v < ws.length) ∧
      ((∀ j ∈ acc, NoRandom j) → NoRandom (copyInsn acc iov i)) := by
  have hlin : (Insn.internal [⟨1, .linear i⟩] : Insn F).asCall = none ∧ (Insn.internal [⟨1, .linear i⟩] : Insn F).Prim E (fun v => ws[v]?) [y] ∧
      (∀ v ∈ (Insn.internal [⟨1, .linear i⟩] : Insn F).inputs, v < ws.length) ∧ ((∀ j ∈ acc, NoRandom j) → NoRandom (Insn.internal [⟨1, .linear i⟩] : Insn F)) := by
    refine ⟨rfl, ⟨y, ⟨y, 0, ⟨y, hy, by simp⟩, rfl, by simp⟩, rfl⟩, ?_, ?_⟩
    · intro v hv
      simp [Insn.inputs, Expr.getVars, VarSpec.vars] at hv
      subst hv; exact (List.getElem?_eq_some_iff.1 hy).1
    · intro _ t ht x
      simp at ht; subst ht; simp
  unfold copyInsn
  split
  · rename_i k hk
    obtain ⟨insn, y', h1, h2, h3, h4, h5⟩ := h.src i k hk
    rw [hy] at h3; cases h3
    simp only [h1]
    exact ⟨h2, h4, h5, fun hn => hn insn (List.mem_of_getElem? h1)⟩
  · exact hlin

variable {get : Nat → Option (Circuit (dest E false))}

theorem dedup_run : ∀ (xs seen : List Nat) (acc : List (Insn F)) (iov : List (Option Nat)) (mx : Nat) (ws vals : List F), Inv E acc iov ws → ws.length = mx + 1 →
    readAll ws xs = some vals →
    (∃ ys, ys.length = (dedupArgs xs seen acc iov mx).1.length ∧ Run get (dedupArgs xs seen acc iov mx).1 ws (ws ++ ys) true ∧
      readAll (ws ++ ys) (dedupArgs xs seen acc iov mx).2 = some vals) ∧
    ((∀ j ∈ acc, NoRandom j) → ∀ vs' b, Run get (dedupArgs xs seen acc iov mx).1 ws vs' b → b = true ∧
      ∃ ys, vs' = ws ++ ys ∧ ys.length = (dedupArgs xs seen acc iov mx).1.length ∧ readAll (ws ++ ys) (dedupArgs xs seen acc iov mx).2 = some vals) ∧
    (dedupArgs xs seen acc iov mx).2.length = xs.length := by
  intro xs
  induction xs with
  | nil =>
    intro seen acc iov mx ws vals hi hl hv
    refine ⟨⟨[], rfl, by simpa [dedupArgs] using Run.nil ws, by simpa [dedupArgs] using hv⟩, ?_, rfl⟩
    intro _ vs' b h
    obtain ⟨rfl, rfl⟩ := run_nil_iff.1 h
    exact ⟨rfl, [], by simp, rfl, by simpa [dedupArgs] using hv⟩
  | cons i xs ih =>
    intro seen acc iov mx ws vals hi hl hv
    simp only [readAll] at hv
    split at hv
    swap
    · cases hv
    rename_i y ys hy hys
    cases hv
    by_cases hs : i ∈ seen
    · obtain ⟨c1, c2, c3, c4⟩ := copy_spec hi hy
      have hi' : Inv E (acc ++ [copyInsn acc iov i]) (iov ++ [none]) (ws ++ [y]) := hi.extend [copyInsn acc iov i] [y]
      obtain ⟨h1, h2, h3⟩ := ih seen (acc ++ [copyInsn acc iov i]) (iov ++ [none]) (mx + 1) (ws ++ [y]) ys hi' (by simp [hl]) (readAll_extend hys)
      have hc : (dest E false).asCall (copyInsn acc iov i) = none := c1
      simp only [dedupArgs, hs, if_true]
      have hnew : ∀ t, (ws ++ (y :: t))[mx + 1]? = some y := fun t => by
        rw [List.getElem?_append_right (by omega), hl]; simp
      refine ⟨?_, ?_, by simp [h3]⟩
      · obtain ⟨t, t1, t2, t3⟩ := h1
        rw [List.append_assoc] at t2 t3
        exact ⟨y :: t, by simp [t1], (run_prim_iff hc).2 ⟨[y], c2, t2⟩, by
          simp only [readAll, hnew]; simp only [List.singleton_append] at t3; rw [t3]⟩
      · intro hn vs' b h
        obtain ⟨o, o1, o2⟩ := (run_prim_iff hc).1 h
        have ho : o = [y] := prim_det (c4 hn) o1 c2
        subst ho
        obtain ⟨rfl, t, rfl, t1, t2⟩ := h2 (by
          intro j hj
          rcases List.mem_append.1 hj with hj | hj
          · exact hn j hj
          · simp at hj; subst hj; exact c4 hn) vs' b o2
        rw [List.append_assoc] at t2
        exact ⟨rfl, y :: t, by simp, by simp [t1], by simp only [readAll, hnew]; simp only [List.singleton_append] at t2; rw [t2]⟩
    · obtain ⟨h1, h2, h3⟩ := ih (i :: seen) acc iov mx ws ys hi hl hys
      simp only [dedupArgs, hs, if_false]
      refine ⟨?_, ?_, by simp [h3]⟩
      · obtain ⟨t, t1, t2, t3⟩ := h1
        exact ⟨t, t1, t2, by simp only [readAll, getElem?_app_some hy, t3]⟩
      · intro hn vs' b h
        obtain ⟨rfl, t, rfl, t1, t2⟩ := h2 hn vs' b h
        exact ⟨rfl, t, rfl, t1, by simp only [readAll, getElem?_app_some hy, t2]⟩

/-- What is proved of a circuit and its image: every outcome of the original is an outcome of the image; without random values the
converse holds too. -/
def Spec (E : Env F) (get : Nat → Option (Circuit (dest E true))) (get' : Nat → Option (Circuit (dest E false))) (P : Prop)
    (circ : Circuit (dest E true)) (circ' : Circuit (dest E false)) : Prop :=
  ∀ ins : List F, ins.length = circ.numInputs →
    (∀ outs b, EvalSub get circ ins outs b → EvalSub get' circ' ins outs b) ∧
    (P → ∀ outs b, EvalSub get' circ' ins outs b → EvalSub get circ ins outs b)

/-- The three shapes of an instruction. -/
theorem insn_cases (i : Insn F) : (∃ c xs n, i = .call c xs n) ∨ (i.asCall = none ∧ i.numOutputs = 1 ∧ ∀ vm is acc iov mx,
    solveInsns (i :: is) vm acc iov mx =
      (i.replaceVars (vmGet vm) :: (solveInsns is (vm ++ [mx + 1]) (acc ++ [i.replaceVars (vmGet vm)]) (iov ++ [some acc.length]) (mx + 1)).1,
        (solveInsns is (vm ++ [mx + 1]) (acc ++ [i.replaceVars (vmGet vm)]) (iov ++ [some acc.length]) (mx + 1)).2)) := by
  cases i with
  | call c xs n => exact Or.inl ⟨c, xs, n, rfl⟩
  | internal e => exact Or.inr ⟨rfl, rfl, fun _ _ _ _ _ => rfl⟩
  | constantLike c => exact Or.inr ⟨rfl, rfl, fun _ _ _ _ _ => rfl⟩

theorem Inv.push {acc : List (Insn F)} {iov : List (Option Nat)} {ws : List F} (h : Inv E acc iov ws) {j : Insn F} {y : F} (hc : j.asCall = none)
    (hp : j.Prim E (fun v => ws[v]?) [y]) (hb : ∀ v ∈ j.inputs, v < ws.length) : Inv E (acc ++ [j]) (iov ++ [some acc.length]) (ws ++ [y]) := by
  have h0 := h.extend [j] [y]
  refine ⟨by simp [h.len], ?_⟩
  intro i k hi
  by_cases hlt : i < iov.length
  · exact h0.src i k (by rw [List.getElem?_append_left hlt] at hi ⊢; exact hi)
  · rw [List.getElem?_append_right (by omega)] at hi
    have hi0 : i - iov.length = 0 := by
      by_contra hne
      rw [List.getElem?_eq_none (by simp; omega)] at hi; cases hi
    rw [hi0] at hi
    simp at hi; subst hi
    have hi1 : i = ws.length := by have := h.len; omega
    subst hi1
    exact ⟨j, y, by simp, hc, by simp, (prim_extend hc hb).2 hp, fun v hv => by have := hb v hv; simp; omega⟩

theorem solve_call (c : Nat) (xs : List Nat) (n : Nat) (is : List (Insn F)) (vm : List Nat) (acc : List (Insn F)) (iov : List (Option Nat)) (mx : Nat) :
    solveInsns (Insn.call c xs n :: is) vm acc iov mx =
      ((dedupArgs (xs.map (vmGet vm)) [] acc iov mx).1 ++ .call c (dedupArgs (xs.map (vmGet vm)) [] acc iov mx).2 n ::
        (solveInsns is (vm ++ List.range' (mx + (dedupArgs (xs.map (vmGet vm)) [] acc iov mx).1.length + 1) n)
          (acc ++ (dedupArgs (xs.map (vmGet vm)) [] acc iov mx).1 ++ [.call c (dedupArgs (xs.map (vmGet vm)) [] acc iov mx).2 n])
          (iov ++ List.replicate (dedupArgs (xs.map (vmGet vm)) [] acc iov mx).1.length none ++ List.replicate n none)
          (mx + (dedupArgs (xs.map (vmGet vm)) [] acc iov mx).1.length + n)).1,
       (solveInsns is (vm ++ List.range' (mx + (dedupArgs (xs.map (vmGet vm)) [] acc iov mx).1.length + 1) n)
          (acc ++ (dedupArgs (xs.map (vmGet vm)) [] acc iov mx).1 ++ [.call c (dedupArgs (xs.map (vmGet vm)) [] acc iov mx).2 n])
          (iov ++ List.replicate (dedupArgs (xs.map (vmGet vm)) [] acc iov mx).1.length none ++ List.replicate n none)
          (mx + (dedupArgs (xs.map (vmGet vm)) [] acc iov mx).1.length + n)).2) := rfl

/-- A copy is an instruction emitted before, or a linear expression. -/
theorem copy_cases (acc : List (Insn F)) (iov : List (Option Nat)) (i : Nat) :
    copyInsn acc iov i ∈ acc ∨ copyInsn acc iov i = .internal [⟨1, .linear i⟩] := by
  unfold copyInsn
  split
  · split
    · rename_i h; exact Or.inl (List.mem_of_getElem? h)
    · exact Or.inr rfl
  · exact Or.inr rfl

theorem dedup_noRandom : ∀ (xs seen : List Nat) (acc : List (Insn F)) (iov : List (Option Nat)) (mx : Nat), (∀ j ∈ acc, NoRandom j) →
    ∀ j ∈ (dedupArgs xs seen acc iov mx).1, NoRandom j := by
  intro xs
  induction xs with
  | nil => intro seen acc iov mx _ j hj; simp [dedupArgs] at hj
  | cons i xs ih =>
    intro seen acc iov mx hn j hj
    have hc : NoRandom (copyInsn acc iov i) := by
      rcases copy_cases acc iov i with h | h
      · exact hn _ h
      · rw [h]; intro t ht x; simp at ht; subst ht; simp
    simp only [dedupArgs] at hj
    split at hj
    · rcases List.mem_cons.1 hj with rfl | hj
      · exact hc
      · refine ih _ _ _ _ ?_ j hj
        intro j hj
        rcases List.mem_append.1 hj with hj | hj
        · exact hn j hj
        · simp at hj; subst hj; exact hc
    · exact ih _ _ _ _ hn j hj

theorem solve_run {get : Nat → Option (Circuit (dest E true))} {get' : Nat → Option (Circuit (dest E false))} {npi : Option Nat} {P : Prop}
    (is : List (Insn F)) : ∀ (vm : List Nat) (acc : List (Insn F)) (iov : List (Option Nat)) (vs ws : List F) (cur mx : Nat),
    vs.length = cur + 1 → ws.length = mx + 1 → InsnsOk (dest E true) npi cur is → CallsOk get is → Rel vm vs ws → Inv E acc iov ws →
    (P → (∀ j ∈ acc, NoRandom j) ∨ ∀ j ∈ is, j.asCall = none) → (P → RandLast is) →
    (∀ i ∈ is, ∀ d a n, i.asCall = some (d, a, n) → ∀ sub, get d = some sub → ∃ sub', get' d = some sub' ∧ Spec E get get' P sub sub') →
    (∀ t b, Run get is vs (vs ++ t) b → ∃ xs, Run get' (solveInsns is vm acc iov mx).1 ws (ws ++ xs) b ∧
      Rel (solveInsns is vm acc iov mx).2 (vs ++ t) (ws ++ xs)) ∧
    (P → ∀ xs b, Run get' (solveInsns is vm acc iov mx).1 ws (ws ++ xs) b → ∃ t, Run get is vs (vs ++ t) b ∧
      Rel (solveInsns is vm acc iov mx).2 (vs ++ t) (ws ++ xs)) := by
  induction is with
  | nil =>
    intro vm acc iov vs ws cur mx _ _ _ _ hr _ _ _ _
    simp only [solveInsns]
    refine ⟨?_, ?_⟩
    · intro t b h
      obtain ⟨h1, rfl⟩ := run_nil_iff.1 h
      rw [h1]
      exact ⟨[], by simpa using Run.nil ws, by simpa using hr⟩
    · intro _ xs b h
      obtain ⟨h1, rfl⟩ := run_nil_iff.1 h
      rw [h1]
      exact ⟨[], by simpa using Run.nil vs, by simpa using hr⟩
  | cons i is ih =>
    intro vm acc iov vs ws cur mx hvs hws hok hco hr hinv hna hni hspec
    obtain ⟨hin, hok'⟩ := insns_lt hok hvs
    have hco' : CallsOk get is := fun j hj => hco j (by simp [hj])
    have hspec' := fun j hj => hspec j (List.mem_cons_of_mem i hj)
    have hni' : P → RandLast is := fun hP => (hni hP).2
    have hvmlen : vm.length = vs.length := hr.len
    rcases insn_cases i with ⟨c, xs, n, rfl⟩ | ⟨hc, hno, hsolve⟩
    · -- call
      have hc : (dest E true).asCall (Insn.call c xs n) = some (c, xs, n) := rfl
      obtain ⟨sub, hg, hal, hn⟩ := hco (Insn.call c xs n) (by simp) c xs n rfl
      obtain ⟨sub', hg', hsp⟩ := hspec (Insn.call c xs n) (by simp) c xs n rfl sub hg
      have ha : readAll ws (xs.map (vmGet vm)) = readAll vs xs := hr.reads hin
      obtain ⟨args, hargs⟩ := readAll_isSome (vs := vs) (is := xs) hin
      rw [hargs] at ha
      have hal' : args.length = sub.numInputs := by rw [readAll_length hargs]; exact hal
      obtain ⟨d1, d2, d3⟩ := dedup_run (get := get') (xs.map (vmGet vm)) [] acc iov mx ws args hinv hws ha
      have hsol := solve_call c xs n is vm acc iov mx
      have hna : P → ∀ j ∈ acc, NoRandom j := fun hP => (hna hP).resolve_right fun h => by
        have := h (Insn.call c xs n) (by simp)
        cases this
      have hnd : P → ∀ j ∈ (dedupArgs (xs.map (vmGet vm)) [] acc iov mx).1, NoRandom j := fun hP => dedup_noRandom _ _ _ _ _ (hna hP)
      generalize dedupArgs (xs.map (vmGet vm)) [] acc iov mx = dd at d1 d2 d3 hsol hnd
      have hc2 : (dest E false).asCall (Insn.call c dd.2 n) = some (c, dd.2, n) := rfl
      have ih' := fun (ys res : List F) (hy : ys.length = dd.1.length) (ho : res.length = n) (hnd : P → ∀ j ∈ dd.1, NoRandom j) =>
        ih (vm ++ List.range' (mx + dd.1.length + 1) n) (acc ++ dd.1 ++ [.call c dd.2 n]) (iov ++ List.replicate dd.1.length none ++ List.replicate n none)
          (vs ++ res) (ws ++ ys ++ res) (cur + n) (mx + dd.1.length + n) (by simp [hvs, ho]; omega) (by simp [hws, ho, hy]; omega) hok' hco'
          (by
            have := Rel.step (p := mx + dd.1.length) (outs := res) (hr.extend (t := ys)) (by simp [hws, hy]; omega)
            rwa [ho] at this)
          (by
            have h1 := hinv.extend dd.1 ys
            have h2 := h1.extend [.call c dd.2 n] res
            rw [hy, ho] at h2
            exact h2)
          (by
            intro hP
            left
            intro j hj
            simp only [List.mem_append, List.mem_singleton] at hj
            rcases hj with (hj | hj) | rfl
            · exact hna hP j hj
            · exact hnd hP j hj
            · trivial) hni' hspec'
      rw [hsol]
      refine ⟨?_, ?_⟩
      · intro t b h
        obtain ⟨circ, args', res, sb, b', h1, h2, h3, h4, rfl⟩ := (run_call_iff hc).1 h
        rw [hg] at h1; cases h1
        rw [hargs] at h2; cases h2
        obtain ⟨t', ht⟩ := h4.prefix
        rw [ht] at h4
        have e : t = res ++ t' := by rw [List.append_assoc] at ht; exact List.append_cancel_left ht
        subst e
        have hres : res.length = n := by rw [h3.length, hn]
        obtain ⟨ys, y1, y2, y3⟩ := d1
        obtain ⟨xs', k1, k2⟩ := (ih' ys res y1 hres hnd).1 t' b' h4
        refine ⟨ys ++ (res ++ xs'), run_append_iff.2 ⟨ws ++ ys, true, sb && b', y2, (run_call_iff hc2).2 ⟨sub', args, res, sb, b', hg', y3, (hsp args hal').1 res sb h3, ?_, rfl⟩, rfl⟩, ?_⟩
        · simpa only [List.append_assoc] using k1
        · simpa only [List.append_assoc] using k2
      · intro hP xs' b h
        obtain ⟨ws1, b1, b2, h1, h2, rfl⟩ := run_append_iff.1 h
        obtain ⟨rfl, ys, rfl, y1, y2⟩ := d2 (hna hP) ws1 b1 h1
        obtain ⟨circ, args', res, sb, b', g1, g2, g3, g4, rfl⟩ := (run_call_iff hc2).1 h2
        rw [hg'] at g1; cases g1
        rw [y2] at g2; cases g2
        have g3' := (hsp args hal').2 hP res sb g3
        have hres : res.length = n := by rw [g3'.length, hn]
        obtain ⟨t', ht⟩ := g4.prefix
        rw [ht] at g4
        have e : xs' = ys ++ (res ++ t') := by simp only [List.append_assoc] at ht; exact List.append_cancel_left ht
        subst e
        obtain ⟨t, k1, k2⟩ := (ih' ys res y1 hres hnd).2 hP t' b' g4
        refine ⟨res ++ t, (run_call_iff hc).2 ⟨sub, args, res, sb, b', hg, hargs, g3', ?_, by simp⟩, ?_⟩
        · simpa only [List.append_assoc] using k1
        · simpa only [List.append_assoc] using k2
    · -- other
      have hc1 : (dest E true).asCall i = none := hc
      have hc2 : (dest E false).asCall (i.replaceVars (vmGet vm)) = none := by rw [(dest_lawful E false).asCall_replace]; rw [show (dest E false).asCall i = none from hc]; rfl
      have hp : ∀ outs, (dest E false).prim (i.replaceVars (vmGet vm)) (fun v => ws[v]?) outs ↔ (dest E true).prim i (fun v => vs[v]?) outs := by
        intro outs
        have e : (dest E false).prim (i.replaceVars (vmGet vm)) (fun v => ws[v]?) outs ↔ (dest E true).prim (i.replaceVars (vmGet vm)) (fun v => ws[v]?) outs := Iff.rfl
        rw [e, (dest_lawful E true).prim_replace _ _ _ _ hc1]
        have hv : ∀ v ∈ (dest E true).inputs i, ws[vmGet vm v]? = vs[v]? := fun v hv => hr.val v (hin v hv)
        exact ⟨(dest_lawful E true).prim_local _ _ _ _ hc1 hv, (dest_lawful E true).prim_local _ _ _ _ hc1 (fun v h => (hv v h).symm)⟩
      have hbound : ∀ v ∈ (i.replaceVars (vmGet vm)).inputs, v < ws.length := by
        intro v hv
        rw [show (i.replaceVars (vmGet vm)).inputs = _ from (dest_lawful E true).inputs_replace i (vmGet vm)] at hv
        obtain ⟨u, hu, rfl⟩ := List.mem_map.1 hv
        have h1 := hr.val u (hin u hu)
        rw [List.getElem?_eq_getElem (hin u hu)] at h1
        exact (List.getElem?_eq_some_iff.1 h1).1
      have ho1 : ∀ outs, (dest E true).prim i (fun v => vs[v]?) outs → ∃ y, outs = [y] := by
        intro outs h
        have := (dest_lawful E true).prim_length _ _ _ hc1 h
        rw [show (dest E true).numOutputs i = 1 from hno] at this
        exact List.length_eq_one_iff.1 this
      rw [show (dest E true).numOutputs i = 1 from hno] at hok'
      have ih' := fun (y : F) (hpy : (i.replaceVars (vmGet vm)).Prim E (fun v => ws[v]?) [y]) =>
        ih (vm ++ [mx + 1]) (acc ++ [i.replaceVars (vmGet vm)]) (iov ++ [some acc.length]) (vs ++ [y]) (ws ++ [y]) (cur + 1) (mx + 1)
          (by simp [hvs]) (by simp [hws]) hok' hco' (by have := Rel.step (outs := [y]) hr hws; exact this) (hinv.push hc2 hpy hbound)
          (by
            intro hP
            rcases (hni hP).1 with hi | hi
            · rcases hna hP with hna | hna
              · left
                intro j hj
                rcases List.mem_append.1 hj with hj | hj
                · exact hna j hj
                · simp at hj; subst hj; exact noRandom_replace hi _
              · exact .inr fun j hj => hna j (by simp [hj])
            · exact .inr hi) hni' hspec'
      rw [hsolve]
      refine ⟨?_, ?_⟩
      · intro t b h
        obtain ⟨outs, h1, h2⟩ := (run_prim_iff hc1).1 h
        obtain ⟨y, rfl⟩ := ho1 outs h1
        obtain ⟨t', ht⟩ := h2.prefix
        rw [ht] at h2
        have e : t = [y] ++ t' := by rw [List.append_assoc] at ht; exact List.append_cancel_left ht
        subst e
        obtain ⟨xs, k1, k2⟩ := (ih' y ((hp _).2 h1)).1 t' b h2
        rw [List.append_assoc] at k1 k2
        rw [List.append_assoc] at k2
        exact ⟨[y] ++ xs, (run_prim_iff hc2).2 ⟨[y], (hp _).2 h1, k1⟩, k2⟩
      · intro hP xs b h
        obtain ⟨outs, h1, h2⟩ := (run_prim_iff hc2).1 h
        have h1' := (hp _).1 h1
        obtain ⟨y, rfl⟩ := ho1 outs h1'
        obtain ⟨t', ht⟩ := h2.prefix
        rw [ht] at h2
        have e : xs = [y] ++ t' := by rw [List.append_assoc] at ht; exact List.append_cancel_left ht
        subst e
        obtain ⟨t, k1, k2⟩ := (ih' y h1).2 hP t' b h2
        rw [List.append_assoc] at k1 k2
        rw [List.append_assoc] at k2
        exact ⟨[y] ++ t, (run_prim_iff hc1).2 ⟨[y], h1', k1⟩, k2⟩

/-! ### Well-formedness of the result -/

/-- Static invariant on `insn_of_var`. -/
def SInv (npi : Option Nat) (acc : List (Insn F)) (iov : List (Option Nat)) (mx : Nat) : Prop :=
  iov.length = mx + 1 ∧ ∀ (i k : Nat), iov[i]? = some (some k) → ∃ insn, acc[k]? = some insn ∧ insn.asCall = none ∧ insn.numOutputs = 1 ∧
    (∀ v ∈ insn.inputs, v ≤ mx ∧ v ≠ 0) ∧ ∀ E : Env F, validAt (dest E false) npi insn = true

theorem SInv.extend {npi : Option Nat} {acc : List (Insn F)} {iov : List (Option Nat)} {mx : Nat} (h : SInv npi acc iov mx) (more : List (Insn F)) (n : Nat) :
    SInv npi (acc ++ more) (iov ++ List.replicate n none) (mx + n) := by
  refine ⟨by simp [h.1]; omega, ?_⟩
  intro i k hi
  by_cases hlt : i < iov.length
  · rw [List.getElem?_append_left hlt] at hi
    obtain ⟨insn, h1, h2, h2', h3, h4⟩ := h.2 i k hi
    refine ⟨insn, ?_, h2, h2', fun v hv => by have := h3 v hv; omega, h4⟩
    rw [List.getElem?_append_left (List.getElem?_eq_some_iff.1 h1).1]; exact h1
  · rw [List.getElem?_append_right (by omega), List.getElem?_replicate] at hi
    split at hi <;> simp at hi

theorem SInv.push {npi : Option Nat} {acc : List (Insn F)} {iov : List (Option Nat)} {mx : Nat} (h : SInv npi acc iov mx) {j : Insn F} (hc : j.asCall = none)
    (hno : j.numOutputs = 1) (hb : ∀ v ∈ j.inputs, v ≤ mx ∧ v ≠ 0) (hv : ∀ E : Env F, validAt (dest E false) npi j = true) :
    SInv npi (acc ++ [j]) (iov ++ [some acc.length]) (mx + 1) := by
  have h0 := h.extend [j] 1
  refine ⟨by simp [h.1], ?_⟩
  intro i k hi
  by_cases hlt : i < iov.length
  · exact h0.2 i k (by rw [List.getElem?_append_left hlt] at hi ⊢; exact hi)
  · rw [List.getElem?_append_right (by omega)] at hi
    have hi0 : i - iov.length = 0 := by
      by_contra hne
      rw [List.getElem?_eq_none (by simp; omega)] at hi; cases hi
    rw [hi0] at hi
    simp at hi; subst hi
    exact ⟨j, by simp, hc, hno, fun v hv => by have := hb v hv; omega, hv⟩

theorem copy_static {npi : Option Nat} {acc : List (Insn F)} {iov : List (Option Nat)} {mx : Nat} (h : SInv npi acc iov mx) {i : Nat} (hi : i ≤ mx ∧ i ≠ 0) :
    (copyInsn acc iov i).asCall = none ∧ (copyInsn acc iov i).numOutputs = 1 ∧ (∀ v ∈ (copyInsn acc iov i).inputs, v ≤ mx ∧ v ≠ 0) ∧
      ∀ E : Env F, validAt (dest E false) npi (copyInsn acc iov i) = true := by
  have hlin : (Insn.internal [⟨1, .linear i⟩] : Insn F).asCall = none ∧ (Insn.internal [⟨1, .linear i⟩] : Insn F).numOutputs = 1 ∧
      (∀ v ∈ (Insn.internal [⟨1, .linear i⟩] : Insn F).inputs, v ≤ mx ∧ v ≠ 0) ∧
      ∀ E : Env F, validAt (dest E false) npi (Insn.internal [⟨1, .linear i⟩] : Insn F) = true := by
    refine ⟨rfl, rfl, ?_, ?_⟩
    · intro v hv
      simp [Insn.inputs, Expr.getVars, VarSpec.vars] at hv
      subst hv; exact hi
    · intro E; cases npi <;> rfl
  unfold copyInsn
  split
  · rename_i k hk
    obtain ⟨insn, h1, h2, h2', h3, h4⟩ := h.2 i k hk
    simp only [h1]
    exact ⟨h2, h2', h3, h4⟩
  · exact hlin

theorem insnsOk_append {L : Lang F} {npi : Option Nat} : ∀ (is js : List L.Insn) (cur : Nat), InsnsOk L npi cur (is ++ js) ↔
    InsnsOk L npi cur is ∧ InsnsOk L npi (numVars cur is) js := by
  intro is
  induction is with
  | nil => intro js cur; simp [InsnsOk, numVars]
  | cons i is ih =>
    intro js cur
    simp only [List.cons_append, InsnsOk, ih, numVars_cons, and_assoc]

theorem dedup_static {npi : Option Nat} (E : Env F) : ∀ (xs seen : List Nat) (acc : List (Insn F)) (iov : List (Option Nat)) (mx m0 : Nat), SInv npi acc iov mx →
    m0 ≤ mx → (∀ v ∈ xs, v ≤ m0 ∧ v ≠ 0) →
    InsnsOk (dest E false) npi mx (dedupArgs xs seen acc iov mx).1 ∧
    numVars (L := dest E false) mx (dedupArgs xs seen acc iov mx).1 = mx + (dedupArgs xs seen acc iov mx).1.length ∧
    (∀ j ∈ (dedupArgs xs seen acc iov mx).1, j.asCall = none) ∧
    (∀ v ∈ (dedupArgs xs seen acc iov mx).2, (v ∈ xs ∧ v ∉ seen) ∨ (mx < v ∧ v ≤ mx + (dedupArgs xs seen acc iov mx).1.length)) ∧
    (dedupArgs xs seen acc iov mx).2.Nodup ∧ (dedupArgs xs seen acc iov mx).2.length = xs.length := by
  intro xs
  induction xs with
  | nil => intro seen acc iov mx m0 _ _ _; simp [dedupArgs, InsnsOk, numVars]
  | cons i xs ih =>
    intro seen acc iov mx m0 hs hm hx
    have hi := hx i (by simp)
    simp only [dedupArgs]
    by_cases hin : i ∈ seen
    · obtain ⟨c1, c2, c3, c4⟩ := copy_static hs (i := i) ⟨by omega, hi.2⟩
      have hs' : SInv npi (acc ++ [copyInsn acc iov i]) (iov ++ [none]) (mx + 1) := hs.extend [copyInsn acc iov i] 1
      obtain ⟨h1, h2, h3, h4, h5, h6⟩ := ih seen (acc ++ [copyInsn acc iov i]) (iov ++ [none]) (mx + 1) m0 hs' (by omega) (fun v hv => hx v (by simp [hv]))
      simp only [hin, if_true]
      have hc1 : (dest E false).numOutputs (copyInsn acc iov i) = 1 := c2
      refine ⟨⟨c3, c4 E, Or.inr (fun c a n h => ?_), by rw [hc1]; exact h1⟩, ?_, ?_, ?_, ?_, by simp [h6]⟩
      · rw [show (dest E false).asCall _ = none from c1] at h; cases h
      · rw [numVars_cons (L := dest E false), hc1, h2]; simp; omega
      · intro j hj
        rcases List.mem_cons.1 hj with rfl | hj
        · exact c1
        · exact h3 j hj
      · intro v hv
        rcases List.mem_cons.1 hv with rfl | hv
        · right; simp
        · rcases h4 v hv with ⟨h, h'⟩ | ⟨h, h'⟩
          · exact Or.inl ⟨by simp [h], h'⟩
          · right; simp; omega
      · refine List.nodup_cons.2 ⟨?_, h5⟩
        intro hv
        rcases h4 _ hv with ⟨h, h'⟩ | ⟨h, h'⟩
        · have := hx _ (List.mem_cons_of_mem i h); omega
        · omega
    · obtain ⟨h1, h2, h3, h4, h5, h6⟩ := ih (i :: seen) acc iov mx m0 hs hm (fun v hv => hx v (by simp [hv]))
      simp only [hin, if_false]
      refine ⟨h1, h2, h3, ?_, ?_, by simp [h6]⟩
      · intro v hv
        rcases List.mem_cons.1 hv with rfl | hv
        · exact Or.inl ⟨by simp, hin⟩
        · rcases h4 v hv with ⟨h, h'⟩ | h
          · exact Or.inl ⟨by simp [h], fun h => h' (by simp [h])⟩
          · exact Or.inr h
      · refine List.nodup_cons.2 ⟨?_, h5⟩
        intro hv
        rcases h4 _ hv with ⟨h, h'⟩ | ⟨h, h'⟩
        · exact h' (by simp)
        · omega

/-- The renumbering is injective. -/
def VmInj (vm : List Nat) : Prop := ∀ u v, u < vm.length → v < vm.length → vmGet vm u = vmGet vm v → u = v

theorem VmInj.push {vm : List Nat} {cur mx p n : Nat} (h : VmInj vm) (ho : VmOk vm cur mx) (h0 : vmGet vm 0 = 0) (hp : mx ≤ p) :
    VmInj (vm ++ List.range' (p + 1) n) := by
  have hlow : ∀ u, u < vm.length → vmGet (vm ++ List.range' (p + 1) n) u ≤ p := by
    intro u hu
    rw [vmGet_append_left hu]
    by_cases hu0 : u = 0
    · subst hu0; omega
    · have := ho.2 u hu0 (by have := ho.1; omega); omega
  have hhigh : ∀ u, vm.length ≤ u → u < vm.length + n → vmGet (vm ++ List.range' (p + 1) n) u = p + 1 + (u - vm.length) := by
    intro u hu hu'
    simp only [vmGet]
    rw [List.getElem?_append_right hu]
    simp [show u - vm.length < n by omega]
  intro u v hu hv he
  simp only [List.length_append, List.length_range'] at hu hv
  by_cases h1 : u < vm.length <;> by_cases h2 : v < vm.length
  · rw [vmGet_append_left h1, vmGet_append_left h2] at he
    exact h u v h1 h2 he
  · have := hlow u h1; have := hhigh v (by omega) hv; omega
  · have := hlow v h2; have := hhigh u (by omega) hu; omega
  · have := hhigh v (by omega) hv; have := hhigh u (by omega) hu; omega

theorem vmInj_init (n : Nat) : VmInj (List.range (n + 1)) := by
  intro u v hu hv h
  simp only [List.length_range] at hu hv
  simpa [vmGet, hu, hv] using h

theorem solve_static {npi : Option Nat} (E : Env F) : ∀ (is : List (Insn F)) (cur : Nat) (vm : List Nat) (acc : List (Insn F)) (iov : List (Option Nat)) (mx : Nat),
    InsnsOk (dest E true) npi cur is → VmOk vm cur mx → VmInj vm → vmGet vm 0 = 0 → SInv npi acc iov mx →
    InsnsOk (dest E false) npi mx (solveInsns is vm acc iov mx).1 ∧
    VmOk (solveInsns is vm acc iov mx).2 (numVars (L := dest E true) cur is) (numVars (L := dest E false) mx (solveInsns is vm acc iov mx).1) ∧
    VmInj (solveInsns is vm acc iov mx).2 ∧
    (∀ d m k, (∃ j ∈ (solveInsns is vm acc iov mx).1, ∃ a, j.asCall = some (d, a, m) ∧ a.length = k) ↔
      ∃ i ∈ is, ∃ a, i.asCall = some (d, a, m) ∧ a.length = k) := by
  intro is
  induction is with
  | nil =>
    intro cur vm acc iov mx _ hv hi _ _
    exact ⟨trivial, hv, hi, fun d m k => by simp [solveInsns]⟩
  | cons i is ih =>
    intro cur vm acc iov mx hok hvm hinj h0 hs
    obtain ⟨hin, hval, _, hok'⟩ := hok
    have hargs : ∀ xs : List Nat, (∀ t ∈ xs, t ≤ cur ∧ t ≠ 0) → ∀ t ∈ xs.map (vmGet vm), t ≤ mx ∧ t ≠ 0 := by
      intro xs hx t ht
      obtain ⟨v, hv, rfl⟩ := List.mem_map.1 ht
      have := hvm.2 v (hx v hv).2 (hx v hv).1
      exact ⟨this.2, this.1⟩
    have hvpos : 0 < vm.length := by have := hvm.1; omega
    rcases insn_cases i with ⟨c, xs, n, rfl⟩ | ⟨hc, hno, hsolve⟩
    · obtain ⟨d1, d2, d3, d4, d5, d6⟩ := dedup_static (npi := npi) E (xs.map (vmGet vm)) [] acc iov mx mx hs (Nat.le_refl _) (hargs xs hin)
      have hsol := solve_call c xs n is vm acc iov mx
      generalize dedupArgs (xs.map (vmGet vm)) [] acc iov mx = dd at d1 d2 d3 d4 d5 d6 hsol
      have hpush := hvm.push (p := mx + dd.1.length) (n := n) (mx' := mx + dd.1.length + n) (by omega) (by omega)
      have hs' : SInv npi (acc ++ dd.1 ++ [.call c dd.2 n]) (iov ++ List.replicate dd.1.length none ++ List.replicate n none) (mx + dd.1.length + n) :=
        (hs.extend dd.1 dd.1.length).extend [.call c dd.2 n] n
      obtain ⟨k1, k2, k3, k4⟩ := ih (cur + n) (vm ++ List.range' (mx + dd.1.length + 1) n) (acc ++ dd.1 ++ [.call c dd.2 n]) _ (mx + dd.1.length + n) hok' hpush
        (hinj.push hvm h0 (by omega)) (by rw [vmGet_append_left hvpos]; exact h0) hs'
      have hcn : (dest E false).numOutputs (Insn.call c dd.2 n) = n := rfl
      rw [hsol]
      refine ⟨?_, ?_, k3, ?_⟩
      · rw [insnsOk_append]
        refine ⟨d1, ?_, (dest_lawful E false).validAt_call npi c dd.2 n, Or.inr (fun c' a' n' h => ?_), ?_⟩
        · intro v hv
          rw [d2]
          rcases d4 v hv with ⟨h, _⟩ | h
          · have := hargs xs hin v h; omega
          · omega
        · cases h; exact d5
        · rw [d2, hcn]; exact k1
      · have e : numVars (L := dest E false) mx (dd.1 ++ Insn.call c dd.2 n :: (solveInsns is (vm ++ List.range' (mx + dd.1.length + 1) n) (acc ++ dd.1 ++ [.call c dd.2 n])
            (iov ++ List.replicate dd.1.length none ++ List.replicate n none) (mx + dd.1.length + n)).1) =
            numVars (L := dest E false) (mx + dd.1.length + n) (solveInsns is (vm ++ List.range' (mx + dd.1.length + 1) n) (acc ++ dd.1 ++ [.call c dd.2 n])
            (iov ++ List.replicate dd.1.length none ++ List.replicate n none) (mx + dd.1.length + n)).1 := by
          have happ : ∀ (a b : List (Insn F)) (m : Nat), numVars (L := dest E false) m (a ++ b) = numVars (L := dest E false) (numVars (L := dest E false) m a) b :=
            fun a b m => by simp [numVars, List.foldl_append]
          rw [happ, d2, numVars_cons (L := dest E false), hcn]
        rw [e]; exact k2
      · intro d m k
        have hno : ∀ j ∈ dd.1, ∀ a, ¬ (j.asCall = some (d, a, m)) := fun j hj a h => by rw [d3 j hj] at h; cases h
        constructor
        · rintro ⟨j, hj, a, h1, h2⟩
          rcases List.mem_append.1 hj with hj | hj
          · exact absurd h1 (hno j hj a)
          · rcases List.mem_cons.1 hj with rfl | hj
            · cases h1
              exact ⟨Insn.call c xs n, List.mem_cons_self, xs, rfl, by rw [← h2, d6]; simp⟩
            · obtain ⟨i', hi', r⟩ := (k4 d m k).1 ⟨j, hj, a, h1, h2⟩
              exact ⟨i', by simp [hi'], r⟩
        · rintro ⟨j, hj, a, h1, h2⟩
          rcases List.mem_cons.1 hj with rfl | hj
          · cases h1
            exact ⟨Insn.call c dd.2 n, List.mem_append_right _ List.mem_cons_self, dd.2, rfl, by rw [← h2, d6]; simp⟩
          · obtain ⟨i', hi', r⟩ := (k4 d m k).2 ⟨j, hj, a, h1, h2⟩
            exact ⟨i', List.mem_append_right _ (List.mem_cons_of_mem _ hi'), r⟩
    · have hc1 : (dest E false).asCall (i.replaceVars (vmGet vm)) = none := by
        rw [(dest_lawful E false).asCall_replace, show (dest E false).asCall i = none from hc]; rfl
      have hn1 : (dest E false).numOutputs (i.replaceVars (vmGet vm)) = 1 := ((dest_lawful E false).numOutputs_replace i _).trans hno
      have hb : ∀ v ∈ (i.replaceVars (vmGet vm)).inputs, v ≤ mx ∧ v ≠ 0 := by
        rw [show (i.replaceVars (vmGet vm)).inputs = _ from (dest_lawful E true).inputs_replace i (vmGet vm)]
        exact hargs _ hin
      have hvl : ∀ E : Env F, validAt (dest E false) npi (i.replaceVars (vmGet vm)) = true := by
        intro E'
        rw [(dest_lawful E' false).validAt_replace]
        cases npi with
        | none => rfl
        | some k => exact hval
      rw [show (dest E true).numOutputs i = 1 from hno] at hok'
      have hpush := hvm.push (p := mx) (n := 1) (mx' := mx + 1) (by omega) (by omega)
      obtain ⟨k1, k2, k3, k4⟩ := ih (cur + 1) (vm ++ [mx + 1]) (acc ++ [i.replaceVars (vmGet vm)]) (iov ++ [some acc.length]) (mx + 1) hok' hpush
        (hinj.push (p := mx) (n := 1) hvm h0 (by omega)) (by rw [vmGet_append_left hvpos]; exact h0) (hs.push hc1 hn1 hb hvl)
      rw [hsolve]
      refine ⟨⟨hb, hvl E, Or.inr (fun c a n h => ?_), by rw [hn1]; exact k1⟩, ?_, k3, ?_⟩
      · rw [hc1] at h; cases h
      · rw [numVars_cons (L := dest E false), hn1, numVars_cons (L := dest E true), show (dest E true).numOutputs i = 1 from hno]; exact k2
      · intro d m k
        have hc1' : (i.replaceVars (vmGet vm)).asCall = none := hc1
        simp only [List.mem_cons, exists_eq_or_imp, hc1', hc, k4]

/-! ### Whole circuits -/

/-- `solveCircuit` without the panic. -/
def solveCore (E : Env F) (ord : List Nat → List Nat) (circ : Circuit (dest E true)) : Circuit (dest E false) :=
  let n := circ.numInputs
  let r := solveInsns circ.instructions (List.range (n + 1)) [] (List.replicate (n + 1) none) n
  ⟨r.1, (ord ((circ.constraints.map (fun k => vmGet r.2 k.var)).dedup)).map (fun v => ⟨(), v⟩), circ.outputs.map (vmGet r.2), n⟩

/-- The family of results. -/
def solvedGet (ord : List Nat → List Nat) (get : Nat → Option (Circuit (dest E true))) (c : Nat) : Option (Circuit (dest E false)) :=
  (get c).map (solveCore E ord)

theorem checkCons_all {L : Lang F} (hver : ∀ k x, L.verify k x = decide (x = 0)) {vs : List F} : ∀ {cs : List (Constraint L)}, (∀ k ∈ cs, k.var < vs.length) →
    checkCons vs cs = some (cs.all (fun k => decide (vs[k.var]? = some 0))) := by
  intro cs
  induction cs with
  | nil => intro _; rfl
  | cons k cs ih =>
    intro h
    have h1 := h k (by simp)
    simp only [checkCons, List.getElem?_eq_getElem h1, ih (fun k hk => h k (by simp [hk])), List.all_cons, hver, Option.some.injEq]

theorem sinv_init (npi : Option Nat) (n : Nat) : SInv (F := F) npi [] (List.replicate (n + 1) none) n := by
  refine ⟨by simp, ?_⟩
  intro i k h
  rw [List.getElem?_replicate] at h
  split at h <;> simp at h

theorem inv_init (E : Env F) (ws : List F) (n : Nat) (h : ws.length = n + 1) : Inv E [] (List.replicate (n + 1) none) ws := by
  refine ⟨by simp [h], ?_⟩
  intro i k h
  rw [List.getElem?_replicate] at h
  split at h <;> simp at h

/-- In no circuit a call comes after an instruction that draws a random value. -/
def RandLastRc (get : Nat → Option (Circuit (dest E true))) : Prop := ∀ c circ, get c = some circ → RandLast (circ.instructions : List (Insn F))

theorem solve_spec {npi : Option Nat} (ord : List Nat → List Nat) (hord : ∀ l, (ord l).Perm l) {get : Nat → Option (Circuit (dest E true))} (hw : WFGet npi get) :
    ∀ c circ, get c = some circ → Spec E get (solvedGet ord get) (RandLastRc get) circ (solveCore E ord circ) := by
  apply call_induction (P := fun c circ => Spec E get (solvedGet ord get) (RandLastRc get) circ (solveCore E ord circ)) hw.dag
  intro c circ hg ih ins hlen
  have hci := hw.circ c circ hg
  obtain ⟨hf, hb⟩ := solve_run (get := get) (get' := solvedGet ord get) (npi := npi) (P := RandLastRc get) circ.instructions (List.range (circ.numInputs + 1)) []
    (List.replicate (circ.numInputs + 1) none) (0 :: ins) (0 :: ins) circ.numInputs circ.numInputs (by simp [hlen]) (by simp [hlen]) hci.insns (hw.calls c circ hg)
    (by have := Rel.init ins []; rw [hlen] at this; simpa using this) (inv_init E _ _ (by simp [hlen])) (fun _ => .inl fun j hj => (by cases hj))
    (fun hP => hP c circ hg) (by
      intro i hi d a n hcall sub hs
      exact ⟨solveCore E ord sub, by simp [solvedGet, hs], ih d sub ⟨circ, hg, i, hi, a, n, hcall⟩ hs⟩)
  have hvlen : ∀ t b, Run get circ.instructions (0 :: ins) ((0 :: ins) ++ t) b → ((0 :: ins) ++ t).length = numVars circ.numInputs circ.instructions + 1 := by
    intro t b h
    rw [h.length (dest_lawful E true) (hw.calls c circ hg) (circ.numInputs + 1) (by simp [hlen]), numVars_add]
  have hcons : ∀ (t xs : List F), ((0 :: ins) ++ t).length = numVars circ.numInputs circ.instructions + 1 →
      Rel (solveInsns circ.instructions (List.range (circ.numInputs + 1)) [] (List.replicate (circ.numInputs + 1) none) circ.numInputs).2 ((0 :: ins) ++ t) ((0 :: ins) ++ xs) →
      checkCons ((0 :: ins) ++ xs) (solveCore E ord circ).constraints = checkCons ((0 :: ins) ++ t) circ.constraints := by
    intro t xs hl hrel
    have hval : ∀ k ∈ circ.constraints, ((0 :: ins) ++ xs)[vmGet (solveInsns circ.instructions (List.range (circ.numInputs + 1)) [] (List.replicate (circ.numInputs + 1) none) circ.numInputs).2 k.var]? =
        ((0 :: ins) ++ t)[k.var]? := fun k hk => hrel.val k.var (by have := hci.cons k hk; omega)
    have hmem : ∀ v, v ∈ ord ((circ.constraints.map (fun k => vmGet (solveInsns circ.instructions (List.range (circ.numInputs + 1)) [] (List.replicate (circ.numInputs + 1) none) circ.numInputs).2 k.var)).dedup) ↔
        ∃ k ∈ circ.constraints, vmGet (solveInsns circ.instructions (List.range (circ.numInputs + 1)) [] (List.replicate (circ.numInputs + 1) none) circ.numInputs).2 k.var = v := by
      intro v
      rw [(hord _).mem_iff, List.mem_dedup, List.mem_map]
    rw [checkCons_all (fun _ _ => rfl) (cs := circ.constraints) (fun k hk => by have := hci.cons k hk; omega), checkCons_all (fun _ _ => rfl)]
    · congr 1
      rw [Bool.eq_iff_iff]
      simp only [List.all_eq_true, decide_eq_true_eq, solveCore, List.mem_map]
      constructor
      · intro h k hk
        rw [← hval k hk]
        exact h ⟨(), _⟩ ⟨_, (hmem _).2 ⟨k, hk, rfl⟩, rfl⟩
      · rintro h _ ⟨v, hv, rfl⟩
        obtain ⟨k, hk, rfl⟩ := (hmem v).1 hv
        show ((0 :: ins) ++ xs)[_]? = _
        rw [hval k hk]; exact h k hk
    · intro k' hk'
      simp only [solveCore, List.mem_map] at hk'
      obtain ⟨v, hv, rfl⟩ := hk'
      obtain ⟨k, hk, rfl⟩ := (hmem v).1 hv
      have h1 := hval k hk
      rw [List.getElem?_eq_getElem (show k.var < ((0 :: ins) ++ t).length by have := hci.cons k hk; omega)] at h1
      exact (List.getElem?_eq_some_iff.1 h1).1
  refine ⟨?_, ?_⟩
  · intro outs b h
    obtain ⟨t, sb, cb, h1, h2, h3, rfl⟩ := AddBack.evalSub_iff_tail.1 h
    obtain ⟨xs, k1, k2⟩ := hf t sb h1
    have hl := hvlen t _ h1
    refine AddBack.evalSub_iff_tail.2 ⟨xs, sb, cb, k1, by rw [hcons t xs hl k2]; exact h2, ?_, rfl⟩
    rw [← h3]
    exact k2.reads (fun v hv => by have := hci.outs v hv; omega)
  · intro hP outs b h
    obtain ⟨xs, sb, cb, h1, h2, h3, rfl⟩ := AddBack.evalSub_iff_tail.1 h
    obtain ⟨t, k1, k2⟩ := hb hP xs sb h1
    have hl := hvlen t _ k1
    refine AddBack.evalSub_iff_tail.2 ⟨t, sb, cb, k1, by rw [← hcons t xs hl k2]; exact h2, ?_, rfl⟩
    rw [← h3]
    exact (k2.reads (fun v hv => by have := hci.outs v hv; omega)).symm

theorem calls_solved {npi : Option Nat} (ord : List Nat → List Nat) {get : Nat → Option (Circuit (dest E true))} (hw : WFGet npi get) (c d : Nat) :
    Calls (solvedGet ord get) c d ↔ Calls get c d := by
  unfold Calls
  have key : ∀ circ, get c = some circ → ∀ m k, _ := fun circ hg =>
    (solve_static (npi := npi) E circ.instructions circ.numInputs (List.range (circ.numInputs + 1)) [] (List.replicate (circ.numInputs + 1) none) circ.numInputs
      (hw.circ c circ hg).insns (vmOk_init _ 0) (vmInj_init _) (by simp [vmGet]) (sinv_init _ _)).2.2.2 d
  constructor
  · rintro ⟨circ, hg, i, hi, a, n, h⟩
    simp only [solvedGet, Option.map_eq_some_iff] at hg
    obtain ⟨c0, hg, rfl⟩ := hg
    obtain ⟨j, hj, a', h', _⟩ := (key c0 hg n a.length).1 ⟨i, hi, a, h, rfl⟩
    exact ⟨c0, hg, j, hj, a', n, h'⟩
  · rintro ⟨circ, hg, i, hi, a, n, h⟩
    obtain ⟨j, hj, a', h', _⟩ := (key circ hg n a.length).2 ⟨i, hi, a, h, rfl⟩
    exact ⟨_, by simp only [solvedGet, hg, Option.map_some]; rfl, j, hj, a', n, h'⟩

theorem solved_wf {npi : Option Nat} (ord : List Nat → List Nat) (hord : ∀ l, (ord l).Perm l) {get : Nat → Option (Circuit (dest E true))} (hw : WFGet npi get)
    (hnd : ∀ c circ, get c = some circ → circ.outputs.Nodup) : WFGet npi (solvedGet ord get) := by
  refine ⟨?_, ?_, ?_⟩
  · intro c circ hg
    simp only [solvedGet, Option.map_eq_some_iff] at hg
    obtain ⟨c0, hg, rfl⟩ := hg
    have hc := hw.circ c c0 hg
    obtain ⟨k1, k2, k3, _⟩ := solve_static (npi := npi) E c0.instructions c0.numInputs (List.range (c0.numInputs + 1)) [] (List.replicate (c0.numInputs + 1) none) c0.numInputs
      hc.insns (vmOk_init _ 0) (vmInj_init _) (by simp [vmGet]) (sinv_init _ _)
    refine ⟨k1, ?_, Or.inl rfl, ?_, Or.inr ?_⟩
    · intro k hk
      simp only [solveCore, List.mem_map] at hk
      obtain ⟨v, hv, rfl⟩ := hk
      rw [(hord _).mem_iff, List.mem_dedup, List.mem_map] at hv
      obtain ⟨k0, hk0, rfl⟩ := hv
      have := hc.cons k0 hk0
      have := k2.2 k0.var this.2 this.1
      exact ⟨this.2, this.1⟩
    · intro o ho
      obtain ⟨o0, ho0, rfl⟩ := List.mem_map.1 ho
      have := hc.outs o0 ho0
      have := k2.2 o0 this.2 this.1
      exact ⟨this.2, this.1⟩
    · refine List.Nodup.map_on ?_ (hnd c c0 hg)
      intro x hx y hy he
      have h1 := hc.outs x hx
      have h2 := hc.outs y hy
      exact k3 x y (by rw [k2.1]; omega) (by rw [k2.1]; omega) he
  · intro c circ hg j hj d a m hcall
    simp only [solvedGet, Option.map_eq_some_iff] at hg
    obtain ⟨c0, hg, rfl⟩ := hg
    obtain ⟨i, hi, a', h', hal⟩ := ((solve_static (npi := npi) E c0.instructions c0.numInputs (List.range (c0.numInputs + 1)) [] (List.replicate (c0.numInputs + 1) none) c0.numInputs
      (hw.circ c c0 hg).insns (vmOk_init _ 0) (vmInj_init _) (by simp [vmGet]) (sinv_init _ _)).2.2.2 d m a.length).1 ⟨j, hj, a, hcall, rfl⟩
    obtain ⟨sub, s1, s2, s3⟩ := hw.calls c c0 hg i hi d a' m h'
    exact ⟨solveCore E ord sub, by simp [solvedGet, s1], by rw [← hal, s2]; rfl, by simp [solveCore, s3]⟩
  · obtain ⟨r, hr⟩ := hw.dag
    exact ⟨r, fun c d h => hr c d ((calls_solved ord hw c d).1 h)⟩

theorem solveDuplicates_eq (ord : List Nat → List Nat) (rc : RootCircuit (dest E true)) (hk : rc.vertices.Nodup)
    (hnd : ∀ c circ, rc.get c = some circ → circ.outputs.Nodup) :
    solveDuplicates E ord rc = some ⟨rc.numPublicInputs, rc.expectedNumOutputZeroes, rc.circuits.map (fun p => (p.1, solveCore E ord p.2))⟩ := by
  unfold solveDuplicates
  rw [mapOpt_eq_map (g := fun p => (p.1, solveCore E ord p.2))]; rfl
  intro p hp
  have hg := get_of_mem hk hp
  simp only [solveCircuit, if_pos (hnd _ _ hg)]; rfl

theorem solveDuplicates_correct {npi : Option Nat} (ord : List Nat → List Nat) (hord : ∀ l, (ord l).Perm l) (rc : RootCircuit (dest E true)) (hk : rc.vertices.Nodup)
    (hw : WFAt npi rc) (hnd : ∀ c circ, rc.get c = some circ → circ.outputs.Nodup) :
    ∃ rc', solveDuplicates E ord rc = some rc' ∧ rc'.vertices = rc.vertices ∧ WFAt npi rc' ∧ rc'.numPublicInputs = rc.numPublicInputs ∧
      (∀ c, (rc'.get c).map (·.numInputs) = (rc.get c).map (·.numInputs)) ∧
      (∀ ins outs b, Eval rc ins outs b → Eval rc' ins outs b) ∧
      (RandLastRc rc.get → ∀ ins outs b, Eval rc' ins outs b → Eval rc ins outs b) := by
  have hget : (⟨rc.numPublicInputs, rc.expectedNumOutputZeroes, rc.circuits.map (fun p => (p.1, solveCore E ord p.2))⟩ : RootCircuit (dest E false)).get = solvedGet ord rc.get := by
    funext c; exact lookup_map_snd (solveCore E ord) rc.circuits c
  refine ⟨_, solveDuplicates_eq ord rc hk hnd, by simp [RootCircuit.vertices], ⟨by rw [hget]; exact solved_wf ord hord hw.wf hnd, ?_⟩, rfl, ?_, ?_, ?_⟩
  · obtain ⟨root, hg, hz, hne⟩ := hw.root
    refine ⟨solveCore E ord root, by rw [hget]; simp [solvedGet, hg], by simpa [solveCore] using hz, ?_⟩
    intro ho
    obtain ⟨d, circ, h1, h2, h3⟩ := hne (by simpa [solveCore] using ho)
    refine ⟨d, solveCore E ord circ, ?_, by rw [hget]; simp [solvedGet, h2], ?_⟩
    · rw [hget]
      exact Relation.ReflTransGen.mono (fun a b h => (calls_solved ord hw.wf a b).2 h) _ _ h1
    · intro h
      simp only [solveCore, List.map_eq_nil_iff] at h
      have hl := congrArg List.length h
      rw [(hord _).length_eq] at hl
      have := List.length_eq_zero_iff.1 hl
      rw [List.eq_nil_iff_forall_not_mem] at this
      obtain ⟨k, hk⟩ := List.exists_mem_of_ne_nil _ h3
      exact this _ (List.mem_dedup.2 (List.mem_map_of_mem hk))
  · intro c
    rw [hget]
    cases hg : rc.get c <;> simp [solvedGet, hg, solveCore]
  · rintro ins outs b ⟨root, all, b0, h1, h2, h3, h4, rfl, rfl⟩
    exact ⟨solveCore E ord root, all, b0, by rw [hget]; simp [solvedGet, h1], h2, by rw [hget]; exact (solve_spec ord hord hw.wf 0 root h1 ins h2).1 _ _ h3, h4, rfl, rfl⟩
  · rintro hP ins outs b ⟨root', all, b0, h1, h2, h3, h4, rfl, rfl⟩
    rw [hget] at h1 h3
    simp only [solvedGet, Option.map_eq_some_iff] at h1
    obtain ⟨root, hg, rfl⟩ := h1
    exact ⟨root, all, b0, hg, h2, (solve_spec ord hord hw.wf 0 root hg ins h2).2 hP _ _ h3, h4, rfl, rfl⟩

end SolveDup
end Verif.IR
