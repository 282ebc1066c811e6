import Verif.Layering.Split
import Verif.Layering.TraceIR

/-!
# Evaluation of circuits as assignments (for `ir_split.rs`)

`Holds S W i cur`: with the values `W` of the variables, the equations of the instruction `i` hold, where `cur` is the first variable it
defines and `S` says what the called circuits do.
-/

set_option linter.unusedSectionVars false
set_option linter.unusedSimpArgs false

namespace Verif.Layering.Split

open Verif.IR (Expr Coef Env dest Circuit RootCircuit WFGet CallsOk Calls CircOk InsnsOk numVars Run EvalSub readAll checkCons Constraint Term VarSpec)
open Verif.Layering

variable {F : Type} [Field F] [DecidableEq F]

/-- The variables an instruction uses. -/
def argsOf : Verif.IR.Dest.Insn F → List Nat
  | .internal e => Expr.getVars e
  | .constantLike _ => []
  | .call _ xs _ => xs

/-- The first variable after a list of instructions. -/
def endOf : List (Verif.IR.Dest.Insn F) → Nat → Nat
  | [], cur => cur
  | i :: is, cur => endOf is (cur + nOut i)

theorem le_endOf : ∀ (is : List (Verif.IR.Dest.Insn F)) (cur : Nat), cur ≤ endOf is cur
  | [], _ => le_refl _
  | i :: is, cur => by have := le_endOf is (cur + nOut i); simp only [endOf]; omega

theorem endOf_append : ∀ (is js : List (Verif.IR.Dest.Insn F)) (cur : Nat), endOf (is ++ js) cur = endOf js (endOf is cur)
  | [], _, _ => rfl
  | i :: is, js, cur => by simp only [List.cons_append, endOf]; exact endOf_append is js _

theorem argsOk_cons {i : Verif.IR.Dest.Insn F} {is : List (Verif.IR.Dest.Insn F)} {cur : Nat} :
    ArgsOk (i :: is) cur ↔ (∀ v ∈ argsOf i, 1 ≤ v ∧ v < cur) ∧ ArgsOk is (cur + nOut i) := by
  cases i <;> simp [ArgsOk, argsOf, nOut]

theorem argsOk_append : ∀ {is js : List (Verif.IR.Dest.Insn F)} {cur : Nat}, ArgsOk (is ++ js) cur ↔ ArgsOk is cur ∧ ArgsOk js (endOf is cur)
  | [], js, cur => by simp [ArgsOk, endOf]
  | i :: is, js, cur => by
    rw [List.cons_append, argsOk_cons, argsOk_cons, argsOk_append, endOf, and_assoc]

/-! ### Without verdicts -/

/-- The equations of an instruction. -/
def Holds (E : Env F) (S : Nat → List F → List F → Prop) (W : Nat → F) (i : Verif.IR.Dest.Insn F) (cur : Nat) : Prop :=
  match i with
  | .internal e => Expr.Sem E (fun v => some (W v)) e (W cur)
  | .constantLike c => c.Sem E (W cur)
  | .call d xs n => S d (xs.map W) ((List.range' cur n).map W)

/-- The equations of a list of instructions. -/
def HoldsAll (E : Env F) (S : Nat → List F → List F → Prop) (W : Nat → F) : List (Verif.IR.Dest.Insn F) → Nat → Prop
  | [], _ => True
  | i :: is, cur => Holds E S W i cur ∧ HoldsAll E S W is (cur + nOut i)

/-! ### With verdicts -/

/-- The equations of an instruction and its verdict. -/
def HoldsB (E : Env F) (S : Nat → List F → List F → Bool → Prop) (W : Nat → F) (i : Verif.IR.Dest.Insn F) (cur : Nat) (b : Bool) : Prop :=
  match i with
  | .internal e => Expr.Sem E (fun v => some (W v)) e (W cur) ∧ b = true
  | .constantLike c => c.Sem E (W cur) ∧ b = true
  | .call d xs n => S d (xs.map W) ((List.range' cur n).map W) b

/-- The equations of a list of instructions and the conjunction of the verdicts. -/
def HoldsAllB (E : Env F) (S : Nat → List F → List F → Bool → Prop) (W : Nat → F) : List (Verif.IR.Dest.Insn F) → Nat → Bool → Prop
  | [], _, b => b = true
  | i :: is, cur, b => ∃ b1 b2, HoldsB E S W i cur b1 ∧ HoldsAllB E S W is (cur + nOut i) b2 ∧ b = (b1 && b2)

variable {E : Env F} {S : Nat → List F → List F → Prop} {SB : Nat → List F → List F → Bool → Prop}

theorem map_congr_mem {α β : Type} {f g : α → β} {l : List α} (h : ∀ x ∈ l, f x = g x) : l.map f = l.map g := List.map_congr_left h

theorem Holds.congr {W W' : Nat → F} {i : Verif.IR.Dest.Insn F} {cur : Nat} (ha : ∀ v ∈ argsOf i, W v = W' v) (ho : ∀ v, cur ≤ v → v < cur + nOut i → W v = W' v)
    (h : Holds E S W i cur) : Holds E S W' i cur := by
  cases i with
  | internal e => simp only [Holds] at h ⊢; rw [← ho cur (le_refl _) (by simp [nOut])]; exact expr_congr ha h
  | constantLike c => simp only [Holds] at h ⊢; rw [← ho cur (le_refl _) (by simp [nOut])]; exact h
  | call d xs n =>
    simp only [Holds] at h ⊢
    rw [← map_congr_mem (l := xs) (f := W) (g := W') ha, ← map_congr_mem (f := W) (g := W') (l := List.range' cur n)]
    · exact h
    · intro v hv; have := List.mem_range'_1.1 hv; exact ho v this.1 this.2

theorem HoldsB.congr {W W' : Nat → F} {i : Verif.IR.Dest.Insn F} {cur : Nat} {b : Bool} (ha : ∀ v ∈ argsOf i, W v = W' v) (ho : ∀ v, cur ≤ v → v < cur + nOut i → W v = W' v)
    (h : HoldsB E SB W i cur b) : HoldsB E SB W' i cur b := by
  cases i with
  | internal e => simp only [HoldsB] at h ⊢; rw [← ho cur (le_refl _) (by simp [nOut])]; exact ⟨expr_congr ha h.1, h.2⟩
  | constantLike c => simp only [HoldsB] at h ⊢; rw [← ho cur (le_refl _) (by simp [nOut])]; exact h
  | call d xs n =>
    simp only [HoldsB] at h ⊢
    rw [← map_congr_mem (l := xs) (f := W) (g := W') ha, ← map_congr_mem (f := W) (g := W') (l := List.range' cur n)]
    · exact h
    · intro v hv; have := List.mem_range'_1.1 hv; exact ho v this.1 this.2

theorem HoldsAll.congr {W W' : Nat → F} : ∀ {is : List (Verif.IR.Dest.Insn F)} {cur : Nat}, ArgsOk is cur → (∀ v, 1 ≤ v → v < endOf is cur → W v = W' v) → 1 ≤ cur →
    HoldsAll E S W is cur → HoldsAll E S W' is cur
  | [], _, _, _, _, _ => trivial
  | i :: is, cur, ha, hw, hc, h => by
    rw [argsOk_cons] at ha
    have hle := le_endOf is (cur + nOut i)
    refine ⟨h.1.congr (fun v hv => hw v (ha.1 v hv).1 ?_) (fun v h1 h2 => hw v (by omega) ?_), HoldsAll.congr ha.2 hw (by omega) h.2⟩
    · have := (ha.1 v hv).2; simp only [endOf]; omega
    · simp only [endOf]; omega

theorem HoldsAllB.congr {W W' : Nat → F} : ∀ {is : List (Verif.IR.Dest.Insn F)} {cur : Nat} {b : Bool}, ArgsOk is cur → (∀ v, 1 ≤ v → v < endOf is cur → W v = W' v) → 1 ≤ cur →
    HoldsAllB E SB W is cur b → HoldsAllB E SB W' is cur b
  | [], _, _, _, _, _, h => h
  | i :: is, cur, b, ha, hw, hc, h => by
    rw [argsOk_cons] at ha
    obtain ⟨b1, b2, h1, h2, h3⟩ := h
    have hle := le_endOf is (cur + nOut i)
    refine ⟨b1, b2, h1.congr (fun v hv => hw v (ha.1 v hv).1 ?_) (fun v h1 h2 => hw v (by omega) ?_), HoldsAllB.congr ha.2 hw (by omega) h2, h3⟩
    · have := (ha.1 v hv).2; simp only [endOf]; omega
    · simp only [endOf]; omega

theorem holdsAll_append {W : Nat → F} : ∀ {is js : List (Verif.IR.Dest.Insn F)} {cur : Nat},
    HoldsAll E S W (is ++ js) cur ↔ HoldsAll E S W is cur ∧ HoldsAll E S W js (endOf is cur)
  | [], js, cur => by simp [HoldsAll, endOf]
  | i :: is, js, cur => by
    show Holds E S W i cur ∧ HoldsAll E S W (is ++ js) (cur + nOut i) ↔ _
    rw [holdsAll_append]; simp only [HoldsAll, endOf, and_assoc]

/-- The equations of the instructions one by one. -/
def placed : List (Verif.IR.Dest.Insn F) → Nat → List (Verif.IR.Dest.Insn F × Nat)
  | [], _ => []
  | i :: is, cur => (i, cur) :: placed is (cur + nOut i)

theorem holdsAll_iff {W : Nat → F} : ∀ {is : List (Verif.IR.Dest.Insn F)} {cur : Nat}, HoldsAll E S W is cur ↔ ∀ p ∈ placed is cur, Holds E S W p.1 p.2
  | [], cur => by simp [HoldsAll, placed]
  | i :: is, cur => by simp [HoldsAll, placed, holdsAll_iff]

theorem placed_append : ∀ (is js : List (Verif.IR.Dest.Insn F)) (cur : Nat), placed (is ++ js) cur = placed is cur ++ placed js (endOf is cur)
  | [], _, _ => rfl
  | i :: is, js, cur => by simp only [List.cons_append, placed, endOf]; rw [placed_append is js _]

/-! ### Evaluation -/

/-- What the circuits of a table do. -/
def subSem {relaxed : Bool} (get : Nat → Option (Circuit (dest E relaxed))) (d : Nat) (ins outs : List F) (b : Bool) : Prop :=
  ∃ sub, get d = some sub ∧ EvalSub get sub ins outs b

variable {relaxed : Bool} {get : Nat → Option (Circuit (dest E relaxed))}

theorem run_holds : ∀ {is : List (Verif.IR.Dest.Insn F)} {vs vs' : List F} {b : Bool}, ArgsOk is vs.length → CallsOk get is → Run get is vs vs' b →
    vs'.length = endOf is vs.length ∧ ∀ W : Nat → F, (∀ (i : Nat) (v : F), vs'[i]? = some v → W i = v) → HoldsAllB E (subSem get) W is vs.length b := by
  intro is
  induction is with
  | nil =>
    intro vs vs' b _ _ h
    obtain ⟨rfl, rfl⟩ := (Verif.IR.run_nil_iff (L := dest E relaxed)).1 h
    exact ⟨rfl, fun _ _ => rfl⟩
  | cons a is ih =>
    intro vs vs' b hargs hcalls h
    have hval : ∀ {W : Nat → F} {b' : Bool} {outs : List F}, (∀ (i : Nat) (v : F), vs'[i]? = some v → W i = v) → Run get is (vs ++ outs) vs' b' → ∀ v, v < vs.length → vs[v]? = some (W v) := by
      intro W b' outs hW hr v hv
      obtain ⟨t, rfl⟩ := Verif.IR.Run.prefix hr
      have := hW v vs[v] (by rw [List.append_assoc, List.getElem?_append_left hv]; exact List.getElem?_eq_getElem hv)
      rw [this]; exact List.getElem?_eq_getElem hv
    cases a with
    | internal e =>
      obtain ⟨outs, ⟨y, hy, rfl⟩, hr⟩ := (Verif.IR.run_prim_iff (L := dest E relaxed) rfl).1 h
      obtain ⟨h0, h1⟩ := ih (by rw [List.length_append]; exact hargs.2) (fun i hi => hcalls i (by simp [hi])) hr
      rw [List.length_append, List.length_singleton] at h0
      refine ⟨h0, fun W hW => ?_⟩
      have h1 := h1 W hW
      rw [List.length_append, List.length_singleton] at h1
      have e1 : W vs.length = y := by
        obtain ⟨t, rfl⟩ := Verif.IR.Run.prefix hr
        exact hW _ _ (by rw [List.append_assoc, List.getElem?_append_right (le_refl _)]; simp)
      refine ⟨true, b, ⟨?_, rfl⟩, h1, by simp⟩
      rw [e1]
      exact Verif.IR.Expr.sem_local E e y (fun v hv => hval hW hr v (hargs.1 v hv).2) hy
    | constantLike e =>
      obtain ⟨outs, ⟨y, hy, rfl⟩, hr⟩ := (Verif.IR.run_prim_iff (L := dest E relaxed) rfl).1 h
      obtain ⟨h0, h1⟩ := ih (by rw [List.length_append]; exact hargs) (fun i hi => hcalls i (by simp [hi])) hr
      rw [List.length_append, List.length_singleton] at h0
      refine ⟨h0, fun W hW => ?_⟩
      have h1 := h1 W hW
      rw [List.length_append, List.length_singleton] at h1
      have e1 : W vs.length = y := by
        obtain ⟨t, rfl⟩ := Verif.IR.Run.prefix hr
        exact hW _ _ (by rw [List.append_assoc, List.getElem?_append_right (le_refl _)]; simp)
      refine ⟨true, b, ⟨?_, rfl⟩, h1, by simp⟩
      rw [e1]; exact hy
    | call d xs n =>
      obtain ⟨sub, args, res, sb, b', hg, hread, hev, hr, rfl⟩ := (Verif.IR.run_call_iff (L := dest E relaxed) rfl).1 h
      obtain ⟨sub', hg', hlen, hn⟩ := hcalls (.call d xs n) (by simp) d xs n rfl
      rw [hg] at hg'; cases hg'
      have hres : res.length = n := by rw [hn]; exact Verif.IR.EvalSub.length hev
      obtain ⟨h0, h1⟩ := ih (by rw [List.length_append, hres]; exact hargs.2) (fun i hi => hcalls i (by simp [hi])) hr
      rw [List.length_append, hres] at h0
      refine ⟨h0, fun W hW => ?_⟩
      have h1 := h1 W hW
      rw [List.length_append, hres] at h1
      refine ⟨sb, b', ⟨sub, hg, ?_⟩, h1, rfl⟩
      have e1 : xs.map W = args := by
        apply List.ext_getElem?
        intro j
        rw [List.getElem?_map]
        cases hx : xs[j]? with
        | none =>
          have : args.length ≤ j := by rw [Verif.IR.readAll_length hread]; exact List.getElem?_eq_none_iff.1 hx
          rw [List.getElem?_eq_none this]; rfl
        | some y =>
          obtain ⟨r1, -⟩ := readAll_get hread j y hx
          rw [hval hW hr y (hargs.1 y (List.mem_of_getElem? hx)).2] at r1
          rw [r1]; rfl
      have e2 : (List.range' vs.length n).map W = res := by
        obtain ⟨t, rfl⟩ := Verif.IR.Run.prefix hr
        apply List.ext_getElem?
        intro j
        rw [List.getElem?_map]
        by_cases hj : j < n
        · rw [range'_get hj, List.getElem?_eq_getElem (by omega)]
          exact congrArg some (hW _ _ (by rw [List.append_assoc, List.getElem?_append_right (by omega), Nat.add_sub_cancel_left, List.getElem?_append_left (by omega)]; exact List.getElem?_eq_getElem (by omega)))
        · rw [List.getElem?_eq_none (by simp; omega), List.getElem?_eq_none (by omega)]; rfl
      rw [e1, e2]; exact hev

theorem holds_run {W : Nat → F} : ∀ {is : List (Verif.IR.Dest.Insn F)} {cur : Nat} {b : Bool}, ArgsOk is cur → CallsOk get is → HoldsAllB E (subSem get) W is cur b →
    Run get is (vec W cur) (vec W (endOf is cur)) b := by
  intro is
  induction is with
  | nil =>
    intro cur b _ _ h
    cases h
    exact .nil _
  | cons a is ih =>
    intro cur b hargs hcalls h
    obtain ⟨b1, b2, h1, h2, rfl⟩ := h
    have h2 := ih (argsOk_cons.1 hargs).2 (fun i hi => hcalls i (by simp [hi])) h2
    rw [vec_add] at h2
    cases a with
    | internal e =>
      obtain ⟨h1, rfl⟩ := h1
      refine (Verif.IR.run_prim_iff (L := dest E relaxed) rfl).2 ⟨[W cur], ⟨W cur, ?_, rfl⟩, ?_⟩
      · exact Verif.IR.Expr.sem_local E e _ (fun v hv => (vec_get (hargs.1 v hv).2).symm) h1
      · rw [Bool.true_and]; exact h2
    | constantLike e =>
      obtain ⟨h1, rfl⟩ := h1
      refine (Verif.IR.run_prim_iff (L := dest E relaxed) rfl).2 ⟨[W cur], ⟨W cur, h1, rfl⟩, ?_⟩
      rw [Bool.true_and]; exact h2
    | call d xs n =>
      obtain ⟨sub, hg, hev⟩ := h1
      have hread : readAll (vec W cur) xs = some (xs.map W) := by
        rw [Verif.IR.readAll_eq_some_iff]
        refine ⟨by simp, fun j v hv => ?_⟩
        rw [vec_get (hargs.1 v (List.mem_of_getElem? hv)).2, List.getElem?_map, hv]
        exact ⟨rfl, rfl⟩
      exact (Verif.IR.run_call_iff (L := dest E relaxed) rfl).2 ⟨sub, _, _, b1, b2, hg, hread, hev, h2, rfl⟩

/-- The part of `ProgOk` relaxed circuits have. -/
structure RProgOk (p : Prog F) : Prop where
  args : ArgsOk p.insns (p.numInputs + 1)
  cons : ∀ x ∈ p.cons, 1 ≤ x ∧ x < endOf p.insns (p.numInputs + 1)
  outs : ∀ x ∈ p.outs, 1 ≤ x ∧ x < endOf p.insns (p.numInputs + 1)

theorem checkCons_vec {W : Nat → F} {k : Nat} : ∀ {cs : List (Constraint (dest E relaxed))}, (∀ c ∈ cs, c.var < k) →
    checkCons (vec W k) cs = some ((cs.map (·.var)).all fun x => decide (W x = 0)) := by
  intro cs
  induction cs with
  | nil => intro _; rfl
  | cons c cs ih =>
    intro h
    simp only [checkCons]
    rw [vec_get (h c (by simp)), ih (fun d hd => h d (by simp [hd]))]
    rfl

theorem readAll_vec {W : Nat → F} {k : Nat} {xs : List Nat} (h : ∀ x ∈ xs, x < k) : readAll (vec W k) xs = some (xs.map W) := by
  rw [Verif.IR.readAll_eq_some_iff]
  refine ⟨by simp, fun j v hv => ?_⟩
  rw [vec_get (h v (List.mem_of_getElem? hv)), List.getElem?_map, hv]
  exact ⟨rfl, rfl⟩

/-- The inputs of an assignment. -/
def InputsAre (W : Nat → F) (ins : List F) : Prop := ∀ (i : Nat) (v : F), ins[i]? = some v → W (i + 1) = v

/-- Evaluation of a circuit as an assignment. -/
theorem evalSub_iff {circ : Circuit (dest E relaxed)} (hp : RProgOk (progOf circ)) (hc : CallsOk get circ.instructions) {ins outs : List F} {b : Bool} (hlen : ins.length = circ.numInputs) :
    EvalSub get circ ins outs b ↔ ∃ W sb, InputsAre W ins ∧ HoldsAllB E (subSem get) W circ.instructions (circ.numInputs + 1) sb ∧ outs = circ.outputs.map W ∧
      b = (sb && ((progOf circ).cons.all fun x => decide (W x = 0))) := by
  have hargs := hp.args
  have hcons : ∀ c ∈ circ.constraints, c.var < endOf circ.instructions (circ.numInputs + 1) := fun c hc => (hp.cons c.var (List.mem_map.2 ⟨c, hc, rfl⟩)).2
  have houts : ∀ c ∈ circ.outputs, c < endOf circ.instructions (circ.numInputs + 1) := fun c hc => (hp.outs c hc).2
  constructor
  · rintro ⟨vs, sb, cb, h1, h2, h3, rfl⟩
    have hl : (0 :: ins).length = circ.numInputs + 1 := by simp [hlen]
    obtain ⟨h4, h5⟩ := run_holds (by rw [hl]; exact hargs) hc h1
    rw [hl] at h4
    have hW : ∀ (i : Nat) (v : F), vs[i]? = some v → vs.getD i 0 = v := by
      intro i v h; rw [List.getD_eq_getElem?_getD, h]; rfl
    have h6 := h5 (fun i => vs.getD i 0) hW
    rw [hl] at h6
    have e : vs = vec (fun i => vs.getD i 0) (endOf circ.instructions (circ.numInputs + 1)) := by
      apply List.ext_getElem?
      intro j
      by_cases hj : j < vs.length
      · rw [vec_get (by omega), List.getElem?_eq_getElem hj]
        exact congrArg some (hW j _ (List.getElem?_eq_getElem hj)).symm
      · rw [List.getElem?_eq_none (by omega), List.getElem?_eq_none (by rw [vec_length]; omega)]
    refine ⟨_, sb, ?_, h6, ?_, ?_⟩
    · intro i v hi
      obtain ⟨t, rfl⟩ := Verif.IR.Run.prefix h1
      have hi' := (List.getElem?_eq_some_iff.1 hi).1
      refine hW _ _ ?_
      rw [List.getElem?_append_left (by simp; omega)]
      simpa using hi
    · rw [e, readAll_vec houts] at h3
      exact (Option.some.inj h3).symm
    · rw [e, checkCons_vec hcons] at h2
      rw [← Option.some.inj h2]; rfl
  · rintro ⟨W, sb, h1, h2, h3, rfl⟩
    have hW : ∀ x, 1 ≤ x → W x = (fun x => if x = 0 then 0 else W x) x := by
      intro x hx; simp only; rw [if_neg (by omega)]
    have h2 := h2.congr (W' := fun x => if x = 0 then 0 else W x) hargs (fun v hv _ => hW v hv) (by omega)
    have h4 : Run get circ.instructions (vec (fun x => if x = 0 then 0 else W x) (circ.numInputs + 1)) (vec (fun x => if x = 0 then 0 else W x) (endOf circ.instructions (circ.numInputs + 1))) sb := holds_run hargs hc h2
    have e : vec (fun x => if x = 0 then 0 else W x) (circ.numInputs + 1) = 0 :: ins := by
      apply List.ext_getElem?
      intro j
      by_cases hj : j < circ.numInputs + 1
      · rw [vec_get hj]
        cases j with
        | zero => rfl
        | succ j =>
          rw [List.getElem?_cons_succ, List.getElem?_eq_getElem (by omega)]
          refine congrArg some ?_
          rw [if_neg (by omega)]
          exact h1 j _ (List.getElem?_eq_getElem (by omega))
      · rw [List.getElem?_eq_none (by rw [vec_length]; omega), List.getElem?_eq_none (by simp; omega)]
    rw [e] at h4
    refine ⟨_, sb, _, h4, checkCons_vec hcons, ?_, ?_⟩
    · rw [readAll_vec houts, h3]
      refine congrArg some ?_
      exact map_congr_mem fun x hx => (hW x (hp.outs x hx).1).symm
    · congr 1
      show _ = (progOf circ).cons.all _
      apply Bool.eq_iff_iff.2
      simp only [List.all_eq_true, decide_eq_true_eq]
      refine forall_congr' fun x => ⟨fun h hx => ?_, fun h hx => ?_⟩
      · exact (hW x (hp.cons x hx).1).symm.trans (h hx)
      · exact (hW x (hp.cons x hx).1).trans (h hx)

theorem endOf_defs : ∀ (is : List (Verif.IR.Dest.Insn F)) (cur k : Nat), endOf is cur = cur + (defsOf is k).length := by
  intro is
  induction is with
  | nil => intro cur k; rfl
  | cons a is ih =>
    intro cur k
    cases a with
    | internal e => simp only [endOf, defsOf, nOut, List.length_cons]; rw [ih _ k]; omega
    | constantLike e => simp only [endOf, defsOf, nOut, List.length_cons]; rw [ih _ k]; omega
    | call d xs n => simp only [endOf, defsOf, nOut, List.length_append, List.length_map, List.length_range]; rw [ih _ (k + 1)]; omega

theorem endOf_numVars (is : List (Verif.IR.Dest.Insn F)) (n : Nat) : endOf is (n + 1) = numVars (L := dest E relaxed) n is + 1 := by
  rw [endOf_defs is (n + 1) 0, numVars_defs is n 0]; omega

theorem rprogOk_of {npi : Option Nat} {c : Circuit (dest E relaxed)} (h : CircOk npi c) : RProgOk (progOf c) := by
  have hn : ∀ x, x < endOf (progOf c).insns ((progOf c).numInputs + 1) ↔ x ≤ numVars c.numInputs c.instructions := by
    intro x
    rw [show endOf (progOf c).insns ((progOf c).numInputs + 1) = _ from endOf_numVars (E := E) (relaxed := relaxed) c.instructions c.numInputs]; omega
  refine ⟨argsOk_of _ _ h.insns, ?_, ?_⟩
  · intro x hx
    obtain ⟨k, hk, rfl⟩ := List.mem_map.1 hx
    have := h.cons k hk
    rw [hn]; omega
  · intro x hx
    have := h.outs x hx
    rw [hn]; omega

end Verif.Layering.Split
