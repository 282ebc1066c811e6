import Mathlib.Algebra.Field.Basic

/-!
# Generic intermediate representation

Model of `expander_compiler/src/circuit/ir/common/mod.rs`.  The Rust code is generic over an `IrConfig`
(instruction type, constraint type, flags); so is the model (`Lang`).  The four concrete languages
(source, hint-normalised, hint-less, dest) are instances, see the other files of this directory.
-/

namespace Verif.IR

/-- `trait IrConfig` / `trait Instruction` / `trait ConstraintType` (common/mod.rs:25-62).
`prim` is the behaviour of a non-call instruction: `prim i val outs` says that evaluating `i` when variable `v` has
value `val v` (`none` = variable not defined, an index panic in Rust) may produce the values `outs`.
It is a relation so that randomness and adversarial hints can be expressed; errors are "no outcome".
The sub-circuit call case of `eval_unsafe` is handled by `asCall`. -/
structure Lang (F : Type) where
  Insn : Type
  Con : Type
  inputs : Insn → List Nat
  numOutputs : Insn → Nat
  asCall : Insn → Option (Nat × List Nat × Nat)
  mkCall : Nat → List Nat → Nat → Insn
  replaceVars : Insn → (Nat → Nat) → Insn
  fromKxPlusB : Nat → F → F → Insn
  validInsn : Nat → Insn → Bool
  prim : Insn → (Nat → Option F) → List F → Prop
  verify : Con → F → Bool
  allowDupInputs : Bool
  allowDupConstraints : Bool
  allowDupOutputs : Bool

/-- The laws every implementation of `trait Instruction` satisfies (proved for each instance). -/
structure Lang.Lawful {F : Type} [Field F] (L : Lang F) : Prop where
  call_inputs : ∀ i c a n, L.asCall i = some (c, a, n) → L.inputs i = a
  call_numOutputs : ∀ i c a n, L.asCall i = some (c, a, n) → L.numOutputs i = n
  asCall_mkCall : ∀ c a n, L.asCall (L.mkCall c a n) = some (c, a, n)
  asCall_replace : ∀ i f, L.asCall (L.replaceVars i f) = (L.asCall i).map (fun t => (t.1, t.2.1.map f, t.2.2))
  inputs_replace : ∀ i f, L.inputs (L.replaceVars i f) = (L.inputs i).map f
  numOutputs_replace : ∀ i f, L.numOutputs (L.replaceVars i f) = L.numOutputs i
  prim_replace : ∀ i f val outs, L.asCall i = none →
    (L.prim (L.replaceVars i f) val outs ↔ L.prim i (fun v => val (f v)) outs)
  prim_local : ∀ i val val' outs, L.asCall i = none → (∀ v ∈ L.inputs i, val v = val' v) →
    L.prim i val outs → L.prim i val' outs
  prim_length : ∀ i val outs, L.asCall i = none → L.prim i val outs → outs.length = L.numOutputs i
  asCall_kx : ∀ x k b, L.asCall (L.fromKxPlusB x k b) = none
  inputs_kx : ∀ x k b, x ≠ 0 → k ≠ 0 → L.inputs (L.fromKxPlusB x k b) = [x]
  numOutputs_kx : ∀ x k b, L.numOutputs (L.fromKxPlusB x k b) = 1
  valid_replace : ∀ npi i f, L.validInsn npi (L.replaceVars i f) = L.validInsn npi i
  valid_call : ∀ npi c a n, L.validInsn npi (L.mkCall c a n) = true
  valid_kx : ∀ npi x k b, L.validInsn npi (L.fromKxPlusB x k b) = true
  prim_kx : ∀ x k b val outs, x ≠ 0 → k ≠ 0 → (L.prim (L.fromKxPlusB x k b) val outs ↔
    ∃ y, val x = some y ∧ outs = [k * y + b])

/-- `struct Constraint`: a variable and a constraint type (common/mod.rs:52-58). -/
structure Constraint {F : Type} (L : Lang F) where
  typ : L.Con
  var : Nat

/-- `Constraint::replace_var` (common/mod.rs:56, 73-75). -/
def Constraint.replaceVar {F : Type} {L : Lang F} (c : Constraint L) (f : Nat → Nat) : Constraint L :=
  { c with var := f c.var }

/-- `struct Circuit` (common/mod.rs:88-93). -/
structure Circuit {F : Type} (L : Lang F) where
  instructions : List L.Insn
  constraints : List (Constraint L)
  outputs : List Nat
  numInputs : Nat

/-- `struct RootCircuit` (common/mod.rs:96-100).  `circuits` is the `HashMap<usize, Circuit>`, an association list. -/
structure RootCircuit {F : Type} (L : Lang F) where
  numPublicInputs : Nat
  expectedNumOutputZeroes : Nat
  circuits : List (Nat × Circuit L)

/-- HashMap lookup. -/
def RootCircuit.get {F : Type} {L : Lang F} (rc : RootCircuit L) (c : Nat) : Option (Circuit L) :=
  rc.circuits.lookup c

variable {F : Type}

/-- `idx.iter().map(|&i| values[i])`, `none` when an index is out of range (Rust panics). -/
def readAll (vs : List F) : List Nat → Option (List F)
  | [] => some []
  | i :: is => match vs[i]?, readAll vs is with
    | some x, some xs => some (x :: xs)
    | _, _ => none

variable {L : Lang F}

/-- `for c in constraints { cond &= c.typ().verify(&values[c.var()]) }` (common/mod.rs:334-336). -/
def checkCons (vs : List F) : List (Constraint L) → Option Bool
  | [] => some true
  | c :: cs => match vs[c.var]?, checkCons vs cs with
    | some x, some b => some (L.verify c.typ x && b)
    | _, _ => none

/-- `get_num_variables` (common/mod.rs:169-175), from a given starting count. -/
def numVars (n : Nat) (is : List L.Insn) : Nat := is.foldl (fun m i => m + L.numOutputs i) n

/-- `eval_unsafe_sub` (common/mod.rs:305-342) as a big-step relation.
`Run get is vs vs' b`: executing the instructions `is` on the value vector `vs` (index 0 is the dummy zero) can end with
the value vector `vs'`; `b` is the conjunction of all constraint verdicts of the sub-circuits called. -/
inductive Run (get : Nat → Option (Circuit L)) [Zero F] : List L.Insn → List F → List F → Bool → Prop
  | nil (vs : List F) : Run get [] vs vs true
  | prim {i : L.Insn} {is : List L.Insn} {vs outs vs' : List F} {b : Bool}
      (hc : L.asCall i = none) (hp : L.prim i (fun v => vs[v]?) outs)
      (hr : Run get is (vs ++ outs) vs' b) : Run get (i :: is) vs vs' b
  | call {i : L.Insn} {is : List L.Insn} {vs args svs res vs' : List F} {b sb cb : Bool}
      {c : Nat} {a : List Nat} {n : Nat} {circ : Circuit L}
      (hc : L.asCall i = some (c, a, n)) (hg : get c = some circ)
      (ha : readAll vs a = some args)
      (hs : Run get circ.instructions (0 :: args) svs sb)
      (hk : checkCons svs circ.constraints = some cb)
      (ho : readAll svs circ.outputs = some res)
      (hr : Run get is (vs ++ res) vs' b) : Run get (i :: is) vs vs' ((sb && cb) && b)

/-- One circuit on given inputs: outputs and verdict (common/mod.rs:305-342). -/
def EvalSub [Zero F] (get : Nat → Option (Circuit L)) (circ : Circuit L) (ins outs : List F) (b : Bool) : Prop :=
  ∃ vs sb cb, Run get circ.instructions (0 :: ins) vs sb ∧ checkCons vs circ.constraints = some cb ∧
    readAll vs circ.outputs = some outs ∧ b = (sb && cb)

/-- `eval_unsafe_with_errors` (common/mod.rs:285-296): length check, root circuit 0, leading outputs must be zero. -/
def Eval [Zero F] [DecidableEq F] (rc : RootCircuit L) (ins outs : List F) (b : Bool) : Prop :=
  ∃ root all b0, rc.get 0 = some root ∧ ins.length = root.numInputs ∧
    EvalSub rc.get root ins all b0 ∧ rc.expectedNumOutputZeroes ≤ all.length ∧
    outs = all.drop rc.expectedNumOutputZeroes ∧
    b = (b0 && (all.take rc.expectedNumOutputZeroes).all (fun x => decide (x = 0)))

/-! ### Executable evaluator (for languages whose instructions are functions) -/

/-- A functional presentation of `prim`. -/
structure Lang.Fn (L : Lang F) where
  fn : L.Insn → (Nat → Option F) → Option (List F)
  spec : ∀ i val outs, L.prim i val outs ↔ fn i val = some outs

/-- `eval_unsafe_sub`, executable; `fuel` bounds the number of instruction steps plus the nesting depth. -/
def runFn [Zero F] (P : L.Fn) (get : Nat → Option (Circuit L)) : Nat → List L.Insn → List F → Option (List F × Bool)
  | 0, _, _ => none
  | _ + 1, [], vs => some (vs, true)
  | fuel + 1, i :: is, vs =>
    match L.asCall i with
    | none => match P.fn i (fun v => vs[v]?) with
      | some outs => runFn P get fuel is (vs ++ outs)
      | none => none
    | some (c, a, _) => match get c, readAll vs a with
      | some circ, some args => match runFn P get fuel circ.instructions (0 :: args) with
        | some (svs, sb) => match checkCons svs circ.constraints, readAll svs circ.outputs with
          | some cb, some res => match runFn P get fuel is (vs ++ res) with
            | some (vs', b) => some (vs', (sb && cb) && b)
            | none => none
          | _, _ => none
        | none => none
      | _, _ => none

theorem runFn_sound [Zero F] (P : L.Fn) (get : Nat → Option (Circuit L)) :
    ∀ fuel is vs vs' b, runFn P get fuel is vs = some (vs', b) → Run get is vs vs' b := by
  intro fuel
  induction fuel with
  | zero => intro is vs vs' b h; simp [runFn] at h
  | succ n ih =>
    intro is vs vs' b h
    cases is with
    | nil => simp [runFn] at h; obtain ⟨h1, h2⟩ := h; subst h1; subst h2; exact Run.nil vs
    | cons i is =>
      simp only [runFn] at h
      split at h
      · rename_i hc
        split at h
        · rename_i outs ho
          exact Run.prim hc ((P.spec _ _ _).2 ho) (ih _ _ _ _ h)
        · cases h
      · rename_i c a m hc
        split at h
        · rename_i circ args hg ha
          split at h
          · rename_i svs sb hs
            split at h
            · rename_i cb res hk ho
              split at h
              · rename_i v2 b2 hr
                simp only [Option.some.injEq, Prod.mk.injEq] at h
                obtain ⟨h1, h2⟩ := h
                subst h1; subst h2
                exact Run.call hc hg ha (ih _ _ _ _ hs) hk ho (ih _ _ _ _ hr)
              · cases h
            · cases h
          · cases h
        · cases h

theorem runFn_mono [Zero F] (P : L.Fn) (get : Nat → Option (Circuit L)) :
    ∀ fuel is vs r, runFn P get fuel is vs = some r → ∀ k, runFn P get (fuel + k) is vs = some r := by
  intro fuel
  induction fuel with
  | zero => intro is vs r h; simp [runFn] at h
  | succ n ih =>
    intro is vs r h k
    have e : n + 1 + k = (n + k) + 1 := by omega
    rw [e]
    cases is with
    | nil =>
      simp only [runFn] at h ⊢; exact h
    | cons i is =>
      simp only [runFn] at h ⊢
      split at h
      · rename_i hc
        split at h
        · rename_i outs ho
          exact ih _ _ _ h k
        · cases h
      · rename_i c a m hc
        split at h
        · rename_i circ args hg ha
          split at h
          · rename_i svs sb hs
            split at h
            · rename_i cb res hk ho
              split at h
              · rename_i v2 b2 hr
                simp only [ih _ _ _ hs k, hk, ho, ih _ _ _ hr k]; exact h
              · cases h
            · cases h
          · cases h
        · cases h

theorem runFn_complete [Zero F] (P : L.Fn) (get : Nat → Option (Circuit L)) {is vs vs' b}
    (h : Run get is vs vs' b) : ∃ fuel, runFn P get fuel is vs = some (vs', b) := by
  induction h with
  | nil vs => exact ⟨1, by simp [runFn]⟩
  | prim hc hp hr ih =>
    obtain ⟨k, hk⟩ := ih
    exact ⟨k + 1, by simp only [runFn, hc, (P.spec _ _ _).1 hp]; exact hk⟩
  | call hc hg ha hs hk ho hr ih1 ih2 =>
    obtain ⟨k1, h1⟩ := ih1
    obtain ⟨k2, h2⟩ := ih2
    refine ⟨k1 + k2 + 1, ?_⟩
    have e1 := runFn_mono P get _ _ _ _ h1 k2
    have e2 := runFn_mono P get _ _ _ _ h2 k1
    rw [Nat.add_comm k2 k1] at e2
    simp only [runFn, hc, hg, ha, e1, hk, ho, e2]

/-- `eval_unsafe_with_errors`, executable. -/
def evalFn [Zero F] [DecidableEq F] (P : L.Fn) (fuel : Nat) (rc : RootCircuit L) (ins : List F) :
    Option (List F × Bool) :=
  match rc.get 0 with
  | none => none
  | some root =>
    if ins.length = root.numInputs then
      match runFn P rc.get fuel root.instructions (0 :: ins) with
      | none => none
      | some (vs, sb) => match checkCons vs root.constraints, readAll vs root.outputs with
        | some cb, some all =>
          if rc.expectedNumOutputZeroes ≤ all.length then
            some (all.drop rc.expectedNumOutputZeroes,
              (sb && cb) && (all.take rc.expectedNumOutputZeroes).all (fun x => decide (x = 0)))
          else none
        | _, _ => none
    else none

/-- The relation and the executable evaluator agree. -/
theorem eval_iff_evalFn [Zero F] [DecidableEq F] (P : L.Fn) (rc : RootCircuit L) (ins outs : List F) (b : Bool) :
    Eval rc ins outs b ↔ ∃ fuel, evalFn P fuel rc ins = some (outs, b) := by
  constructor
  · rintro ⟨root, all, b0, hg, hl, ⟨vs, sb, cb, hr, hk, ho, rfl⟩, hz, rfl, rfl⟩
    obtain ⟨fuel, hf⟩ := runFn_complete P rc.get hr
    exact ⟨fuel, by simp only [evalFn, hg, hl, if_true, hf, hk, ho, hz]⟩
  · rintro ⟨fuel, h⟩
    simp only [evalFn] at h
    split at h
    · cases h
    rename_i root hg
    split at h
    swap
    · cases h
    rename_i hl
    split at h
    · cases h
    rename_i vs sb hr
    split at h
    swap
    · cases h
    rename_i cb all hk ho
    split at h
    swap
    · cases h
    rename_i hz
    simp only [Option.some.injEq, Prod.mk.injEq] at h
    obtain ⟨rfl, rfl⟩ := h
    exact ⟨root, all, _, hg, hl, ⟨vs, sb, cb, runFn_sound P rc.get _ _ _ _ _ hr, hk, ho, rfl⟩, hz, rfl, rfl⟩

end Verif.IR
