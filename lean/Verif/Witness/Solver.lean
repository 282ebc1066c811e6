import Verif.IR.Langs
import Mathlib.Algebra.Ring.Pi
import Mathlib.Data.List.OfFn

/-!
# The witness solver (circuit/ir/hint_normalized/mod.rs:206-645, witness_solver.rs, hints/mod.rs:10-20)

The Rust code has two copies of the evaluator, one on field elements (`eval_safe`) and one on SIMD vectors (`eval_safe_simd`).
The model is one function, parametric in the kind of values; `scalarOps` and `simdOps` are the two instances.
-/

set_option linter.unusedSectionVars false
set_option linter.unusedSimpArgs false

namespace Verif.Witness

open Verif.IR

variable {F : Type} [Field F] [DecidableEq F]

/-- `hints::safe_impl` (hints/mod.rs:10-20): built-in hints are computed, the others are answered by the hint caller.
`none` is an error or a panic. -/
def safeImpl (cn : Canon F) (hc : Nat → List F → Nat → Option (List F)) (id : Nat) (ins : List F) (n : Nat) : Option (List F) :=
  match Hints.Id.fromNat id with
  | some i => Hints.implBuiltin cn i ins n
  | none => hc id ins n

/-- What the evaluator needs of its values: embedding of constants, public inputs, hints. -/
structure Ops (F V : Type) where
  const : F → V
  pub : List V
  hint : Nat → List V → Nat → Option (List V)

/-- One non-call instruction (`Instruction::eval_safe`, mod.rs:206-240; the SIMD loop, mod.rs:561-633).  Random coefficients and
custom gates are errors. -/
def stepSafe {V : Type} [CommRing V] (O : Ops F V) (vs : List V) (i : HintNorm.Insn F) : Option (List V) :=
  match mapOpt (fun v => vs[v]?) i.inputs with
  | none => none
  | some args => match i with
    | .linComb lc => some [O.const lc.const + (List.zipWith (fun t a => a * O.const t.2) lc.terms args).sum]
    | .mul _ => some [args.prod]
    | .hint h _ n => O.hint h args n
    | .constantLike (.const c) => some [O.const c]
    | .constantLike (.pub k) => (O.pub[k]?).map (fun x => [x])
    | .constantLike .random => none
    | .customGate _ _ => none
    | .call _ _ _ => none

/-- `idx.iter().map(|&i| values[i])`. -/
def readV {V : Type} (vs : List V) (is : List Nat) : Option (List V) := mapOpt (fun v => vs[v]?) is

/-- `eval_sub_safe` / `eval_sub_safe_simd` (mod.rs:495-530, 551-640): the values after running the instructions.  `fuel` bounds the
number of steps plus the call depth (the Rust recursion terminates because the call graph is acyclic). -/
def runSafe {V : Type} [CommRing V] {L : Lang F} (view : L.Insn → HintNorm.Insn F) (O : Ops F V) (get : Nat → Option (Circuit L)) :
    Nat → List L.Insn → List V → Option (List V)
  | 0, _, _ => none
  | _ + 1, [], vs => some vs
  | fuel + 1, i :: is, vs =>
    match view i with
    | .call c a _ => match get c, readV vs a with
      | some circ, some args => match runSafe view O get fuel circ.instructions (0 :: args) with
        | some svs => match readV svs circ.outputs with
          | some res => runSafe view O get fuel is (vs ++ res)
          | none => none
        | none => none
      | _, _ => none
    | j => match stepSafe O vs j with
      | some outs => runSafe view O get fuel is (vs ++ outs)
      | none => none

/-- `eval_safe` / `eval_safe_simd` (mod.rs:485-493, 533-549). -/
def evalSafe {V : Type} [CommRing V] {E : Env F} (O : Ops F V) (fuel : Nat) (rc : RootCircuit (hintNorm E)) (ins : List V) :
    Option (List V) :=
  match rc.get 0 with
  | none => none
  | some root =>
    if ins.length = root.numInputs then
      match runSafe (L := hintNorm E) id O rc.get fuel root.instructions (0 :: ins) with
      | none => none
      | some vs => readV vs root.outputs
    else none

/-- The scalar instance. -/
def scalarOps (cn : Canon F) (hc : Nat → List F → Nat → Option (List F)) (pub : List F) : Ops F F := ⟨id, pub, safeImpl cn hc⟩

/-- A SIMD value with `P` lanes. -/
abbrev Simd (P : Nat) (F : Type) := Fin P → F

/-- All lanes' results, or failure (mod.rs:583-590). -/
def allLanes {α : Type} {P : Nat} (f : Fin P → Option α) : Option (List α) := mapOpt f (List.finRange P)

/-- The hint case of the SIMD evaluator (mod.rs:572-597): unpack the arguments, call the hint on every lane, and repack. -/
def simdHint {P : Nat} (h : Nat → List F → Nat → Option (List F)) (id : Nat) (ins : List (Simd P F)) (n : Nat) :
    Option (List (Simd P F)) :=
  match allLanes (fun l : Fin P => h id (ins.map (fun x => x l)) n) with
  | none => none
  | some outs => some ((List.range n).map (fun j l => (((outs[l.val]?).getD [])[j]?).getD 0))

/-- The SIMD instance. -/
def simdOps (P : Nat) (cn : Canon F) (hc : Nat → List F → Nat → Option (List F)) (pub : List (Simd P F)) : Ops F (Simd P F) :=
  ⟨fun c _ => c, pub, simdHint (safeImpl cn hc)⟩

/-- `solve_witness_inner` (witness_solver.rs:16-28): the `assert_eq!`s on the lengths, the evaluation, and the public inputs
appended; also the number of inputs per witness. -/
def solveInner {E : Env F} (cn : Canon F) (hc : Nat → List F → Nat → Option (List F)) (fuel : Nat) (rc : RootCircuit (hintNorm E))
    (vars pub : List F) : Option (List F × Nat) :=
  match rc.get 0 with
  | none => none
  | some root =>
    if vars.length = root.numInputs ∧ pub.length = rc.numPublicInputs then
      match evalSafe (scalarOps cn hc pub) fuel rc vars with
      | none => none
      | some a => some (a ++ pub, a.length)
    else none

/-- Packing one block (witness_solver.rs:61-92): lane `l` of position `k` is the `k`-th value of assignment `i_start + l`, the
last assignment of the block being repeated in the unused lanes. -/
def packRows (P : Nat) (rows : List (List F)) (width : Nat) : List (Simd P F) :=
  (List.range width).map (fun k l => (((rows[min l.val (rows.length - 1)]?).getD [])[k]?).getD 0)

/-- The block loop of `solve_witnesses_from_raw_inputs` (witness_solver.rs:49-101), on the list of all assignments. -/
def solveBlocks {E : Env F} (P : Nat) (cn : Canon F) (hc : Nat → List F → Nat → Option (List F)) (fuel : Nat)
    (rc : RootCircuit (hintNorm E)) (root : Circuit (hintNorm E)) (asg : List (List F × List F)) :
    Nat → Option (List (List (Simd P F) × List (Simd P F)))
  | 0 => some []
  | b + 1 =>
    match solveBlocks P cn hc fuel rc root asg b with
    | none => none
    | some acc =>
      let blk := (asg.drop (b * P)).take P
      if blk.all (fun p => decide (p.1.length = root.numInputs ∧ p.2.length = rc.numPublicInputs)) then
        let pubs := packRows P (blk.map (·.2)) rc.numPublicInputs
        match evalSafe (simdOps P cn hc pubs) fuel rc (packRows P (blk.map (·.1)) root.numInputs) with
        | none => none
        | some r => some (acc ++ [(r, pubs)])
      else none

/-- `solve_witnesses_from_raw_inputs` (witness_solver.rs:46-109): the blocks of SIMD values, each the
evaluation result and the packed public inputs. -/
def solveMany {E : Env F} (P : Nat) (cn : Canon F) (hc : Nat → List F → Nat → Option (List F)) (fuel : Nat)
    (rc : RootCircuit (hintNorm E)) (asg : List (List F × List F)) :
    Option (List (List (Simd P F) × List (Simd P F))) :=
  match rc.get 0 with
  | none => none
  | some root => solveBlocks P cn hc fuel rc root asg ((asg.length + P - 1) / P)

/-! ### Scalar evaluation is evaluation of the IR -/

/-- The environment in which the witness is solved: real public inputs, the hint functions used by the solver. -/
def solverEnv (E : Env F) (hc : Nat → List F → Nat → Option (List F)) (pub : List F) : Prop :=
  (∀ k x, pub[k]? = some x → E.pub k = x) ∧ (∀ id ins n outs, E.hint id ins n outs ↔ safeImpl E.canon hc id ins n = some outs ∧ outs.length = n)

/-- Answers of the hint caller have the requested length (`HintRegistry::call`, hints/registry.rs, allocates the output vector
itself). -/
def HcLen (hc : Nat → List F → Nat → Option (List F)) : Prop := ∀ id ins n outs, hc id ins n = some outs → outs.length = n

/-- The hint of an instruction gets answers of the declared length. -/
def HintLenOf (cn : Canon F) (hc : Nat → List F → Nat → Option (List F)) (i : HintNorm.Insn F) : Prop :=
  ∀ id xs n, i = .hint id xs n → ∀ ins outs, ins.length = xs.length → safeImpl cn hc id ins n = some outs → outs.length = n

/-- Every hint of the list gets answers of the declared length. -/
def HintsLen (cn : Canon F) (hc : Nat → List F → Nat → Option (List F)) (is : List (HintNorm.Insn F)) : Prop :=
  ∀ i ∈ is, HintLenOf cn hc i

theorem readV_readAll (vs : List F) : ∀ is, readV vs is = readAll vs is := by
  intro is
  induction is with
  | nil => rfl
  | cons i is ih =>
    simp only [readV, mapOpt] at *
    rw [ih]; simp only [readAll]
    cases vs[i]? <;> cases readAll vs is <;> rfl

variable {E : Env F} {hc : Nat → List F → Nat → Option (List F)} {pub : List F} {get : Nat → Option (Circuit (hintNorm E))}

theorem stepSafe_sound (hS : solverEnv E hc pub) {vs : List F} {i : HintNorm.Insn F} {outs : List F} (hl : HintLenOf E.canon hc i)
    (h : stepSafe (scalarOps E.canon hc pub) vs i = some outs) : i.asCall = none ∧ (hintNorm E).prim i (fun v => vs[v]?) outs := by
  unfold stepSafe at h
  split at h
  · cases h
  rename_i args ha
  refine ⟨?_, args, ha, ?_⟩ <;> cases i with
  | linComb lc => first | rfl | (simp only [scalarOps, id] at h; cases h; rfl)
  | mul xs => first | rfl | (cases h; rfl)
  | hint id xs n => first | rfl | exact (hS.2 _ _ _ _).2 ⟨h, hl id xs n rfl _ _ (mapOpt_length ha) h⟩
  | constantLike c =>
    first
    | rfl
    | cases c with
      | const c => cases h; exact ⟨c, rfl, rfl⟩
      | random => cases h
      | pub k =>
        simp only [Option.map_eq_some_iff] at h
        obtain ⟨x, hx, rfl⟩ := h
        exact ⟨x, (hS.1 k x hx).symm, rfl⟩
  | customGate g xs => first | rfl | cases h
  | call c xs n => cases h

theorem runSafe_sound (hE : E.HintLen) (hS : solverEnv E hc pub) {npi : Option Nat} (hw : WFGet npi get)
    (hh : ∀ c circ, get c = some circ → HintsLen E.canon hc circ.instructions) :
    ∀ fuel is vs vs', CallsOk get is → HintsLen E.canon hc is → runSafe (L := hintNorm E) id (scalarOps E.canon hc pub) get fuel is vs = some vs' →
      ∃ b, Run get is vs vs' b := by
  intro fuel
  induction fuel with
  | zero => intro is vs vs' _ _ h; simp [runSafe] at h
  | succ fuel ih =>
    intro is vs vs' hco hhl h
    cases is with
    | nil => simp [runSafe] at h; subst h; exact ⟨true, .nil _⟩
    | cons i is =>
      have hco' : CallsOk get is := fun j hj => hco j (by simp [hj])
      have hhl' : HintsLen E.canon hc is := fun j hj => hhl j (by simp [hj])
      simp only [runSafe] at h
      split at h
      · rename_i c a n hv
        have hi : i = .call c a n := hv
        subst hi
        split at h
        · rename_i circ args hg ha
          split at h
          · rename_i svs hs
            split at h
            · rename_i res hr
              rw [readV_readAll] at ha hr
              obtain ⟨circ', hg', hal, _⟩ := hco (.call c a n) (by simp) c a n rfl
              rw [hg] at hg'; cases hg'
              have hcc := hw.calls c circ hg
              obtain ⟨sb, hsb⟩ := ih _ _ _ hcc (hh c circ hg) hs
              obtain ⟨b, hb⟩ := ih _ _ _ hco' hhl' h
              have hargs : args.length = circ.numInputs := by rw [readAll_length ha, hal]
              have hsv := hsb.length (hintNorm_lawful E hE) hcc (circ.numInputs + 1) (by simp [hargs])
              rw [numVars_add] at hsv
              obtain ⟨cb, hcb⟩ := checkCons_isSome (vs := svs) (cs := circ.constraints)
                (fun k hk => by have := (hw.circ c circ hg).cons k hk; omega)
              exact ⟨_, .call rfl hg ha hsb hcb hr hb⟩
            · cases h
          · cases h
        · cases h
      · split at h
        · rename_i outs ho
          obtain ⟨h1, h2⟩ := stepSafe_sound hS (hhl i (by simp)) ho
          obtain ⟨b, hb⟩ := ih _ _ _ hco' hhl' h
          exact ⟨b, .prim h1 h2 hb⟩
        · cases h

/-- The instructions the solver supports. -/
def SafeInsn (npub : Nat) (i : HintNorm.Insn F) : Prop :=
  i ≠ .constantLike .random ∧ (∀ g xs, i ≠ .customGate g xs) ∧ (∀ k, i = .constantLike (.pub k) → k < npub)

theorem stepSafe_complete (hS : solverEnv E hc pub) {vs : List F} {i : HintNorm.Insn F} {outs : List F} (hi : SafeInsn pub.length i)
    (hc' : i.asCall = none) (h : (hintNorm E).prim i (fun v => vs[v]?) outs) : stepSafe (scalarOps E.canon hc pub) vs i = some outs := by
  obtain ⟨args, ha, h⟩ := h
  unfold stepSafe
  rw [ha]
  cases i with
  | linComb lc => simp only [HintNorm.Insn.sem] at h; subst h; rfl
  | mul xs => simp only [HintNorm.Insn.sem] at h; subst h; rfl
  | hint id xs n => exact ((hS.2 _ _ _ _).1 h).1
  | constantLike c =>
    obtain ⟨y, hy, rfl⟩ := h
    cases c with
    | const c => simp only [Coef.Sem] at hy; subst hy; rfl
    | random => exact absurd rfl hi.1
    | pub k =>
      have hk := hi.2.2 k rfl
      have := hS.1 k _ (List.getElem?_eq_getElem hk)
      simp only [Coef.Sem] at hy
      show ((pub)[k]?).map _ = _
      rw [List.getElem?_eq_getElem hk, ← this, hy]; rfl
  | customGate g xs => exact absurd rfl (hi.2.1 g xs)
  | call c xs n => cases hc'

theorem runSafe_mono {V : Type} [CommRing V] (O : Ops F V) : ∀ fuel is vs r,
    runSafe (L := hintNorm E) id O get fuel is vs = some r → ∀ k, runSafe (L := hintNorm E) id O get (fuel + k) is vs = some r := by
  intro fuel
  induction fuel with
  | zero => intro is vs r h; simp [runSafe] at h
  | succ n ih =>
    intro is vs r h k
    have e : n + 1 + k = (n + k) + 1 := by omega
    rw [e]
    cases is with
    | nil => simp only [runSafe] at h ⊢; exact h
    | cons i is =>
      simp only [runSafe] at h ⊢
      split at h
      · rename_i c a m hv
        split at h
        · rename_i circ args hg ha
          split at h
          · rename_i svs hs
            split at h
            · rename_i res hr
              simp only [ih _ _ _ hs k, hr, ih _ _ _ h k]
            · cases h
          · cases h
        · cases h
      · rename_i hv
        split at h
        · rename_i outs ho
          simp only [ih _ _ _ h k]
        · cases h

theorem runSafe_complete (hS : solverEnv E hc pub) (hn : ∀ c circ, get c = some circ → ∀ i ∈ circ.instructions, SafeInsn pub.length i)
    {is vs vs' b} (h : Run get is vs vs' b) : (∀ i ∈ is, SafeInsn pub.length i) →
    ∃ fuel, runSafe (L := hintNorm E) id (scalarOps E.canon hc pub) get fuel is vs = some vs' := by
  induction h with
  | nil vs => intro _; exact ⟨1, rfl⟩
  | prim hc' hp hr ih =>
    intro hi
    obtain ⟨k, hk⟩ := ih (fun i h => hi i (by simp [h]))
    refine ⟨k + 1, ?_⟩
    have := stepSafe_complete hS (hi _ (by simp)) hc' hp
    simp only [runSafe]
    split
    · rename_i c a n hv
      rw [show id _ = _ from rfl] at hv
      subst hv
      cases hc'
    · simp only [id, this]; exact hk
  | call hc' hg ha hs hk ho hr ih1 ih2 =>
    intro hi
    obtain ⟨k1, h1⟩ := ih1 (hn _ _ hg)
    obtain ⟨k2, h2⟩ := ih2 (fun i h => hi i (by simp [h]))
    refine ⟨k1 + k2 + 1, ?_⟩
    have e1 := runSafe_mono _ _ _ _ _ h1 k2
    have e2 := runSafe_mono _ _ _ _ _ h2 k1
    rw [Nat.add_comm k2 k1] at e2
    rename_i i _ _ _ _ _ _ _ _ _ c a n _
    have : i = .call c a n := by
      cases i <;> simp [HintNorm.Insn.asCall] at hc'
      obtain ⟨rfl, rfl, rfl⟩ := hc'; rfl
    subst this
    rw [← readV_readAll] at ha ho
    simp only [runSafe, id, hg, ha, e1, ho, e2]

/-! ### SIMD evaluation is lane-wise scalar evaluation -/

section simd
variable {P : Nat}

/-- Lane `l` of a vector of SIMD values. -/
def lane (l : Fin P) (vs : List (Simd P F)) : List F := vs.map (fun x => x l)

theorem lane_getElem? (l : Fin P) (vs : List (Simd P F)) (v : Nat) : (lane l vs)[v]? = (vs[v]?).map (fun x => x l) := by
  simp [lane]

theorem mapOpt_lane (l : Fin P) (vs : List (Simd P F)) : ∀ is, readV (lane l vs) is = (readV vs is).map (lane l) := by
  intro is
  induction is with
  | nil => rfl
  | cons i is ih =>
    simp only [readV, mapOpt] at *
    rw [ih, lane_getElem?]
    cases vs[i]? with
    | none => rfl
    | some x => cases mapOpt (fun v => vs[v]?) is <;> rfl

theorem sum_lane (l : Fin P) (ts : List (Nat × F)) : ∀ (args : List (Simd P F)),
    ((List.zipWith (fun (t : Nat × F) (a : Simd P F) => a * (fun _ : Fin P => t.2)) ts args : List (Simd P F)).sum : Simd P F) l =
    (List.zipWith (fun t a => a * t.2) ts (lane l args)).sum := by
  induction ts with
  | nil => intro args; simp
  | cons t ts ih =>
    intro args
    cases args with
    | nil => simp [lane]
    | cons a args =>
      have := ih args
      simp only [lane] at this
      simp [lane, this]

theorem prod_lane (l : Fin P) : ∀ (args : List (Simd P F)), (args.prod : Simd P F) l = (lane l args).prod := by
  intro args
  induction args with
  | nil => simp [lane]
  | cons a args ih =>
    simp only [lane] at ih
    simp [lane, ih]

theorem allLanes_some {α : Type} {f : Fin P → Option α} {r : List α} (h : allLanes f = some r) (l : Fin P) : f l = r[l.val]? := by
  have := mapOpt_getElem? h l.val l (by simp)
  exact this

theorem allLanes_none {α : Type} {f : Fin P → Option α} (h : allLanes f = none) : ∃ l, f l = none := by
  by_contra hcon
  push Not at hcon
  obtain ⟨r, hr⟩ := mapOpt_isSome (f := f) (l := List.finRange P) (fun l _ => Option.isSome_iff_ne_none.2 (hcon l))
  rw [allLanes] at h
  rw [h] at hr; cases hr

/-- Lane-wise specification of a vector function. -/
theorem simdHint_spec {h : Nat → List F → Nat → Option (List F)} {id : Nat} {ins : List (Simd P F)} {n : Nat}
    (hh : ∀ l : Fin P, ∀ outs, h id (lane l ins) n = some outs → outs.length = n) :
    (∀ outs, simdHint h id ins n = some outs → ∀ l, h id (lane l ins) n = some (lane l outs)) ∧
    (simdHint h id ins n = none → ∃ l, h id (lane l ins) n = none) := by
  unfold simdHint
  constructor
  · intro outs ho l
    split at ho
    · cases ho
    rename_i os hos
    cases ho
    have h1 := allLanes_some hos l
    have hlt : l.val < os.length := by rw [mapOpt_length hos]; simp
    rw [List.getElem?_eq_getElem hlt] at h1
    show h id (ins.map fun x => x l) n = _
    rw [h1]
    congr 1
    apply List.ext_getElem?
    intro j
    have hl := hh l _ h1
    simp only [lane, List.map_map, List.getElem?_map, Function.comp_def]
    by_cases hj : j < n
    · simp [hj, List.getElem?_eq_getElem hlt, hl]
    · rw [List.getElem?_eq_none (by omega)]
      simp [hj]
  · intro ho
    split at ho
    · rename_i hos; exact allLanes_none hos
    · cases ho

theorem stepSafe_simd {cn : Canon F} {hc : Nat → List F → Nat → Option (List F)} {pubs : List (Simd P F)} (vs : List (Simd P F))
    (i : HintNorm.Insn F) (hl : HintLenOf cn hc i)
    (hP : 0 < P) :
    (∀ outs, stepSafe (simdOps P cn hc pubs) vs i = some outs →
      ∀ l, stepSafe (scalarOps cn hc (lane l pubs)) (lane l vs) i = some (lane l outs)) ∧
    (stepSafe (simdOps P cn hc pubs) vs i = none → ∃ l, stepSafe (scalarOps cn hc (lane l pubs)) (lane l vs) i = none) := by
  have hr := fun l => mapOpt_lane (F := F) (P := P) l vs i.inputs
  simp only [readV] at hr
  unfold stepSafe
  cases ha : mapOpt (fun v => vs[v]?) i.inputs with
  | none =>
    simp only [hr, ha, Option.map_none]
    exact ⟨fun _ h => (by cases h), fun _ => ⟨⟨0, hP⟩, trivial⟩⟩
  | some args =>
    simp only [hr, ha, Option.map_some]
    cases i with
    | linComb lc =>
      simp only [simdOps, scalarOps, id]
      refine ⟨fun outs h l => ?_, fun h => by cases h⟩
      cases h
      simp only [lane, List.map_cons, List.map_nil, Pi.add_apply]
      have := sum_lane l lc.terms args
      simp only [lane] at this
      rw [this]
    | mul xs =>
      refine ⟨fun outs h l => ?_, fun h => by cases h⟩
      cases h
      have := prod_lane l args
      simp only [lane, List.map_cons, List.map_nil] at this ⊢
      rw [this]
    | hint id xs n => exact simdHint_spec (fun l outs => hl id xs n rfl _ outs (by have := mapOpt_length ha; simpa [lane, HintNorm.Insn.inputs] using this))
    | constantLike c =>
      cases c with
      | const c =>
        refine ⟨fun outs h l => ?_, fun h => by cases h⟩
        cases h; rfl
      | random => exact ⟨fun _ h => (by cases h), fun _ => ⟨⟨0, hP⟩, rfl⟩⟩
      | pub k =>
        simp only [simdOps, scalarOps, lane_getElem?]
        cases hk : pubs[k]? with
        | none => exact ⟨fun _ h => (by cases h), fun _ => ⟨⟨0, hP⟩, rfl⟩⟩
        | some x =>
          refine ⟨fun outs h l => ?_, fun h => by cases h⟩
          cases h; rfl
    | customGate g xs => exact ⟨fun _ h => (by cases h), fun _ => ⟨⟨0, hP⟩, rfl⟩⟩
    | call c xs n => exact ⟨fun _ h => (by cases h), fun _ => ⟨⟨0, hP⟩, rfl⟩⟩

theorem runSafe_simd {cn : Canon F} {hc : Nat → List F → Nat → Option (List F)} {pubs : List (Simd P F)} (hP : 0 < P)
    (hg' : ∀ c circ, get c = some circ → HintsLen cn hc circ.instructions) : ∀ fuel is vs, HintsLen cn hc is →
    (∀ r, runSafe (L := hintNorm E) id (simdOps P cn hc pubs) get fuel is vs = some r →
      ∀ l, runSafe (L := hintNorm E) id (scalarOps cn hc (lane l pubs)) get fuel is (lane l vs) = some (lane l r)) ∧
    (runSafe (L := hintNorm E) id (simdOps P cn hc pubs) get fuel is vs = none →
      ∃ l, runSafe (L := hintNorm E) id (scalarOps cn hc (lane l pubs)) get fuel is (lane l vs) = none) := by
  intro fuel
  induction fuel with
  | zero => intro is vs _; exact ⟨fun _ h => (by simp [runSafe] at h), fun _ => ⟨⟨0, hP⟩, rfl⟩⟩
  | succ fuel ih =>
    intro is vs hl
    cases is with
    | nil => exact ⟨fun r h l => by simp only [runSafe] at h ⊢; cases h; rfl, fun h => by cases h⟩
    | cons i is =>
      have hl' : HintsLen cn hc is := fun j hj => hl j (by simp [hj])
      have happ : ∀ l (a b : List (Simd P F)), lane l (a ++ b) = lane l a ++ lane l b := by intro l a b; simp [lane]
      simp only [runSafe]
      split
      · rename_i c a n hv
        simp only [mapOpt_lane]
        cases hg : get c with
        | none => exact ⟨fun _ h => (by cases h), fun _ => ⟨⟨0, hP⟩, rfl⟩⟩
        | some circ =>
          cases ha : readV vs a with
          | none => exact ⟨fun _ h => (by cases h), fun _ => ⟨⟨0, hP⟩, rfl⟩⟩
          | some args =>
            simp only [Option.map_some]
            obtain ⟨i1, i2⟩ := ih circ.instructions (0 :: args) (hg' c circ hg)
            cases hs : runSafe (L := hintNorm E) id (simdOps P cn hc pubs) get fuel circ.instructions (0 :: args) with
            | none =>
              obtain ⟨l, h2⟩ := i2 hs
              refine ⟨fun _ h => (by cases h), fun _ => ⟨l, ?_⟩⟩
              have : lane l (0 :: args) = 0 :: lane l args := rfl
              rw [this] at h2; simp only [h2]
            | some svs =>
              have h2 : ∀ l, runSafe (L := hintNorm E) id (scalarOps cn hc (lane l pubs)) get fuel circ.instructions (0 :: lane l args) = some (lane l svs) :=
                fun l => i1 svs hs l
              simp only [h2, mapOpt_lane]
              cases hr : readV svs circ.outputs with
              | none => exact ⟨fun _ h => (by cases h), fun _ => ⟨⟨0, hP⟩, rfl⟩⟩
              | some res =>
                simp only [Option.map_some, ← happ]
                exact ih is (vs ++ res) hl'
      · obtain ⟨s1, s2⟩ := stepSafe_simd (pubs := pubs) (cn := cn) (hc := hc) vs (id i) (hl i (by simp)) hP
        cases hs : stepSafe (simdOps P cn hc pubs) vs (id i) with
        | none =>
          obtain ⟨l, h2⟩ := s2 hs
          exact ⟨fun _ h => (by cases h), fun _ => ⟨l, by simp only [h2]⟩⟩
        | some outs =>
          simp only [fun l => s1 outs hs l, ← happ]
          exact ih is (vs ++ outs) hl'

theorem evalSafe_simd {cn : Canon F} {hc : Nat → List F → Nat → Option (List F)} {pubs : List (Simd P F)} (hP : 0 < P)
    (rc : RootCircuit (hintNorm E)) (hg' : ∀ c circ, rc.get c = some circ → HintsLen cn hc circ.instructions) (fuel : Nat) (ins : List (Simd P F)) :
    (∀ r, evalSafe (simdOps P cn hc pubs) fuel rc ins = some r →
      ∀ l, evalSafe (scalarOps cn hc (lane l pubs)) fuel rc (lane l ins) = some (lane l r)) ∧
    (evalSafe (simdOps P cn hc pubs) fuel rc ins = none →
      ∃ l, evalSafe (scalarOps cn hc (lane l pubs)) fuel rc (lane l ins) = none) := by
  unfold evalSafe
  cases hg : rc.get 0 with
  | none => exact ⟨fun _ h => (by cases h), fun _ => ⟨⟨0, hP⟩, rfl⟩⟩
  | some root =>
    simp only
    have hlen : ∀ l, (lane l ins).length = ins.length := fun l => by simp [lane]
    simp only [hlen]
    split
    · obtain ⟨i1, i2⟩ := runSafe_simd (pubs := pubs) (cn := cn) (hc := hc) hP hg' fuel root.instructions (0 :: ins) (hg' 0 root hg)
      cases hs : runSafe (L := hintNorm E) id (simdOps P cn hc pubs) rc.get fuel root.instructions (0 :: ins) with
      | none =>
        obtain ⟨l, h2⟩ := i2 hs
        refine ⟨fun _ h => (by cases h), fun _ => ⟨l, ?_⟩⟩
        have : lane l (0 :: ins) = 0 :: lane l ins := rfl
        rw [this] at h2; simp only [h2]
      | some vs =>
        have h2 : ∀ l, runSafe (L := hintNorm E) id (scalarOps cn hc (lane l pubs)) rc.get fuel root.instructions (0 :: lane l ins) = some (lane l vs) :=
          fun l => i1 vs hs l
        simp only [h2, mapOpt_lane]
        refine ⟨fun r h l => by rw [h]; rfl, fun h => ⟨⟨0, hP⟩, by rw [h]; rfl⟩⟩
    · exact ⟨fun _ h => (by cases h), fun _ => ⟨⟨0, hP⟩, rfl⟩⟩

end simd

end Verif.Witness
