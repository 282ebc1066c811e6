import Verif.IR.Langs
import Verif.IR.Family
import Mathlib.Tactic.Ring
import Mathlib.Data.List.Perm.Basic

/-!
# `detect_chains` (circuit/ir/source/chains.rs)
-/

set_option linter.unusedSectionVars false
set_option linter.unusedSimpArgs false

namespace Verif.IR.Chains

open Source (Insn)

variable {F : Type} [Field F] [DecidableEq F]

/-- The source language with `q` as the meaning of its instructions and `vd` as their check in validation:
`source E` is `srcL (Insn.sem E) Insn.valid`. -/
@[reducible] def srcL (q : Insn F → List F → List F → Prop) (vd : Nat → Insn F → Bool) : Lang F where
  Insn := Insn F
  Con := Source.Con
  inputs := Insn.inputs
  numOutputs := Insn.numOutputs
  asCall := Insn.asCall
  mkCall := Insn.call
  replaceVars := Insn.replaceVars
  fromKxPlusB := fun x k b => .linComb (LinComb.fromKxPlusB x k b)
  validInsn := vd
  prim := readPrim Insn.inputs q
  verify := Source.Con.verify
  allowDupInputs := true
  allowDupConstraints := true
  allowDupOutputs := true

/-- What the pass needs to know about the meaning of the instructions. -/
structure QOk (q : Insn F → List F → List F → Prop) (vd : Nat → Insn F → Bool) : Prop where
  lawful : (srcL q vd).Lawful
  lin : ∀ lc args outs, q (.linComb lc) args outs ↔ outs = [LinComb.evalArgs lc args]
  mul : ∀ xs args outs, q (.mul xs) args outs ↔ outs = [args.prod]

theorem qok_source {E : Env F} (hE : E.HintLen) : QOk (Insn.sem E) Insn.valid :=
  ⟨source_lawful E hE, fun _ _ _ => Iff.rfl, fun _ _ _ => Iff.rfl⟩

/-- `var_insn_id` of the variables defined by the instructions, which start at index `k` (chains.rs:17-19). -/
def idsFrom : Nat → List (Insn F) → List Nat
  | _, [] => []
  | k, i :: is => List.replicate i.numOutputs k ++ idsFrom (k + 1) is

/-- `var_insn_id` (chains.rs:9, 17-19); the dummy and the inputs belong to instruction number `instructions.len()`. -/
def ids (numInputs : Nat) (is : List (Insn F)) : List Nat := List.replicate (numInputs + 1) is.length ++ idsFrom 0 is

/-- All variable references of a circuit with instruction list `is`. -/
def occ (is : List (Insn F)) (outs cons : List Nat) : List Nat := is.flatMap Insn.inputs ++ (outs ++ cons)

/-- `insn_ref_count[j]` (chains.rs:12-16, 29-35). -/
def refCount (idl : List Nat) (os : List Nat) (j : Nat) : Nat := os.countP (fun v => idl[v]? == some j)

/-- `is_add` / `is_mul` (chains.rs:20-27). -/
def isAdd (is : List (Insn F)) (j : Nat) : Bool := match is[j]? with
  | some (.linComb _) => true
  | _ => false

def isMul (is : List (Insn F)) (j : Nat) : Bool := match is[j]? with
  | some (.mul _) => true
  | _ => false

/-- The pre-computed tables: instruction of a variable, and whether that instruction may be absorbed (it is of the right kind
and referenced exactly once). -/
structure Info where
  id : Nat → Nat
  once : Nat → Bool
  add : Nat → Bool
  mul : Nat → Bool

/-- The tables (chains.rs:9-35). -/
def info (numInputs : Nat) (is : List (Insn F)) (outs cons : List Nat) : Info where
  id := fun v => ((ids numInputs is)[v]?).getD 0
  once := fun j => refCount (ids numInputs is) (occ is outs cons) j == 1
  add := isAdd is
  mul := isMul is

/-- The merge loop `if terms.len() < cur_terms.len() { swap }; terms.append(cur_terms)` (chains.rs:85-91, 131-137). -/
def mergeLists {α : Type} (terms : List α) : List (List α) → List α
  | [] => terms
  | cur :: rest => mergeLists (if terms.length < cur.length then cur ++ terms else terms ++ cur) rest

/-- The loop over the terms of a linear combination (chains.rs:56-84). -/
def absorbAdd (I : Info) : List (Nat × F) → List (Insn F) × List (List (Nat × F)) × List (Nat × F) × F →
    List (Insn F) × List (List (Nat × F)) × List (Nat × F) × F
  | [], st => st
  | x :: xs, (is, lcs, rem, c) =>
    if I.add (I.id x.1) && I.once (I.id x.1) then
      match is[I.id x.1]? with
      | some (.linComb xl) =>
        absorbAdd I xs (is.set (I.id x.1) (.linComb ⟨[], xl.const⟩),
          lcs ++ [if x.2 = 1 then xl.terms else xl.terms.map (fun y => (y.1, x.2 * y.2))], rem,
          if xl.const = 0 then c else c + xl.const * x.2)
      | _ => absorbAdd I xs (is, lcs, rem, c)
    else absorbAdd I xs (is, lcs, rem ++ [x], c)

/-- One iteration of the first outer loop (chains.rs:36-94). -/
def stepAdd (I : Info) (is : List (Insn F)) (i : Nat) : List (Insn F) :=
  if I.add i then
    match is[i]? with
    | some (.linComb lc) =>
      if lc.terms.any (fun x => I.once (I.id x.1)) then
        let r := absorbAdd I lc.terms (is, [], [], lc.const)
        r.1.set i (.linComb ⟨mergeLists r.2.2.1 r.2.1, r.2.2.2⟩)
      else is
    | _ => is
  else is

/-- The loop over the factors of a product (chains.rs:115-130). -/
def absorbMul (I : Info) : List Nat → List (Insn F) × List (List Nat) × List Nat → List (Insn F) × List (List Nat) × List Nat
  | [], st => st
  | x :: xs, (is, vecs, rem) =>
    if I.mul (I.id x) && I.once (I.id x) then
      match is[I.id x]? with
      | some (.mul ys) => absorbMul I xs (is.set (I.id x) (.mul []), vecs ++ [ys], rem)
      | _ => absorbMul I xs (is, vecs, rem)
    else absorbMul I xs (is, vecs, rem ++ [x])

/-- One iteration of the second outer loop (chains.rs:95-139). -/
def stepMul (I : Info) (is : List (Insn F)) (i : Nat) : List (Insn F) :=
  if I.mul i then
    match is[i]? with
    | some (.mul vars) =>
      if vars.any (fun x => I.once (I.id x)) then
        let r := absorbMul I vars (is, [], [])
        r.1.set i (.mul (mergeLists r.2.2 r.2.1))
      else is
    | _ => is
  else is

/-- `Circuit::detect_chains` (chains.rs:8-140). -/
def detectCircuit {q : Insn F → List F → List F → Prop} {vd : Nat → Insn F → Bool} (c : Circuit (srcL q vd)) : Circuit (srcL q vd) :=
  let I := info c.numInputs c.instructions c.outputs (c.constraints.map (·.var))
  ⟨(List.range c.instructions.length).foldl (stepMul I) ((List.range c.instructions.length).foldl (stepAdd I) c.instructions),
    c.constraints, c.outputs, c.numInputs⟩

/-- `RootCircuit::detect_chains` (chains.rs:143-149). -/
def detectChains {q : Insn F → List F → List F → Prop} {vd : Nat → Insn F → Bool} (rc : RootCircuit (srcL q vd)) : RootCircuit (srcL q vd) :=
  { rc with circuits := rc.circuits.map (fun p => (p.1, detectCircuit p.2)) }

/-! ### Positions of variables -/

theorem idsFrom_get : ∀ (is : List (Insn F)) (k p j : Nat), (idsFrom k is)[p]? = some j →
    k ≤ j ∧ ∃ i, is[j - k]? = some i ∧ ((is.take (j - k)).map Insn.numOutputs).sum ≤ p ∧
      p < ((is.take (j - k)).map Insn.numOutputs).sum + i.numOutputs := by
  intro is
  induction is with
  | nil => intro k p j h; simp [idsFrom] at h
  | cons i is ih =>
    intro k p j h
    simp only [idsFrom] at h
    by_cases hp : p < i.numOutputs
    · rw [List.getElem?_append_left (by simpa using hp)] at h
      have : j = k := by
        have h2 : (List.replicate i.numOutputs k)[p]? = some k := by simp [hp]
        rw [h2] at h; exact (Option.some.inj h).symm
      subst this
      exact ⟨le_refl _, i, by simp, by simp, by simpa using hp⟩
    · rw [List.getElem?_append_right (by simp; omega)] at h
      obtain ⟨h1, i', h2, h3, h4⟩ := ih _ _ _ h
      have e : j - k = (j - (k + 1)) + 1 := by omega
      refine ⟨by omega, i', by rw [e]; simpa using h2, ?_, ?_⟩
      · rw [e]; simp only [List.take_succ_cons, List.map_cons, List.sum_cons]
        rw [List.length_replicate] at h3; omega
      · rw [e]; simp only [List.take_succ_cons, List.map_cons, List.sum_cons]
        rw [List.length_replicate] at h4; omega

theorem numVars_eq_sum {q : Insn F → List F → List F → Prop} {vd : Nat → Insn F → Bool} (n : Nat) (is : List (Insn F)) :
    numVars (L := srcL q vd) n is = n + (is.map Insn.numOutputs).sum := by
  induction is generalizing n with
  | nil => simp [numVars]
  | cons i is ih =>
    have h := numVars_cons (L := srcL q vd) n i is
    rw [h, ih]; simp only [List.map_cons, List.sum_cons, source]; omega

/-- A variable whose defining instruction is number `j` (with one output) sits right after the outputs of the instructions before. -/
theorem id_position {n : Nat} {is : List (Insn F)} {x j : Nat} (h : (ids n is)[x]? = some j) (hj : j < is.length) :
    ∃ i, is[j]? = some i ∧ n + 1 + ((is.take j).map Insn.numOutputs).sum ≤ x ∧
      x < n + 1 + ((is.take j).map Insn.numOutputs).sum + i.numOutputs := by
  unfold ids at h
  by_cases hx : x < n + 1
  · rw [List.getElem?_append_left (by simpa using hx)] at h
    have h2 : (List.replicate (n + 1) is.length)[x]? = some is.length := by simp [hx]
    rw [h2] at h
    have := Option.some.inj h; omega
  · rw [List.getElem?_append_right (by simp; omega)] at h
    obtain ⟨_, i, h2, h3, h4⟩ := idsFrom_get _ _ _ _ h
    rw [List.length_replicate, Nat.sub_zero] at h3 h4
    rw [Nat.sub_zero] at h2
    exact ⟨i, h2, by omega, by omega⟩

theorem ids_length (n : Nat) (is : List (Insn F)) : (ids n is).length = n + 1 + (is.map Insn.numOutputs).sum := by
  have : ∀ (is : List (Insn F)) k, (idsFrom k is).length = (is.map Insn.numOutputs).sum := by
    intro is
    induction is with
    | nil => intro k; rfl
    | cons i is ih => intro k; simp [idsFrom, ih]
  simp [ids, this]

/-! ### Arithmetic instructions are functions of their operands -/

/-- Value of a linear combination or product under a total valuation. -/
def detVal (a : Nat → F) : Insn F → F
  | .linComb lc => lc.const + (lc.terms.map (fun t => a t.1 * t.2)).sum
  | .mul xs => (xs.map a).prod
  | _ => 0

/-- Linear combinations and products. -/
def Det : Insn F → Prop
  | .linComb _ => True
  | .mul _ => True
  | _ => False

theorem det_prim {q : Insn F → List F → List F → Prop} {vd : Nat → Insn F → Bool} (hE : QOk q vd) {i : Insn F} (hd : Det i) {val : Nat → Option F} (hv : ∀ v ∈ i.inputs, (val v).isSome) (outs : List F) :
    (srcL q vd).prim i val outs ↔ outs = [detVal (fun v => (val v).getD 0) i] := by
  have hm : mapOpt val i.inputs = some (i.inputs.map (fun v => (val v).getD 0)) := by
    revert hv
    generalize i.inputs = l
    intro hv
    induction l with
    | nil => rfl
    | cons x l ih =>
      obtain ⟨a, ha⟩ := Option.isSome_iff_exists.1 (hv x (by simp))
      rw [mapOpt, ih (fun v h => hv v (by simp [h]))]; simp [ha]
  show readPrim Insn.inputs (q) i val outs ↔ _
  unfold readPrim
  rw [hm]
  have key : q i (i.inputs.map (fun v => (val v).getD 0)) outs ↔ outs = [detVal (fun v => (val v).getD 0) i] := by
    cases i with
    | linComb lc =>
      rw [hE.lin]
      simp only [Insn.inputs, LinComb.vars, LinComb.evalArgs, detVal, List.zipWith_map_right]
      have : List.zipWith (fun (a b : Nat × F) => (val b.1).getD 0 * a.2) lc.terms lc.terms =
          lc.terms.map (fun t => (val t.1).getD 0 * t.2) := by
        generalize lc.terms = l
        induction l with
        | nil => rfl
        | cons a l ih => simp [ih]
      rw [this]
    | mul xs => rw [hE.mul]; simp only [Insn.inputs, detVal]
    | _ => exact hd.elim
  constructor
  · rintro ⟨args, h1, h2⟩
    rw [← Option.some.inj h1] at h2
    exact key.1 h2
  · intro h; exact ⟨_, rfl, key.2 h⟩

theorem det_not_call {q : Insn F → List F → List F → Prop} {vd : Nat → Insn F → Bool} {i : Insn F} (hd : Det i) : (srcL q vd).asCall i = none := by
  cases i <;> first | rfl | exact hd.elim

theorem det_outputs {i : Insn F} (hd : Det i) : i.numOutputs = 1 := by
  cases i <;> first | rfl | exact hd.elim

/-- Core step: instruction `j` (one output, variable `x`) is inlined into the only place that uses it, instruction `i`. -/
theorem absorb_eval {q : Insn F → List F → List F → Prop} {vd : Nat → Insn F → Bool} (hE : QOk q vd) {get : Nat → Option (Circuit (srcL q vd))} {A B C : List (Insn F)} {J J' I I' : Insn F}
    {n x : Nat} {cons : List (Constraint (srcL q vd))} {outs : List Nat}
    (hJ : Det J) (hJ' : Det J') (hI : Det I) (hI' : Det I')
    (hx : x = numVars (L := srcL q vd) n A + 1)
    (hcalls : CallsOk get A)
    (hJi : ∀ v ∈ J.inputs, v < x) (hJi' : ∀ v ∈ J'.inputs, v < x)
    (hcallsB : CallsOk get B)
    (hIi : ∀ v ∈ I.inputs, v < numVars (L := srcL q vd) (x) B + 1) (hIi' : ∀ v ∈ I'.inputs, v < numVars (L := srcL q vd) x B + 1)
    (hxB : ∀ i ∈ B, x ∉ i.inputs) (hxC : ∀ i ∈ C, x ∉ i.inputs) (hxI' : x ∉ I'.inputs)
    (hxk : ∀ k ∈ cons, k.var ≠ x) (hxo : x ∉ outs)
    (hval : ∀ a : Nat → F, a x = detVal a J → detVal a I = detVal a I')
    (ins os : List F) (b : Bool) (hl : ins.length = n) :
    EvalSub get (⟨A ++ J :: (B ++ I :: C), cons, outs, n⟩ : Circuit (srcL q vd)) ins os b ↔
    EvalSub get (⟨A ++ J' :: (B ++ I' :: C), cons, outs, n⟩ : Circuit (srcL q vd)) ins os b := by
  have hL := hE.lawful
  -- one direction for arbitrary pairs, used twice
  have key : ∀ {J J' I I' : Insn F}, Det J → Det J' → Det I → Det I' →
      (∀ v ∈ J.inputs, v < x) → (∀ v ∈ J'.inputs, v < x) →
      (∀ v ∈ I.inputs, v < numVars (L := srcL q vd) (x) B + 1) → (∀ v ∈ I'.inputs, v < numVars (L := srcL q vd) x B + 1) →
      (∀ (vs : List F) (t : List F) , vs.length = x → (x + 1 + t.length = numVars (L := srcL q vd) x B + 1) →
        detVal (fun v => ((vs ++ [detVal (fun v => (vs[v]?).getD 0) J] ++ t)[v]?).getD 0) I =
        detVal (fun v => ((vs ++ [detVal (fun v => (vs[v]?).getD 0) J'] ++ t)[v]?).getD 0) I') →
      EvalSub get (⟨A ++ J :: (B ++ I :: C), cons, outs, n⟩ : Circuit (srcL q vd)) ins os b →
      EvalSub get (⟨A ++ J' :: (B ++ I' :: C), cons, outs, n⟩ : Circuit (srcL q vd)) ins os b := by
    intro J J' I I' hJ hJ' hI hI' hJi hJi' hIi hIi' hv
    rintro ⟨vs, sb, cb, hr, hk, ho, rfl⟩
    obtain ⟨v1, b1, b2, r1, r2, rfl⟩ := run_append_iff.1 hr
    have l1 : v1.length = x := by
      have := r1.length hL hcalls (n + 1) (by simp [hl])
      rw [numVars_add] at this; omega
    obtain ⟨o, hp, r3⟩ := (run_prim_iff (det_not_call hJ)).1 r2
    have hdef : ∀ {K : Insn F} {w : List F}, (∀ v ∈ K.inputs, v < w.length) → ∀ v ∈ K.inputs, (w[v]?).isSome := by
      intro K w h v hv; simp [h v hv]
    rw [det_prim hE hJ (hdef (by rw [l1]; exact hJi))] at hp
    subst hp
    obtain ⟨v2, b3, b4, r4, r5, rfl⟩ := run_append_iff.1 r3
    obtain ⟨t, rfl⟩ := r4.prefix
    have l2 : (v1 ++ [detVal (fun v => (v1[v]?).getD 0) J] ++ t).length = numVars (L := srcL q vd) x B + 1 := by
      have := r4.length hL hcallsB (x + 1) (by simp [l1])
      rw [numVars_add] at this; exact this
    obtain ⟨o, hp, r6⟩ := (run_prim_iff (det_not_call hI)).1 r5
    rw [det_prim hE hI (hdef (by rw [l2]; exact hIi))] at hp
    subst hp
    obtain ⟨t2, rfl⟩ := r6.prefix
    have hag : ∀ (u : List F) (a a' : F) v, v ≠ x → (v1 ++ [a] ++ u)[v]? = (v1 ++ [a'] ++ u)[v]? := by
      intro u a a' v hv
      by_cases h1 : v < v1.length
      · rw [List.append_assoc, List.append_assoc, List.getElem?_append_left h1, List.getElem?_append_left h1]
      · rw [List.getElem?_append_right (by simp; omega), List.getElem?_append_right (by simp; omega)]; simp
    have l2' := l2
    simp only [List.length_append, List.length_singleton] at l2'
    have hvv := hv v1 t l1 (by omega)
    refine ⟨v1 ++ [detVal (fun v => (v1[v]?).getD 0) J'] ++ t ++
      [detVal (fun v => ((v1 ++ [detVal (fun v => (v1[v]?).getD 0) J] ++ t)[v]?).getD 0) I] ++ t2, (b1 && (b3 && b4)), cb, ?_, ?_, ?_, rfl⟩
    · refine run_append_iff.2 ⟨v1, b1, b3 && b4, r1, ?_, rfl⟩
      refine (run_prim_iff (det_not_call hJ')).2 ⟨_, (det_prim hE hJ' (hdef (by rw [l1]; exact hJi')) _).2 rfl, ?_⟩
      refine run_append_iff.2 ⟨v1 ++ [detVal (fun v => (v1[v]?).getD 0) J'] ++ t, b3, b4, ?_, ?_, rfl⟩
      · refine run_local hL x B _ _ _ _ hxB (by simp) ?_ (by simp [l1]) r4
        intro v hv'
        have := hag [] (detVal (fun v => (v1[v]?).getD 0) J) (detVal (fun v => (v1[v]?).getD 0) J') v hv'
        simpa using this
      · refine (run_prim_iff (det_not_call hI')).2 ⟨_, (det_prim hE hI' (hdef (K := I') (w := v1 ++ [detVal (fun v => (v1[v]?).getD 0) J'] ++ t)
          (by intro v h; have := hIi' v h; simp only [List.length_append, List.length_singleton]; omega)) _).2 rfl, ?_⟩
        rw [hvv] at r6 ⊢
        refine run_local hL x C _ _ _ _ hxC (by simp) ?_ (by simp only [List.length_append, List.length_singleton]; omega) r6
        intro v hv'
        rw [List.append_assoc _ t, List.append_assoc _ t]
        exact hag _ _ _ v hv'
    · rw [← hk]
      have := checkCons_map_congr (L := srcL q vd) (f := id) (vs := v1 ++ [detVal (fun v => (v1[v]?).getD 0) J] ++ t ++
        [detVal (fun v => ((v1 ++ [detVal (fun v => (v1[v]?).getD 0) J] ++ t)[v]?).getD 0) I] ++ t2) (ws := v1 ++ [detVal (fun v => (v1[v]?).getD 0) J'] ++ t ++
        [detVal (fun v => ((v1 ++ [detVal (fun v => (v1[v]?).getD 0) J] ++ t)[v]?).getD 0) I] ++ t2) (cs := cons) (by
          intro k hk
          rw [List.append_assoc _ _ t2, List.append_assoc _ t, List.append_assoc _ _ t2, List.append_assoc _ t]
          exact hag _ _ _ _ (hxk k hk))
      simpa [Constraint.replaceVar] using this
    · rw [← ho]
      have := readAll_map_congr (f := id) (vs := v1 ++ [detVal (fun v => (v1[v]?).getD 0) J] ++ t ++
        [detVal (fun v => ((v1 ++ [detVal (fun v => (v1[v]?).getD 0) J] ++ t)[v]?).getD 0) I] ++ t2) (ws := v1 ++ [detVal (fun v => (v1[v]?).getD 0) J'] ++ t ++
        [detVal (fun v => ((v1 ++ [detVal (fun v => (v1[v]?).getD 0) J] ++ t)[v]?).getD 0) I] ++ t2) (is := outs) (by
          intro k hk
          rw [List.append_assoc _ _ t2, List.append_assoc _ t, List.append_assoc _ _ t2, List.append_assoc _ t]
          exact hag _ _ _ _ (fun h => hxo (h ▸ hk)))
      simpa using this
  have hdl : ∀ {K : Insn F} {a a' : Nat → F}, (∀ v ∈ K.inputs, a v = a' v) → detVal a K = detVal a' K := by
    intro K a a' h
    cases K with
    | linComb lc =>
      simp only [detVal]
      congr 1
      refine congrArg _ (List.map_congr_left (fun t ht => ?_))
      rw [h t.1 (by simp only [Insn.inputs, LinComb.vars]; exact List.mem_map_of_mem ht)]
    | mul xs =>
      simp only [detVal]
      exact congrArg _ (List.map_congr_left (fun t ht => h t ht))
    | _ => rfl
  have hcore : ∀ (vs t : List F), vs.length = x →
        detVal (fun v => ((vs ++ [detVal (fun v => (vs[v]?).getD 0) J] ++ t)[v]?).getD 0) I =
        detVal (fun v => ((vs ++ [detVal (fun v => (vs[v]?).getD 0) J'] ++ t)[v]?).getD 0) I' := by
    intro vs t hvl
    rw [hval]
    · refine hdl (fun v hv => ?_)
      have hne : v ≠ x := fun h => hxI' (h ▸ hv)
      congr 1
      by_cases h1 : v < vs.length
      · rw [List.append_assoc, List.append_assoc, List.getElem?_append_left h1, List.getElem?_append_left h1]
      · rw [List.getElem?_append_right (by simp; omega), List.getElem?_append_right (by simp; omega)]; simp
    · have : (vs ++ [detVal (fun v => (vs[v]?).getD 0) J] ++ t)[x]? = some (detVal (fun v => (vs[v]?).getD 0) J) := by
        rw [List.append_assoc, List.getElem?_append_right (by omega)]; simp [hvl]
      rw [this]
      simp only [Option.getD_some]
      refine hdl (fun v hv => ?_)
      rw [List.append_assoc, List.getElem?_append_left (by rw [hvl]; exact hJi v hv)]
  constructor
  · exact key hJ hJ' hI hI' hJi hJi' hIi hIi' (fun vs t h _ => hcore vs t h)
  · exact key hJ' hJ hI' hI hJi' hJi hIi' hIi (fun vs t h _ => (hcore vs t h).symm)

end Verif.IR.Chains
