import Verif.Builder.Pool
import Verif.IR.Compose
import Mathlib.Tactic.FieldSimp

/-!
# The builder (builder/basic.rs) with hint-normalised output

The state, the operations on it, and their specification: whatever is pushed, the instruction that ends up in the output
computes what the pushed instruction computes.
-/

set_option linter.unusedSectionVars false
set_option linter.unusedSimpArgs false

namespace Verif.Builder

open Verif.IR

variable {F : Type} [Field F] [DecidableEq F]

/-- `struct Builder` (basic.rs:34-63) for the hint-normalised output language, without the read-only fields and `in_to_out` (which
only `process_insn` uses).  `mid_to_out` is padded with `None`, so it is a partial map from middle variables to `(x, k, b)`; the
hash maps are association lists, latest entry first.  The only constraint type of the output language is "is zero", so
`constraints` is one map; `true` = `Asserted`, `false` = `Marked`.  `overwrote` is a ghost field that no operation reads: it records
that `mark` has replaced an `Asserted` entry. -/
structure St (F : Type) where
  exprs : List (Expr F)
  pool : Pool F
  mto : List (Nat × Nat × F × F)
  eto : List (Expr F × Nat)
  cons : List (Expr F × Bool)
  insns : List (HintNorm.Insn F)
  overwrote : Bool

/-- `Builder::new` (basic.rs:136-151). -/
def St.init : St F := ⟨[[Term.zero]], [[]], [], [], [], [], false⟩

/-- `from_kx_plus_b` of the output language (hint_normalized/mod.rs:127-129). -/
def kxInsn (x : Nat) (k b : F) : HintNorm.Insn F := .linComb (LinComb.fromKxPlusB x k b)

/-- `*self.out_insns.last_mut().unwrap() = insn`. -/
def setLast (is : List (HintNorm.Insn F)) (i : HintNorm.Insn F) : Option (List (HintNorm.Insn F)) :=
  if is.isEmpty then none else some (is.dropLast ++ [i])

/-- One round of the loop of `fix_mid_to_out` (basic.rs:255-290); `one` is `n == 1`. -/
def fixOne (one : Bool) (st : St F) (i : Nat) : Option (St F) :=
  match st.exprs[st.exprs.length - i]? with
  | none => none
  | some e => match toSingleStripped st.pool e with
    | none => none
    | some (p, eid, coef, c) =>
      if eid = 0 then
        if one = true ∧ coef = 0 then
          match setLast st.insns (kxInsn 0 0 c) with
          | none => none
          | some is => some { st with eto := (e, st.exprs.length - i) :: st.eto, pool := p, insns := is }
        else none
      else match st.mto.lookup eid with
        | some (x, k, b) =>
          if one = true then
            match setLast st.insns (kxInsn x (k * coef) (b * coef + c)) with
            | none => none
            | some is => some { st with eto := (e, st.exprs.length - i) :: st.eto, pool := p, insns := is }
          else none
        | none =>
          if coef = 0 then none
          else some { st with
            eto := (e, st.exprs.length - i) :: st.eto, pool := p,
            mto := (eid, st.exprs.length - i, coef⁻¹, -coef⁻¹ * c) :: st.mto }

/-- The loop of `fix_mid_to_out` over the values of `i`. -/
def fixLoop (one : Bool) : List Nat → St F → Option (St F)
  | [], st => some st
  | i :: is, st => match fixOne one st i with
    | none => none
    | some st' => fixLoop one is st'

/-- `fix_mid_to_out` (basic.rs:255-290). -/
def fixMidToOut (n : Nat) (st : St F) : Option (St F) := fixLoop (n == 1) (List.range' 1 n) st

/-- The loop of `add_out_vars` (basic.rs:168-174) with `new_var` (basic.rs:157-165). -/
def newVars : Nat → St F → Option (St F)
  | 0, st => some st
  | n + 1, st =>
    let e : Expr F := [⟨1, .linear st.pool.length⟩]
    if (poolAdd st.pool e).2 = st.pool.length then
      newVars n { st with pool := (poolAdd st.pool e).1, exprs := st.exprs ++ [e] }
    else none

/-- `add_out_vars` (basic.rs:167-175). -/
def addOutVars (n : Nat) (st : St F) : Option (St F) :=
  match newVars n st with
  | none => none
  | some st' => fixMidToOut n st'

/-- `self.out_var_exprs.push(expr); self.fix_mid_to_out(1)`. -/
def addExpr (st : St F) (r : Option (Pool F × Expr F)) : Option (St F) :=
  match r with
  | none => none
  | some (p, e) => fixMidToOut 1 { st with pool := p, exprs := st.exprs ++ [e] }

/-- One `(self.out_var_exprs[t.var], t.coef)` of `add_lin_comb` (basic.rs:178-182). -/
def readTerm (exprs : List (Expr F)) (t : Nat × F) : Option (Expr F × F) :=
  match exprs[t.1]? with
  | some e => some (e, t.2)
  | none => none

/-- `add_lin_comb` (basic.rs:177-200). -/
def addLinComb (st : St F) (lc : LinComb F) : Option (St F) :=
  match mapOpt (readTerm st.exprs) lc.terms with
  | none => none
  | some vs => addExpr st (linCombInner st.pool (vs ++ (if lc.const = 0 then [] else [([⟨lc.const, .const⟩], 1)])))

/-- The loop `cur = mul_two_expr(&cur, …)` of `add_mul_vec` (basic.rs:210-213). -/
def mulLoop : Pool F → Expr F → List (Expr F) → Option (Pool F × Expr F)
  | p, cur, [] => some (p, cur)
  | p, cur, e :: es => match mulTwo p cur e with
    | none => none
    | some (p', r) => mulLoop p' r es

variable (srt : List (Expr F) → List (Expr F))

/-- `add_mul_vec` (basic.rs:202-215).  `srt` is the sort by the derived order of expressions, which involves the order of field
elements of the external crate; the theorems hold for every permutation. -/
def addMulVec (st : St F) (xs : List Nat) : Option (St F) :=
  match mapOpt (fun x => st.exprs[x]?) xs with
  | none => none
  | some es => match srt es with
    | a :: b :: rest => addExpr st (match mulTwo st.pool a b with
      | none => none
      | some (p, r) => mulLoop p r rest)
    | _ => none

/-- `sub_circuit_call` (basic.rs:292-305). -/
def subCircuitCall (st : St F) (xs : List Nat) (n : Nat) : Option (St F) :=
  match mapOpt (fun x => st.exprs[x]?) xs with
  | none => none
  | some es => addOutVars n { st with pool := es.foldl toReallySingle st.pool }

/-- `execute_out` (hint_normalize.rs:330-369). -/
def executeOut (st : St F) : HintNorm.Insn F → Option (St F)
  | .linComb lc => addLinComb st lc
  | .mul xs => addMulVec srt st xs
  | .hint _ _ n => addOutVars n st
  | .constantLike (.const c) => addExpr st (some (st.pool, [⟨c, .const⟩]))
  | .constantLike .random => addOutVars 1 st
  | .constantLike (.pub _) => addOutVars 1 st
  | .call _ xs n => subCircuitCall st xs n
  | .customGate _ _ => addOutVars 1 st

/-- `push_insn_with_root`, `push_insn`, `push_insn_multi_out` (basic.rs:314-343): the results are the next variable ids. -/
def pushInsn (st : St F) (i : HintNorm.Insn F) : Option (St F) :=
  executeOut srt { st with insns := st.insns ++ [i] } i

/-- `assert` (basic.rs:222-233): does not change an existing entry. -/
def assertVar (st : St F) (v : Nat) : Option (St F) :=
  match st.exprs[v]? with
  | none => none
  | some e => match st.cons.lookup e with
    | some _ => some st
    | none => some { st with cons := (e, true) :: st.cons }

/-- `mark` (basic.rs:235-245): overwrites an existing entry. -/
def markVar (st : St F) (v : Nat) : Option (St F) :=
  match st.exprs[v]? with
  | none => none
  | some e => some { st with
      cons := (e, false) :: st.cons.filter (fun t => decide (t.1 ≠ e)),
      overwrote := st.overwrote || (st.cons.lookup e == some true) }

/-- What a lowering step asks the builder to do. -/
inductive Ev (F : Type)
  | push (i : HintNorm.Insn F)
  | assert (v : Nat)
  | mark (v : Nat)
  deriving DecidableEq

/-- One request. -/
def exec1 (st : St F) : Ev F → Option (St F)
  | .push i => pushInsn srt st i
  | .assert v => assertVar st v
  | .mark v => markVar st v

/-- A sequence of requests. -/
def exec (st : St F) : List (Ev F) → Option (St F)
  | [] => some st
  | e :: es => match exec1 srt st e with
    | none => none
    | some st' => exec st' es

/-! ## Invariant -/

/-- Structural invariant; `bd` bounds the variables that `mid_to_out` may refer to. -/
structure Wf (bd : Nat) (st : St F) : Prop where
  pool : PoolWF st.pool
  head : st.exprs[0]? = some [Term.zero]
  exprs : ∀ (i : Nat) e, st.exprs[i]? = some e → EOk st.pool.length e
  mto : ∀ m x k b, (m, x, k, b) ∈ st.mto → m ≠ 0 ∧ m < st.pool.length ∧ x ≠ 0 ∧ x < bd ∧ ∃ e coef c, st.exprs[x]? = some e ∧
    coef ≠ 0 ∧ k = coef⁻¹ ∧ b = -coef⁻¹ * c ∧ ∀ E ρ, PoolOk E ρ st.pool → value E ρ e = ρ m * coef + c
  eto : ∀ e (i : Nat), (e, i) ∈ st.eto → i ≠ 0 ∧ st.exprs[i]? = some e
  bd : bd ≤ st.exprs.length

/-- Every variable can be found by its expression. -/
def EtoFull (st : St F) : Prop := ∀ (i : Nat) e, i ≠ 0 → st.exprs[i]? = some e → ∃ j, (e, j) ∈ st.eto

/-- The values `ws` of the output variables are those of their expressions. -/
structure Sem (E : Env F) (ρ : Nat → F) (st : St F) (ws : List F) : Prop where
  pool : PoolOk E ρ st.pool
  len : ws.length = st.exprs.length
  val : ∀ (i : Nat) e, st.exprs[i]? = some e → ws[i]? = some (value E ρ e)

theorem Wf.pos {bd : Nat} {st : St F} (h : Wf bd st) : 0 < st.exprs.length := by
  have := (List.getElem?_eq_some_iff.1 h.head).1; omega

theorem lookup_mem {α β : Type} [BEq α] [LawfulBEq α] {l : List (α × β)} {a : α} {b : β} (h : l.lookup a = some b) : (a, b) ∈ l := by
  induction l with
  | nil => simp at h
  | cons x l ih =>
    obtain ⟨a', b'⟩ := x
    rw [List.lookup_cons] at h
    split at h
    · rename_i he
      simp at he h
      subst he; subst h; simp
    · exact List.mem_cons_of_mem _ (ih h)

theorem lookup_none_iff {α β : Type} [BEq α] [LawfulBEq α] {l : List (α × β)} {a : α} : l.lookup a = none ↔ ∀ b, (a, b) ∉ l := by
  induction l with
  | nil => simp
  | cons x l ih =>
    obtain ⟨a', b'⟩ := x
    rw [List.lookup_cons]
    split
    · rename_i he
      have he' : a = a' := by simpa using he
      subst he'
      constructor
      · intro h; cases h
      · intro h; exact absurd (List.mem_cons_self ..) (h b')
    · rename_i he
      rw [ih]
      simp at he
      constructor
      · intro h b hb
        rcases List.mem_cons.1 hb with hb | hb
        · cases hb; exact he rfl
        · exact h b hb
      · intro h b hb
        exact h b (List.mem_cons_of_mem _ hb)

/-! ## One new expression -/

/-- What the replacement of the last instruction does. -/
theorem setLast_append (is : List (HintNorm.Insn F)) (i j : HintNorm.Insn F) : setLast (is ++ [i]) j = some (is ++ [j]) := by
  simp [setLast]

/-- How `from_kx_plus_b` evaluates. -/
theorem kx_prim (E : Env F) (x : Nat) (k b : F) (val : Nat → Option F) (outs : List F) (y : F) (hx : x ≠ 0) (hk : k ≠ 0) (hv : val x = some y) :
    (hintNorm E).prim (kxInsn x k b) val outs ↔ outs = [k * y + b] := by
  have e : LinComb.fromKxPlusB x k b = ⟨[(x, k)], b⟩ := by simp [LinComb.fromKxPlusB, hx, hk]
  show readPrim HintNorm.Insn.inputs (HintNorm.Insn.sem E) (HintNorm.Insn.linComb (LinComb.fromKxPlusB x k b)) val outs ↔ _
  rw [e]
  unfold readPrim
  simp only [HintNorm.Insn.inputs, LinComb.vars, List.map_cons, List.map_nil, mapOpt, hv, HintNorm.Insn.sem, LinComb.evalArgs]
  constructor
  · rintro ⟨args, h1, h2⟩
    simp at h1; subst h1
    rw [h2]; simp; ring
  · intro h
    exact ⟨[y], rfl, by rw [h]; simp; ring⟩

theorem kx_prim0 (E : Env F) (b : F) (val : Nat → Option F) (outs : List F) :
    (hintNorm E).prim (kxInsn 0 0 b) val outs ↔ outs = [b] := by
  have e : LinComb.fromKxPlusB 0 0 b = ⟨[], b⟩ := by simp [LinComb.fromKxPlusB]
  show readPrim HintNorm.Insn.inputs (HintNorm.Insn.sem E) (HintNorm.Insn.linComb (LinComb.fromKxPlusB 0 0 b)) val outs ↔ _
  rw [e]
  unfold readPrim
  simp only [HintNorm.Insn.inputs, LinComb.vars, List.map_nil, mapOpt, HintNorm.Insn.sem, LinComb.evalArgs]
  constructor
  · rintro ⟨args, h1, h2⟩
    rw [h2]; simp
  · intro h
    exact ⟨[], rfl, by rw [h]; simp⟩

/-- The instruction `j` is an acceptable output for an instruction whose only result has expression `e`, over the pool `p'`. -/
def Repl (st : St F) (p' : Pool F) (e : Expr F) (j : HintNorm.Insn F) : Prop :=
  (∀ x ∈ j.inputs, x ≠ 0 ∧ x < st.exprs.length) ∧ j.asCall = none ∧ j.numOutputs = 1 ∧ (∀ npi, j.valid npi = true) ∧
    ∀ (E : Env F) ρ ws, Sem E ρ st ws → PoolOk E ρ p' →
      ∀ outs, (hintNorm E).prim j (fun v => ws[v]?) outs ↔ outs = [value E ρ e]

theorem addExpr_spec {st : St F} (hw : Wf st.exprs.length st) (hf : EtoFull st) {p : Pool F} {e : Expr F} (hx : Ext st.pool p)
    (he : EOk p.length e) {is : List (HintNorm.Insn F)} {i : HintNorm.Insn F} (hi : st.insns = is ++ [i]) :
    ∃ st' j, addExpr st (some (p, e)) = some st' ∧ Wf st'.exprs.length st' ∧ EtoFull st' ∧ st'.exprs = st.exprs ++ [e] ∧
      st'.cons = st.cons ∧ st'.overwrote = st.overwrote ∧ st'.insns = is ++ [j] ∧ Ext p st'.pool ∧
      (j = i ∨ Repl st st'.pool e j) := by
  obtain ⟨q, eid, coef, c, hs, hq, hcase⟩ := toSingleStripped_spec (hx.wf hw.pool) he
  have hpq := hx.trans hq
  have hlen : st.pool.length ≤ q.length := hpq.len
  have hmono : ∀ E ρ, PoolOk E ρ q → PoolOk E ρ st.pool := fun E ρ h => h.prefix hpq.pre
  have hpos := hw.pos
  have hget : ∀ (n : Nat) d, (st.exprs ++ [e])[n]? = some d → EOk q.length d := by
    intro n d hd
    by_cases hn : n < st.exprs.length
    · rw [List.getElem?_append_left hn] at hd
      exact (hw.exprs n d hd).mono hlen
    · have := (List.getElem?_eq_some_iff.1 hd).1
      simp only [List.length_append, List.length_singleton] at this
      have hn' : n = st.exprs.length := by omega
      subst hn'
      simp at hd
      subst hd
      exact he.mono hq.len
  have hmto : ∀ m x k b, (m, x, k, b) ∈ st.mto → m ≠ 0 ∧ m < q.length ∧ x ≠ 0 ∧ x < st.exprs.length + 1 ∧ ∃ d coef c, (st.exprs ++ [e])[x]? = some d ∧
      coef ≠ 0 ∧ k = coef⁻¹ ∧ b = -coef⁻¹ * c ∧ ∀ E ρ, PoolOk E ρ q → value E ρ d = ρ m * coef + c := by
    intro m x k b hm
    obtain ⟨h1, h2, h3, h4, d, co, cc, h5, h6, h7, h8, h9⟩ := hw.mto m x k b hm
    exact ⟨h1, by omega, h3, by omega, d, co, cc, by rw [List.getElem?_append_left h4]; exact h5, h6, h7, h8, fun E ρ hρ => h9 E ρ (hmono E ρ hρ)⟩
  have heto : ∀ d (n : Nat), (d, n) ∈ (e, st.exprs.length) :: st.eto → n ≠ 0 ∧ (st.exprs ++ [e])[n]? = some d := by
    intro d n hm
    rcases List.mem_cons.1 hm with hm | hm
    · cases hm; exact ⟨by omega, by simp⟩
    · obtain ⟨h1, h2⟩ := hw.eto d n hm
      exact ⟨h1, by rw [List.getElem?_append_left (List.getElem?_eq_some_iff.1 h2).1]; exact h2⟩
  have hfull : ∀ (n : Nat) d, n ≠ 0 → (st.exprs ++ [e])[n]? = some d → ∃ j, (d, j) ∈ (e, st.exprs.length) :: st.eto := by
    intro n d hn hd
    by_cases hlt : n < st.exprs.length
    · rw [List.getElem?_append_left hlt] at hd
      obtain ⟨j, hj⟩ := hf n d hn hd
      exact ⟨j, List.mem_cons_of_mem _ hj⟩
    · have := (List.getElem?_eq_some_iff.1 hd).1
      simp only [List.length_append, List.length_singleton] at this
      have hn' : n = st.exprs.length := by omega
      subst hn'
      simp at hd
      subst hd
      exact ⟨st.exprs.length, by simp⟩
  have hhead : (st.exprs ++ [e])[0]? = some [Term.zero] := by rw [List.getElem?_append_left hpos]; exact hw.head
  have hunf : addExpr st (some (p, e)) = fixOne true { st with pool := p, exprs := st.exprs ++ [e] } 1 := by
    show (match fixOne true { st with pool := p, exprs := st.exprs ++ [e] } 1 with | none => none | some st' => some st') = _
    cases fixOne true { st with pool := p, exprs := st.exprs ++ [e] } 1 <;> rfl
  rw [hunf]
  unfold fixOne
  have e1 : (st.exprs ++ [e]).length - 1 = st.exprs.length := by simp
  have e2 : (st.exprs ++ [e])[(st.exprs ++ [e]).length - 1]? = some e := by rw [e1]; simp
  simp only [e2, hs]
  rw [e1]
  rcases hcase with ⟨rfl, rfl, rfl, rfl⟩ | ⟨h0, hco, ⟨r, hr, _⟩, _, hval⟩
  · simp only [if_true, true_and, and_self, hi, setLast_append]
    refine ⟨_, kxInsn 0 0 c, rfl, ⟨hq.wf (hx.wf hw.pool), hhead, hget, ?_, heto, le_refl _⟩, hfull, rfl, rfl, rfl, rfl, hq, Or.inr ⟨?_, rfl, rfl, fun _ => rfl, ?_⟩⟩
    · simpa using hmto
    · intro x hx'
      simp [kxInsn, HintNorm.Insn.inputs, LinComb.fromKxPlusB, LinComb.vars] at hx'
    · intro E ρ ws _ _ outs
      rw [kx_prim0, value_const]
  · rw [if_neg h0]
    split
    · rename_i x k b hl
      have hm := lookup_mem hl
      obtain ⟨g1, g2, g3, g4, d, co, cc, g5, g6, g7, g8, g9⟩ := hw.mto _ _ _ _ hm
      simp only [if_true, hi, setLast_append]
      have hk : k * coef ≠ 0 := by rw [g7]; exact mul_ne_zero (inv_ne_zero g6) hco
      refine ⟨_, kxInsn x (k * coef) (b * coef + c), rfl, ⟨hq.wf (hx.wf hw.pool), hhead, hget, ?_, heto, le_refl _⟩, hfull, rfl, rfl, rfl, rfl, hq,
        Or.inr ⟨?_, rfl, rfl, fun _ => rfl, ?_⟩⟩
      · simpa using hmto
      · intro y hy
        simp [kxInsn, HintNorm.Insn.inputs, LinComb.inputs_kx g3 hk] at hy
        rw [hy]; exact ⟨g3, g4⟩
      · intro E ρ ws hsem hρ outs
        rw [kx_prim E x _ _ _ outs _ g3 hk (hsem.val x d g5)]
        rw [hval E ρ hρ, g9 E ρ hsem.pool, g7, g8]
        constructor
        · rintro rfl; congr 1; field_simp; ring
        · rintro rfl; congr 1; field_simp; ring
    · rename_i hl
      rw [if_neg hco]
      refine ⟨_, i, rfl, ⟨hq.wf (hx.wf hw.pool), hhead, hget, ?_, heto, le_refl _⟩, hfull, rfl, rfl, rfl, hi, hq, Or.inl rfl⟩
      intro m x k b hm
      simp only [List.length_append, List.length_singleton]
      rcases List.mem_cons.1 hm with hm | hm
      · cases hm
        exact ⟨h0, (List.getElem?_eq_some_iff.1 hr).1, by omega, by omega, e, coef, c, by simp, hco, rfl, rfl, fun E ρ hρ => hval E ρ hρ⟩
      · exact hmto m x k b hm

/-! ## Fresh variables -/

/-- The expressions `1·s, 1·(s+1), …` of `n` fresh middle variables. -/
def fakes (s n : Nat) : List (Expr F) := (List.range' s n).map (fun j => [⟨1, .linear j⟩])

theorem fakes_length (s n : Nat) : (fakes s n : List (Expr F)).length = n := by simp [fakes]

theorem fakes_get {s n i : Nat} {e : Expr F} : (fakes s n)[i]? = some e ↔ i < n ∧ e = [⟨1, .linear (s + i)⟩] := by
  unfold fakes
  by_cases h : i < n
  · simp [List.getElem?_range', h, eq_comm]
  · simp [List.getElem?_range', h]

theorem idxOf?_none {α : Type} [BEq α] [LawfulBEq α] {l : List α} {a : α} (h : a ∉ l) : l.idxOf? a = none := by
  rw [List.idxOf?_eq_none_iff]; exact h

theorem fresh_not_mem {p : Pool F} (hp : PoolWF p) : ([⟨1, .linear p.length⟩] : Expr F) ∉ p := by
  intro h
  obtain ⟨i, hi⟩ := List.mem_iff_getElem?.1 h
  have hlt := (List.getElem?_eq_some_iff.1 hi).1
  by_cases h0 : i = 0
  · subst h0
    rw [hp.zero] at hi
    cases hi
  · have := (hp.ok i _ hi h0).vars p.length (by simp [Expr.getVars, VarSpec.vars])
    omega

theorem poolAdd_fresh {p : Pool F} (hp : PoolWF p) :
    poolAdd p ([⟨1, .linear p.length⟩] : Expr F) = (p ++ [[⟨1, .linear p.length⟩]], p.length) := by
  unfold poolAdd
  rw [idxOf?_none (fresh_not_mem hp)]

theorem poolWF_fresh {p : Pool F} (hp : PoolWF p) : PoolWF (p ++ [[⟨1, .linear p.length⟩]]) := by
  refine ⟨by rw [List.getElem?_append_left hp.pos]; exact hp.zero, fun i e he hi => ?_⟩
  by_cases hlt : i < p.length
  · rw [List.getElem?_append_left hlt] at he
    exact hp.ok i e he hi
  · have := (List.getElem?_eq_some_iff.1 he).1
    simp only [List.length_append, List.length_singleton] at this
    have hn' : i = p.length := by omega
    subst hn'
    simp at he
    subst he
    exact eok_linear (by omega) one_ne_zero

theorem fakes_succ (s n : Nat) : (fakes s (n + 1) : List (Expr F)) = [⟨1, .linear s⟩] :: fakes (s + 1) n := by
  simp [fakes, List.range'_succ]

theorem newVars_eq : ∀ (n : Nat) {st : St F}, PoolWF st.pool →
    newVars n st = some { st with pool := st.pool ++ fakes st.pool.length n, exprs := st.exprs ++ fakes st.pool.length n } ∧
      PoolWF (st.pool ++ fakes st.pool.length n : Pool F) := by
  intro n
  induction n with
  | zero => intro st hp; simp [newVars, fakes, hp]
  | succ n ih =>
    intro st hp
    rw [newVars]
    simp only [poolAdd_fresh hp, if_true]
    have hp' := poolWF_fresh hp
    obtain ⟨h1, h2⟩ := ih (st := { st with pool := st.pool ++ [[⟨1, .linear st.pool.length⟩]], exprs := st.exprs ++ [[⟨1, .linear st.pool.length⟩]] }) hp'
    simp only [List.length_append, List.length_singleton, List.append_assoc, List.singleton_append] at h1 h2
    rw [h1, fakes_succ]
    exact ⟨rfl, h2⟩

/-- The entry of a fresh variable is found at its own index. -/
theorem strip_linear (m : Nat) : strip ([⟨1, .linear m⟩] : Expr F) = some ([⟨1, .linear m⟩], 1, 0) := by
  simp [strip, constPart, fromTermsSorted, strictly, VarSpec.isNormalized]

theorem fixOne_fresh {one : Bool} {st : St F} {i : Nat} (hi : 1 ≤ i) {m : Nat} (he : st.exprs[st.exprs.length - i]? = some [⟨1, .linear m⟩])
    (hm : poolAdd st.pool ([⟨1, .linear m⟩] : Expr F) = (st.pool, m)) (h0 : m ≠ 0) (hl : st.mto.lookup m = none) :
    fixOne one st i = some { st with
      eto := ([⟨1, .linear m⟩], st.exprs.length - i) :: st.eto,
      mto := (m, st.exprs.length - i, 1, 0) :: st.mto } := by
  unfold fixOne
  have hd : degree ([⟨1, .linear m⟩] : Expr F) = 1 := by simp [degree]
  simp only [he, toSingleStripped, strip_linear, hd, one_ne_zero, if_false, hm, h0, hl]
  simp

/-- What the loop of `fix_mid_to_out` does to fresh variables. -/
def freshFix (st : St F) : List Nat → St F
  | [] => st
  | i :: is => freshFix { st with
      eto := ([⟨1, .linear (st.pool.length - i)⟩], st.exprs.length - i) :: st.eto,
      mto := (st.pool.length - i, st.exprs.length - i, 1, 0) :: st.mto } is

theorem fixLoop_fresh {one : Bool} : ∀ (is : List Nat) {st : St F}, is.Nodup →
    (∀ i ∈ is, 1 ≤ i ∧ i < st.pool.length ∧ st.exprs[st.exprs.length - i]? = some [⟨1, .linear (st.pool.length - i)⟩] ∧
      poolAdd st.pool ([⟨1, .linear (st.pool.length - i)⟩] : Expr F) = (st.pool, st.pool.length - i) ∧
      st.mto.lookup (st.pool.length - i) = none) →
    fixLoop one is st = some (freshFix st is) := by
  intro is
  induction is with
  | nil => intro st _ _; rfl
  | cons i is ih =>
    intro st hn h
    obtain ⟨h1, h2, h3, h4, h5⟩ := h i (by simp)
    rw [fixLoop, fixOne_fresh h1 h3 h4 (by omega) h5, freshFix]
    refine ih (List.nodup_cons.1 hn).2 (fun j hj => ?_)
    obtain ⟨g1, g2, g3, g4, g5⟩ := h j (by simp [hj])
    refine ⟨g1, g2, g3, g4, ?_⟩
    have hne : i ≠ j := fun e => (List.nodup_cons.1 hn).1 (e ▸ hj)
    rw [List.lookup_cons]
    have : (st.pool.length - j == st.pool.length - i) = false := by simp; omega
    simp only [this]
    exact g5

theorem freshFix_fields (is : List Nat) (st : St F) : (freshFix st is).pool = st.pool ∧ (freshFix st is).exprs = st.exprs ∧
    (freshFix st is).cons = st.cons ∧ (freshFix st is).insns = st.insns ∧ (freshFix st is).overwrote = st.overwrote ∧
    (∀ m x k b, (m, x, k, b) ∈ (freshFix st is).mto ↔ (m, x, k, b) ∈ st.mto ∨ ∃ i ∈ is, m = st.pool.length - i ∧ x = st.exprs.length - i ∧ k = 1 ∧ b = 0) ∧
    (∀ e (n : Nat), (e, n) ∈ (freshFix st is).eto ↔ (e, n) ∈ st.eto ∨ ∃ i ∈ is, e = [⟨1, .linear (st.pool.length - i)⟩] ∧ n = st.exprs.length - i) := by
  induction is generalizing st with
  | nil => simp [freshFix]
  | cons i is ih =>
    obtain ⟨h1, h2, h3, h4, h5, h6, h7⟩ := ih (st := { st with
      eto := ([⟨1, .linear (st.pool.length - i)⟩], st.exprs.length - i) :: st.eto,
      mto := (st.pool.length - i, st.exprs.length - i, 1, 0) :: st.mto })
    refine ⟨h1, h2, h3, h4, h5, fun m x k b => ?_, fun e n => ?_⟩
    · rw [freshFix, h6]
      simp only [List.mem_cons, Prod.mk.injEq]
      constructor
      · rintro ((h | h) | ⟨j, hj, h⟩)
        · exact Or.inr ⟨i, Or.inl rfl, h⟩
        · exact Or.inl h
        · exact Or.inr ⟨j, Or.inr hj, h⟩
      · rintro (h | ⟨j, rfl | hj, h⟩)
        · exact Or.inl (Or.inr h)
        · exact Or.inl (Or.inl h)
        · exact Or.inr ⟨j, hj, h⟩
    · rw [freshFix, h7]
      simp only [List.mem_cons, Prod.mk.injEq]
      constructor
      · rintro ((h | h) | ⟨j, hj, h⟩)
        · exact Or.inr ⟨i, Or.inl rfl, h⟩
        · exact Or.inl h
        · exact Or.inr ⟨j, Or.inr hj, h⟩
      · rintro (h | ⟨j, rfl | hj, h⟩)
        · exact Or.inl (Or.inr h)
        · exact Or.inl (Or.inl h)
        · exact Or.inr ⟨j, hj, h⟩

theorem poolAdd_own {p : Pool F} (hp : PoolWF p) {m : Nat} (hm : p[m]? = some [⟨1, .linear m⟩]) : poolAdd p ([⟨1, .linear m⟩] : Expr F) = (p, m) := by
  unfold poolAdd
  cases h : p.idxOf? ([⟨1, .linear m⟩] : Expr F) with
  | none =>
    rw [List.idxOf?_eq_none_iff] at h
    exact absurd (List.mem_of_getElem? hm) h
  | some i =>
    have hi := idxOf?_get h
    simp only [Prod.mk.injEq, true_and]
    have hle : i ≤ m := by
      by_contra hgt
      rw [List.idxOf?_eq_some_iff] at h
      obtain ⟨_, _, hmin⟩ := h
      have hml := (List.getElem?_eq_some_iff.1 hm)
      have := hmin m (by omega)
      rw [hml.2] at this
      exact this rfl
    have h0 : i ≠ 0 := by
      intro h0; subst h0; rw [hp.zero] at hi; cases hi
    have := (hp.ok i _ hi h0).vars m (by simp [Expr.getVars, VarSpec.vars])
    omega

theorem addOutVars_spec {st : St F} (hw : Wf st.exprs.length st) (hf : EtoFull st) (n : Nat) :
    ∃ st', addOutVars n st = some st' ∧ Wf st'.exprs.length st' ∧ EtoFull st' ∧ st'.exprs = st.exprs ++ fakes st.pool.length n ∧
      st'.pool = st.pool ++ fakes st.pool.length n ∧ st'.cons = st.cons ∧ st'.overwrote = st.overwrote ∧ st'.insns = st.insns := by
  obtain ⟨h1, h2⟩ := newVars_eq n hw.pool
  unfold addOutVars
  rw [h1]
  simp only [fixMidToOut]
  have hpos := hw.pos
  have hppos := hw.pool.pos
  have hpl : (st.pool ++ fakes st.pool.length n : Pool F).length = st.pool.length + n := by simp [fakes_length]
  have hel : (st.exprs ++ fakes st.pool.length n).length = st.exprs.length + n := by simp [fakes_length]
  have hpget : ∀ j, j < n → (st.pool ++ fakes st.pool.length n : Pool F)[st.pool.length + j]? = some [⟨1, .linear (st.pool.length + j)⟩] := by
    intro j hj
    rw [List.getElem?_append_right (by omega)]
    rw [fakes_get]
    exact ⟨by omega, by congr 3; omega⟩
  have heget : ∀ j, j < n → (st.exprs ++ fakes st.pool.length n)[st.exprs.length + j]? = some [⟨1, .linear (st.pool.length + j)⟩] := by
    intro j hj
    rw [List.getElem?_append_right (by omega)]
    rw [fakes_get]
    exact ⟨by omega, by congr 3; omega⟩
  have hloop := fixLoop_fresh (one := n == 1) (List.range' 1 n)
    (st := { st with pool := st.pool ++ fakes st.pool.length n, exprs := st.exprs ++ fakes st.pool.length n })
    List.nodup_range' (by
      intro i hi
      rw [List.mem_range'_1] at hi
      have e1 : (st.pool ++ fakes st.pool.length n : Pool F).length - i = st.pool.length + (n - i) := by omega
      have e2 : (st.exprs ++ fakes st.pool.length n).length - i = st.exprs.length + (n - i) := by omega
      simp only [e1, e2]
      refine ⟨by omega, by omega, heget _ (by omega), poolAdd_own h2 (hpget _ (by omega)), ?_⟩
      rw [lookup_none_iff]
      rintro ⟨x, k, b⟩ hm
      have := (hw.mto _ _ _ _ hm).2.1
      omega)
  rw [hloop]
  obtain ⟨f1, f2, f3, f4, f5, f6, f7⟩ := freshFix_fields (List.range' 1 n)
    ({ st with pool := st.pool ++ fakes st.pool.length n, exprs := st.exprs ++ fakes st.pool.length n } : St F)
  refine ⟨_, rfl, ⟨?_, ?_, ?_, ?_, ?_, le_refl _⟩, ?_, f2, f1, f3, f5, f4⟩
  · rw [f1]; exact h2
  · rw [f2]; simp only; rw [List.getElem?_append_left hpos]; exact hw.head
  · rw [f1, f2]
    simp only
    intro i e he
    by_cases hlt : i < st.exprs.length
    · rw [List.getElem?_append_left hlt] at he
      exact (hw.exprs i e he).mono (by omega)
    · rw [List.getElem?_append_right (by omega), fakes_get] at he
      rw [he.2]
      exact eok_linear (by omega) one_ne_zero
  · rw [f1, f2]
    intro m x k b hm
    rw [f6] at hm
    simp only at hm ⊢
    rcases hm with hm | ⟨i, hi, rfl, rfl, rfl, rfl⟩
    · obtain ⟨g1, g2, g3, g4, d, co, cc, g5, g6, g7, g8, g9⟩ := hw.mto _ _ _ _ hm
      exact ⟨g1, by omega, g3, by omega, d, co, cc, by rw [List.getElem?_append_left g4]; exact g5, g6, g7, g8,
        fun E ρ hρ => g9 E ρ (hρ.prefix (List.prefix_append _ _))⟩
    · rw [List.mem_range'_1] at hi
      have e1 : (st.pool ++ fakes st.pool.length n : Pool F).length - i = st.pool.length + (n - i) := by omega
      have e2 : (st.exprs ++ fakes st.pool.length n).length - i = st.exprs.length + (n - i) := by omega
      rw [e1, e2]
      refine ⟨by omega, by omega, by omega, by omega, _, 1, 0, heget _ (by omega), one_ne_zero, by simp, by simp, fun E ρ _ => ?_⟩
      rw [value_linear]; ring
  · intro e j hm
    rw [f7] at hm
    rw [f2]
    simp only at hm ⊢
    rcases hm with hm | ⟨i, hi, rfl, rfl⟩
    · obtain ⟨g1, g2⟩ := hw.eto e j hm
      exact ⟨g1, by rw [List.getElem?_append_left (List.getElem?_eq_some_iff.1 g2).1]; exact g2⟩
    · rw [List.mem_range'_1] at hi
      have e1 : (st.pool ++ fakes st.pool.length n : Pool F).length - i = st.pool.length + (n - i) := by omega
      have e2 : (st.exprs ++ fakes st.pool.length n).length - i = st.exprs.length + (n - i) := by omega
      rw [e1, e2]
      exact ⟨by omega, heget _ (by omega)⟩
  · intro i e hi he
    rw [f2] at he
    simp only at he
    by_cases hlt : i < st.exprs.length
    · rw [List.getElem?_append_left hlt] at he
      obtain ⟨j, hj⟩ := hf i e hi he
      exact ⟨j, (f7 e j).2 (Or.inl hj)⟩
    · rw [List.getElem?_append_right (by omega), fakes_get] at he
      refine ⟨st.exprs.length + (i - st.exprs.length), (f7 e _).2 (Or.inr ⟨n - (i - st.exprs.length), ?_, ?_, ?_⟩)⟩
      · rw [List.mem_range'_1]; omega
      · rw [he.2]; simp only [hpl]; congr 3; omega
      · simp only [hel]; omega

end Verif.Builder
