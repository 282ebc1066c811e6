import Verif.Compile.SrcRand

/-!
# Circuits without marks

Boolean operations, zero tests and bit decompositions make hint normalisation *mark* expressions as known to be zero.  Without them no
recorded assertion can be replaced by a mark, so all assertions of the circuit are kept.
-/

set_option linter.unusedSectionVars false
set_option linter.unusedSimpArgs false

namespace Verif.Compile

open Verif.IR Verif.IR.HintExport Verif.Builder

variable {F : Type} [Field F] [DecidableEq F]

/-- The instruction is not a boolean operation, zero test or bit decomposition. -/
def PlainIns : Source.Insn F → Prop
  | .boolBinOp _ _ _ => False
  | .isZero _ => False
  | .toBinary _ _ => False
  | _ => True

theorem plainIns_stable : Stable (PlainIns (F := F)) where
  replace := by
    intro i f h
    cases i <;> simp_all [PlainIns, Source.Insn.replaceVars]
  lin := fun _ => trivial
  mul := fun _ => trivial
  call := fun _ _ _ => trivial

/-- No assertion has been replaced. -/
def NO (st : St F) : Prop := st.overwrote = false

theorem fixOne_no {one : Bool} {st st' : St F} {i : Nat} (h : NO st) (e : fixOne one st i = some st') : NO st' := by
  unfold fixOne at e
  split at e
  · cases e
  · split at e
    · cases e
    · split at e
      · split at e
        · split at e
          · cases e
          · cases e; exact h
        · cases e
      · split at e
        · split at e
          · split at e
            · cases e
            · cases e; exact h
          · cases e
        · split at e
          · cases e
          · cases e; exact h

theorem fixLoop_no {one : Bool} : ∀ (is : List Nat) {st st' : St F}, NO st → fixLoop one is st = some st' → NO st' := by
  intro is
  induction is with
  | nil => intro st st' h e; cases e; exact h
  | cons i is ih =>
    intro st st' h e
    simp only [fixLoop] at e
    cases hf : fixOne one st i with
    | none => rw [hf] at e; cases e
    | some s => rw [hf] at e; exact ih (fixOne_no h hf) e

theorem newVars_no : ∀ (n : Nat) {st st' : St F}, NO st → newVars n st = some st' → NO st' := by
  intro n
  induction n with
  | zero => intro st st' h e; cases e; exact h
  | succ n ih =>
    intro st st' h e
    simp only [newVars] at e
    split at e
    · refine ih ?_ e; exact h
    · cases e

theorem addOutVars_no {n : Nat} {st st' : St F} (h : NO st) (e : addOutVars n st = some st') : NO st' := by
  unfold addOutVars at e
  cases hf : newVars n st with
  | none => rw [hf] at e; cases e
  | some s => rw [hf] at e; exact fixLoop_no _ (newVars_no n h hf) e

theorem addExpr_no {st st' : St F} {r : Option (Pool F × Expr F)} (h : NO st) (e : addExpr st r = some st') : NO st' := by
  unfold addExpr at e
  cases r with
  | none => cases e
  | some q => refine fixLoop_no _ (st := { st with pool := q.1, exprs := st.exprs ++ [q.2] }) ?_ e; exact h

theorem executeOut_no {srt : List (Expr F) → List (Expr F)} {st st' : St F} {i : HintNorm.Insn F} (h : NO st) (e : executeOut srt st i = some st') : NO st' := by
  cases i with
  | linComb lc =>
    simp only [executeOut, addLinComb] at e
    split at e
    · cases e
    · exact addExpr_no h e
  | mul xs =>
    simp only [executeOut, addMulVec] at e
    split at e
    · cases e
    · split at e
      · exact addExpr_no h e
      · cases e
  | hint id xs n => exact addOutVars_no h e
  | constantLike c =>
    cases c with
    | const k => exact addExpr_no (r := some (st.pool, [⟨k, .const⟩])) h e
    | random => exact addOutVars_no h e
    | pub k => exact addOutVars_no h e
  | call c xs n =>
    simp only [executeOut, subCircuitCall] at e
    split at e
    · cases e
    · refine addOutVars_no ?_ e; exact h
  | customGate g xs => exact addOutVars_no h e

/-- The request is not a mark. -/
def EvPlain : Ev F → Prop
  | .mark _ => False
  | _ => True

theorem exec_no {srt : List (Expr F) → List (Expr F)} : ∀ (es : List (Ev F)) {st st' : St F}, (∀ e ∈ es, EvPlain e) → NO st → exec srt st es = some st' → NO st' := by
  intro es
  induction es with
  | nil => intro st st' _ h e; cases e; exact h
  | cons ev es ih =>
    intro st st' he h e
    simp only [exec] at e
    cases hf : exec1 srt st ev with
    | none => rw [hf] at e; cases e
    | some s =>
      rw [hf] at e
      refine ih (fun x hx => he x (by simp [hx])) ?_ e
      cases ev with
      | push i => exact executeOut_no (st := { st with insns := st.insns ++ [i] }) h hf
      | assert v =>
        simp only [exec1, assertVar] at hf
        split at hf
        · cases hf
        · split at hf <;> (cases hf; exact h)
      | mark v => exact (he (.mark v) (by simp)).elim

theorem expand_plain {cn : Canon F} {cv : Nat → Option F} {n : Nat} {i : Source.Insn F} (hi : PlainIns i) {es : List (Ev F)} {vars : List Nat}
    (h : expand cn cv n i = some (es, vars)) : ∀ e ∈ es, EvPlain e := by
  cases i with
  | linComb lc => cases h; simp [EvPlain]
  | mul xs => cases h; simp [EvPlain]
  | div x y checked =>
    simp only [expand] at h
    split at h
    · split at h
      · cases h
      · cases h; simp [EvPlain]
    · split at h <;> (cases h; simp [EvPlain])
  | boolBinOp x y op => exact hi.elim
  | isZero x => exact hi.elim
  | commit v => cases h; simp [EvPlain]
  | hint id xs k => cases h; simp [EvPlain]
  | constantLike c => cases h; simp [EvPlain]
  | call c xs k => cases h; simp [EvPlain]
  | unconstrainedBinOp x y op =>
    simp only [expand] at h
    split at h
    · split at h
      · cases h; simp [EvPlain]
      · cases h
    · cases h; simp [EvPlain]
  | unconstrainedSelect c t f =>
    simp only [expand] at h
    split at h
    · cases h; simp
    · cases h; simp [EvPlain]
  | customGate g xs => cases h; simp [EvPlain]
  | toBinary x k => exact hi.elim

theorem expandCon_plain (n v : Nat) (c : Source.Con) : ∀ e ∈ (expandCon n v c : List (Ev F)), EvPlain e := by
  cases c <;> simp [expandCon, EvPlain, assertBool, boolCond]

theorem processInsns_no {cn : Canon F} {srt : List (Expr F) → List (Expr F)} : ∀ (is : List (Source.Insn F)) {ps ps' : PSt F}, (∀ i ∈ is, PlainIns i) → NO ps.st →
    processInsns cn srt ps is = .ok ps' → NO ps'.st := by
  intro is
  induction is with
  | nil => intro ps ps' _ h e; cases e; exact h
  | cons i is ih =>
    intro ps ps' hi h e
    simp only [processInsns] at e
    cases hp : processInsn cn srt ps i with
    | panic => rw [hp] at e; cases e
    | userError => rw [hp] at e; cases e
    | ok q =>
      rw [hp] at e
      refine ih (fun j hj => hi j (by simp [hj])) ?_ e
      unfold processInsn at hp
      cases hx : expand cn (constOf ps.st) ps.st.exprs.length (i.replaceVars (vmGet ps.ito)) with
      | none => rw [hx] at hp; cases hp
      | some r =>
        obtain ⟨es, vars⟩ := r
        rw [hx] at hp
        dsimp only at hp
        cases hy : exec srt ps.st es with
        | none => rw [hy] at hp; cases hp
        | some s =>
          rw [hy] at hp
          dsimp only at hp
          split at hp
          · cases hp; exact exec_no es (expand_plain (plainIns_stable.replace i _ (hi i (by simp))) hx) h hy
          · cases hp

theorem processCons_no {srt : List (Expr F) → List (Expr F)} : ∀ (cs : List (Source.Con × Nat)) {ps ps' : PSt F}, NO ps.st → processCons srt ps cs = .ok ps' → NO ps'.st := by
  intro cs
  induction cs with
  | nil => intro ps ps' h e; cases e; exact h
  | cons c cs ih =>
    intro ps ps' h e
    obtain ⟨t, v⟩ := c
    simp only [processCons] at e
    cases hp : processCon srt ps t v with
    | panic => rw [hp] at e; cases e
    | userError => rw [hp] at e; cases e
    | ok q =>
      rw [hp] at e
      refine ih ?_ e
      unfold processCon at hp
      cases hy : exec srt ps.st (expandCon ps.st.exprs.length (vmGet ps.ito v) t) with
      | none => rw [hy] at hp; cases hp
      | some s => rw [hy] at hp; cases hp; exact exec_no _ (expandCon_plain _ _ _) h hy

/-- Without marks every assertion is kept. -/
theorem plain_keeps {E : Env F} (cn : Canon F) (srt : List (Expr F) → List (Expr F)) {rc : RootCircuit (source E)} (h : AllInsn (L := source E) PlainIns rc) :
    KeepsAsserts cn srt rc := by
  intro c circ hg ps hb
  unfold buildCircuit at hb
  cases hi : initPs (F := F) circ.numInputs with
  | none => rw [hi] at hb; cases hb
  | some p0 =>
    rw [hi] at hb
    dsimp only at hb
    have h0 : NO p0.st := by
      unfold initPs at hi
      split at hi
      · cases hi
      · rename_i st hst; cases hi
        exact addOutVars_no (st := St.init) rfl hst
    cases hp : processInsns cn srt p0 circ.instructions with
    | panic => rw [hp] at hb; cases hb
    | userError => rw [hp] at hb; cases hb
    | ok p1 => rw [hp] at hb; exact processCons_no _ (processInsns_no _ (h c circ hg) h0 hp) hb

/-- The source circuit handed to hint normalisation keeps its assertions if the given circuit has no boolean operations, zero tests and bit
decompositions. -/
theorem trace_plain_keeps {E : Env F} (hE : E.HintLen) {P : Params F} {o : Options} {rc : RootCircuit (source E)} {t : Trace E} (h : compileTrace P o rc = some t)
    (hp : AllInsn (L := source E) PlainIns rc) : KeepsAsserts E.canon P.srt t.src := by
  unfold compileTrace at h
  by_cases ho : o.valid = true
  swap
  · rw [if_neg ho] at h; cases h
  rw [if_pos ho] at h
  simp only [Option.bind_eq_bind, Option.bind_eq_some_iff] at h
  obtain ⟨⟨src, hn, srcIm⟩, h1, ⟨hl, ex⟩, h2, ex', h3, ⟨relaxed, d, hlIm⟩, h4, ⟨lc0, size, order⟩, h5, lc, h6, im, h7, ex1, h8, ⟨ex2, im'⟩, h9, ex3, h10, solver, h11, h12⟩ := h
  cases h12
  exact plain_keeps _ _ (step1_src plainIns_stable hE h1 hp)

end Verif.Compile
