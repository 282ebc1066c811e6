import Verif.Layering.Chain
import Verif.Layering.Connect
import Verif.Layering.Bridge

/-!
# The root circuit: input layer, output layer, and the layered evaluation
-/

set_option linter.unusedSectionVars false
set_option linter.unusedSimpArgs false

namespace Verif.Layering

open Verif.IR (Expr Coef Term VarSpec Env Circuit RootCircuit dest WFGet WFAt WF CircOk InsnsOk EvalSub Eval validAt Calls)
open Verif.Layered (Segment Gate Input Alloc LEnv CoefVal layersSet Traces traces_eq rangeOf)

variable {F : Type} [Field F] [DecidableEq F]

/-- What `compile` did when it succeeded. -/
theorem compile_split {cross reorder : Bool} {pg : Nat → Option (Prog F)} {fuel npi k : Nat} {lc : Layered.Circuit F} {l0 : Nat} {order : List (Option Nat)}
    (h : compile cross reorder pg fuel npi k = some (lc, l0, order)) :
    ∃ c layouts ids segs, ctxOf cross pg fuel 0 = some c ∧ mapOpt (solve reorder (ctxOf cross pg fuel) fuel 0) (List.range (c.outL + 1)) = some layouts ∧
      connect (ctxOf cross pg fuel) fuel layouts [] = some (ids, segs) ∧ (layouts[0]?).bind (inputOrder c) = some order ∧
      lc = ⟨npi, c.prog.outs.length + (if c.cc.any Option.isSome then 1 else 0), k + (if c.cc.any Option.isSome then 1 else 0), segs, ids⟩ ∧
      lc.inputSize = some l0 := by
  unfold compile at h
  dsimp only at h
  cases hc : ctxOf cross pg fuel 0 with
  | none => rw [hc] at h; cases h
  | some c =>
    rw [hc] at h
    dsimp only at h
    cases hl : mapOpt (solve reorder (ctxOf cross pg fuel) fuel 0) (List.range (c.outL + 1)) with
    | none => rw [hl] at h; cases h
    | some layouts =>
      rw [hl] at h
      dsimp only at h
      cases hcn : connect (ctxOf cross pg fuel) fuel layouts [] with
      | none => rw [hcn] at h; cases h
      | some r =>
        obtain ⟨ids, segs⟩ := r
        rw [hcn] at h
        dsimp only at h
        cases ho : (layouts[0]?).bind (inputOrder c) with
        | none => rw [ho] at h; cases h
        | some o =>
          rw [ho] at h
          cases hi : (ids.head?).bind fun i => (segs[i]?).bind fun s => s.numInputs.head? with
          | none => rw [hi] at h; cases h
          | some n =>
            rw [hi] at h
            dsimp only at h
            simp only [Option.some.injEq, Prod.mk.injEq] at h
            obtain ⟨rfl, rfl, rfl⟩ := h
            exact ⟨c, layouts, ids, segs, rfl, hl, hcn, ho, rfl, hi⟩

theorem connect_len {tab : Nat → Option (Ctx F)} {fuel : Nat} {layouts : List Layout} {segs segs' : List (Segment F)} {ids : List Nat} {l0 : Layout} {c : Ctx F}
    (h : connect tab fuel layouts segs = some (ids, segs')) (hl : layouts.head? = some l0) (hc : tab l0.circ = some c) : ids.length = c.outL := by
  cases fuel with
  | zero => cases h
  | succ f =>
    cases layouts with
    | nil => cases hl
    | cons l rest =>
      simp only [List.head?_cons, Option.some.injEq] at hl
      subst hl
      unfold connect at h
      simp only [hc] at h
      split at h
      · cases h
      · split at h
        · cases h
        · split at h
          · cases h
          · split at h
            · cases h
            · split at h
              · cases h
              · split at h
                · cases h
                · simp only [Option.some.injEq, Prod.mk.injEq] at h
                  rw [← h.1]; simp

theorem defs_const : ∀ (is : List (Verif.IR.Dest.Insn F)) (k i : Nat) (a : Coef F), (defsOf is k)[i]? = some (.const a) → .constantLike a ∈ is := by
  intro is
  induction is with
  | nil => intro k i a h; simp [defsOf] at h
  | cons x is ih =>
    intro k i a h
    cases x with
    | internal e =>
      cases i with
      | zero => simp [defsOf] at h
      | succ i => exact List.mem_cons_of_mem _ (ih k i a (by simpa [defsOf] using h))
    | call c xs n =>
      simp only [defsOf] at h
      by_cases hi : i < n
      · rw [List.getElem?_append_left (by simpa using hi)] at h
        simp [List.getElem?_range hi] at h
      · rw [List.getElem?_append_right (by simp; omega)] at h
        exact List.mem_cons_of_mem _ (ih _ _ a h)
    | constantLike c =>
      cases i with
      | zero => simp [defsOf] at h; subst h; simp
      | succ i => exact List.mem_cons_of_mem _ (ih k i a (by simpa [defsOf] using h))

theorem insns_const {E : Env F} {npi : Nat} {a : Coef F} : ∀ (is : List (Verif.IR.Dest.Insn F)) (cur : Nat), InsnsOk (dest E false) (some npi) cur is → .constantLike a ∈ is → a.valid npi = true := by
  intro is
  induction is with
  | nil => intro cur _ h; cases h
  | cons x is ih =>
    intro cur h hm
    obtain ⟨-, h1, -, h2⟩ := h
    rcases List.mem_cons.1 hm with e | e
    · subst e
      simpa [validAt, Verif.IR.Dest.Insn.valid] using h1
    · exact ih _ h2 e

section root

variable {E : Env F} {V : LEnv F F} {get : Nat → Option (Circuit (dest E false))} {npi k fuel : Nat} {cross reorder : Bool}

theorem tabOk (hw : WFGet (some npi) get) : TabOk (progGet get) (ctxOf cross (progGet get) fuel) where
  ctx := fun id c h => table_ok hw fuel id c (le_refl _) h
  prog := fun id c h => by
    obtain ⟨circ, subs, h1, h2, h3, h4, -⟩ := table_step hw (le_refl fuel) h
    rw [h4, progGet, h1]; rfl
  cons := fun id c h v hv => by
    obtain ⟨circ, subs, h1, h2, h3, h4, -⟩ := table_step hw (le_refl fuel) h
    rw [h4] at hv ⊢
    exact (h2.cons v hv).2

/-- The result of `compile` satisfies everything the layer-by-layer argument needs. -/
theorem rootWired (hw : WFGet (some npi) get) (hV : EnvOk E V) (hpub : ∀ i < npi, V.pub i = some (E.pub i)) {c : Ctx F} {layouts : List Layout} {ids : List Nat} {segs : List (Segment F)}
    (hc : ctxOf cross (progGet get) fuel 0 = some c) (hl : mapOpt (solve reorder (ctxOf cross (progGet get) fuel) fuel 0) (List.range (c.outL + 1)) = some layouts)
    (hcn : connect (ctxOf cross (progGet get) fuel) fuel layouts [] = some (ids, segs)) :
    RootWired E V segs (ctxOf cross (progGet get) fuel) 0 c layouts ids := by
  have ht := tabOk (cross := cross) (fuel := fuel) hw
  have hok : ∀ L ∈ layouts, LayoutOk (ctxOf cross (progGet get) fuel) L ∧ L.circ = 0 := by
    intro L hL
    obtain ⟨i, _, hi⟩ := mapOpt_mem hl L hL
    have := solve_ok reorder _ _ _ _ hi
    exact ⟨this.1, this.2.1⟩
  obtain ⟨L0, h0⟩ : ∃ L0, layouts.head? = some L0 := by
    cases hlay : layouts with
    | nil =>
      have := Verif.mapOpt_length hl
      rw [hlay] at this
      simp at this
    | cons L rest => exact ⟨L, rfl⟩
  have hm0 : L0 ∈ layouts := List.mem_of_mem_head? h0
  obtain ⟨-, hlt, hwd⟩ := connect_spec ht.ctx fuel layouts [] ids segs (fun L hL => (hok L hL).1) hcn
  refine ⟨hV, ht.ctx, ?_, hc, ?_, fun L hL => (hok L hL).1, hlt, ?_⟩
  · intro id c' hc' x a hd y
    obtain ⟨circ, subs, h1, h2, h3, h4, -⟩ := table_step hw (le_refl fuel) hc'
    have hv : a.valid npi = true := by
      rw [h4] at hd
      unfold Prog.defn at hd
      split at hd
      · cases hd
      · exact insns_const _ _ (hw.circ id circ h1).insns (defs_const _ _ _ a hd)
    cases a with
    | const v => simp [CoefVal, Coef.Sem, hV.const]
    | random => simp [CoefVal, Coef.Sem]
    | pub i =>
      simp only [Coef.valid, decide_eq_true_eq] at hv
      simp [CoefVal, Coef.Sem, hpub i hv, eq_comm]
  · have := hwd L0 h0
    rwa [(hok L0 hm0).2] at this
  · exact connect_len hcn h0 (by rw [(hok L0 hm0).2]; exact hc)

end root

end Verif.Layering
