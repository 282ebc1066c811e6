import Verif.Builder.Exec

/-!
# The expansions are well-formed requests
-/

set_option linter.unusedSectionVars false
set_option linter.unusedSimpArgs false
set_option linter.unusedVariables false

namespace Verif.Builder

open Verif.IR Verif.Hints Verif.IR.HintExport

variable {F : Type} [Field F] [DecidableEq F]

theorem evs_boolCond {npi n a m : Nat} (hm : 0 < m) (hn : n = m) (ha : a ≠ 0) (hb : a < n) : EvsOk (F := F) npi n (boolCond m a) := by
  subst hn
  simp [boolCond, EvsOk, constI, subI, lc2, mulI, HintNorm.Insn.inputs, LinComb.vars, HintNorm.Insn.valid, Coef.valid, HintNorm.Insn.numOutputs]
  omega

theorem outN_boolCond (n a : Nat) : outN (F := F) (boolCond n a) = 3 := rfl

theorem pushes_boolCond (n a : Nat) : ∀ j ∈ pushes (F := F) (boolCond n a), j.asCall = none := by
  simp [boolCond, pushes, constI, subI, lc2, mulI, HintNorm.Insn.asCall]

theorem evs_bitsLoop {npi : Nat} : ∀ (bits : List Nat) (n sum : Nat) (coef : F), 0 < n → sum ≠ 0 → sum < n → (∀ b ∈ bits, b ≠ 0 ∧ b < n) →
    EvsOk npi n (bitsLoop n sum coef bits).1 ∧ outN (bitsLoop n sum coef bits).1 = 5 * bits.length ∧
    (bitsLoop n sum coef bits).2 ≠ 0 ∧ (bitsLoop n sum coef bits).2 < n + 5 * bits.length ∧ marks (bitsLoop n sum coef bits).1 = [] ∧
    ∀ j ∈ pushes (bitsLoop n sum coef bits).1, j.asCall = none := by
  intro bits
  induction bits with
  | nil => intro n sum coef h0 h1 h2 h3; simp [bitsLoop, EvsOk, outN, marks, pushes, h1, h2]
  | cons b bits ih =>
    intro n sum coef h0 h1 h2 h3
    obtain ⟨g1, g2, g3, g4, g5, g6⟩ := ih (n + 5) (n + 4) (coef + coef) (by omega) (by omega) (by omega) (fun c hc => by
      have := h3 c (by simp [hc]); omega)
    have hb := h3 b (by simp)
    simp only [bitsLoop, assertBool]
    refine ⟨?_, ?_, g3, ?_, ?_, ?_⟩
    · rw [evsOk_append, evsOk_append, evsOk_append, outN_append, outN_append, outN_boolCond]
      refine ⟨⟨⟨evs_boolCond h0 rfl hb.1 hb.2, ?_⟩, ?_⟩, ?_⟩
      · simp [EvsOk]
      · simp [EvsOk, outN, outN_boolCond, addI, lc2, HintNorm.Insn.inputs, LinComb.vars, HintNorm.Insn.valid, HintNorm.Insn.numOutputs]; omega
      · simpa [outN_append, outN, outN_boolCond, addI, lc2, HintNorm.Insn.numOutputs] using g1
    · simp [outN_append, outN_boolCond, outN, g2, addI, lc2, HintNorm.Insn.numOutputs]; omega
    · simp only [List.length_cons]; omega
    · simp [marks_append, marks, g5, boolCond]
    · intro j hj
      simp only [pushes_append, pushes, List.mem_append, List.append_nil, List.mem_cons, List.not_mem_nil, or_false] at hj
      rcases hj with (hj | rfl | rfl) | hj
      · exact pushes_boolCond _ _ j hj
      · rfl
      · rfl
      · exact g6 j hj

/-- An expansion consists of valid requests; its results are existing variables; it asserts nothing after marking. -/
structure ExpOk (npi n : Nat) (i : Source.Insn F) (es : List (Ev F)) (vars : List Nat) : Prop where
  evs : EvsOk npi n es
  res : ∀ v ∈ vars, v ≠ 0 ∧ v < n + outN es
  len : vars.length = i.numOutputs
  split : ∃ e1 e2, es = e1 ++ e2 ∧ marks e1 = [] ∧ asserts e2 = []
  prim : i.asCall = none → ∀ j ∈ pushes es, j.asCall = none
  call : ∀ c xs k, i = .call c xs k → es = [.push (.call c xs k)] ∧ vars = newIds n k

theorem expOk_one {npi n : Nat} {i : Source.Insn F} {j : HintNorm.Insn F} (hn : 0 < n) (hin : ∀ x ∈ j.inputs, x ≠ 0 ∧ x < n) (hv : j.valid npi = true)
    (h1 : i.numOutputs = 1) (h2 : j.numOutputs = 1) (h3 : j.asCall = none) (h4 : ∀ c xs k, i ≠ .call c xs k) : ExpOk npi n i [.push j] [n] where
  evs := ⟨hin, hv, trivial⟩
  res := by simp [outN, h2]; omega
  len := by simp [h1]
  split := ⟨[.push j], [], rfl, rfl, rfl⟩
  prim := by simp [pushes, h3]
  call := fun c xs k h => absurd h (h4 c xs k)

theorem uop_valid (op : Source.UOp) : validateHint (uopId op).toNat 2 1 = true := by
  cases op <;> rfl

theorem expand_ok {npi n : Nat} (hn : 0 < n) {cn : Canon F} {cv : Nat → Option F} {i : Source.Insn F} (hin : ∀ x ∈ i.inputs, x ≠ 0 ∧ x < n)
    (hv : i.valid npi = true) {es : List (Ev F)} {vars : List Nat} (h : expand cn cv n i = some (es, vars)) : ExpOk npi n i es vars := by
  cases i with
  | linComb lc =>
    simp only [expand, Option.some.injEq, Prod.mk.injEq] at h; obtain ⟨rfl, rfl⟩ := h
    exact expOk_one hn hin rfl rfl rfl rfl (by simp)
  | mul xs =>
    simp only [expand, Option.some.injEq, Prod.mk.injEq] at h; obtain ⟨rfl, rfl⟩ := h
    exact expOk_one hn hin hv rfl rfl rfl (by simp)
  | constantLike c =>
    simp only [expand, Option.some.injEq, Prod.mk.injEq] at h; obtain ⟨rfl, rfl⟩ := h
    exact expOk_one hn hin hv rfl rfl rfl (by simp)
  | customGate g xs =>
    simp only [expand, Option.some.injEq, Prod.mk.injEq] at h; obtain ⟨rfl, rfl⟩ := h
    exact expOk_one hn hin hv rfl rfl rfl (by simp)
  | commit xs =>
    simp only [expand, Option.some.injEq, Prod.mk.injEq] at h; obtain ⟨rfl, rfl⟩ := h
    exact expOk_one hn (by simp [HintNorm.Insn.inputs]) rfl rfl rfl rfl (by simp)
  | hint id xs k =>
    simp only [expand, Option.some.injEq, Prod.mk.injEq] at h; obtain ⟨rfl, rfl⟩ := h
    exact {
      evs := ⟨hin, hv, trivial⟩
      res := by simp [newIds, outN, HintNorm.Insn.numOutputs, List.mem_range'_1]; omega
      len := by simp [newIds, Source.Insn.numOutputs]
      split := ⟨_, [], by rw [List.append_nil], rfl, rfl⟩
      prim := by simp [pushes, HintNorm.Insn.asCall]
      call := by simp }
  | call c xs k =>
    simp only [expand, Option.some.injEq, Prod.mk.injEq] at h; obtain ⟨rfl, rfl⟩ := h
    exact {
      evs := ⟨hin, rfl, trivial⟩
      res := by simp [newIds, outN, HintNorm.Insn.numOutputs, List.mem_range'_1]; omega
      len := by simp [newIds, Source.Insn.numOutputs]
      split := ⟨_, [], by rw [List.append_nil], rfl, rfl⟩
      prim := by simp [Source.Insn.asCall]
      call := by rintro c xs k h; cases h; exact ⟨rfl, rfl⟩ }
  | div x y checked =>
    have hx := hin x (by simp [Source.Insn.inputs])
    have hy := hin y (by simp [Source.Insn.inputs])
    simp only [expand] at h
    cases hcy : cv y with
    | some yv =>
      rw [hcy] at h
      simp only at h
      split at h
      · cases h
      · simp only [Option.some.injEq, Prod.mk.injEq] at h; obtain ⟨rfl, rfl⟩ := h
        exact {
          evs := by
            simp [EvsOk, constI, mulI, HintNorm.Insn.inputs, HintNorm.Insn.valid, Coef.valid, HintNorm.Insn.numOutputs]; omega
          res := by simp [outN, constI, mulI, HintNorm.Insn.numOutputs]
          len := rfl
          split := ⟨_, [], by rw [List.append_nil], rfl, rfl⟩
          prim := by simp [pushes, constI, mulI, HintNorm.Insn.asCall]
          call := by simp }
    | none =>
      rw [hcy] at h
      simp only at h
      cases checked with
      | true =>
        simp only [if_true, Option.some.injEq, Prod.mk.injEq] at h; obtain ⟨rfl, rfl⟩ := h
        exact {
          evs := by
            simp [EvsOk, constI, mulI, subI, lc2, hintI, LinComb.vars, HintNorm.Insn.inputs, HintNorm.Insn.valid, Coef.valid, HintNorm.Insn.numOutputs]
            have : validateHint Id.div.toNat 2 1 = true := rfl
            simp [this]
            omega
          res := by simp [outN, constI, mulI, subI, lc2, hintI, HintNorm.Insn.numOutputs]
          len := rfl
          split := ⟨_, [], by rw [List.append_nil], rfl, rfl⟩
          prim := by simp [pushes, constI, mulI, subI, lc2, hintI, HintNorm.Insn.asCall]
          call := by simp }
      | false =>
        simp only [Bool.false_eq_true, if_false, Option.some.injEq, Prod.mk.injEq] at h; obtain ⟨rfl, rfl⟩ := h
        exact {
          evs := by
            simp [EvsOk, constI, mulI, subI, lc2, hintI, LinComb.vars, HintNorm.Insn.inputs, HintNorm.Insn.valid, Coef.valid, HintNorm.Insn.numOutputs]
            have : validateHint Id.div.toNat 2 1 = true := rfl
            simp [this]
            omega
          res := by simp [outN, constI, mulI, subI, lc2, hintI, HintNorm.Insn.numOutputs]; omega
          len := rfl
          split := ⟨_, [], by rw [List.append_nil], rfl, rfl⟩
          prim := by simp [pushes, constI, mulI, subI, lc2, hintI, HintNorm.Insn.asCall]
          call := by simp }
  | boolBinOp x y op =>
    have hx := hin x (by simp [Source.Insn.inputs])
    have hy := hin y (by simp [Source.Insn.inputs])
    simp only [expand, Option.some.injEq, Prod.mk.injEq] at h; obtain ⟨rfl, rfl⟩ := h
    have t1 : EvsOk (F := F) npi (n + 6) (boolTail (n + 6) x y op).1 ∧ asserts (F := F) (boolTail (n + 6) x y op).1 = [] ∧
        (∀ v ∈ (boolTail (F := F) (n + 6) x y op).2, v ≠ 0 ∧ v < n + 6 + outN (F := F) (boolTail (n + 6) x y op).1) ∧
        (boolTail (F := F) (n + 6) x y op).2.length = 1 ∧ (∀ j ∈ pushes (F := F) (boolTail (n + 6) x y op).1, j.asCall = none) := by
      cases op <;>
        (simp [boolTail, markBool, boolCond, EvsOk, constI, addI, mulI, subI, lc2, LinComb.vars, HintNorm.Insn.inputs, HintNorm.Insn.valid, Coef.valid,
          HintNorm.Insn.numOutputs, asserts, outN, pushes, HintNorm.Insn.asCall]; omega)
    obtain ⟨t1, t2, t3, t4, t5⟩ := t1
    have o : ∀ m a, outN (F := F) (assertBool m a) = 3 := fun m a => rfl
    exact {
      evs := by
        rw [evsOk_append, evsOk_append, outN_append, o, o]
        refine ⟨⟨?_, ?_⟩, t1⟩
        · rw [assertBool, evsOk_append]
          exact ⟨evs_boolCond hn rfl hx.1 hx.2, by simp [EvsOk, outN_boolCond]⟩
        · rw [assertBool, evsOk_append]
          refine ⟨evs_boolCond (by omega) rfl hy.1 (by omega), ?_⟩
          simp [EvsOk, outN_boolCond]
      res := by rw [outN_append, outN_append, o, o]; intro v hv; have := t3 v hv; omega
      len := t4
      split := ⟨_, _, rfl, rfl, t2⟩
      prim := by
        intro _ j hj
        simp only [assertBool, pushes_append, pushes, List.append_nil, List.mem_append] at hj
        rcases hj with (hj | hj) | hj
        · exact pushes_boolCond _ _ j hj
        · exact pushes_boolCond _ _ j hj
        · exact t5 j hj
      call := by simp }
  | isZero x =>
    have hx := hin x (by simp [Source.Insn.inputs])
    simp only [expand] at h
    cases hcx : cv x with
    | some xv =>
      rw [hcx] at h
      simp only [Option.some.injEq, Prod.mk.injEq] at h; obtain ⟨rfl, rfl⟩ := h
      exact expOk_one hn (by simp [constI, HintNorm.Insn.inputs]) rfl rfl rfl rfl (by simp)
    | none =>
      rw [hcx] at h
      simp only [Option.some.injEq, Prod.mk.injEq] at h; obtain ⟨rfl, rfl⟩ := h
      exact {
        evs := by
          simp [markBool, boolCond, EvsOk, constI, mulI, subI, lc2, hintI, LinComb.vars, HintNorm.Insn.inputs, HintNorm.Insn.valid, Coef.valid, HintNorm.Insn.numOutputs]
          have : validateHint Id.div.toNat 2 1 = true := rfl
          simp [this]
          omega
        res := by simp [markBool, boolCond, outN, constI, mulI, subI, lc2, hintI, HintNorm.Insn.numOutputs]
        len := rfl
        split := ⟨_, _, rfl, rfl, rfl⟩
        prim := by simp [markBool, boolCond, pushes, constI, mulI, subI, lc2, hintI, HintNorm.Insn.asCall]
        call := by simp }
  | unconstrainedBinOp x y op =>
    simp only [expand] at h
    have hnt : ExpOk (F := F) npi n (.unconstrainedBinOp x y op) [.push (hintI (uopId op) [x, y] 1)] [n] :=
      expOk_one hn hin (by simp [hintI, HintNorm.Insn.valid, uop_valid]) rfl rfl rfl (by simp)
    cases hcx : cv x with
    | none =>
      rw [hcx] at h
      simp only [Option.some.injEq, Prod.mk.injEq] at h; obtain ⟨rfl, rfl⟩ := h
      exact hnt
    | some xv =>
      cases hcy : cv y with
      | none =>
        rw [hcx, hcy] at h
        simp only [Option.some.injEq, Prod.mk.injEq] at h; obtain ⟨rfl, rfl⟩ := h
        exact hnt
      | some yv =>
        rw [hcx, hcy] at h
        simp only at h
        split at h
        · simp only [Option.some.injEq, Prod.mk.injEq] at h; obtain ⟨rfl, rfl⟩ := h
          exact expOk_one hn (by simp [constI, HintNorm.Insn.inputs]) rfl rfl rfl rfl (by simp)
        · cases h
  | unconstrainedSelect c a f =>
    have hc := hin c (by simp [Source.Insn.inputs])
    have ha := hin a (by simp [Source.Insn.inputs])
    have hf := hin f (by simp [Source.Insn.inputs])
    simp only [expand] at h
    cases hcc : cv c with
    | some cv' =>
      rw [hcc] at h
      simp only [Option.some.injEq, Prod.mk.injEq] at h; obtain ⟨rfl, rfl⟩ := h
      exact {
        evs := trivial
        res := by
          intro v hv
          simp only [List.mem_singleton] at hv
          subst hv
          simp only [outN]
          split <;> omega
        len := rfl
        split := ⟨[], [], rfl, rfl, rfl⟩
        prim := by simp [pushes]
        call := by simp }
    | none =>
      rw [hcc] at h
      simp only [Option.some.injEq, Prod.mk.injEq] at h; obtain ⟨rfl, rfl⟩ := h
      exact expOk_one hn hin (by rfl) rfl rfl rfl (by simp)
  | toBinary x k =>
    have hx := hin x (by simp [Source.Insn.inputs])
    simp only [expand, Option.some.injEq, Prod.mk.injEq] at h; obtain ⟨rfl, rfl⟩ := h
    have hk : 0 < k := by simpa [Source.Insn.valid] using hv
    obtain ⟨g1, g2, g3, g4, g5, g6⟩ := evs_bitsLoop (npi := npi) (newIds n k) (n + k + 1) (n + k) (1 : F) (by omega) (by omega) (by omega) (by
      intro b hb; simp only [newIds, List.mem_range'_1] at hb; omega)
    have hl : (newIds n k).length = k := by simp [newIds]
    rw [hl] at g2 g4
    have hval : validateHint Id.toBinary.toNat 1 k = true := by
      have : validateHint Id.toBinary.toNat 1 k = validateBuiltin .toBinary 1 k := rfl
      rw [this]; simp [validateBuiltin]; omega
    exact {
      evs := by
        rw [evsOk_append, evsOk_append, outN_append, g2]
        refine ⟨⟨?_, ?_⟩, ?_⟩
        · simp [EvsOk, hintI, constI, HintNorm.Insn.inputs, HintNorm.Insn.valid, Coef.valid, HintNorm.Insn.numOutputs, hval]; omega
        · simpa [outN, hintI, constI, HintNorm.Insn.numOutputs, Nat.add_assoc] using g1
        · simp [EvsOk, lc2, HintNorm.Insn.inputs, LinComb.vars, HintNorm.Insn.valid, HintNorm.Insn.numOutputs, outN, hintI, constI]; omega
      res := by
        intro v hv
        simp only [newIds, List.mem_range'_1] at hv
        rw [outN_append, outN_append, g2]
        simp [outN, hintI, constI, lc2, HintNorm.Insn.numOutputs]; omega
      len := by rw [hl]; rfl
      split := ⟨_, [], by rw [List.append_nil], by simp [marks_append, marks, g5], rfl⟩
      prim := by
        intro _ j hj
        simp only [pushes_append, pushes, List.mem_append, List.mem_cons, List.not_mem_nil, or_false] at hj
        rcases hj with ((rfl | rfl) | hj) | rfl
        · rfl
        · rfl
        · exact g6 j hj
        · rfl
      call := by simp }

theorem expandCon_ok {npi n v : Nat} (hn : 0 < n) (h0 : v ≠ 0) (hv : v < n) (typ : Source.Con) :
    EvsOk (F := F) npi n (expandCon n v typ) ∧ marks (F := F) (expandCon n v typ) = [] ∧ ∀ j ∈ pushes (F := F) (expandCon n v typ), j.asCall = none := by
  cases typ with
  | zero => simp [expandCon, EvsOk, marks, pushes, h0, hv]
  | bool =>
    simp [expandCon, assertBool, boolCond, EvsOk, constI, mulI, subI, lc2, LinComb.vars, HintNorm.Insn.inputs, HintNorm.Insn.valid, Coef.valid,
      HintNorm.Insn.numOutputs, marks, pushes, HintNorm.Insn.asCall]; omega
  | nonZero =>
    simp [expandCon, EvsOk, constI, mulI, subI, lc2, hintI, LinComb.vars, HintNorm.Insn.inputs, HintNorm.Insn.valid, Coef.valid,
      HintNorm.Insn.numOutputs, marks, pushes, HintNorm.Insn.asCall]
    have : validateHint Id.div.toNat 2 1 = true := rfl
    simp [this]
    omega

end Verif.Builder
