import Verif.Builder.Gadgets

/-!
# `expand` is complete, sound and well-formed
-/

set_option linter.unusedSectionVars false
set_option linter.unusedSimpArgs false
set_option linter.unusedVariables false

namespace Verif.Builder

open Verif.IR Verif.Hints Verif.IR.HintExport

variable {F : Type} [Field F] [DecidableEq F]

theorem read1 {vs : List F} {k : Nat} {x : F} (h : vs[k]? = some x) : readAll vs [k] = some [x] := by
  simp [readAll, h]

theorem readAll_mapOpt (vs : List F) : ∀ l, readAll vs l = mapOpt (fun v => vs[v]?) l := by
  intro l
  induction l with
  | nil => rfl
  | cons a l ih =>
    simp only [readAll, mapOpt, ih]
    cases vs[a]? <;> cases mapOpt (fun v => vs[v]?) l <;> rfl

theorem read_new (ws outs s : List F) : readAll (ws ++ (outs ++ s)) (newIds ws.length outs.length) = some outs := by
  refine readAll_eq_some_iff.2 ⟨by simp [newIds], ?_⟩
  intro j v hj
  simp only [newIds] at hj
  obtain ⟨hlt, hv⟩ := List.getElem?_eq_some_iff.1 hj
  simp at hlt hv
  subst hv
  rw [new rfl, List.getElem?_append_left hlt]
  simp [hlt]

theorem args1 {val : Nat → Option F} {x : Nat} {args : List F} (h : mapOpt val [x] = some args) : ∃ a, args = [a] ∧ val x = some a := by
  obtain ⟨a, r, h1, h2, rfl⟩ := mapOpt_cons.1 h
  simp [mapOpt] at h2; subst h2
  exact ⟨a, rfl, h1⟩

theorem args2 {val : Nat → Option F} {x y : Nat} {args : List F} (h : mapOpt val [x, y] = some args) :
    ∃ a b, args = [a, b] ∧ val x = some a ∧ val y = some b := by
  obtain ⟨a, r, h1, h2, rfl⟩ := mapOpt_cons.1 h
  obtain ⟨b, rfl, h3⟩ := args1 h2
  exact ⟨a, b, rfl, h1, h3⟩

theorem args3 {val : Nat → Option F} {x y z : Nat} {args : List F} (h : mapOpt val [x, y, z] = some args) :
    ∃ a b c, args = [a, b, c] ∧ val x = some a ∧ val y = some b ∧ val z = some c := by
  obtain ⟨a, r, h1, h2, rfl⟩ := mapOpt_cons.1 h
  obtain ⟨b, c, rfl, h3, h4⟩ := args2 h2
  exact ⟨a, b, c, rfl, h1, h3, h4⟩

theorem bitsSum_toBinary (cn : Canon F) {x : F} {n : Nat} {outs : List F} (h : toBinary cn x n = some outs) :
    outs.length = n ∧ (∀ b ∈ outs, b = 0 ∨ b = 1) ∧ bitsSum outs = x := by
  have key : ∀ n y, (bitsRest n y).1.length = n ∧ (∀ b ∈ (bitsRest n y).1, b = 0 ∨ b = 1) ∧
      bitsSum ((bitsRest n y).1.map (fun b : Nat => (b : F))) + 2 ^ n * ((bitsRest n y).2 : F) = (y : F) := by
    intro n
    induction n with
    | zero => intro y; simp [bitsRest, bitsSum]
    | succ n ih =>
      intro y
      obtain ⟨h1, h2, h3⟩ := ih (y / 2)
      refine ⟨by simp [bitsRest, h1], ?_, ?_⟩
      · intro b hb
        simp only [bitsRest, List.mem_cons] at hb
        rcases hb with rfl | hb
        · omega
        · exact h2 b hb
      · simp only [bitsRest, List.map_cons, bitsSum]
        have e : ((y % 2 : Nat) : F) + 2 * ((y / 2 : Nat) : F) = (y : F) := by
          have : y % 2 + 2 * (y / 2) = y := Nat.mod_add_div y 2
          exact_mod_cast congrArg (Nat.cast (R := F)) this
        calc _ = ((y % 2 : Nat) : F) + 2 * (bitsSum ((bitsRest n (y / 2)).1.map (fun b : Nat => (b : F))) + 2 ^ n * ((bitsRest n (y / 2)).2 : F)) := by ring
          _ = _ := by rw [h3, e]
  obtain ⟨k1, k2, k3⟩ := key n (cn.toNat x)
  unfold toBinary at h
  simp only at h
  split at h
  · rename_i h0
    cases h
    refine ⟨by simp [k1], ?_, ?_⟩
    · intro b hb
      obtain ⟨c, hc, rfl⟩ := List.mem_map.1 hb
      rcases k2 c hc with rfl | rfl <;> simp
    · rw [h0, Nat.cast_zero, mul_zero, add_zero, cn.cast_toNat] at k3
      exact k3
  · cases h

section
variable {E : Env F} {get : Nat → Option (Circuit (hintNorm E))} {ws : List F} {cv : Nat → Option F}

/-- The same primitive, in both languages. -/
theorem run_one {i : HintNorm.Insn F} (hc : i.asCall = none) {outs : List F} (h : (hintNorm E).prim i (fun v => ws[v]?) outs) :
    Run get [i] ws (ws ++ outs) true := .prim hc h (.nil _)

theorem run_one_iff {i : HintNorm.Insn F} (hc : i.asCall = none) {ws' : List F} {b : Bool} :
    Run get [i] ws ws' b ↔ ∃ outs, (hintNorm E).prim i (fun v => ws[v]?) outs ∧ ws' = ws ++ outs ∧ b = true := by
  refine (run_prim_iff hc).trans (exists_congr (fun outs => and_congr_right (fun _ => ?_)))
  exact run_nil_iff

/-- The built-in hints in the expansions. -/
theorem div_hint (hB : E.Builtin) (x y : F) : E.hint Id.div.toNat [x, y] 1 [if y = 0 then 0 else x * y⁻¹] :=
  hB .div [x, y] 1 _ rfl rfl

theorem expand_complete (hE : E.HintLen) (hB : E.Builtin) {i : Source.Insn F} (hc : i.asCall = none)
    (hcv : ∀ v c, cv v = some c → ws[v]? = some c) {es : List (Ev F)} {vars : List Nat} (h : expand E.canon cv ws.length i = some (es, vars))
    {outs : List F} (hp : (source E).prim i (fun v => ws[v]?) outs) :
    ∃ t, Run get (pushes es) ws (ws ++ t) true ∧ readAll (ws ++ t) vars = some outs ∧
      ∀ v, v ∈ asserts es ∨ v ∈ marks es → (ws ++ t)[v]? = some 0 := by
  obtain ⟨args, ha, hs⟩ := hp
  have one : ∀ (j : HintNorm.Insn F), j.asCall = none → (hintNorm E).prim j (fun v => ws[v]?) outs → outs.length = 1 →
      ∃ t, Run get (pushes [.push j]) ws (ws ++ t) true ∧ readAll (ws ++ t) [ws.length] = some outs ∧
      ∀ v, v ∈ asserts [Ev.push j] ∨ v ∈ marks [Ev.push j] → (ws ++ t)[v]? = some 0 := by
    intro j h1 h2 h3
    refine ⟨outs, run_one h1 h2, ?_, by simp [asserts, marks]⟩
    obtain ⟨d, rfl⟩ := List.length_eq_one_iff.1 h3
    exact read1 ((new0 rfl).trans rfl)
  have many : ∀ (j : HintNorm.Insn F) k, j.asCall = none → (hintNorm E).prim j (fun v => ws[v]?) outs → outs.length = k →
      ∃ t, Run get (pushes [.push j]) ws (ws ++ t) true ∧ readAll (ws ++ t) (newIds ws.length k) = some outs ∧
      ∀ v, v ∈ asserts [Ev.push j] ∨ v ∈ marks [Ev.push j] → (ws ++ t)[v]? = some 0 := by
    intro j k h1 h2 h3
    refine ⟨outs, run_one h1 h2, ?_, by simp [asserts, marks]⟩
    have := read_new ws outs []
    rw [List.append_nil] at this
    rw [← h3]; exact this
  cases i with
  | linComb lc =>
    simp only [expand, Option.some.injEq, Prod.mk.injEq] at h; obtain ⟨rfl, rfl⟩ := h
    exact one _ rfl ⟨args, ha, hs⟩ (by simp only [Source.Insn.sem] at hs; simp [hs])
  | mul xs =>
    simp only [expand, Option.some.injEq, Prod.mk.injEq] at h; obtain ⟨rfl, rfl⟩ := h
    exact one _ rfl ⟨args, ha, hs⟩ (by simp only [Source.Insn.sem] at hs; simp [hs])
  | constantLike c =>
    simp only [expand, Option.some.injEq, Prod.mk.injEq] at h; obtain ⟨rfl, rfl⟩ := h
    exact one _ rfl ⟨args, ha, hs⟩ (by simp only [Source.Insn.sem] at hs; obtain ⟨y, _, rfl⟩ := hs; rfl)
  | customGate g xs =>
    simp only [expand, Option.some.injEq, Prod.mk.injEq] at h; obtain ⟨rfl, rfl⟩ := h
    exact one _ rfl ⟨args, ha, hs⟩ (by simp only [Source.Insn.sem] at hs; simp [hs])
  | commit xs => exact absurd hs (by simp [Source.Insn.sem])
  | call c xs k => cases hc
  | hint id xs k =>
    simp only [expand, Option.some.injEq, Prod.mk.injEq] at h; obtain ⟨rfl, rfl⟩ := h
    exact many _ k rfl ⟨args, ha, hs⟩ (hE _ _ _ _ hs)
  | div x y checked =>
    obtain ⟨vx, vy, rfl, hx, hy⟩ := args2 ha
    simp only [Source.Insn.sem] at hs
    simp only [expand] at h
    cases hcy : cv y with
    | some yv =>
      rw [hcy] at h
      simp only at h
      split at h
      · cases h
      · rename_i hy0
        simp only [Option.some.injEq, Prod.mk.injEq] at h; obtain ⟨rfl, rfl⟩ := h
        have : vy = yv := by have := hcv y yv hcy; rw [hy] at this; exact Option.some.inj this
        subst this
        rw [if_neg hy0] at hs
        refine ⟨[vy⁻¹, vx * vy⁻¹], ?_, ?_, by simp [asserts, marks]⟩
        · simp only [pushes]
          rw [app_nil_run, step_const, step_mul (old hx) (new0 rfl), run_nil_iff]
          simp
        · rw [hs]; exact read1 ((new rfl).trans rfl)
    | none =>
      rw [hcy] at h
      simp only at h
      cases checked with
      | true =>
        simp only [if_true, Option.some.injEq, Prod.mk.injEq] at h; obtain ⟨rfl, rfl⟩ := h
        have hy0 : vy ≠ 0 := by
          intro h0; rw [if_pos h0] at hs; exact absurd hs.2.1 (by simp)
        rw [if_neg hy0] at hs
        have hd := div_hint hB 1 vy
        rw [if_neg hy0, one_mul] at hd
        refine ⟨_, (run_divChecked hE hx hy).2 ⟨vy⁻¹, hd, rfl, rfl⟩, ?_, ?_⟩
        · rw [hs]; exact read1 ((new rfl).trans rfl)
        · intro v hv
          simp only [asserts, marks, List.mem_cons, List.not_mem_nil, or_false] at hv
          subst hv
          refine (new rfl).trans ?_
          simp [hy0]
      | false =>
        simp only [Bool.false_eq_true, if_false, Option.some.injEq, Prod.mk.injEq] at h; obtain ⟨rfl, rfl⟩ := h
        refine ⟨_, (run_divUnchecked hE hx hy).2 ⟨_, div_hint hB vx vy, rfl, rfl⟩, ?_, ?_⟩
        · refine (read1 ((new0 rfl).trans rfl)).trans ?_
          by_cases hy0 : vy = 0
          · rw [if_pos hy0] at hs ⊢; rw [hs.2.2]
          · rw [if_neg hy0] at hs ⊢; rw [hs]
        · intro v hv
          simp only [asserts, marks, List.mem_cons, List.not_mem_nil, or_false] at hv
          subst hv
          refine (new rfl).trans ?_
          by_cases hy0 : vy = 0
          · rw [if_pos hy0] at hs; simp [hy0, hs.1]
          · simp [hy0, mul_comm vx, mul_inv_cancel_left₀ hy0]
  | boolBinOp x y op =>
    obtain ⟨vx, vy, rfl, hx, hy⟩ := args2 ha
    simp only [Source.Insn.sem] at hs
    obtain ⟨bx, by', rfl⟩ := hs
    simp only [expand, Option.some.injEq, Prod.mk.injEq] at h; obtain ⟨rfl, rfl⟩ := h
    obtain ⟨s, h1, ⟨v, h2, h3⟩, h4, h5⟩ := run_boolBin (get := get) hx hy op
    refine ⟨s, (h1 _ _).2 ⟨rfl, rfl⟩, ?_, ?_⟩
    · rw [h2]; exact read1 h3
    · rintro v (hv | hv)
      · exact h4.2 ⟨(bool_iff vx).2 bx, (bool_iff vy).2 by'⟩ v hv
      · rw [h5 v hv, (bool_iff _).2 (boolOp_bool op bx by')]
  | isZero x =>
    obtain ⟨vx, rfl, hx⟩ := args1 ha
    simp only [Source.Insn.sem] at hs
    simp only [expand] at h
    cases hcx : cv x with
    | some xv =>
      rw [hcx] at h
      simp only [Option.some.injEq, Prod.mk.injEq] at h; obtain ⟨rfl, rfl⟩ := h
      have : vx = xv := by have := hcv x xv hcx; rw [hx] at this; exact Option.some.inj this
      subst this
      exact one _ rfl ((prim_const _ _ _).2 hs) (by simp [hs])
    | none =>
      rw [hcx] at h
      simp only [Option.some.injEq, Prod.mk.injEq] at h; obtain ⟨rfl, rfl⟩ := h
      refine ⟨_, (run_isZero hE hx).2 ⟨_, div_hint hB 1 vx, rfl, rfl⟩, ?_, ?_⟩
      · rw [hs]
        refine (read1 ((new rfl).trans rfl)).trans ?_
        by_cases h0 : vx = 0
        · simp [h0]
        · simp [h0]
      · intro v hv
        simp only [markBool, boolCond, asserts_append, marks_append, asserts, marks, List.append_nil, List.nil_append, List.cons_append, List.mem_cons,
          List.not_mem_nil, or_false] at hv
        rcases hv with rfl | rfl
        · refine (new rfl).trans ?_
          by_cases h0 : vx = 0 <;> simp [h0]
        · refine (new (k := 7) rfl).trans ?_
          by_cases h0 : vx = 0 <;> simp [h0]
  | unconstrainedBinOp x y op =>
    obtain ⟨vx, vy, rfl, hx, hy⟩ := args2 ha
    simp only [Source.Insn.sem] at hs
    obtain ⟨z, hz, rfl⟩ := hs
    simp only [expand] at h
    have hint : (hintNorm E).prim (hintI (uopId op) [x, y] 1) (fun v => ws[v]?) [z] :=
      (prim_hint _ _ _ [vx, vy] _ (by simp [mapOpt, hx, hy]) _).2 (hB _ _ _ _ (uop_hint E.canon op vx vy z hz) rfl)
    cases hcx : cv x with
    | none =>
      rw [hcx] at h
      simp only [Option.some.injEq, Prod.mk.injEq] at h; obtain ⟨rfl, rfl⟩ := h
      exact one _ rfl hint rfl
    | some xv =>
      cases hcy : cv y with
      | none =>
        rw [hcx, hcy] at h
        simp only [Option.some.injEq, Prod.mk.injEq] at h; obtain ⟨rfl, rfl⟩ := h
        exact one _ rfl hint rfl
      | some yv =>
        rw [hcx, hcy] at h
        have e1 : vx = xv := by have := hcv x xv hcx; rw [hx] at this; exact Option.some.inj this
        have e2 : vy = yv := by have := hcv y yv hcy; rw [hy] at this; exact Option.some.inj this
        subst e1; subst e2
        simp only [hz, Option.some.injEq, Prod.mk.injEq] at h; obtain ⟨rfl, rfl⟩ := h
        exact one _ rfl ((prim_const _ _ _).2 rfl) rfl
  | unconstrainedSelect c a f =>
    obtain ⟨vc, va, vf, rfl, hvc, hva, hvf⟩ := args3 ha
    simp only [Source.Insn.sem] at hs
    simp only [expand] at h
    cases hcc : cv c with
    | some cv' =>
      rw [hcc] at h
      simp only [Option.some.injEq, Prod.mk.injEq] at h; obtain ⟨rfl, rfl⟩ := h
      have e1 : vc = cv' := by have := hcv c cv' hcc; rw [hvc] at this; exact Option.some.inj this
      subst e1
      refine ⟨[], by rw [List.append_nil]; exact .nil _, ?_, by simp [asserts, marks]⟩
      rw [List.append_nil, hs]
      by_cases h0 : vc = 0
      · rw [if_pos h0, if_pos h0]; exact read1 hvf
      · rw [if_neg h0, if_neg h0]; exact read1 hva
    | none =>
      rw [hcc] at h
      simp only [Option.some.injEq, Prod.mk.injEq] at h; obtain ⟨rfl, rfl⟩ := h
      refine one _ rfl ((prim_hint _ _ _ [vc, va, vf] _ (by simp [mapOpt, hvc, hva, hvf]) _).2 (hB _ _ _ _ ?_ (by simp [hs]))) (by simp [hs])
      rw [hs]
      by_cases h0 : vc = 0 <;> simp [implBuiltin, h0]
  | toBinary x k =>
    obtain ⟨vx, rfl, hx⟩ := args1 ha
    simp only [Source.Insn.sem] at hs
    simp only [expand, Option.some.injEq, Prod.mk.injEq] at h; obtain ⟨rfl, rfl⟩ := h
    obtain ⟨b1, b2, b3⟩ := bitsSum_toBinary E.canon hs
    subst b1
    obtain ⟨s, h1, h2, h3⟩ := run_toBin (get := get) hx (outs := outs) (by
      rw [← readAll_mapOpt, List.append_assoc]; exact read_new ws outs [0])
    refine ⟨outs ++ s, ?_, read_new ws outs s, ?_⟩
    · simp only [pushes_append, pushes, List.cons_append, List.nil_append, List.append_nil]
      rw [hintI, app_nil_run, step_hint (args := [vx]) (by simp [mapOpt, hx])]
      refine ⟨outs, hB .toBinary [vx] _ _ hs rfl, ?_⟩
      exact (h1 _ _).2 ⟨rfl, rfl⟩
    · have h4 := h2.2 ⟨b2, b3⟩
      intro v hv
      simp only [asserts_append, marks_append, asserts, marks, h3, List.append_nil, List.nil_append, List.mem_append, List.mem_cons,
        List.not_mem_nil, or_false] at hv
      rcases hv with hv | rfl
      · exact h4.1 v hv
      · exact h4.2

theorem expand_sound (hE : E.HintLen) (cn : Canon F) {i : Source.Insn F} (hc : i.asCall = none) (hin : ∀ x ∈ i.inputs, x < ws.length)
    (hcv : ∀ v c, cv v = some c → ws[v]? = some c) {es : List (Ev F)} {vars : List Nat} (h : expand cn cv ws.length i = some (es, vars))
    {ws' : List F} {b : Bool} (hr : Run get (pushes es) ws ws' b) :
    b = true ∧ ((∀ x : F, x * x = x) → ∀ v ∈ marks es, ws'[v]? = some 0) ∧ ((∀ v ∈ asserts es, ws'[v]? = some 0) →
      ∃ outs, (sourceAdv E).prim i (fun v => ws[v]?) outs ∧ readAll ws' vars = some outs ∧ ∀ v ∈ marks es, ws'[v]? = some 0) := by
  obtain ⟨args, ha⟩ : ∃ args, mapOpt (fun v => ws[v]?) i.inputs = some args := mapOpt_isSome (fun x hx => by simp [hin x hx])
  have one : ∀ (j : HintNorm.Insn F), j.asCall = none → es = [.push j] → vars = [ws.length] →
      (∀ outs, (hintNorm E).prim j (fun v => ws[v]?) outs → semAdv E i args outs ∧ outs.length = 1) →
      b = true ∧ ((∀ x : F, x * x = x) → ∀ v ∈ marks es, ws'[v]? = some 0) ∧ ((∀ v ∈ asserts es, ws'[v]? = some 0) →
      ∃ outs, (sourceAdv E).prim i (fun v => ws[v]?) outs ∧ readAll ws' vars = some outs ∧ ∀ v ∈ marks es, ws'[v]? = some 0) := by
    rintro j h1 rfl rfl h3
    obtain ⟨outs, h4, rfl, rfl⟩ := (run_one_iff h1).1 hr
    obtain ⟨h5, h6⟩ := h3 outs h4
    refine ⟨rfl, by simp [marks], fun _ => ⟨outs, ⟨args, ha, h5⟩, ?_, by simp [marks]⟩⟩
    obtain ⟨d, rfl⟩ := List.length_eq_one_iff.1 h6
    exact read1 ((new0 rfl).trans rfl)
  have same : ∀ {j : HintNorm.Insn F} {outs : List F}, j.inputs = i.inputs → (hintNorm E).prim j (fun v => ws[v]?) outs → j.sem E args outs := by
    intro j outs h1 h2
    obtain ⟨args', h3, h4⟩ := h2
    rw [h1, ha] at h3
    cases h3
    exact h4
  have gf2 : ∀ z : F, (∀ x : F, x * x = x) → z * (z - 1) = 0 := by
    intro z hz
    rw [mul_sub, hz, mul_one, sub_self]
  cases i with
  | linComb lc =>
    simp only [expand, Option.some.injEq, Prod.mk.injEq] at h; obtain ⟨rfl, rfl⟩ := h
    exact one _ rfl rfl rfl (fun outs ho => ⟨same rfl ho, by have := same rfl ho; simp only [HintNorm.Insn.sem] at this; simp [this]⟩)
  | mul xs =>
    simp only [expand, Option.some.injEq, Prod.mk.injEq] at h; obtain ⟨rfl, rfl⟩ := h
    exact one _ rfl rfl rfl (fun outs ho => ⟨same rfl ho, by have := same rfl ho; simp only [HintNorm.Insn.sem] at this; simp [this]⟩)
  | constantLike c =>
    simp only [expand, Option.some.injEq, Prod.mk.injEq] at h; obtain ⟨rfl, rfl⟩ := h
    exact one _ rfl rfl rfl (fun outs ho => ⟨same rfl ho, by have := same rfl ho; simp only [HintNorm.Insn.sem] at this; obtain ⟨y, _, rfl⟩ := this; rfl⟩)
  | customGate g xs =>
    simp only [expand, Option.some.injEq, Prod.mk.injEq] at h; obtain ⟨rfl, rfl⟩ := h
    exact one _ rfl rfl rfl (fun outs ho => ⟨same rfl ho, by have := same rfl ho; simp only [HintNorm.Insn.sem] at this; simp [this]⟩)
  | commit xs =>
    simp only [expand, Option.some.injEq, Prod.mk.injEq] at h; obtain ⟨rfl, rfl⟩ := h
    refine one _ rfl rfl rfl (fun outs ho => ?_)
    obtain ⟨_, _, y, _, rfl⟩ := ho
    exact ⟨rfl, rfl⟩
  | call c xs k => cases hc
  | hint id xs k =>
    simp only [expand, Option.some.injEq, Prod.mk.injEq] at h; obtain ⟨rfl, rfl⟩ := h
    obtain ⟨outs, h4, rfl, rfl⟩ := (run_one_iff (i := HintNorm.Insn.hint id xs k) rfl).1 hr
    have hl := hE _ _ _ _ (same (j := .hint id xs k) rfl h4)
    refine ⟨rfl, by simp [marks], fun _ => ⟨outs, ⟨args, ha, hl⟩, ?_, by simp [marks]⟩⟩
    have := read_new ws outs []
    rw [List.append_nil, hl] at this
    exact this
  | div x y checked =>
    obtain ⟨vx, vy, rfl, hx, hy⟩ := args2 ha
    simp only [expand] at h
    cases hcy : cv y with
    | some yv =>
      rw [hcy] at h
      simp only at h
      split at h
      · cases h
      · rename_i hy0
        simp only [Option.some.injEq, Prod.mk.injEq] at h; obtain ⟨rfl, rfl⟩ := h
        have : vy = yv := by have := hcv y yv hcy; rw [hy] at this; exact Option.some.inj this
        subst this
        simp only [pushes] at hr
        rw [app_nil_run, step_const, step_mul (old hx) (new0 rfl), run_nil_iff] at hr
        obtain ⟨rfl, rfl⟩ := hr
        refine ⟨rfl, by simp [marks], fun _ => ⟨[vx * vy⁻¹], ⟨_, ha, ?_⟩, read1 ((new rfl).trans rfl), by simp [marks]⟩⟩
        simp only [semAdv, if_neg hy0]
    | none =>
      rw [hcy] at h
      simp only at h
      cases checked with
      | true =>
        simp only [if_true, Option.some.injEq, Prod.mk.injEq] at h; obtain ⟨rfl, rfl⟩ := h
        obtain ⟨d, _, rfl, rfl⟩ := (run_divChecked hE hx hy).1 hr
        refine ⟨rfl, by simp [marks], fun hz => ⟨[vx * d], ⟨_, ha, ?_⟩, read1 ((new rfl).trans rfl), by simp [marks]⟩⟩
        have h1 := hz (ws.length + 3) (by simp [asserts])
        rw [new rfl] at h1
        have h2 : vy * d - 1 = 0 := by simpa using h1
        have h3 : vy * d = 1 := by rwa [sub_eq_zero] at h2
        have hy0 : vy ≠ 0 := by rintro rfl; simp at h3
        simp only [semAdv, if_neg hy0]
        rw [eq_inv_of_mul_eq_one_right h3]
      | false =>
        simp only [Bool.false_eq_true, if_false, Option.some.injEq, Prod.mk.injEq] at h; obtain ⟨rfl, rfl⟩ := h
        obtain ⟨d, _, rfl, rfl⟩ := (run_divUnchecked hE hx hy).1 hr
        refine ⟨rfl, by simp [marks], fun hz => ⟨[d], ⟨_, ha, ?_⟩, read1 ((new0 rfl).trans rfl), by simp [marks]⟩⟩
        have h1 := hz (ws.length + 2) (by simp [asserts])
        rw [new rfl] at h1
        have h2 : vy * d - vx = 0 := by simpa using h1
        have h3 : vy * d = vx := by rwa [sub_eq_zero] at h2
        simp only [semAdv]
        split
        · rename_i hy0
          rw [hy0, zero_mul] at h3
          exact ⟨h3.symm, by simp, by simp⟩
        · rename_i hy0
          rw [← h3, mul_comm vy d, mul_assoc, mul_inv_cancel₀ hy0, mul_one]
  | boolBinOp x y op =>
    obtain ⟨vx, vy, rfl, hx, hy⟩ := args2 ha
    simp only [expand, Option.some.injEq, Prod.mk.injEq] at h; obtain ⟨rfl, rfl⟩ := h
    obtain ⟨s, h1, ⟨v, h2, h3⟩, h4, h5⟩ := run_boolBin (get := get) hx hy op
    obtain ⟨rfl, rfl⟩ := (h1 _ _).1 hr
    refine ⟨rfl, ?_, ?_⟩
    · intro hz v hv
      rw [h5 v hv, gf2 _ hz]
    · intro hz
      obtain ⟨z1, z2⟩ := h4.1 hz
      have bx := (bool_iff vx).1 z1
      have by' := (bool_iff vy).1 z2
      refine ⟨[op.eval vx vy], ⟨_, ha, bx, by', rfl⟩, by rw [h2]; exact read1 h3, ?_⟩
      intro v hv
      rw [h5 v hv, (bool_iff _).2 (boolOp_bool op bx by')]
  | isZero x =>
    obtain ⟨vx, rfl, hx⟩ := args1 ha
    simp only [expand] at h
    cases hcx : cv x with
    | some xv =>
      rw [hcx] at h
      simp only [Option.some.injEq, Prod.mk.injEq] at h; obtain ⟨rfl, rfl⟩ := h
      have : vx = xv := by have := hcv x xv hcx; rw [hx] at this; exact Option.some.inj this
      subst this
      exact one _ rfl rfl rfl (fun outs ho => by rw [prim_const] at ho; exact ⟨ho, by simp [ho]⟩)
    | none =>
      rw [hcx] at h
      simp only [Option.some.injEq, Prod.mk.injEq] at h; obtain ⟨rfl, rfl⟩ := h
      obtain ⟨d, _, rfl, rfl⟩ := (run_isZero hE hx).1 hr
      refine ⟨rfl, ?_, ?_⟩
      · intro hz v hv
        have : v = ws.length + 7 := by simpa [markBool, boolCond, marks_append, marks] using hv
        rw [this, new rfl]
        show some ((1 - vx * d) * (1 - vx * d - 1)) = _
        rw [gf2 _ hz]
      · intro hz
        have h1 := hz (ws.length + 4) (by simp [asserts_append, asserts])
        rw [new rfl] at h1
        have h2 : vx * (1 - vx * d) = 0 := by simpa using h1
        have h3 : 1 - vx * d = if vx = 0 then 1 else 0 := by
          split
          · rename_i h0; simp [h0]
          · rename_i h0; exact (mul_eq_zero.1 h2).resolve_left h0
        refine ⟨[1 - vx * d], ⟨_, ha, ?_⟩, read1 ((new rfl).trans rfl), ?_⟩
        · show [1 - vx * d] = [if vx = 0 then 1 else 0]
          rw [h3]
        · intro v hv
          have : v = ws.length + 7 := by simpa [markBool, boolCond, marks_append, marks] using hv
          rw [this, new rfl]
          show some ((1 - vx * d) * (1 - vx * d - 1)) = _
          rw [h3]
          split <;> simp
  | unconstrainedBinOp x y op =>
    obtain ⟨vx, vy, rfl, hx, hy⟩ := args2 ha
    simp only [expand] at h
    have hnt : ∀ outs, (hintNorm E).prim (hintI (uopId op) [x, y] 1) (fun v => ws[v]?) outs →
        semAdv E (.unconstrainedBinOp x y op) [vx, vy] outs ∧ outs.length = 1 := by
      intro outs ho
      have := hE _ _ _ _ ((prim_hint _ _ _ [vx, vy] _ (by simp [mapOpt, hx, hy]) _).1 ho)
      exact ⟨this, this⟩
    cases hcx : cv x with
    | none =>
      rw [hcx] at h
      simp only [Option.some.injEq, Prod.mk.injEq] at h; obtain ⟨rfl, rfl⟩ := h
      exact one _ rfl rfl rfl hnt
    | some xv =>
      cases hcy : cv y with
      | none =>
        rw [hcx, hcy] at h
        simp only [Option.some.injEq, Prod.mk.injEq] at h; obtain ⟨rfl, rfl⟩ := h
        exact one _ rfl rfl rfl hnt
      | some yv =>
        rw [hcx, hcy] at h
        simp only at h
        split at h
        · simp only [Option.some.injEq, Prod.mk.injEq] at h; obtain ⟨rfl, rfl⟩ := h
          exact one _ rfl rfl rfl (fun outs ho => by rw [prim_const] at ho; rw [ho]; exact ⟨rfl, rfl⟩)
        · cases h
  | unconstrainedSelect c a f =>
    obtain ⟨vc, va, vf, rfl, hvc, hva, hvf⟩ := args3 ha
    simp only [expand] at h
    cases hcc : cv c with
    | some cv' =>
      rw [hcc] at h
      simp only [Option.some.injEq, Prod.mk.injEq] at h; obtain ⟨rfl, rfl⟩ := h
      obtain ⟨rfl, rfl⟩ := run_nil_iff.1 hr
      refine ⟨rfl, by simp [marks], fun _ => ?_⟩
      by_cases h0 : cv' = 0
      · rw [if_pos h0]; exact ⟨[vf], ⟨_, ha, rfl⟩, read1 hvf, by simp [marks]⟩
      · rw [if_neg h0]; exact ⟨[va], ⟨_, ha, rfl⟩, read1 hva, by simp [marks]⟩
    | none =>
      rw [hcc] at h
      simp only [Option.some.injEq, Prod.mk.injEq] at h; obtain ⟨rfl, rfl⟩ := h
      refine one _ rfl rfl rfl (fun outs ho => ?_)
      have := hE _ _ _ _ ((prim_hint _ _ _ [vc, va, vf] _ (by simp [mapOpt, hvc, hva, hvf]) _).1 ho)
      exact ⟨this, this⟩
  | toBinary x k =>
    obtain ⟨vx, rfl, hx⟩ := args1 ha
    simp only [expand, Option.some.injEq, Prod.mk.injEq] at h; obtain ⟨rfl, rfl⟩ := h
    simp only [pushes_append, pushes, List.cons_append, List.nil_append, List.append_nil] at hr
    rw [hintI, app_nil_run, step_hint (args := [vx]) (by simp [mapOpt, hx])] at hr
    obtain ⟨outs, h0, hr⟩ := hr
    have hl := hE _ _ _ _ h0
    subst hl
    obtain ⟨s, h1, h2, h3⟩ := run_toBin (get := get) hx (outs := outs) (by
      rw [← readAll_mapOpt, List.append_assoc]; exact read_new ws outs [0])
    rw [List.nil_append] at hr
    obtain ⟨rfl, rfl⟩ := (h1 _ _).1 hr
    have hm : marks (F := F) ([Ev.push (hintI .toBinary [x] outs.length), Ev.push (constI 0)] ++
        (bitsLoop (ws.length + outs.length + 1) (ws.length + outs.length) 1 (newIds ws.length outs.length)).1 ++
        [Ev.push (lc2 (bitsLoop (F := F) (ws.length + outs.length + 1) (ws.length + outs.length) 1 (newIds ws.length outs.length)).2 (-1) x 1),
          Ev.assert (ws.length + outs.length + 1 + 5 * outs.length)]) = [] := by
      simp [marks_append, marks, h3]
    refine ⟨rfl, by rw [hm]; simp, fun hz => ⟨outs, ⟨_, ha, ?_⟩, read_new ws outs s, by rw [hm]; simp⟩⟩
    have := h2.1 ⟨fun v hv => hz v (by simp [asserts_append, asserts, hv]), hz _ (by simp [asserts_append, asserts])⟩
    exact ⟨rfl, this.1, this.2⟩

/-! ## Constraints -/

theorem con_run (hE : E.HintLen) {v : Nat} {x : F} (hv : ws[v]? = some x) (typ : Source.Con) :
    (∀ ws' b, Run get (pushes (expandCon ws.length v typ)) ws ws' b → b = true ∧ marks (F := F) (expandCon ws.length v typ) = [] ∧
      ((∀ u ∈ asserts (F := F) (expandCon ws.length v typ), ws'[u]? = some 0) → typ.verify x = true)) ∧
    (E.Builtin → ∃ t, Run get (pushes (expandCon ws.length v typ)) ws (ws ++ t) true ∧
      ∃ u z, asserts (F := F) (expandCon ws.length v typ) = [u] ∧ (ws ++ t)[u]? = some z ∧ (z = 0 ↔ typ.verify x = true)) := by
  cases typ with
  | zero =>
    refine ⟨?_, fun _ => ⟨[], by rw [List.append_nil]; exact .nil _, v, x, rfl, by rw [List.append_nil]; exact hv, by simp [Source.Con.verify]⟩⟩
    intro ws' b hr
    obtain ⟨rfl, rfl⟩ := run_nil_iff.1 hr
    refine ⟨rfl, rfl, fun hz => ?_⟩
    have := hz v (by simp [expandCon, asserts])
    rw [hv] at this
    simpa [Source.Con.verify] using this
  | bool =>
    have hrun : ∀ ws' b, Run get (pushes (expandCon ws.length v .bool)) ws ws' b ↔ ws' = ws ++ [1, x - 1, x * (x - 1)] ∧ b = true := by
      intro ws' b
      simp only [expandCon, assertBool, pushes_append, pushes]
      rw [app_nil_run, step_bool (by simp) (old hv), run_nil_iff]
      simp
    have hz2 : (ws ++ [1, x - 1, x * (x - 1)])[ws.length + 2]? = some (x * (x - 1)) := (new rfl).trans rfl
    refine ⟨?_, fun _ => ⟨_, (hrun _ _).2 ⟨rfl, rfl⟩, ws.length + 2, _, rfl, hz2, by rw [bool_iff]; simp [Source.Con.verify]⟩⟩
    intro ws' b hr
    obtain ⟨rfl, rfl⟩ := (hrun _ _).1 hr
    refine ⟨rfl, rfl, fun hz => ?_⟩
    have := hz (ws.length + 2) (by simp [expandCon, assertBool, boolCond, asserts_append, asserts])
    rw [hz2] at this
    have h0 : x * (x - 1) = 0 := by injection this
    rw [bool_iff] at h0
    simpa [Source.Con.verify] using h0
  | nonZero =>
    have hrun : ∀ ws' b, Run get (pushes (expandCon ws.length v .nonZero)) ws ws' b ↔ ∃ d, E.hint Id.div.toNat [1, x] 1 [d] ∧
        ws' = ws ++ [1, d, x * d, x * d - 1] ∧ b = true := by
      intro ws' b
      simp only [expandCon, pushes]
      rw [app_nil_run, step_const, step_hint21 hE (x := 1) (y := x) (new0 rfl) (old hv)]
      refine exists_congr (fun d => and_congr_right (fun _ => ?_))
      rw [step_mul (x := x) (y := d) (old hv) (new rfl), step_sub (x := x * d) (y := 1) (new rfl) (new0 rfl), run_nil_iff]
      simp
    have hz2 : ∀ d, (ws ++ [1, d, x * d, x * d - 1])[ws.length + 3]? = some (x * d - 1) := fun d => (new rfl).trans rfl
    refine ⟨?_, fun hB => ⟨_, (hrun _ _).2 ⟨_, div_hint hB 1 x, rfl, rfl⟩, ws.length + 3, _, rfl, hz2 _, ?_⟩⟩
    · intro ws' b hr
      obtain ⟨d, _, rfl, rfl⟩ := (hrun _ _).1 hr
      refine ⟨rfl, rfl, fun hz => ?_⟩
      have := hz (ws.length + 3) (by simp [expandCon, asserts])
      rw [hz2] at this
      have h0 : x * d - 1 = 0 := by injection this
      have : x ≠ 0 := by rintro rfl; simp at h0
      simpa [Source.Con.verify] using this
    · by_cases h0 : x = 0 <;> simp [h0, Source.Con.verify]

end

end Verif.Builder
