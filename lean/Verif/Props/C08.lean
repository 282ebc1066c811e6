import Verif.Props.C07

/-!
# C08: assertions are never lost by the builder

The builder receives a sequence of requests: push an instruction, assert that a variable is zero, mark that a variable is known to be
zero (because earlier assertions imply it).  At the end it emits instructions and constraints.
-/

namespace Verif.Props

open Verif.IR Verif.Builder Verif.Hints

variable {F : Type} [Field F] [DecidableEq F]

/-- The situation: a builder with `n` inputs has executed the requests `es` and emitted instructions and constraints `ks`; `ws` are the
values of all variables in a run of the emitted instructions on `ins`. -/
structure Situation (E : Env F) (get : Nat → Option (Circuit (hintNorm E))) (srt : List (Expr F) → List (Expr F)) (npi n : Nat) (es : List (Ev F)) (st' : St F) (ks : List Nat) (ins ws : List F) : Prop where
  requests : EvsOk npi (n + 1) es
  executed : ∃ ps, initPs n = some ps ∧ exec srt ps.st es = some st'
  emitted : finalCons srt st' = some ks
  inputs : ins.length = n
  callees : ∀ c xs k, HintNorm.Insn.call c xs k ∈ pushes es → ∀ circ, get c = some circ → circ.outputs.length = k
  run : ∃ b, Run get st'.insns (0 :: ins) ws b

/-- Every sequence of well-scoped requests is executed without a panic, and constraints can be emitted. -/
theorem C08_total (srt : List (Expr F) → List (Expr F)) (hsrt : ∀ l, (srt l).Perm l) (npi n : Nat) (es : List (Ev F)) (hes : EvsOk npi (n + 1) es) :
    ∃ ps st' ks, initPs (F := F) n = some ps ∧ exec srt ps.st es = some st' ∧ finalCons srt st' = some ks := by
  obtain ⟨ps, i1, i2, i3, i4, i5, i6, i7, i8⟩ := initPs_spec (F := F) n
  obtain ⟨st', js, x, d⟩ := exec_spec hsrt (npi := npi) es i2.wf i2.full i2.cok (by rw [i4]; exact hes)
  obtain ⟨ks, k1, _⟩ := finalCons_spec hsrt d.wf d.full d.cok
  exact ⟨ps, st', ks, i1, x, k1⟩

variable {E : Env F} {get : Nat → Option (Circuit (hintNorm E))} {srt : List (Expr F) → List (Expr F)} {npi n : Nat} {es : List (Ev F)} {st' : St F} {ks : List Nat} {ins ws : List F}

theorem Situation.facts (hE : E.HintLen) (hsrt : ∀ l, (srt l).Perm l) (h : Situation E get srt npi n es st' ks ins ws) :
    ∃ ps : PSt F, PsOk ps ∧ ps.st.cons = [] ∧ EvsOk npi ps.st.exprs.length es ∧ exec srt ps.st es = some st' ∧ (∃ ρ, Sem E ρ st' ws) ∧
      ((∀ k ∈ ks, ws[k]? = some 0) ↔ TrueZero st' ws) := by
  obtain ⟨ps, e1, e2⟩ := h.executed
  obtain ⟨ps', i1, i2, i3, i4, i5, i6, i7, i8⟩ := initPs_spec (F := F) n
  rw [e1] at i1; cases i1
  have hev : EvsOk npi ps.st.exprs.length es := by rw [i4]; exact h.requests
  obtain ⟨st2, js, x, d⟩ := exec_spec hsrt es i2.wf i2.full i2.cok hev
  rw [e2] at x; cases x
  obtain ⟨b, hr⟩ := h.run
  rw [d.insns, i6, List.nil_append] at hr
  have hs := (d.run E get _ hE (i8 E ins h.inputs) h.callees ws b).2 hr
  obtain ⟨ks', k1, _, k3⟩ := finalCons_spec hsrt d.wf d.full d.cok
  rw [h.emitted] at k1; cases k1
  exact ⟨ps, i2, i5, hev, e2, hs, k3 E ws hs⟩

/-- For every sequence of requests: if the emitted constraints hold and the marked variables are zero, then every asserted variable is
zero.  So an assertion can be dropped only in favour of a mark on the same canonical expression. -/
theorem C08_up_to_marks (hE : E.HintLen) (hsrt : ∀ l, (srt l).Perm l) (h : Situation E get srt npi n es st' ks ins ws)
    (hk : ∀ k ∈ ks, ws[k]? = some 0) (hm : ∀ v ∈ marks es, ws[v]? = some 0) : ∀ v ∈ asserts es, ws[v]? = some 0 := by
  obtain ⟨ps, p1, p2, p3, p4, p5, p6⟩ := h.facts hE hsrt
  exact asserts_of_marks hsrt p1.wf p1.full p1.cok p2 p3 p4 p5 (p6.1 hk) hm

/-- Without marks, no assertion is lost. -/
theorem C08_no_marks (hE : E.HintLen) (hsrt : ∀ l, (srt l).Perm l) (h : Situation E get srt npi n es st' ks ins ws)
    (hm : marks es = []) (hk : ∀ k ∈ ks, ws[k]? = some 0) : ∀ v ∈ asserts es, ws[v]? = some 0 :=
  C08_up_to_marks hE hsrt h hk (by rw [hm]; simp)

/-- Full statement: if every mark follows from the assertions made before it, then the emitted constraints enforce every assertion. -/
def C08_full (E : Env F) (get : Nat → Option (Circuit (hintNorm E))) (srt : List (Expr F) → List (Expr F)) : Prop :=
  ∀ npi n es st' ks ins ws, Situation E get srt npi n es st' ks ins ws → MarksJustified es ws →
    (∀ k ∈ ks, ws[k]? = some 0) → ∀ v ∈ asserts es, ws[v]? = some 0

/-- Partial: it holds for sequences in which no mark hits an expression that has already been asserted.  Missing: sequences in which
one does; for those it is false (`C08_violated`). -/
theorem C08_partial (hE : E.HintLen) (hsrt : ∀ l, (srt l).Perm l) (h : Situation E get srt npi n es st' ks ins ws)
    (hov : st'.overwrote = false) (hj : MarksJustified es ws) (hk : ∀ k ∈ ks, ws[k]? = some 0) : ∀ v ∈ asserts es, ws[v]? = some 0 := by
  obtain ⟨ps, p1, p2, p3, p4, p5, p6⟩ := h.facts hE hsrt
  exact fun v hv => asserts_of_justified hsrt p1.wf p1.full p1.cok p2 p3 p4 p5 (p6.1 hk) hov hj v (.inl hv)

/-- The assertions and marks of a conversion to bits and an exclusive or of two of them. -/
def okEvs : List (Ev Ex.F7) :=
  [.push (.hint 1234567 [1] 2)] ++ assertBool 3 2 ++ assertBool 6 3 ++ [.push (mulI 1 2)] ++ markBool 10 9

example : EvsOk 0 2 okEvs ∧ asserts okEvs = [5, 8] ∧ marks okEvs = [12] := by
  simp [okEvs, assertBool, markBool, boolCond, EvsOk, constI, mulI, subI, lc2, LinComb.vars, HintNorm.Insn.inputs, HintNorm.Insn.valid, Coef.valid,
      HintNorm.Insn.numOutputs, marks, asserts, asserts_append, marks_append]
  decide

/-- Assert that `x` is a bit, then mark it as one: the assertion is gone. -/
def badEvs : List (Ev Ex.F7) := assertBool 2 1 ++ markBool 5 1

/-- The state after it. -/
def badSt : Option (St Ex.F7) := (initPs 1).bind (fun ps => exec id ps.st badEvs)

/-- The full statement is false: with `x = 3` the (justified) mark removes the assertion. -/
theorem C08_violated : ¬ C08_full Ex.env (fun _ => none) id := by
  intro h
  have hst : badSt.isSome = true := by decide +kernel
  obtain ⟨st, hst⟩ := Option.isSome_iff_exists.1 hst
  have hks : badSt.bind (finalCons id) = some [] := by decide +kernel
  have hins : badSt.map (·.insns) = some [.linComb ⟨[], 1⟩, .linComb ⟨[(1, 1)], 6⟩, .mul [1, 3], .linComb ⟨[], 1⟩, .linComb ⟨[(1, 1)], 6⟩, .linComb ⟨[(4, 1)], 0⟩] := by
    decide +kernel
  rw [hst] at hks hins
  simp only [Option.bind_some, Option.map_some, Option.some.injEq] at hks hins
  have hex : ∃ ps, initPs 1 = some ps ∧ exec id ps.st badEvs = some st := by
    unfold badSt at hst
    obtain ⟨ps, h1, h2⟩ := Option.bind_eq_some_iff.1 hst
    exact ⟨ps, h1, h2⟩
  have hsit : Situation Ex.env (fun _ => none) id 0 1 badEvs st [] [3] [0, 3, 1, 2, 6, 1, 2, 6] := by
    refine ⟨?_, hex, hks, rfl, by simp, true, ?_⟩
    · simp [badEvs, assertBool, markBool, boolCond, EvsOk, constI, mulI, subI, lc2, LinComb.vars, HintNorm.Insn.inputs, HintNorm.Insn.valid, Coef.valid, HintNorm.Insn.numOutputs]
    · rw [hins]
      refine .prim rfl (outs := [1]) ⟨[], rfl, by simp only [HintNorm.Insn.sem]; decide⟩ ?_
      refine .prim rfl (outs := [2]) ⟨[3], rfl, by simp only [HintNorm.Insn.sem]; decide⟩ ?_
      refine .prim rfl (outs := [6]) ⟨[3, 2], rfl, by simp only [HintNorm.Insn.sem]; decide⟩ ?_
      refine .prim rfl (outs := [1]) ⟨[], rfl, by simp only [HintNorm.Insn.sem]; decide⟩ ?_
      refine .prim rfl (outs := [2]) ⟨[3], rfl, by simp only [HintNorm.Insn.sem]; decide⟩ ?_
      refine .prim rfl (outs := [6]) ⟨[6], rfl, by simp only [HintNorm.Insn.sem]; decide⟩ ?_
      exact .nil _
  have hj : MarksJustified badEvs ([0, 3, 1, 2, 6, 1, 2, 6] : List Ex.F7) := by
    intro e1 v e2 he ha
    exfalso
    have hm : (Ev.assert 4 : Ev Ex.F7) ∈ e1 := by
      have key : ∀ (p : List (Ev Ex.F7)) q, badEvs = p ++ .mark v :: q → (Ev.assert 4 : Ev Ex.F7) ∈ p := by
        intro p q hpq
        rcases p with _ | ⟨a0, _ | ⟨a1, _ | ⟨a2, _ | ⟨a3, p⟩⟩⟩⟩ <;> simp [badEvs, assertBool, markBool, boolCond] at hpq
        simp [hpq.2.2.2.1.symm]
      exact key e1 e2 he
    have : 4 ∈ asserts e1 := by
      clear ha he
      induction e1 with
      | nil => simp at hm
      | cons e es ih =>
        rcases List.mem_cons.1 hm with rfl | hm
        · simp [asserts]
        · have := ih hm
          cases e <;> simp [asserts, this]
    have := ha 4 this
    simp at this
    exact absurd this (by decide)
  have := h 0 1 badEvs st [] [3] _ hsit hj (by simp) 4 (by simp [badEvs, assertBool, markBool, boolCond, asserts])
  simp at this
  exact absurd this (by decide)

end Verif.Props
