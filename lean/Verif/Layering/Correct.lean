import Verif.Layering.RootIO

/-!
# Layering is correct
-/

set_option linter.unusedSectionVars false
set_option linter.unusedSimpArgs false

namespace Verif.Layering

open Verif.IR (Expr Coef Term VarSpec Env Circuit RootCircuit dest WFGet WFAt WF EvalSub Eval)
open Verif.Layered (Segment Gate Input Alloc LEnv layersSet Traces traces_eq rangeOf)

variable {F : Type} [Field F] [DecidableEq F]

section

variable {E : Env F} {V : LEnv F F} {rc : RootCircuit (dest E false)} {fuel : Nat} {cross reorder : Bool}

/-- Everything validation demands, except that the root has an output or a constraint is reachable. -/
structure Runnable (rc : RootCircuit (dest E false)) : Prop where
  wf : WFGet (some rc.numPublicInputs) rc.get
  root : ∃ root, rc.get 0 = some root ∧ rc.expectedNumOutputZeroes ≤ root.outputs.length

theorem Runnable.of_wf (h : WF rc) : Runnable rc := ⟨h.wf, h.root.imp fun _ h => ⟨h.1, h.2.1⟩⟩

/-- Evaluation of the layered circuit in terms of traces. -/
theorem eval_trace (hw : Runnable rc) (hV : EnvOk E V) (hpub : ∀ i < rc.numPublicInputs, V.pub i = some (E.pub i))
    {lc : Layered.Circuit F} {l0 : Nat} {order : List (Option Nat)}
    (h : compile cross reorder (progGet rc.get) fuel rc.numPublicInputs rc.expectedNumOutputZeroes = some (lc, l0, order))
    {root : Circuit (dest E false)} (hr : rc.get 0 = some root) {ins : List F} (hlen : ins.length = root.numInputs) :
    InputMapping.InRange ⟨l0, order⟩ ∧ InputMapping.Injective ⟨l0, order⟩ ∧ order.length = root.numInputs ∧
    ∃ c, ctxOf cross (progGet rc.get) fuel 0 = some c ∧ ∀ buf : List F, InputMapping.Placed ⟨l0, order⟩ ins buf →
      (∀ tape outs b, lc.eval V buf tape = some (outs, b) → ∃ T : Trace F, Tr E (progGet rc.get) 0 T ∧ CcAll (ctxOf cross (progGet rc.get) fuel) 0 T ∧
        (∀ (j : Nat) (v : F), ins[j]? = some v → T [] (j + 1) = v) ∧ outs = (root.outputs.map (T [])).drop rc.expectedNumOutputZeroes ∧
        (b = true ↔ (∀ cc, c.cc.getD c.outL none = some cc → T [] cc.id = 0) ∧ ((root.outputs.map (T [])).take rc.expectedNumOutputZeroes).all (fun x => decide (x = 0)) = true)) ∧
      (∀ T : Trace F, Tr E (progGet rc.get) 0 T → CcAll (ctxOf cross (progGet rc.get) fuel) 0 T → (∀ (j : Nat) (v : F), ins[j]? = some v → T [] (j + 1) = v) →
        ∃ tape b, lc.eval V buf tape = some ((root.outputs.map (T [])).drop rc.expectedNumOutputZeroes, b) ∧
        (b = true ↔ (∀ cc, c.cc.getD c.outL none = some cc → T [] cc.id = 0) ∧ ((root.outputs.map (T [])).take rc.expectedNumOutputZeroes).all (fun x => decide (x = 0)) = true)) := by
  obtain ⟨c, layouts, ids, segs, hc, hl, hcn, ho, rfl, hi⟩ := compile_split h
  have ht := tabOk (cross := cross) (fuel := fuel) hw.wf
  have r := rootWired hw.wf hV hpub hc hl hcn
  have ok := r.htab _ _ hc
  have hprog := ht.prog 0 c hc
  rw [progGet, hr] at hprog
  simp only [Option.map_some, Option.some.injEq] at hprog
  have hlen' : ins.length = c.prog.numInputs := by rw [hlen, ← hprog]; rfl
  have houts : c.prog.outs = root.outputs := by rw [← hprog]; rfl
  have hpok := progOk_of (hw.wf.circ 0 root hr)
  have hn : c.prog.outs.Nodup := by rw [← hprog]; exact hpok.outsNodup
  have hk : rc.expectedNumOutputZeroes ≤ root.outputs.length := by
    obtain ⟨root', h1, h2⟩ := hw.root
    rw [hr] at h1; cases h1; exact h2
  have htree := r.wired.tree
  obtain ⟨hin1, hin2, hin3, hinb⟩ := input_ok r ho hi hlen'
  have hcct : CcTree (ctxOf cross (progGet rc.get) fuel) true 0 := table_cc hw.wf fuel 0 c (le_refl _) .refl hc
  have hccok : CcOk (ctxOf cross (progGet rc.get) fuel) true c := by
    cases hcct with
    | mk hc' ok' _ => rw [hc] at hc'; cases hc'; exact ok'
  -- the extra output
  have hhas : (if c.cc.any Option.isSome then 1 else 0) = (ccList c c.outL).length := by
    unfold ccList
    cases hh : c.cc.getD c.outL none with
    | some cc =>
      have : c.cc.any Option.isSome = true := by
        rw [List.any_eq_true]
        rw [List.getD_eq_getElem?_getD] at hh
        cases hg : c.cc[c.outL]? with
        | none => rw [hg] at hh; cases hh
        | some o => rw [hg] at hh; exact ⟨o, List.mem_of_getElem? hg, by rw [show o = some cc from hh]; rfl⟩
      rw [this]; rfl
    | none =>
      have : c.cc.any Option.isSome = false := by
        rw [Bool.eq_false_iff]
        intro ha
        rw [List.any_eq_true] at ha
        obtain ⟨o, hm, hs⟩ := ha
        obtain ⟨j, hj⟩ := List.getElem?_of_mem hm
        obtain ⟨cc, rfl⟩ := Option.isSome_iff_exists.1 hs
        obtain ⟨-, cc', h'⟩ := root_out (id := 0) ok hccok (j := j) (cc := cc) (by rw [List.getD_eq_getElem?_getD, hj]; rfl)
        rw [hh] at h'; cases h'
      rw [this]; rfl
  rw [hhas] at hi ⊢
  obtain ⟨Lout, hLout⟩ : ∃ L, layouts[c.outL]? = some L := by
    have := Verif.mapOpt_length hl
    exact ⟨_, List.getElem?_eq_getElem (by rw [this]; simp)⟩
  have hsolve : solve reorder (ctxOf cross (progGet rc.get) fuel) fuel 0 c.outL = some Lout := by
    have := Verif.mapOpt_getElem? hl c.outL c.outL (List.getElem?_range (by omega))
    rw [this, hLout]
  -- reading the last layer
  have hread : ∀ (T : Trace F) (b : List F), Agrees (ctxOf cross (progGet rc.get) fuel) Lout T b →
      rangeOf b (rc.expectedNumOutputZeroes + (ccList c c.outL).length) (c.prog.outs.length + (ccList c c.outL).length) =
        some ((root.outputs.map (T [])).drop rc.expectedNumOutputZeroes) ∧
      ((b.take (rc.expectedNumOutputZeroes + (ccList c c.outL).length)).all (fun x => decide (x = 0)) = true ↔
        (∀ cc, c.cc.getD c.outL none = some cc → T [] cc.id = 0) ∧ ((root.outputs.map (T [])).take rc.expectedNumOutputZeroes).all (fun x => decide (x = 0)) = true) := by
    intro T b ha
    obtain ⟨e1, e2⟩ := output_ok hc ok hn hsolve ha
    rw [List.length_append] at e1 e2
    rw [houts] at e1 e2 ⊢
    constructor
    · unfold rangeOf
      rw [if_pos ⟨by omega, by omega⟩]
      rw [show root.outputs.length + (ccList c c.outL).length = (ccList c c.outL).length + root.outputs.length by omega, e1, List.map_append,
        show rc.expectedNumOutputZeroes + (ccList c c.outL).length = ((ccList c c.outL).map (T [])).length + rc.expectedNumOutputZeroes by rw [List.length_map]; omega,
        List.drop_append, List.drop_of_length_le (by omega), List.nil_append]
      congr 2
      omega
    · have : b.take (rc.expectedNumOutputZeroes + (ccList c c.outL).length) = (ccList c c.outL).map (T []) ++ (root.outputs.map (T [])).take rc.expectedNumOutputZeroes := by
        rw [show rc.expectedNumOutputZeroes + (ccList c c.outL).length = min (rc.expectedNumOutputZeroes + (ccList c c.outL).length) ((ccList c c.outL).length + root.outputs.length) by omega,
          ← List.take_take, e1, List.map_append,
          show rc.expectedNumOutputZeroes + (ccList c c.outL).length = ((ccList c c.outL).map (T [])).length + rc.expectedNumOutputZeroes by rw [List.length_map]; omega,
          List.take_append, List.take_of_length_le (by omega)]
        congr 2
        omega
      rw [this, List.all_append, Bool.and_eq_true]
      refine and_congr_left fun _ => ?_
      unfold ccList
      cases c.cc.getD c.outL none with
      | none => simp
      | some cc => simp
  refine ⟨hin1, hin2, by rw [hin3, ← hprog]; rfl, c, hc, ?_⟩
  intro buf hbuf
  have hb2 : buf.length = l0 := hbuf.next
  have hb3 := hinb buf hbuf
  refine ⟨?_, ?_⟩
  · intro tape outs b he
    simp only [Layered.Circuit.eval, Layered.Circuit.evalRaw] at he
    cases hws : Layered.Circuit.wires V ⟨rc.numPublicInputs, c.prog.outs.length + (ccList c c.outL).length, rc.expectedNumOutputZeroes + (ccList c c.outL).length, segs, ids⟩ buf tape with
    | none => rw [hws] at he; cases he
    | some ws =>
      rw [hws] at he
      have hmem : ws ∈ Traces V ⟨rc.numPublicInputs, c.prog.outs.length + (ccList c c.outL).length, rc.expectedNumOutputZeroes + (ccList c c.outL).length, segs, ids⟩ buf := ⟨tape, hws⟩
      rw [traces_eq] at hmem
      obtain ⟨-, hmem⟩ := hmem
      obtain ⟨T0, t1, t2⟩ := ext0 (E := E) r.htab htree (fun x => ins.getD (x - 1) 0)
      have hin0 : ∀ (j : Nat) (v : F), ins[j]? = some v → T0 [] (j + 1) = v := by
        intro j v hv
        rw [t1, Nat.add_sub_cancel, List.getD_eq_getElem?_getD, hv]; rfl
      obtain ⟨T, s1, s2, b', s3, s4⟩ := chain_sound r c.outL 0 (by omega) T0 (fun _ => buf) ws
        (by intro j hj; rw [Nat.le_zero.1 hj]; exact t2)
        (by intro j L hj hL; rw [Nat.le_zero.1 hj] at hL; exact hb3 T0 hin0 L hL) (by simpa [histOf] using hmem)
      obtain ⟨q1, q2⟩ := (eqAt_iff ht htree T c hc).1 s2
      have hin : ∀ (j : Nat) (v : F), ins[j]? = some v → T [] (j + 1) = v := by
        intro j v hv
        cases s1 with
        | mk hc' sv _ _ =>
          rw [hc] at hc'; cases hc'
          have hj : j < c.prog.numInputs := by rw [← hlen']; exact (List.getElem?_eq_some_iff.1 hv).1
          have hnv := ok.inNv
          rw [sv (j + 1) (by omega) (by omega) (by rw [(ok.lay0 (j + 1) (by omega)).2])]
          exact hin0 j v hv
      cases ws with
      | nil => cases s3
      | cons last rest =>
        simp only [List.head?_cons, Option.some.injEq] at s3
        subst s3
        obtain ⟨g1, g2⟩ := hread T last (s4 Lout hLout)
        dsimp only at he
        rw [g1] at he
        simp only [Option.map_some, Option.some.injEq, Prod.mk.injEq] at he
        refine ⟨T, q1, q2, hin, he.1.symm, ?_⟩
        rw [← he.2]; exact g2
  · intro T hT hcc hin
    have hE := (eqAt_iff ht htree T c hc).2 ⟨hT, hcc⟩
    obtain ⟨ws, b, g1, g2, g3⟩ := chain_complete r c.outL 0 (by omega) T (fun _ => buf) hE
      (by intro j L hj hL; rw [Nat.le_zero.1 hj] at hL; exact hb3 T hin L hL)
    have hmem : ws ∈ Traces V ⟨rc.numPublicInputs, c.prog.outs.length + (ccList c c.outL).length, rc.expectedNumOutputZeroes + (ccList c c.outL).length, segs, ids⟩ buf := by
      rw [traces_eq]
      exact ⟨by rw [hb2]; exact hi, by simpa [histOf] using g1⟩
    obtain ⟨tape, hws⟩ := hmem
    cases ws with
    | nil => cases g2
    | cons last rest =>
      simp only [List.head?_cons, Option.some.injEq] at g2
      subst g2
      obtain ⟨q1, q2⟩ := hread T last (g3 Lout hLout)
      refine ⟨tape, _, ?_, q2⟩
      simp only [Layered.Circuit.eval, Layered.Circuit.evalRaw]
      rw [hws]
      dsimp only
      rw [q1]; rfl

/-- Correctness of layering. -/
theorem compile_correct (hw : Runnable rc) (hV : EnvOk E V) (hpub : ∀ i < rc.numPublicInputs, V.pub i = some (E.pub i))
    {lc : Layered.Circuit F} {l0 : Nat} {order : List (Option Nat)}
    (h : compile cross reorder (progGet rc.get) fuel rc.numPublicInputs rc.expectedNumOutputZeroes = some (lc, l0, order))
    {root : Circuit (dest E false)} (hr : rc.get 0 = some root) {ins : List F} (hlen : ins.length = root.numInputs) :
    InputMapping.InRange ⟨l0, order⟩ ∧ InputMapping.Injective ⟨l0, order⟩ ∧ order.length = root.numInputs ∧
    ∀ buf : List F, InputMapping.Placed ⟨l0, order⟩ ins buf →
      (∀ outs b, Eval rc ins outs b → ∃ tape, lc.eval V buf tape = some (outs, b)) ∧
      (∀ tape outs b', lc.eval V buf tape = some (outs, b') → ∃ b, Eval rc ins outs b ∧ (b = true → b' = true)) := by
  obtain ⟨hi1, hi2, hi3, c, hc, hbufs⟩ := eval_trace hw hV hpub h hr hlen
  refine ⟨hi1, hi2, hi3, ?_⟩
  intro buf hbuf
  obtain ⟨hsound, hcomp⟩ := hbufs buf hbuf
  have ht := tabOk (cross := cross) (fuel := fuel) hw.wf
  have hmeans := means hw.wf 0 root hr
  have hcct : CcTree (ctxOf cross (progGet rc.get) fuel) true 0 := table_cc hw.wf fuel 0 c (le_refl _) .refl hc
  have ok := ht.ctx 0 c hc
  have hccok : CcOk (ctxOf cross (progGet rc.get) fuel) true c := by
    cases hcct with
    | mk hc' ok' _ => rw [hc] at hc'; cases hc'; exact ok'
  have hk : rc.expectedNumOutputZeroes ≤ root.outputs.length := by
    obtain ⟨root', h1, h2⟩ := hw.root
    rw [hr] at h1; cases h1; exact h2
  have hprog := ht.prog 0 c hc
  rw [progGet, hr] at hprog
  simp only [Option.map_some, Option.some.injEq] at hprog
  have hpok := progOk_of (hw.wf.circ 0 root hr)
  have fwd : ∀ outs b, Eval rc ins outs b → ∃ tape, lc.eval V buf tape = some (outs, b) := by
    intro outs b he
    obtain ⟨root', all, b0, h1, h2, h3, h4, rfl, hb'⟩ := he
    rw [hr] at h1; cases h1
    obtain ⟨T, hT, hin, rfl, hsat⟩ := (hmeans ins all b0 hlen).1 h3
    have hval : ∀ T' : Trace F, EqV (ctxOf cross (progGet rc.get) fuel) 0 T T' → root.outputs.map (T' []) = root.outputs.map (T []) ∧
        ∀ (j : Nat) (v : F), ins[j]? = some v → T' [] (j + 1) = v := by
      intro T' hE
      constructor
      · apply List.map_congr_left
        intro x hx
        refine hE.val hc x ?_
        rw [← hprog]; exact (hpok.outs x hx).2
      · intro j v hv
        rw [hE.val hc (j + 1) ?_]
        · exact hin j v hv
        · have := ok.inNv
          have hj : j < ins.length := (List.getElem?_eq_some_iff.1 hv).1
          have : c.prog.numInputs = root.numInputs := by rw [← hprog]; rfl
          omega
    cases b0 with
    | true =>
      obtain ⟨T', hE, hcc, hz⟩ := cc_zero ht hcct.tree T
      obtain ⟨e1, e2⟩ := hval T' hE
      obtain ⟨tape, b'', h5, h6⟩ := hcomp T' (hE.tr ht hT) hcc e2
      rw [e1] at h5 h6
      refine ⟨tape, ?_⟩
      rw [h5]
      congr 2
      rw [Bool.eq_iff_iff, h6, hb', Bool.true_and]
      exact ⟨fun h => h.2, fun h => ⟨fun cc h' => hz c hc _ cc h', h⟩⟩
    | false =>
      have hns : ¬ Sat (progGet rc.get) 0 T := fun h => by have := hsat.2 h; cases this
      obtain ⟨T', hE, hcc, hz⟩ := cc_fail ht hcct T hns
      obtain ⟨e1, e2⟩ := hval T' hE
      obtain ⟨tape, b'', h5, h6⟩ := hcomp T' (hE.tr ht hT) hcc e2
      rw [e1] at h5 h6
      refine ⟨tape, ?_⟩
      rw [h5]
      congr 2
      rw [hb', Bool.false_and, Bool.eq_false_iff]
      intro hbt
      obtain ⟨j0, cc0, g1, g2⟩ := hz c hc
      obtain ⟨g3, cc', g4⟩ := root_out (id := 0) ok hccok g1
      have := (h6.1 hbt).1 cc' g4
      rw [g2 _ _ g4, if_pos (.inr ⟨rfl, g3⟩)] at this
      exact one_ne_zero this
  refine ⟨fwd, ?_⟩
  intro tape outs b' he
  obtain ⟨T, h1, h2, h3, rfl, h5⟩ := hsound tape outs b' he
  classical
  refine ⟨(decide (Sat (progGet rc.get) 0 T) && ((root.outputs.map (T [])).take rc.expectedNumOutputZeroes).all (fun x => decide (x = 0))), ?_, ?_⟩
  · exact ⟨root, root.outputs.map (T []), decide (Sat (progGet rc.get) 0 T), hr, hlen, (hmeans ins _ _ hlen).2 ⟨T, h1, h3, rfl, by simp⟩, by simpa using hk, rfl, rfl⟩
  · intro hb
    rw [Bool.and_eq_true, decide_eq_true_eq] at hb
    exact h5.2 ⟨fun cc hcc => cc_sat ht hcct T hb.1 h2 c hc _ cc hcc, hb.2⟩

end

end Verif.Layering
