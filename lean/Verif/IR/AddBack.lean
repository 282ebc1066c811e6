import Verif.IR.HintExportProof
import Verif.InputMapping
import Verif.IR.Family

/-!
# `add_back_removed_inputs` (circuit/ir/hint_normalized/mod.rs:420-442, 480-483)
-/

set_option linter.unusedSectionVars false

namespace Verif.IR

open Verif.IR.HintExport

variable {F : Type} [Field F] [DecidableEq F]

namespace AddBack

/-- The initial `new_id` (mod.rs:421, 424-428): entry 0 is 0, entry `x + 1` is one plus the last input mapped to `x`.
`none` is an index out of range. -/
def newIds (im : InputMapping) (n : Nat) : Option (List Nat) :=
  (InputMapping.assign (im.mapping.zip (List.range' 1 im.curSize)) (List.replicate n 0)).map (0 :: ·)

/-- The instruction loop (mod.rs:429-435): instructions and final `new_id`. -/
def renumber {L : Lang F} : List L.Insn → List Nat → Nat → List L.Insn × List Nat
  | [], vm, _ => ([], vm)
  | i :: is, vm, mx =>
    let r := renumber is (vm ++ List.range' (mx + 1) (L.numOutputs i)) (mx + L.numOutputs i)
    (L.replaceVars i (vmGet vm) :: r.1, r.2)

/-- `Circuit::add_back_removed_inputs` (mod.rs:420-442). -/
def addBackCircuit {L : Lang F} (im : InputMapping) (c : Circuit L) : Option (Circuit L) :=
  (newIds im c.numInputs).map (fun vm =>
    let r := renumber c.instructions vm im.curSize
    ⟨r.1, c.constraints.map (fun k => k.replaceVar (vmGet r.2)), c.outputs.map (vmGet r.2), im.curSize⟩)

/-- `RootCircuit::add_back_removed_inputs` (mod.rs:480-483): `insert` replaces the root. -/
def addBack {L : Lang F} (im : InputMapping) (rc : RootCircuit L) : Option (RootCircuit L) :=
  match rc.get 0 with
  | none => none
  | some c => (addBackCircuit im c).map (fun c' =>
      ⟨rc.numPublicInputs, rc.expectedNumOutputZeroes, rc.circuits.map (fun p => if p.1 = 0 then (0, c') else p)⟩)

variable {L : Lang F} {get : Nat → Option (Circuit L)} {npi : Option Nat}

theorem renumber_run (hL : L.Lawful) : ∀ (is : List L.Insn) (vm : List Nat) (vs ws : List F) (cur mx : Nat), vs.length = cur + 1 → ws.length = mx + 1 →
    InsnsOk L npi cur is → CallsOk get is → Rel vm vs ws →
    (∀ t b, Run get is vs (vs ++ t) b → Rel (renumber is vm mx).2 (vs ++ t) (ws ++ t)) ∧
    ∀ t b, Run get is vs (vs ++ t) b ↔ Run get (renumber is vm mx).1 ws (ws ++ t) b := by
  intro is
  induction is with
  | nil =>
    intro vm vs ws cur mx _ _ _ _ hr
    have hnil : ∀ (x t : List F), x ++ t = x ↔ t = [] := by intro x t; simp
    simp only [renumber, run_nil_iff, hnil]
    refine ⟨?_, fun t b => trivial⟩
    rintro t b ⟨rfl, _⟩
    simpa using hr
  | cons i is ih =>
    intro vm vs ws cur mx hvs hws hok hco hr
    obtain ⟨hin, hok'⟩ := insns_lt hok hvs
    have hco' : CallsOk get is := fun j hj => hco j (by simp [hj])
    have hfwd : ∀ outs : List F, outs.length = L.numOutputs i →
        (∀ t b, Run get is (vs ++ outs) ((vs ++ outs) ++ t) b → Rel (renumber (i :: is) vm mx).2 ((vs ++ outs) ++ t) ((ws ++ outs) ++ t)) ∧
        ∀ t b, Run get is (vs ++ outs) ((vs ++ outs) ++ t) b ↔
          Run get (renumber is (vm ++ List.range' (mx + 1) (L.numOutputs i)) (mx + L.numOutputs i)).1 (ws ++ outs) ((ws ++ outs) ++ t) b := by
      intro outs ho
      have h1 := Rel.step (outs := outs) hr hws
      rw [ho] at h1
      exact ih _ _ _ (cur + L.numOutputs i) (mx + L.numOutputs i) (by simp [hvs, ho]; omega) (by simp [hws, ho]; omega) hok' hco' h1
    have hren : (renumber (i :: is) vm mx).1 = L.replaceVars i (vmGet vm) ::
        (renumber is (vm ++ List.range' (mx + 1) (L.numOutputs i)) (mx + L.numOutputs i)).1 := rfl
    cases hc : L.asCall i with
    | none =>
      have hc2 : L.asCall (L.replaceVars i (vmGet vm)) = none := by rw [hL.asCall_replace, hc]; rfl
      have hp : ∀ outs, L.prim (L.replaceVars i (vmGet vm)) (fun v => ws[v]?) outs ↔ L.prim i (fun v => vs[v]?) outs := by
        intro outs
        rw [hL.prim_replace _ _ _ _ hc]
        constructor
        · exact hL.prim_local _ _ _ _ hc (fun v hv => hr.val v (hin v hv))
        · exact hL.prim_local _ _ _ _ hc (fun v hv => (hr.val v (hin v hv)).symm)
      refine ⟨?_, ?_⟩
      · intro t b h
        obtain ⟨outs, h1, h2⟩ := (run_prim_iff hc).1 h
        obtain ⟨t', ht⟩ := h2.prefix
        rw [ht] at h2
        have e : t = outs ++ t' := by rw [List.append_assoc] at ht; exact List.append_cancel_left ht
        subst e
        have := (hfwd outs (hL.prim_length _ _ _ hc h1)).1 t' b h2
        simpa only [List.append_assoc] using this
      · intro t b
        rw [hren, run_prim_iff hc, run_prim_iff hc2]
        constructor
        · rintro ⟨outs, h1, h2⟩
          obtain ⟨t', ht⟩ := h2.prefix
          rw [ht] at h2
          have e : t = outs ++ t' := by rw [List.append_assoc] at ht; exact List.append_cancel_left ht
          subst e
          refine ⟨outs, (hp outs).2 h1, ?_⟩
          rw [← List.append_assoc]
          exact ((hfwd outs (hL.prim_length _ _ _ hc h1)).2 t' b).1 h2
        · rintro ⟨outs, h1, h2⟩
          obtain ⟨t', ht⟩ := h2.prefix
          rw [ht] at h2
          have e : t = outs ++ t' := by rw [List.append_assoc] at ht; exact List.append_cancel_left ht
          subst e
          have h1' := (hp outs).1 h1
          refine ⟨outs, h1', ?_⟩
          rw [← List.append_assoc]
          exact ((hfwd outs (hL.prim_length _ _ _ hc h1')).2 t' b).2 h2
    | some t =>
      obtain ⟨c, a, n⟩ := t
      have hc2 : L.asCall (L.replaceVars i (vmGet vm)) = some (c, a.map (vmGet vm), n) := by rw [hL.asCall_replace, hc]; rfl
      have ha : readAll ws (a.map (vmGet vm)) = readAll vs a :=
        hr.reads (fun v hv => hin v (by rw [hL.call_inputs _ _ _ _ hc]; exact hv))
      obtain ⟨sub, hg, _, hn⟩ := hco i (by simp) c a n hc
      have hlen : ∀ circ args res sb, get c = some circ → EvalSub get circ args res sb → res.length = L.numOutputs i := by
        intro circ args res sb hg' hs
        rw [hg] at hg'; cases hg'
        rw [hs.length, hL.call_numOutputs _ _ _ _ hc, hn]
      refine ⟨?_, ?_⟩
      · intro t b h
        obtain ⟨circ, args, res, sb, b', h1, h2, h3, h4, _⟩ := (run_call_iff hc).1 h
        obtain ⟨t', ht⟩ := h4.prefix
        rw [ht] at h4
        have e : t = res ++ t' := by rw [List.append_assoc] at ht; exact List.append_cancel_left ht
        subst e
        have := (hfwd res (hlen _ _ _ _ h1 h3)).1 t' b' h4
        simpa only [List.append_assoc] using this
      · intro t b
        rw [hren, run_call_iff hc, run_call_iff hc2, ha]
        constructor
        · rintro ⟨circ, args, res, sb, b', h1, h2, h3, h4, h5⟩
          obtain ⟨t', ht⟩ := h4.prefix
          rw [ht] at h4
          have e : t = res ++ t' := by rw [List.append_assoc] at ht; exact List.append_cancel_left ht
          subst e
          refine ⟨circ, args, res, sb, b', h1, h2, h3, ?_, h5⟩
          rw [← List.append_assoc]
          exact ((hfwd res (hlen _ _ _ _ h1 h3)).2 t' b').1 h4
        · rintro ⟨circ, args, res, sb, b', h1, h2, h3, h4, h5⟩
          obtain ⟨t', ht⟩ := h4.prefix
          rw [ht] at h4
          have e : t = res ++ t' := by rw [List.append_assoc] at ht; exact List.append_cancel_left ht
          subst e
          refine ⟨circ, args, res, sb, b', h1, h2, h3, ?_, h5⟩
          rw [← List.append_assoc]
          exact ((hfwd res (hlen _ _ _ _ h1 h3)).2 t' b').2 h4

/-- `EvalSub` in terms of the appended values. -/
theorem evalSub_iff_tail {circ : Circuit L} {ins outs : List F} {b : Bool} : EvalSub get circ ins outs b ↔
    ∃ t sb cb, Run get circ.instructions (0 :: ins) ((0 :: ins) ++ t) sb ∧ checkCons ((0 :: ins) ++ t) circ.constraints = some cb ∧
      readAll ((0 :: ins) ++ t) circ.outputs = some outs ∧ b = (sb && cb) := by
  constructor
  · rintro ⟨vs, sb, cb, h1, h2, h3, h4⟩
    obtain ⟨t, rfl⟩ := h1.prefix
    exact ⟨t, sb, cb, h1, h2, h3, h4⟩
  · rintro ⟨t, sb, cb, h1, h2, h3, h4⟩
    exact ⟨_, sb, cb, h1, h2, h3, h4⟩

/-- Values at positions: the renaming table and the mapped inputs agree. -/
theorem valueAt_map {α β : Type} (f : α → β) : ∀ (ps : List (Option Nat × α)) (j : Nat) (d : α),
    InputMapping.valueAt (ps.map (fun p => (p.1, f p.2))) j (f d) = f (InputMapping.valueAt ps j d) := by
  intro ps
  induction ps with
  | nil => intro j d; rfl
  | cons p ps ih =>
    intro j d
    simp only [List.map_cons, InputMapping.valueAt]
    rw [← ih]
    congr 1
    split <;> rfl

theorem newIds_rel (im : InputMapping) (hr : im.InRange) (ins ins' : List F) (hl : ins.length = im.curSize)
    (hm : im.mapInputs 0 ins = some ins') : ∃ vm, newIds im im.nextSize = some vm ∧ Rel vm (0 :: ins') (0 :: ins) := by
  obtain ⟨r, h1, h2, h3⟩ := InputMapping.mapInputs_spec im (0 : F) ins hr hl
  rw [hm] at h1; cases h1
  have hmap : ∀ {α : Type} (d : α) xs, xs.length = im.curSize → InputMapping.assign (im.mapping.zip xs) (List.replicate im.nextSize d) = im.mapInputs d xs := by
    intro α d xs hx
    rw [InputMapping.mapInputs, if_pos (show xs.length = im.mapping.length from hx)]
  obtain ⟨q, g1, g2, g3⟩ := InputMapping.mapInputs_spec im (0 : Nat) (List.range' 1 im.curSize) hr (by simp)
  refine ⟨0 :: q, ?_, by simp [g2, h2], ?_⟩
  · rw [newIds, hmap _ _ (by simp), g1]; rfl
  · intro v hv
    cases v with
    | zero => rfl
    | succ j =>
      have hj : j < im.nextSize := by simp at hv; omega
      have e1 : vmGet (0 :: q) (j + 1) = InputMapping.valueAt (im.mapping.zip (List.range' 1 im.curSize)) j 0 := by
        simp only [vmGet, List.getElem?_cons_succ, g3 j hj]; rfl
      rw [e1, List.getElem?_cons_succ, h3 j hj]
      have hz : im.mapping.zip ins = (im.mapping.zip (List.range' 1 im.curSize)).map (fun p => (p.1, ((0 :: ins)[p.2]?).getD 0)) := by
        apply List.ext_getElem?
        intro k
        simp only [List.getElem?_map, List.zip_eq_zipWith, List.getElem?_zipWith]
        by_cases hk : k < im.curSize
        · have hk' : k < im.mapping.length := hk
          simp only [List.getElem?_eq_getElem hk', List.getElem?_eq_getElem (show k < ins.length by omega),
            List.getElem?_eq_getElem (show k < (List.range' 1 im.curSize).length by simpa using hk), Option.map_some]
          simp only [List.getElem_range', Nat.one_mul]
          rw [show 1 + k = k + 1 by omega, List.getElem?_cons_succ, List.getElem?_eq_getElem (show k < ins.length by omega)]
          rfl
        · have hk' : im.mapping.length ≤ k := by unfold InputMapping.curSize at hk; omega
          simp only [List.getElem?_eq_none hk', Option.map_none]
      rw [hz]
      have hva := valueAt_map (fun k => ((0 :: ins)[k]?).getD 0) (im.mapping.zip (List.range' 1 im.curSize)) j 0
      refine Eq.trans ?_ (congrArg some hva.symm)
      -- the index is in range
      have hlt : InputMapping.valueAt (im.mapping.zip (List.range' 1 im.curSize)) j 0 < (0 :: ins).length := by
        have : ∀ (ps : List (Option Nat × Nat)) d, d < (0 :: ins).length → (∀ p ∈ ps, p.2 < (0 :: ins).length) →
            InputMapping.valueAt ps j d < (0 :: ins).length := by
          intro ps
          induction ps with
          | nil => intro d hd _; exact hd
          | cons p ps ih =>
            intro d hd hp
            obtain ⟨o, x⟩ := p
            simp only [InputMapping.valueAt]
            apply ih
            · split
              · exact hp (o, x) (by simp)
              · exact hd
            · exact fun p hp' => hp p (by simp [hp'])
        apply this _ _ (by simp)
        intro p hp
        have := (List.of_mem_zip (a := p.1) (b := p.2) hp).2
        simp only [List.mem_range'_1] at this
        simp; omega
      rw [List.getElem?_eq_getElem hlt]
      rfl

theorem addBackCircuit_sub (hL : L.Lawful) (hw : WFGet npi get) (im : InputMapping) (hr : im.InRange) {c : Nat} {circ : Circuit L} (hg : get c = some circ)
    (hn : im.nextSize = circ.numInputs) : ∃ circ', addBackCircuit im circ = some circ' ∧ circ'.numInputs = im.curSize ∧
      circ'.outputs.length = circ.outputs.length ∧
      ∀ ins, ins.length = im.curSize → ∃ ins', im.mapInputs 0 ins = some ins' ∧ ins'.length = circ.numInputs ∧
        ∀ outs b, EvalSub get circ' ins outs b ↔ EvalSub get circ ins' outs b := by
  obtain ⟨q, g1, g2, g3⟩ := InputMapping.mapInputs_spec im (0 : Nat) (List.range' 1 im.curSize) hr (by simp)
  have hnew : newIds im circ.numInputs = some (0 :: q) := by
    rw [newIds, ← hn]
    rw [InputMapping.mapInputs, if_pos (by simp [InputMapping.curSize])] at g1
    rw [g1]; rfl
  refine ⟨_, by rw [addBackCircuit, hnew]; rfl, rfl, by simp, ?_⟩
  intro ins hl
  obtain ⟨ins', h1, h2, h3⟩ := InputMapping.mapInputs_spec im (0 : F) ins hr hl
  refine ⟨ins', h1, by rw [h2, hn], ?_⟩
  obtain ⟨vm, hv, hrel⟩ := newIds_rel im hr ins ins' hl h1
  rw [hn, hnew] at hv; cases hv
  have hok := hw.circ c circ hg
  obtain ⟨r1, r2⟩ := renumber_run (get := get) hL circ.instructions (0 :: q) (0 :: ins') (0 :: ins) circ.numInputs im.curSize
    (by simp [h2, hn]) (by simp [hl]) hok.insns (hw.calls c circ hg) hrel
  intro outs b
  rw [evalSub_iff_tail, evalSub_iff_tail]
  have key : ∀ t sb, Run get circ.instructions (0 :: ins') ((0 :: ins') ++ t) sb →
      (checkCons ((0 :: ins) ++ t) (circ.constraints.map (fun k => k.replaceVar (vmGet (renumber circ.instructions (0 :: q) im.curSize).2))) =
        checkCons ((0 :: ins') ++ t) circ.constraints) ∧
      (readAll ((0 :: ins) ++ t) (circ.outputs.map (vmGet (renumber circ.instructions (0 :: q) im.curSize).2)) =
        readAll ((0 :: ins') ++ t) circ.outputs) := by
    intro t sb h
    have hrel' := r1 t sb h
    have hlen : ((0 :: ins') ++ t).length = numVars circ.numInputs circ.instructions + 1 := by
      rw [h.length hL (hw.calls c circ hg) (circ.numInputs + 1) (by simp [h2, hn]), numVars_add]
    refine ⟨checkCons_map_congr (fun k hk => hrel'.val _ ?_), readAll_map_congr (fun k hk => hrel'.val _ ?_)⟩
    · have := hok.cons k hk; omega
    · have := hok.outs k hk; omega
  constructor
  · rintro ⟨t, sb, cb, e1, e2, e3, e4⟩
    have e1' := (r2 t sb).2 e1
    obtain ⟨k1, k2⟩ := key t sb e1'
    exact ⟨t, sb, cb, e1', by rw [← k1]; exact e2, by rw [← k2]; exact e3, e4⟩
  · rintro ⟨t, sb, cb, e1, e2, e3, e4⟩
    obtain ⟨k1, k2⟩ := key t sb e1
    exact ⟨t, sb, cb, (r2 t sb).1 e1, by rw [← e2]; exact k1, by rw [← e3]; exact k2, e4⟩

theorem lookup_replace (cs : List (Nat × Circuit L)) (c' : Circuit L) (d : Nat) :
    (cs.map (fun p => if p.1 = 0 then (0, c') else p)).lookup d = if d = 0 then (cs.lookup 0).map (fun _ => c') else cs.lookup d := by
  induction cs with
  | nil => simp
  | cons p cs ih =>
    obtain ⟨k, c⟩ := p
    by_cases hk : k = 0
    · subst hk
      by_cases hd : d = 0
      · subst hd; simp [List.lookup]
      · have hd' : (d == 0) = false := by simp [hd]
        simp only [List.map_cons, if_true, List.lookup, hd'] at ih ⊢
        rw [ih]; simp [hd]
    · simp only [List.map_cons, hk, if_false, List.lookup]
      by_cases hd : d = k
      · subst hd; simp [hk]
      · have hd' : (d == k) = false := by simp [hd]
        have h0 : (0 == k) = false := by simpa using fun h => hk h.symm
        rw [hd', ih, h0]

/-- Replacing the root does not change the circuits it calls. -/
theorem evalSub_replace_root (hL : L.Lawful) (hw : WFGet npi get) {get' : Nat → Option (Circuit L)} (hget : ∀ d, d ≠ 0 → get' d = get d)
    (hnr : ∀ c, Relation.ReflTransGen (Calls get) 0 c → ¬ Calls get c 0) (circ' : Circuit L)
    (hcalls : ∀ i ∈ circ'.instructions, ∀ d a n, L.asCall i = some (d, a, n) → Calls get 0 d ∧ ∃ sub, get d = some sub ∧ a.length = sub.numInputs ∧ n = sub.outputs.length) :
    ∀ ins outs b, EvalSub get circ' ins outs b ↔ EvalSub get' circ' ins outs b := by
  have key : ∀ c circ, get c = some circ → c ≠ 0 → Relation.ReflTransGen (Calls get) 0 c →
      ∀ ins outs b, EvalSub get circ ins outs b ↔ EvalSub get' circ ins outs b := by
    apply call_induction (P := fun c circ => c ≠ 0 → Relation.ReflTransGen (Calls get) 0 c →
      ∀ ins outs b, EvalSub get circ ins outs b ↔ EvalSub get' circ ins outs b) hw.dag
    intro c circ hg ih hc0 hrc ins outs b
    have hrun : ∀ vs' sb, Run get circ.instructions (0 :: ins) vs' sb ↔ Run get' circ.instructions (0 :: ins) vs' sb := by
      intro vs' sb
      apply run_congr_get _ _ _ _ (hw.calls c circ hg)
      intro i hi d a n hcall
      obtain ⟨sub, hgd, _⟩ := hw.calls c circ hg i hi d a n hcall
      have hcd : Calls get c d := ⟨circ, hg, i, hi, a, n, hcall⟩
      have hd0 : d ≠ 0 := by rintro rfl; exact hnr c hrc hcd
      exact ⟨sub, sub, hgd, by rw [hget d hd0, hgd], fun args res sb _ => ih d sub hcd hgd hd0 (hrc.tail hcd) args res sb⟩
    simp only [EvalSub, hrun]
  intro ins outs b
  have hrun : ∀ vs' sb, Run get circ'.instructions (0 :: ins) vs' sb ↔ Run get' circ'.instructions (0 :: ins) vs' sb := by
    intro vs' sb
    apply run_congr_get _ _ _ _ (fun i hi d a n hcall => (hcalls i hi d a n hcall).2)
    intro i hi d a n hcall
    obtain ⟨hcd, sub, hgd, _⟩ := hcalls i hi d a n hcall
    have hd0 : d ≠ 0 := by rintro rfl; exact hnr 0 .refl hcd
    exact ⟨sub, sub, hgd, by rw [hget d hd0, hgd], fun args res sb _ => key d sub hgd hd0 (.single hcd) args res sb⟩
  simp only [EvalSub, hrun]

theorem renumber_calls (hL : L.Lawful) : ∀ (is : List L.Insn) (vm : List Nat) (mx : Nat), ∀ i' ∈ (renumber is vm mx).1, ∃ i ∈ is, ∃ f, i' = L.replaceVars i f := by
  intro is
  induction is with
  | nil => intro vm mx i' h; cases h
  | cons i is ih =>
    intro vm mx i' h
    rcases List.mem_cons.1 h with rfl | h
    · exact ⟨i, by simp, _, rfl⟩
    · obtain ⟨j, hj, f, hf⟩ := ih _ _ i' h
      exact ⟨j, by simp [hj], f, hf⟩

theorem addBack_correct (hL : L.Lawful) (rc : RootCircuit L) (hw : WFAt npi rc) (im : InputMapping) (hr : im.InRange) {root}
    (hg : rc.get 0 = some root) (hn : im.nextSize = root.numInputs) :
    ∃ rc', addBack im rc = some rc' ∧ rc'.vertices = rc.vertices ∧ rc'.numPublicInputs = rc.numPublicInputs ∧
      (∃ root', rc'.get 0 = some root' ∧ root'.numInputs = im.curSize) ∧
      ∀ ins, ins.length = im.curSize → ∃ ins', im.mapInputs 0 ins = some ins' ∧ ∀ outs b, Eval rc' ins outs b ↔ Eval rc ins' outs b := by
  obtain ⟨root', h1, h2, h3, h4⟩ := addBackCircuit_sub hL hw.wf im hr hg hn
  have hgz : rc.circuits.lookup 0 = some root := hg
  have hget' : ∀ d, (⟨rc.numPublicInputs, rc.expectedNumOutputZeroes, rc.circuits.map (fun p => if p.1 = 0 then (0, root') else p)⟩ : RootCircuit L).get d =
      if d = 0 then some root' else rc.get d := by
    intro d
    simp only [RootCircuit.get]
    rw [lookup_replace, hgz]; rfl
  have hnr : ∀ c, Relation.ReflTransGen (Calls rc.get) 0 c → ¬ Calls rc.get c 0 := by
    obtain ⟨r, hrr⟩ := hw.wf.dag
    have key : ∀ x, Relation.ReflTransGen (Calls rc.get) 0 x → r x ≤ r 0 := by
      intro x hx
      induction hx with
      | refl => exact Nat.le_refl _
      | tail _ h ih => have := hrr _ _ h; omega
    intro c hc hcc
    have := key c hc
    have := hrr c 0 hcc
    omega
  have hcalls : ∀ i ∈ root'.instructions, ∀ d a n, L.asCall i = some (d, a, n) → Calls rc.get 0 d ∧ ∃ sub, rc.get d = some sub ∧
      a.length = sub.numInputs ∧ n = sub.outputs.length := by
    intro i hi d a n hcall
    have hi' : ∃ vm, i ∈ (renumber root.instructions vm im.curSize).1 := by
      unfold addBackCircuit at h1
      simp only [Option.map_eq_some_iff] at h1
      obtain ⟨vm, _, rfl⟩ := h1
      exact ⟨vm, hi⟩
    obtain ⟨vm, hi'⟩ := hi'
    obtain ⟨j, hj, f, rfl⟩ := renumber_calls hL _ _ _ i hi'
    rw [hL.asCall_replace] at hcall
    simp only [Option.map_eq_some_iff] at hcall
    obtain ⟨⟨d', a', n'⟩, hc, he⟩ := hcall
    simp only [Prod.mk.injEq] at he
    obtain ⟨rfl, rfl, rfl⟩ := he
    obtain ⟨sub, s1, s2, s3⟩ := hw.wf.calls 0 root hg j hj d' a' n' hc
    exact ⟨⟨root, hg, j, hj, a', n', hc⟩, sub, s1, by simpa using s2, s3⟩
  refine ⟨⟨rc.numPublicInputs, rc.expectedNumOutputZeroes, rc.circuits.map (fun p => if p.1 = 0 then (0, root') else p)⟩,
    by rw [addBack, hg]; simp only [h1]; rfl, ?_, rfl, ⟨root', by rw [hget']; rfl, h2⟩, ?_⟩
  · simp only [RootCircuit.vertices, List.map_map]
    apply List.map_congr_left
    intro p hp
    simp only [Function.comp]
    split <;> simp_all
  · intro ins hl
    obtain ⟨ins', m1, m2, m3⟩ := h4 ins hl
    refine ⟨ins', m1, ?_⟩
    have hev : ∀ all b0, EvalSub (⟨rc.numPublicInputs, rc.expectedNumOutputZeroes, rc.circuits.map (fun p => if p.1 = 0 then (0, root') else p)⟩ : RootCircuit L).get root' ins all b0 ↔
        EvalSub rc.get root ins' all b0 := by
      intro all b0
      rw [← m3]
      exact (evalSub_replace_root hL hw.wf (fun d hd => by rw [hget', if_neg hd]) hnr root' hcalls ins all b0).symm
    intro outs b
    constructor
    · rintro ⟨r, all, b0, e1, e2, e3, e4⟩
      rw [hget', if_pos rfl] at e1; cases e1
      exact ⟨root, all, b0, hg, m2, (hev _ _).1 e3, e4⟩
    · rintro ⟨r, all, b0, e1, e2, e3, e4⟩
      rw [hg] at e1; cases e1
      exact ⟨root', all, b0, by rw [hget']; rfl, by rw [h2]; exact hl, (hev _ _).2 e3, e4⟩

end AddBack
end Verif.IR
