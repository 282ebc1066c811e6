import Verif.IR.Reassign

set_option linter.unusedSectionVars false
set_option linter.unusedSimpArgs false

namespace Verif.IR

open Verif.Utils

variable {F : Type} [Field F] [DecidableEq F] {L : Lang F}

/-- Structural part of the invariant on `var_map`. -/
def VMOk (vm : List Nat) : Prop := ∀ v, v < vm.length → vmGet vm v ≤ v ∧ (v ≠ 0 → vmGet vm v ≠ 0)

/-- Semantic part: redirecting a variable does not change its value. -/
def VMVal (vm : List Nat) (vs : List F) : Prop := vm.length = vs.length ∧ ∀ v, v < vs.length → vs[vmGet vm v]? = vs[v]?

theorem vmGet_append_left {vm t : List Nat} {v : Nat} (h : v < vm.length) : vmGet (vm ++ t) v = vmGet vm v := by
  simp [vmGet, List.getElem?_append_left h]

theorem vmGet_append_right {vm t : List Nat} {v : Nat} (h : vm.length ≤ v) : vmGet (vm ++ t) v = vmGet t (v - vm.length) := by
  simp [vmGet, List.getElem?_append_right h]

/-- What callers rely on about `out_map[d]`. -/
structure OmOk (n : Nat) (om : List Nat) : Prop where
  len : om.length = n
  le : ∀ j, j < n → vmGet om j ≤ j

theorem VMOk.append {vm om : List Nat} {n : Nat} (h : VMOk vm) (ho : OmOk n om) (hp : 0 < vm.length) :
    VMOk (vm ++ om.map (· + vm.length)) := by
  intro v hv
  by_cases hlt : v < vm.length
  · rw [vmGet_append_left hlt]; exact h v hlt
  · have hge : vm.length ≤ v := by omega
    rw [vmGet_append_right hge]
    simp only [List.length_append, List.length_map, ho.len] at hv
    have hj : v - vm.length < n := by omega
    have hle := ho.le _ hj
    have hlen : v - vm.length < om.length := by rw [ho.len]; exact hj
    have e : vmGet (om.map (· + vm.length)) (v - vm.length) = vmGet om (v - vm.length) + vm.length := by
      simp [vmGet, List.getElem?_map, List.getElem?_eq_getElem hlen]
    rw [e]; constructor <;> omega

theorem VMVal.append {vm om : List Nat} {vs res : List F} (h : VMVal vm vs) (hl : om.length = res.length)
    (ho : ∀ j, j < res.length → res[vmGet om j]? = res[j]?) : VMVal (vm ++ om.map (· + vm.length)) (vs ++ res) := by
  refine ⟨by simp [h.1, hl], ?_⟩
  intro v hv
  by_cases hlt : v < vm.length
  · rw [vmGet_append_left hlt]
    have h1 := h.2 v (by rw [← h.1]; exact hlt)
    have hv' : v < vs.length := by rw [← h.1]; exact hlt
    have hb : vmGet vm v < vs.length := by
      rw [List.getElem?_eq_getElem hv'] at h1
      exact (List.getElem?_eq_some_iff.1 h1).1
    rw [List.getElem?_append_left hb, List.getElem?_append_left hv']; exact h1
  · have hge : vm.length ≤ v := by omega
    rw [vmGet_append_right hge]
    simp only [List.length_append] at hv
    have hvm := h.1
    have hj : v - vm.length < res.length := by omega
    have hlen : v - vm.length < om.length := by rw [hl]; exact hj
    have e : vmGet (om.map (· + vm.length)) (v - vm.length) = vmGet om (v - vm.length) + vm.length := by
      simp [vmGet, List.getElem?_map, List.getElem?_eq_getElem hlen]
    rw [e, List.getElem?_append_right (by omega), List.getElem?_append_right (by omega)]
    have := ho _ hj
    rw [← h.1, Nat.add_sub_cancel]; exact this

theorem vmGet_range {n j : Nat} (h : j < n) : vmGet (List.range n) j = j := by
  simp [vmGet, List.getElem?_range h]

theorem VMVal.range {vs : List F} {n : Nat} (h : vs.length = n) : VMVal (List.range n) vs := by
  refine ⟨by simp [h], fun v hv => by rw [vmGet_range (by omega)]⟩

theorem VMOk.range {n : Nat} : VMOk (List.range n) := by
  intro v hv
  simp at hv
  rw [vmGet_range hv]; exact ⟨le_refl _, id⟩

theorem OmOk.range {n : Nat} : OmOk n (List.range n) := ⟨by simp, fun j hj => by rw [vmGet_range hj]⟩

/-- The entries pushed to `var_map` for an instruction. -/
def pushed (L : Lang F) (om : Nat → List Nat) (i : L.Insn) : List Nat :=
  match L.asCall i with
  | some (d, _, _) => om d
  | none => List.range (L.numOutputs i)

theorem reassignInsns_cons (om : Nat → List Nat) (i : L.Insn) (is : List L.Insn) (vm : List Nat) :
    reassignInsns L om (i :: is) vm =
      (L.replaceVars i (vmGet (vm ++ (pushed L om i).map (· + vm.length))) ::
        (reassignInsns L om is (vm ++ (pushed L om i).map (· + vm.length))).1,
       (reassignInsns L om is (vm ++ (pushed L om i).map (· + vm.length))).2) := by
  simp only [reassignInsns, pushed]
  cases L.asCall i with
  | none => rfl
  | some t => obtain ⟨d, a, n⟩ := t; rfl

variable {get get' : Nat → Option (Circuit L)}

theorem reassign_insns_ok (hL : L.Lawful) (hdi : L.allowDupInputs = true) (npi : Option Nat) (om : Nat → List Nat) :
    ∀ (is : List L.Insn) (vm : List Nat) (cur : Nat), VMOk vm → vm.length = cur + 1 → InsnsOk L npi cur is → CallsOk get is →
      (∀ i ∈ is, ∀ d a n, L.asCall i = some (d, a, n) → OmOk n (om d)) →
      InsnsOk L npi cur (reassignInsns L om is vm).1 ∧ VMOk (reassignInsns L om is vm).2 ∧
      (reassignInsns L om is vm).2.length = numVars cur is + 1 ∧
      numVars cur (reassignInsns L om is vm).1 = numVars cur is := by
  intro is
  induction is with
  | nil => intro vm cur h hl _ _ _; exact ⟨trivial, h, by simpa [reassignInsns, numVars] using hl, rfl⟩
  | cons i is ih =>
    intro vm cur h hl hi hc ho
    have hpo : OmOk (L.numOutputs i) (pushed L om i) := by
      unfold pushed
      cases hcall : L.asCall i with
      | none => exact OmOk.range
      | some t =>
        obtain ⟨d, a, n⟩ := t
        simp only
        rw [hL.call_numOutputs _ _ _ _ hcall]
        exact ho i (by simp) d a n hcall
    have hv' := h.append hpo (by omega)
    have hl' : (vm ++ (pushed L om i).map (· + vm.length)).length = cur + L.numOutputs i + 1 := by
      simp [hpo.len, hl]; omega
    obtain ⟨h1, h2, h3, h4⟩ := ih _ (cur + L.numOutputs i) hv' hl' hi.2.2.2 (fun j hj => hc j (by simp [hj]))
      (fun j hj => ho j (by simp [hj]))
    rw [reassignInsns_cons]
    refine ⟨⟨?_, ?_, Or.inl hdi, ?_⟩, h2, ?_, ?_⟩
    · intro t ht
      rw [hL.inputs_replace] at ht
      obtain ⟨v, hv, rfl⟩ := List.mem_map.1 ht
      have hb := hi.1 v hv
      have := hv' v (by rw [hl']; omega)
      exact ⟨by omega, this.2 hb.2⟩
    · rw [hL.validAt_replace]; exact hi.2.1
    · rw [hL.numOutputs_replace]; exact h1
    · rw [h3, numVars_cons]
    · rw [numVars_cons, hL.numOutputs_replace, h4, numVars_cons]

/-- What is known about a callee after processing it. -/
structure SubOk (get get' : Nat → Option (Circuit L)) (sub sub' : Circuit L) (om : List Nat) : Prop where
  omOk : OmOk sub.outputs.length om
  eval : ∀ ins outs b, ins.length = sub.numInputs → (EvalSub get sub ins outs b ↔ EvalSub get' sub' ins outs b)
  omVal : ∀ ins outs b, ins.length = sub.numInputs → EvalSub get sub ins outs b → ∀ j, j < outs.length → outs[vmGet om j]? = outs[j]?

theorem reassign_run (hL : L.Lawful) (npi : Option Nat) (om : Nat → List Nat) :
    ∀ (is : List L.Insn) (vm : List Nat) (vs : List F) (cur : Nat), VMVal vm vs → vs.length = cur + 1 → InsnsOk L npi cur is → CallsOk get is →
      (∀ i ∈ is, ∀ d a n, L.asCall i = some (d, a, n) → ∃ sub sub', get d = some sub ∧ get' d = some sub' ∧ SubOk get get' sub sub' (om d)) →
      ∀ vs' b, (Run get is vs vs' b ↔ Run get' (reassignInsns L om is vm).1 vs vs' b) ∧
        (Run get is vs vs' b → VMVal (reassignInsns L om is vm).2 vs') := by
  intro is
  induction is with
  | nil =>
    intro vm vs cur h hl _ _ _ vs' b
    refine ⟨by rw [reassignInsns, run_nil_iff, run_nil_iff], fun hr => ?_⟩
    obtain ⟨rfl, _⟩ := run_nil_iff.1 hr
    exact h
  | cons i is ih =>
    intro vm vs cur h hl hi hc hs vs' b
    rw [reassignInsns_cons]
    have hin : ∀ v ∈ L.inputs i, vs[vmGet (vm ++ (pushed L om i).map (· + vm.length)) v]? = vs[v]? := by
      intro v hv
      have hb := hi.1 v hv
      rw [vmGet_append_left (by rw [h.1]; omega)]
      exact h.2 v (by omega)
    cases hcall : L.asCall i with
    | none =>
      have hrc : L.asCall (L.replaceVars i (vmGet (vm ++ (pushed L om i).map (· + vm.length)))) = none := by
        rw [hL.asCall_replace, hcall]; rfl
      rw [run_prim_iff hcall, run_prim_iff hrc]
      have hp : ∀ outs, L.prim (L.replaceVars i (vmGet (vm ++ (pushed L om i).map (· + vm.length)))) (fun v => vs[v]?) outs ↔
          L.prim i (fun v => vs[v]?) outs := by
        intro outs
        rw [hL.prim_replace _ _ _ _ hcall]
        exact ⟨hL.prim_local _ _ _ _ hcall hin, hL.prim_local _ _ _ _ hcall (fun v hv => (hin v hv).symm)⟩
      have hnext : ∀ outs, L.prim i (fun v => vs[v]?) outs →
          VMVal (vm ++ (pushed L om i).map (· + vm.length)) (vs ++ outs) ∧ (vs ++ outs).length = cur + L.numOutputs i + 1 := by
        intro outs ho
        have hlo := hL.prim_length _ _ _ hcall ho
        have e : pushed L om i = List.range outs.length := by simp [pushed, hcall, hlo]
        refine ⟨?_, by rw [List.length_append, hlo]; omega⟩
        rw [e]
        exact h.append (by simp) (fun j hj => by rw [vmGet_range hj])
      constructor
      · constructor
        · rintro ⟨outs, ho, hr⟩
          obtain ⟨hv, hlen⟩ := hnext outs ho
          exact ⟨outs, (hp outs).2 ho, ((ih _ _ _ hv hlen hi.2.2.2 (fun j hj => hc j (by simp [hj])) (fun j hj => hs j (by simp [hj]))) vs' b).1.1 hr⟩
        · rintro ⟨outs, ho, hr⟩
          have ho := (hp outs).1 ho
          obtain ⟨hv, hlen⟩ := hnext outs ho
          exact ⟨outs, ho, ((ih _ _ _ hv hlen hi.2.2.2 (fun j hj => hc j (by simp [hj])) (fun j hj => hs j (by simp [hj]))) vs' b).1.2 hr⟩
      · rintro ⟨outs, ho, hr⟩
        obtain ⟨hv, hlen⟩ := hnext outs ho
        exact ((ih _ _ _ hv hlen hi.2.2.2 (fun j hj => hc j (by simp [hj])) (fun j hj => hs j (by simp [hj]))) vs' b).2 hr
    | some t =>
      obtain ⟨d, a, n⟩ := t
      have hia := hL.call_inputs _ _ _ _ hcall
      have hrc : L.asCall (L.replaceVars i (vmGet (vm ++ (pushed L om i).map (· + vm.length)))) =
          some (d, a.map (vmGet (vm ++ (pushed L om i).map (· + vm.length))), n) := by
        rw [hL.asCall_replace, hcall]; rfl
      rw [run_call_iff hcall, run_call_iff hrc]
      obtain ⟨sub, sub', hg, hg', hok⟩ := hs i (by simp) d a n hcall
      obtain ⟨sub2, hg2, hal, hn⟩ := hc i (by simp) d a n hcall
      rw [hg] at hg2; cases hg2
      have hra : readAll vs (a.map (vmGet (vm ++ (pushed L om i).map (· + vm.length)))) = readAll vs a :=
        readAll_map_congr (fun v hv => hin v (by rw [hia]; exact hv))
      have hnext : ∀ args res sb, readAll vs a = some args → EvalSub get sub args res sb →
          VMVal (vm ++ (pushed L om i).map (· + vm.length)) (vs ++ res) ∧ (vs ++ res).length = cur + L.numOutputs i + 1 := by
        intro args res sb ha he
        have hlo := he.length
        have e : pushed L om i = om d := by simp [pushed, hcall]
        refine ⟨?_, by rw [List.length_append, hlo, hL.call_numOutputs _ _ _ _ hcall]; omega⟩
        rw [e]
        exact h.append (by rw [hok.omOk.len, hlo]) (hok.omVal args res sb (by rw [readAll_length ha, hal]) he)
      rw [hra]
      constructor
      · constructor
        · rintro ⟨circ, args, res, sb, b', hgc, ha, he, hr, rfl⟩
          rw [hg] at hgc; cases hgc
          obtain ⟨hv, hlen⟩ := hnext args res sb ha he
          exact ⟨sub', args, res, sb, b', hg', ha, (hok.eval _ _ _ (by rw [readAll_length ha, hal])).1 he,
            ((ih _ _ _ hv hlen hi.2.2.2 (fun j hj => hc j (by simp [hj])) (fun j hj => hs j (by simp [hj]))) vs' b').1.1 hr, rfl⟩
        · rintro ⟨circ, args, res, sb, b', hgc, ha, he, hr, rfl⟩
          rw [hg'] at hgc; cases hgc
          have he := (hok.eval _ _ _ (by rw [readAll_length ha, hal])).2 he
          obtain ⟨hv, hlen⟩ := hnext args res sb ha he
          exact ⟨sub, args, res, sb, b', hg, ha, he,
            ((ih _ _ _ hv hlen hi.2.2.2 (fun j hj => hc j (by simp [hj])) (fun j hj => hs j (by simp [hj]))) vs' b').1.2 hr, rfl⟩
      · rintro ⟨circ, args, res, sb, b', hgc, ha, he, hr, rfl⟩
        rw [hg] at hgc; cases hgc
        obtain ⟨hv, hlen⟩ := hnext args res sb ha he
        exact ((ih _ _ _ hv hlen hi.2.2.2 (fun j hj => hc j (by simp [hj])) (fun j hj => hs j (by simp [hj]))) vs' b').2 hr

theorem getD_idxOf {outs : List Nat} {o : Nat} (h : o ∈ outs) : (outs[outs.idxOf o]?).getD 0 = o := by
  have hlt := List.idxOf_lt_length_iff.2 h
  rw [List.getElem?_eq_getElem hlt]; simp

/-- The instructions appended for duplicate outputs. -/
theorem fresh_run (hL : L.Lawful) (outs : List Nat) (vs : List F) : ∀ (os : List Nat) (i vmax : Nat) (ws : List F),
    (∀ o ∈ os, o ∈ outs) → (∀ o ∈ outs, o ≠ 0 ∧ o < vs.length) → ws.length = vmax + 1 → (∃ t, ws = vs ++ t) →
    ∃ ext, (∀ ws' b, Run get' (freshOutputs L outs i vmax os).1 ws ws' b ↔ ws' = ws ++ ext ∧ b = true) ∧
      readAll (ws ++ ext) (freshOutputs L outs i vmax os).2 = readAll vs os := by
  intro os
  induction os with
  | nil => intro i vmax ws _ _ _ _; exact ⟨[], fun ws' b => by simp [freshOutputs, run_nil_iff], rfl⟩
  | cons o os ih =>
    intro i vmax ws hsub hok hl hpre
    have ho := hsub o (by simp)
    obtain ⟨ho0, holt⟩ := hok o ho
    obtain ⟨t, rfl⟩ := hpre
    simp only [freshOutputs]
    split
    · have hx : ((vs ++ t)[o]?) = some (vs[o]) := by
        rw [List.getElem?_append_left holt, List.getElem?_eq_getElem holt]
      obtain ⟨ext, h1, h2⟩ := ih (i + 1) (vmax + 1) (vs ++ t ++ [vs[o]]) (fun x hx => hsub x (by simp [hx])) hok
        (by simp at hl ⊢; omega) ⟨t ++ [vs[o]], by simp⟩
      refine ⟨vs[o] :: ext, ?_, ?_⟩
      · intro ws' b
        rw [run_prim_iff (hL.asCall_kx _ _ _)]
        simp only [getD_idxOf ho, hL.prim_kx _ _ _ _ _ ho0 (one_ne_zero), hx]
        constructor
        · rintro ⟨ou, ⟨y, hy, rfl⟩, hr⟩
          simp at hy; subst hy
          simp only [one_mul, add_zero] at hr
          have := (h1 ws' b).1 hr
          simpa using this
        · rintro ⟨rfl, rfl⟩
          exact ⟨_, ⟨_, rfl, rfl⟩, by
            simp only [one_mul, add_zero]
            exact (h1 _ _).2 ⟨by simp, rfl⟩⟩
      · simp only [readAll]
        have e1 : (vs ++ t ++ vs[o] :: ext)[vmax + 1]? = some vs[o] := by
          rw [List.getElem?_append_right (by omega), hl, Nat.sub_self]; rfl
        have e2 : vs ++ t ++ vs[o] :: ext = vs ++ t ++ [vs[o]] ++ ext := by simp
        rw [e1, List.getElem?_eq_getElem holt]
        rw [e2, h2]
    · obtain ⟨ext, h1, h2⟩ := ih (i + 1) vmax (vs ++ t) (fun x hx => hsub x (by simp [hx])) hok hl ⟨t, rfl⟩
      refine ⟨ext, h1, ?_⟩
      simp only [readAll]
      rw [List.append_assoc, List.getElem?_append_left holt, ← List.append_assoc, h2]

theorem fresh_ok (hL : L.Lawful) (hdi : L.allowDupInputs = true) (npi : Option Nat) (outs : List Nat) (cur : Nat) : ∀ (os : List Nat) (i vmax : Nat),
    (∀ o ∈ os, o ∈ outs) → (∀ o ∈ outs, o ≠ 0 ∧ o ≤ cur) → cur ≤ vmax →
    InsnsOk L npi vmax (freshOutputs L outs i vmax os).1 ∧
    (∀ o ∈ (freshOutputs L outs i vmax os).2, o ≠ 0 ∧ o ≤ numVars vmax (freshOutputs L outs i vmax os).1) ∧
    (∀ x ∈ (freshOutputs L outs i vmax os).1, L.asCall x = none) ∧
    (freshOutputs L outs i vmax os).2.length = os.length := by
  intro os
  induction os with
  | nil => intro i vmax _ _ _; simp [freshOutputs, InsnsOk]
  | cons o os ih =>
    intro i vmax hsub hok hle
    have ho := hsub o (by simp)
    obtain ⟨ho0, holt⟩ := hok o ho
    simp only [freshOutputs]
    split
    · obtain ⟨h1, h2, h3, h4⟩ := ih (i + 1) (vmax + 1) (fun x hx => hsub x (by simp [hx])) hok (by omega)
      refine ⟨⟨?_, hL.validAt_kx _ _ _ _, Or.inl hdi, ?_⟩, ?_, ?_, by simp [h4]⟩
      · intro t ht
        rw [getD_idxOf ho, hL.inputs_kx _ _ _ ho0 one_ne_zero] at ht
        simp at ht; subst ht; exact ⟨by omega, ho0⟩
      · rw [hL.numOutputs_kx]; exact h1
      · intro x hx
        rw [numVars_cons, hL.numOutputs_kx]
        rcases List.mem_cons.1 hx with rfl | hx
        · exact ⟨by omega, le_numVars _ _⟩
        · exact h2 x hx
      · intro x hx
        rcases List.mem_cons.1 hx with rfl | hx
        · exact hL.asCall_kx _ _ _
        · exact h3 x hx
    · obtain ⟨h1, h2, h3, h4⟩ := ih (i + 1) vmax (fun x hx => hsub x (by simp [hx])) hok hle
      refine ⟨h1, ?_, h3, by simp [h4]⟩
      intro x hx
      rcases List.mem_cons.1 hx with rfl | hx
      · exact ⟨ho0, le_trans (by omega) (le_numVars _ _)⟩
      · exact h2 x hx

/-- After the loop all outputs are distinct. -/
theorem fresh_nodup (outs : List Nat) (cur : Nat) (hok : ∀ o ∈ outs, o ≤ cur) : ∀ (os pre : List Nat) (vmax : Nat), outs = pre ++ os → cur ≤ vmax →
    (freshOutputs L outs pre.length vmax os).2.Nodup ∧
    ∀ o ∈ (freshOutputs L outs pre.length vmax os).2, (o ≤ cur → o ∈ os ∧ o ∉ pre) ∧ (cur < o → vmax < o) := by
  intro os
  induction os with
  | nil => intro pre vmax _ _; simp [freshOutputs]
  | cons o os ih =>
    intro pre vmax he hle
    have ih' := ih (pre ++ [o])
    simp only [List.length_append, List.length_singleton] at ih'
    have hoc : o ≤ cur := hok o (by rw [he]; simp)
    simp only [freshOutputs]
    split
    · rename_i hlt
      obtain ⟨h1, h2⟩ := ih' (vmax + 1) (by simp [he]) (by omega)
      refine ⟨List.nodup_cons.2 ⟨fun hm => ?_, h1⟩, ?_⟩
      · have := (h2 _ hm).2 (by omega); omega
      · intro x hx
        rcases List.mem_cons.1 hx with rfl | hx
        · exact ⟨fun h => by omega, fun _ => by omega⟩
        · have := h2 x hx
          exact ⟨fun h => ⟨by simp [(this.1 h).1], fun hp => (this.1 h).2 (by simp [hp])⟩, fun h => by have := this.2 h; omega⟩
    · rename_i hlt
      have hop : o ∉ pre := by
        intro hp
        apply hlt
        rw [he, List.idxOf_append_of_mem hp]
        exact List.idxOf_lt_length_iff.2 hp
      obtain ⟨h1, h2⟩ := ih' vmax (by simp [he]) hle
      refine ⟨List.nodup_cons.2 ⟨fun hm => ?_, h1⟩, ?_⟩
      · exact ((h2 _ hm).1 hoc).2 (by simp)
      · intro x hx
        rcases List.mem_cons.1 hx with rfl | hx
        · exact ⟨fun _ => ⟨by simp, hop⟩, fun h => by omega⟩
        · have := h2 x hx
          exact ⟨fun h => ⟨by simp [(this.1 h).1], fun hp => (this.1 h).2 (by simp [hp])⟩, fun h => by have := this.2 h; omega⟩

theorem firstPos_ok (outs : List Nat) : OmOk outs.length (firstPos outs) := by
  refine ⟨by simp [firstPos], fun j hj => ?_⟩
  simp only [vmGet, firstPos, List.getElem?_map, List.getElem?_eq_getElem hj, Option.map_some, Option.getD_some]
  by_contra hlt
  have hlt : j < outs.idxOf outs[j] := by omega
  have := List.not_of_lt_findIdx (p := (· == outs[j])) (xs := outs) (i := j) (by simpa [List.idxOf] using hlt)
  simp at this

theorem firstPos_get {outs : List Nat} {j : Nat} (hj : j < outs.length) : outs[vmGet (firstPos outs) j]? = outs[j]? := by
  simp only [vmGet, firstPos, List.getElem?_map, List.getElem?_eq_getElem hj, Option.map_some, Option.getD_some]
  have : outs.idxOf outs[j] < outs.length := List.idxOf_lt_length_iff.2 (by simp)
  rw [List.getElem?_eq_getElem this]; simp

/-- The result of processing one circuit. -/
theorem reassignCircuit_ok (hL : L.Lawful) {npi : Option Nat} (om : Nat → List Nat) (fresh : Bool) (circ : Circuit L)
    (hco : CircOk npi circ) (hc : CallsOk get circ.instructions)
    (hs : ∀ i ∈ circ.instructions, ∀ d a n, L.asCall i = some (d, a, n) → ∃ sub sub', get d = some sub ∧ get' d = some sub' ∧ SubOk get get' sub sub' (om d)) :
    SubOk get get' circ (reassignCircuit om fresh circ).1 (reassignCircuit om fresh circ).2 := by
  have hcons : ∀ vs b, vs.length = circ.numInputs + 1 → ∀ vs', Run get circ.instructions vs vs' b →
      (∀ k ∈ circ.constraints, k.var < vs'.length) ∧ (∀ o ∈ circ.outputs, o ≠ 0 ∧ o < vs'.length) := by
    intro vs b hl vs' hr
    have := hr.length hL hc _ hl
    rw [numVars_add] at this
    exact ⟨fun k hk => by have := (hco.cons k hk).1; omega, fun o ho => ⟨(hco.outs o ho).2, by have := (hco.outs o ho).1; omega⟩⟩
  have hrun : ∀ (ins : List F), ins.length = circ.numInputs → ∀ vs' b,
      (Run get circ.instructions (0 :: ins) vs' b ↔ Run get' (reassignInsns L om circ.instructions (List.range (circ.numInputs + 1))).1 (0 :: ins) vs' b) ∧
      (Run get circ.instructions (0 :: ins) vs' b → VMVal (reassignInsns L om circ.instructions (List.range (circ.numInputs + 1))).2 vs') :=
    fun ins hl => reassign_run hL npi om circ.instructions _ _ circ.numInputs (VMVal.range (by simp [hl])) (by simp [hl]) hco.insns hc hs
  have hvok : ∀ vs' : List F, ∀ vm, VMVal vm vs' → (∀ k ∈ circ.constraints, k.var < vs'.length) → (∀ o ∈ circ.outputs, o ≠ 0 ∧ o < vs'.length) →
      checkCons vs' (circ.constraints.map (fun k => k.replaceVar (vmGet vm))) = checkCons vs' circ.constraints ∧
      readAll vs' (circ.outputs.map (vmGet vm)) = readAll vs' circ.outputs :=
    fun vs' vm hv h1 h2 => ⟨checkCons_map_congr (fun k hk => hv.2 _ (h1 k hk)), readAll_map_congr (fun o ho => hv.2 _ (h2 o ho).2)⟩
  have homVal : ∀ (ins outs : List F) b, ins.length = circ.numInputs → EvalSub get circ ins outs b → ∀ j, j < outs.length →
      outs[vmGet (firstPos (circ.outputs.map (vmGet (reassignInsns L om circ.instructions (List.range (circ.numInputs + 1))).2))) j]? = outs[j]? := by
    rintro ins outs b hl ⟨vs, sb, cb, hr, hk, ho, rfl⟩ j hj
    obtain ⟨h1, h2⟩ := hcons _ _ (by simp [hl]) _ hr
    have hv := (hrun ins hl vs sb).2 hr
    obtain ⟨e1, e2⟩ := hvok vs _ hv h1 h2
    rw [← e2] at ho
    obtain ⟨hlen, hget⟩ := readAll_eq_some_iff.1 ho
    generalize hO : circ.outputs.map (vmGet (reassignInsns L om circ.instructions (List.range (circ.numInputs + 1))).2) = O at *
    have hj' : j < O.length := by omega
    have hfp := firstPos_get hj'
    have hm : O[j]? = some O[j] := List.getElem?_eq_getElem hj'
    rw [(hget _ _ hm).2, (hget _ _ (hfp.trans hm)).2]
  have hstr : ∀ o ∈ circ.outputs.map (vmGet (reassignInsns L om circ.instructions (List.range (circ.numInputs + 1))).2), o ∈ circ.outputs.map (vmGet (reassignInsns L om circ.instructions (List.range (circ.numInputs + 1))).2) := fun _ h => h
  cases fresh with
  | false =>
    simp only [reassignCircuit, Bool.false_eq_true, if_false]
    refine ⟨by simpa using firstPos_ok (circ.outputs.map _), ?_, homVal⟩
    intro ins outs b hl
    constructor
    · rintro ⟨vs, sb, cb, hr, hk, ho, rfl⟩
      obtain ⟨h1, h2⟩ := hcons _ _ (by simp [hl]) _ hr
      obtain ⟨e1, e2⟩ := hvok vs _ ((hrun ins hl vs sb).2 hr) h1 h2
      exact ⟨vs, sb, cb, (hrun ins hl vs sb).1.1 hr, by rw [← hk]; exact e1, by rw [← ho]; exact e2, rfl⟩
    · rintro ⟨vs, sb, cb, hr, hk, ho, rfl⟩
      have hr := (hrun ins hl vs sb).1.2 hr
      obtain ⟨h1, h2⟩ := hcons _ _ (by simp [hl]) _ hr
      obtain ⟨e1, e2⟩ := hvok vs _ ((hrun ins hl vs sb).2 hr) h1 h2
      exact ⟨vs, sb, cb, hr, by rw [← hk]; exact e1.symm, by rw [← ho]; exact e2.symm, rfl⟩
  | true =>
    simp only [reassignCircuit, if_true]
    have hO : ∀ vs' : List F, VMVal (reassignInsns L om circ.instructions (List.range (circ.numInputs + 1))).2 vs' →
        VMOk (reassignInsns L om circ.instructions (List.range (circ.numInputs + 1))).2 → (∀ o ∈ circ.outputs, o ≠ 0 ∧ o < vs'.length) →
        ∀ o ∈ circ.outputs.map (vmGet (reassignInsns L om circ.instructions (List.range (circ.numInputs + 1))).2), o ≠ 0 ∧ o < vs'.length := by
      intro vs' hv hvo h o ho
      obtain ⟨v, hvm, rfl⟩ := List.mem_map.1 ho
      obtain ⟨h0, hlt⟩ := h v hvm
      have := hvo v (by rw [hv.1]; exact hlt)
      exact ⟨this.2 h0, by omega⟩
    have hvmok : VMOk (reassignInsns L om circ.instructions (List.range (circ.numInputs + 1))).2 := by
      -- structural: does not need `allowDupInputs`
      have : ∀ (is : List L.Insn) (vm : List Nat), VMOk vm → 0 < vm.length → (∀ i ∈ is, i ∈ circ.instructions) →
          VMOk (reassignInsns L om is vm).2 := by
        intro is
        induction is with
        | nil => intro vm h _ _; exact h
        | cons i is ih =>
          intro vm h hp hsub
          rw [reassignInsns_cons]
          refine ih _ ?_ (by simp; omega) (fun j hj => hsub j (by simp [hj]))
          unfold pushed
          cases hcall : L.asCall i with
          | none => exact h.append OmOk.range hp
          | some t =>
            obtain ⟨d, a, n⟩ := t
            obtain ⟨sub, sub', hg, _, hok⟩ := hs i (hsub i (by simp)) d a n hcall
            exact h.append hok.omOk hp
      exact this _ _ VMOk.range (by simp) (fun _ h => h)
    refine ⟨by simpa using firstPos_ok (circ.outputs.map _), ?_, homVal⟩
    intro ins outs b hl
    have key : ∀ vs sb, Run get circ.instructions (0 :: ins) vs sb → ∃ ext,
        (∀ ws' b, Run get' (freshOutputs L (circ.outputs.map (vmGet (reassignInsns L om circ.instructions (List.range (circ.numInputs + 1))).2)) 0
          ((reassignInsns L om circ.instructions (List.range (circ.numInputs + 1))).2.length - 1)
          (circ.outputs.map (vmGet (reassignInsns L om circ.instructions (List.range (circ.numInputs + 1))).2))).1 vs ws' b ↔ ws' = vs ++ ext ∧ b = true) ∧
        readAll (vs ++ ext) (freshOutputs L (circ.outputs.map (vmGet (reassignInsns L om circ.instructions (List.range (circ.numInputs + 1))).2)) 0
          ((reassignInsns L om circ.instructions (List.range (circ.numInputs + 1))).2.length - 1)
          (circ.outputs.map (vmGet (reassignInsns L om circ.instructions (List.range (circ.numInputs + 1))).2))).2 = readAll vs circ.outputs ∧
        checkCons (vs ++ ext) (circ.constraints.map (fun k => k.replaceVar (vmGet (reassignInsns L om circ.instructions (List.range (circ.numInputs + 1))).2))) = checkCons vs circ.constraints := by
      intro vs sb hr
      obtain ⟨h1, h2⟩ := hcons _ _ (by simp [hl]) _ hr
      have hv := (hrun ins hl vs sb).2 hr
      obtain ⟨e1, e2⟩ := hvok vs _ hv h1 h2
      have hpos : 0 < vs.length := by obtain ⟨t, rfl⟩ := hr.prefix; simp
      have hvl := hv.1
      obtain ⟨ext, f1, f2⟩ := fresh_run (get' := get') hL (circ.outputs.map (vmGet (reassignInsns L om circ.instructions (List.range (circ.numInputs + 1))).2)) vs
        (circ.outputs.map (vmGet (reassignInsns L om circ.instructions (List.range (circ.numInputs + 1))).2)) 0
        ((reassignInsns L om circ.instructions (List.range (circ.numInputs + 1))).2.length - 1) vs (fun _ h => h) (hO vs hv hvmok h2)
        (by omega) ⟨[], by simp⟩
      refine ⟨ext, f1, by rw [f2, e2], ?_⟩
      rw [← e1]
      refine (checkCons_map_congr (fun k hk => ?_)).trans (checkCons_map_congr (fun k hk => hv.2 _ (h1 k hk))).symm
      have hb := (hvmok k.var (by rw [hvl]; exact h1 k hk)).1
      rw [List.getElem?_append_left (by have := h1 k hk; omega)]
      exact hv.2 _ (h1 k hk)
    constructor
    · rintro ⟨vs, sb, cb, hr, hk, ho, rfl⟩
      obtain ⟨ext, f1, f2, f3⟩ := key vs sb hr
      refine ⟨vs ++ ext, sb, cb, ?_, by rw [← hk]; exact f3, by rw [← ho]; exact f2, rfl⟩
      exact run_append_iff.2 ⟨vs, sb, true, (hrun ins hl vs sb).1.1 hr, (f1 _ _).2 ⟨rfl, rfl⟩, by simp⟩
    · rintro ⟨vs, sb, cb, hr, hk, ho, rfl⟩
      obtain ⟨ws, b1, b2, hr1, hr2, rfl⟩ := run_append_iff.1 hr
      have hr1 := (hrun ins hl ws b1).1.2 hr1
      obtain ⟨ext, f1, f2, f3⟩ := key ws b1 hr1
      obtain ⟨rfl, rfl⟩ := (f1 _ _).1 hr2
      exact ⟨ws, b1, cb, hr1, by rw [← hk]; exact f3.symm, by rw [← ho]; exact f2.symm, by simp⟩

end Verif.IR
