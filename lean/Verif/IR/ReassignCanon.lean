import Verif.IR.ReassignRoot
import Verif.IR.DceSize

/-!
# Duplicate outputs disappear

After `reassign_duplicate_sub_circuit_outputs` no instruction uses an output of a call that equals an earlier output of the same call.  The
next `remove_unreachable` therefore removes all duplicate outputs.
-/

set_option linter.unusedSectionVars false
set_option linter.unusedSimpArgs false

namespace Verif.IR

variable {F : Type} [Field F] [DecidableEq F] {L : Lang F}

/-- Variable `v` is output `j` of a call of `d`; the instructions are preceded by `cur` variables. -/
def CallOut (L : Lang F) (v d j : Nat) : Nat → List L.Insn → Prop
  | _, [] => False
  | cur, i :: is => (∃ a n, L.asCall i = some (d, a, n) ∧ j < n ∧ v = cur + 1 + j) ∨ CallOut L v d j (cur + L.numOutputs i) is

/-- All references to variables. -/
def refs (c : Circuit L) : List Nat := c.instructions.flatMap L.inputs ++ (c.constraints.map (·.var) ++ c.outputs)

/-- No reference to a duplicate output of a call. -/
def Canonical (get : Nat → Option (Circuit L)) : Prop :=
  ∀ c circ, get c = some circ → ∀ v ∈ refs circ, ∀ d j, CallOut L v d j circ.numInputs circ.instructions → ∀ sub, get d = some sub →
    ∀ j', j' < j → sub.outputs[j']? ≠ sub.outputs[j]?

/-- No circuit has the same output twice. -/
def NoDupOut (get : Nat → Option (Circuit L)) : Prop := ∀ c circ, get c = some circ → circ.outputs.Nodup

theorem callOut_range {v d j : Nat} (hL : L.Lawful) : ∀ (is : List L.Insn) (cur : Nat), CallOut L v d j cur is → cur < v ∧ v ≤ numVars cur is := by
  intro is
  induction is with
  | nil => intro cur h; exact h.elim
  | cons i is ih =>
    intro cur h
    rw [numVars_cons]
    have hle := le_numVars (L := L) (cur + L.numOutputs i) is
    rcases h with ⟨a, n, h1, h2, rfl⟩ | h
    · rw [hL.call_numOutputs _ _ _ _ h1] at hle ⊢
      omega
    · have := ih _ h
      omega

theorem noDup_canonical {get : Nat → Option (Circuit L)} {npi : Option Nat} (hL : L.Lawful) (hw : WFGet npi get) (h : NoDupOut get) : Canonical get := by
  intro c circ hg v _ d j hco sub hs j' hj' he
  have hlen : ∀ (is : List L.Insn) (cur : Nat), CallsOk get is → CallOut L v d j cur is → j < sub.outputs.length := by
    intro is
    induction is with
    | nil => intro cur _ h; exact h.elim
    | cons i is ih =>
      intro cur hc h
      rcases h with ⟨a, n, h1, h2, rfl⟩ | h
      · obtain ⟨sub', q1, q2, q3⟩ := hc i (by simp) d a n h1
        rw [hs] at q1; cases q1
        omega
      · exact ih _ (fun x hx => hc x (List.mem_cons_of_mem _ hx)) h
  have hj := hlen _ _ (hw.calls c circ hg) hco
  have := (List.nodup_iff_injective_get.1 (h d sub hs))
  rw [List.getElem?_eq_getElem (by omega), List.getElem?_eq_getElem hj] at he
  have h2 := @this ⟨j', by omega⟩ ⟨j, hj⟩ (by simpa using he)
  simp at h2
  omega

/-! ### `reassign` -/

/-- Applying the map twice is applying it once. -/
def Idem (vm : List Nat) : Prop := ∀ x, x < vm.length → vmGet vm x < vm.length ∧ vmGet vm (vmGet vm x) = vmGet vm x

theorem idem_range (n : Nat) : Idem (List.range n) := by
  intro x hx
  simp only [List.length_range] at hx ⊢
  rw [vmGet_range hx]
  exact ⟨hx, vmGet_range hx⟩

theorem vmGet_shift {om : List Nat} {n k : Nat} (h : k < om.length) : vmGet (om.map (· + n)) k = vmGet om k + n := by
  simp [vmGet, List.getElem?_map, List.getElem?_eq_getElem h]

theorem Idem.append {vm om : List Nat} (h : Idem vm) (ho : Idem om) : Idem (vm ++ om.map (· + vm.length)) := by
  intro x hx
  simp only [List.length_append, List.length_map] at hx ⊢
  by_cases hlt : x < vm.length
  · obtain ⟨h1, h2⟩ := h x hlt
    rw [vmGet_append_left hlt, vmGet_append_left h1]
    exact ⟨by omega, h2⟩
  · have hge : vm.length ≤ x := by omega
    have hk : x - vm.length < om.length := by omega
    obtain ⟨h1, h2⟩ := ho _ hk
    rw [vmGet_append_right hge, vmGet_shift hk, vmGet_append_right (by omega), Nat.add_sub_cancel, vmGet_shift h1, h2]
    exact ⟨by omega, rfl⟩

theorem firstPos_idem (outs : List Nat) : Idem (firstPos outs) := by
  intro x hx
  have hl : (firstPos outs).length = outs.length := by simp [firstPos]
  rw [hl] at hx ⊢
  have hlt : vmGet (firstPos outs) x < outs.length := by
    simp only [vmGet, firstPos, List.getElem?_map, List.getElem?_eq_getElem hx, Option.map_some, Option.getD_some]
    exact List.idxOf_lt_length_iff.2 (by simp)
  refine ⟨hlt, ?_⟩
  have hg := firstPos_get hx
  have : ∀ a b, a < outs.length → b < outs.length → outs[a]? = outs[b]? → vmGet (firstPos outs) a = vmGet (firstPos outs) b := by
    intro a b ha hb he
    rw [List.getElem?_eq_getElem ha, List.getElem?_eq_getElem hb, Option.some.injEq] at he
    simp only [vmGet, firstPos, List.getElem?_map, List.getElem?_eq_getElem ha, List.getElem?_eq_getElem hb, Option.map_some, Option.getD_some, he]
  exact this _ _ hlt hx hg

theorem firstPos_first {outs : List Nat} {j : Nat} (hj : j < outs.length) (h : vmGet (firstPos outs) j = j) {j' : Nat} (hlt : j' < j) :
    outs[j']? ≠ outs[j]? := by
  intro he
  simp only [vmGet, firstPos, List.getElem?_map, List.getElem?_eq_getElem hj, Option.map_some, Option.getD_some] at h
  rw [List.getElem?_eq_getElem (by omega), List.getElem?_eq_getElem hj, Option.some.injEq] at he
  have := List.not_of_lt_findIdx (p := (· == outs[j])) (xs := outs) (i := j') (by show j' < outs.idxOf outs[j]; omega)
  simp [he] at this

theorem pushed_idem {om : Nat → List Nat} (hid : ∀ d, Idem (om d)) (i : L.Insn) : Idem (pushed L om i) := by
  unfold pushed
  cases L.asCall i with
  | none => exact idem_range _
  | some t => exact hid _

/-- What the loop over the instructions establishes. -/
theorem reassignInsns_canon (hL : L.Lawful) {om : Nat → List Nat} (hid : ∀ d, Idem (om d)) : ∀ (is : List L.Insn) (vm : List Nat) (cur : Nat), Idem vm →
    vm.length = cur + 1 → (∀ i ∈ is, ∀ d a n, L.asCall i = some (d, a, n) → (om d).length = n) →
    Idem (reassignInsns L om is vm).2 ∧ (reassignInsns L om is vm).2.length = numVars cur is + 1 ∧
    (∃ t, (reassignInsns L om is vm).2 = vm ++ t) ∧
    (∀ v d j, CallOut L v d j cur (reassignInsns L om is vm).1 → vmGet (reassignInsns L om is vm).2 v + j = v + vmGet (om d) j) ∧
    (∀ npi, InsnsOk L npi cur is → ∀ v ∈ (reassignInsns L om is vm).1.flatMap L.inputs,
      ∃ x, x < (reassignInsns L om is vm).2.length ∧ v = vmGet (reassignInsns L om is vm).2 x) := by
  intro is
  induction is with
  | nil =>
    intro vm cur h hl _
    exact ⟨h, hl, ⟨[], by simp [reassignInsns]⟩, fun v d j h => h.elim, fun _ _ v h => by simp [reassignInsns] at h⟩
  | cons i is ih =>
    intro vm cur h hl hom
    rw [reassignInsns_cons]
    dsimp only
    have hpl : (pushed L om i).length = L.numOutputs i := by
      unfold pushed
      cases hc : L.asCall i with
      | none => simp
      | some t =>
        obtain ⟨d, a, n⟩ := t
        dsimp only
        rw [hom i (by simp) d a n hc, hL.call_numOutputs _ _ _ _ hc]
    obtain ⟨h1, h2, ⟨t, h3⟩, h4, h5⟩ := ih (vm ++ (pushed L om i).map (· + vm.length)) (cur + L.numOutputs i) (h.append (pushed_idem hid i))
      (by simp [hl, hpl]; omega) (fun x hx => hom x (List.mem_cons_of_mem _ hx))
    refine ⟨h1, by rw [h2, numVars_cons], ⟨(pushed L om i).map (· + vm.length) ++ t, by rw [h3]; simp⟩, ?_, ?_⟩
    · intro v d j hco
      rcases hco with ⟨a, n, q1, q2, rfl⟩ | hco
      · rw [hL.asCall_replace] at q1
        cases hc : L.asCall i with
        | none => simp [hc] at q1
        | some t' =>
          obtain ⟨d', a', n'⟩ := t'
          simp [hc] at q1
          obtain ⟨rfl, rfl, rfl⟩ := q1
          have hln := hom i (by simp) _ _ _ hc
          have hpu : pushed L om i = om d' := by simp [pushed, hc]
          rw [h3, hpu, vmGet_append_left (by simp [hl, hln]; omega), vmGet_append_right (by omega), vmGet_shift (by omega),
            show cur + 1 + j - vm.length = j by omega]
          omega
      · rw [hL.numOutputs_replace] at hco
        exact h4 v d j hco
    · intro npi hok v hv
      rw [List.flatMap_cons, List.mem_append] at hv
      rcases hv with hv | hv
      · rw [hL.inputs_replace] at hv
        obtain ⟨x, hx, rfl⟩ := List.mem_map.1 hv
        have := (hok.1 x hx).1
        refine ⟨x, by rw [h2, ← numVars_cons]; have := le_numVars (L := L) cur (i :: is); omega, ?_⟩
        have e1 : vmGet (vm ++ (pushed L om i).map (· + vm.length) ++ t) x = vmGet vm x := by
          rw [List.append_assoc, vmGet_append_left (by omega)]
        rw [h3, e1, vmGet_append_left (by omega)]
      · exact h5 npi hok.2.2.2 v hv

theorem fresh_refs (hL : L.Lawful) (outs : List Nat) (cur : Nat) : ∀ (os : List Nat) (i vmax : Nat), (∀ o ∈ os, o ∈ outs) → (∀ o ∈ outs, o ≠ 0) → cur ≤ vmax →
    (∀ x ∈ (freshOutputs L outs i vmax os).1, L.asCall x = none) ∧
    (∀ v ∈ (freshOutputs L outs i vmax os).1.flatMap L.inputs, v ∈ outs) ∧
    ∀ v ∈ (freshOutputs L outs i vmax os).2, v ∈ outs ∨ cur < v := by
  intro os
  induction os with
  | nil => intro i vmax _ _ _; simp [freshOutputs]
  | cons o os ih =>
    intro i vmax hsub hne hle
    have hsub' : ∀ o ∈ os, o ∈ outs := fun o h => hsub o (List.mem_cons_of_mem _ h)
    simp only [freshOutputs]
    split
    · obtain ⟨h1, h2, h3⟩ := ih (i + 1) (vmax + 1) hsub' hne (by omega)
      have ho : o ∈ outs := hsub o (by simp)
      refine ⟨?_, ?_, ?_⟩
      · intro x hx
        rcases List.mem_cons.1 hx with rfl | hx
        · exact hL.asCall_kx _ _ _
        · exact h1 x hx
      · intro v hv
        rw [List.flatMap_cons, List.mem_append] at hv
        rcases hv with hv | hv
        · rw [getD_idxOf ho, hL.inputs_kx _ _ _ (hne o ho) one_ne_zero, List.mem_singleton] at hv
          exact hv ▸ ho
        · exact h2 v hv
      · intro v hv
        rcases List.mem_cons.1 hv with rfl | hv
        · exact .inr (by omega)
        · exact h3 v hv
    · obtain ⟨h1, h2, h3⟩ := ih (i + 1) vmax hsub' hne hle
      refine ⟨h1, h2, ?_⟩
      intro v hv
      rcases List.mem_cons.1 hv with rfl | hv
      · exact .inl (hsub _ (by simp))
      · exact h3 v hv

theorem callOut_append {v d j : Nat} : ∀ (is js : List L.Insn) (cur : Nat), (∀ x ∈ js, L.asCall x = none) → CallOut L v d j cur (is ++ js) →
    CallOut L v d j cur is := by
  intro is
  induction is with
  | nil =>
    intro js cur hj h
    exfalso
    rw [List.nil_append] at h
    induction js generalizing cur with
    | nil => exact h
    | cons x js ih =>
      rcases h with ⟨a, n, h, _⟩ | h
      · rw [hj x (by simp)] at h; cases h
      · exact ih _ (fun y hy => hj y (List.mem_cons_of_mem _ hy)) h
  | cons i is ih =>
    intro js cur hj h
    rcases h with h | h
    · exact .inl h
    · exact .inr (ih js _ hj h)

theorem reassignInsns_nonzero (hL : L.Lawful) {om : Nat → List Nat} {npi : Option Nat} {get : Nat → Option (Circuit L)} {circ : Circuit L} (hco : CircOk npi circ)
    (hc : CallsOk get circ.instructions) (ho : ∀ i ∈ circ.instructions, ∀ d a n, L.asCall i = some (d, a, n) → OmOk n (om d)) :
    ∀ o ∈ circ.outputs.map (vmGet (reassignInsns L om circ.instructions (List.range (circ.numInputs + 1))).2), o ≠ 0 := by
  have key : ∀ (is : List L.Insn) (vm : List Nat), VMOk vm → 0 < vm.length → (∀ i ∈ is, ∀ d a n, L.asCall i = some (d, a, n) → OmOk n (om d)) →
      VMOk (reassignInsns L om is vm).2 := by
    intro is
    induction is with
    | nil => intro vm h _ _; exact h
    | cons i is ih =>
      intro vm h hp hom
      rw [reassignInsns_cons]
      refine ih _ ?_ (by simp; omega) (fun x hx => hom x (List.mem_cons_of_mem _ hx))
      unfold pushed
      cases hci : L.asCall i with
      | none => exact h.append OmOk.range hp
      | some t => obtain ⟨d, a, n⟩ := t; exact h.append (hom i (by simp) d a n hci) hp
  have hk := key circ.instructions _ (VMOk.range (n := circ.numInputs + 1)) (by simp) ho
  intro o hm
  obtain ⟨v, hv, rfl⟩ := List.mem_map.1 hm
  obtain ⟨a, b⟩ := hco.outs v hv
  have hlen : ∀ (is : List L.Insn) (vm : List Nat) (cur : Nat), vm.length = cur + 1 → (∀ i ∈ is, ∀ d a n, L.asCall i = some (d, a, n) → OmOk n (om d)) →
      (reassignInsns L om is vm).2.length = numVars cur is + 1 := by
    intro is
    induction is with
    | nil => intro vm cur h _; exact h
    | cons i is ih =>
      intro vm cur h hom
      rw [reassignInsns_cons, numVars_cons]
      refine ih _ _ ?_ (fun x hx => hom x (List.mem_cons_of_mem _ hx))
      have : (pushed L om i).length = L.numOutputs i := by
        unfold pushed
        cases hci : L.asCall i with
        | none => simp
        | some t =>
          obtain ⟨d, a, n⟩ := t
          rw [hL.call_numOutputs _ _ _ _ hci]
          exact (hom i (by simp) d a n hci).len
      simp [h, this]; omega
  exact (hk v (by rw [hlen _ _ circ.numInputs (by simp) ho]; omega)).2 b

theorem reassign_canonical (hL : L.Lawful) (rc : RootCircuit L) {npi : Option Nat} (hk : rc.vertices.Nodup) (hw : WFAt npi rc) {rc' : RootCircuit L}
    (hrc' : ∃ npi', WFGet npi' rc'.get) (h0 : ∀ root, rc'.get 0 = some root → root.outputs.Nodup) (h : reassign rc false = some rc') : Canonical rc'.get := by
  cases hdup : rc.hasDupOutputs with
  | false =>
    simp only [reassign, hdup, Bool.false_eq_true, if_false, Option.some.injEq] at h
    subst h
    refine noDup_canonical hL hw.wf fun c circ hg => ?_
    have hm := mem_of_get hg
    simp only [RootCircuit.hasDupOutputs, List.any_eq_false, Bool.not_eq_true', decide_eq_false_iff_not, not_not] at hdup
    exact hdup _ hm
  | true =>
    obtain ⟨rc1, tab, hrun, hnd, hp, hz, htab, hget⟩ := mapBottomUp_spec rc hk hw.wf
      (fun tab c circ => reassignCircuit (omGet tab) (c == 0 || false) circ) (·.1) (by
        intro g g' c circ hg h
        refine reassignCircuit_congr _ _ (fun i hi d a n hc => ?_)
        simp only [omGet, h d ⟨circ, hg, i, hi, a, n, hc⟩])
    simp only [reassign, hdup, if_true] at h
    rw [h] at hrun
    cases hrun
    have hom : ∀ c circ, rc.get c = some circ → omGet tab c = firstPos (circ.outputs.map (vmGet (reassignInsns L (omGet tab) circ.instructions (List.range (circ.numInputs + 1))).2)) := by
      intro c circ hg
      unfold omGet
      rw [htab, hg]
      show (reassignCircuit (omGet tab) (c == 0 || false) circ).2 = _
      unfold reassignCircuit
      dsimp only
      split <;> rfl
    have hidem : ∀ d, Idem (omGet tab d) := by
      intro d
      cases hg : rc.get d with
      | none =>
        unfold omGet
        rw [htab, hg]
        intro x hx
        simp at hx
      | some circ => rw [hom d circ hg]; exact firstPos_idem _
    have hback : ∀ c circ', rc'.get c = some circ' → ∃ circ, rc.get c = some circ ∧
        circ' = (reassignCircuit (omGet tab) (c == 0 || false) circ).1 := by
      intro c circ' h
      cases hg : rc.get c with
      | none => rw [hget, htab, hg] at h; cases h
      | some circ =>
        refine ⟨circ, rfl, ?_⟩
        rw [hget, htab, hg] at h
        exact (Option.some.inj h).symm
    intro c circ' hg' v hv d j hco sub' hs' j' hj'
    obtain ⟨circ, hg, rfl⟩ := hback c circ' hg'
    obtain ⟨sub, hs, rfl⟩ := hback d sub' hs'
    have hcirc := hw.wf.circ c circ hg
    by_cases hd0 : d = 0
    · subst hd0
      intro he
      obtain ⟨npi', hw'⟩ := hrc'
      have hj : j < (reassignCircuit (omGet tab) (0 == 0 || false) sub).1.outputs.length := by
        have hlen : ∀ (is : List L.Insn) (cur : Nat), CallsOk rc'.get is → CallOut L v 0 j cur is → j < (reassignCircuit (omGet tab) (0 == 0 || false) sub).1.outputs.length := by
          intro is
          induction is with
          | nil => intro cur _ h; exact h.elim
          | cons i is ih =>
            intro cur hc h
            rcases h with ⟨a, n, h1, h2, rfl⟩ | h
            · obtain ⟨sub', q1, q2, q3⟩ := hc i (by simp) 0 a n h1
              rw [hs'] at q1; cases q1
              omega
            · exact ih _ (fun x hx => hc x (List.mem_cons_of_mem _ hx)) h
        exact hlen _ _ (hw'.calls c _ hg') hco
      have := (List.nodup_iff_injective_get.1 (h0 _ hs'))
      rw [List.getElem?_eq_getElem (by omega), List.getElem?_eq_getElem hj] at he
      have h2 := @this ⟨j', by omega⟩ ⟨j, hj⟩ (by simpa using he)
      simp at h2
      omega
    · have hsubo : (reassignCircuit (omGet tab) (d == 0 || false) sub).1.outputs =
          sub.outputs.map (vmGet (reassignInsns L (omGet tab) sub.instructions (List.range (sub.numInputs + 1))).2) := by
        unfold reassignCircuit
        dsimp only
        rw [if_neg (by simpa using hd0)]
      have homl : ∀ i ∈ circ.instructions, ∀ d a n, L.asCall i = some (d, a, n) → (omGet tab d).length = n := by
        intro i hi d a n hc
        obtain ⟨s, q1, q2, q3⟩ := hw.wf.calls c circ hg i hi d a n hc
        rw [hom d s q1, q3]; simp [firstPos]
      obtain ⟨r1, r2, _, r4, r5⟩ := reassignInsns_canon hL hidem circ.instructions (List.range (circ.numInputs + 1)) circ.numInputs (idem_range _) (by simp) homl
      -- the fixed point
      have key : CallOut L v d j circ.numInputs (reassignInsns L (omGet tab) circ.instructions (List.range (circ.numInputs + 1))).1 →
          (∃ x, x < (reassignInsns L (omGet tab) circ.instructions (List.range (circ.numInputs + 1))).2.length ∧
            v = vmGet (reassignInsns L (omGet tab) circ.instructions (List.range (circ.numInputs + 1))).2 x) →
          (reassignCircuit (omGet tab) (d == 0 || false) sub).1.outputs[j']? ≠ (reassignCircuit (omGet tab) (d == 0 || false) sub).1.outputs[j]? := by
        rintro hco ⟨x, hx, hvx⟩
        have e1 := r4 v d j hco
        have e2 : vmGet (reassignInsns L (omGet tab) circ.instructions (List.range (circ.numInputs + 1))).2 v = v := by
          rw [hvx]; exact (r1 x hx).2
        rw [e2] at e1
        have e3 : vmGet (omGet tab d) j = j := by omega
        have hjl : j < (omGet tab d).length := by
          have hlen : ∀ (is : List L.Insn) (cur : Nat), (∀ i ∈ is, ∀ d a n, L.asCall i = some (d, a, n) → (omGet tab d).length = n) → ∀ vm,
              CallOut L v d j cur (reassignInsns L (omGet tab) is vm).1 → j < (omGet tab d).length := by
            intro is
            induction is with
            | nil => intro cur _ vm h; exact h.elim
            | cons i is ih =>
              intro cur hc vm h
              rw [reassignInsns_cons] at h
              rcases h with ⟨a, n, h1, h2, rfl⟩ | h
              · rw [hL.asCall_replace] at h1
                cases hci : L.asCall i with
                | none => simp [hci] at h1
                | some t' =>
                  obtain ⟨d', a', n'⟩ := t'
                  simp [hci] at h1
                  obtain ⟨rfl, rfl, rfl⟩ := h1
                  rw [hc i (by simp) _ _ _ hci]; exact h2
              · exact ih _ (fun x hx => hc x (List.mem_cons_of_mem _ hx)) _ h
          exact hlen _ _ homl _ hco
        rw [hom d sub hs] at e3 hjl
        rw [hsubo]
        exact firstPos_first (by simpa [firstPos] using hjl) e3 hj'
      have hvm : ∀ y, y ≤ numVars circ.numInputs circ.instructions → ∃ x, x < (reassignInsns L (omGet tab) circ.instructions (List.range (circ.numInputs + 1))).2.length ∧
            vmGet (reassignInsns L (omGet tab) circ.instructions (List.range (circ.numInputs + 1))).2 y = vmGet (reassignInsns L (omGet tab) circ.instructions (List.range (circ.numInputs + 1))).2 x :=
        fun y hy => ⟨y, by omega, rfl⟩
      have hcons : ∀ v ∈ (circ.constraints.map (fun k => k.replaceVar (vmGet (reassignInsns L (omGet tab) circ.instructions (List.range (circ.numInputs + 1))).2))).map (·.var),
          ∃ x, x < (reassignInsns L (omGet tab) circ.instructions (List.range (circ.numInputs + 1))).2.length ∧
            v = vmGet (reassignInsns L (omGet tab) circ.instructions (List.range (circ.numInputs + 1))).2 x := by
        intro v hv
        simp only [List.map_map, List.mem_map, Function.comp_apply, Constraint.replaceVar] at hv
        obtain ⟨k, hk, rfl⟩ := hv
        exact hvm _ (hcirc.cons k hk).1
      have houts : ∀ v ∈ circ.outputs.map (vmGet (reassignInsns L (omGet tab) circ.instructions (List.range (circ.numInputs + 1))).2),
          ∃ x, x < (reassignInsns L (omGet tab) circ.instructions (List.range (circ.numInputs + 1))).2.length ∧
            v = vmGet (reassignInsns L (omGet tab) circ.instructions (List.range (circ.numInputs + 1))).2 x := by
        intro v hv
        obtain ⟨o, ho, rfl⟩ := List.mem_map.1 hv
        exact hvm _ (hcirc.outs o ho).1
      unfold refs at hv
      by_cases hc0 : c = 0
      · have hf : (c == 0 || false) = true := by simp [hc0]
        rw [hf] at hv hco
        unfold reassignCircuit at hv hco
        simp only [if_true] at hv hco
        -- the appended copies
        have hfr : (∀ o ∈ circ.outputs.map (vmGet (reassignInsns L (omGet tab) circ.instructions (List.range (circ.numInputs + 1))).2), o ≠ 0) := by
          have hstr := (reassignInsns_nonzero (om := omGet tab) hL hcirc (hw.wf.calls c circ hg) (fun i hi d a n hc => by
            obtain ⟨s, q1, q2, q3⟩ := hw.wf.calls c circ hg i hi d a n hc
            rw [hom d s q1, q3]
            have := firstPos_ok (s.outputs.map (vmGet (reassignInsns L (omGet tab) s.instructions (List.range (s.numInputs + 1))).2))
            simpa using this))
          exact hstr
        obtain ⟨f1, f2, f3⟩ := fresh_refs hL (circ.outputs.map (vmGet (reassignInsns L (omGet tab) circ.instructions (List.range (circ.numInputs + 1))).2))
          (numVars circ.numInputs circ.instructions) (circ.outputs.map (vmGet (reassignInsns L (omGet tab) circ.instructions (List.range (circ.numInputs + 1))).2)) 0
          ((reassignInsns L (omGet tab) circ.instructions (List.range (circ.numInputs + 1))).2.length - 1) (fun _ h => h) hfr (by omega)
        have hco' := callOut_append _ _ _ f1 hco
        refine key hco' ?_
        rw [List.flatMap_append, List.mem_append, List.mem_append, List.mem_append] at hv
        rcases hv with (hv | hv) | hv | hv
        · exact r5 _ hcirc.insns v hv
        · exact houts v (f2 v hv)
        · exact hcons v hv
        · rcases f3 v hv with hv | hv
          · exact houts v hv
          · exfalso
            have := (callOut_range hL _ _ hco').2
            have hnv : numVars circ.numInputs (reassignInsns L (omGet tab) circ.instructions (List.range (circ.numInputs + 1))).1 = numVars circ.numInputs circ.instructions := by
              have : ∀ (is : List L.Insn) (vm : List Nat) (cur : Nat), numVars cur (reassignInsns L (omGet tab) is vm).1 = numVars cur is := by
                intro is
                induction is with
                | nil => intro vm cur; rfl
                | cons i is ih => intro vm cur; rw [reassignInsns_cons, numVars_cons, numVars_cons, hL.numOutputs_replace]; exact ih _ _
              exact this _ _ _
            omega
      · have hf : (c == 0 || false) = false := by simp [hc0]
        rw [hf] at hv hco
        unfold reassignCircuit at hv hco
        simp only [Bool.false_eq_true, if_false] at hv hco
        refine key hco ?_
        rw [List.mem_append, List.mem_append] at hv
        rcases hv with hv | hv | hv
        · exact r5 _ hcirc.insns v hv
        · exact hcons v hv
        · exact houts v hv

end Verif.IR
