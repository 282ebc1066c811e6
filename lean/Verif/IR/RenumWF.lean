import Verif.IR.AddBack
import Verif.InputPlaced

/-!
# Renaming the inputs of the root keeps a circuit valid

Common to `add_back_removed_inputs` (circuit/ir/hint_normalized/mod.rs:420-442) and `reorder_ir_inputs` (zkcuda/kernel.rs:272-324): both
give the inputs of the root new numbers and shift the other variables.
-/

set_option linter.unusedSectionVars false

namespace Verif.IR

open Verif.IR.HintExport

variable {F : Type} [Field F] [DecidableEq F]

namespace AddBack

/-- The renaming sends the variables `1, …, cur` to distinct variables among `1, …, mx`. -/
structure VmOk (vm : List Nat) (cur mx : Nat) : Prop where
  len : vm.length = cur + 1
  bound : ∀ v, 1 ≤ v → v ≤ cur → 1 ≤ vmGet vm v ∧ vmGet vm v ≤ mx
  inj : ∀ v w, 1 ≤ v → v ≤ cur → 1 ≤ w → w ≤ cur → vmGet vm v = vmGet vm w → v = w

theorem vmGet_append_left {vm l : List Nat} {v : Nat} (h : v < vm.length) : vmGet (vm ++ l) v = vmGet vm v := by
  simp only [vmGet]; rw [List.getElem?_append_left h]

theorem vmGet_range {vm : List Nat} {s n v : Nat} (h : vm.length ≤ v) (h' : v < vm.length + n) : vmGet (vm ++ List.range' s n) v = s + (v - vm.length) := by
  simp only [vmGet]
  rw [List.getElem?_append_right h, List.getElem?_range' (by omega)]
  simp

theorem VmOk.push {vm : List Nat} {cur mx : Nat} (h : VmOk vm cur mx) (n : Nat) : VmOk (vm ++ List.range' (mx + 1) n) (cur + n) (mx + n) := by
  have hl := h.len
  have key : ∀ v, 1 ≤ v → v ≤ cur + n → (v ≤ cur ∧ vmGet (vm ++ List.range' (mx + 1) n) v = vmGet vm v) ∨
      (cur < v ∧ vmGet (vm ++ List.range' (mx + 1) n) v = mx + (v - cur)) := by
    intro v h1 h2
    by_cases hv : v ≤ cur
    · exact .inl ⟨hv, vmGet_append_left (by omega)⟩
    · refine .inr ⟨by omega, ?_⟩
      rw [vmGet_range (by omega) (by omega)]; omega
  refine ⟨by simp [hl]; omega, fun v h1 h2 => ?_, fun v w h1 h2 h3 h4 he => ?_⟩
  · rcases key v h1 h2 with ⟨a, e⟩ | ⟨a, e⟩
    · have := h.bound v h1 a; omega
    · omega
  · rcases key v h1 h2 with ⟨a, e⟩ | ⟨a, e⟩ <;> rcases key w h3 h4 with ⟨a', e'⟩ | ⟨a', e'⟩
    · exact h.inj v w h1 a h3 a' (by rw [← e, ← e', he])
    · have := h.bound v h1 a; omega
    · have := h.bound w h3 a'; omega
    · omega

theorem VmOk.nodup {vm : List Nat} {cur mx : Nat} (h : VmOk vm cur mx) {l : List Nat} (hl : ∀ v ∈ l, v ≤ cur ∧ v ≠ 0) (hn : l.Nodup) : (l.map (vmGet vm)).Nodup := by
  refine List.Nodup.map_on ?_ hn
  intro x hx y hy he
  obtain ⟨a, b⟩ := hl x hx
  obtain ⟨c, d⟩ := hl y hy
  exact h.inj x y (by omega) a (by omega) c he

variable {L : Lang F} {get : Nat → Option (Circuit L)} {npi : Option Nat}

theorem validAt_replace (hL : L.Lawful) (i : L.Insn) (f : Nat → Nat) : validAt L npi (L.replaceVars i f) = validAt L npi i := by
  cases npi with
  | none => rfl
  | some n => exact hL.valid_replace n i f

theorem renumber_ok (hL : L.Lawful) : ∀ (is : List L.Insn) (vm : List Nat) (cur mx : Nat), VmOk vm cur mx → InsnsOk L npi cur is →
    InsnsOk L npi mx (renumber is vm mx).1 ∧ VmOk (renumber is vm mx).2 (numVars cur is) (numVars mx (renumber is vm mx).1) := by
  intro is
  induction is with
  | nil => intro vm cur mx h _; exact ⟨trivial, h⟩
  | cons i is ih =>
    intro vm cur mx h hok
    obtain ⟨h1, h2, h3, h4⟩ := hok
    obtain ⟨r1, r2⟩ := ih _ _ _ (h.push (L.numOutputs i)) h4
    have hno := hL.numOutputs_replace i (vmGet vm)
    refine ⟨⟨?_, ?_, ?_, ?_⟩, ?_⟩
    · intro t ht
      rw [hL.inputs_replace] at ht
      obtain ⟨v, hv, rfl⟩ := List.mem_map.1 ht
      obtain ⟨a, b⟩ := h1 v hv
      have := h.bound v (by omega) a
      omega
    · rw [validAt_replace hL]; exact h2
    · rcases h3 with h3 | h3
      · exact .inl h3
      · refine .inr fun c a n hc => ?_
        rw [hL.asCall_replace, Option.map_eq_some_iff] at hc
        obtain ⟨⟨c', a', n'⟩, e1, e2⟩ := hc
        simp only [Prod.mk.injEq] at e2
        obtain ⟨rfl, rfl, rfl⟩ := e2
        exact h.nodup (fun v hv => h1 v (by rw [hL.call_inputs i _ _ _ e1]; exact hv)) (h3 _ _ _ e1)
    · rw [hno]; exact r1
    · simp only [renumber, numVars, List.foldl_cons, hno]
      exact r2

/-- The renamed root. -/
def renum (vm : List Nat) (n : Nat) (c : Circuit L) : Circuit L :=
  ⟨(renumber c.instructions vm n).1, c.constraints.map (fun k => k.replaceVar (vmGet (renumber c.instructions vm n).2)),
    c.outputs.map (vmGet (renumber c.instructions vm n).2), n⟩

theorem renum_circOk (hL : L.Lawful) {c : Circuit L} (hc : CircOk npi c) {vm : List Nat} {n : Nat} (h : VmOk vm c.numInputs n) : CircOk npi (renum vm n c) := by
  obtain ⟨r1, r2⟩ := renumber_ok hL c.instructions vm c.numInputs n h hc.insns
  refine ⟨r1, ?_, ?_, ?_, ?_⟩
  · intro k hk
    obtain ⟨k', hk', rfl⟩ := List.mem_map.1 hk
    obtain ⟨a, b⟩ := hc.cons k' hk'
    have := r2.bound k'.var (by omega) a
    simp only [renum, Constraint.replaceVar]
    omega
  · rcases hc.consNodup with h | h
    · exact .inl h
    · refine .inr ?_
      have e : (renum vm n c).constraints.map (·.var) = (c.constraints.map (·.var)).map (vmGet (renumber c.instructions vm n).2) := by
        simp only [renum, List.map_map]; rfl
      rw [e]
      refine r2.nodup (fun v hv => ?_) h
      obtain ⟨k, hk, rfl⟩ := List.mem_map.1 hv
      exact hc.cons k hk
  · intro o ho
    obtain ⟨o', ho', rfl⟩ := List.mem_map.1 ho
    obtain ⟨a, b⟩ := hc.outs o' ho'
    have := r2.bound o' (by omega) a
    simp only [renum]
    omega
  · rcases hc.outsNodup with h | h
    · exact .inl h
    · exact .inr (r2.nodup (fun v hv => hc.outs v hv) h)

/-- The whole circuit with its root renamed is well-formed, provided no circuit calls the root (the arity of such a call would be wrong). -/
theorem renum_wf (hL : L.Lawful) {rc rc' : RootCircuit L} (hw : WFAt npi rc) {root : Circuit L} (hg : rc.get 0 = some root) {vm : List Nat} {n : Nat}
    (h : VmOk vm root.numInputs n) (hno : ∀ c, ¬ Calls rc.get c 0) (he : rc'.expectedNumOutputZeroes = rc.expectedNumOutputZeroes)
    (hget : ∀ d, rc'.get d = if d = 0 then some (renum vm n root) else rc.get d) : WFAt npi rc' := by
  have hinsn : ∀ i' ∈ (renum vm n root).instructions, ∀ d a m, L.asCall i' = some (d, a, m) → ∃ i ∈ root.instructions, ∃ a', L.asCall i = some (d, a', m) ∧ a.length = a'.length := by
    intro i' hi d a m hcall
    obtain ⟨j, hj, f, rfl⟩ := renumber_calls hL _ _ _ i' hi
    rw [hL.asCall_replace, Option.map_eq_some_iff] at hcall
    obtain ⟨⟨d', a', n'⟩, hc, he⟩ := hcall
    simp only [Prod.mk.injEq] at he
    obtain ⟨rfl, rfl, rfl⟩ := he
    exact ⟨j, hj, a', hc, by simp⟩
  have hcalls : ∀ c d, Calls rc'.get c d → Calls rc.get c d := by
    rintro c d ⟨circ, h1, i, hi, a, m, h2⟩
    rw [hget] at h1
    split at h1
    · rename_i hc; subst hc; cases h1
      obtain ⟨j, hj, a', e, _⟩ := hinsn i hi d a m h2
      exact ⟨root, hg, j, hj, a', m, e⟩
    · exact ⟨circ, h1, i, hi, a, m, h2⟩
  have hfwd : ∀ (is : List L.Insn) (vm : List Nat) (mx : Nat), ∀ i ∈ is, ∃ f, L.replaceVars i f ∈ (renumber is vm mx).1 := by
    intro is
    induction is with
    | nil => intro _ _ i hi; cases hi
    | cons j is ih =>
      intro vm mx i hi
      rcases List.mem_cons.1 hi with rfl | hi
      · exact ⟨_, List.mem_cons_self ..⟩
      · obtain ⟨f, hf⟩ := ih (vm ++ List.range' (mx + 1) (L.numOutputs j)) (mx + L.numOutputs j) i hi
        exact ⟨f, List.mem_cons_of_mem _ hf⟩
  have hcalls' : ∀ c d, Calls rc.get c d → Calls rc'.get c d := by
    rintro c d ⟨circ, h1, i, hi, a, m, h2⟩
    by_cases hc : c = 0
    · subst hc
      rw [hg] at h1; cases h1
      obtain ⟨f, hf⟩ := hfwd root.instructions vm n i hi
      exact ⟨renum vm n root, by rw [hget, if_pos rfl], _, hf, _, _, by rw [hL.asCall_replace, h2]; rfl⟩
    · exact ⟨circ, by rw [hget, if_neg hc]; exact h1, i, hi, a, m, h2⟩
  obtain ⟨r, hr⟩ := hw.wf.dag
  obtain ⟨root0, g0, z0, k0⟩ := hw.root
  rw [hg] at g0; cases g0
  refine ⟨⟨?_, ?_, r, fun c d h => hr c d (hcalls c d h)⟩, renum vm n root, by rw [hget, if_pos rfl], ?_, ?_⟩
  · intro c circ h1
    rw [hget] at h1
    split at h1
    · cases h1; exact renum_circOk hL (hw.wf.circ 0 root hg) h
    · exact hw.wf.circ c circ h1
  · intro c circ h1 i hi d a m h2
    have hor : ∃ sub, rc.get d = some sub ∧ a.length = sub.numInputs ∧ m = sub.outputs.length := by
      rw [hget] at h1
      split at h1
      · cases h1
        obtain ⟨j, hj, a', e, el⟩ := hinsn i hi d a m h2
        obtain ⟨sub, s1, s2, s3⟩ := hw.wf.calls 0 root hg j hj d a' m e
        exact ⟨sub, s1, by omega, s3⟩
      · exact hw.wf.calls c circ h1 i hi d a m h2
    obtain ⟨sub, s1, s2, s3⟩ := hor
    by_cases hd : d = 0
    · subst hd
      exact absurd (hcalls c 0 ⟨circ, h1, i, hi, a, m, h2⟩) (hno c)
    · exact ⟨sub, by rw [hget, if_neg hd]; exact s1, s2, s3⟩
  · rw [he]; simpa [renum] using z0
  · intro hnil
    have : root.outputs = [] := by simpa [renum] using hnil
    obtain ⟨d, circ, d1, d2, d3⟩ := k0 this
    have d1' : Relation.ReflTransGen (Calls rc'.get) 0 d := by
      clear d2 d3
      induction d1 with
      | refl => exact .refl
      | tail _ h ih => exact ih.tail (hcalls' _ _ h)
    by_cases hd : d = 0
    · subst hd
      rw [hg] at d2; cases d2
      exact ⟨0, _, .refl, by rw [hget, if_pos rfl], by simpa [renum] using d3⟩
    · exact ⟨d, circ, d1', by rw [hget, if_neg hd]; exact d2, d3⟩

/-! ### `add_back_removed_inputs` -/

theorem valueAt_mem {α : Type} : ∀ (ps : List (Option Nat × α)) (j : Nat) (d : α),
    (∃ p ∈ ps, p.1 = some j ∧ InputMapping.valueAt ps j d = p.2) ∨ ((∀ p ∈ ps, p.1 ≠ some j) ∧ InputMapping.valueAt ps j d = d) := by
  intro ps
  induction ps with
  | nil => intro j d; exact .inr ⟨by simp, rfl⟩
  | cons q ps ih =>
    intro j d
    obtain ⟨o, x⟩ := q
    simp only [InputMapping.valueAt]
    rcases ih j (if o = some j then x else d) with ⟨p, h1, h2, h3⟩ | ⟨h1, h2⟩
    · exact .inl ⟨p, List.mem_cons_of_mem _ h1, h2, h3⟩
    · by_cases ho : o = some j
      · refine .inl ⟨(o, x), by simp, ho, ?_⟩
        rw [h2, if_pos ho]
      · refine .inr ⟨?_, by rw [h2, if_neg ho]⟩
        intro p hp
        rcases List.mem_cons.1 hp with rfl | hp
        · exact ho
        · exact h1 p hp

theorem newIds_vmOk {im : InputMapping} (hr : im.InRange) (hs : im.Surjective) : ∃ vm, newIds im im.nextSize = some vm ∧ VmOk vm im.nextSize im.curSize := by
  obtain ⟨q, g1, g2, g3⟩ := InputMapping.mapInputs_spec im (0 : Nat) (List.range' 1 im.curSize) hr (by simp)
  have hmap : InputMapping.assign (im.mapping.zip (List.range' 1 im.curSize)) (List.replicate im.nextSize 0) = im.mapInputs 0 (List.range' 1 im.curSize) := by
    rw [InputMapping.mapInputs, if_pos (show (List.range' 1 im.curSize).length = im.mapping.length by simp [InputMapping.curSize])]
  have key : ∀ j, j < im.nextSize → ∃ i : Nat, im.mapping[i]? = some (some j) ∧ i < im.curSize ∧ vmGet (0 :: q) (j + 1) = i + 1 := by
    intro j hj
    have e1 : vmGet (0 :: q) (j + 1) = InputMapping.valueAt (im.mapping.zip (List.range' 1 im.curSize)) j 0 := by
      simp only [vmGet, List.getElem?_cons_succ, g3 j hj]; rfl
    have hzip : ∀ (i : Nat) (o : Option Nat) (x : Nat), (im.mapping.zip (List.range' 1 im.curSize))[i]? = some (o, x) → im.mapping[i]? = some o ∧ i < im.curSize ∧ x = i + 1 := by
      intro i o x h
      rw [List.getElem?_zip_eq_some] at h
      obtain ⟨h1, h2⟩ := h
      have hi : i < im.curSize := by
        have := (List.getElem?_eq_some_iff.1 h2).1; simpa using this
      rw [List.getElem?_range' hi] at h2
      simp only [Option.some.injEq] at h2
      exact ⟨h1, hi, by omega⟩
    rcases valueAt_mem (im.mapping.zip (List.range' 1 im.curSize)) j 0 with ⟨⟨o, x⟩, h1, h2, h3⟩ | ⟨h1, _⟩
    · obtain ⟨i, hi⟩ := List.mem_iff_getElem?.1 h1
      obtain ⟨a, b, c⟩ := hzip i o x hi
      dsimp only at h2 h3
      subst h2
      exact ⟨i, a, b, by rw [e1, h3, c]⟩
    · exfalso
      obtain ⟨i, hi⟩ := hs j hj
      have hlt : i < im.curSize := (List.getElem?_eq_some_iff.1 hi).1
      refine h1 (some j, 1 + i) ?_ rfl
      refine List.mem_iff_getElem?.2 ⟨i, ?_⟩
      rw [List.getElem?_zip_eq_some]
      refine ⟨hi, ?_⟩
      rw [List.getElem?_range' hlt]; simp
  refine ⟨0 :: q, ?_, by simp [g2], ?_, ?_⟩
  · rw [newIds, hmap, g1]; rfl
  · intro v h1 h2
    obtain ⟨i, _, hi, e⟩ := key (v - 1) (by omega)
    rw [show v - 1 + 1 = v by omega] at e
    omega
  · intro v w h1 h2 h3 h4 he
    obtain ⟨i, m1, _, e⟩ := key (v - 1) (by omega)
    obtain ⟨i', m2, _, e'⟩ := key (w - 1) (by omega)
    rw [show v - 1 + 1 = v by omega] at e
    rw [show w - 1 + 1 = w by omega] at e'
    have hii : i = i' := by omega
    subst hii
    rw [m1] at m2
    simp only [Option.some.injEq] at m2
    omega

/-- Re-adding removed inputs keeps a circuit well-formed, if every present input has an original and no circuit calls the root. -/
theorem addBack_wf (hL : L.Lawful) {rc rc' : RootCircuit L} (hw : WFAt npi rc) (im : InputMapping) (hr : im.InRange) (hs : im.Surjective) {root : Circuit L}
    (hg : rc.get 0 = some root) (hn : im.nextSize = root.numInputs) (hno : ∀ c, ¬ Calls rc.get c 0) (h : addBack im rc = some rc') : WFAt npi rc' := by
  obtain ⟨vm, v1, v2⟩ := newIds_vmOk hr hs
  rw [hn] at v1 v2
  unfold addBack at h
  rw [hg] at h
  simp only [addBackCircuit, v1, Option.map_some, Option.some.injEq] at h
  subst h
  refine renum_wf hL hw hg v2 hno rfl ?_
  intro d
  have hgz : rc.circuits.lookup 0 = some root := hg
  simp only [RootCircuit.get]
  rw [lookup_replace, hgz]; rfl

/-- If every circuit is reachable from the root, none calls the root. -/
theorem noCallsRoot {rc : RootCircuit L} (hw : WFGet npi rc.get) (hr : ∀ c circ, rc.get c = some circ → Relation.ReflTransGen (Calls rc.get) 0 c) (c : Nat) : ¬ Calls rc.get c 0 := by
  obtain ⟨r, hrr⟩ := hw.dag
  have key : ∀ x, Relation.ReflTransGen (Calls rc.get) 0 x → r x ≤ r 0 := by
    intro x hx
    induction hx with
    | refl => exact Nat.le_refl _
    | tail _ h ih => have := hrr _ _ h; omega
  intro h
  obtain ⟨circ, hc, _⟩ := id h
  have h1 := key c (hr c circ hc)
  have h2 := hrr c 0 h
  omega

end AddBack

end Verif.IR
