import Verif.Zkcuda.Padding
import Verif.IR.RenumWF
import Mathlib.Data.List.Sort

/-!
# `reorder_ir_inputs` (zkcuda/kernel.rs:272-324)

The inputs of a kernel circuit are a sequence of vectors.  Before layering, every vector is padded to powers of two and the vectors are put
into aligned blocks, the largest first.
-/

set_option linter.unusedSectionVars false
set_option linter.unusedSimpArgs false

namespace Verif.Zkcuda

open Verif.IR

/-- The order of `sizes.sort_by(|a, b| b.cmp(a))` (kernel.rs:289): pairs, largest first. -/
def descLe (a b : Nat × Nat) : Prop := b.1 < a.1 ∨ (b.1 = a.1 ∧ b.2 ≤ a.2)

instance descLe_decidable : DecidableRel descLe := fun a b => inferInstanceAs (Decidable (_ ∨ _))

/-- `sizes` after sorting (kernel.rs:277-281, 289): padded length and number of every vector. -/
def sortedSizes (shapes : List (List Nat)) : List (Nat × Nat) := (shapes.zipIdx.map fun p => (paddedLen p.1, p.2)).insertionSort descLe

/-- `prev_offset` (kernel.rs:282-288): number of elements of the vectors before vector `i`. -/
def prevOffset (shapes : List (List Nat)) (i : Nat) : Nat := ((shapes.take i).map List.prod).sum

/-- `var_new_id[p + j] = x_j` for consecutive `j`; `none` is an index out of range (kernel.rs:304-306). -/
def setFrom : List Nat → Nat → List Nat → Option (List Nat)
  | vm, _, [] => some vm
  | vm, p, x :: xs => if p < vm.length then setFrom (vm.set p x) (p + 1) xs else none

/-- The loop over the blocks (kernel.rs:297-308): `var_max`, `var_new_id` and `lc_in` (length and offset of each block).  `none` is the failed
assertion that `var_max` is a multiple of the length, or an index out of range. -/
def reorderLoop (shapes : List (List Nat)) : List (Nat × Nat) → Nat → List Nat → List (Nat × Nat) → Option (Nat × List Nat × List (Nat × Nat))
  | [], mx, vm, lc => some (mx, vm, lc)
  | (n, i) :: l, mx, vm, lc =>
    if mx % n = 0 then
      match setFrom vm (prevOffset shapes i + 1) ((padGrid (shapes.getD i [])).1.map fun k => mx + k + 1) with
      | none => none
      | some vm' => reorderLoop shapes l (mx + n) vm' (lc.set i (n, mx))
    else none

variable {F : Type} [Field F] [DecidableEq F] {L : Lang F}

/-- The root circuit after renaming (kernel.rs:309-322). -/
def renumCircuit (vm : List Nat) (n : Nat) (c : Circuit L) : Circuit L :=
  let r := AddBack.renumber c.instructions vm n
  ⟨r.1, c.constraints.map (fun k => k.replaceVar (vmGet r.2)), c.outputs.map (vmGet r.2), n⟩

/-- `reorder_ir_inputs` (kernel.rs:272-324): the new circuit, and length and offset of the block of each vector. -/
def reorderInputs (shapes : List (List Nat)) (rc : RootCircuit L) : Option (RootCircuit L × List (Nat × Nat)) :=
  match rc.get 0 with
  | none => none
  | some c =>
    match reorderLoop shapes (sortedSizes shapes) 0 (List.replicate (c.numInputs + 1) 0) (List.replicate shapes.length (0, 0)) with
    | none => none
    | some (mx, vm, lc) =>
      some (⟨rc.numPublicInputs, rc.expectedNumOutputZeroes, rc.circuits.map fun p => if p.1 = 0 then (0, renumCircuit vm mx c) else p⟩, lc)

/-! ### The loop -/

theorem setFrom_spec : ∀ (xs vm : List Nat) (p : Nat), p + xs.length ≤ vm.length → ∃ vm', setFrom vm p xs = some vm' ∧ vm'.length = vm.length ∧
    (∀ (j : Nat) (x : Nat), xs[j]? = some x → vm'[p + j]? = some x) ∧ ∀ q, q < p ∨ p + xs.length ≤ q → vm'[q]? = vm[q]? := by
  intro xs
  induction xs with
  | nil => intro vm p _; exact ⟨vm, rfl, rfl, by simp, by simp⟩
  | cons x xs ih =>
    intro vm p h
    simp only [List.length_cons] at h
    obtain ⟨vm', h1, h2, h3, h4⟩ := ih (vm.set p x) (p + 1) (by simp; omega)
    refine ⟨vm', ?_, by simpa using h2, ?_, ?_⟩
    · unfold setFrom; rw [if_pos (by omega)]; exact h1
    · intro j y hy
      cases j with
      | zero =>
        simp only [List.getElem?_cons_zero, Option.some.injEq] at hy
        subst hy
        rw [Nat.add_zero, h4 p (.inl (by omega)), List.getElem?_set_self (by omega)]
      | succ j =>
        rw [List.getElem?_cons_succ] at hy
        rw [show p + (j + 1) = p + 1 + j by omega]
        exact h3 j y hy
    · intro q hq
      simp only [List.length_cons] at hq
      rw [h4 q (by omega), List.getElem?_set_ne (by omega)]

theorem prevOffset_succ {shapes : List (List Nat)} {i : Nat} {sh : List Nat} (h : shapes[i]? = some sh) : prevOffset shapes (i + 1) = prevOffset shapes i + sh.prod := by
  unfold prevOffset
  rw [List.take_add_one, h]
  simp

theorem prevOffset_mono (shapes : List (List Nat)) {i i' : Nat} (h : i ≤ i') : prevOffset shapes i ≤ prevOffset shapes i' := by
  induction h with
  | refl => exact le_refl _
  | @step m h ih =>
    refine le_trans ih ?_
    unfold prevOffset
    rw [List.take_add_one]
    simp

theorem prevOffset_disjoint {shapes : List (List Nat)} {i i' : Nat} {sh : List Nat} (h : shapes[i]? = some sh) (hlt : i < i') :
    prevOffset shapes i + sh.prod ≤ prevOffset shapes i' := by
  rw [← prevOffset_succ h]; exact prevOffset_mono shapes hlt

theorem prevOffset_total {shapes : List (List Nat)} {i : Nat} {sh : List Nat} (h : shapes[i]? = some sh) :
    prevOffset shapes i + sh.prod ≤ (shapes.map List.prod).sum := by
  have hi := (List.getElem?_eq_some_iff.1 h).1
  have := prevOffset_disjoint h hi
  rw [show prevOffset shapes shapes.length = (shapes.map List.prod).sum by rw [prevOffset, List.take_length]] at this
  exact this

theorem padGrid_length {sh : List Nat} (h0 : ∀ n ∈ sh, n ≠ 0) : (padGrid sh).1.length = sh.prod := by
  rw [padGrid_grid, grid_length _ (padDims_ne sh h0), padDims_fst]

theorem reorderLoop_spec (shapes : List (List Nat)) (h0 : ∀ sh ∈ shapes, ∀ n ∈ sh, n ≠ 0) {N : Nat} (hN : (shapes.map List.prod).sum ≤ N) :
    ∀ (l : List (Nat × Nat)) (mx : Nat) (vm : List Nat) (lc : List (Nat × Nat)), (l.map (·.2)).Nodup →
      (∀ e ∈ l, ∃ sh, shapes[e.2]? = some sh ∧ e.1 = paddedLen sh) → l.Pairwise (fun a b => b.1 ∣ a.1) → (∀ e ∈ l, e.1 ∣ mx) →
      vm.length = N + 1 → lc.length = shapes.length →
      ∃ mx' vm' lc', reorderLoop shapes l mx vm lc = some (mx', vm', lc') ∧ mx' = mx + (l.map (·.1)).sum ∧ vm'.length = N + 1 ∧ lc'.length = shapes.length ∧
        vm'[0]? = vm[0]? ∧
        (∀ i, i ∉ l.map (·.2) → lc'[i]? = lc[i]? ∧ ∀ sh, shapes[i]? = some sh → ∀ j, j < sh.prod → vm'[prevOffset shapes i + 1 + j]? = vm[prevOffset shapes i + 1 + j]?) ∧
        (∀ e ∈ l, ∃ off, lc'[e.2]? = some (e.1, off) ∧ mx ≤ off ∧ off + e.1 ≤ mx' ∧ e.1 ∣ off ∧
          ∀ sh, shapes[e.2]? = some sh → ∀ j k : Nat, (padGrid sh).1[j]? = some k → vm'[prevOffset shapes e.2 + 1 + j]? = some (off + k + 1)) ∧
        ∀ e ∈ l, ∀ e' ∈ l, e.2 ≠ e'.2 → ∀ off off', lc'[e.2]? = some (e.1, off) → lc'[e'.2]? = some (e'.1, off') → off + e.1 ≤ off' ∨ off' + e'.1 ≤ off := by
  intro l
  induction l with
  | nil =>
    intro mx vm lc _ _ _ _ hv hl
    exact ⟨mx, vm, lc, rfl, by simp, hv, hl, rfl, fun i _ => ⟨rfl, fun _ _ _ _ => rfl⟩, by simp, by simp⟩
  | cons e l ih =>
    intro mx vm lc hnd hsh hpw hdv hv hl
    obtain ⟨n, i⟩ := e
    rw [List.map_cons, List.nodup_cons] at hnd
    rw [List.pairwise_cons] at hpw
    obtain ⟨sh, hsi, hn⟩ := hsh (n, i) (by simp)
    dsimp only at hsi hn hnd hpw
    have hi := (List.getElem?_eq_some_iff.1 hsi).1
    have hsh0 := h0 sh (List.mem_of_getElem? hsi)
    have hglen := padGrid_length hsh0
    have hget : shapes.getD i [] = sh := by rw [List.getD_eq_getElem?_getD, hsi]; rfl
    have hdn := hdv (n, i) (by simp)
    dsimp only at hdn
    have htot := prevOffset_total hsi
    obtain ⟨vm1, s1, s2, s3, s4⟩ := setFrom_spec ((padGrid sh).1.map fun k => mx + k + 1) vm (prevOffset shapes i + 1) (by
      rw [List.length_map, hglen]; omega)
    rw [List.length_map, hglen] at s4
    obtain ⟨mx', vm', lc', r1, r2, r3, r4, r5, r6, r7, r8⟩ := ih (mx + n) vm1 (lc.set i (n, mx)) hnd.2 (fun e he => hsh e (by simp [he])) hpw.2
      (fun e he => (Nat.dvd_add_right (hdv e (by simp [he]))).2 (hpw.1 e he)) (by omega) (by simpa using hl)
    have hlci : lc'[i]? = some (n, mx) := by
      rw [(r6 i hnd.1).1, List.getElem?_set_self (by omega)]
    refine ⟨mx', vm', lc', ?_, ?_, r3, r4, ?_, ?_, ?_, ?_⟩
    · unfold reorderLoop
      rw [if_pos (Nat.mod_eq_zero_of_dvd hdn), hget, s1]
      exact r1
    · rw [r2]; simp; omega
    · rw [r5, s4 0 (.inl (by omega))]
    · intro i' hi'
      simp only [List.map_cons, List.mem_cons, not_or] at hi'
      obtain ⟨q1, q2⟩ := r6 i' hi'.2
      refine ⟨by rw [q1, List.getElem?_set_ne (fun h => hi'.1 h.symm)], ?_⟩
      intro sh' hsh' j hj
      rw [q2 sh' hsh' j hj]
      apply s4
      rcases Nat.lt_or_gt_of_ne hi'.1 with h | h
      · have := prevOffset_disjoint hsh' h; omega
      · have := prevOffset_disjoint hsi h; omega
    · intro e he
      rcases List.mem_cons.1 he with rfl | he
      · refine ⟨mx, hlci, le_refl _, by rw [r2]; simp, hdn, ?_⟩
        intro sh' hsh' j k hk
        rw [hsi] at hsh'; cases hsh'
        have hj : j < sh.prod := by rw [← hglen]; exact (List.getElem?_eq_some_iff.1 hk).1
        rw [(r6 i hnd.1).2 sh hsi j hj]
        apply s3
        rw [List.getElem?_map, hk]; rfl
      · obtain ⟨off, t1, t2, t3⟩ := r7 e he
        exact ⟨off, t1, by omega, t3⟩
    · have base : ∀ e ∈ l, ∀ off off', lc'[i]? = some (n, off) → lc'[e.2]? = some (e.1, off') → off + n ≤ off' := by
        intro e he off off' h1 h2
        rw [hlci] at h1; cases h1
        obtain ⟨off2, t1, t2, _⟩ := r7 e he
        rw [t1] at h2; cases h2
        exact t2
      intro e he e' he' hne off off' h1 h2
      rcases List.mem_cons.1 he with rfl | he
      · rcases List.mem_cons.1 he' with rfl | he'
        · exact absurd rfl hne
        · exact .inl (base e' he' off off' h1 h2)
      · rcases List.mem_cons.1 he' with rfl | he'
        · exact .inr (base e he off' off h2 h1)
        · exact r8 e he e' he' hne off off' h1 h2

theorem paddedLen_pow : ∀ sh : List Nat, ∃ m, paddedLen sh = 2 ^ m := by
  intro sh
  induction sh with
  | nil => exact ⟨0, rfl⟩
  | cons n sh ih =>
    obtain ⟨m, hm⟩ := ih
    obtain ⟨k, hk⟩ := (Pow2.next_spec n).1
    refine ⟨k + m, ?_⟩
    unfold paddedLen at hm ⊢
    rw [List.map_cons, List.prod_cons, hm, hk, pow_add]

instance descLe_total : Std.Total descLe := ⟨by intro a b; unfold descLe; omega⟩
instance descLe_trans : IsTrans (Nat × Nat) descLe := ⟨by intro a b c; unfold descLe; omega⟩

theorem sortedSizes_mem {shapes : List (List Nat)} {e : Nat × Nat} : e ∈ sortedSizes shapes ↔ ∃ sh, shapes[e.2]? = some sh ∧ e.1 = paddedLen sh := by
  unfold sortedSizes
  rw [List.mem_insertionSort, List.mem_map]
  constructor
  · rintro ⟨⟨sh, i⟩, h, rfl⟩
    exact ⟨sh, List.mem_zipIdx_iff_getElem?.1 h, rfl⟩
  · rintro ⟨sh, h, he⟩
    exact ⟨(sh, e.2), List.mem_zipIdx_iff_getElem?.2 h, by rw [← he]⟩

theorem sortedSizes_nodup (shapes : List (List Nat)) : ((sortedSizes shapes).map (·.2)).Nodup := by
  have h := (List.perm_insertionSort descLe (shapes.zipIdx.map fun p => (paddedLen p.1, p.2))).map (·.2)
  refine h.nodup_iff.2 ?_
  rw [List.map_map]
  have : ((fun x : Nat × Nat => x.2) ∘ fun p : List Nat × Nat => (paddedLen p.1, p.2)) = Prod.snd := rfl
  rw [this, List.zipIdx_map_snd]
  exact List.nodup_range'

theorem sortedSizes_dvd (shapes : List (List Nat)) : (sortedSizes shapes).Pairwise fun a b => b.1 ∣ a.1 := by
  have h : (sortedSizes shapes).Pairwise descLe := List.pairwise_insertionSort descLe _
  refine h.imp_of_mem ?_
  intro a b ha hb hab
  obtain ⟨sa, _, ea⟩ := sortedSizes_mem.1 ha
  obtain ⟨sb, _, eb⟩ := sortedSizes_mem.1 hb
  obtain ⟨ma, pa⟩ := paddedLen_pow sa
  obtain ⟨mb, pb⟩ := paddedLen_pow sb
  have hle : b.1 ≤ a.1 := by unfold descLe at hab; omega
  rw [ea, eb, pa, pb] at hle ⊢
  exact Nat.pow_dvd_pow 2 ((Nat.pow_le_pow_iff_right (by omega)).1 hle)

/-! ### The circuit -/

variable {get : Nat → Option (Circuit L)} {npi : Option Nat}

open Verif.IR.HintExport Verif.IR.AddBack

theorem renumCircuit_sub (hL : L.Lawful) (hw : WFGet npi get) {c : Nat} {circ : Circuit L} (hg : get c = some circ) {vm : List Nat} {n : Nat} {ins buf : List F}
    (hi : ins.length = circ.numInputs) (hb : buf.length = n) (hrel : Rel vm (0 :: ins) (0 :: buf)) (outs : List F) (b : Bool) :
    EvalSub get (renumCircuit vm n circ) buf outs b ↔ EvalSub get circ ins outs b := by
  have hok := hw.circ c circ hg
  obtain ⟨r1, r2⟩ := renumber_run (get := get) hL circ.instructions vm (0 :: ins) (0 :: buf) circ.numInputs n
    (by simp [hi]) (by simp [hb]) hok.insns (hw.calls c circ hg) hrel
  rw [evalSub_iff_tail, evalSub_iff_tail]
  have key : ∀ t sb, Run get circ.instructions (0 :: ins) ((0 :: ins) ++ t) sb →
      (checkCons ((0 :: buf) ++ t) (circ.constraints.map (fun k => k.replaceVar (vmGet (renumber circ.instructions vm n).2))) =
        checkCons ((0 :: ins) ++ t) circ.constraints) ∧
      (readAll ((0 :: buf) ++ t) (circ.outputs.map (vmGet (renumber circ.instructions vm n).2)) =
        readAll ((0 :: ins) ++ t) circ.outputs) := by
    intro t sb h
    have hrel' := r1 t sb h
    have hlen : ((0 :: ins) ++ t).length = numVars circ.numInputs circ.instructions + 1 := by
      rw [h.length hL (hw.calls c circ hg) (circ.numInputs + 1) (by simp [hi]), numVars_add]
    refine ⟨checkCons_map_congr (fun k hk => hrel'.val _ ?_), readAll_map_congr (fun k hk => hrel'.val _ ?_)⟩
    · have := hok.cons k hk; omega
    · have := hok.outs k hk; omega
  constructor
  · rintro ⟨t, sb, cb, e1, e2, e3, e4⟩
    have e1' := (r2 t sb).2 e1
    obtain ⟨k1, k2⟩ := key t sb e1'
    exact ⟨t, sb, cb, e1', by rw [← k1]; exact e2, by rw [← k2]; exact e3, e4⟩
  · rintro ⟨t, sb, cb, e1, e2, e3, e4⟩
    obtain ⟨k1, k2⟩ := key t sb e1
    exact ⟨t, sb, cb, (r2 t sb).1 e1, by rw [← e2]; exact k1, by rw [← e3]; exact k2, e4⟩

/-- The circuit with its root renamed. -/
def renumRoot (rc : RootCircuit L) (vm : List Nat) (n : Nat) (root : Circuit L) : RootCircuit L :=
  ⟨rc.numPublicInputs, rc.expectedNumOutputZeroes, rc.circuits.map fun p => if p.1 = 0 then (0, renumCircuit vm n root) else p⟩

theorem renumRoot_get {rc : RootCircuit L} {root : Circuit L} (hg : rc.get 0 = some root) (vm : List Nat) (n d : Nat) :
    (renumRoot rc vm n root).get d = if d = 0 then some (renumCircuit vm n root) else rc.get d := by
  have hgz : rc.circuits.lookup 0 = some root := hg
  simp only [RootCircuit.get, renumRoot]
  rw [lookup_replace, hgz]; rfl

theorem renumRoot_correct (hL : L.Lawful) (rc : RootCircuit L) (hw : WFAt npi rc) {root : Circuit L} (hg : rc.get 0 = some root) {vm : List Nat} {n : Nat} {ins buf : List F}
    (hi : ins.length = root.numInputs) (hb : buf.length = n) (hrel : Rel vm (0 :: ins) (0 :: buf)) (outs : List F) (b : Bool) :
    Eval (renumRoot rc vm n root) buf outs b ↔ Eval rc ins outs b := by
  have hget' := renumRoot_get hg vm n
  have hnr : ∀ c, Relation.ReflTransGen (Calls rc.get) 0 c → ¬ Calls rc.get c 0 := by
    obtain ⟨r, hrr⟩ := hw.wf.dag
    have key : ∀ x, Relation.ReflTransGen (Calls rc.get) 0 x → r x ≤ r 0 := by
      intro x hx
      induction hx with
      | refl => exact Nat.le_refl _
      | tail _ h ih => have := hrr _ _ h; omega
    intro c hc hcc
    have := key c hc
    have := hrr c 0 hcc
    omega
  have hcalls : ∀ i ∈ (renumCircuit vm n root).instructions, ∀ d a m, L.asCall i = some (d, a, m) → Calls rc.get 0 d ∧ ∃ sub, rc.get d = some sub ∧
      a.length = sub.numInputs ∧ m = sub.outputs.length := by
    intro i hi d a m hcall
    obtain ⟨j, hj, f, rfl⟩ := renumber_calls hL _ _ _ i hi
    rw [hL.asCall_replace] at hcall
    simp only [Option.map_eq_some_iff] at hcall
    obtain ⟨⟨d', a', n'⟩, hc, he⟩ := hcall
    simp only [Prod.mk.injEq] at he
    obtain ⟨rfl, rfl, rfl⟩ := he
    obtain ⟨sub, s1, s2, s3⟩ := hw.wf.calls 0 root hg j hj d' a' n' hc
    exact ⟨⟨root, hg, j, hj, a', n', hc⟩, sub, s1, by simpa using s2, s3⟩
  have hev : ∀ all b0, EvalSub (renumRoot rc vm n root).get (renumCircuit vm n root) buf all b0 ↔ EvalSub rc.get root ins all b0 := by
    intro all b0
    rw [← renumCircuit_sub hL hw.wf hg hi hb hrel]
    exact (evalSub_replace_root hL hw.wf (fun d hd => by rw [hget', if_neg hd]) hnr _ hcalls buf all b0).symm
  constructor
  · rintro ⟨r, all, b0, e1, e2, e3, e4⟩
    rw [hget', if_pos rfl] at e1; cases e1
    exact ⟨root, all, b0, hg, hi, (hev _ _).1 e3, e4⟩
  · rintro ⟨r, all, b0, e1, e2, e3, e4⟩
    rw [hg] at e1; cases e1
    exact ⟨renumCircuit vm n root, all, b0, by rw [hget']; rfl, hb, (hev _ _).2 e3, e4⟩

/-! ### Everything together -/

theorem prevOffset_find (shapes : List (List Nat)) (p : Nat) : ∀ n, n ≤ shapes.length → p < prevOffset shapes n →
    ∃ i sh j, shapes[i]? = some sh ∧ j < sh.prod ∧ p = prevOffset shapes i + j := by
  intro n
  induction n with
  | zero => intro _ h; simp [prevOffset] at h
  | succ n ih =>
    intro hn h
    by_cases hp : p < prevOffset shapes n
    · exact ih (by omega) hp
    · have hs : shapes[n]? = some shapes[n] := List.getElem?_eq_getElem (by omega)
      rw [prevOffset_succ hs] at h
      exact ⟨n, _, p - prevOffset shapes n, hs, by omega, by omega⟩

theorem flatten_prevOffset {T : Type} : ∀ (shapes : List (List Nat)) (data : List (List T)), List.Forall₂ (fun sh d => d.length = List.prod sh) shapes data →
    data.flatten.length = (shapes.map List.prod).sum ∧
    ∀ (i : Nat) (sh : List Nat) (d : List T), shapes[i]? = some sh → data[i]? = some d → ∀ j, j < sh.prod → data.flatten[prevOffset shapes i + j]? = d[j]? := by
  intro shapes data h
  induction h with
  | nil => exact ⟨rfl, by simp⟩
  | @cons sh d shapes data h1 h2 ih =>
    refine ⟨by simp [h1, ih.1], ?_⟩
    intro i sh' d' hs hd j hj
    cases i with
    | zero =>
      simp only [List.getElem?_cons_zero, Option.some.injEq] at hs hd
      subst hs; subst hd
      simp only [prevOffset, List.take_zero, List.map_nil, List.sum_nil, Nat.zero_add, List.flatten_cons]
      rw [List.getElem?_append_left (by omega)]
    | succ i =>
      rw [List.getElem?_cons_succ] at hs hd
      have := ih.2 i sh' d' hs hd j hj
      have e : prevOffset (sh :: shapes) (i + 1) = sh.prod + prevOffset shapes i := by simp [prevOffset]
      rw [e, List.flatten_cons, List.getElem?_append_right (by omega), ← this]
      congr 1; omega

theorem padGrid_get {sh : List Nat} (h0 : ∀ n ∈ sh, n ≠ 0) {idx : List Nat} (hv : Valid sh idx) :
    (padGrid sh).1[ravel sh idx]? = some (ravel (sh.map Pow2.next) idx) := by
  have := (paddedMapping_spec sh h0).2.2 idx hv
  simp only [paddedMapping, List.getElem?_map, Option.map_eq_some_iff] at this
  obtain ⟨a, h1, h2⟩ := this
  rw [h1]; exact h2

theorem sortedSizes_sum (shapes : List (List Nat)) : ((sortedSizes shapes).map (·.1)).sum = (shapes.map paddedLen).sum := by
  have hp : (sortedSizes shapes).Perm (shapes.zipIdx.map fun p => (paddedLen p.1, p.2)) := List.perm_insertionSort _ _
  rw [(hp.map _).sum_eq, List.map_map]
  have : ((fun x : Nat × Nat => x.1) ∘ fun p : List Nat × Nat => (paddedLen p.1, p.2)) = paddedLen ∘ Prod.fst := rfl
  rw [this, ← List.map_map, List.zipIdx_map_fst]

/-- What `reorder_ir_inputs` promises. -/
theorem reorderInputs_spec (hL : L.Lawful) (rc : RootCircuit L) (hw : WFAt npi rc) {root : Circuit L} (hg : rc.get 0 = some root) (shapes : List (List Nat))
    (h0 : ∀ sh ∈ shapes, ∀ n ∈ sh, n ≠ 0) (hsum : (shapes.map List.prod).sum = root.numInputs) :
    ∃ vm lc, reorderInputs shapes rc = some (renumRoot rc vm (shapes.map paddedLen).sum root, lc) ∧ lc.length = shapes.length ∧
      (∀ (i : Nat) (sh : List Nat), shapes[i]? = some sh → ∃ off, lc[i]? = some (paddedLen sh, off) ∧ paddedLen sh ∣ off ∧ off + paddedLen sh ≤ (shapes.map paddedLen).sum) ∧
      (∀ (i i' : Nat) (n off n' off' : Nat), i ≠ i' → lc[i]? = some (n, off) → lc[i']? = some (n', off') → off + n ≤ off' ∨ off' + n' ≤ off) ∧
      (vm.length = root.numInputs + 1 ∧ vmGet vm 0 = 0 ∧
        ∀ (i : Nat) (sh : List Nat) (n off : Nat), shapes[i]? = some sh → lc[i]? = some (n, off) → ∀ idx, Valid sh idx →
          vm[prevOffset shapes i + 1 + ravel sh idx]? = some (off + ravel (sh.map Pow2.next) idx + 1)) := by
  obtain ⟨mx, vm, lc, r1, r2, r3, r4, r5, r6, r7, r8⟩ := reorderLoop_spec shapes h0 (N := root.numInputs) (by omega) (sortedSizes shapes) 0
    (List.replicate (root.numInputs + 1) 0) (List.replicate shapes.length (0, 0)) (sortedSizes_nodup shapes) (fun e he => sortedSizes_mem.1 he)
    (sortedSizes_dvd shapes) (by simp) (by simp) (by simp)
  rw [sortedSizes_sum, Nat.zero_add] at r2
  subst r2
  have hent : ∀ (i : Nat) (sh : List Nat), shapes[i]? = some sh → (paddedLen sh, i) ∈ sortedSizes shapes := fun i sh h => sortedSizes_mem.2 ⟨sh, h, rfl⟩
  have hlc : ∀ (i : Nat) (n off : Nat), lc[i]? = some (n, off) → ∃ sh, shapes[i]? = some sh ∧ n = paddedLen sh := by
    intro i n off h
    have hi : i < shapes.length := by rw [← r4]; exact (List.getElem?_eq_some_iff.1 h).1
    have hs : shapes[i]? = some shapes[i] := List.getElem?_eq_getElem hi
    obtain ⟨off', o1, _⟩ := r7 _ (hent i _ hs)
    dsimp only at o1
    rw [o1] at h
    simp only [Option.some.injEq, Prod.mk.injEq] at h
    exact ⟨_, hs, h.1.symm⟩
  refine ⟨vm, lc, ?_, r4, ?_, ?_, r3, ?_, ?_⟩
  · simp only [reorderInputs, hg, r1]; rfl
  · intro i sh h
    obtain ⟨off, o1, _, o3, o4, _⟩ := r7 _ (hent i sh h)
    exact ⟨off, o1, o4, o3⟩
  · intro i i' n off n' off' hne h1 h2
    obtain ⟨sh, s1, rfl⟩ := hlc i n off h1
    obtain ⟨sh', s1', rfl⟩ := hlc i' n' off' h2
    exact r8 _ (hent i sh s1) _ (hent i' sh' s1') hne off off' h1 h2
  · simp [vmGet, r5]
  · intro i sh n off hs hl idx hv
    obtain ⟨off', o1, _, _, _, o5⟩ := r7 _ (hent i sh hs)
    dsimp only at o1
    rw [o1] at hl
    simp only [Option.some.injEq, Prod.mk.injEq] at hl
    obtain ⟨_, rfl⟩ := hl
    exact o5 sh hs _ _ (padGrid_get (h0 sh (List.mem_of_getElem? hs)) hv)

/-- Any buffer that holds the vectors at their padded positions is an input of the new circuit equivalent to the concatenation. -/
theorem reorder_rel {shapes : List (List Nat)} {N : Nat} (hsum : (shapes.map List.prod).sum = N)
    {vm : List Nat} {lc : List (Nat × Nat)} (hv : vm.length = N + 1) (hz : vmGet vm 0 = 0) (hll : lc.length = shapes.length)
    (hm : ∀ (i : Nat) (sh : List Nat) (n off : Nat), shapes[i]? = some sh → lc[i]? = some (n, off) → ∀ idx, Valid sh idx →
      vm[prevOffset shapes i + 1 + ravel sh idx]? = some (off + ravel (sh.map Pow2.next) idx + 1))
    {data : List (List F)} (hd : List.Forall₂ (fun sh d => d.length = List.prod sh) shapes data) {buf : List F}
    (hb : ∀ (i : Nat) (sh : List Nat) (d : List F) (n off : Nat), shapes[i]? = some sh → data[i]? = some d → lc[i]? = some (n, off) → ∀ idx, Valid sh idx →
      buf[off + ravel (sh.map Pow2.next) idx]? = d[ravel sh idx]?) : Rel vm (0 :: data.flatten) (0 :: buf) := by
  obtain ⟨f1, f2⟩ := flatten_prevOffset shapes data hd
  refine ⟨by simp [hv, f1, hsum], ?_⟩
  intro v hlt
  cases v with
  | zero => rw [hz]; rfl
  | succ p =>
    simp only [List.length_cons, f1] at hlt
    obtain ⟨i, sh, j, hs, hj, rfl⟩ := prevOffset_find shapes p shapes.length (le_refl _) (by rw [prevOffset, List.take_length]; omega)
    have hi := (List.getElem?_eq_some_iff.1 hs).1
    obtain ⟨idx, hx, rfl⟩ := ravel_surj sh j hj
    obtain ⟨d, hdl⟩ : ∃ d, data[i]? = some d := ⟨_, List.getElem?_eq_getElem (show i < data.length by rw [← hd.length_eq]; exact hi)⟩
    obtain ⟨⟨n, off⟩, hlc⟩ : ∃ e, lc[i]? = some e := ⟨_, List.getElem?_eq_getElem (show i < lc.length by omega)⟩
    have := hm i sh n off hs hlc idx hx
    rw [List.getElem?_cons_succ, f2 i sh d hs hdl _ hj, ← hb i sh d n off hs hdl hlc idx hx]
    rw [show prevOffset shapes i + ravel sh idx + 1 = prevOffset shapes i + 1 + ravel sh idx by omega]
    rw [vmGet, this]; rfl

/-! ### The new circuit is well-formed -/

theorem ravel_inj : ∀ {sh idx idx' : List Nat}, Valid sh idx → Valid sh idx' → ravel sh idx = ravel sh idx' → idx = idx'
  | [], [], [], _, _, _ => rfl
  | n :: sh, i :: idx, i' :: idx', h, h', he => by
    have l1 := ravel_lt h.2
    have l2 := ravel_lt h'.2
    simp only [ravel] at he
    have hp : 0 < sh.prod := by omega
    have e1 : i = i' := by
      have a := Nat.div_eq_of_lt l1
      have b := Nat.div_eq_of_lt l2
      have c := congrArg (· / sh.prod) he
      rw [Nat.add_comm, Nat.add_mul_div_right _ _ hp, a, Nat.add_comm (i' * _), Nat.add_mul_div_right _ _ hp, b] at c
      omega
    subst e1
    rw [ravel_inj h.2 h'.2 (by omega)]

theorem reorder_vmOk {shapes : List (List Nat)} {N M : Nat} (hsum : (shapes.map List.prod).sum = N)
    {vm : List Nat} {lc : List (Nat × Nat)} (hv : vm.length = N + 1)
    (hb : ∀ (i : Nat) (sh : List Nat), shapes[i]? = some sh → ∃ off, lc[i]? = some (paddedLen sh, off) ∧ off + paddedLen sh ≤ M)
    (hdis : ∀ (i i' : Nat) (n off n' off' : Nat), i ≠ i' → lc[i]? = some (n, off) → lc[i']? = some (n', off') → off + n ≤ off' ∨ off' + n' ≤ off)
    (hm : ∀ (i : Nat) (sh : List Nat) (n off : Nat), shapes[i]? = some sh → lc[i]? = some (n, off) → ∀ idx, Valid sh idx →
      vm[prevOffset shapes i + 1 + ravel sh idx]? = some (off + ravel (sh.map Pow2.next) idx + 1)) : VmOk vm N M := by
  have key : ∀ v, 1 ≤ v → v ≤ N → ∃ i sh off idx, shapes[i]? = some sh ∧ lc[i]? = some (paddedLen sh, off) ∧ off + paddedLen sh ≤ M ∧ Valid sh idx ∧
      v = prevOffset shapes i + 1 + ravel sh idx ∧ vmGet vm v = off + ravel (sh.map Pow2.next) idx + 1 ∧ ravel (sh.map Pow2.next) idx < paddedLen sh := by
    intro v h1 h2
    obtain ⟨i, sh, j, hs, hj, he⟩ := prevOffset_find shapes (v - 1) shapes.length (le_refl _) (by rw [prevOffset, List.take_length]; omega)
    obtain ⟨idx, hx, rfl⟩ := ravel_surj sh j hj
    obtain ⟨off, o1, o2⟩ := hb i sh hs
    refine ⟨i, sh, off, idx, hs, o1, o2, hx, by omega, ?_, ravel_lt (valid_padded hx)⟩
    have := hm i sh _ off hs o1 idx hx
    rw [vmGet, show v = prevOffset shapes i + 1 + ravel sh idx by omega, this]; rfl
  refine ⟨hv, fun v h1 h2 => ?_, fun v w h1 h2 h3 h4 he => ?_⟩
  · obtain ⟨i, sh, off, idx, _, _, o2, _, _, e, l⟩ := key v h1 h2
    omega
  · obtain ⟨i, sh, off, idx, s1, o1, o2, x1, e, e', l⟩ := key v h1 h2
    obtain ⟨i', sh', off', idx', s1', o1', o2', x1', f, f', l'⟩ := key w h3 h4
    by_cases hi : i = i'
    · subst hi
      rw [s1] at s1'; cases s1'
      rw [o1] at o1'; cases o1'
      have hr : ravel (sh.map Pow2.next) idx = ravel (sh.map Pow2.next) idx' := by omega
      rw [ravel_inj (valid_padded x1) (valid_padded x1') hr] at e
      omega
    · have := hdis i i' _ off _ off' hi o1 o1'
      omega

end Verif.Zkcuda
