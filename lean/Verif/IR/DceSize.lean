import Verif.IR.DceRoot
import Verif.IR.Dest
import Mathlib.Algebra.BigOperators.Group.Finset.Basic
import Mathlib.Algebra.Order.BigOperators.Group.Finset

/-!
# `remove_unreachable` makes a circuit smaller or leaves it alone
-/

set_option linter.unusedSectionVars false
set_option linter.unusedSimpArgs false

namespace Verif.IR

variable {F : Type} [Field F] [DecidableEq F] {L : Lang F}

/-- Renaming every variable to itself changes nothing, and a call is determined by its callee, arguments and number of results. -/
structure Lang.Renames (L : Lang F) : Prop where
  replace_id : ∀ i f, (∀ v ∈ L.inputs i, f v = v) → L.replaceVars i f = i
  mk_call : ∀ i d a n, L.asCall i = some (d, a, n) → L.mkCall d a n = i

/-- Size of a list of instructions. -/
def insnsSize (is : List L.Insn) : Nat := (is.map fun i => 1 + (L.inputs i).length).sum

/-- Size of a circuit. -/
def circSize (c : Circuit L) : Nat := 1 + c.numInputs + c.outputs.length + insnsSize c.instructions

/-- Size of the circuit with number `c`. -/
def sizeAt (get : Nat → Option (Circuit L)) (c : Nat) : Nat := ((get c).map circSize).getD 0

/-- Size of a circuit with its sub-circuits. -/
def rcSize (rc : RootCircuit L) : Nat := ∑ c ∈ rc.vertices.toFinset, sizeAt rc.get c

theorem rebuildInsns_size (hL : L.Lawful) (vis : Elem → Bool) (c : Nat) : ∀ (is : List L.Insn) (i : Nat) (s : List (Option Nat) × Nat),
    insnsSize (rebuildInsns L vis c i is s).1 ≤ insnsSize is := by
  intro is
  induction is with
  | nil => intro i s; exact le_refl _
  | cons x is ih =>
    intro i s
    unfold rebuildInsns
    split
    · have := ih (i + 1) (pushMany (List.replicate (L.numOutputs x) false) s)
      simp only [insnsSize, List.map_cons, List.sum_cons] at this ⊢
      omega
    · cases hc : L.asCall x with
      | none =>
        have := ih (i + 1) (pushMany (List.replicate (L.numOutputs x) true) s)
        simp only [insnsSize, List.map_cons, List.sum_cons, hL.inputs_replace, List.length_map] at this ⊢
        omega
      | some t =>
        obtain ⟨d, a, n⟩ := t
        have := ih (i + 1) (pushMany ((List.range n).map (fun j => vis (eO d j))) s)
        have hl : (a.zipIdx.filter (fun p => vis (eV d (p.2 + 1)))).length ≤ a.length := by
          refine (List.length_filter_le _ _).trans ?_
          simp
        simp only [insnsSize, List.map_cons, List.sum_cons, hL.call_inputs _ _ _ _ (hL.asCall_mkCall d _ _), List.length_map, hL.call_inputs _ _ _ _ hc] at this ⊢
        omega

theorem rebuilt_parts (hL : L.Lawful) (vis : Elem → Bool) (c : Nat) (circ : Circuit L) :
    (rebuildCircuit vis c circ).numInputs ≤ circ.numInputs ∧ (rebuildCircuit vis c circ).outputs.length ≤ circ.outputs.length ∧
    insnsSize (rebuildCircuit vis c circ).instructions ≤ insnsSize circ.instructions := by
  refine ⟨?_, ?_, rebuildInsns_size hL vis c _ _ _⟩
  · rw [(rebuilt_numInputs vis c circ).1]
    refine (List.count_le_length).trans ?_
    simp
  · simp only [rebuildCircuit, List.length_map]
    refine (List.length_filter_le _ _).trans ?_
    simp

theorem rebuilt_size (hL : L.Lawful) (vis : Elem → Bool) (c : Nat) (circ : Circuit L) : circSize (rebuildCircuit vis c circ) ≤ circSize circ := by
  obtain ⟨h1, h2, h3⟩ := rebuilt_parts hL vis c circ
  unfold circSize
  omega

/-- If the size is the same, all inputs and outputs are kept. -/
theorem rebuilt_same (hL : L.Lawful) {vis : Elem → Bool} {c : Nat} {circ : Circuit L} (h : circSize (rebuildCircuit vis c circ) = circSize circ) :
    (∀ j, j < circ.numInputs → vis (eV c (j + 1)) = true) ∧ (∀ j, j < circ.outputs.length → vis (eO c j) = true) ∧
    insnsSize (rebuildCircuit vis c circ).instructions = insnsSize circ.instructions := by
  obtain ⟨h1, h2, h3⟩ := rebuilt_parts hL vis c circ
  unfold circSize at h
  refine ⟨?_, ?_, by omega⟩
  · have h4 : (rebuildCircuit vis c circ).numInputs = circ.numInputs := by omega
    rw [(rebuilt_numInputs vis c circ).1] at h4
    have h5 := (List.count_eq_length (a := true) (l := (List.range circ.numInputs).map (fun j => vis (eV c (j + 1))))).1 (by rw [h4]; simp)
    intro j hj
    exact (h5 _ (List.mem_map.2 ⟨j, List.mem_range.2 hj, rfl⟩)).symm
  · have h4 : (rebuildCircuit vis c circ).outputs.length = circ.outputs.length := by omega
    simp only [rebuildCircuit, List.length_map] at h4
    have h5 := List.length_filter_eq_length_iff (p := fun p : Nat × Nat => vis (eO c p.2)) (l := circ.outputs.zipIdx) |>.1 (by rw [h4]; simp)
    intro j hj
    have := h5 (circ.outputs[j], j) (by
      rw [List.mem_zipIdx_iff_getElem?]
      exact List.getElem?_eq_getElem hj)
    simpa using this

theorem rank_all (n v : Nat) (h : v ≤ n) : rank (List.replicate n true) v = v := by
  unfold rank
  rw [List.take_replicate, List.count_replicate_self]
  omega

/-- If everything is kept, the instructions are unchanged. -/
theorem rebuildInsns_id (hL : L.Lawful) (hR : L.Renames) {get : Nat → Option (Circuit L)} {npi : Option Nat} {vis : Elem → Bool} {c : Nat}
    (hv : ∀ d circ, get d = some circ → (∀ j, j < circ.numInputs → vis (eV d (j + 1)) = true) ∧ ∀ j, j < circ.outputs.length → vis (eO d j) = true) :
    ∀ (is : List L.Insn) (i cur : Nat) (s : List (Option Nat) × Nat), VMInv (List.replicate (cur + 1) true) s → InsnsOk L npi cur is → CallsOk get is →
      insnsSize (rebuildInsns L vis c i is s).1 = insnsSize is →
      (rebuildInsns L vis c i is s).1 = is ∧ VMInv (List.replicate (numVars cur is + 1) true) (rebuildInsns L vis c i is s).2 := by
  intro is
  induction is with
  | nil => intro i cur s hs _ _ _; exact ⟨rfl, hs⟩
  | cons x is ih =>
    intro i cur s hs hok hca hsz
    obtain ⟨o1, o2, o3, o4⟩ := hok
    have hlk : ∀ v ∈ L.inputs x, lk s.1 v = v := by
      intro v hv
      obtain ⟨q1, q2⟩ := o1 v hv
      rw [lk_eq hs q2 (by rw [List.getElem?_replicate, if_pos (by omega)]), rank_all _ _ (by omega)]
    unfold rebuildInsns at hsz ⊢
    by_cases hvis : vis (eI c i) = false
    · exfalso
      rw [if_pos hvis] at hsz
      have := rebuildInsns_size hL vis c is (i + 1) (pushMany (List.replicate (L.numOutputs x) false) s)
      simp only [insnsSize, List.map_cons, List.sum_cons] at this hsz
      omega
    · rw [if_neg hvis] at hsz ⊢
      have hpush : VMInv (List.replicate (cur + L.numOutputs x + 1) true) (pushMany (List.replicate (L.numOutputs x) true) s) := by
        have := pushMany_inv (List.replicate (L.numOutputs x) true) _ _ hs
        rw [List.replicate_append_replicate] at this
        rw [show cur + L.numOutputs x + 1 = cur + 1 + L.numOutputs x by omega]
        exact this
      have hca' : CallsOk get is := fun y hy => hca y (List.mem_cons_of_mem _ hy)
      cases hc : L.asCall x with
      | none =>
        simp only [hc] at hsz ⊢
        have hsz' : insnsSize (rebuildInsns L vis c (i + 1) is (pushMany (List.replicate (L.numOutputs x) true) s)).1 = insnsSize is := by
          simp only [insnsSize, List.map_cons, List.sum_cons, hL.inputs_replace, List.length_map] at hsz ⊢
          omega
        obtain ⟨h1, h2⟩ := ih (i + 1) (cur + L.numOutputs x) _ hpush o4 hca' hsz'
        exact ⟨by rw [h1, hR.replace_id x _ hlk], h2⟩
      | some t =>
        obtain ⟨d, a, n⟩ := t
        simp only [hc] at hsz ⊢
        obtain ⟨sub, hs1, hs2, hs3⟩ := hca x (by simp) d a n hc
        obtain ⟨v1, v2⟩ := hv d sub hs1
        have hfl : (List.range n).map (fun j => vis (eO d j)) = List.replicate (L.numOutputs x) true := by
          rw [hL.call_numOutputs _ _ _ _ hc, List.eq_replicate_iff]
          refine ⟨by simp, fun b hb => ?_⟩
          obtain ⟨j, hj, rfl⟩ := List.mem_map.1 hb
          exact v2 j (by rw [← hs3]; exact List.mem_range.1 hj)
        have hin : ((a.zipIdx.filter (fun p => vis (eV d (p.2 + 1)))).map (·.1)).map (lk s.1) = a := by
          rw [List.filter_eq_self.2, List.zipIdx_map_fst]
          · conv_rhs => rw [← List.map_id a]
            refine List.map_congr_left fun v hv => ?_
            exact hlk v (by rw [hL.call_inputs _ _ _ _ hc]; exact hv)
          · rintro ⟨v, j⟩ hp
            rw [List.mem_zipIdx_iff_getElem?] at hp
            exact v1 j (by rw [← hs2]; exact (List.getElem?_eq_some_iff.1 hp).1)
        rw [hfl, hin] at hsz ⊢
        have hcount : (List.replicate (L.numOutputs x) true).count true = n := by
          rw [List.count_replicate_self, hL.call_numOutputs _ _ _ _ hc]
        rw [hcount, hR.mk_call _ _ _ _ hc] at hsz ⊢
        have hsz' : insnsSize (rebuildInsns L vis c (i + 1) is (pushMany (List.replicate (L.numOutputs x) true) s)).1 = insnsSize is := by
          simp only [insnsSize, List.map_cons, List.sum_cons] at hsz ⊢
          omega
        obtain ⟨h1, h2⟩ := ih (i + 1) (cur + L.numOutputs x) _ hpush o4 hca' hsz'
        exact ⟨by rw [h1], h2⟩

theorem rebuild_id (hL : L.Lawful) (hR : L.Renames) {get : Nat → Option (Circuit L)} {npi : Option Nat} (hw : WFGet npi get) {vis : Elem → Bool}
    (hs : ∀ d circ, get d = some circ → circSize (rebuildCircuit vis d circ) = circSize circ) {c : Nat} {circ : Circuit L} (hg : get c = some circ) :
    rebuildCircuit vis c circ = circ := by
  have hv : ∀ d circ, get d = some circ → (∀ j, j < circ.numInputs → vis (eV d (j + 1)) = true) ∧ ∀ j, j < circ.outputs.length → vis (eO d j) = true :=
    fun d circ h => ⟨(rebuilt_same hL (hs d circ h)).1, (rebuilt_same hL (hs d circ h)).2.1⟩
  obtain ⟨k1, k2, k3⟩ := rebuilt_same hL (hs c circ hg)
  have hin : VMInv (List.replicate (circ.numInputs + 1) true) (inputState vis c circ.numInputs) := by
    have := inputState_inv vis c circ.numInputs
    rwa [show inFlags vis c circ.numInputs = List.replicate (circ.numInputs + 1) true by
      unfold inFlags
      rw [List.replicate_succ]
      congr 1
      rw [List.eq_replicate_iff]
      refine ⟨by simp, fun b hb => ?_⟩
      obtain ⟨j, hj, rfl⟩ := List.mem_map.1 hb
      exact k1 j (List.mem_range.1 hj)] at this
  have hco := hw.circ c circ hg
  obtain ⟨h1, h2⟩ := rebuildInsns_id hL hR (c := c) hv circ.instructions 0 circ.numInputs _ hin hco.insns (hw.calls c circ hg) k3
  have hlk : ∀ v, v ≠ 0 → v ≤ numVars circ.numInputs circ.instructions → lk (rebuildInsns L vis c 0 circ.instructions (inputState vis c circ.numInputs)).2.1 v = v := by
    intro v h0 hle
    rw [lk_eq h2 h0 (by rw [List.getElem?_replicate, if_pos (by omega)]), rank_all _ _ (by omega)]
  have hni := (rebuilt_numInputs vis c circ).1
  have e1 : (rebuildCircuit vis c circ).instructions = circ.instructions := h1
  have e2 : (rebuildCircuit vis c circ).constraints = circ.constraints := by
    show circ.constraints.map _ = _
    conv_rhs => rw [← List.map_id circ.constraints]
    refine List.map_congr_left fun k hk => ?_
    simp only [Constraint.replaceVar, id]
    rw [hlk _ (hco.cons k hk).2 (hco.cons k hk).1]
  have e3 : (rebuildCircuit vis c circ).outputs = circ.outputs := by
    show ((circ.outputs.zipIdx.filter _).map _).map _ = _
    rw [List.filter_eq_self.2, List.zipIdx_map_fst]
    · conv_rhs => rw [← List.map_id circ.outputs]
      refine List.map_congr_left fun o ho => ?_
      exact hlk _ (hco.outs o ho).2 (hco.outs o ho).1
    · rintro ⟨v, j⟩ hp
      rw [List.mem_zipIdx_iff_getElem?] at hp
      exact k2 j (List.getElem?_eq_some_iff.1 hp).1
  have e4 : (rebuildCircuit vis c circ).numInputs = circ.numInputs := by
    have := rebuilt_parts hL vis c circ
    have hsz := hs c circ hg
    unfold circSize at hsz
    omega
  generalize rebuildCircuit vis c circ = r at e1 e2 e3 e4
  cases r
  cases circ
  dsimp only at e1 e2 e3 e4
  rw [e1, e2, e3, e4]

/-- The pass returns the same circuits, or a smaller circuit. -/
theorem removeUnreachable_size (hL : L.Lawful) (hR : L.Renames) (rc : RootCircuit L) {npi : Option Nat} (hk : rc.vertices.Nodup) (hw : WFAt npi rc)
    {rc' : RootCircuit L} {im : InputMapping} (h : removeUnreachable rc = some (rc', im)) :
    rcSize rc' < rcSize rc ∨ (rc'.get = rc.get ∧ rc'.vertices.Perm rc.vertices) := by
  obtain ⟨root, hroot, _⟩ := hw.root
  obtain ⟨rc1, im1, order, vis, h1, _, _, h4, h5, _, _, _, _, h10, h11, h12, _⟩ := removeUnreachable_full rc hk hw hroot
  rw [h1] at h
  cases h
  have hfin : rc'.vertices.toFinset = order.toFinset := by
    ext c; simp [h11 c]
  have hle : ∀ c ∈ order.toFinset, sizeAt rc'.get c ≤ sizeAt rc.get c := by
    intro c hc
    have hc' : c ∈ order := by simpa using hc
    unfold sizeAt
    rw [h4 c]
    simp only [rebuildGet, if_pos hc']
    cases hg : rc.get c with
    | none => simp
    | some circ => simpa using rebuilt_size hL vis c circ
  have hsubset : order.toFinset ⊆ rc.vertices.toFinset := by
    intro c hc
    simp only [List.mem_toFinset] at hc ⊢
    exact h12 c hc
  have hpos : ∀ c ∈ rc.vertices, 0 < sizeAt rc.get c := by
    intro c hc
    obtain ⟨circ, hg⟩ := mem_vertices_iff.1 hc
    unfold sizeAt
    rw [hg]
    simp only [Option.map_some, Option.getD_some, circSize]
    omega
  by_cases hall : rc.vertices ⊆ order
  · have heq : order.toFinset = rc.vertices.toFinset := Finset.Subset.antisymm hsubset (by
      intro c hc
      simp only [List.mem_toFinset] at hc ⊢
      exact hall hc)
    by_cases hs : ∀ c ∈ order, sizeAt rc'.get c = sizeAt rc.get c
    · right
      have hs' : ∀ d circ, rc.get d = some circ → circSize (rebuildCircuit vis d circ) = circSize circ := by
        intro d circ hg
        have hd := hall (mem_vertices_iff.2 ⟨circ, hg⟩)
        have := hs d hd
        unfold sizeAt at this
        rw [h4 d] at this
        simp only [rebuildGet, if_pos hd] at this
        rw [hg] at this
        simpa using this
      constructor
      · funext c
        rw [h4 c]
        cases hg : rc.get c with
        | none => simp [rebuildGet, hg]
        | some circ =>
          simp only [rebuildGet, if_pos (hall (mem_vertices_iff.2 ⟨circ, hg⟩)), hg]
          rw [Option.map_some, rebuild_id hL hR hw.wf hs' hg]
      · refine (List.perm_ext_iff_of_nodup h5 hk).2 fun c => ?_
        rw [h11 c]
        exact ⟨fun h => h12 c h, fun h => hall h⟩
    · left
      simp only [not_forall] at hs
      obtain ⟨c, hc, hne⟩ := hs
      unfold rcSize
      rw [hfin, ← heq]
      exact Finset.sum_lt_sum hle ⟨c, by simpa using hc, lt_of_le_of_ne (hle c (by simpa using hc)) hne⟩
  · left
    simp only [List.subset_def, not_forall] at hall
    obtain ⟨c, hc, hno⟩ := hall
    unfold rcSize
    rw [hfin]
    refine lt_of_le_of_lt (Finset.sum_le_sum hle) ?_
    exact Finset.sum_lt_sum_of_subset hsubset (i := c) (by simpa using hc) (by simpa using hno) (hpos c hc) (fun _ _ _ => Nat.zero_le _)

end Verif.IR
