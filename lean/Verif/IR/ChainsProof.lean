import Verif.IR.Chains

/-!
# `detect_chains`: correctness
-/

set_option linter.unusedSectionVars false
set_option linter.unusedSimpArgs false

namespace Verif.IR.Chains

open Source (Insn)

variable {F : Type} [Field F] [DecidableEq F]

/-- Instruction kind and number of outputs: never changed by the pass. -/
def kind : Insn F → Nat × Nat
  | .linComb _ => (0, 1)
  | .mul _ => (1, 1)
  | i => (2, i.numOutputs)

theorem kind_outputs (i : Insn F) : (kind i).2 = i.numOutputs := by cases i <;> rfl

theorem isAdd_iff {is : List (Insn F)} {k : Nat} : isAdd is k = true ↔ (is.map kind)[k]? = some (0, 1) := by
  unfold isAdd
  rw [List.getElem?_map]
  cases is[k]? with
  | none => simp
  | some i => cases i <;> simp [kind]

theorem isMul_iff {is : List (Insn F)} {k : Nat} : isMul is k = true ↔ (is.map kind)[k]? = some (1, 1) := by
  unfold isMul
  rw [List.getElem?_map]
  cases is[k]? with
  | none => simp
  | some i => cases i <;> simp [kind]

theorem exists_lin {is : List (Insn F)} {k : Nat} (h : (is.map kind)[k]? = some (0, 1)) : ∃ lc, is[k]? = some (.linComb lc) := by
  rw [List.getElem?_map] at h
  cases hk : is[k]? with
  | none => simp [hk] at h
  | some i => rw [hk] at h; cases i <;> simp [kind] at h; exact ⟨_, rfl⟩

theorem exists_mul {is : List (Insn F)} {k : Nat} (h : (is.map kind)[k]? = some (1, 1)) : ∃ xs, is[k]? = some (.mul xs) := by
  rw [List.getElem?_map] at h
  cases hk : is[k]? with
  | none => simp [hk] at h
  | some i => rw [hk] at h; cases i <;> simp [kind] at h; exact ⟨_, rfl⟩

theorem kind_det {i j : Insn F} (h : kind i = kind j) (hd : Det i) : Det j := by
  cases i <;> cases j <;> simp [kind, Det] at *

theorem insnsOk_append {L : Lang F} {npi : Option Nat} : ∀ (A B : List L.Insn) (cur : Nat),
    InsnsOk L npi cur (A ++ B) ↔ InsnsOk L npi cur A ∧ InsnsOk L npi (numVars cur A) B := by
  intro A
  induction A with
  | nil => intro B cur; simp [InsnsOk, numVars]
  | cons i A ih =>
    intro B cur
    rw [List.cons_append]
    simp only [InsnsOk, ih, numVars_cons]
    tauto

variable {q : Insn F → List F → List F → Prop} {vd : Nat → Insn F → Bool} {get : Nat → Option (Circuit (srcL q vd))}

/-- The constraint variables. -/
def cvars (o : Circuit (srcL q vd)) : List Nat := o.constraints.map (·.var)

/-- Every product has two factors, or its variable is not referenced (positions as in the original circuit `o`). -/
def SoftIs (o : Circuit (srcL q vd)) (is : List (Insn F)) : Prop :=
  ∀ k xs, is[k]? = some (.mul xs) → 2 ≤ xs.length ∨
    o.numInputs + 1 + ((o.instructions.take k).map Insn.numOutputs).sum ∉ occ is o.outputs (cvars o)

/-- Invariant of the pass: `is` is the current instruction list of a circuit that was `o` originally. -/
structure Inv (get : Nat → Option (Circuit (srcL q vd))) (o : Circuit (srcL q vd)) (is : List (Insn F)) : Prop where
  kinds : is.map kind = o.instructions.map kind
  ok : InsnsOk (srcL q vd) none o.numInputs is
  mem : ∀ i ∈ is, ¬ Det i → i ∈ o.instructions
  mem' : ∀ i ∈ o.instructions, ¬ Det i → i ∈ is
  cnt : ∀ v, (occ is o.outputs (cvars o)).count v ≤ (occ o.instructions o.outputs (cvars o)).count v
  eval : ∀ ins outs b, ins.length = o.numInputs →
    (EvalSub get o ins outs b ↔ EvalSub get (⟨is, o.constraints, o.outputs, o.numInputs⟩ : Circuit (srcL q vd)) ins outs b)
  soft : SoftIs o o.instructions → SoftIs o is

theorem Inv.calls {o : Circuit (srcL q vd)} {is : List (Insn F)} (h : Inv get o is) (hc : CallsOk get o.instructions) : CallsOk get is := by
  intro i hi d a n hcall
  refine hc i (h.mem i hi (fun hd => ?_)) d a n hcall
  rw [det_not_call hd] at hcall; cases hcall

theorem Inv.length {o : Circuit (srcL q vd)} {is : List (Insn F)} (h : Inv get o is) : is.length = o.instructions.length := by
  have := congrArg List.length h.kinds; simpa using this

theorem Inv.outputs {o : Circuit (srcL q vd)} {is : List (Insn F)} (h : Inv get o is) : is.map Insn.numOutputs = o.instructions.map Insn.numOutputs := by
  have := congrArg (List.map Prod.snd) h.kinds
  simpa [List.map_map, Function.comp_def, kind_outputs] using this

theorem CallsOk.left {A B : List (Insn F)} (h : CallsOk get (A ++ B)) : CallsOk get A := fun i hi => h i (by simp [hi])
theorem CallsOk.right {A B : List (Insn F)} (h : CallsOk get (A ++ B)) : CallsOk get B := fun i hi => h i (by simp [hi])

theorem split1 {α : Type} {is : List α} {i : Nat} {I : α} (hi : is[i]? = some I) :
    ∃ A C, is = A ++ I :: C ∧ A.length = i ∧ ∀ I', is.set i I' = A ++ I' :: C := by
  obtain ⟨hlt, rfl⟩ := List.getElem?_eq_some_iff.1 hi
  refine ⟨is.take i, is.drop (i + 1), ?_, by simp; omega, ?_⟩
  · rw [List.cons_getElem_drop_succ, List.take_append_drop]
  · intro I'
    rw [List.set_eq_take_append_cons_drop, if_pos hlt]

theorem split2 {α : Type} {is : List α} {i j : Nat} {I J : α} (hj : is[j]? = some J) (hi : is[i]? = some I) (hlt : j < i) :
    ∃ A B C, is = A ++ J :: (B ++ I :: C) ∧ A.length = j ∧ A.length + 1 + B.length = i ∧
      ∀ J' I', (is.set j J').set i I' = A ++ J' :: (B ++ I' :: C) := by
  obtain ⟨A, R, h1, h2, h3⟩ := split1 hj
  have hi' : R[i - j - 1]? = some I := by
    rw [h1, List.getElem?_append_right (by omega)] at hi
    obtain ⟨k, hk⟩ : ∃ k, i - A.length = k + 1 := ⟨i - A.length - 1, by omega⟩
    rw [hk, List.getElem?_cons_succ] at hi
    rw [← hi]; congr 1; omega
  obtain ⟨B, C, h4, h5, h6⟩ := split1 hi'
  refine ⟨A, B, C, by rw [h1, h4], h2, by omega, ?_⟩
  intro J' I'
  rw [h3 J', List.set_append, if_neg (by omega)]
  obtain ⟨k, hk⟩ : ∃ k, i - A.length = k + 1 := ⟨i - A.length - 1, by omega⟩
  have hk' : k = i - j - 1 := by omega
  rw [hk, List.set_cons_succ, hk', h6]

/-- Replacing an instruction by an equivalent one with the same operands. -/
theorem Inv.perm (hE : QOk q vd) {o : Circuit (srcL q vd)} {is : List (Insn F)} (h : Inv get o is) (hc : CallsOk get o.instructions)
    {i : Nat} {I I' : Insn F} (hi : is[i]? = some I) (hI : Det I) (hk : kind I' = kind I) (hp : I'.inputs.Perm I.inputs)
    (hv : ∀ a : Nat → F, detVal a I' = detVal a I) : Inv get o (is.set i I') := by
  have hL := hE.lawful
  have hI' : Det I' := kind_det hk.symm hI
  have hcalls := h.calls hc
  obtain ⟨A, C, hs, _, hset⟩ := split1 hi
  have hsoft : SoftIs o o.instructions → SoftIs o (is.set i I') := by
    intro h0 k xs hkx
    have hm : ∀ v, v ∈ occ (is.set i I') o.outputs (cvars o) ↔ v ∈ occ is o.outputs (cvars o) := by
      intro v
      rw [hset]
      conv_rhs => rw [hs]
      simp only [occ, List.flatMap_append, List.flatMap_cons, List.mem_append, hp.mem_iff]
    rw [hm]
    by_cases hki : k = i
    · subst hki
      have hlt := (List.getElem?_eq_some_iff.1 hi).1
      rw [List.getElem?_set_self hlt] at hkx
      obtain rfl := Option.some.inj hkx
      cases I with
      | mul ys =>
        have : xs.length = ys.length := hp.length_eq
        rw [this]
        exact h.soft h0 k ys hi
      | _ => simp [kind] at hk
    · rw [List.getElem?_set_ne (Ne.symm hki)] at hkx
      exact h.soft h0 k xs hkx
  rw [hset] at hsoft ⊢
  have hok := h.ok
  rw [hs, insnsOk_append] at hok
  have hcA : CallsOk get A := CallsOk.left (by rw [hs] at hcalls; exact hcalls)
  refine ⟨?_, ?_, ?_, ?_, ?_, ?_, hsoft⟩
  · rw [← h.kinds, hs]; simp [hk]
  · rw [insnsOk_append]
    refine ⟨hok.1, ?_, rfl, Or.inl rfl, ?_⟩
    · intro t ht; exact hok.2.1 t (hp.mem_iff.1 ht)
    · have := hok.2.2.2.2
      have e : (srcL q vd).numOutputs I = (srcL q vd).numOutputs I' := (det_outputs hI).trans (det_outputs hI').symm
      rw [e] at this; exact this
  · intro j hj hd
    refine h.mem j ?_ hd
    rw [hs]
    rcases List.mem_append.1 hj with hj | hj
    · simp [hj]
    · rcases List.mem_cons.1 hj with rfl | hj
      · exact absurd hI' hd
      · simp [hj]
  · intro j hj hd
    have := h.mem' j hj hd
    rw [hs] at this
    rcases List.mem_append.1 this with hj | hj
    · simp [hj]
    · rcases List.mem_cons.1 hj with rfl | hj
      · exact absurd hI hd
      · simp [hj]
  · intro v
    refine le_trans (le_of_eq ?_) (h.cnt v)
    rw [hs]
    simp only [occ, List.flatMap_append, List.flatMap_cons, List.count_append, hp.count_eq]
  · intro ins outs b hl
    rw [h.eval ins outs b hl, hs]
    unfold EvalSub
    have : ∀ vs sb, Run get (A ++ I :: C) (0 :: ins) vs sb ↔ Run get (A ++ I' :: C) (0 :: ins) vs sb := by
      intro vs sb
      rw [run_append_iff, run_append_iff]
      refine exists_congr (fun ws => exists_congr (fun b1 => exists_congr (fun b2 => ?_)))
      refine and_congr_right (fun hr => and_congr_left (fun _ => ?_))
      rw [run_prim_iff (det_not_call hI), run_prim_iff (det_not_call hI')]
      refine exists_congr (fun o' => and_congr_left (fun _ => ?_))
      have hlen := hr.length hL hcA (o.numInputs + 1) (by simp [hl])
      rw [numVars_add] at hlen
      have hd : ∀ v ∈ I.inputs, (ws[v]?).isSome := by
        intro v hv'
        have := hok.2.1 v hv'
        simp; omega
      rw [det_prim hE hI hd, det_prim hE hI' (fun v hv' => hd v (hp.mem_iff.1 hv')), hv]
    simp only [this]

/-- What the tables say about an absorbable operand. -/
theorem info_spec {o : Circuit (srcL q vd)} {x : Nat} (hx : x < o.numInputs + 1 + (o.instructions.map Insn.numOutputs).sum)
    (honce : (info o.numInputs o.instructions o.outputs (cvars o)).once ((info o.numInputs o.instructions o.outputs (cvars o)).id x) = true) :
    (ids o.numInputs o.instructions)[x]? = some ((info o.numInputs o.instructions o.outputs (cvars o)).id x) ∧
    (occ o.instructions o.outputs (cvars o)).count x ≤ 1 := by
  have hlt : x < (ids o.numInputs o.instructions).length := by rw [ids_length]; exact hx
  have hid : (ids o.numInputs o.instructions)[x]? = some ((info o.numInputs o.instructions o.outputs (cvars o)).id x) := by
    simp [info, List.getElem?_eq_getElem hlt]
  refine ⟨hid, ?_⟩
  simp only [info, beq_iff_eq, refCount] at honce
  have hid' : (ids o.numInputs o.instructions)[x]? = some (((ids o.numInputs o.instructions)[x]?).getD 0) := by
    simpa [info] using hid
  calc (occ o.instructions o.outputs (cvars o)).count x ≤ _ := by
        unfold List.count
        refine List.countP_mono_left (fun v _ hv => ?_)
        have : v = x := by simpa using hv
        subst this
        exact beq_iff_eq.2 hid'
    _ = 1 := honce
    _ ≤ 1 := le_refl _

/-- Absorbing one operand preserves the invariant. -/
theorem Inv.absorb (hE : QOk q vd) {o : Circuit (srcL q vd)} {is : List (Insn F)} (h : Inv get o is) (hc : CallsOk get o.instructions)
    {i x : Nat} {I I' J J' : Insn F} {rest : List Nat}
    (hi : is[i]? = some I) (hj : is[(info o.numInputs o.instructions o.outputs (cvars o)).id x]? = some J)
    (honce : (info o.numInputs o.instructions o.outputs (cvars o)).once ((info o.numInputs o.instructions o.outputs (cvars o)).id x) = true)
    (hI : Det I) (hJ : Det J) (hIJ : kind I = kind J) (hkI : kind I' = kind I) (hkJ : kind J' = kind J)
    (hpI : I.inputs.Perm (x :: rest)) (hpI' : I'.inputs.Perm (J.inputs ++ rest)) (hJ0 : J'.inputs = [])
    (hval : ∀ a : Nat → F, a x = detVal a J → detVal a I = detVal a I') :
    (info o.numInputs o.instructions o.outputs (cvars o)).id x < i ∧
    Inv get o ((is.set ((info o.numInputs o.instructions o.outputs (cvars o)).id x) J').set i I') := by
  have hI' : Det I' := kind_det hkI.symm hI
  have hJ' : Det J' := kind_det hkJ.symm hJ
  have hcalls := h.calls hc
  have hxI : x ∈ I.inputs := hpI.mem_iff.2 (by simp)
  obtain ⟨A0, C0, hs0, hA0, _⟩ := split1 hi
  have hok0 := h.ok
  rw [hs0, insnsOk_append] at hok0
  have hxle := hok0.2.1 x hxI
  have hxlt : x < o.numInputs + 1 + (o.instructions.map Insn.numOutputs).sum := by
    have e : numVars (L := srcL q vd) o.numInputs is = o.numInputs + (is.map Insn.numOutputs).sum := numVars_eq_sum _ _
    have e2 : numVars (L := srcL q vd) o.numInputs A0 ≤ numVars (L := srcL q vd) o.numInputs is := by
      rw [hs0, numVars_append]; exact le_numVars _ _
    rw [h.outputs] at e; omega
  obtain ⟨hid, hcount⟩ := info_spec hxlt honce
  generalize hjd : (info o.numInputs o.instructions o.outputs (cvars o)).id x = j at *
  have hjlt : j < o.instructions.length := by rw [← h.length]; exact (List.getElem?_eq_some_iff.1 hj).1
  obtain ⟨K, hK, hp1, hp2⟩ := id_position hid hjlt
  have hkk : kind K = kind J := by
    have := congrArg (fun l => l[j]?) h.kinds
    simp only [List.getElem?_map, hj, hK, Option.map_some, Option.some.injEq] at this
    exact this.symm
  have hKo : K.numOutputs = 1 := by rw [← kind_outputs, hkk, kind_outputs, det_outputs hJ]
  have htake : ((o.instructions.take j).map Insn.numOutputs) = ((is.take j).map Insn.numOutputs) := by
    rw [List.map_take, List.map_take, h.outputs]
  have hxj : x = o.numInputs + 1 + ((o.instructions.take j).map Insn.numOutputs).sum := by omega
  rw [htake] at hp1 hp2
  have hxpos : x = numVars (L := srcL q vd) o.numInputs (is.take j) + 1 := by
    have e : numVars (L := srcL q vd) o.numInputs (is.take j) = o.numInputs + ((is.take j).map Insn.numOutputs).sum := numVars_eq_sum _ _
    omega
  have hji : j < i := by
    by_contra hge
    have : numVars (L := srcL q vd) o.numInputs A0 ≤ numVars (L := srcL q vd) o.numInputs (is.take j) := by
      have e : is.take j = A0 ++ (is.take j).drop A0.length := by
        have : A0 = (is.take j).take A0.length := by
          rw [List.take_take, Nat.min_eq_left (by omega), hs0, List.take_left]
        conv_lhs => rw [← List.take_append_drop A0.length (is.take j), ← this]
      rw [e, numVars_append]; exact le_numVars _ _
    have := hxle.1; omega
  refine ⟨hji, ?_⟩
  obtain ⟨A, B, C, hs, hA, hB, hset⟩ := split2 hj hi hji
  have hsoft : SoftIs o o.instructions → SoftIs o ((is.set j J').set i I') := by
    intro h0 k xs hkx
    have hperm : (occ is o.outputs (cvars o)).Perm (x :: occ ((is.set j J').set i I') o.outputs (cvars o)) := by
      rw [List.perm_iff_count]
      intro v
      rw [hset]
      conv_lhs => rw [hs]
      simp only [occ, List.flatMap_append, List.flatMap_cons, List.count_append, hpI.count_eq, hpI'.count_eq, hJ0, List.count_nil,
        List.count_cons]
      omega
    by_cases hki : k = i
    · subst hki
      left
      rw [List.getElem?_set_self (by simpa using (List.getElem?_eq_some_iff.1 hi).1)] at hkx
      obtain rfl := Option.some.inj hkx
      have hlen : xs.length = J.inputs.length + rest.length := by
        have := hpI'.length_eq
        rw [List.length_append] at this; exact this
      cases J with
      | mul ys =>
        rcases h.soft h0 j ys hj with h2 | h2
        · have : (Insn.mul ys : Insn F).inputs.length = ys.length := rfl
          omega
        · rw [← hxj] at h2
          exact absurd (hperm.mem_iff.2 (by simp)) h2
      | _ => rw [← hkI] at hIJ; simp [kind] at hIJ
    · rw [List.getElem?_set_ne (Ne.symm hki)] at hkx
      by_cases hkj : k = j
      · subst hkj
        right
        rw [← hxj]
        intro hm
        have h1 := hperm.count_eq x
        rw [List.count_cons_self] at h1
        have h2 := List.count_pos_iff.2 hm
        have h3 := h.cnt x
        omega
      · rw [List.getElem?_set_ne (Ne.symm hkj)] at hkx
        rcases h.soft h0 k xs hkx with h2 | h2
        · exact .inl h2
        · exact .inr fun hm => h2 (hperm.mem_iff.2 (List.mem_cons_of_mem _ hm))
  rw [hset] at hsoft ⊢
  have hAt : is.take j = A := by rw [hs, ← hA, List.take_left]
  rw [hAt] at hxpos
  have hok := h.ok
  rw [hs, insnsOk_append] at hok
  obtain ⟨hokA, hokJ, _, _, hokR⟩ := hok
  rw [insnsOk_append] at hokR
  obtain ⟨hokB, hokI, _, _, hokC⟩ := hokR
  have eJ : (srcL q vd).numOutputs J = 1 := det_outputs hJ
  have eJ' : (srcL q vd).numOutputs J' = 1 := det_outputs hJ'
  have eI : (srcL q vd).numOutputs I = 1 := det_outputs hI
  have eI' : (srcL q vd).numOutputs I' = 1 := det_outputs hI'
  rw [eJ, ← hxpos] at hokB hokI hokC
  rw [eI] at hokC
  -- counts of `x`
  have hcx : (occ is o.outputs (cvars o)).count x ≤ 1 := le_trans (h.cnt x) hcount
  rw [hs] at hcx
  simp only [occ, List.flatMap_append, List.flatMap_cons, List.count_append, hpI.count_eq, List.count_cons_self] at hcx
  have hzB : (B.flatMap Insn.inputs).count x = 0 := by omega
  have hzC : (C.flatMap Insn.inputs).count x = 0 := by omega
  have hzA : (A.flatMap Insn.inputs).count x = 0 := by omega
  have hzo : o.outputs.count x = 0 := by omega
  have hzk : (cvars o).count x = 0 := by omega
  have hzr : rest.count x = 0 := by omega
  have hzJ : J.inputs.count x = 0 := by omega
  have hnot : ∀ {l : List (Insn F)}, (l.flatMap Insn.inputs).count x = 0 → ∀ k ∈ l, x ∉ k.inputs :=
    fun hz k hk hm => List.count_eq_zero.1 hz (List.mem_flatMap.2 ⟨k, hk, hm⟩)
  have hcA : CallsOk get A := CallsOk.left (by rw [hs] at hcalls; exact hcalls)
  have hcB : CallsOk get B := by
    intro k hk; exact hcalls k (by rw [hs]; simp [hk])
  have hxI' : x ∉ I'.inputs := by
    intro hm
    rcases List.mem_append.1 (hpI'.mem_iff.1 hm) with hm | hm
    · exact List.count_eq_zero.1 hzJ hm
    · exact List.count_eq_zero.1 hzr hm
  have hJin : ∀ v ∈ J.inputs, v < x ∧ v ≠ 0 := by
    intro v hv; have := hokJ v hv; exact ⟨by omega, this.2⟩
  have hIin' : ∀ t ∈ I'.inputs, t ≤ numVars (L := srcL q vd) x B ∧ t ≠ 0 := by
    intro t ht
    rcases List.mem_append.1 (hpI'.mem_iff.1 ht) with hm | hm
    · have := hJin t hm
      exact ⟨by have := le_numVars (L := srcL q vd) x B; omega, this.2⟩
    · exact hokI t (hpI.mem_iff.2 (by simp [hm]))
  refine ⟨?_, ?_, ?_, ?_, ?_, ?_, hsoft⟩
  · rw [← h.kinds, hs]; simp [hkI, hkJ]
  · rw [insnsOk_append]
    refine ⟨hokA, ?_, rfl, Or.inl rfl, ?_⟩
    · intro t ht
      rw [show (srcL q vd).inputs J' = [] from hJ0] at ht; cases ht
    · rw [insnsOk_append, eJ', ← hxpos]
      refine ⟨hokB, hIin', rfl, Or.inl rfl, ?_⟩
      rw [eI']; exact hokC
  · intro k hk hd
    refine h.mem k ?_ hd
    rw [hs]
    simp only [List.mem_append, List.mem_cons] at hk ⊢
    rcases hk with hk | rfl | hk | rfl | hk
    · simp [hk]
    · exact absurd hJ' hd
    · simp [hk]
    · exact absurd hI' hd
    · simp [hk]
  · intro k hk hd
    have := h.mem' k hk hd
    rw [hs] at this
    simp only [List.mem_append, List.mem_cons] at this ⊢
    rcases this with hk | rfl | hk | rfl | hk
    · simp [hk]
    · exact absurd hJ hd
    · simp [hk]
    · exact absurd hI hd
    · simp [hk]
  · intro v
    refine le_trans ?_ (h.cnt v)
    rw [hs]
    simp only [occ, List.flatMap_append, List.flatMap_cons, List.count_append, hpI.count_eq, hpI'.count_eq, hJ0, List.count_nil,
      List.count_cons]
    omega
  · intro ins outs b hl
    rw [h.eval ins outs b hl, hs]
    exact absorb_eval hE hJ hJ' hI hI' hxpos hcA (fun v hv => (hJin v hv).1) (by rw [hJ0]; simp) hcB
      (fun v hv => by have := (hokI v hv).1; omega) (fun v hv => by have := (hIin' v hv).1; omega)
      (hnot hzB) (hnot hzC) hxI' (fun k hk he => List.count_eq_zero.1 hzk (List.mem_map.2 ⟨k, hk, he⟩)) (List.count_eq_zero.1 hzo) hval
      ins outs b hl

theorem mergeLists_perm {α : Type} : ∀ (ls : List (List α)) (t : List α), (mergeLists t ls).Perm (t ++ ls.flatten) := by
  intro ls
  induction ls with
  | nil => intro t; simp [mergeLists]
  | cons c ls ih =>
    intro t
    simp only [mergeLists, List.flatten_cons]
    refine (ih _).trans ?_
    rw [← List.append_assoc]
    refine List.Perm.append_right _ ?_
    split
    · exact List.perm_append_comm
    · exact .refl _

theorem lin_inputs (ts : List (Nat × F)) (c : F) : (Insn.linComb ⟨ts, c⟩).inputs = ts.map (·.1) := rfl

theorem detVal_lin (a : Nat → F) (ts : List (Nat × F)) (c : F) :
    detVal a (Insn.linComb ⟨ts, c⟩) = c + (ts.map (fun t => a t.1 * t.2)).sum := rfl

theorem sum_scale (a : Nat → F) (k : F) (ts : List (Nat × F)) :
    ((ts.map (fun y => (y.1, k * y.2))).map (fun t => a t.1 * t.2)).sum = k * (ts.map (fun t => a t.1 * t.2)).sum := by
  induction ts with
  | nil => simp
  | cons t ts ih => simp only [List.map_cons, List.sum_cons, ih]; ring

/-- Number of instructions and references. -/
def isz (is : List (Insn F)) : Nat := (is.map fun i => 1 + i.inputs.length).sum

theorem isz_set : ∀ (is : List (Insn F)) (j : Nat) (a b : Insn F), is[j]? = some b → isz (is.set j a) + b.inputs.length = isz is + a.inputs.length := by
  intro is
  induction is with
  | nil => intro j a b h; simp at h
  | cons x is ih =>
    intro j a b h
    cases j with
    | zero =>
      simp at h; subst h
      simp [isz]; omega
    | succ j =>
      have := ih j a b (by simpa using h)
      simp only [isz, List.set_cons_succ, List.map_cons, List.sum_cons] at this ⊢
      omega

theorem lin_len (ts : List (Nat × F)) (c : F) : (Insn.linComb ⟨ts, c⟩).inputs.length = ts.length := by simp [Insn.inputs, LinComb.vars]

theorem mul_len (xs : List Nat) : (Insn.mul xs : Insn F).inputs.length = xs.length := rfl

theorem absorbAdd_inv (hE : QOk q vd) {o : Circuit (srcL q vd)} (hc : CallsOk get o.instructions) (i : Nat) :
    ∀ (todo : List (Nat × F)) (is : List (Insn F)) (lcs : List (List (Nat × F))) (rem : List (Nat × F)) (c : F),
      i < is.length →
      Inv get o (is.set i (.linComb ⟨todo ++ (rem ++ lcs.flatten), c⟩)) →
      ∀ r, absorbAdd (info o.numInputs o.instructions o.outputs (cvars o)) todo (is, lcs, rem, c) = r →
        i < r.1.length ∧ Inv get o (r.1.set i (.linComb ⟨r.2.2.1 ++ r.2.1.flatten, r.2.2.2⟩)) ∧
        (isz (r.1.set i (.linComb ⟨r.2.2.1 ++ r.2.1.flatten, r.2.2.2⟩)) < isz (is.set i (.linComb ⟨todo ++ (rem ++ lcs.flatten), c⟩)) ∨
          r = (is, lcs, rem ++ todo, c)) := by
  intro todo
  induction todo with
  | nil =>
    intro is lcs rem c hi h r hr
    simp only [absorbAdd] at hr
    subst hr
    exact ⟨hi, by simpa using h, .inr (by simp)⟩
  | cons x xs ih =>
    intro is lcs rem c hi h r hr
    obtain ⟨v, k⟩ := x
    have hIi : (is.set i (Insn.linComb ⟨(v, k) :: xs ++ (rem ++ lcs.flatten), c⟩))[i]? =
        some (Insn.linComb ⟨(v, k) :: xs ++ (rem ++ lcs.flatten), c⟩) := by simp [hi]
    simp only [absorbAdd] at hr
    split at hr
    · rename_i hcond
      rw [Bool.and_eq_true] at hcond
      obtain ⟨ha, ho⟩ := hcond
      have hkind : ((is.set i (Insn.linComb ⟨(v, k) :: xs ++ (rem ++ lcs.flatten), c⟩)).map kind)[(info o.numInputs o.instructions o.outputs (cvars o)).id v]? = some (0, 1) := by
        rw [h.kinds]; exact isAdd_iff.1 ha
      obtain ⟨xl, hxl⟩ := exists_lin hkind
      have habs : ∀ (I' : Insn F), kind I' = (0, 1) → I'.inputs.Perm (xl.vars ++ (xs ++ (rem ++ lcs.flatten)).map (·.1)) →
          (∀ a : Nat → F, a v = detVal a (.linComb xl) →
            detVal a (Insn.linComb ⟨(v, k) :: xs ++ (rem ++ lcs.flatten), c⟩) = detVal a I') →
          (info o.numInputs o.instructions o.outputs (cvars o)).id v < i ∧
            Inv get o (((is.set i (Insn.linComb ⟨(v, k) :: xs ++ (rem ++ lcs.flatten), c⟩)).set
              ((info o.numInputs o.instructions o.outputs (cvars o)).id v) (.linComb ⟨[], xl.const⟩)).set i I') := by
        intro I' h1 h2 h3
        exact h.absorb hE hc hIi hxl ho trivial trivial rfl (by rw [h1]; rfl) rfl
          (rest := (xs ++ (rem ++ lcs.flatten)).map (fun t : Nat × F => t.1)) (.refl _) h2 rfl h3
      obtain ⟨hlt, hinv⟩ := habs (.linComb ⟨xs ++ (rem ++ (lcs ++ [if k = 1 then xl.terms else xl.terms.map (fun y => (y.1, k * y.2))]).flatten),
          if xl.const = 0 then c else c + xl.const * k⟩) rfl (by
          rw [lin_inputs]
          have e : (if k = 1 then xl.terms else xl.terms.map (fun y => (y.1, k * y.2))).map (·.1) = xl.vars := by
            split <;> simp [LinComb.vars, Function.comp_def]
          simp only [List.map_append, List.flatten_append, List.flatten_cons, List.flatten_nil, List.append_nil, e]
          rw [← List.append_assoc, ← List.append_assoc]
          refine List.perm_append_comm.trans ?_
          rw [List.append_assoc]) (by
          intro a hv
          rw [detVal_lin, detVal_lin]
          have e1 : ((if k = 1 then xl.terms else xl.terms.map (fun y => (y.1, k * y.2))).map (fun t => a t.1 * t.2)).sum =
              k * (xl.terms.map (fun t => a t.1 * t.2)).sum := by
            split
            · rename_i h1; rw [h1]; ring
            · exact sum_scale a k _
          have e2 : (if xl.const = 0 then c else c + xl.const * k) = c + xl.const * k := by
            split
            · rename_i h0; rw [h0]; ring
            · rfl
          have hv' : a v = xl.const + (xl.terms.map (fun t => a t.1 * t.2)).sum := hv
          simp only [List.cons_append, List.map_cons, List.map_append, List.sum_cons, List.sum_append, List.flatten_append,
            List.flatten_cons, List.flatten_nil, List.append_nil, e1, e2, hv']
          ring)
      have hne : (info o.numInputs o.instructions o.outputs (cvars o)).id v ≠ i := by omega
      rw [List.getElem?_set_ne (by omega)] at hxl
      rw [hxl] at hr
      simp only at hr
      rw [List.set_comm _ _ (by omega), List.set_set, List.set_comm _ _ (by omega)] at hinv
      obtain ⟨q1, q2, q3⟩ := ih _ _ _ _ (by simpa using hi) hinv r hr
      refine ⟨q1, q2, .inl ?_⟩
      have hs : isz ((is.set ((info o.numInputs o.instructions o.outputs (cvars o)).id v) (.linComb ⟨[], xl.const⟩)).set i
            (.linComb ⟨xs ++ (rem ++ (lcs ++ [if k = 1 then xl.terms else xl.terms.map (fun y => (y.1, k * y.2))]).flatten),
          if xl.const = 0 then c else c + xl.const * k⟩)) < isz (is.set i (.linComb ⟨(v, k) :: xs ++ (rem ++ lcs.flatten), c⟩)) := by
        obtain ⟨I0, hI0⟩ : ∃ I0, is[i]? = some I0 := ⟨_, List.getElem?_eq_getElem hi⟩
        have s1 := isz_set is i (.linComb ⟨(v, k) :: xs ++ (rem ++ lcs.flatten), c⟩) I0 hI0
        have s2 := isz_set is _ (.linComb ⟨[], xl.const⟩) _ hxl
        have s3 := isz_set (is.set ((info o.numInputs o.instructions o.outputs (cvars o)).id v) (.linComb ⟨[], xl.const⟩)) i
            (.linComb ⟨xs ++ (rem ++ (lcs ++ [if k = 1 then xl.terms else xl.terms.map (fun y => (y.1, k * y.2))]).flatten),
          if xl.const = 0 then c else c + xl.const * k⟩) I0 (by rw [List.getElem?_set_ne (by omega)]; exact hI0)
        have e : (if k = 1 then xl.terms else xl.terms.map (fun y => (y.1, k * y.2))).length = xl.terms.length := by split <;> simp
        have f : (lcs ++ [if k = 1 then xl.terms else xl.terms.map (fun y => (y.1, k * y.2))]).flatten.length = lcs.flatten.length + xl.terms.length := by
          rw [List.flatten_append, List.length_append, List.flatten_cons, List.flatten_nil, List.append_nil, e]
        have g : (Insn.linComb xl).inputs.length = xl.terms.length := lin_len xl.terms xl.const
        simp only [lin_len, List.length_append, List.length_cons, List.length_nil] at s1 s2 s3
        omega
      rcases q3 with q3 | q3
      · exact lt_trans q3 hs
      · rw [q3]
        dsimp only
        refine lt_of_eq_of_lt ?_ hs
        have s1 : ∀ (A B : Insn F), A.inputs.length = B.inputs.length → ∀ (l : List (Insn F)), i < l.length → isz (l.set i A) = isz (l.set i B) := by
          intro A B hAB l hl
          obtain ⟨I0, hI0⟩ : ∃ I0, l[i]? = some I0 := ⟨_, List.getElem?_eq_getElem hl⟩
          have a1 := isz_set l i A I0 hI0
          have a2 := isz_set l i B I0 hI0
          omega
        refine s1 _ _ ?_ _ (by simpa using hi)
        simp only [Insn.inputs, LinComb.vars, List.length_map, List.length_append]
        omega
    · suffices hsuf : _ by
        obtain ⟨q1, q2, q3⟩ := ih _ _ _ _ hi hsuf r hr
        refine ⟨q1, q2, ?_⟩
        rcases q3 with q3 | q3
        · refine .inl (lt_of_lt_of_eq q3 ?_)
          obtain ⟨I0, hI0⟩ : ∃ I0, is[i]? = some I0 := ⟨_, List.getElem?_eq_getElem hi⟩
          have a1 := isz_set is i (.linComb ⟨xs ++ (rem ++ [(v, k)] ++ lcs.flatten), c⟩) I0 hI0
          have a2 := isz_set is i (.linComb ⟨(v, k) :: xs ++ (rem ++ lcs.flatten), c⟩) I0 hI0
          simp only [Insn.inputs, LinComb.vars, List.length_map, List.length_append, List.length_cons, List.length_nil] at a1 a2
          omega
        · exact .inr (by rw [q3]; simp)
      have := h.perm hE hc hIi trivial (I' := .linComb ⟨xs ++ ((rem ++ [(v, k)]) ++ lcs.flatten), c⟩) rfl (by
        rw [lin_inputs, lin_inputs]
        refine List.Perm.map _ ?_
        rw [List.append_assoc, List.cons_append, List.nil_append, ← List.append_assoc, List.cons_append, ← List.append_assoc]
        exact List.perm_middle) (by
        intro a
        rw [detVal_lin, detVal_lin]
        simp only [List.cons_append, List.map_cons, List.map_append, List.sum_cons, List.sum_append, List.map_nil, List.sum_nil]
        ring)
      rw [List.set_set] at this
      exact this

theorem set_self {α : Type} {l : List α} {i : Nat} {a : α} (h : l[i]? = some a) : l.set i a = l := by
  obtain ⟨hlt, rfl⟩ := List.getElem?_eq_some_iff.1 h
  exact List.set_getElem_self hlt

theorem stepAdd_inv (hE : QOk q vd) {o : Circuit (srcL q vd)} (hc : CallsOk get o.instructions) (i : Nat) (is : List (Insn F))
    (h : Inv get o is) : Inv get o (stepAdd (info o.numInputs o.instructions o.outputs (cvars o)) is i) ∧
      (isz (stepAdd (info o.numInputs o.instructions o.outputs (cvars o)) is i) < isz is ∨
        stepAdd (info o.numInputs o.instructions o.outputs (cvars o)) is i = is) := by
  unfold stepAdd
  split
  swap
  · exact ⟨h, .inr rfl⟩
  split
  swap
  · exact ⟨h, .inr rfl⟩
  rename_i lc hlc
  split
  swap
  · exact ⟨h, .inr rfl⟩
  have hi : i < is.length := (List.getElem?_eq_some_iff.1 hlc).1
  obtain ⟨h1, h2, h3⟩ := absorbAdd_inv (get := get) hE hc i lc.terms is [] [] lc.const hi (by
    simp only [List.flatten_nil, List.append_nil]
    rw [set_self hlc]; exact h) _ rfl
  generalize absorbAdd (info o.numInputs o.instructions o.outputs (cvars o)) lc.terms (is, [], [], lc.const) = r at *
  have := h2.perm hE hc (i := i) (I := .linComb ⟨r.2.2.1 ++ r.2.1.flatten, r.2.2.2⟩) (by simp [h1]) trivial
    (I' := .linComb ⟨mergeLists r.2.2.1 r.2.1, r.2.2.2⟩) rfl
    ((mergeLists_perm _ _).map _) (by
      intro a
      rw [detVal_lin, detVal_lin, ((mergeLists_perm _ _).map _).sum_eq])
  rw [List.set_set] at this
  refine ⟨this, ?_⟩
  simp only [List.flatten_nil, List.append_nil, List.nil_append] at h3
  rw [set_self hlc] at h3
  rcases h3 with h3 | h3
  · left
    refine lt_of_eq_of_lt ?_ h3
    obtain ⟨I0, hI0⟩ : ∃ I0, r.1[i]? = some I0 := ⟨_, List.getElem?_eq_getElem h1⟩
    have a1 := isz_set r.1 i (.linComb ⟨mergeLists r.2.2.1 r.2.1, r.2.2.2⟩) I0 hI0
    have a2 := isz_set r.1 i (.linComb ⟨r.2.2.1 ++ r.2.1.flatten, r.2.2.2⟩) I0 hI0
    have := (mergeLists_perm r.2.1 r.2.2.1).length_eq
    rw [lin_len] at a1 a2
    dsimp only; omega
  · right
    rw [h3]
    exact set_self hlc

theorem absorbMul_inv (hE : QOk q vd) {o : Circuit (srcL q vd)} (hc : CallsOk get o.instructions) (i : Nat) :
    ∀ (todo : List Nat) (is : List (Insn F)) (vecs : List (List Nat)) (rem : List Nat),
      i < is.length →
      Inv get o (is.set i (.mul (todo ++ (rem ++ vecs.flatten)))) →
      ∀ r, absorbMul (info o.numInputs o.instructions o.outputs (cvars o)) todo (is, vecs, rem) = r →
        i < r.1.length ∧ Inv get o (r.1.set i (.mul (r.2.2 ++ r.2.1.flatten))) ∧
        (isz (r.1.set i (.mul (r.2.2 ++ r.2.1.flatten))) < isz (is.set i (.mul (todo ++ (rem ++ vecs.flatten)))) ∨ r = (is, vecs, rem ++ todo)) := by
  intro todo
  induction todo with
  | nil =>
    intro is vecs rem hi h r hr
    simp only [absorbMul] at hr
    subst hr
    exact ⟨hi, by simpa using h, .inr (by simp)⟩
  | cons v xs ih =>
    intro is vecs rem hi h r hr
    have hIi : (is.set i (Insn.mul (v :: xs ++ (rem ++ vecs.flatten))))[i]? =
        some (Insn.mul (v :: xs ++ (rem ++ vecs.flatten))) := by simp [hi]
    simp only [absorbMul] at hr
    split at hr
    · rename_i hcond
      rw [Bool.and_eq_true] at hcond
      obtain ⟨ha, ho⟩ := hcond
      have hkind : ((is.set i (Insn.mul (v :: xs ++ (rem ++ vecs.flatten)))).map kind)[(info o.numInputs o.instructions o.outputs (cvars o)).id v]? = some (1, 1) := by
        rw [h.kinds]; exact isMul_iff.1 ha
      obtain ⟨ys, hys⟩ := exists_mul hkind
      obtain ⟨hlt, hinv⟩ := h.absorb hE hc hIi hys ho trivial trivial rfl (I' := .mul (xs ++ (rem ++ (vecs ++ [ys]).flatten))) (J' := .mul [])
        rfl rfl (rest := xs ++ (rem ++ vecs.flatten)) (.refl _) (by
          show (xs ++ (rem ++ (vecs ++ [ys]).flatten)).Perm (ys ++ _)
          simp only [List.flatten_append, List.flatten_cons, List.flatten_nil, List.append_nil]
          rw [← List.append_assoc, ← List.append_assoc]
          refine List.perm_append_comm.trans ?_
          rw [List.append_assoc]) rfl (by
          intro a hv
          have hv' : a v = (ys.map a).prod := hv
          simp only [detVal, List.cons_append, List.map_cons, List.map_append, List.prod_cons, List.prod_append, List.flatten_append,
            List.flatten_cons, List.flatten_nil, List.append_nil, hv']
          ring)
      rw [List.getElem?_set_ne (by omega)] at hys
      rw [hys] at hr
      simp only at hr
      rw [List.set_comm _ _ (by omega), List.set_set, List.set_comm _ _ (by omega)] at hinv
      obtain ⟨q1, q2, q3⟩ := ih _ _ _ (by simpa using hi) hinv r hr
      refine ⟨q1, q2, .inl ?_⟩
      have hs : isz ((is.set ((info o.numInputs o.instructions o.outputs (cvars o)).id v) (.mul [])).set i (.mul (xs ++ (rem ++ (vecs ++ [ys]).flatten)))) <
          isz (is.set i (.mul (v :: xs ++ (rem ++ vecs.flatten)))) := by
        obtain ⟨I0, hI0⟩ : ∃ I0, is[i]? = some I0 := ⟨_, List.getElem?_eq_getElem hi⟩
        have s1 := isz_set is i (.mul (v :: xs ++ (rem ++ vecs.flatten))) I0 hI0
        have s2 := isz_set is _ (.mul []) _ hys
        have s3 := isz_set (is.set ((info o.numInputs o.instructions o.outputs (cvars o)).id v) (.mul [])) i
            (.mul (xs ++ (rem ++ (vecs ++ [ys]).flatten))) I0 (by rw [List.getElem?_set_ne (by omega)]; exact hI0)
        have f : (vecs ++ [ys]).flatten.length = vecs.flatten.length + ys.length := by
          rw [List.flatten_append, List.length_append, List.flatten_cons, List.flatten_nil, List.append_nil]
        simp only [mul_len, List.length_append, List.length_cons, List.length_nil] at s1 s2 s3
        omega
      rcases q3 with q3 | q3
      · exact lt_trans q3 hs
      · rw [q3]
        dsimp only
        refine lt_of_eq_of_lt ?_ hs
        obtain ⟨I0, hI0⟩ : ∃ I0, (is.set ((info o.numInputs o.instructions o.outputs (cvars o)).id v) (.mul []))[i]? = some I0 :=
          ⟨_, List.getElem?_eq_getElem (by simpa using hi)⟩
        have a1 := isz_set _ i (.mul (rem ++ xs ++ (vecs ++ [ys]).flatten)) I0 hI0
        have a2 := isz_set _ i (.mul (xs ++ (rem ++ (vecs ++ [ys]).flatten))) I0 hI0
        simp only [Insn.inputs, List.length_append] at a1 a2
        omega
    · suffices hsuf : _ by
        obtain ⟨q1, q2, q3⟩ := ih _ _ _ hi hsuf r hr
        refine ⟨q1, q2, ?_⟩
        rcases q3 with q3 | q3
        · refine .inl (lt_of_lt_of_eq q3 ?_)
          obtain ⟨I0, hI0⟩ : ∃ I0, is[i]? = some I0 := ⟨_, List.getElem?_eq_getElem hi⟩
          have a1 := isz_set is i (.mul (xs ++ (rem ++ [v] ++ vecs.flatten))) I0 hI0
          have a2 := isz_set is i (.mul (v :: xs ++ (rem ++ vecs.flatten))) I0 hI0
          simp only [Insn.inputs, List.length_append, List.length_cons, List.length_nil] at a1 a2
          omega
        · exact .inr (by rw [q3]; simp)
      have := h.perm hE hc hIi trivial (I' := .mul (xs ++ ((rem ++ [v]) ++ vecs.flatten))) rfl (by
        show (xs ++ ((rem ++ [v]) ++ vecs.flatten)).Perm (v :: xs ++ (rem ++ vecs.flatten))
        rw [List.append_assoc, List.cons_append, List.nil_append, ← List.append_assoc, List.cons_append, ← List.append_assoc]
        exact List.perm_middle) (by
        intro a
        simp only [detVal, List.cons_append, List.map_cons, List.map_append, List.prod_cons, List.prod_append, List.map_nil, List.prod_nil]
        ring)
      rw [List.set_set] at this
      exact this

theorem stepMul_inv (hE : QOk q vd) {o : Circuit (srcL q vd)} (hc : CallsOk get o.instructions) (i : Nat) (is : List (Insn F))
    (h : Inv get o is) : Inv get o (stepMul (info o.numInputs o.instructions o.outputs (cvars o)) is i) ∧
      (isz (stepMul (info o.numInputs o.instructions o.outputs (cvars o)) is i) < isz is ∨
        stepMul (info o.numInputs o.instructions o.outputs (cvars o)) is i = is) := by
  unfold stepMul
  split
  swap
  · exact ⟨h, .inr rfl⟩
  split
  swap
  · exact ⟨h, .inr rfl⟩
  rename_i vars hlc
  split
  swap
  · exact ⟨h, .inr rfl⟩
  have hi : i < is.length := (List.getElem?_eq_some_iff.1 hlc).1
  obtain ⟨h1, h2, h3⟩ := absorbMul_inv (get := get) hE hc i vars is [] [] hi (by
    simp only [List.flatten_nil, List.append_nil]
    rw [set_self hlc]; exact h) _ rfl
  generalize absorbMul (info o.numInputs o.instructions o.outputs (cvars o)) vars (is, [], []) = r at *
  have := h2.perm hE hc (i := i) (I := .mul (r.2.2 ++ r.2.1.flatten)) (by simp [h1]) trivial
    (I' := .mul (mergeLists r.2.2 r.2.1)) rfl
    (mergeLists_perm _ _) (by
      intro a
      simp only [detVal]
      exact ((mergeLists_perm _ _).map _).prod_eq)
  rw [List.set_set] at this
  refine ⟨this, ?_⟩
  simp only [List.flatten_nil, List.append_nil, List.nil_append] at h3
  rw [set_self hlc] at h3
  rcases h3 with h3 | h3
  · left
    refine lt_of_eq_of_lt ?_ h3
    obtain ⟨I0, hI0⟩ : ∃ I0, r.1[i]? = some I0 := ⟨_, List.getElem?_eq_getElem h1⟩
    have a1 := isz_set r.1 i (.mul (mergeLists r.2.2 r.2.1)) I0 hI0
    have a2 := isz_set r.1 i (.mul (r.2.2 ++ r.2.1.flatten)) I0 hI0
    have := (mergeLists_perm r.2.1 r.2.2).length_eq
    rw [mul_len] at a1 a2
    dsimp only; omega
  · right
    rw [h3]
    exact set_self hlc

theorem detectCircuit_size (hE : QOk q vd) {o : Circuit (srcL q vd)} (hc : CallsOk get o.instructions)
    (hok : InsnsOk (srcL q vd) none o.numInputs o.instructions) :
    isz (detectCircuit o).instructions < isz o.instructions ∨ (detectCircuit o).instructions = o.instructions := by
  have hf : ∀ (step : List (Insn F) → Nat → List (Insn F)), (∀ i is, Inv get o is → Inv get o (step is i) ∧ (isz (step is i) < isz is ∨ step is i = is)) →
      ∀ (l : List Nat) is, Inv get o is → Inv get o (l.foldl step is) ∧ (isz (l.foldl step is) < isz is ∨ l.foldl step is = is) := by
    intro step hs l
    induction l with
    | nil => intro is h; exact ⟨h, .inr rfl⟩
    | cons a l ih =>
      intro is h
      obtain ⟨h1, h2⟩ := hs a is h
      obtain ⟨h3, h4⟩ := ih _ h1
      refine ⟨h3, ?_⟩
      rw [List.foldl_cons]
      rcases h2 with h2 | h2
      · rcases h4 with h4 | h4
        · exact .inl (lt_trans h4 h2)
        · exact .inl (by rw [h4]; exact h2)
      · rw [h2] at h4 ⊢
        exact h4
  have h0 : Inv get o o.instructions := ⟨rfl, hok, fun _ h _ => h, fun _ h _ => h, fun _ => le_refl _, fun _ _ _ _ => Iff.rfl, id⟩
  obtain ⟨h1, h2⟩ := hf _ (fun i is h => stepAdd_inv hE hc i is h) (List.range o.instructions.length) _ h0
  obtain ⟨_, h4⟩ := hf _ (fun i is h => stepMul_inv hE hc i is h) (List.range o.instructions.length) _ h1
  have hd : (detectCircuit o).instructions = (List.range o.instructions.length).foldl (stepMul (info o.numInputs o.instructions o.outputs (cvars o)))
    ((List.range o.instructions.length).foldl (stepAdd (info o.numInputs o.instructions o.outputs (cvars o))) o.instructions) := rfl
  rw [hd]
  rcases h2 with h2 | h2
  · rcases h4 with h4 | h4
    · exact .inl (lt_trans h4 h2)
    · exact .inl (by rw [h4]; exact h2)
  · rw [h2] at h4 ⊢
    exact h4

theorem detectCircuit_inv (hE : QOk q vd) {o : Circuit (srcL q vd)} (hc : CallsOk get o.instructions)
    (hok : InsnsOk (srcL q vd) none o.numInputs o.instructions) : Inv get o (detectCircuit o).instructions := by
  have hf : ∀ (step : List (Insn F) → Nat → List (Insn F)), (∀ i is, Inv get o is → Inv get o (step is i)) →
      ∀ (l : List Nat) is, Inv get o is → Inv get o (l.foldl step is) := by
    intro step hs l
    induction l with
    | nil => intro is h; exact h
    | cons a l ih => intro is h; exact ih _ (hs a is h)
  refine hf _ (fun i is h => (stepMul_inv hE hc i is h).1) _ _ (hf _ (fun i is h => (stepAdd_inv hE hc i is h).1) _ _ ?_)
  exact ⟨rfl, hok, fun _ h _ => h, fun _ h _ => h, fun _ => le_refl _, fun _ _ _ _ => Iff.rfl, id⟩

theorem insnsOk_none {L : Lang F} {npi : Option Nat} : ∀ (is : List L.Insn) (cur : Nat), InsnsOk L npi cur is → InsnsOk L none cur is := by
  intro is
  induction is with
  | nil => intro _ _; trivial
  | cons i is ih => intro cur h; exact ⟨h.1, rfl, h.2.2.1, ih _ h.2.2.2⟩

/-- `detect_chains` keeps the circuit evaluable and does not change any result. -/
theorem detectChains_correct (hE : QOk q vd) (rc : RootCircuit (srcL q vd)) {npi : Option Nat} (hw : WFAt npi rc) :
    (detectChains rc).vertices = rc.vertices ∧ WFAt none (detectChains rc) ∧
    (∀ c, ((detectChains rc).get c).map (fun k => (k.numInputs, k.outputs)) = (rc.get c).map (fun k => (k.numInputs, k.outputs))) ∧
    (∀ (ins outs : List F) (b : Bool), Eval rc ins outs b ↔ Eval (detectChains rc) ins outs b) := by
  have hget : ∀ c, (detectChains rc).get c = (rc.get c).map detectCircuit := by
    intro c
    unfold RootCircuit.get detectChains
    simp only
    generalize rc.circuits = l
    induction l with
    | nil => rfl
    | cons p l ih =>
      obtain ⟨a, k⟩ := p
      simp only [List.map_cons, List.lookup_cons, ih]
      cases (c == a) <;> rfl
  have hinv : ∀ c circ, rc.get c = some circ → Inv rc.get circ (detectCircuit circ).instructions := fun c circ hg =>
    detectCircuit_inv hE (hw.wf.calls c circ hg) (insnsOk_none _ _ (hw.wf.circ c circ hg).insns)
  have hnd : ∀ {i : Insn F} {t}, (srcL q vd).asCall i = some t → ¬ Det i := by
    intro i t h hd; rw [det_not_call hd] at h; cases h
  have hcalls : ∀ c d, Calls (detectChains rc).get c d ↔ Calls rc.get c d := by
    intro c d
    constructor
    · rintro ⟨circ', hg', i, hi, a, n, hcall⟩
      rw [hget] at hg'
      cases hg : rc.get c with
      | none => simp [hg] at hg'
      | some circ =>
        simp [hg] at hg'; subst hg'
        exact ⟨circ, hg, i, (hinv c circ hg).mem i hi (hnd hcall), a, n, hcall⟩
    · rintro ⟨circ, hg, i, hi, a, n, hcall⟩
      exact ⟨detectCircuit circ, by rw [hget, hg]; rfl, i, (hinv c circ hg).mem' i hi (hnd hcall), a, n, hcall⟩
  have hnum : ∀ c circ, rc.get c = some circ → numVars (L := srcL q vd) circ.numInputs (detectCircuit circ).instructions =
      numVars (L := srcL q vd) circ.numInputs circ.instructions := by
    intro c circ hg
    have e1 : numVars (L := srcL q vd) circ.numInputs (detectCircuit circ).instructions = circ.numInputs + _ := numVars_eq_sum _ _
    have e2 : numVars (L := srcL q vd) circ.numInputs circ.instructions = circ.numInputs + _ := numVars_eq_sum _ _
    rw [e1, e2, (hinv c circ hg).outputs]
  have hcallsOk : ∀ c circ, rc.get c = some circ → ∀ i ∈ (detectCircuit circ).instructions, ∀ d a n, (srcL q vd).asCall i = some (d, a, n) →
      Calls rc.get c d ∧ ∃ sub, rc.get d = some sub ∧ a.length = sub.numInputs ∧ n = sub.outputs.length := by
    intro c circ hg i hi d a n hcall
    have hm := (hinv c circ hg).mem i hi (hnd hcall)
    exact ⟨⟨circ, hg, i, hm, a, n, hcall⟩, hw.wf.calls c circ hg i hm d a n hcall⟩
  have hfam := family_congr hw.wf (fun _ => detectCircuit) hget hcallsOk
    (fun c circ hg ins outs b hl => (hinv c circ hg).eval ins outs b hl)
  obtain ⟨root, hroot, hle, hne⟩ := hw.root
  refine ⟨?_, ⟨⟨?_, ?_, ?_⟩, ?_⟩, ?_, ?_⟩
  · simp [RootCircuit.vertices, detectChains, Function.comp_def]
  · intro c circ' hg'
    rw [hget] at hg'
    cases hg : rc.get c with
    | none => simp [hg] at hg'
    | some circ =>
      simp [hg] at hg'; subst hg'
      have hco := hw.wf.circ c circ hg
      have hn := hnum c circ hg
      exact ⟨(hinv c circ hg).ok, fun k hk => by show k.var ≤ numVars (L := srcL q vd) circ.numInputs (detectCircuit circ).instructions ∧ _; rw [hn]; exact hco.cons k hk, Or.inl rfl,
        fun k hk => by show k ≤ numVars (L := srcL q vd) circ.numInputs (detectCircuit circ).instructions ∧ _; rw [hn]; exact hco.outs k hk, Or.inl rfl⟩
  · intro c circ' hg' i hi d a n hcall
    rw [hget] at hg'
    cases hg : rc.get c with
    | none => simp [hg] at hg'
    | some circ =>
      simp [hg] at hg'; subst hg'
      obtain ⟨_, sub, hs, h1, h2⟩ := hcallsOk c circ hg i hi d a n hcall
      exact ⟨detectCircuit sub, by rw [hget, hs]; rfl, h1, h2⟩
  · obtain ⟨r, hr⟩ := hw.wf.dag
    exact ⟨r, fun c d h => hr c d ((hcalls c d).1 h)⟩
  · refine ⟨detectCircuit root, by rw [hget, hroot]; rfl, hle, ?_⟩
    intro he
    obtain ⟨d, circ, hreach, hg, hcn⟩ := hne he
    exact ⟨d, detectCircuit circ, Relation.ReflTransGen.mono (fun a b h => (hcalls a b).2 h) _ _ hreach, by rw [hget, hg]; rfl, hcn⟩
  · intro c
    rw [hget]
    cases rc.get c <;> rfl
  · intro ins outs b
    have hr' : (detectChains rc).get 0 = some (detectCircuit root) := by rw [hget, hroot]; rfl
    constructor
    · rintro ⟨r0, all, b0, hg, hl, hs, hz, rfl, rfl⟩
      rw [hroot] at hg; cases hg
      exact ⟨_, all, b0, hr', hl, (hfam 0 root hroot ins all b0 hl).1 hs, hz, rfl, rfl⟩
    · rintro ⟨r0, all, b0, hg, hl, hs, hz, rfl, rfl⟩
      rw [hr'] at hg; cases hg
      exact ⟨_, all, b0, hroot, hl, (hfam 0 root hroot ins all b0 hl).2 hs, hz, rfl, rfl⟩

end Verif.IR.Chains
