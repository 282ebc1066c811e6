import Verif.IR.HintExportRoot

/-!
# The exported hint circuit is valid

`export_hints` (hint_normalized/mod.rs:346-418) returns a well-formed circuit whenever the root circuit has a variable (it puts a constraint on variable 1).
-/

set_option linter.unusedSectionVars false
set_option linter.unusedSimpArgs false

namespace Verif.IR.HintExport

variable {F : Type} [Field F] [DecidableEq F] {E : Env F} {npi : Option Nat} {hs : Nat → Nat × Nat} {get : Nat → Option (Circuit (hintNorm E))}

/-- `new_id` maps the variables `1..cur` into `1..mx`. -/
structure VmR (vm : List Nat) (cur mx : Nat) : Prop where
  len : vm.length = cur + 1
  rng : ∀ v, v ≤ cur → v ≠ 0 → vmGet vm v ≤ mx ∧ vmGet vm v ≠ 0

theorem VmR.push {vm : List Nat} {cur mx : Nat} (h : VmR vm cur mx) (n k : Nat) (hk : n ≤ k) : VmR (vm ++ List.range' (mx + 1) n) (cur + n) (mx + k) := by
  refine ⟨by rw [List.length_append, List.length_range', h.len]; omega, fun v h1 h2 => ?_⟩
  by_cases hv : v ≤ cur
  · rw [vmGet_append_left (by rw [h.len]; omega)]
    have := h.rng v hv h2
    exact ⟨by omega, this.2⟩
  · have e : vmGet (vm ++ List.range' (mx + 1) n) v = mx + 1 + (v - (cur + 1)) := by
      unfold vmGet
      rw [List.getElem?_append_right (by rw [h.len]; omega), h.len, List.getElem?_range' (by omega)]
      simp
    rw [e]; omega

theorem VmR.init (n : Nat) : VmR (List.range (n + 1)) n n := by
  refine ⟨by simp, fun v h1 h2 => ?_⟩
  have e : vmGet (List.range (n + 1)) v = v := by
    unfold vmGet
    rw [List.getElem?_range (by omega)]; rfl
  rw [e]; omega

theorem vmGet_app_map {vm t : List Nat} {cur mx : Nat} (h : VmR vm cur mx) {xs : List Nat} (hx : ∀ x ∈ xs, x ≤ cur ∧ x ≠ 0) :
    ∀ y ∈ xs.map (vmGet (vm ++ t)), y ≤ mx ∧ y ≠ 0 := by
  intro y hy
  obtain ⟨x, hm, rfl⟩ := List.mem_map.1 hy
  rw [vmGet_append_left (by rw [h.len]; have := hx x hm; omega)]
  exact h.rng x (hx x hm).1 (hx x hm).2

theorem exportInsns_ok : ∀ (is : List (HintNorm.Insn F)) (vm : List Nat) (cur mx : Nat), InsnsOk (hintNorm E) npi cur is → VmR vm cur mx →
    InsnsOk (hintNorm E) npi mx (exportInsns hs is vm mx).1 ∧
    VmR (exportInsns hs is vm mx).2.1 (numVars (L := hintNorm E) cur is) (numVars (L := hintNorm E) mx (exportInsns hs is vm mx).1) ∧
    (∀ v ∈ (exportInsns hs is vm mx).2.2.1 ++ (exportInsns hs is vm mx).2.2.2, v ≤ numVars (L := hintNorm E) mx (exportInsns hs is vm mx).1 ∧ v ≠ 0) ∧
    (exportInsns hs is vm mx).2.2.1.length = (sizes hs is).2 ∧ (exportInsns hs is vm mx).2.2.2.length = (sizes hs is).1 := by
  intro is
  induction is with
  | nil =>
    intro vm cur mx _ hv
    exact ⟨trivial, hv, by simp [exportInsns], rfl, rfl⟩
  | cons i is ih =>
    intro vm cur mx h hv
    obtain ⟨hin, hval, -, hrest⟩ := h
    cases hvw : view i with
    | hint hh xs n =>
      obtain rfl := view_hint hvw
      simp only [exportInsns, sizes, hvw]
      have hrest' : InsnsOk (hintNorm E) npi (cur + n) is := hrest
      obtain ⟨a, b, c, d, e⟩ := ih _ _ _ hrest' (hv.push n n (le_refl _))
      generalize exportInsns hs is (vm ++ List.range' (mx + 1) n) (mx + n) = r at *
      have hlen : (HintNorm.Insn.hint hh (xs.map (vmGet (vm ++ List.range' (mx + 1) n))) n : HintNorm.Insn F).numOutputs = n := rfl
      have hnv : ∀ l : List (HintNorm.Insn F), numVars (L := hintNorm E) mx (.hint hh (xs.map (vmGet (vm ++ List.range' (mx + 1) n))) n :: l) = numVars (L := hintNorm E) (mx + n) l := fun l => rfl
      have hnc : numVars (L := hintNorm E) cur (.hint hh xs n :: is) = numVars (L := hintNorm E) (cur + n) is := rfl
      rw [hnv, hnc]
      refine ⟨⟨vmGet_app_map hv hin, ?_, .inl rfl, a⟩, b, ?_, ?_, e⟩
      · cases npi with
        | none => rfl
        | some m =>
          have : HintNorm.Insn.valid m (.hint hh xs n : HintNorm.Insn F) = true := hval
          show HintNorm.Insn.valid m (.hint hh (xs.map _) n : HintNorm.Insn F) = true
          simpa [HintNorm.Insn.valid] using this
      · intro v hm
        have hle := le_numVars (L := hintNorm E) (mx + n) r.1
        simp only [List.mem_append, List.mem_range'] at hm
        rcases hm with (⟨j, hj, rfl⟩ | hm) | hm
        · omega
        · exact c v (by simp [hm])
        · exact c v (by simp [hm])
      · rw [List.length_append, List.length_range', d]; omega
    | call cc xs n =>
      obtain rfl := view_call hvw
      simp only [exportInsns, sizes, hvw]
      have hrest' : InsnsOk (hintNorm E) npi (cur + n) is := hrest
      have hpush : VmR (vm ++ List.range' (mx + 1) n) (cur + n) (mx + n + (hs cc).1) := by
        have := hv.push n (n + (hs cc).1) (by omega)
        rw [← Nat.add_assoc] at this; exact this
      obtain ⟨a, b, c, d, e⟩ := ih _ _ _ hrest' hpush
      generalize exportInsns hs is (vm ++ List.range' (mx + 1) n) (mx + n + (hs cc).1) = r at *
      have hnv : ∀ l : List (HintNorm.Insn F), numVars (L := hintNorm E) mx (.call cc (xs.map (vmGet (vm ++ List.range' (mx + 1) n))) (n + (hs cc).1) :: l) =
          numVars (L := hintNorm E) (mx + n + (hs cc).1) l := fun l => by
        show numVars (L := hintNorm E) (mx + (n + (hs cc).1)) l = _
        rw [← Nat.add_assoc]
      have hnc : numVars (L := hintNorm E) cur (.call cc xs n :: is) = numVars (L := hintNorm E) (cur + n) is := rfl
      rw [hnv, hnc]
      refine ⟨⟨vmGet_app_map hv hin, ?_, .inl rfl, ?_⟩, b, ?_, d, ?_⟩
      · cases npi <;> rfl
      · show InsnsOk (hintNorm E) npi (mx + (n + (hs cc).1)) r.1
        rw [← Nat.add_assoc]; exact a
      · intro v hm
        have hle := le_numVars (L := hintNorm E) (mx + n + (hs cc).1) r.1
        simp only [List.mem_append, List.mem_range'] at hm
        rcases hm with hm | ⟨j, hj, rfl⟩ | hm
        · exact c v (by simp [hm])
        · omega
        · exact c v (by simp [hm])
      · rw [List.length_append, List.length_range', e]; omega
    | other j =>
      obtain ⟨h1, -, h3, -⟩ := view_other hvw
      simp only [exportInsns, sizes, hvw]
      have hn : (hintNorm E).numOutputs i = 1 := h3
      have hrest' : InsnsOk (hintNorm E) npi (cur + 1) is := by rw [← hn]; exact hrest
      have hr1 : List.range' (mx + 1) 1 = [mx + 1] := rfl
      have hpush := hv.push 1 1 (le_refl _)
      rw [hr1] at hpush
      obtain ⟨a, b, c, d, e⟩ := ih _ _ _ hrest' hpush
      generalize exportInsns hs is (vm ++ [mx + 1]) (mx + 1) = r at *
      have hL : ∀ f, (hintNorm E).numOutputs (HintNorm.Insn.replaceVars i f) = 1 := fun f => by
        rw [show (hintNorm E).numOutputs (HintNorm.Insn.replaceVars i f) = (HintNorm.Insn.replaceVars i f).numOutputs from rfl]
        cases i <;> simp_all [HintNorm.Insn.replaceVars, HintNorm.Insn.numOutputs, HintNorm.Insn.asCall]
      have hnv : ∀ l : List (HintNorm.Insn F), numVars (L := hintNorm E) mx (HintNorm.Insn.replaceVars i (vmGet (vm ++ [mx + 1])) :: l) = numVars (L := hintNorm E) (mx + 1) l := fun l => by
        have := numVars_cons (L := hintNorm E) mx (HintNorm.Insn.replaceVars i (vmGet (vm ++ [mx + 1]))) l
        rw [hL] at this; exact this
      have hnc : numVars (L := hintNorm E) cur (i :: is) = numVars (L := hintNorm E) (cur + 1) is := by
        have := numVars_cons (L := hintNorm E) cur i is
        rw [hn] at this; exact this
      rw [hnv, hnc]
      have hi : (hintNorm E).inputs (HintNorm.Insn.replaceVars i (vmGet (vm ++ [mx + 1]))) = (i.inputs).map (vmGet (vm ++ [mx + 1])) := by
        cases i <;> simp [HintNorm.Insn.replaceVars, HintNorm.Insn.inputs, LinComb.replaceVars, LinComb.vars, Function.comp_def]
      refine ⟨⟨?_, ?_, .inl rfl, ?_⟩, b, c, d, e⟩
      · rw [hi]
        exact vmGet_app_map hv hin
      · cases npi with
        | none => rfl
        | some m =>
          have hval' : HintNorm.Insn.valid m i = true := hval
          show HintNorm.Insn.valid m (HintNorm.Insn.replaceVars i _) = true
          cases i <;> simp_all [HintNorm.Insn.valid, HintNorm.Insn.replaceVars]
      · rw [hL]; exact a

/-- The calls in an exported circuit. -/
theorem mem_exportInsns_call {d : Nat} {a : List Nat} {n : Nat} : ∀ (is : List (HintNorm.Insn F)) (vm : List Nat) (mx : Nat),
    (HintNorm.Insn.call d a n : HintNorm.Insn F) ∈ (exportInsns hs is vm mx).1 → ∃ xs m, (HintNorm.Insn.call d xs m : HintNorm.Insn F) ∈ is ∧ a.length = xs.length ∧ n = m + (hs d).1 := by
  intro is
  induction is with
  | nil => intro vm mx h; cases h
  | cons i is ih =>
    intro vm mx h
    cases hvw : view i with
    | hint hh xs k =>
      simp only [exportInsns, hvw, List.mem_cons, reduceCtorEq, false_or] at h
      obtain ⟨xs, m, h1, h2⟩ := ih _ _ h
      exact ⟨xs, m, by simp [h1], h2⟩
    | call cc xs k =>
      obtain rfl := view_call hvw
      simp only [exportInsns, hvw, List.mem_cons] at h
      rcases h with h | h
      · cases h
        exact ⟨xs, k, by simp, by simp, rfl⟩
      · obtain ⟨xs, m, h1, h2⟩ := ih _ _ h
        exact ⟨xs, m, by simp [h1], h2⟩
    | other j =>
      simp only [exportInsns, hvw, List.mem_cons] at h
      rcases h with h | h
      · exfalso
        have := (view_other hvw).1
        cases i <;> simp_all [HintNorm.Insn.replaceVars, HintNorm.Insn.asCall]
      · obtain ⟨xs, m, h1, h2⟩ := ih _ _ h
        exact ⟨xs, m, by simp [h1], h2⟩

theorem asCall_eq {i : HintNorm.Insn F} {d : Nat} {a : List Nat} {n : Nat} (h : (hintNorm E).asCall i = some (d, a, n)) : i = .call d a n := by
  have h' : i.asCall = some (d, a, n) := h
  cases i <;> simp [HintNorm.Insn.asCall] at h'
  obtain ⟨rfl, rfl, rfl⟩ := h'
  rfl

/-- `export_hints` returns a well-formed circuit if the root circuit has a variable. -/
theorem exported_wf {rc : RootCircuit (hintNorm E)} (hsz : SizesOk hs rc.get) (hw : WFAt npi rc) (h0 : ∀ root, rc.get 0 = some root → numVars root.numInputs root.instructions ≠ 0)
    (hcall : ∀ c, ¬ Calls rc.get c 0) :
    WFAt npi (⟨rc.numPublicInputs, 0, rc.circuits.map (fun p => (p.1, exportHints E hs (p.1 == 0) p.2))⟩ : RootCircuit (hintNorm E)) := by
  have hget : ∀ c, (⟨rc.numPublicInputs, 0, rc.circuits.map (fun p => (p.1, exportHints E hs (p.1 == 0) p.2))⟩ : RootCircuit (hintNorm E)).get c =
      (rc.get c).map (fun x => exportHints E hs (c == 0) x) := fun c => lookup_map_key (fun c x => exportHints E hs (c == 0) x) rc.circuits c
  have hback : ∀ c circ', (⟨rc.numPublicInputs, 0, rc.circuits.map (fun p => (p.1, exportHints E hs (p.1 == 0) p.2))⟩ : RootCircuit (hintNorm E)).get c = some circ' →
      ∃ circ, rc.get c = some circ ∧ circ' = exportHints E hs (c == 0) circ := by
    intro c circ' h
    rw [hget] at h
    obtain ⟨circ, h1, h2⟩ := Option.map_eq_some_iff.1 h
    exact ⟨circ, h1, h2.symm⟩
  have hez : (⟨rc.numPublicInputs, 0, rc.circuits.map (fun p => (p.1, exportHints E hs (p.1 == 0) p.2))⟩ : RootCircuit (hintNorm E)).expectedNumOutputZeroes = 0 := rfl
  generalize (⟨rc.numPublicInputs, 0, rc.circuits.map (fun p => (p.1, exportHints E hs (p.1 == 0) p.2))⟩ : RootCircuit (hintNorm E)) = ex at *
  have hcalls : ∀ c circ, rc.get c = some circ → ∀ r i d a n, i ∈ (exportHints E hs r circ).instructions → (hintNorm E).asCall i = some (d, a, n) →
      ∃ xs m, (HintNorm.Insn.call d xs m : HintNorm.Insn F) ∈ (circ.instructions : List (HintNorm.Insn F)) ∧ a.length = xs.length ∧ n = m + (hs d).1 := by
    intro c circ _ r i d a n hi hc
    rw [asCall_eq hc] at hi
    exact mem_exportInsns_call _ _ _ hi
  obtain ⟨root, hroot, -, -⟩ := hw.root
  have hcirc : ∀ c circ, rc.get c = some circ → (c = 0 → numVars circ.numInputs circ.instructions ≠ 0) → CircOk npi (exportHints E hs (c == 0) circ) := by
    intro c circ hg hz
    have hc := hw.wf.circ c circ hg
    obtain ⟨h1, h2, h3, -, -⟩ := exportInsns_ok (hs := hs) circ.instructions (List.range (circ.numInputs + 1)) circ.numInputs circ.numInputs hc.insns (VmR.init _)
    have hnum : 0 < numVars (L := hintNorm E) circ.numInputs circ.instructions → 0 < numVars (L := hintNorm E) circ.numInputs
        (exportInsns hs circ.instructions (List.range (circ.numInputs + 1)) circ.numInputs).1 := by
      intro hp
      have := h2.rng _ (le_refl _) (by omega)
      omega
    refine ⟨h1, ?_, .inl rfl, ?_, .inl rfl⟩
    · intro k hk
      by_cases hc0 : c = 0
      · simp only [exportHints, hc0, beq_self_eq_true, if_true, List.mem_singleton] at hk
        subst hk
        have := hnum (Nat.pos_of_ne_zero (hz hc0))
        exact ⟨this, Nat.one_ne_zero⟩
      · have : (c == 0) = false := by simpa using hc0
        simp only [exportHints, this] at hk
        cases hk
    · intro v hv
      have hv' : v ∈ (if (c == 0) = true then List.range' 1 circ.numInputs else circ.outputs.map (vmGet (exportInsns hs circ.instructions (List.range (circ.numInputs + 1)) circ.numInputs).2.1)) ++
          (exportInsns hs circ.instructions (List.range (circ.numInputs + 1)) circ.numInputs).2.2.1 ++ (exportInsns hs circ.instructions (List.range (circ.numInputs + 1)) circ.numInputs).2.2.2 := hv
      rw [List.append_assoc] at hv'
      rcases List.mem_append.1 hv' with hv' | hv'
      · show v ≤ numVars (L := hintNorm E) circ.numInputs (exportInsns hs circ.instructions (List.range (circ.numInputs + 1)) circ.numInputs).1 ∧ v ≠ 0
        split at hv'
        · obtain ⟨j, hj, rfl⟩ := List.mem_range'.1 hv'
          have := le_numVars (L := hintNorm E) circ.numInputs (exportInsns hs circ.instructions (List.range (circ.numInputs + 1)) circ.numInputs).1
          omega
        · obtain ⟨x, hx, rfl⟩ := List.mem_map.1 hv'
          have := hc.outs x hx
          exact h2.rng x this.1 this.2
      · exact h3 v hv'
  refine ⟨⟨?_, ?_, ?_⟩, ?_⟩
  · intro c circ' hg'
    obtain ⟨circ, hg, rfl⟩ := hback c circ' hg'
    exact hcirc c circ hg (fun hc => by subst hc; exact h0 circ hg)
  · intro c circ' hg' i hi d a n hcl
    obtain ⟨circ, hg, rfl⟩ := hback c circ' hg'
    obtain ⟨xs, m, h1, h2, h3⟩ := hcalls c circ hg _ i d a n hi hcl
    obtain ⟨sub, s1, s2, s3⟩ := hw.wf.calls c circ hg _ h1 d xs m rfl
    refine ⟨exportHints E hs (d == 0) sub, by rw [hget, s1]; rfl, by rw [h2, s2]; rfl, ?_⟩
    have hd0 : d ≠ 0 := fun hd => hcall c ⟨circ, hg, _, h1, xs, m, by rw [hd]; rfl⟩
    have hd1 : (d == 0) = false := by simpa using hd0
    obtain ⟨-, -, -, l1, l2⟩ := exportInsns_ok (npi := npi) (E := E) (hs := hs) sub.instructions (List.range (sub.numInputs + 1)) sub.numInputs sub.numInputs (hw.wf.circ d sub s1).insns (VmR.init _)
    have hsd : (hs d).1 = (sizes hs sub.instructions).1 + (sizes hs sub.instructions).2 := by rw [hsz d sub s1]; rfl
    simp only [exportHints, hd1, Bool.false_eq_true, if_false, List.length_append, List.length_map]
    rw [l1, l2, h3, s3, hsd]; omega
  · obtain ⟨r, hr⟩ := hw.wf.dag
    refine ⟨r, fun c d h => ?_⟩
    obtain ⟨circ', hg', i, hi, a, n, hc⟩ := h
    obtain ⟨circ, hg, rfl⟩ := hback c circ' hg'
    obtain ⟨xs, m, h1, -⟩ := hcalls c circ hg _ i d a n hi hc
    exact hr c d ⟨circ, hg, _, h1, xs, m, rfl⟩
  · refine ⟨exportHints E hs true root, by rw [hget, hroot]; rfl, by rw [hez]; exact Nat.zero_le _, fun _ => ?_⟩
    exact ⟨0, _, .refl, by rw [hget, hroot]; rfl, by simp [exportHints]⟩

end Verif.IR.HintExport
