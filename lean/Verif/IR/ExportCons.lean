import Verif.IR.HintExportRoot
import Verif.IR.AddBack

/-!
# `export_constraints` (circuit/ir/dest/mod.rs:245-340)

Every constraint becomes an output that must be zero.
-/

set_option linter.unusedSectionVars false
set_option linter.unusedSimpArgs false

namespace Verif.IR

open Verif.IR.HintExport Verif.Utils

variable {F : Type} [Field F] [DecidableEq F]

namespace ExportCons

variable {L : Lang F}

/-- The instruction loop (dest/mod.rs:263-290): instructions, `new_id`, `add_outputs_sub`.  `add` is `sub_num_add_outputs`. -/
def exportInsns (add : Nat → Nat) : List L.Insn → List Nat → Nat → List L.Insn × List Nat × List Nat
  | [], vm, _ => ([], vm, [])
  | i :: is, vm, mx =>
    let vm' := vm ++ List.range' (mx + 1) (L.numOutputs i)
    match L.asCall i with
    | none =>
      let r := exportInsns add is vm' (mx + L.numOutputs i)
      (L.replaceVars i (vmGet vm') :: r.1, r.2)
    | some (c, a, n) =>
      let r := exportInsns add is vm' (mx + L.numOutputs i + add c)
      (L.mkCall c (a.map (vmGet vm')) (n + add c) :: r.1, r.2.1,
        List.range' (mx + L.numOutputs i + 1) (add c) ++ r.2.2)

/-- `Circuit::export_constraints` (dest/mod.rs:245-313): the new circuit and the number of outputs added. -/
def exportCircuit (add : Nat → Nat) (isRoot : Bool) (circ : Circuit L) : Circuit L × Nat :=
  let n := circ.numInputs
  let r := exportInsns add circ.instructions (List.range (n + 1)) n
  let outs := circ.outputs.map (vmGet r.2.1)
  let adds := circ.constraints.map (fun k => vmGet r.2.1 k.var) ++ r.2.2
  (⟨r.1, [], if isRoot then adds ++ outs else outs ++ adds, n⟩, adds.length)

/-- `sub_num_add_outputs[&id]`. -/
def addGet (t : Nat → Option (Circuit L × Nat)) (c : Nat) : Nat := ((t c).map (·.2)).getD 0

/-- `RootCircuit::export_constraints` (dest/mod.rs:316-340). -/
def exportConstraints (rc : RootCircuit L) : Option (RootCircuit L) :=
  match topoOrder rc.vertices rc.edges with
  | none => none
  | some order =>
    let tab := bottomUp rc.get (fun t c circ => exportCircuit (addGet t) (c == 0) circ) order
    some ⟨rc.numPublicInputs, rc.expectedNumOutputZeroes + addGet (fun d => tab.lookup d) 0, tab.map (fun p => (p.1, p.2.1))⟩

/-! ### Proof -/

variable {get get' : Nat → Option (Circuit L)} {add : Nat → Nat} {npi : Option Nat}

/-- All values are zero. -/
def allZero (zs : List F) : Bool := zs.all (fun x => decide (x = 0))

theorem allZero_append (a b : List F) : allZero (a ++ b) = (allZero a && allZero b) := by
  simp [allZero]

theorem checkCons_zero (hver : ∀ k x, L.verify k x = decide (x = 0)) {vs : List F} : ∀ {cs : List (Constraint L)} {zs : List F},
    readAll vs (cs.map (·.var)) = some zs → checkCons vs cs = some (allZero zs) := by
  intro cs
  induction cs with
  | nil => intro zs h; simp [readAll] at h; subst h; rfl
  | cons k cs ih =>
    intro zs h
    simp only [List.map_cons, readAll] at h
    split at h
    · rename_i x xs h1 h2
      cases h
      simp only [checkCons, h1, ih h2, hver]; rfl
    · cases h

/-- The exported family. -/
def exportedGet (add : Nat → Nat) (get : Nat → Option (Circuit L)) (c : Nat) : Option (Circuit L) :=
  (get c).map (fun circ => (exportCircuit add (c == 0) circ).1)

/-- The numbers of added outputs solve the recursive equation. -/
def AddsOk (add : Nat → Nat) (get : Nat → Option (Circuit L)) : Prop :=
  ∀ c circ, get c = some circ → add c = (exportCircuit add (c == 0) circ).2

/-- Relation between a circuit and its export: own outputs and constraint values, in the order used by `exportCircuit`. -/
def arrange (c : Nat) (outs zs : List F) : List F := if c = 0 then zs ++ outs else outs ++ zs

/-- What is proved for each circuit. -/
def Spec (add : Nat → Nat) (get : Nat → Option (Circuit L)) (c : Nat) (circ : Circuit L) : Prop :=
  ∀ ins : List F, ins.length = circ.numInputs →
    (∀ outs b, EvalSub get circ ins outs b → ∃ zs, zs.length = add c ∧
      EvalSub (exportedGet add get) (exportCircuit add (c == 0) circ).1 ins (arrange c outs zs) true ∧ b = allZero zs) ∧
    (∀ all b', EvalSub (exportedGet add get) (exportCircuit add (c == 0) circ).1 ins all b' → b' = true ∧
      ∃ outs zs, zs.length = add c ∧ all = arrange c outs zs ∧ EvalSub get circ ins outs (allZero zs))

theorem vmGet_stable {vm t : List Nat} {is : List Nat} (h : ∀ v ∈ is, v < vm.length) : is.map (vmGet (vm ++ t)) = is.map (vmGet vm) :=
  List.map_congr_left (fun v hv => vmGet_append_left (h v hv))

theorem export_fwd (hL : L.Lawful) (is : List L.Insn) : ∀ (vm : List Nat) (vs ws : List F) (cur mx : Nat), vs.length = cur + 1 → ws.length = mx + 1 →
    InsnsOk L npi cur is → CallsOk get is → Rel vm vs ws →
    (∀ i ∈ is, ∀ d a n, L.asCall i = some (d, a, n) → d ≠ 0 ∧ ∀ sub, get d = some sub → Spec add get d sub) →
    (∀ t b, Run get is vs (vs ++ t) b → ∃ xs zs, Run (exportedGet add get) (exportInsns add is vm mx).1 ws (ws ++ xs) true ∧
      Rel (exportInsns add is vm mx).2.1 (vs ++ t) (ws ++ xs) ∧ readAll (ws ++ xs) (exportInsns add is vm mx).2.2 = some zs ∧ b = allZero zs) ∧
    (∀ xs b', Run (exportedGet add get) (exportInsns add is vm mx).1 ws (ws ++ xs) b' → b' = true ∧ ∃ t zs, Run get is vs (vs ++ t) (allZero zs) ∧
      Rel (exportInsns add is vm mx).2.1 (vs ++ t) (ws ++ xs) ∧ readAll (ws ++ xs) (exportInsns add is vm mx).2.2 = some zs) := by
  induction is with
  | nil =>
    intro vm vs ws cur mx _ _ _ _ hr _
    have hnil : ∀ (x t : List F), x ++ t = x ↔ t = [] := by intro x t; simp
    simp only [exportInsns, run_nil_iff, hnil]
    refine ⟨?_, ?_⟩
    · rintro t b ⟨rfl, rfl⟩
      exact ⟨[], [], by simp, by simpa using hr, rfl, rfl⟩
    · rintro xs b' ⟨rfl, rfl⟩
      exact ⟨rfl, [], [], by simp [allZero], by simpa using hr, rfl⟩
  | cons i is ih =>
    intro vm vs ws cur mx hvs hws hok hco hr hspec
    obtain ⟨hin, hok'⟩ := insns_lt hok hvs
    have hco' : CallsOk get is := fun j hj => hco j (by simp [hj])
    have hspec' := fun j hj => hspec j (List.mem_cons_of_mem i hj)
    have hvmlen : vm.length = vs.length := hr.len
    have hst : ∀ xs : List Nat, (∀ v ∈ xs, v ∈ L.inputs i) → xs.map (vmGet (vm ++ List.range' (mx + 1) (L.numOutputs i))) = xs.map (vmGet vm) :=
      fun xs hx => vmGet_stable (fun v hv => by rw [hvmlen]; exact hin v (hx v hv))
    cases hc : L.asCall i with
    | none =>
      have hc2 : L.asCall (L.replaceVars i (vmGet (vm ++ List.range' (mx + 1) (L.numOutputs i)))) = none := by rw [hL.asCall_replace, hc]; rfl
      have hp : ∀ outs, L.prim (L.replaceVars i (vmGet (vm ++ List.range' (mx + 1) (L.numOutputs i)))) (fun v => ws[v]?) outs ↔ L.prim i (fun v => vs[v]?) outs := by
        intro outs
        rw [hL.prim_replace _ _ _ _ hc]
        have hv : ∀ v ∈ L.inputs i, ws[vmGet (vm ++ List.range' (mx + 1) (L.numOutputs i)) v]? = vs[v]? := by
          intro v hv
          rw [vmGet_append_left (by rw [hvmlen]; exact hin v hv)]
          exact hr.val v (hin v hv)
        exact ⟨hL.prim_local _ _ _ _ hc hv, hL.prim_local _ _ _ _ hc (fun v h => (hv v h).symm)⟩
      have ih' := fun (outs : List F) (ho : outs.length = L.numOutputs i) =>
        ih (vm ++ List.range' (mx + 1) (L.numOutputs i)) (vs ++ outs) (ws ++ outs) (cur + L.numOutputs i) (mx + L.numOutputs i)
          (by simp [hvs, ho]; omega) (by simp [hws, ho]; omega) hok' hco' (by have := Rel.step (outs := outs) hr hws; rwa [ho] at this) hspec'
      simp only [exportInsns, hc]
      refine ⟨?_, ?_⟩
      · intro t b h
        obtain ⟨outs, h1, h2⟩ := (run_prim_iff hc).1 h
        obtain ⟨t', ht⟩ := h2.prefix
        rw [ht] at h2
        have e : t = outs ++ t' := by rw [List.append_assoc] at ht; exact List.append_cancel_left ht
        subst e
        obtain ⟨xs, zs, k1, k2, k3, k4⟩ := (ih' outs (hL.prim_length _ _ _ hc h1)).1 t' b h2
        rw [List.append_assoc] at k1 k2 k3
        rw [List.append_assoc] at k2
        exact ⟨outs ++ xs, zs, (run_prim_iff hc2).2 ⟨outs, (hp outs).2 h1, k1⟩, k2, k3, k4⟩
      · intro xs b' h
        obtain ⟨outs, h1, h2⟩ := (run_prim_iff hc2).1 h
        obtain ⟨t', ht⟩ := h2.prefix
        rw [ht] at h2
        have e : xs = outs ++ t' := by rw [List.append_assoc] at ht; exact List.append_cancel_left ht
        subst e
        have h1' := (hp outs).1 h1
        obtain ⟨k0, t, zs, k1, k2, k3⟩ := (ih' outs (hL.prim_length _ _ _ hc h1')).2 t' b' h2
        rw [List.append_assoc] at k1 k2 k3
        rw [List.append_assoc] at k2
        exact ⟨k0, outs ++ t, zs, (run_prim_iff hc).2 ⟨outs, h1', k1⟩, k2, k3⟩
    | some tr =>
      obtain ⟨c, a, n⟩ := tr
      obtain ⟨hc0, hsp⟩ := hspec i (by simp) c a n hc
      obtain ⟨sub, hg, hal, hn⟩ := hco i (by simp) c a n hc
      have hsp := hsp sub hg
      have hno : L.numOutputs i = n := hL.call_numOutputs _ _ _ _ hc
      have hin_a : ∀ v ∈ a, v ∈ L.inputs i := fun v hv => by rw [hL.call_inputs _ _ _ _ hc]; exact hv
      have hg' : exportedGet add get c = some (exportCircuit add (c == 0) sub).1 := by simp [exportedGet, hg]
      have harr : ∀ x z : List F, arrange c x z = x ++ z := fun x z => by simp [arrange, hc0]
      have ha : readAll ws (a.map (vmGet (vm ++ List.range' (mx + 1) (L.numOutputs i)))) = readAll vs a := by
        rw [hst a hin_a]; exact hr.reads (fun v hv => hin v (hin_a v hv))
      have hc2 : L.asCall (L.mkCall c (a.map (vmGet (vm ++ List.range' (mx + 1) (L.numOutputs i)))) (n + add c)) = some (c, _, n + add c) := hL.asCall_mkCall _ _ _
      have ih' := fun (outs zz : List F) (ho : outs.length = L.numOutputs i) (hz : zz.length = add c) =>
        ih (vm ++ List.range' (mx + 1) (L.numOutputs i)) (vs ++ outs) (ws ++ (outs ++ zz)) (cur + L.numOutputs i) (mx + L.numOutputs i + add c)
          (by simp [hvs, ho]; omega) (by simp [hws, ho, hz]; omega) hok' hco' (by
            have := Rel.step (outs := outs) hr hws
            rw [ho] at this
            rw [← List.append_assoc]
            exact this.extend) hspec'
      have hz : ∀ (outs zz xs : List F), outs.length = L.numOutputs i → zz.length = add c →
          readAll (ws ++ (outs ++ zz) ++ xs) (List.range' (mx + L.numOutputs i + 1) (add c)) = some zz := by
        intro outs zz xs ho hzl
        have : At (ws ++ outs ++ zz) (mx + L.numOutputs i) zz := at_end _ _ (by simp [hws, ho]; omega)
        have := this.extend (t := xs)
        have := this.read
        rw [hzl] at this
        simpa only [List.append_assoc] using this
      simp only [exportInsns, hc]
      refine ⟨?_, ?_⟩
      · intro t b h
        obtain ⟨circ, args, res, sb, b', h1, h2, h3, h4, rfl⟩ := (run_call_iff hc).1 h
        rw [hg] at h1; cases h1
        obtain ⟨t', ht⟩ := h4.prefix
        rw [ht] at h4
        have e : t = res ++ t' := by rw [List.append_assoc] at ht; exact List.append_cancel_left ht
        subst e
        have hal' : args.length = sub.numInputs := by rw [readAll_length h2]; exact hal
        obtain ⟨zz, z1, z2, rfl⟩ := (hsp args hal').1 res sb h3
        have hres : res.length = L.numOutputs i := by rw [h3.length, hno, hn]
        obtain ⟨xs, zs, k1, k2, k3, k4⟩ := (ih' res zz hres z1).1 t' b' h4
        refine ⟨res ++ zz ++ xs, zz ++ zs, (run_call_iff hc2).2 ⟨_, args, res ++ zz, true, true, hg', by rw [ha]; exact h2, by rw [← harr]; exact z2, ?_, rfl⟩, ?_, ?_, ?_⟩
        · simpa only [List.append_assoc] using k1
        · simpa only [List.append_assoc] using k2
        · rw [readAll_app]
          have e := hz res zz xs hres z1
          simp only [List.append_assoc] at e k3 ⊢
          rw [e, k3]
        · rw [k4, allZero_append]
      · intro xs b' h
        obtain ⟨circ, args, res, sb, b2, h1, h2, h3, h4, rfl⟩ := (run_call_iff hc2).1 h
        rw [hg'] at h1; cases h1
        rw [ha] at h2
        have hal' : args.length = sub.numInputs := by rw [readAll_length h2]; exact hal
        obtain ⟨rfl, outs, zz, z1, z2, z3⟩ := (hsp args hal').2 res sb h3
        rw [harr] at z2
        subst z2
        obtain ⟨t', ht⟩ := h4.prefix
        rw [ht] at h4
        have e : xs = outs ++ zz ++ t' := by rw [List.append_assoc] at ht; exact List.append_cancel_left ht
        subst e
        have hres : outs.length = L.numOutputs i := by rw [z3.length, hno, hn]
        obtain ⟨k0, t, zs, k1, k2, k3⟩ := (ih' outs zz hres z1).2 t' b2 h4
        refine ⟨by rw [k0]; rfl, outs ++ t, zz ++ zs, (run_call_iff hc).2 ⟨sub, args, outs, allZero zz, allZero zs, hg, h2, z3, ?_, allZero_append _ _⟩, ?_, ?_⟩
        · simpa only [List.append_assoc] using k1
        · simpa only [List.append_assoc] using k2
        · rw [readAll_app]
          have e := hz outs zz t' hres z1
          simp only [List.append_assoc] at e k3 ⊢
          rw [e, k3]

theorem exportCircuit_outputs (add : Nat → Nat) (c : Nat) (circ : Circuit L) (ws : List F) {outs own zs : List F}
    (h1 : readAll ws (circ.outputs.map (vmGet (exportInsns add circ.instructions (List.range (circ.numInputs + 1)) circ.numInputs).2.1)) = some outs)
    (h2 : readAll ws (circ.constraints.map (fun k => vmGet (exportInsns add circ.instructions (List.range (circ.numInputs + 1)) circ.numInputs).2.1 k.var)) = some own)
    (h3 : readAll ws (exportInsns add circ.instructions (List.range (circ.numInputs + 1)) circ.numInputs).2.2 = some zs) :
    readAll ws (exportCircuit add (c == 0) circ).1.outputs = some (arrange c outs (own ++ zs)) := by
  simp only [exportCircuit, arrange]
  by_cases hc : c = 0
  · subst hc
    simp only [beq_self_eq_true, if_true]
    rw [readAll_app, readAll_app, h1, h2, h3]
  · have : (c == 0) = false := by simpa using hc
    simp only [this, Bool.false_eq_true, if_false, hc]
    rw [readAll_app, readAll_app, h1, h2, h3]

theorem export_spec (hL : L.Lawful) (hver : ∀ k x, L.verify k x = decide (x = 0)) (hw : WFGet npi get) (hadd : AddsOk add get) :
    ∀ c circ, get c = some circ → Relation.ReflTransGen (Calls get) 0 c → Spec add get c circ := by
  apply call_induction (P := fun c circ => Relation.ReflTransGen (Calls get) 0 c → Spec add get c circ) hw.dag
  intro c circ hg ih hreach ins hlen
  have hci := hw.circ c circ hg
  obtain ⟨hf, hb⟩ := export_fwd (add := add) (get := get) (npi := npi) hL circ.instructions (List.range (circ.numInputs + 1)) (0 :: ins) (0 :: ins)
    circ.numInputs circ.numInputs (by simp [hlen]) (by simp [hlen]) hci.insns (hw.calls c circ hg)
    (by have := Rel.init ins []; rw [hlen] at this; simpa using this) (by
      intro i hi d a n hcall
      have hcd : Calls get c d := ⟨circ, hg, i, hi, a, n, hcall⟩
      refine ⟨?_, fun sub hs => ih d sub hcd hs (hreach.tail hcd)⟩
      rintro rfl
      obtain ⟨r, hr⟩ := hw.dag
      have key : ∀ x, Relation.ReflTransGen (Calls get) 0 x → r x ≤ r 0 := by
        intro x hx
        induction hx with
        | refl => exact Nat.le_refl _
        | tail _ h ih => have := hr _ _ h; omega
      have := key c hreach
      have := hr c 0 hcd
      omega)
  have hlenz : ∀ (own zs : List F) (ws : List F), own.length = circ.constraints.length →
      readAll ws (exportInsns add circ.instructions (List.range (circ.numInputs + 1)) circ.numInputs).2.2 = some zs →
      (own ++ zs).length = add c := by
    intro own zs ws h1 h2
    rw [hadd c circ hg]
    simp only [exportCircuit, List.length_append, List.length_map, h1, readAll_length h2]
  have hvlen : ∀ t b, Run get circ.instructions (0 :: ins) ((0 :: ins) ++ t) b → ((0 :: ins) ++ t).length = numVars circ.numInputs circ.instructions + 1 := by
    intro t b h
    rw [h.length hL (hw.calls c circ hg) (circ.numInputs + 1) (by simp [hlen]), numVars_add]
  have hown : ∀ t, ((0 :: ins) ++ t).length = numVars circ.numInputs circ.instructions + 1 →
      ∃ own, readAll ((0 :: ins) ++ t) (circ.constraints.map (·.var)) = some own ∧ own.length = circ.constraints.length := by
    intro t hl
    obtain ⟨own, h⟩ := readAll_isSome (vs := (0 :: ins) ++ t) (is := circ.constraints.map (·.var)) (fun v hv => by
      obtain ⟨k, hk, rfl⟩ := List.mem_map.1 hv
      have := hci.cons k hk; omega)
    exact ⟨own, h, by rw [readAll_length h]; simp⟩
  have hmapown : ∀ (t xs : List F) own, ((0 :: ins) ++ t).length = numVars circ.numInputs circ.instructions + 1 →
      Rel (exportInsns add circ.instructions (List.range (circ.numInputs + 1)) circ.numInputs).2.1 ((0 :: ins) ++ t) ((0 :: ins) ++ xs) →
      readAll ((0 :: ins) ++ t) (circ.constraints.map (·.var)) = some own →
      readAll ((0 :: ins) ++ xs) (circ.constraints.map (fun k => vmGet (exportInsns add circ.instructions (List.range (circ.numInputs + 1)) circ.numInputs).2.1 k.var)) = some own := by
    intro t xs own hl hrel h
    rw [← h, show (fun k : Constraint L => vmGet (exportInsns add circ.instructions (List.range (circ.numInputs + 1)) circ.numInputs).2.1 k.var) =
      vmGet (exportInsns add circ.instructions (List.range (circ.numInputs + 1)) circ.numInputs).2.1 ∘ (fun k => k.var) from rfl, ← List.map_map]
    refine hrel.reads (fun v hv => ?_)
    obtain ⟨k, hk, rfl⟩ := List.mem_map.1 hv
    have := hci.cons k hk; omega
  refine ⟨?_, ?_⟩
  · intro outs b h
    obtain ⟨t, sb, cb, h1, h2, h3, rfl⟩ := AddBack.evalSub_iff_tail.1 h
    obtain ⟨xs, zs, k1, k2, k3, rfl⟩ := hf t sb h1
    have hl := hvlen t _ h1
    obtain ⟨own, o1, o2⟩ := hown t hl
    have hcb := checkCons_zero hver o1
    rw [h2] at hcb; cases hcb
    refine ⟨own ++ zs, hlenz own zs _ o2 k3, AddBack.evalSub_iff_tail.2 ⟨xs, true, true, k1, rfl, ?_, rfl⟩, ?_⟩
    · refine exportCircuit_outputs add c circ _ ?_ (hmapown t xs own hl k2 o1) k3
      rw [← h3]
      exact k2.reads (fun v hv => by have := hci.outs v hv; omega)
    · rw [allZero_append, Bool.and_comm]
  · intro all b' h
    obtain ⟨xs, sb, cb, h1, h2, h3, rfl⟩ := AddBack.evalSub_iff_tail.1 h
    obtain ⟨rfl, t, zs, k1, k2, k3⟩ := hb xs sb h1
    have hcb : cb = true := by
      have : checkCons ((0 :: ins) ++ xs) ([] : List (Constraint L)) = some cb := h2
      simp [checkCons] at this; exact this
    subst hcb
    have hl := hvlen t _ k1
    obtain ⟨own, o1, o2⟩ := hown t hl
    obtain ⟨outs, ho⟩ := readAll_isSome (vs := (0 :: ins) ++ t) (is := circ.outputs) (fun v hv => by have := hci.outs v hv; omega)
    have h4 := exportCircuit_outputs add c circ ((0 :: ins) ++ xs) (outs := outs) (by
      rw [← ho]; exact k2.reads (fun v hv => by have := hci.outs v hv; omega)) (hmapown t xs own hl k2 o1) k3
    rw [h3] at h4; cases h4
    refine ⟨rfl, outs, own ++ zs, hlenz own zs _ o2 k3, rfl, AddBack.evalSub_iff_tail.2 ⟨t, allZero zs, allZero own, k1, checkCons_zero hver o1, ho, ?_⟩⟩
    rw [allZero_append, Bool.and_comm]

/-! ### Well-formedness of the result -/

theorem export_ok (hL : L.Lawful) (hd : L.allowDupInputs = true) : ∀ (is : List L.Insn) (cur : Nat) vm mx, InsnsOk L npi cur is → VmOk vm cur mx →
    InsnsOk L npi mx (exportInsns add is vm mx).1 ∧
    VmOk (exportInsns add is vm mx).2.1 (numVars cur is) (numVars mx (exportInsns add is vm mx).1) ∧
    ∀ o ∈ (exportInsns add is vm mx).2.2, o ≠ 0 ∧ o ≤ numVars mx (exportInsns add is vm mx).1 := by
  intro is
  induction is with
  | nil => intro cur vm mx _ hv; exact ⟨trivial, hv, fun o ho => by simp [exportInsns] at ho⟩
  | cons i is ih =>
    intro cur vm mx hok hvm
    obtain ⟨hin, hval, _, hok'⟩ := hok
    have hargs : ∀ xs : List Nat, (∀ t ∈ xs, t ≤ cur ∧ t ≠ 0) → ∀ t ∈ xs.map (vmGet (vm ++ List.range' (mx + 1) (L.numOutputs i))), t ≤ mx ∧ t ≠ 0 := by
      intro xs hx t ht
      obtain ⟨v, hv, rfl⟩ := List.mem_map.1 ht
      rw [vmGet_append_left (by rw [hvm.1]; have := (hx v hv).1; omega)]
      have := hvm.2 v (hx v hv).2 (hx v hv).1
      exact ⟨this.2, this.1⟩
    cases hc : L.asCall i with
    | none =>
      simp only [exportInsns, hc, numVars_cons, hL.numOutputs_replace]
      obtain ⟨h1, h2, h3⟩ := ih (cur + L.numOutputs i) _ (mx + L.numOutputs i) hok' (hvm.push (p := mx) (by omega) (Nat.le_refl _))
      refine ⟨⟨?_, ?_, Or.inl hd, by rw [hL.numOutputs_replace]; exact h1⟩, h2, h3⟩
      · rw [hL.inputs_replace]; exact hargs _ hin
      · rw [hL.validAt_replace]; exact hval
    | some tr =>
      obtain ⟨c, a, n⟩ := tr
      have hno := hL.call_numOutputs _ _ _ _ hc
      have e1 := hL.asCall_mkCall c (a.map (vmGet (vm ++ List.range' (mx + 1) (L.numOutputs i)))) (n + add c)
      have e2 := hL.call_numOutputs _ _ _ _ e1
      simp only [exportInsns, hc, numVars_cons, e2]
      obtain ⟨h1, h2, h3⟩ := ih (cur + L.numOutputs i) _ (mx + L.numOutputs i + add c) hok' (hvm.push (p := mx) (by omega) (by omega))
      rw [show mx + (n + add c) = mx + L.numOutputs i + add c by omega]
      refine ⟨⟨?_, hL.validAt_call _ _ _ _, Or.inl hd, ?_⟩, h2, ?_⟩
      · rw [hL.call_inputs _ _ _ _ e1]
        exact hargs a (by rw [← hL.call_inputs _ _ _ _ hc]; exact hin)
      · rw [e2, show mx + (n + add c) = mx + L.numOutputs i + add c by omega]; exact h1
      · intro o ho
        rcases List.mem_append.1 ho with ho | ho
        · have hle : ∀ (js : List L.Insn) (m : Nat), m ≤ numVars m js := fun js m => by
            induction js generalizing m with
            | nil => exact Nat.le_refl _
            | cons j js ih => rw [numVars_cons]; have := ih (m + L.numOutputs j); omega
          have := hle (exportInsns add is (vm ++ List.range' (mx + 1) (L.numOutputs i)) (mx + L.numOutputs i + add c)).1 (mx + L.numOutputs i + add c)
          simp at ho; omega
        · exact h3 o ho

theorem exportInsns_calls (hL : L.Lawful) : ∀ (is : List L.Insn) vm mx, ∀ d m,
    (∃ j ∈ (exportInsns add is vm mx).1, ∃ a, L.asCall j = some (d, a, m) ∧ a.length = k) ↔
    (∃ i ∈ is, ∃ a n, L.asCall i = some (d, a, n) ∧ m = n + add d ∧ a.length = k) := by
  intro is
  induction is with
  | nil => intro vm mx d m; simp [exportInsns]
  | cons i is ih =>
    intro vm mx d m
    cases hc : L.asCall i with
    | none =>
      have hc2 : ∀ f, L.asCall (L.replaceVars i f) = none := fun f => by rw [hL.asCall_replace, hc]; rfl
      simp only [exportInsns, hc, List.mem_cons, exists_eq_or_imp, hc2, ih]
      simp
    | some tr =>
      obtain ⟨c, a, n⟩ := tr
      simp only [exportInsns, hc, List.mem_cons, exists_eq_or_imp, ih, hL.asCall_mkCall]
      refine or_congr ?_ Iff.rfl
      constructor
      · rintro ⟨a', h, rfl⟩
        simp only [Option.some.injEq, Prod.mk.injEq] at h
        obtain ⟨rfl, rfl, rfl⟩ := h
        exact ⟨a, n, rfl, rfl, by simp⟩
      · rintro ⟨a', n', h, rfl, rfl⟩
        simp only [Option.some.injEq, Prod.mk.injEq] at h
        obtain ⟨rfl, rfl, rfl⟩ := h
        exact ⟨_, rfl, by simp⟩

theorem calls_exported (hL : L.Lawful) (c d : Nat) : Calls (exportedGet add get) c d ↔ Calls get c d := by
  unfold Calls
  constructor
  · rintro ⟨circ, hg, i, hi, a, n, h⟩
    simp only [exportedGet, Option.map_eq_some_iff] at hg
    obtain ⟨c0, hg, rfl⟩ := hg
    obtain ⟨j, hj, a', n', h', _⟩ := (exportInsns_calls (k := a.length) hL _ _ _ d n).1 ⟨i, hi, a, h, rfl⟩
    exact ⟨c0, hg, j, hj, a', n', h'⟩
  · rintro ⟨circ, hg, i, hi, a, n, h⟩
    obtain ⟨j, hj, a', h', _⟩ := (exportInsns_calls (add := add) (k := a.length) hL circ.instructions (List.range (circ.numInputs + 1)) circ.numInputs d (n + add d)).2 ⟨i, hi, a, n, h, rfl, rfl⟩
    exact ⟨_, by simp only [exportedGet, hg, Option.map_some]; rfl, j, hj, a', _, h'⟩

theorem exported_outputs_length (add : Nat → Nat) (b : Bool) (circ : Circuit L) :
    (exportCircuit add b circ).1.outputs.length = circ.outputs.length + (exportCircuit add b circ).2 := by
  cases b <;> simp [exportCircuit]; omega

theorem exported_wf (hL : L.Lawful) (h1 : L.allowDupInputs = true) (h2 : L.allowDupOutputs = true) (hadd : AddsOk add get)
    (hw : WFGet npi get) : WFGet npi (exportedGet add get) := by
  refine ⟨?_, ?_, ?_⟩
  · intro c circ hg
    simp only [exportedGet, Option.map_eq_some_iff] at hg
    obtain ⟨c0, hg, rfl⟩ := hg
    have hc := hw.circ c c0 hg
    obtain ⟨k1, k2, k3⟩ := export_ok (add := add) (npi := npi) hL h1 c0.instructions c0.numInputs (List.range (c0.numInputs + 1)) c0.numInputs hc.insns (vmOk_init _ 0)
    refine ⟨k1, fun k hk => (by simp [exportCircuit] at hk), Or.inr (by simp [exportCircuit]), ?_, Or.inl h2⟩
    have e1 : ∀ o ∈ c0.outputs.map (vmGet (exportInsns add c0.instructions (List.range (c0.numInputs + 1)) c0.numInputs).2.1),
        o ≤ numVars c0.numInputs (exportInsns add c0.instructions (List.range (c0.numInputs + 1)) c0.numInputs).1 ∧ o ≠ 0 := by
      intro o ho
      obtain ⟨o0, ho0, rfl⟩ := List.mem_map.1 ho
      have := hc.outs o0 ho0
      have := k2.2 o0 this.2 this.1
      exact ⟨this.2, this.1⟩
    have e2 : ∀ o ∈ c0.constraints.map (fun k => vmGet (exportInsns add c0.instructions (List.range (c0.numInputs + 1)) c0.numInputs).2.1 k.var) ++
        (exportInsns add c0.instructions (List.range (c0.numInputs + 1)) c0.numInputs).2.2,
        o ≤ numVars c0.numInputs (exportInsns add c0.instructions (List.range (c0.numInputs + 1)) c0.numInputs).1 ∧ o ≠ 0 := by
      intro o ho
      rcases List.mem_append.1 ho with ho | ho
      · obtain ⟨o0, ho0, rfl⟩ := List.mem_map.1 ho
        have := hc.cons o0 ho0
        have := k2.2 o0.var this.2 this.1
        exact ⟨this.2, this.1⟩
      · have := k3 o ho; exact ⟨this.2, this.1⟩
    intro o ho
    simp only [exportCircuit] at ho ⊢
    split at ho <;> rcases List.mem_append.1 ho with ho | ho <;> first | exact e1 o ho | exact e2 o ho
  · intro c circ hg j hj d a m hcall
    simp only [exportedGet, Option.map_eq_some_iff] at hg
    obtain ⟨c0, hg, rfl⟩ := hg
    obtain ⟨i, hi, a', n, h', rfl, hal⟩ := (exportInsns_calls (k := a.length) hL _ _ _ d m).1 ⟨j, hj, a, hcall, rfl⟩
    obtain ⟨sub, s1, s2, s3⟩ := hw.calls c c0 hg i hi d a' n h'
    refine ⟨_, by simp only [exportedGet, s1, Option.map_some]; rfl, by rw [← hal, s2]; rfl, ?_⟩
    rw [exported_outputs_length, ← hadd d sub s1, s3]
  · obtain ⟨r, hr⟩ := hw.dag
    exact ⟨r, fun c d h => hr c d ((calls_exported hL c d).1 h)⟩

theorem exportInsns_extra (hL : L.Lawful) : ∀ (is : List L.Insn) vm mx, ∀ i ∈ is, ∀ d a n, L.asCall i = some (d, a, n) →
    add d ≤ (exportInsns add is vm mx).2.2.length := by
  intro is
  induction is with
  | nil => intro vm mx i h; cases h
  | cons i is ih =>
    intro vm mx j hj d a n hc
    rcases List.mem_cons.1 hj with rfl | hj
    · simp [exportInsns, hc]
    · cases hc' : L.asCall i with
      | none => simp only [exportInsns, hc']; exact ih _ _ j hj d a n hc
      | some tr =>
        simp only [exportInsns, hc', List.length_append]
        have := ih (vm ++ List.range' (mx + 1) (L.numOutputs i)) (mx + L.numOutputs i + add tr.1) j hj d a n hc
        omega

theorem add_pos (hL : L.Lawful) (hadd : AddsOk add get) {c d : Nat} {circ : Circuit L} (h : Relation.ReflTransGen (Calls get) c d)
    (hg : get d = some circ) (hn : circ.constraints ≠ []) : add c ≠ 0 := by
  induction h using Relation.ReflTransGen.head_induction_on with
  | refl =>
    rw [hadd d circ hg]
    simp only [exportCircuit, List.length_append, List.length_map]
    have : circ.constraints.length ≠ 0 := by simpa using hn
    omega
  | head hcd _ ih =>
    obtain ⟨ca, hga, i, hi, xs, n, hc⟩ := hcd
    rw [hadd _ ca hga]
    have := exportInsns_extra (add := add) hL ca.instructions (List.range (ca.numInputs + 1)) ca.numInputs i hi _ xs n hc
    simp only [exportCircuit, List.length_append, List.length_map]
    omega

/-! ### Whole circuits -/

theorem exportInsns_congr {add' : Nat → Nat} : ∀ (is : List L.Insn) vm mx, (∀ i ∈ is, ∀ d a n, L.asCall i = some (d, a, n) → add d = add' d) →
    exportInsns add is vm mx = exportInsns add' is vm mx := by
  intro is
  induction is with
  | nil => intro vm mx _; rfl
  | cons i is ih =>
    intro vm mx h
    have ih := fun vm mx => ih vm mx (fun j hj => h j (by simp [hj]))
    cases hc : L.asCall i with
    | none => simp only [exportInsns, hc, ih]
    | some tr =>
      obtain ⟨c, a, n⟩ := tr
      have e := h i (by simp) c a n hc
      simp only [exportInsns, hc, ih, e]

/-- What the pass returns. -/
theorem exportConstraints_eq (rc : RootCircuit L) (hk : rc.vertices.Nodup) (hw : WFGet npi rc.get) :
    ∃ rc' add, exportConstraints rc = some rc' ∧ AddsOk add rc.get ∧ rc'.vertices.Nodup ∧ rc'.numPublicInputs = rc.numPublicInputs ∧
      rc'.expectedNumOutputZeroes = rc.expectedNumOutputZeroes + add 0 ∧ rc'.get = exportedGet add rc.get := by
  have hloc : ∀ (g g' : Nat → Option (Circuit L × Nat)) c circ, rc.get c = some circ → (∀ d, Calls rc.get c d → g d = g' d) →
      exportCircuit (addGet g) (c == 0) circ = exportCircuit (addGet g') (c == 0) circ := by
    intro g g' c circ hg hd
    have := exportInsns_congr (add := addGet g) (add' := addGet g') circ.instructions (List.range (circ.numInputs + 1)) circ.numInputs (by
      intro i hi d a n hcall
      simp only [addGet, hd d ⟨circ, hg, i, hi, a, n, hcall⟩])
    simp only [exportCircuit, this]
  obtain ⟨rc1, tab, h1, h2, h3, h4, h5, h6⟩ := mapBottomUp_spec rc hk hw (fun t c circ => exportCircuit (addGet t) (c == 0) circ) (fun p => p.1) hloc
  obtain ⟨q, hq, hqn, hm, hs⟩ := topo_of_wf rc hk hw
  have e1 : rc1 = ⟨rc.numPublicInputs, rc.expectedNumOutputZeroes, (bottomUp rc.get (fun t c circ => exportCircuit (addGet t) (c == 0) circ) q).map (fun p => (p.1, p.2.1))⟩ := by
    simp only [mapBottomUp, hq, Option.some.injEq] at h1; exact h1.symm
  have htab : ∀ c, (bottomUp rc.get (fun t c circ => exportCircuit (addGet t) (c == 0) circ) q).lookup c =
      (rc.get c).map (exportCircuit (addGet (fun d => (bottomUp rc.get (fun t c circ => exportCircuit (addGet t) (c == 0) circ) q).lookup d)) (c == 0)) := by
    intro c
    cases hg : rc.get c with
    | none =>
      rw [bottomUp_not_mem]; rfl
      intro h; obtain ⟨circ, h⟩ := (hm c).1 h; rw [hg] at h; cases h
    | some circ => rw [bottomUp_spec hqn hs hloc ((hm c).2 ⟨circ, hg⟩) hg]; rfl
  refine ⟨⟨rc.numPublicInputs, rc.expectedNumOutputZeroes + addGet (fun d => (bottomUp rc.get (fun t c circ => exportCircuit (addGet t) (c == 0) circ) q).lookup d) 0,
      (bottomUp rc.get (fun t c circ => exportCircuit (addGet t) (c == 0) circ) q).map (fun p => (p.1, p.2.1))⟩,
    addGet (fun d => (bottomUp rc.get (fun t c circ => exportCircuit (addGet t) (c == 0) circ) q).lookup d),
    by simp only [exportConstraints, hq], ?_, by rw [e1] at h2; exact h2, rfl, rfl, ?_⟩
  · intro c circ hg
    conv => lhs; rw [addGet, htab c, hg]
    rfl
  · funext c
    simp only [RootCircuit.get]
    rw [lookup_map_snd (fun p : Circuit L × Nat => p.1), htab c]
    simp only [exportedGet, RootCircuit.get, Option.map_map]
    rfl

theorem arrange_zero (outs zs : List F) : arrange 0 outs zs = zs ++ outs := rfl

theorem eval_export (hL : L.Lawful) (hver : ∀ k x, L.verify k x = decide (x = 0)) (rc rc' : RootCircuit L) (hw : WFGet npi rc.get)
    (hadd : AddsOk add rc.get) (hget : rc'.get = exportedGet add rc.get) (hz : rc'.expectedNumOutputZeroes = rc.expectedNumOutputZeroes + add 0)
    (ins outs : List F) (b : Bool) : Eval rc' ins outs b ↔ Eval rc ins outs b := by
  have hsplit : ∀ (zs o : List F), zs.length = add 0 →
      ((zs ++ o).drop (rc.expectedNumOutputZeroes + add 0) = o.drop rc.expectedNumOutputZeroes) ∧
      ((zs ++ o).take (rc.expectedNumOutputZeroes + add 0)).all (fun x => decide (x = 0)) =
        (allZero zs && (o.take rc.expectedNumOutputZeroes).all (fun x => decide (x = 0))) := by
    intro zs o hl
    rw [Nat.add_comm, ← hl]
    refine ⟨by simp, ?_⟩
    rw [List.take_length_add_append, List.all_append]; rfl
  constructor
  · rintro ⟨root', all, b0, h1, h2, h3, h4, rfl, rfl⟩
    rw [hget] at h1 h3
    simp only [exportedGet, Option.map_eq_some_iff] at h1
    obtain ⟨root, hg, rfl⟩ := h1
    obtain ⟨rfl, o, zs, z1, rfl, z3⟩ := (export_spec hL hver hw hadd 0 root hg .refl ins h2).2 all b0 h3
    rw [arrange_zero] at h4 ⊢
    obtain ⟨s1, s2⟩ := hsplit zs o z1
    refine ⟨root, o, allZero zs, hg, h2, z3, ?_, by rw [hz, s1], by rw [hz, s2]; rfl⟩
    rw [hz] at h4; simp at h4; omega
  · rintro ⟨root, o, b0, h1, h2, h3, h4, rfl, rfl⟩
    obtain ⟨zs, z1, z2, rfl⟩ := (export_spec hL hver hw hadd 0 root h1 .refl ins h2).1 o b0 h3
    rw [arrange_zero] at z2
    obtain ⟨s1, s2⟩ := hsplit zs o z1
    exact ⟨(exportCircuit add (0 == 0) root).1, zs ++ o, true, by rw [hget]; simp [exportedGet, h1], h2, by rw [hget]; exact z2,
      by rw [hz]; simp; omega, by rw [hz, s1], by rw [hz, s2]; rfl⟩

theorem exportConstraints_correct (hL : L.Lawful) (h1 : L.allowDupInputs = true) (h2 : L.allowDupOutputs = true)
    (hver : ∀ k x, L.verify k x = decide (x = 0)) (rc : RootCircuit L) (hk : rc.vertices.Nodup) (hw : WFAt npi rc) :
    ∃ rc', exportConstraints rc = some rc' ∧ rc'.vertices.Nodup ∧ WFAt npi rc' ∧ rc'.numPublicInputs = rc.numPublicInputs ∧
      (∀ c circ, rc'.get c = some circ → circ.constraints = []) ∧
      (∀ c, (rc'.get c).map (·.numInputs) = (rc.get c).map (·.numInputs)) ∧
      ∀ ins outs b, Eval rc' ins outs b ↔ Eval rc ins outs b := by
  obtain ⟨rc', add, e1, e2, e3, e4, e5, e6⟩ := exportConstraints_eq rc hk hw.wf
  refine ⟨rc', e1, e3, ⟨by rw [e6]; exact exported_wf hL h1 h2 e2 hw.wf, ?_⟩, e4, ?_, ?_, eval_export hL hver rc rc' hw.wf e2 e6 e5⟩
  · obtain ⟨root, hg, hz, hne⟩ := hw.root
    refine ⟨(exportCircuit add (0 == 0) root).1, by rw [e6]; simp [exportedGet, hg], ?_, ?_⟩
    · rw [exported_outputs_length, e5, ← e2 0 root hg]; omega
    · intro ho
      have hl := exported_outputs_length add (0 == 0) root
      rw [ho, ← e2 0 root hg] at hl
      simp only [List.length_nil] at hl
      obtain ⟨d, circ, r1, r2, r3⟩ := hne (by
        have : root.outputs.length = 0 := by omega
        simpa using this)
      exact absurd (by omega : add 0 = 0) (add_pos hL e2 r1 r2 r3)
  · intro c circ hg
    rw [e6] at hg
    simp only [exportedGet, Option.map_eq_some_iff] at hg
    obtain ⟨c0, hg, rfl⟩ := hg
    rfl
  · intro c
    rw [e6]
    cases hg : rc.get c <;> simp [exportedGet, hg, exportCircuit]

end ExportCons
end Verif.IR
