import Verif.IR.DceBfs

/-!
# `remove_unreachable` on root circuits
-/

namespace Verif.IR

open Verif.Utils

variable {F : Type} {L : Lang F}

/-! ### The input mapping -/

theorem inputMappingOf_assign {α : Type} (vis : Elem → Bool) (d : α) : ∀ (is : List Nat) (n : Nat) (xs pre : List α),
    xs.length = is.length → pre.length = n →
    InputMapping.assign ((inputMappingOf vis is n).1.zip xs)
      (pre ++ List.replicate ((is.map (fun i => vis (eV 0 i))).count true) d) =
    some (pre ++ sel (is.map (fun i => vis (eV 0 i))) xs) := by
  intro is
  induction is with
  | nil => intro n xs pre hl hp; simp [inputMappingOf, InputMapping.assign, sel]
  | cons i is ih =>
    intro n xs pre hl hp
    cases xs with
    | nil => simp at hl
    | cons x xs =>
      cases hv : vis (eV 0 i) with
      | false =>
        simp only [inputMappingOf, hv, Bool.false_eq_true, if_false, List.zip_cons_cons, InputMapping.assign,
          List.map_cons, sel]
        have := ih n xs pre (by simpa using hl) hp
        simpa using this
      | true =>
        have e : pre ++ List.replicate (((i :: is).map (fun i => vis (eV 0 i))).count true) d =
            pre ++ d :: List.replicate ((is.map (fun i => vis (eV 0 i))).count true) d := by
          simp [hv, List.replicate_succ]
        rw [e]
        simp only [inputMappingOf, hv, if_true, List.zip_cons_cons, InputMapping.assign, List.map_cons, sel]
        rw [if_pos (by simp; omega)]
        have hs : (pre ++ d :: List.replicate ((is.map (fun i => vis (eV 0 i))).count true) d).set n x =
            (pre ++ [x]) ++ List.replicate ((is.map (fun i => vis (eV 0 i))).count true) d := by
          subst hp
          simp
        rw [hs, ih (n + 1) xs (pre ++ [x]) (by simpa using hl) (by simp [hp])]
        simp

theorem inputMappingOf_length (vis : Elem → Bool) : ∀ (is : List Nat) (n : Nat),
    (inputMappingOf vis is n).1.length = is.length ∧
    (inputMappingOf vis is n).2 = n + (is.map (fun i => vis (eV 0 i))).count true := by
  intro is
  induction is with
  | nil => intro n; simp [inputMappingOf]
  | cons i is ih =>
    intro n
    cases hv : vis (eV 0 i) with
    | false => simp [inputMappingOf, hv, ih]
    | true => simp [inputMappingOf, hv, ih]; omega

theorem inputMappingOf_mapInputs {α : Type} (vis : Elem → Bool) (d : α) (is : List Nat) (xs : List α) (hl : xs.length = is.length) :
    (⟨(inputMappingOf vis is 0).2, (inputMappingOf vis is 0).1⟩ : InputMapping).mapInputs d xs =
      some (sel (is.map (fun i => vis (eV 0 i))) xs) := by
  unfold InputMapping.mapInputs
  obtain ⟨h1, h2⟩ := inputMappingOf_length vis is 0
  rw [if_pos (by rw [h1]; exact hl), h2]
  have := inputMappingOf_assign vis d is 0 xs [] hl rfl
  simpa using this

/-! ### What the pass returns -/

theorem lookup_filterMap {β γ : Type} (g : Nat → Option β) (h : Nat → β → γ) (c : Nat) : ∀ (l : List Nat),
    (l.filterMap (fun c => (g c).map (fun x => (c, h c x)))).lookup c = if c ∈ l then (g c).map (h c) else none := by
  intro l
  induction l with
  | nil => simp
  | cons a l ih =>
    cases hg : g a with
    | none =>
      simp only [List.filterMap_cons, hg, Option.map_none, ih]
      by_cases hc : c = a
      · subst hc; simp [hg]
      · simp [hc]
    | some x =>
      simp only [List.filterMap_cons, hg, Option.map_some]
      by_cases hc : c = a
      · subst hc; simp [hg]
      · have : (c == a) = false := by simp [hc]
        simp only [List.lookup, this, ih]
        simp [hc]

theorem keys_filterMap {β γ : Type} (g : Nat → Option β) (h : Nat → β → γ) : ∀ (l : List Nat), l.Nodup →
    ((l.filterMap (fun c => (g c).map (fun x => (c, h c x)))).map Prod.fst).Nodup := by
  intro l hn
  have : (l.filterMap (fun c => (g c).map (fun x => (c, h c x)))).map Prod.fst = l.filter (fun c => (g c).isSome) := by
    clear hn
    induction l with
    | nil => rfl
    | cons a l ih =>
      cases hg : g a with
      | none => simp [hg, ih]
      | some x => simp [hg, ih]
  rw [this]
  exact hn.filter _

/-- Result of the pass in terms of a closed visited set, and why elements are visited. -/
theorem removeUnreachable_full (rc : RootCircuit L) {npi : Option Nat} (hk : rc.vertices.Nodup) (hw : WFAt npi rc) {root : Circuit L}
    (hroot : rc.get 0 = some root) :
    ∃ (rc' : RootCircuit L) (im : InputMapping) (order : List Nat) (vis : Elem → Bool), removeUnreachable rc = some (rc', im) ∧
      rc'.numPublicInputs = rc.numPublicInputs ∧ rc'.expectedNumOutputZeroes = rc.expectedNumOutputZeroes ∧
      (∀ c, rc'.get c = rebuildGet rc.get (fun c => c ∈ order) vis c) ∧ rc'.vertices.Nodup ∧
      Closed rc.get (fun c => c ∈ order) vis ∧ (0 ∈ order) ∧
      (∀ j, j < root.outputs.length → vis (eO 0 j) = true) ∧
      im = ⟨(inputMappingOf vis ((List.range root.numInputs).map (· + 1)) 0).2,
            (inputMappingOf vis ((List.range root.numInputs).map (· + 1)) 0).1⟩ ∧
      order.Nodup ∧ (∀ c, c ∈ rc'.vertices ↔ c ∈ order) ∧ (∀ c ∈ order, c ∈ rc.vertices) ∧
      ∀ e, vis e = true → e ∈ initQueue rc order ∨ (∃ x, vis x = true ∧ (x, e) ∈ allEdges rc order) ∨ ∃ x y, (x, y, e) ∈ allDuals rc order := by
  have hcalls := hw.wf.calls
  have g := goodGraph hk hcalls
  obtain ⟨q, hq, hnd, hsub, hord, hac⟩ := topoOrder_spec g
  have hlen := hac.2 ((acyclic_iff hk).2 hw.wf.dag)
  have hmem : ∀ v, v ∈ rc.vertices → v ∈ q := by
    have hp := (hnd.subperm (fun v hv => hsub v hv)).perm_of_length_le (by omega)
    intro v hv; exact hp.mem_iff.2 hv
  have hsuf := ordered_suffix hk hord hmem hnd hcalls
  let order := q.filter (fun c => (usedCircuits rc q).contains c)
  have hmo : ∀ c, c ∈ order ↔ c ∈ q ∧ c ∈ usedCircuits rc q := by intro c; simp [order]
  let es := allEdges rc order
  let ds := allDuals rc order
  let q0 := initQueue rc order
  have hsat0 : Sat es ds q0 q0 := ⟨fun x _ h => Or.inl h, fun x _ h _ => Or.inl h⟩
  obtain ⟨v, hv, hsat, hsubv⟩ := bfs_spec (es := es) (ds := ds) (allDuals_symm rc order) (q0.length + es.length + ds.length)
    q0 q0 hsat0 (by
      have : unv (es.map (·.2) ++ ds.map (·.2.2)) q0 ≤ (es.map (·.2) ++ ds.map (·.2.2)).length := List.length_filter_le _ _
      simp at this; omega)
  have hun : removeUnreachable rc = some
      ({ numPublicInputs := rc.numPublicInputs
         expectedNumOutputZeroes := rc.expectedNumOutputZeroes
         circuits := order.reverse.filterMap (fun c => (rc.get c).map (fun circ =>
           (c, rebuildCircuit (fun e => decide (e ∈ v)) c circ))) },
       ⟨(inputMappingOf (fun e => decide (e ∈ v)) ((List.range root.numInputs).map (· + 1)) 0).2,
        (inputMappingOf (fun e => decide (e ∈ v)) ((List.range root.numInputs).map (· + 1)) 0).1⟩) := by
    unfold removeUnreachable
    simp only [hq, hroot]
    have hv' : bfs (allEdges rc (List.filter (fun c => (usedCircuits rc q).contains c) q))
        (allDuals rc (List.filter (fun c => (usedCircuits rc q).contains c) q))
        ((initQueue rc (List.filter (fun c => (usedCircuits rc q).contains c) q)).length +
          (allEdges rc (List.filter (fun c => (usedCircuits rc q).contains c) q)).length +
          (allDuals rc (List.filter (fun c => (usedCircuits rc q).contains c) q)).length)
        (initQueue rc (List.filter (fun c => (usedCircuits rc q).contains c) q))
        (initQueue rc (List.filter (fun c => (usedCircuits rc q).contains c) q)) = some v := hv
    rw [hv']
  have hinit : ∀ x ∈ q0, decide (x ∈ v) = true := fun x hx => by simpa using hsubv x hx
  have hedge : ∀ x ∈ es, decide (x.1 ∈ v) = true → decide (x.2 ∈ v) = true := by
    intro x hx h
    have := hsat.e x hx (by simpa using h)
    simpa using this
  refine ⟨_, _, order, fun e => decide (e ∈ v), hun, rfl, rfl, ?_, ?_, ?_, ?_, ?_, rfl, hnd.filter _, ?_, ?_, ?_⟩
  · intro c
    simp only [RootCircuit.get]
    rw [lookup_filterMap (fun c => List.lookup c rc.circuits) (fun c circ => rebuildCircuit (fun e => decide (e ∈ v)) c circ)]
    simp only [rebuildGet, List.mem_reverse]
    rfl
  · unfold RootCircuit.vertices
    exact keys_filterMap rc.get _ _ (List.nodup_reverse.2 (hnd.filter _))
  · refine ⟨?_, ?_, ?_, ?_, ?_, ?_⟩
    · intro c d hc hcd
      obtain ⟨h1, h2⟩ := (hmo c).1 hc
      obtain ⟨circ, hg, i, hi, a, n, hca⟩ := id hcd
      obtain ⟨sub, hs, _⟩ := hcalls _ _ hg i hi _ _ _ hca
      exact (hmo d).2 ⟨hmem d (mem_vertices_iff.2 ⟨sub, hs⟩), used_closed hnd hsuf h2 h1 hcd⟩
    · intro c circ hc hg e he
      refine hedge e (List.mem_flatMap.2 ⟨c, hc, ?_⟩)
      simp only [hg]; exact List.mem_append_left _ he
    · intro c circ hc hg e he h1 h2
      have := hsat.d e (List.mem_flatMap.2 ⟨c, hc, by simp only [hg]; exact he⟩) (by simpa using h1) (by simpa using h2)
      simpa using this
    · intro c circ hc hg e he
      refine hedge e (List.mem_flatMap.2 ⟨c, hc, ?_⟩)
      simp only [hg]; exact List.mem_append_right _ he
    · intro c circ hc hg k hk
      refine hinit _ (List.mem_append_left _ (List.mem_flatMap.2 ⟨c, hc, ?_⟩))
      simp only [hg]; exact List.mem_append_left _ (List.mem_map.2 ⟨k, hk, rfl⟩)
    · intro c circ hc hg hne
      refine hinit _ (List.mem_append_left _ (List.mem_flatMap.2 ⟨c, hc, ?_⟩))
      simp only [hg]
      refine List.mem_append_right _ ?_
      rw [if_neg (by simpa using hne)]; simp
  · exact (hmo 0).2 ⟨hmem 0 (mem_vertices_iff.2 ⟨root, hroot⟩), usedFold_mono rc q [0] 0 (by simp)⟩
  · intro j hj
    refine hinit _ (List.mem_append_right _ ?_)
    simp only [hroot]
    exact List.mem_map.2 ⟨j, List.mem_range.2 hj, rfl⟩
  · intro c
    constructor
    · intro h
      simp only [RootCircuit.vertices, List.mem_map, List.mem_filterMap, List.mem_reverse] at h
      obtain ⟨p, ⟨c', hc', hp⟩, rfl⟩ := h
      cases hg : rc.get c' with
      | none => rw [hg] at hp; cases hp
      | some circ => rw [hg] at hp; cases hp; exact hc'
    · intro h
      obtain ⟨circ, hg⟩ := mem_vertices_iff.1 (hsub c ((hmo c).1 h).1)
      simp only [RootCircuit.vertices, List.mem_map, List.mem_filterMap, List.mem_reverse]
      exact ⟨(c, rebuildCircuit (fun e => decide (e ∈ v)) c circ), ⟨c, h, by rw [hg]; rfl⟩, rfl⟩
  · intro c h
    exact hsub c ((hmo c).1 h).1
  · intro e he
    have hb := (bfs_min _ q0 q0 v (fun _ h => h) hv).2 e (by simpa using he)
    rcases hb with h | ⟨x, hx, h⟩ | h
    · exact .inl h
    · exact .inr (.inl ⟨x, by simpa using hx, h⟩)
    · exact .inr (.inr h)

/-- Result of the pass in terms of a closed visited set. -/
theorem removeUnreachable_closed (rc : RootCircuit L) {npi : Option Nat} (hk : rc.vertices.Nodup) (hw : WFAt npi rc) {root : Circuit L}
    (hroot : rc.get 0 = some root) :
    ∃ (rc' : RootCircuit L) (im : InputMapping) (order : List Nat) (vis : Elem → Bool), removeUnreachable rc = some (rc', im) ∧
      rc'.numPublicInputs = rc.numPublicInputs ∧ rc'.expectedNumOutputZeroes = rc.expectedNumOutputZeroes ∧
      (∀ c, rc'.get c = rebuildGet rc.get (fun c => c ∈ order) vis c) ∧ rc'.vertices.Nodup ∧
      Closed rc.get (fun c => c ∈ order) vis ∧ (0 ∈ order) ∧
      (∀ j, j < root.outputs.length → vis (eO 0 j) = true) ∧
      im = ⟨(inputMappingOf vis ((List.range root.numInputs).map (· + 1)) 0).2,
            (inputMappingOf vis ((List.range root.numInputs).map (· + 1)) 0).1⟩ := by
  obtain ⟨rc', im, order, vis, h1, h2, h3, h4, h5, h6, h7, h8, h9, _⟩ := removeUnreachable_full rc hk hw hroot
  exact ⟨rc', im, order, vis, h1, h2, h3, h4, h5, h6, h7, h8, h9⟩

theorem sel_map_true {α : Type} {p : Nat → Bool} : ∀ {xs : List α}, (∀ j, j < xs.length → p j = true) →
    sel ((List.range xs.length).map p) xs = xs := by
  intro xs h
  have : (List.range xs.length).map p = List.replicate xs.length true := by
    rw [List.eq_replicate_iff]
    refine ⟨by simp, ?_⟩
    intro b hb
    obtain ⟨j, hj, rfl⟩ := List.mem_map.1 hb
    exact h j (List.mem_range.1 hj)
  rw [this, sel_all_true]

variable [Field F] [DecidableEq F]

/-- Semantic equivalence for any closed visited set containing the root outputs. -/
theorem closed_eval (hL : L.Lawful) (rc rc' : RootCircuit L) {npi : Option Nat} (hw : WFAt npi rc) {root : Circuit L}
    (hroot : rc.get 0 = some root) {order : List Nat} {vis : Elem → Bool}
    (hz : rc'.expectedNumOutputZeroes = rc.expectedNumOutputZeroes)
    (hget : ∀ c, rc'.get c = rebuildGet rc.get (fun c => c ∈ order) vis c)
    (hcl : Closed rc.get (fun c => c ∈ order) vis) (h0 : 0 ∈ order)
    (hro : ∀ j, j < root.outputs.length → vis (eO 0 j) = true)
    (hni : (rebuildCircuit vis 0 root).numInputs = ((List.range root.numInputs).map (fun j => vis (eV 0 (j + 1)))).count true)
    (ins : List F) (hlen : ins.length = root.numInputs) :
    (∀ outs b, Eval rc ins outs b → Eval rc' (sel ((List.range root.numInputs).map (fun j => vis (eV 0 (j + 1)))) ins) outs b) ∧
    (L.Total → npi.isSome → ∀ outs b, Eval rc' (sel ((List.range root.numInputs).map (fun j => vis (eV 0 (j + 1)))) ins) outs b →
      Eval rc ins outs b) := by
  have hg' : rc'.get = rebuildGet rc.get (fun c => c ∈ order) vis := funext hget
  have hroot' : rc'.get 0 = some (rebuildCircuit vis 0 root) := by rw [hget, rebuildGet, if_pos h0, hroot]; rfl
  have hco := hw.wf.circ _ _ hroot
  have hck := hw.wf.calls _ _ hroot
  have hl0 : (0 :: ins : List F).length = root.numInputs + 1 := by simp [hlen]
  have hsel0 : sel (inFlags vis 0 root.numInputs) (0 :: ins) =
      0 :: sel ((List.range root.numInputs).map (fun j => vis (eV 0 (j + 1)))) ins := by simp [inFlags, sel]
  have hsl : (sel ((List.range root.numInputs).map (fun j => vis (eV 0 (j + 1)))) ins).length =
      (rebuildCircuit vis 0 root).numInputs := by rw [hni, sel_length (by simp [hlen])]
  constructor
  · rintro outs b ⟨root2, all, b0, hr2, _, ⟨vs, sb, cb, hs, hkc, ho, rfl⟩, hle, rfl, rfl⟩
    rw [hroot] at hr2; cases hr2
    have hvl := Run.length hL hck hs _ hl0
    have hf := dce_forward hL hw.wf hcl hs 0 0 root.numInputs (inFlags vis 0 root.numInputs) (inputState vis 0 root.numInputs)
      h0 (fun d a n x hx hc => hcl.calls 0 d h0 ⟨root, hroot, x, hx, a, n, hc⟩) (hcl.edges 0 root h0 hroot)
      (hcl.duals 0 root h0 hroot) hl0 (by simp [inFlags]) hco.insns hck (inputState_inv _ _ _) (keep_inputs _ _ _)
    rw [hsel0] at hf
    obtain ⟨h1, h2⟩ := rebuilt_outputs hL hcl h0 hroot hco hvl ho hkc
    have hal := readAll_length ho
    rw [← hal, sel_map_true (by rw [hal]; exact hro)] at h1
    refine ⟨rebuildCircuit vis 0 root, all, _, hroot', hsl, ⟨_, _, _, by rw [hg']; exact hf, h2, h1, rfl⟩, by rw [hz]; exact hle, ?_, ?_⟩
    · rw [hz]
    · rw [hz]
  · rintro hT hnp outs b ⟨root2, all, b0, hr2, _, ⟨ws, sb, cb, hs, hkc, ho, rfl⟩, hle, rfl, rfl⟩
    rw [hroot'] at hr2; cases hr2
    obtain ⟨npi, rfl⟩ := Option.isSome_iff_exists.1 hnp
    obtain ⟨r, hr⟩ := hw.wf.dag
    rw [hg', ← hsel0] at hs
    obtain ⟨vs, hs', hvs⟩ := dce_backward hT hL hw.wf hcl hr (r 0) root.instructions 0 0 root.numInputs
      (inFlags vis 0 root.numInputs) (inputState vis 0 root.numInputs) (0 :: ins) ws sb
      (fun x hx d a n hc => hr 0 d ⟨root, hroot, x, hx, a, n, hc⟩)
      h0 (fun d a n x hx hc => hcl.calls 0 d h0 ⟨root, hroot, x, hx, a, n, hc⟩) (hcl.edges 0 root h0 hroot)
      (hcl.duals 0 root h0 hroot) hl0 (by simp [inFlags]) hco.insns hck (inputState_inv _ _ _) (keep_inputs _ _ _) hs
    have hvl := Run.length hL hck hs' _ hl0
    have hvl' := hvl
    rw [numVars_add] at hvl'
    obtain ⟨cb', hk'⟩ := checkCons_isSome (vs := vs) (cs := root.constraints) (fun c hc => by have := hco.cons c hc; omega)
    obtain ⟨all', ho'⟩ := readAll_isSome (vs := vs) (is := root.outputs) (fun c hc => by have := hco.outs c hc; omega)
    obtain ⟨h1, h2⟩ := rebuilt_outputs hL hcl h0 hroot hco hvl ho' hk'
    have hal := readAll_length ho'
    rw [← hal, sel_map_true (by rw [hal]; exact hro), ← hvs, ho] at h1
    rw [← hvs, hkc] at h2
    cases h1; cases h2
    rw [hz] at hle ⊢
    exact ⟨root, all, _, hroot, hlen, ⟨vs, sb, cb, hs', hk', ho', rfl⟩, hle, rfl, rfl⟩

/-! ### The result is well-formed -/

omit [DecidableEq F]

omit [Field F] in
theorem count_take_flags {fl t : List Bool} {n : Nat} (h : fl.length = n + 1) :
    ((List.range n).filter (fun x => decide ((fl ++ t)[x + 1]? = some true))).length = (fl.drop 1).count true := by
  cases fl with
  | nil => simp at h
  | cons b fl =>
    simp at h
    subst h
    simp only [List.cons_append, List.getElem?_cons_succ, List.drop_succ_cons, List.drop_zero]
    have e : (List.range fl.length).filter (fun x => decide ((fl ++ t)[x]? = some true)) =
        (List.range fl.length).filter (fun x => decide (fl[x]? = some true)) := by
      apply List.filter_congr
      intro x hx
      rw [List.getElem?_append_left (List.mem_range.1 hx)]
    rw [e]
    clear e
    induction fl with
    | nil => rfl
    | cons b fl ih =>
      rw [List.length_cons, List.range_succ_eq_map, List.filter_cons, List.filter_map]
      have : ((fun x => decide ((b :: fl)[x]? = some true)) ∘ Nat.succ) = (fun x => decide (fl[x]? = some true)) := by
        funext x; simp
      rw [this]
      cases b <;> simp [ih]

omit [Field F] in
theorem rebuilt_numInputs (vis : Elem → Bool) (c : Nat) (circ : Circuit L) :
    (rebuildCircuit vis c circ).numInputs = ((List.range circ.numInputs).map (fun j => vis (eV c (j + 1)))).count true ∧
    (inputState vis c circ.numInputs).2 = ((List.range circ.numInputs).map (fun j => vis (eV c (j + 1)))).count true := by
  have hinv : VMInv (finalFlags L vis c 0 circ.instructions (inFlags vis c circ.numInputs)) 
      (rebuildInsns L vis c 0 circ.instructions (inputState vis c circ.numInputs)).2 :=
    rebuild_inv vis c _ _ _ _ (inputState_inv vis c circ.numInputs)
  obtain ⟨t, ht⟩ := finalFlags_prefix (L := L) vis c circ.instructions 0 (inFlags vis c circ.numInputs)
  constructor
  · unfold rebuildCircuit
    simp only
    have hl : (inFlags vis c circ.numInputs).length = circ.numInputs + 1 := by simp [inFlags]
    rw [ht] at hinv
    have e : (List.range circ.numInputs).filter (fun x =>
        ((rebuildInsns L vis c 0 circ.instructions (inputState vis c circ.numInputs)).2.1[x + 1]?.join).isSome) =
        (List.range circ.numInputs).filter (fun x => decide ((inFlags vis c circ.numInputs ++ t)[x + 1]? = some true)) := by
      apply List.filter_congr
      intro x hx
      have hx := List.mem_range.1 hx
      rw [hinv.at' (x + 1) (by omega) (by rw [List.length_append, hl]; omega)]
      by_cases h : (inFlags vis c circ.numInputs ++ t)[x + 1]? = some true <;> simp [h]
    rw [e, count_take_flags hl]
    simp [inFlags]
  · have := (inputState_inv vis c circ.numInputs).max
    simp [inFlags] at this
    simpa using this

variable {get : Nat → Option (Circuit L)} {used : Nat → Prop} {vis : Elem → Bool}

theorem numVars_rebuild (hL : L.Lawful) (c : Nat) : ∀ (is : List L.Insn) i fl s, VMInv fl s →
    numVars s.2 (rebuildInsns L vis c i is s).1 = (rebuildInsns L vis c i is s).2.2 := by
  intro is
  induction is with
  | nil => intro i fl s _; rfl
  | cons insn is ih =>
    intro i fl s h
    have key : ∀ fs, (pushMany fs s).2 = s.2 + fs.count true := by
      intro fs
      have h1 := (pushMany_inv fs fl s h).max
      have h2 := h.max
      simp at h1; omega
    simp only [rebuildInsns]
    split
    · have := ih (i + 1) _ _ (pushMany_inv (List.replicate (L.numOutputs insn) false) fl s h)
      rw [key] at this
      simpa [List.count_replicate] using this
    · cases hc : L.asCall insn with
      | none =>
        have := ih (i + 1) _ _ (pushMany_inv (List.replicate (L.numOutputs insn) true) fl s h)
        rw [key] at this
        simp only [numVars_cons, hL.numOutputs_replace]
        simpa using this
      | some t =>
        obtain ⟨d, a, n⟩ := t
        have := ih (i + 1) _ _ (pushMany_inv ((List.range n).map (fun j => vis (eO d j))) fl s h)
        rw [key] at this
        simp only [numVars_cons, hL.call_numOutputs _ _ _ _ (hL.asCall_mkCall _ _ _)]
        exact this

omit [Field F] in
theorem lk_ok {fl s v} (hinv : VMInv fl s) (hv : v ≠ 0) (hf : fl[v]? = some true) : lk s.1 v ≤ s.2 ∧ lk s.1 v ≠ 0 := by
  rw [lk_eq hinv hv hf]
  have h1 := rank_lt hf
  have h2 := hinv.max
  have h3 := rank_strict (fs := fl) (v := 0) (w := v) (by omega) hinv.head
  constructor
  · omega
  · omega

omit [Field F] in
theorem lk_nodup {fl s} (hinv : VMInv fl s) : ∀ (l : List Nat), (∀ v ∈ l, v ≠ 0 ∧ fl[v]? = some true) → l.Nodup →
    (l.map (lk s.1)).Nodup := by
  intro l h hn
  refine List.Nodup.map_on ?_ hn
  intro x hx y hy he
  rw [lk_eq hinv (h x hx).1 (h x hx).2, lk_eq hinv (h y hy).1 (h y hy).2] at he
  exact rank_inj (h x hx).2 (h y hy).2 he

theorem rebuild_insnsOk (hL : L.Lawful) {npi : Option Nat} (c : Nat) : ∀ (is : List L.Insn) i cur fl s,
    (∀ e ∈ insnEdges L c i cur is, vis e.1 = true → vis e.2 = true) →
    (∀ e ∈ insnDuals L c i is, vis e.1 = true → vis e.2.1 = true → vis e.2.2 = true) →
    fl.length = cur + 1 → InsnsOk L npi cur is → VMInv fl s → KeepOk vis c fl →
    InsnsOk L npi s.2 (rebuildInsns L vis c i is s).1 := by
  intro is
  induction is with
  | nil => intro i cur fl s _ _ _ _ _ _; trivial
  | cons insn is ih =>
    intro i cur fl s he hd hfl hok hinv hkp
    have key : ∀ fs, (pushMany fs s).2 = s.2 + fs.count true := by
      intro fs
      have h1 := (pushMany_inv fs fl s hinv).max
      have h2 := hinv.max
      simp at h1; omega
    have hsl := stepFlags_length hL vis c i insn
    have hkp' := keep_step hL hfl (fun e h => he e (List.mem_append_left _ h)) hkp
    have ih := ih (i + 1) (cur + L.numOutputs insn) (fl ++ stepFlags L vis c i insn)
    simp only [rebuildInsns]
    split
    · rename_i hvi
      have hsf : stepFlags L vis c i insn = List.replicate (L.numOutputs insn) false := by simp [stepFlags, hvi]
      have := ih _ (fun e h => he e (List.mem_append_right _ h)) (fun e h => hd e (List.mem_append_right _ h))
        (by rw [List.length_append]; omega) hok.2.2.2 (pushMany_inv _ _ _ hinv) hkp'
      rw [hsf, key] at this
      simpa [List.count_replicate] using this
    · rename_i hvi
      cases hc : L.asCall insn with
      | none =>
        have hsf : stepFlags L vis c i insn = List.replicate (L.numOutputs insn) true := by simp [stepFlags, hvi, hc]
        have := ih _ (fun e h => he e (List.mem_append_right _ h)) (fun e h => hd e (List.mem_append_right _ h))
          (by rw [List.length_append]; omega) hok.2.2.2 (pushMany_inv _ _ _ hinv) hkp'
        rw [hsf, key] at this
        refine ⟨?_, ?_, ?_, ?_⟩
        · intro t ht
          rw [hL.inputs_replace] at ht
          obtain ⟨v, hv, rfl⟩ := List.mem_map.1 ht
          have hvb := hok.1 v hv
          have hvis : vis (eV c v) = true := by
            refine he (eI c i, eV c v) (List.mem_append_left _ ?_) (by simpa using hvi)
            unfold insnEdges1; rw [hc]
            exact List.mem_append_right _ (List.mem_map.2 ⟨v, hv, rfl⟩)
          exact lk_ok hinv hvb.2 (hkp v hvb.2 (by omega) hvis)
        · rw [hL.validAt_replace]; exact hok.2.1
        · right
          intro c' a' n' h'
          rw [hL.asCall_replace, hc] at h'; cases h'
        · rw [hL.numOutputs_replace]; simpa using this
      | some t =>
        obtain ⟨d, a, n⟩ := t
        have hvi' : vis (eI c i) = true := by simpa using hvi
        have hsf : stepFlags L vis c i insn = (List.range n).map (fun j => vis (eO d j)) := by
          simp [stepFlags, hvi', hc]
        have := ih _ (fun e h => he e (List.mem_append_right _ h)) (fun e h => hd e (List.mem_append_right _ h))
          (by rw [List.length_append]; omega) hok.2.2.2 (pushMany_inv _ _ _ hinv) hkp'
        rw [hsf, key] at this
        have hin : ∀ v ∈ sel ((List.range' 0 a.length).map (fun j => vis (eV d (j + 1)))) a, v ≠ 0 ∧ fl[v]? = some true := by
          intro v hv
          obtain ⟨j, h1, h2⟩ := sel_mem hv
          have hjl : j < a.length := (List.getElem?_eq_some_iff.1 h1).1
          rw [← List.range_eq_range'] at h2
          have hjo : vis (eV d (j + 1)) = true := by simpa [List.getElem?_range hjl] using h2
          have hvis : vis (eV c v) = true := by
            refine hd (eI c i, eV d (j + 1), eV c v) (List.mem_append_left _ ?_) hvi' hjo
            unfold insnDuals1
            rw [hc]
            refine List.mem_flatMap.2 ⟨(v, j), ?_, by simp⟩
            rw [List.mem_zipIdx_iff_getElem?]; exact h1
          have hvb := hok.1 v (by rw [hL.call_inputs _ _ _ _ hc]; exact List.mem_iff_getElem?.2 ⟨j, h1⟩)
          exact ⟨hvb.2, hkp v hvb.2 (by omega) hvis⟩
        simp only
        rw [filter_zipIdx (fun j => vis (eV d (j + 1)))]
        refine ⟨?_, ?_, ?_, ?_⟩
        · intro t ht
          rw [hL.call_inputs _ _ _ _ (hL.asCall_mkCall _ _ _)] at ht
          obtain ⟨v, hv, rfl⟩ := List.mem_map.1 ht
          exact lk_ok hinv (hin v hv).1 (hin v hv).2
        · exact hL.validAt_call _ _ _ _
        · rcases hok.2.2.1 with h | h
          · exact Or.inl h
          · right
            intro c' a' n' h'
            rw [hL.asCall_mkCall] at h'
            cases h'
            exact lk_nodup hinv _ hin ((h d a n hc).sublist (sel_sublist _ _))
        · rw [hL.call_numOutputs _ _ _ _ (hL.asCall_mkCall _ _ _)]; exact this

omit [Field F] in
theorem mem_rebuild {c : Nat} : ∀ {is : List L.Insn} {i s x}, x ∈ (rebuildInsns L vis c i is s).1 →
    ∃ insn ∈ is, ∃ s', (L.asCall insn = none ∧ x = L.replaceVars insn (lk s'.1 : Nat → Nat)) ∨
      ∃ d a n, L.asCall insn = some (d, a, n) ∧ x = L.mkCall d (((a.zipIdx.filter (fun p => vis (eV d (p.2 + 1)))).map (·.1)).map
        (lk (s' : List (Option Nat) × Nat).1)) (((List.range n).map (fun j => vis (eO d j))).count true) := by
  intro is
  induction is with
  | nil => intro i s x h; simp [rebuildInsns] at h
  | cons insn is ih =>
    intro i s x h
    simp only [rebuildInsns] at h
    split at h
    · obtain ⟨y, hy, r⟩ := ih h
      exact ⟨y, by simp [hy], r⟩
    · cases hc : L.asCall insn with
      | none =>
        simp only [hc, List.mem_cons] at h
        rcases h with h | h
        · exact ⟨insn, by simp, s, Or.inl ⟨hc, h⟩⟩
        · obtain ⟨y, hy, r⟩ := ih h
          exact ⟨y, by simp [hy], r⟩
      | some t =>
        obtain ⟨d, a, n⟩ := t
        simp only [hc, List.mem_cons] at h
        rcases h with h | h
        · exact ⟨insn, by simp, s, Or.inr ⟨d, a, n, hc, h⟩⟩
        · obtain ⟨y, hy, r⟩ := ih h
          exact ⟨y, by simp [hy], r⟩

omit [Field F] in
/-- A visited call is kept. -/
theorem kept_call {c : Nat} : ∀ {is : List L.Insn} {i cur s} {insn : L.Insn} {d a n}, insn ∈ is →
    L.asCall insn = some (d, a, n) → (∀ e ∈ insnEdges L c i cur is, vis e.1 = true → vis e.2 = true) → vis (eC d) = true →
    ∃ a' n', L.mkCall d a' n' ∈ (rebuildInsns L vis c i is s).1 := by
  intro is
  induction is with
  | nil => intro i cur s insn d a n h; simp at h
  | cons x is ih =>
    intro i cur s insn d a n h hc he hv
    rcases List.mem_cons.1 h with rfl | h
    · have hi : vis (eI c i) = true := he (eC d, eI c i) (List.mem_append_left _ (by unfold insnEdges1; rw [hc]; simp)) hv
      simp only [rebuildInsns, hi, Bool.true_eq_false, if_false, hc]
      exact ⟨_, _, List.mem_cons_self⟩
    · have := fun s => ih (s := s) h hc (fun e h => he e (List.mem_append_right _ h)) hv
      simp only [rebuildInsns]
      split
      · exact this _
      · cases hc' : L.asCall x with
        | none => obtain ⟨a', n', h⟩ := this (pushMany (List.replicate (L.numOutputs x) true) s); exact ⟨a', n', List.mem_cons_of_mem _ h⟩
        | some t =>
          obtain ⟨a', n', h⟩ := this (pushMany ((List.range t.2.2).map (fun j => vis (eO t.1 j))) s)
          exact ⟨a', n', List.mem_cons_of_mem _ h⟩

theorem calls_rebuild [DecidablePred used] (hL : L.Lawful) {c d : Nat} (h : Calls (rebuildGet get used vis) c d) : Calls get c d := by
  obtain ⟨circ, hg, i, hi, a, n, hc⟩ := h
  simp only [rebuildGet] at hg
  split at hg
  · cases hg' : get c with
    | none => simp [hg'] at hg
    | some circ0 =>
      simp [hg'] at hg
      subst hg
      obtain ⟨insn, hm, s, ⟨h1, rfl⟩ | ⟨d', a', n', h1, rfl⟩⟩ := mem_rebuild hi
      · rw [hL.asCall_replace, h1] at hc; cases hc
      · rw [hL.asCall_mkCall] at hc; cases hc
        exact ⟨circ0, hg', insn, hm, a', n', h1⟩
  · cases hg

theorem rebuild_wf (hL : L.Lawful) {npi : Option Nat} [DecidablePred used] (hw : WFGet npi get) (hcl : Closed get used vis) :
    WFGet npi (rebuildGet get used vis) := by
  refine ⟨?_, ?_, ?_⟩
  · intro c circ' hg
    simp only [rebuildGet] at hg
    split at hg
    swap
    · cases hg
    rename_i hu
    cases hg' : get c with
    | none => simp [hg'] at hg
    | some circ =>
      simp [hg'] at hg
      subst hg
      have hok := hw.circ c circ hg'
      have hinl : (inFlags vis c circ.numInputs).length = circ.numInputs + 1 := by simp [inFlags]
      have hinv : VMInv (finalFlags L vis c 0 circ.instructions (inFlags vis c circ.numInputs))
          (rebuildInsns L vis c 0 circ.instructions (inputState vis c circ.numInputs)).2 :=
        rebuild_inv _ _ _ _ _ _ (inputState_inv vis c circ.numInputs)
      have hkeep := keep_final hL _ _ circ.numInputs _ hinl (hcl.edges c circ hu hg') (keep_inputs vis c _)
      have hlen : (finalFlags L vis c 0 circ.instructions (inFlags vis c circ.numInputs)).length =
          numVars circ.numInputs circ.instructions + 1 := by rw [finalFlags_length hL, hinl, numVars_add]
      obtain ⟨hn1, hn2⟩ := rebuilt_numInputs (L := L) vis c circ
      have hnv : numVars (rebuildCircuit vis c circ).numInputs (rebuildCircuit vis c circ).instructions =
          (rebuildInsns L vis c 0 circ.instructions (inputState vis c circ.numInputs)).2.2 := by
        rw [hn1, ← hn2]
        exact numVars_rebuild hL c _ _ _ _ (inputState_inv vis c circ.numInputs)
      have hcons : ∀ k ∈ circ.constraints, k.var ≠ 0 ∧
          (finalFlags L vis c 0 circ.instructions (inFlags vis c circ.numInputs))[k.var]? = some true := by
        intro k hk
        have hvb := hok.cons k hk
        exact ⟨hvb.2, hkeep k.var hvb.2 (by omega) (hcl.cons c circ hu hg' k hk)⟩
      have houts : ∀ v ∈ sel ((List.range' 0 circ.outputs.length).map (fun j => vis (eO c j))) circ.outputs, v ≠ 0 ∧
          (finalFlags L vis c 0 circ.instructions (inFlags vis c circ.numInputs))[v]? = some true := by
        intro v hv
        obtain ⟨j, h1, h2⟩ := sel_mem hv
        have hjl : j < circ.outputs.length := (List.getElem?_eq_some_iff.1 h1).1
        rw [← List.range_eq_range'] at h2
        have hjo : vis (eO c j) = true := by simpa [List.getElem?_range hjl] using h2
        have hvis : vis (eV c v) = true := by
          refine hcl.outs c circ hu hg' (eO c j, eV c v) ?_ hjo
          refine List.mem_map.2 ⟨(v, j), ?_, rfl⟩
          rw [List.mem_zipIdx_iff_getElem?]; exact h1
        have hvb := hok.outs v (List.mem_iff_getElem?.2 ⟨j, h1⟩)
        exact ⟨hvb.2, hkeep v hvb.2 (by omega) hvis⟩
      have houtEq : (rebuildCircuit vis c circ).outputs =
          (sel ((List.range' 0 circ.outputs.length).map (fun j => vis (eO c j))) circ.outputs).map
            (lk (rebuildInsns L vis c 0 circ.instructions (inputState vis c circ.numInputs)).2.1) := by
        show (_ : List Nat) = _
        unfold rebuildCircuit
        simp only
        rw [filter_zipIdx (fun j => vis (eO c j))]
      refine ⟨?_, ?_, ?_, ?_, ?_⟩
      · rw [hn1, ← hn2]
        exact rebuild_insnsOk hL c _ _ circ.numInputs _ _ (hcl.edges c circ hu hg') (hcl.duals c circ hu hg') hinl hok.insns
          (inputState_inv _ _ _) (keep_inputs _ _ _)
      · intro k hk
        rw [hnv]
        obtain ⟨k0, hk0, rfl⟩ := List.mem_map.1 hk
        exact lk_ok hinv (hcons k0 hk0).1 (hcons k0 hk0).2
      · rcases hok.consNodup with h | h
        · exact Or.inl h
        · right
          have e : ((rebuildCircuit vis c circ).constraints).map (·.var) = (circ.constraints.map (·.var)).map
              (lk (rebuildInsns L vis c 0 circ.instructions (inputState vis c circ.numInputs)).2.1) := by
            simp [rebuildCircuit, Constraint.replaceVar, Function.comp_def]
          rw [e]
          refine lk_nodup hinv _ ?_ h
          intro v hv
          obtain ⟨k, hk, rfl⟩ := List.mem_map.1 hv
          exact hcons k hk
      · intro o ho
        rw [hnv]
        rw [houtEq] at ho
        obtain ⟨v, hv, rfl⟩ := List.mem_map.1 ho
        exact lk_ok hinv (houts v hv).1 (houts v hv).2
      · rcases hok.outsNodup with h | h
        · exact Or.inl h
        · right
          rw [houtEq]
          exact lk_nodup hinv _ houts (h.sublist (sel_sublist _ _))
  · intro c circ' hg i hi d a n hc
    simp only [rebuildGet] at hg
    split at hg
    swap
    · cases hg
    rename_i hu
    cases hg' : get c with
    | none => simp [hg'] at hg
    | some circ =>
      simp [hg'] at hg
      subst hg
      obtain ⟨insn, hm, s, ⟨h1, rfl⟩ | ⟨d', a', n', h1, rfl⟩⟩ := mem_rebuild hi
      · rw [hL.asCall_replace, h1] at hc; cases hc
      · rw [hL.asCall_mkCall] at hc; cases hc
        obtain ⟨sub, hs, ha, hn⟩ := hw.calls c circ hg' insn hm _ _ _ h1
        have hud := hcl.calls c d hu ⟨circ, hg', insn, hm, a', n', h1⟩
        refine ⟨rebuildCircuit vis d sub, by simp [rebuildGet, hud, hs], ?_, ?_⟩
        · rw [(rebuilt_numInputs (L := L) vis d sub).1, List.length_map, filter_zipIdx (fun j => vis (eV d (j + 1))),
            sel_length (by simp), ← ha, List.range_eq_range']
        · unfold rebuildCircuit
          simp only
          rw [List.length_map, filter_zipIdx (fun j => vis (eO d j)), sel_length (by simp), ← hn, List.range_eq_range']
  · obtain ⟨r, hr⟩ := hw.dag
    exact ⟨r, fun c d h => hr c d (calls_rebuild hL h)⟩

theorem reach_rebuild [DecidablePred used] (hL : L.Lawful) (hcl : Closed get used vis) {c d : Nat}
    (h : Relation.ReflTransGen (Calls get) c d) (hd : vis (eC d) = true) :
    used c → Relation.ReflTransGen (Calls (rebuildGet get used vis)) c d ∧ vis (eC c) = true := by
  induction h using Relation.ReflTransGen.head_induction_on with
  | refl => intro _; exact ⟨.refl, hd⟩
  | head hce hed ih =>
    intro hu
    obtain ⟨circ, hg, i, hi, a, n, hc⟩ := id hce
    have hue := hcl.calls _ _ hu hce
    obtain ⟨h1, h2⟩ := ih hue
    obtain ⟨a', n', hm⟩ := kept_call (s := inputState vis _ circ.numInputs) hi hc (hcl.edges _ _ hu hg) h2
    refine ⟨Relation.ReflTransGen.head ?_ h1, ?_⟩
    · refine ⟨rebuildCircuit vis _ circ, by simp [rebuildGet, hu, hg], _, hm, a', n', hL.asCall_mkCall _ _ _⟩
    · exact hcl.edges _ _ hu hg _ (mem_insnEdges_call hi hc) h2

variable [DecidableEq F]

/-- `remove_unreachable` on a well-formed circuit: the pass succeeds, the result is well-formed, and evaluating it on the
mapped inputs agrees with the original circuit. -/
theorem removeUnreachable_correct' (hL : L.Lawful) (rc : RootCircuit L) {npi : Option Nat} (hk : rc.vertices.Nodup) (hw : WFAt npi rc)
    (root : Circuit L) (hroot : rc.get 0 = some root) :
    ∃ (rc' : RootCircuit L) (im : InputMapping), removeUnreachable rc = some (rc', im) ∧ rc'.vertices.Nodup ∧ WFAt npi rc' ∧
      im.curSize = root.numInputs ∧ rc'.numPublicInputs = rc.numPublicInputs ∧
      (∃ root', rc'.get 0 = some root' ∧ root'.numInputs = im.nextSize) ∧
      ∀ ins : List F, ins.length = root.numInputs → ∃ ins', im.mapInputs 0 ins = some ins' ∧
        (∀ outs b, Eval rc ins outs b → Eval rc' ins' outs b) ∧
        (L.Total → npi.isSome → ∀ outs b, Eval rc' ins' outs b → Eval rc ins outs b) := by
  obtain ⟨rc', im, order, vis, hrun, hp, hz, hget, hnd, hcl, h0, hro, him⟩ := removeUnreachable_closed rc hk hw hroot
  have hg' : rc'.get = rebuildGet rc.get (fun c => c ∈ order) vis := funext hget
  have hroot' : rc'.get 0 = some (rebuildCircuit vis 0 root) := by rw [hget, rebuildGet, if_pos h0, hroot]; rfl
  have hlm := inputMappingOf_length vis ((List.range root.numInputs).map (· + 1)) 0
  have hmm : ((List.range root.numInputs).map (· + 1)).map (fun i => vis (eV 0 i)) =
      (List.range root.numInputs).map (fun j => vis (eV 0 (j + 1))) := by simp [Function.comp_def]
  refine ⟨rc', im, hrun, hnd, ?_, ?_, hp, ⟨_, hroot', ?_⟩, ?_⟩
  · refine ⟨?_, rebuildCircuit vis 0 root, hroot', ?_, ?_⟩
    · rw [hg']; exact rebuild_wf hL hw.wf hcl
    · have : (rebuildCircuit vis 0 root).outputs.length = root.outputs.length := by
        unfold rebuildCircuit
        simp only
        rw [List.length_map, filter_zipIdx (fun j => vis (eO 0 j)), ← List.range_eq_range', sel_map_true hro]
      obtain ⟨root2, hr2, hle, _⟩ := hw.root
      rw [hroot] at hr2; cases hr2
      rw [this, hz]; exact hle
    · intro hout
      have hre : root.outputs = [] := by
        have : (rebuildCircuit vis 0 root).outputs.length = root.outputs.length := by
          unfold rebuildCircuit
          simp only
          rw [List.length_map, filter_zipIdx (fun j => vis (eO 0 j)), ← List.range_eq_range', sel_map_true hro]
        rw [hout] at this
        exact List.length_eq_zero_iff.1 (by simpa using this.symm)
      obtain ⟨root2, hr2, _, hne⟩ := hw.root
      rw [hroot] at hr2; cases hr2
      obtain ⟨d, circ, hreach, hg, hcn⟩ := hne hre
      have hud : d ∈ order := by
        clear hg hcn
        induction hreach with
        | refl => exact h0
        | tail _ h ih => exact hcl.calls _ _ ih h
      have hvd := hcl.conC d circ hud hg hcn
      refine ⟨d, rebuildCircuit vis d circ, ?_, by rw [hget, rebuildGet, if_pos hud, hg]; rfl, ?_⟩
      · rw [hg']
        exact (reach_rebuild hL hcl hreach hvd h0).1
      · simpa [rebuildCircuit] using hcn
  · rw [him]; simp [InputMapping.curSize, hlm.1]
  · rw [him, (rebuilt_numInputs (L := L) vis 0 root).1]
    simp only [hlm.2, hmm]; simp
  · intro ins hlen
    refine ⟨sel ((List.range root.numInputs).map (fun j => vis (eV 0 (j + 1)))) ins, ?_, ?_⟩
    · rw [him, inputMappingOf_mapInputs vis 0 _ ins (by simp [hlen]), hmm]
    · exact closed_eval hL rc rc' hw hroot hz hget hcl h0 hro (rebuilt_numInputs (L := L) vis 0 root).1 ins hlen

/-- The same for a circuit that passed validation. -/
theorem removeUnreachable_correct (hL : L.Lawful) (rc : RootCircuit L) (hk : rc.vertices.Nodup) (hw : WF rc)
    (root : Circuit L) (hroot : rc.get 0 = some root) :
    ∃ (rc' : RootCircuit L) (im : InputMapping), removeUnreachable rc = some (rc', im) ∧ rc'.vertices.Nodup ∧ WF rc' ∧
      im.curSize = root.numInputs ∧ rc'.numPublicInputs = rc.numPublicInputs ∧
      (∃ root', rc'.get 0 = some root' ∧ root'.numInputs = im.nextSize) ∧
      ∀ ins : List F, ins.length = root.numInputs → ∃ ins', im.mapInputs 0 ins = some ins' ∧
        (∀ outs b, Eval rc ins outs b → Eval rc' ins' outs b) ∧
        (L.Total → ∀ outs b, Eval rc' ins' outs b → Eval rc ins outs b) := by
  obtain ⟨rc', im, h1, h2, h3, h4, h5, h6, h7⟩ := removeUnreachable_correct' hL rc hk hw root hroot
  refine ⟨rc', im, h1, h2, by rw [WF, h5]; exact h3, h4, h5, h6, fun ins hl => ?_⟩
  obtain ⟨ins', a, b, c⟩ := h7 ins hl
  exact ⟨ins', a, b, fun hT => c hT rfl⟩

end Verif.IR
