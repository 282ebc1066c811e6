import Verif.IR.Dce

/-!
# `remove_unreachable` preserves meaning: proofs
-/

namespace Verif.IR

open Verif.Utils

variable {F : Type} {L : Lang F}

/-! ### Renumbering -/

structure VMInv (flags : List Bool) (s : List (Option Nat) × Nat) : Prop where
  head : flags[0]? = some true
  len : s.1.length = flags.length
  max : s.2 + 1 = flags.count true
  at' : ∀ v, v ≠ 0 → v < flags.length → s.1[v]? = some (if flags[v]? = some true then some (rank flags v) else none)

theorem pushMany_inv : ∀ (fs flags : List Bool) (s : List (Option Nat) × Nat), VMInv flags s →
    VMInv (flags ++ fs) (pushMany fs s) := by
  intro fs
  induction fs with
  | nil => intro flags s h; simpa [pushMany] using h
  | cons b fs ih =>
    intro flags s h
    obtain ⟨vm, m⟩ := s
    have hne : 0 < flags.length := by
      have := (List.getElem?_eq_some_iff.1 h.head).1; omega
    have e : flags ++ b :: fs = (flags ++ [b]) ++ fs := by simp
    have hlen : vm.length = flags.length := h.len
    have hmax : m + 1 = flags.count true := h.max
    have hhead : (flags ++ [b])[0]? = some true := by rw [List.getElem?_append_left hne]; exact h.head
    rw [e]
    have hold : ∀ (x : Option Nat) v, v ≠ 0 → v < flags.length → (vm ++ [x])[v]? =
        some (if (flags ++ [b])[v]? = some true then some (rank (flags ++ [b]) v) else none) := by
      intro x v hv hl
      rw [List.getElem?_append_left (by omega), List.getElem?_append_left hl, rank_append_left (by omega)]
      exact h.at' v hv hl
    cases b
    · simp only [pushMany]
      apply ih
      refine ⟨hhead, by simp [hlen], by simpa using hmax, ?_⟩
      intro v hv hl
      by_cases hvl : v < flags.length
      · exact hold none v hv hvl
      · have : v = flags.length := by simp at hl; omega
        subst this
        simp [← hlen]
    · simp only [pushMany]
      apply ih
      refine ⟨hhead, by simp [hlen], by simpa using hmax, ?_⟩
      intro v hv hl
      by_cases hvl : v < flags.length
      · exact hold _ v hv hvl
      · have : v = flags.length := by simp at hl; omega
        subst this
        have hr : rank (flags ++ [true]) flags.length = flags.count true := by
          simp [rank]
        rw [hr]
        simp [← hlen, hmax]

theorem lk_eq {flags s v} (h : VMInv flags s) (hv : v ≠ 0) (hf : flags[v]? = some true) : lk s.1 v = rank flags v := by
  have hl := (List.getElem?_eq_some_iff.1 hf).1
  rw [lk, h.at' v hv hl, if_pos hf]; rfl

/-- Which outputs of an instruction are kept. -/
def stepFlags (L : Lang F) (vis : Elem → Bool) (c i : Nat) (insn : L.Insn) : List Bool :=
  if vis (eI c i) = false then List.replicate (L.numOutputs insn) false
  else match L.asCall insn with
    | some (d, _, n) => (List.range n).map (fun j => vis (eO d j))
    | none => List.replicate (L.numOutputs insn) true

def finalFlags (L : Lang F) (vis : Elem → Bool) (c : Nat) : Nat → List L.Insn → List Bool → List Bool
  | _, [], fl => fl
  | i, insn :: is, fl => finalFlags L vis c (i + 1) is (fl ++ stepFlags L vis c i insn)

theorem rebuild_inv (vis : Elem → Bool) (c : Nat) : ∀ (is : List L.Insn) i fl s, VMInv fl s →
    VMInv (finalFlags L vis c i is fl) (rebuildInsns L vis c i is s).2 := by
  intro is
  induction is with
  | nil => intro i fl s h; exact h
  | cons insn is ih =>
    intro i fl s h
    simp only [finalFlags, rebuildInsns, stepFlags]
    split
    · exact ih _ _ _ (pushMany_inv _ _ _ h)
    · cases L.asCall insn <;> exact ih _ _ _ (pushMany_inv _ _ _ h)

theorem finalFlags_prefix (vis : Elem → Bool) (c : Nat) : ∀ (is : List L.Insn) i fl,
    ∃ t, finalFlags L vis c i is fl = fl ++ t := by
  intro is
  induction is with
  | nil => intro i fl; exact ⟨[], by simp [finalFlags]⟩
  | cons insn is ih =>
    intro i fl
    obtain ⟨t, ht⟩ := ih (i + 1) (fl ++ stepFlags L vis c i insn)
    exact ⟨stepFlags L vis c i insn ++ t, by simp [finalFlags, ht]⟩

/-- Flags for the inputs of a circuit (with the dummy variable 0). -/
def inFlags (vis : Elem → Bool) (c n : Nat) : List Bool := true :: (List.range n).map (fun j => vis (eV c (j + 1)))

theorem inputState_inv (vis : Elem → Bool) (c n : Nat) : VMInv (inFlags vis c n) (inputState vis c n) := by
  have h0 : VMInv [true] (([none], 0) : List (Option Nat) × Nat) :=
    ⟨rfl, rfl, rfl, fun v hv hl => by simp at hl; omega⟩
  exact pushMany_inv _ _ _ h0

variable [Field F]

theorem stepFlags_length (hL : L.Lawful) (vis : Elem → Bool) (c i : Nat) (insn : L.Insn) :
    (stepFlags L vis c i insn).length = L.numOutputs insn := by
  unfold stepFlags
  split
  · simp
  · split
    · rename_i h; simp [hL.call_numOutputs _ _ _ _ h]
    · simp

/-- "visited variables are kept", maintained along the instruction list. -/
def KeepOk (vis : Elem → Bool) (c : Nat) (fl : List Bool) : Prop :=
  ∀ v, v ≠ 0 → v < fl.length → vis (eV c v) = true → fl[v]? = some true

theorem keep_step (hL : L.Lawful) {vis : Elem → Bool} {c i cur : Nat} {insn : L.Insn} {fl : List Bool}
    (hfl : fl.length = cur + 1)
    (he : ∀ e ∈ insnEdges1 L c i cur insn, vis e.1 = true → vis e.2 = true)
    (hk : KeepOk vis c fl) : KeepOk vis c (fl ++ stepFlags L vis c i insn) := by
  intro v hv hl hvis
  by_cases h : v < fl.length
  · rw [List.getElem?_append_left h]; exact hk v hv h hvis
  · rw [List.getElem?_append_right (by omega)]
    have hsl := stepFlags_length hL vis c i insn
    rw [List.length_append, hsl] at hl
    obtain ⟨j, rfl⟩ : ∃ j, v = cur + 1 + j := ⟨v - (cur + 1), by omega⟩
    have hj : j < L.numOutputs insn := by omega
    rw [hfl, Nat.add_sub_cancel_left]
    unfold stepFlags insnEdges1 at *
    cases hc : L.asCall insn with
    | none =>
      rw [hc] at he
      have hi : vis (eI c i) = true := he (eV c (cur + 1 + j), eI c i)
        (List.mem_append_left _ (List.mem_map.2 ⟨j, List.mem_range.2 hj, rfl⟩)) hvis
      simp [hi, hj]
    | some t =>
      obtain ⟨d, a, n⟩ := t
      rw [hc] at he
      have hn := hL.call_numOutputs _ _ _ _ hc
      have hjn : j < n := by omega
      have hi : vis (eI c i) = true := he (eV c (cur + 1 + j), eI c i)
        (List.mem_append_left _ (List.mem_flatMap.2 ⟨j, List.mem_range.2 hjn, by simp⟩)) hvis
      have ho : vis (eO d j) = true := he (eV c (cur + 1 + j), eO d j)
        (List.mem_append_left _ (List.mem_flatMap.2 ⟨j, List.mem_range.2 hjn, by simp⟩)) hvis
      simp [hi, List.getElem?_range hjn, ho]

theorem keep_final (hL : L.Lawful) {vis : Elem → Bool} {c : Nat} : ∀ (is : List L.Insn) i cur fl, fl.length = cur + 1 →
    (∀ e ∈ insnEdges L c i cur is, vis e.1 = true → vis e.2 = true) → KeepOk vis c fl →
    KeepOk vis c (finalFlags L vis c i is fl) := by
  intro is
  induction is with
  | nil => intro i cur fl _ _ h; exact h
  | cons insn is ih =>
    intro i cur fl hl he hk
    refine ih _ (cur + L.numOutputs insn) _ ?_ (fun e h => he e (List.mem_append_right _ h)) ?_
    · rw [List.length_append, stepFlags_length hL, hl]; omega
    · exact keep_step hL hl (fun e h => he e (List.mem_append_left _ h)) hk

theorem finalFlags_length (hL : L.Lawful) (vis : Elem → Bool) (c : Nat) : ∀ (is : List L.Insn) i fl,
    (finalFlags L vis c i is fl).length = numVars fl.length is := by
  intro is
  induction is with
  | nil => intro i fl; rfl
  | cons insn is ih =>
    intro i fl
    rw [finalFlags, ih, numVars_cons, List.length_append, stepFlags_length hL]

theorem keep_inputs (vis : Elem → Bool) (c n : Nat) : KeepOk vis c (inFlags vis c n) := by
  intro v hv hl hvis
  obtain ⟨j, rfl⟩ : ∃ j, v = j + 1 := ⟨v - 1, by omega⟩
  simp [inFlags] at hl ⊢
  exact ⟨j, List.getElem?_range hl, hvis⟩

/-! ### Unconstrained circuits have a true verdict -/

variable {get : Nat → Option (Circuit L)} {used : Nat → Prop} {vis : Elem → Bool}

omit [Field F] in
theorem mem_insnEdges_call {c i cur : Nat} {is : List L.Insn} {insn : L.Insn} {d a n} (h : insn ∈ is)
    (hc : L.asCall insn = some (d, a, n)) : (eC d, eC c) ∈ insnEdges L c i cur is := by
  induction is generalizing i cur with
  | nil => simp at h
  | cons x is ih =>
    rcases List.mem_cons.1 h with rfl | h
    · refine List.mem_append_left _ ?_
      unfold insnEdges1; rw [hc]; simp
    · exact List.mem_append_right _ (ih h)

theorem unconstrained_true (hcl : Closed get used vis) {is vs vs' b} (h : Run get is vs vs' b) :
    ∀ c, used c → (∀ insn ∈ is, ∀ d a n, L.asCall insn = some (d, a, n) → used d ∧ vis (eC d) = false) → b = true := by
  induction h with
  | nil => intro c _ _; rfl
  | prim hc hp hr ih => intro c hu hs; exact ih c hu (fun x hx => hs x (by simp [hx]))
  | @call i is vs args svs res vs' b sb cb c a n circ hc hg ha hs hk ho hr ih1 ih2 =>
    intro c0 hu hcalls
    obtain ⟨hud, hvd⟩ := hcalls _ (by simp) _ _ _ hc
    have h2 := ih2 c0 hu (fun x hx => hcalls x (by simp [hx]))
    have h1 := ih1 c hud (by
      intro x hx d' a' n' hc'
      refine ⟨hcl.calls c d' hud ⟨circ, hg, x, hx, a', n', hc'⟩, ?_⟩
      by_contra hne
      have := hcl.edges c circ hud hg _ (mem_insnEdges_call hx hc') (by simpa using hne)
      simp [hvd] at this)
    have h3 : circ.constraints = [] := by
      by_contra hne
      have := hcl.conC c circ hud hg hne
      simp [hvd] at this
    rw [h3] at hk
    simp [checkCons] at hk
    subst hk; subst h1; subst h2; rfl

omit [Field F] in
theorem checkCons_sel {fs : List Bool} {vs : List F} (hl : fs.length = vs.length) {f : Nat → Nat} :
    ∀ (cs : List (Constraint L)), (∀ k ∈ cs, fs[k.var]? = some true ∧ f k.var = rank fs k.var) →
    checkCons (sel fs vs) (cs.map (fun k => k.replaceVar f)) = checkCons vs cs := by
  intro cs
  induction cs with
  | nil => intro _; rfl
  | cons k cs ih =>
    intro h
    have ⟨h1, h2⟩ := h k (by simp)
    simp only [List.map_cons, checkCons, Constraint.replaceVar, h2, sel_getElem hl h1]
    rw [← ih (fun k hk => h k (by simp [hk]))]
    rfl

theorem prim_sel (hL : L.Lawful) {i : L.Insn} (hc : L.asCall i = none) {fs : List Bool} {vs : List F}
    (hl : fs.length = vs.length) {f : Nat → Nat} (hf : ∀ v ∈ L.inputs i, fs[v]? = some true ∧ f v = rank fs v) (outs : List F) :
    L.prim (L.replaceVars i f) (fun v => (sel fs vs)[v]?) outs ↔ L.prim i (fun v => vs[v]?) outs := by
  rw [hL.prim_replace _ _ _ _ hc]
  have hv : ∀ v ∈ L.inputs i, (sel fs vs)[f v]? = vs[v]? := by
    intro v hv
    have ⟨h1, h2⟩ := hf v hv
    rw [h2, sel_getElem hl h1]
  constructor
  · exact hL.prim_local _ _ _ _ hc hv
  · exact hL.prim_local _ _ _ _ hc (fun v h => (hv v h).symm)

/-- The circuits after rebuilding. -/
def rebuildGet (get : Nat → Option (Circuit L)) (used : Nat → Prop) [DecidablePred used] (vis : Elem → Bool) (c : Nat) :
    Option (Circuit L) :=
  if used c then (get c).map (rebuildCircuit vis c) else none

/-- Everything we need to know about the final state of a rebuilt circuit. -/
theorem rebuilt_outputs (hL : L.Lawful) (hcl : Closed get used vis) {npi c circ} (hu : used c) (hg : get c = some circ)
    (hok : CircOk npi circ) {vs : List F} (hvl : vs.length = numVars (circ.numInputs + 1) circ.instructions) {outs : List F}
    (ho : readAll vs circ.outputs = some outs) {cb : Bool} (hk : checkCons vs circ.constraints = some cb) :
    let fl := finalFlags L vis c 0 circ.instructions (inFlags vis c circ.numInputs)
    readAll (sel fl vs) (rebuildCircuit vis c circ).outputs =
      some (sel ((List.range circ.outputs.length).map (fun j => vis (eO c j))) outs) ∧
    checkCons (sel fl vs) (rebuildCircuit vis c circ).constraints = some cb := by
  intro fl
  have hinl : (inFlags vis c circ.numInputs).length = circ.numInputs + 1 := by simp [inFlags]
  have hfl : fl.length = vs.length := by
    rw [finalFlags_length hL, hinl, hvl]
  have hinv : VMInv fl (rebuildInsns L vis c 0 circ.instructions (inputState vis c circ.numInputs)).2 :=
    rebuild_inv _ _ _ _ _ _ (inputState_inv vis c circ.numInputs)
  have hkeep : KeepOk vis c fl := keep_final hL _ _ circ.numInputs _ hinl (hcl.edges c circ hu hg) (keep_inputs vis c _)
  have hlen : fl.length = numVars circ.numInputs circ.instructions + 1 := by rw [hfl, hvl, numVars_add]
  constructor
  · unfold rebuildCircuit
    simp only
    rw [filter_zipIdx (fun j => vis (eO c j)), ← List.range_eq_range']
    apply readAll_sel hfl _ _ _ (by simp) ho
    intro j v hj hv
    have hjl : j < circ.outputs.length := (List.getElem?_eq_some_iff.1 hv).1
    have hjo : vis (eO c j) = true := by simpa [List.getElem?_range hjl] using hj
    have hvis : vis (eV c v) = true := by
      refine hcl.outs c circ hu hg (eO c j, eV c v) ?_ hjo
      refine List.mem_map.2 ⟨(v, j), ?_, rfl⟩
      rw [List.mem_zipIdx_iff_getElem?]; exact hv
    have hvb := hok.outs v (List.mem_iff_getElem?.2 ⟨j, hv⟩)
    have hfv := hkeep v hvb.2 (by omega) hvis
    exact ⟨hfv, lk_eq hinv hvb.2 hfv⟩
  · unfold rebuildCircuit
    simp only
    rw [← hk]
    apply checkCons_sel hfl
    intro k hk
    have hvb := hok.cons k hk
    have hfv := hkeep k.var hvb.2 (by omega) (hcl.cons c circ hu hg k hk)
    exact ⟨hfv, lk_eq hinv hvb.2 hfv⟩

/-- Arguments of a kept call. -/
theorem call_args {npi : Option Nat} (hL : L.Lawful) {c i cur : Nat} {insn : L.Insn} {d : Nat} {a : List Nat} {n : Nat} {fl : List Bool}
    {s : List (Option Nat) × Nat} {vs args : List F} {is : List L.Insn}
    (hc : L.asCall insn = some (d, a, n)) (hvl : vs.length = cur + 1) (hfl : fl.length = cur + 1)
    (hok : InsnsOk L npi cur (insn :: is)) (hinv : VMInv fl s) (hk : KeepOk vis c fl)
    (hd : ∀ e ∈ insnDuals1 L c i insn, vis e.1 = true → vis e.2.1 = true → vis e.2.2 = true) (hi : vis (eI c i) = true)
    (ha : readAll vs a = some args) :
    readAll (sel fl vs) (((a.zipIdx.filter (fun p => vis (eV d (p.2 + 1)))).map (·.1)).map (lk s.1)) =
      some (sel ((List.range a.length).map (fun j => vis (eV d (j + 1)))) args) := by
  rw [filter_zipIdx (fun j => vis (eV d (j + 1))), ← List.range_eq_range']
  apply readAll_sel (by omega) _ _ _ (by simp) ha
  intro j v hj hv
  have hjl : j < a.length := (List.getElem?_eq_some_iff.1 hv).1
  have hjo : vis (eV d (j + 1)) = true := by simpa [List.getElem?_range hjl] using hj
  have hvis : vis (eV c v) = true := by
    refine hd (eI c i, eV d (j + 1), eV c v) ?_ hi hjo
    unfold insnDuals1
    rw [hc]
    refine List.mem_flatMap.2 ⟨(v, j), ?_, by simp⟩
    rw [List.mem_zipIdx_iff_getElem?]; exact hv
  have hvb := hok.1 v (by rw [hL.call_inputs _ _ _ _ hc]; exact List.mem_iff_getElem?.2 ⟨j, hv⟩)
  have hfv := hk v hvb.2 (by omega) hvis
  exact ⟨hfv, lk_eq hinv hvb.2 hfv⟩

/-- Forward simulation. -/
theorem dce_forward (hL : L.Lawful) {npi : Option Nat} [DecidablePred used] (hw : WFGet npi get) (hcl : Closed get used vis)
    {is : List L.Insn} {vs vs' : List F} {b : Bool} (h : Run get is vs vs' b) :
    ∀ c i cur fl s, used c → (∀ d a n, ∀ insn ∈ is, L.asCall insn = some (d, a, n) → used d) →
      (∀ e ∈ insnEdges L c i cur is, vis e.1 = true → vis e.2 = true) →
      (∀ e ∈ insnDuals L c i is, vis e.1 = true → vis e.2.1 = true → vis e.2.2 = true) →
      vs.length = cur + 1 → fl.length = cur + 1 → InsnsOk L npi cur is → CallsOk get is →
      VMInv fl s → KeepOk vis c fl →
      Run (rebuildGet get used vis) (rebuildInsns L vis c i is s).1 (sel fl vs) (sel (finalFlags L vis c i is fl) vs') b := by
  induction h with
  | nil vs =>
    intro c i cur fl s _ _ _ _ _ _ _ _ _ _
    exact Run.nil _
  | @prim insn is vs outs vs' b hc hp hr ih =>
    intro c i cur fl s hu hcu he hd hvl hfl hok hco hinv hkp
    have hol := hL.prim_length _ _ _ hc hp
    have hsl := stepFlags_length hL vis c i insn
    have ih := ih c (i + 1) (cur + L.numOutputs insn) (fl ++ stepFlags L vis c i insn)
    have hkp' := keep_step hL hfl (fun e h => he e (List.mem_append_left _ h)) hkp
    simp only [rebuildInsns, finalFlags, hc]
    split
    · rename_i hvi
      have hsf : stepFlags L vis c i insn = List.replicate (L.numOutputs insn) false := by simp [stepFlags, hvi]
      have := ih (pushMany (List.replicate (L.numOutputs insn) false) s) hu (fun d a n x hx => hcu d a n x (by simp [hx]))
        (fun e h => he e (List.mem_append_right _ h)) (fun e h => hd e (List.mem_append_right _ h))
        (by rw [List.length_append]; omega) (by rw [List.length_append]; omega) hok.2.2.2
        (fun x hx => hco x (by simp [hx])) (hsf ▸ pushMany_inv _ _ _ hinv) hkp'
      rw [sel_append (by omega), hsf, sel_all_false, List.append_nil] at this
      rw [hsf]; exact this
    · rename_i hvi
      have hsf : stepFlags L vis c i insn = List.replicate (L.numOutputs insn) true := by simp [stepFlags, hvi, hc]
      have := ih (pushMany (List.replicate (L.numOutputs insn) true) s) hu (fun d a n x hx => hcu d a n x (by simp [hx]))
        (fun e h => he e (List.mem_append_right _ h)) (fun e h => hd e (List.mem_append_right _ h))
        (by rw [List.length_append]; omega) (by rw [List.length_append]; omega) hok.2.2.2
        (fun x hx => hco x (by simp [hx])) (hsf ▸ pushMany_inv _ _ _ hinv) hkp'
      rw [sel_append (by omega), hsf, ← hol, sel_all_true, hol] at this
      rw [hsf]
      refine Run.prim (outs := outs) (by rw [hL.asCall_replace, hc]; rfl) ?_ this
      rw [prim_sel hL hc (by omega)]
      · exact hp
      · intro v hv
        have hvb := hok.1 v hv
        have hvis : vis (eV c v) = true := by
          refine he (eI c i, eV c v) (List.mem_append_left _ ?_) (by simpa using hvi)
          unfold insnEdges1; rw [hc]
          exact List.mem_append_right _ (List.mem_map.2 ⟨v, hv, rfl⟩)
        have hfv := hkp v hvb.2 (by omega) hvis
        exact ⟨hfv, lk_eq hinv hvb.2 hfv⟩
  | @call insn is vs args svs res vs' b sb cb d a n circ hc hg ha hs hk ho hr ih1 ih2 =>
    intro c i cur fl s hu hcu he hd hvl hfl hok hco hinv hkp
    have hud : used d := hcu d a n insn (by simp) hc
    obtain ⟨circ', hg', hal, hnl⟩ := hco _ (by simp) _ _ _ hc
    rw [hg] at hg'; cases hg'
    have hno := hL.call_numOutputs _ _ _ _ hc
    have hrl := readAll_length ho
    have hsl := stepFlags_length hL vis c i insn
    have hcok := hw.circ _ _ hg
    have hcco := hw.calls _ _ hg
    have hl0 : (0 :: args : List F).length = circ.numInputs + 1 := by simp [readAll_length ha, hal]
    have hsvl := Run.length hL hcco hs _ hl0
    have hkp' := keep_step hL hfl (fun e h => he e (List.mem_append_left _ h)) hkp
    have ih2 := ih2 c (i + 1) (cur + L.numOutputs insn) (fl ++ stepFlags L vis c i insn)
    simp only [rebuildInsns, finalFlags, hc]
    split
    · rename_i hvi
      have hsf : stepFlags L vis c i insn = List.replicate (L.numOutputs insn) false := by simp [stepFlags, hvi]
      have this := ih2 (pushMany (List.replicate (L.numOutputs insn) false) s) hu (fun d a n x hx => hcu d a n x (by simp [hx]))
        (fun e h => he e (List.mem_append_right _ h)) (fun e h => hd e (List.mem_append_right _ h))
        (by rw [List.length_append]; omega) (by rw [List.length_append]; omega) hok.2.2.2
        (fun x hx => hco x (by simp [hx])) (hsf ▸ pushMany_inv _ _ _ hinv) hkp'
      rw [sel_append (by omega), hsf, sel_all_false, List.append_nil] at this
      have hvd : vis (eC d) = false := by
        by_contra hne
        have := he (eC d, eI c i) (List.mem_append_left _ (by unfold insnEdges1; rw [hc]; simp)) (by simpa using hne)
        simp [hvi] at this
      have hsb : sb = true := unconstrained_true hcl hs d hud (by
        intro x hx d' a' n' hc'
        refine ⟨hcl.calls d d' hud ⟨circ, hg, x, hx, a', n', hc'⟩, ?_⟩
        by_contra hne
        have := hcl.edges d circ hud hg _ (mem_insnEdges_call hx hc') (by simpa using hne)
        simp [hvd] at this)
      have hcb : cb = true := by
        have : circ.constraints = [] := by
          by_contra hne
          have := hcl.conC d circ hud hg hne
          simp [hvd] at this
        rw [this] at hk; simpa [checkCons] using hk.symm
      rw [hsb, hcb, hsf]; simpa using this
    · rename_i hvi
      have hvi' : vis (eI c i) = true := by simpa using hvi
      have hsf : stepFlags L vis c i insn = (List.range n).map (fun j => vis (eO d j)) := by
        simp [stepFlags, hvi', hc]
      have this := ih2 (pushMany ((List.range n).map (fun j => vis (eO d j))) s) hu (fun d a n x hx => hcu d a n x (by simp [hx]))
        (fun e h => he e (List.mem_append_right _ h)) (fun e h => hd e (List.mem_append_right _ h))
        (by rw [List.length_append]; omega) (by rw [List.length_append]; omega) hok.2.2.2
        (fun x hx => hco x (by simp [hx])) (hsf ▸ pushMany_inv _ _ _ hinv) hkp'
      rw [sel_append (by omega), hsf] at this
      have hargs := call_args hL (i := i) hc hvl hfl hok hinv hkp (fun e h => hd e (List.mem_append_left _ h)) hvi' ha
      have ih1 := ih1 d 0 circ.numInputs (inFlags vis d circ.numInputs) (inputState vis d circ.numInputs) hud
        (fun d' a' n' x hx hc' => hcl.calls d d' hud ⟨circ, hg, x, hx, a', n', hc'⟩)
        (hcl.edges d circ hud hg) (hcl.duals d circ hud hg) hl0 (by simp [inFlags]) hcok.insns hcco
        (inputState_inv _ _ _) (keep_inputs _ _ _)
      have hsel0 : sel (inFlags vis d circ.numInputs) (0 :: args) =
          0 :: sel ((List.range a.length).map (fun j => vis (eV d (j + 1)))) args := by
        simp [inFlags, sel, hal]
      rw [hsel0] at ih1
      obtain ⟨h1, h2⟩ := rebuilt_outputs hL hcl hud hg hcok hsvl ho hk
      rw [← hnl] at h1
      rw [hsf]
      exact Run.call (hL.asCall_mkCall _ _ _) (circ := rebuildCircuit vis d circ)
        (by simp [rebuildGet, hud, hg]) hargs ih1 h2 h1 this

/-- Backward simulation, for languages whose instructions cannot fail. -/
theorem dce_backward (hT : L.Total) (hL : L.Lawful) {npi : Nat} [DecidablePred used] (hw : WFGet (some npi) get) (hcl : Closed get used vis)
    {r : Nat → Nat} (hr : ∀ c d, Calls get c d → r d < r c) :
    ∀ k (is : List L.Insn) c i cur fl s (vs ws : List F) b,
      (∀ insn ∈ is, ∀ d a n, L.asCall insn = some (d, a, n) → r d < k) →
      used c → (∀ d a n, ∀ insn ∈ is, L.asCall insn = some (d, a, n) → used d) →
      (∀ e ∈ insnEdges L c i cur is, vis e.1 = true → vis e.2 = true) →
      (∀ e ∈ insnDuals L c i is, vis e.1 = true → vis e.2.1 = true → vis e.2.2 = true) →
      vs.length = cur + 1 → fl.length = cur + 1 → InsnsOk L (some npi) cur is → CallsOk get is →
      VMInv fl s → KeepOk vis c fl →
      Run (rebuildGet get used vis) (rebuildInsns L vis c i is s).1 (sel fl vs) ws b →
      ∃ vs', Run get is vs vs' b ∧ ws = sel (finalFlags L vis c i is fl) vs' := by
  intro k
  induction k using Nat.strong_induction_on with
  | _ k ihk =>
  intro is
  induction is with
  | nil =>
    intro c i cur fl s vs ws b _ _ _ _ _ _ _ _ _ _ _ h
    simp only [rebuildInsns] at h
    cases h
    exact ⟨vs, Run.nil _, rfl⟩
  | cons insn is ih =>
    intro c i cur fl s vs ws b hrk hu hcu he hd hvl hfl hok hco hinv hkp h
    have hsl := stepFlags_length hL vis c i insn
    have hkp' := keep_step hL hfl (fun e h => he e (List.mem_append_left _ h)) hkp
    have ih := ih c (i + 1) (cur + L.numOutputs insn) (fl ++ stepFlags L vis c i insn)
    have hdef : ∀ v ∈ L.inputs insn, v < vs.length := fun v hv => by have := hok.1 v hv; omega
    cases hc : L.asCall insn with
    | none =>
      simp only [rebuildInsns, finalFlags, hc] at h ⊢
      split at h
      · rename_i hvi
        have hsf : stepFlags L vis c i insn = List.replicate (L.numOutputs insn) false := by simp [stepFlags, hvi]
        obtain ⟨outs, hp⟩ := hT npi insn (fun v => vs[v]?) hc hok.2.1 (fun v hv => by
          simp [List.getElem?_eq_getElem (hdef v hv)])
        have hol := hL.prim_length _ _ _ hc hp
        obtain ⟨vs', h1, h2⟩ := ih (pushMany (List.replicate (L.numOutputs insn) false) s) (vs ++ outs) ws b
          (fun x hx => hrk x (by simp [hx])) hu (fun d a n x hx => hcu d a n x (by simp [hx]))
          (fun e h => he e (List.mem_append_right _ h)) (fun e h => hd e (List.mem_append_right _ h))
          (by rw [List.length_append]; omega) (by rw [List.length_append]; omega) hok.2.2.2
          (fun x hx => hco x (by simp [hx])) (hsf ▸ pushMany_inv _ _ _ hinv) hkp'
          (by rw [sel_append (by omega), hsf, sel_all_false, List.append_nil]; exact h)
        exact ⟨vs', Run.prim hc hp h1, h2⟩
      · rename_i hvi
        have hsf : stepFlags L vis c i insn = List.replicate (L.numOutputs insn) true := by simp [stepFlags, hvi, hc]
        have hc' : L.asCall (L.replaceVars insn (lk s.1)) = none := by rw [hL.asCall_replace, hc]; rfl
        cases h with
        | call hcc => rw [hc'] at hcc; cases hcc
        | @prim _ _ _ outs _ _ _ hp h =>
          rw [prim_sel hL hc (by omega)] at hp
          · have hol := hL.prim_length _ _ _ hc hp
            obtain ⟨vs', h1, h2⟩ := ih (pushMany (List.replicate (L.numOutputs insn) true) s) (vs ++ outs) ws b
              (fun x hx => hrk x (by simp [hx])) hu (fun d a n x hx => hcu d a n x (by simp [hx]))
              (fun e h => he e (List.mem_append_right _ h)) (fun e h => hd e (List.mem_append_right _ h))
              (by rw [List.length_append]; omega) (by rw [List.length_append]; omega) hok.2.2.2
              (fun x hx => hco x (by simp [hx])) (hsf ▸ pushMany_inv _ _ _ hinv) hkp'
              (by rw [sel_append (by omega), hsf, ← hol, sel_all_true, hol]; exact h)
            exact ⟨vs', Run.prim hc hp h1, h2⟩
          · intro v hv
            have hvb := hok.1 v hv
            have hvis : vis (eV c v) = true := by
              refine he (eI c i, eV c v) (List.mem_append_left _ ?_) (by simpa using hvi)
              unfold insnEdges1; rw [hc]
              exact List.mem_append_right _ (List.mem_map.2 ⟨v, hv, rfl⟩)
            have hfv := hkp v hvb.2 (by omega) hvis
            exact ⟨hfv, lk_eq hinv hvb.2 hfv⟩
    | some t =>
      obtain ⟨d, a, n⟩ := t
      have hud : used d := hcu d a n insn (by simp) hc
      obtain ⟨circ, hg, hal, hnl⟩ := hco _ (by simp) _ _ _ hc
      have hno := hL.call_numOutputs _ _ _ _ hc
      have hcok := hw.circ _ _ hg
      have hcco := hw.calls _ _ hg
      obtain ⟨args, ha⟩ := readAll_isSome (vs := vs) (is := a) (fun v hv => hdef v (by rw [hL.call_inputs _ _ _ _ hc]; exact hv))
      have hl0 : (0 :: args : List F).length = circ.numInputs + 1 := by simp [readAll_length ha, hal]
      have hrd : r d < k := hrk insn (by simp) d a n hc
      have hcalls : ∀ x ∈ circ.instructions, ∀ d' a' n', L.asCall x = some (d', a', n') → r d' < r d :=
        fun x hx d' a' n' hc' => hr d d' ⟨circ, hg, x, hx, a', n', hc'⟩
      have hfin : ∀ svs sb, Run get circ.instructions (0 :: args) svs sb → ∃ cb res,
          checkCons svs circ.constraints = some cb ∧ readAll svs circ.outputs = some res ∧
          svs.length = numVars (circ.numInputs + 1) circ.instructions := by
        intro svs sb hs
        have hsl := Run.length hL hcco hs _ hl0
        have hsl' := hsl
        rw [numVars_add] at hsl'
        obtain ⟨cb, h1⟩ := checkCons_isSome (vs := svs) (cs := circ.constraints)
          (fun c hc => by have := hcok.cons c hc; omega)
        obtain ⟨res, h2⟩ := readAll_isSome (vs := svs) (is := circ.outputs)
          (fun c hc => by have := hcok.outs c hc; omega)
        exact ⟨cb, res, h1, h2, hsl⟩
      simp only [rebuildInsns, finalFlags, hc] at h ⊢
      split at h
      · rename_i hvi
        have hsf : stepFlags L vis c i insn = List.replicate (L.numOutputs insn) false := by simp [stepFlags, hvi]
        rcases run_or_fails hL hw hr (r d) circ.instructions (0 :: args) _ hcalls hl0 hcok.insns hcco with ⟨svs, sb, hs⟩ | hf
        swap
        · exact (not_fails hT hL hw hf _ hl0 hcok.insns hcco).elim
        obtain ⟨cb, res, hk, ho, hsvl⟩ := hfin svs sb hs
        have hrl := readAll_length ho
        obtain ⟨vs', h1, h2⟩ := ih (pushMany (List.replicate (L.numOutputs insn) false) s) (vs ++ res) ws b
          (fun x hx => hrk x (by simp [hx])) hu (fun d a n x hx => hcu d a n x (by simp [hx]))
          (fun e h => he e (List.mem_append_right _ h)) (fun e h => hd e (List.mem_append_right _ h))
          (by rw [List.length_append]; omega) (by rw [List.length_append]; omega) hok.2.2.2
          (fun x hx => hco x (by simp [hx])) (hsf ▸ pushMany_inv _ _ _ hinv) hkp'
          (by rw [sel_append (by omega), hsf, sel_all_false, List.append_nil]; exact h)
        have hvd : vis (eC d) = false := by
          by_contra hne
          have := he (eC d, eI c i) (List.mem_append_left _ (by unfold insnEdges1; rw [hc]; simp)) (by simpa using hne)
          simp [hvi] at this
        have hsb : sb = true := unconstrained_true hcl hs d hud (by
          intro x hx d' a' n' hc'
          refine ⟨hcl.calls d d' hud ⟨circ, hg, x, hx, a', n', hc'⟩, ?_⟩
          by_contra hne
          have := hcl.edges d circ hud hg _ (mem_insnEdges_call hx hc') (by simpa using hne)
          simp [hvd] at this)
        have hcb : cb = true := by
          have : circ.constraints = [] := by
            by_contra hne
            have := hcl.conC d circ hud hg hne
            simp [hvd] at this
          rw [this] at hk; simpa [checkCons] using hk.symm
        refine ⟨vs', ?_, h2⟩
        have := Run.call hc hg ha hs hk ho h1
        rw [hsb, hcb] at this; simpa using this
      · rename_i hvi
        have hvi' : vis (eI c i) = true := by simpa using hvi
        have hsf : stepFlags L vis c i insn = (List.range n).map (fun j => vis (eO d j)) := by
          simp [stepFlags, hvi', hc]
        have hargs := call_args hL (i := i) hc hvl hfl hok hinv hkp (fun e h => hd e (List.mem_append_left _ h)) hvi' ha
        cases h with
        | prim hcc => rw [hL.asCall_mkCall] at hcc; cases hcc
        | @call _ _ _ args2 svs2 res2 _ b2 sb2 cb2 c2 a2 n2 circ2 hc2 hg2 ha2 hs2 hk2 ho2 h2 =>
          rw [hL.asCall_mkCall] at hc2
          cases hc2
          simp only [rebuildGet, hud, if_true, hg, Option.map_some, Option.some.injEq] at hg2
          subst hg2
          rw [hargs] at ha2
          cases ha2
          have hsel0 : (0 :: sel ((List.range a.length).map (fun j => vis (eV d (j + 1)))) args : List F) =
              sel (inFlags vis d circ.numInputs) (0 :: args) := by
            simp [inFlags, sel, hal]
          rw [hsel0] at hs2
          obtain ⟨svs, hs, hsv⟩ := ihk (r d) hrd circ.instructions d 0 circ.numInputs (inFlags vis d circ.numInputs)
            (inputState vis d circ.numInputs) (0 :: args) svs2 sb2 hcalls hud
            (fun d' a' n' x hx hc' => hcl.calls d d' hud ⟨circ, hg, x, hx, a', n', hc'⟩)
            (hcl.edges d circ hud hg) (hcl.duals d circ hud hg) hl0 (by simp [inFlags]) hcok.insns hcco
            (inputState_inv _ _ _) (keep_inputs _ _ _) hs2
          obtain ⟨cb, res, hk, ho, hsvl⟩ := hfin svs sb2 hs
          have hrl := readAll_length ho
          obtain ⟨e1, e2⟩ := rebuilt_outputs hL hcl hud hg hcok hsvl ho hk
          rw [← hsv] at e1 e2
          rw [hk2] at e2; cases e2
          rw [ho2] at e1; cases e1
          rw [← hnl] at h2
          obtain ⟨vs', h1, h2⟩ := ih (pushMany ((List.range n).map (fun j => vis (eO d j))) s) (vs ++ res) ws b2
            (fun x hx => hrk x (by simp [hx])) hu (fun d a n x hx => hcu d a n x (by simp [hx]))
            (fun e h => he e (List.mem_append_right _ h)) (fun e h => hd e (List.mem_append_right _ h))
            (by rw [List.length_append]; omega) (by rw [List.length_append]; omega) hok.2.2.2
            (fun x hx => hco x (by simp [hx])) (hsf ▸ pushMany_inv _ _ _ hinv) hkp'
            (by rw [sel_append (by omega), hsf]; exact h2)
          exact ⟨vs', Run.call hc hg ha hs hk ho h1, h2⟩

end Verif.IR
