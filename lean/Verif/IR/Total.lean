import Verif.IR.Validate

/-!
# Evaluation of validated circuits (generic part of C01)
-/

namespace Verif.IR

variable {F : Type} {L : Lang F} [Field F]

/-- Some evaluation path returns `Err` (an instruction whose operands are all defined has no outcome, e.g. a checked
division by zero; `EvalResult::Error`, common/mod.rs:327-329). -/
inductive Fails (get : Nat → Option (Circuit L)) : List L.Insn → List F → Prop
  | here {i is} {vs : List F} (hc : L.asCall i = none) (hd : ∀ v ∈ L.inputs i, (vs[v]?).isSome)
      (hp : ∀ outs, ¬ L.prim i (fun v => vs[v]?) outs) : Fails get (i :: is) vs
  | later {i is} {vs outs : List F} (hc : L.asCall i = none) (hp : L.prim i (fun v => vs[v]?) outs)
      (hf : Fails get is (vs ++ outs)) : Fails get (i :: is) vs
  | inside {i is} {vs args : List F} {c a n circ} (hc : L.asCall i = some (c, a, n)) (hg : get c = some circ)
      (ha : readAll vs a = some args) (hf : Fails get circ.instructions (0 :: args)) : Fails get (i :: is) vs
  | after {i is} {vs args svs res : List F} {sb c a n circ} (hc : L.asCall i = some (c, a, n)) (hg : get c = some circ)
      (ha : readAll vs a = some args) (hs : Run get circ.instructions (0 :: args) svs sb)
      (ho : readAll svs circ.outputs = some res) (hf : Fails get is (vs ++ res)) : Fails get (i :: is) vs

/-- Some evaluation path panics: an undefined variable is read or a missing sub-circuit is called. -/
inductive Panics (get : Nat → Option (Circuit L)) : List L.Insn → List F → Prop
  | read {i is} {vs : List F} {v} (hc : L.asCall i = none) (hv : v ∈ L.inputs i) (hn : vs[v]? = none) : Panics get (i :: is) vs
  | later {i is} {vs outs : List F} (hc : L.asCall i = none) (hp : L.prim i (fun v => vs[v]?) outs)
      (hf : Panics get is (vs ++ outs)) : Panics get (i :: is) vs
  | missing {i is} {vs : List F} {c a n} (hc : L.asCall i = some (c, a, n)) (hg : get c = none) : Panics get (i :: is) vs
  | arg {i is} {vs : List F} {c a n} (hc : L.asCall i = some (c, a, n)) (ha : readAll vs a = none) : Panics get (i :: is) vs
  | inside {i is} {vs args : List F} {c a n circ} (hc : L.asCall i = some (c, a, n)) (hg : get c = some circ)
      (ha : readAll vs a = some args) (hf : Panics get circ.instructions (0 :: args)) : Panics get (i :: is) vs
  | cons {i is} {vs args svs : List F} {sb c a n circ} (hc : L.asCall i = some (c, a, n)) (hg : get c = some circ)
      (ha : readAll vs a = some args) (hs : Run get circ.instructions (0 :: args) svs sb)
      (hk : checkCons svs circ.constraints = none) : Panics get (i :: is) vs
  | outs {i is} {vs args svs : List F} {sb c a n circ} (hc : L.asCall i = some (c, a, n)) (hg : get c = some circ)
      (ha : readAll vs a = some args) (hs : Run get circ.instructions (0 :: args) svs sb)
      (ho : readAll svs circ.outputs = none) : Panics get (i :: is) vs
  | after {i is} {vs args svs res : List F} {sb c a n circ} (hc : L.asCall i = some (c, a, n)) (hg : get c = some circ)
      (ha : readAll vs a = some args) (hs : Run get circ.instructions (0 :: args) svs sb)
      (ho : readAll svs circ.outputs = some res) (hf : Panics get is (vs ++ res)) : Panics get (i :: is) vs

/-- `eval_unsafe_with_errors` returns `Err`. -/
def EvalFails (rc : RootCircuit L) (ins : List F) : Prop :=
  ∃ root, rc.get 0 = some root ∧ Fails rc.get root.instructions (0 :: ins)

/-- `eval_unsafe_with_errors` panics (common/mod.rs:285-342): wrong number of inputs, no root, an undefined read, or
`split_at` past the end. -/
def EvalPanics (rc : RootCircuit L) (ins : List F) : Prop :=
  rc.get 0 = none ∨ ∃ root, rc.get 0 = some root ∧
    (ins.length ≠ root.numInputs ∨ Panics rc.get root.instructions (0 :: ins) ∨
      ∃ vs b, Run rc.get root.instructions (0 :: ins) vs b ∧
        (checkCons vs root.constraints = none ∨ readAll vs root.outputs = none ∨
          ∃ all, readAll vs root.outputs = some all ∧ all.length < rc.expectedNumOutputZeroes))

omit [Field F] in
theorem readAll_length {vs : List F} : ∀ {is xs}, readAll vs is = some xs → xs.length = is.length := by
  intro is
  induction is with
  | nil => intro xs h; simp [readAll] at h; simp [h]
  | cons i is ih =>
    intro xs h
    simp only [readAll] at h
    split at h
    · rename_i h1 h2; simp at h; subst h; simp [ih h2]
    · cases h

omit [Field F] in
theorem readAll_isSome {vs : List F} : ∀ {is}, (∀ i ∈ is, i < vs.length) → ∃ xs, readAll vs is = some xs := by
  intro is
  induction is with
  | nil => intro _; exact ⟨[], rfl⟩
  | cons i is ih =>
    intro h
    obtain ⟨xs, hx⟩ := ih (fun j hj => h j (by simp [hj]))
    have hi : vs[i]? = some (vs[i]'(h i (by simp))) := List.getElem?_eq_getElem (h i (by simp))
    exact ⟨_, by simp only [readAll, hi, hx]; rfl⟩

omit [Field F] in
theorem checkCons_isSome {vs : List F} : ∀ {cs : List (Constraint L)}, (∀ c ∈ cs, c.var < vs.length) →
    ∃ b, checkCons vs cs = some b := by
  intro cs
  induction cs with
  | nil => intro _; exact ⟨true, rfl⟩
  | cons c cs ih =>
    intro h
    obtain ⟨xs, hx⟩ := ih (fun j hj => h j (by simp [hj]))
    have hi : vs[c.var]? = some (vs[c.var]'(h c (by simp))) := List.getElem?_eq_getElem (h c (by simp))
    exact ⟨_, by simp only [checkCons, hi, hx]; rfl⟩

omit [Field F] in
theorem numVars_cons (n : Nat) (i : L.Insn) (is : List L.Insn) :
    numVars n (i :: is) = numVars (n + L.numOutputs i) is := rfl

omit [Field F] in
theorem numVars_add (n k : Nat) (is : List L.Insn) : numVars (n + k) is = numVars n is + k := by
  induction is generalizing n with
  | nil => rfl
  | cons i is ih =>
    rw [numVars_cons, numVars_cons, ← ih]
    congr 1; omega

omit [Field F] in
theorem le_numVars (n : Nat) (is : List L.Insn) : n ≤ numVars n is := by
  induction is generalizing n with
  | nil => exact Nat.le_refl _
  | cons i is ih =>
    rw [numVars_cons]
    have := ih (n + L.numOutputs i)
    omega

omit [Field F] in
theorem numVars_append (n : Nat) (is js : List L.Insn) : numVars n (is ++ js) = numVars (numVars n is) js := by
  simp [numVars, List.foldl_append]

variable {npi : Option Nat} {get : Nat → Option (Circuit L)}

theorem Run.length (hL : L.Lawful) {is vs vs' b} (hcalls : CallsOk get is)
    (h : Run get is vs vs' b) : ∀ n, vs.length = n → vs'.length = numVars n is := by
  induction h with
  | nil vs => intro n hn; exact hn
  | prim hc hp hr ih =>
    intro n hn
    rw [numVars_cons]
    refine ih (fun i hi => hcalls i (by simp [hi])) _ ?_
    rw [List.length_append, hL.prim_length _ _ _ hc hp, hn]
  | call hc hg ha hs hk ho hr ih1 ih2 =>
    intro n hn
    rw [numVars_cons]
    refine ih2 (fun i hi => hcalls i (by simp [hi])) _ ?_
    obtain ⟨sub, hs', h1, h2⟩ := hcalls _ (by simp) _ _ _ hc
    rw [hg] at hs'
    cases hs'
    rw [List.length_append, readAll_length ho, hL.call_numOutputs _ _ _ _ hc, hn, h2]

theorem not_panics (hL : L.Lawful) (hw : WFGet npi get) {is : List L.Insn} {vs : List F} (h : Panics get is vs) :
    ∀ cur, vs.length = cur + 1 → InsnsOk L npi cur is → CallsOk get is → False := by
  have hin : ∀ {i is cur} {vs : List F}, vs.length = cur + 1 → InsnsOk L npi cur (i :: is) → ∀ v ∈ L.inputs i, v < vs.length := by
    intro i is cur vs hl hi v hv
    have := hi.1 v hv; omega
  have hnext : ∀ {i is cur c a n} {vs res : List F} {circ : Circuit L}, vs.length = cur + 1 → CallsOk get (i :: is) →
      L.asCall i = some (c, a, n) → get c = some circ → res.length = circ.outputs.length →
      (vs ++ res).length = cur + L.numOutputs i + 1 := by
    intro i is cur c a n vs res circ hl hok hc hg hr
    obtain ⟨sub, hs', h1, h2⟩ := hok _ (by simp) _ _ _ hc
    rw [hg] at hs'; cases hs'
    rw [List.length_append, hr, hL.call_numOutputs _ _ _ _ hc, hl, h2]; omega
  have hsub : ∀ {i is cur c a n} {vs args : List F} {circ : Circuit L}, vs.length = cur + 1 → CallsOk get (i :: is) →
      L.asCall i = some (c, a, n) → get c = some circ → readAll vs a = some args →
      (0 :: args).length = circ.numInputs + 1 := by
    intro i is cur c a n vs args circ hl hok hc hg ha
    obtain ⟨sub, hs', h1, h2⟩ := hok _ (by simp) _ _ _ hc
    rw [hg] at hs'; cases hs'
    simp [readAll_length ha, h1]
  induction h with
  | read hc hv hn =>
    intro cur hl hi _
    have := hin hl hi _ hv
    rw [List.getElem?_eq_getElem this] at hn; cases hn
  | later hc hp hf ih =>
    intro cur hl hi hk
    refine ih _ ?_ hi.2.2.2 (fun j hj => hk j (by simp [hj]))
    rw [List.length_append, hL.prim_length _ _ _ hc hp, hl]; omega
  | missing hc hg =>
    intro cur hl hi hk
    obtain ⟨sub, hs', _⟩ := hk _ (by simp) _ _ _ hc
    rw [hg] at hs'; cases hs'
  | arg hc ha =>
    intro cur hl hi hk
    obtain ⟨xs, hx⟩ := readAll_isSome (hin hl hi)
    rw [hL.call_inputs _ _ _ _ hc, ha] at hx; cases hx
  | inside hc hg ha hf ih =>
    intro cur hl hi hk
    exact ih _ (hsub hl hk hc hg ha) (hw.circ _ _ hg).insns (hw.calls _ _ hg)
  | @cons i is vs args svs sb c a n circ hc hg ha hs hk' =>
    intro cur hl hi hk
    have hlen := Run.length hL (hw.calls _ _ hg) hs _ (hsub hl hk hc hg ha)
    rw [numVars_add] at hlen
    obtain ⟨b, hb⟩ := checkCons_isSome (vs := svs) (cs := circ.constraints)
      (fun k hk => (by have := (hw.circ _ _ hg).cons k hk; omega))
    rw [hb] at hk'; cases hk'
  | @outs i is vs args svs sb c a n circ hc hg ha hs ho =>
    intro cur hl hi hk
    have hlen := Run.length hL (hw.calls _ _ hg) hs _ (hsub hl hk hc hg ha)
    rw [numVars_add] at hlen
    obtain ⟨b, hb⟩ := readAll_isSome (vs := svs) (is := circ.outputs)
      (fun k hk => (by have := (hw.circ _ _ hg).outs k hk; omega))
    rw [hb] at ho; cases ho
  | after hc hg ha hs ho hf ih =>
    intro cur hl hi hk
    exact ih _ (hnext hl hk hc hg (readAll_length ho)) hi.2.2.2 (fun j hj => hk j (by simp [hj]))

/-- On well-formed circuits execution finishes, with a value or with an instruction error. -/
theorem run_or_fails (hL : L.Lawful) (hw : WFGet npi get) {r : Nat → Nat}
    (hr : ∀ c d, Calls get c d → r d < r c) : ∀ k (is : List L.Insn) (vs : List F) cur,
    (∀ i ∈ is, ∀ d a n, L.asCall i = some (d, a, n) → r d < k) →
    vs.length = cur + 1 → InsnsOk L npi cur is → CallsOk get is →
    (∃ vs' b, Run get is vs vs' b) ∨ Fails get is vs := by
  intro k
  induction k with
  | zero =>
    intro is
    induction is with
    | nil => intro vs cur _ _ _ _; exact Or.inl ⟨_, _, .nil vs⟩
    | cons i is ih =>
      intro vs cur hlt hl hi hk
      cases hc : L.asCall i with
      | some t => exact absurd (hlt i (by simp) t.1 t.2.1 t.2.2 hc) (by omega)
      | none =>
        by_cases hp : ∃ outs, L.prim i (fun v => vs[v]?) outs
        · obtain ⟨outs, hp⟩ := hp
          rcases ih (vs ++ outs) (cur + L.numOutputs i) (fun j hj => hlt j (by simp [hj]))
            (by rw [List.length_append, hL.prim_length _ _ _ hc hp, hl]; omega) hi.2.2.2
            (fun j hj => hk j (by simp [hj])) with ⟨vs', b, hrun⟩ | hf
          · exact Or.inl ⟨_, _, .prim hc hp hrun⟩
          · exact Or.inr (.later hc hp hf)
        · refine Or.inr (.here hc ?_ (fun o ho => hp ⟨o, ho⟩))
          intro v hv
          have := hi.1 v hv
          rw [List.getElem?_eq_getElem (by omega)]; rfl
  | succ k ihk =>
    intro is
    induction is with
    | nil => intro vs cur _ _ _ _; exact Or.inl ⟨_, _, .nil vs⟩
    | cons i is ih =>
      intro vs cur hlt hl hi hk
      cases hc : L.asCall i with
      | some t =>
        obtain ⟨c, a, n⟩ := t
        obtain ⟨circ, hg, h1, h2⟩ := hk _ (by simp) _ _ _ hc
        obtain ⟨args, ha⟩ := readAll_isSome (vs := vs) (is := L.inputs i)
          (fun v hv => by have := hi.1 v hv; omega)
        rw [hL.call_inputs _ _ _ _ hc] at ha
        have hlen : (0 :: args : List F).length = circ.numInputs + 1 := by simp [readAll_length ha, h1]
        have hco := hw.circ _ _ hg
        have hck := hw.calls _ _ hg
        have hrk : ∀ j ∈ circ.instructions, ∀ d a n, L.asCall j = some (d, a, n) → r d < k := by
          intro j hj d a' n' hc'
          have := hr c d ⟨circ, hg, j, hj, a', n', hc'⟩
          have := hlt i (by simp) _ _ _ hc
          omega
        rcases ihk circ.instructions (0 :: args) _ hrk hlen hco.insns hck with ⟨svs, sb, hs⟩ | hf
        · have hsl := Run.length hL hck hs _ hlen
          rw [numVars_add] at hsl
          obtain ⟨cb, hcb⟩ := checkCons_isSome (vs := svs) (cs := circ.constraints)
            (fun c hc => by have := hco.cons c hc; omega)
          obtain ⟨res, hres⟩ := readAll_isSome (vs := svs) (is := circ.outputs)
            (fun c hc => by have := hco.outs c hc; omega)
          rcases ih (vs ++ res) (cur + L.numOutputs i) (fun j hj => hlt j (by simp [hj]))
            (by rw [List.length_append, readAll_length hres, hL.call_numOutputs _ _ _ _ hc, hl, h2]; omega) hi.2.2.2
            (fun j hj => hk j (by simp [hj])) with ⟨vs', b, hrun⟩ | hf
          · exact Or.inl ⟨_, _, .call hc hg ha hs hcb hres hrun⟩
          · exact Or.inr (.after hc hg ha hs hres hf)
        · exact Or.inr (.inside hc hg ha hf)
      | none =>
        by_cases hp : ∃ outs, L.prim i (fun v => vs[v]?) outs
        · obtain ⟨outs, hp⟩ := hp
          rcases ih (vs ++ outs) (cur + L.numOutputs i) (fun j hj => hlt j (by simp [hj]))
            (by rw [List.length_append, hL.prim_length _ _ _ hc hp, hl]; omega) hi.2.2.2
            (fun j hj => hk j (by simp [hj])) with ⟨vs', b, hrun⟩ | hf
          · exact Or.inl ⟨_, _, .prim hc hp hrun⟩
          · exact Or.inr (.later hc hp hf)
        · refine Or.inr (.here hc ?_ (fun o ho => hp ⟨o, ho⟩))
          intro v hv
          have := hi.1 v hv
          rw [List.getElem?_eq_getElem (by omega)]; rfl

omit [Field F] in
theorem Lang.Lawful.validAt_replace [Field F] (hL : L.Lawful) (npi : Option Nat) (i : L.Insn) (f : Nat → Nat) :
    validAt L npi (L.replaceVars i f) = validAt L npi i := by
  cases npi with
  | none => rfl
  | some n => exact hL.valid_replace n i f

omit [Field F] in
theorem Lang.Lawful.validAt_call [Field F] (hL : L.Lawful) (npi : Option Nat) (c : Nat) (a : List Nat) (n : Nat) :
    validAt L npi (L.mkCall c a n) = true := by
  cases npi with
  | none => rfl
  | some m => exact hL.valid_call m c a n

omit [Field F] in
theorem Lang.Lawful.validAt_kx [Field F] (hL : L.Lawful) (npi : Option Nat) (x : Nat) (k b : F) :
    validAt L npi (L.fromKxPlusB x k b) = true := by
  cases npi with
  | none => rfl
  | some m => exact hL.valid_kx m x k b

/-- Instructions of the language never fail: with defined operands they always have an outcome. -/
def Lang.Total (L : Lang F) : Prop := ∀ npi i (val : Nat → Option F), L.asCall i = none → L.validInsn npi i = true →
  (∀ v ∈ L.inputs i, (val v).isSome) → ∃ outs, L.prim i val outs

theorem not_fails {n : Nat} (hT : L.Total) (hL : L.Lawful) (hw : WFGet (some n) get) {is : List L.Insn} {vs : List F} (h : Fails get is vs) :
    ∀ cur, vs.length = cur + 1 → InsnsOk L (some n) cur is → CallsOk get is → False := by
  induction h with
  | here hc hd hp =>
    intro cur hl hi hk
    obtain ⟨o, ho⟩ := hT n _ _ hc hi.2.1 hd
    exact hp o ho
  | later hc hp hf ih =>
    intro cur hl hi hk
    refine ih _ ?_ hi.2.2.2 (fun j hj => hk j (by simp [hj]))
    rw [List.length_append, hL.prim_length _ _ _ hc hp, hl]; omega
  | inside hc hg ha hf ih =>
    intro cur hl hi hk
    obtain ⟨sub, hs', h1, h2⟩ := hk _ (by simp) _ _ _ hc
    rw [hg] at hs'; cases hs'
    exact ih _ (by simp [readAll_length ha, h1]) (hw.circ _ _ hg).insns (hw.calls _ _ hg)
  | after hc hg ha hs ho hf ih =>
    intro cur hl hi hk
    obtain ⟨sub, hs', h1, h2⟩ := hk _ (by simp) _ _ _ hc
    rw [hg] at hs'; cases hs'
    exact ih _ (by rw [List.length_append, readAll_length ho, hL.call_numOutputs _ _ _ _ hc, hl, h2]; omega) hi.2.2.2
      (fun j hj => hk j (by simp [hj]))

section root
variable [DecidableEq F]

/-- C01, generic part. -/
theorem wf_eval (hL : L.Lawful) (rc : RootCircuit L) (hw : WF rc) (root : Circuit L) (hg : rc.get 0 = some root)
    (ins : List F) (hlen : ins.length = root.numInputs) :
    ¬ EvalPanics rc ins ∧ ((∃ outs b, Eval rc ins outs b) ∨ EvalFails rc ins) ∧
    (∀ outs b, Eval rc ins outs b → outs.length + rc.expectedNumOutputZeroes = root.outputs.length) := by
  obtain ⟨⟨hci, hca, r, hr⟩, root', hg', hz, hne⟩ := hw
  rw [hg] at hg'; cases hg'
  have hw : WFGet (some rc.numPublicInputs) rc.get := ⟨hci, hca, r, hr⟩
  have hco := hci _ _ hg
  have hck := hca _ _ hg
  have hl0 : (0 :: ins : List F).length = root.numInputs + 1 := by simp [hlen]
  have hread : ∀ vs b, Run rc.get root.instructions (0 :: ins) vs b →
      (∃ cb, checkCons vs root.constraints = some cb) ∧ ∃ all, readAll vs root.outputs = some all := by
    intro vs b hs
    have hsl := Run.length hL hck hs _ hl0
    rw [numVars_add] at hsl
    exact ⟨checkCons_isSome (fun c hc => by have := hco.cons c hc; omega),
      readAll_isSome (fun c hc => by have := hco.outs c hc; omega)⟩
  refine ⟨?_, ?_, ?_⟩
  · rintro (h | ⟨root', hg', h⟩)
    · rw [hg] at h; cases h
    · rw [hg] at hg'; cases hg'
      rcases h with h | h | ⟨vs, b, hs, h⟩
      · exact h hlen
      · exact not_panics hL hw h _ hl0 hco.insns hck
      · obtain ⟨⟨cb, h1⟩, all, h2⟩ := hread vs b hs
        rcases h with h | h | ⟨all', h3, h4⟩
        · rw [h1] at h; cases h
        · rw [h2] at h; cases h
        · have := readAll_length h3; omega
  · have hb : ∀ i ∈ root.instructions, ∀ d a n, L.asCall i = some (d, a, n) →
        r d < (root.instructions.filterMap (fun i => (L.asCall i).map (fun t => r t.1 + 1))).sum := by
      intro i hi d a n hc
      have : r d + 1 ∈ root.instructions.filterMap (fun i => (L.asCall i).map (fun t => r t.1 + 1)) :=
        List.mem_filterMap.2 ⟨i, hi, by simp [hc]⟩
      have := Verif.Utils.le_sum_of_mem this
      omega
    rcases run_or_fails hL hw hr _ root.instructions (0 :: ins) _ hb hl0 hco.insns hck with ⟨vs, b, hs⟩ | hf
    · obtain ⟨⟨cb, h1⟩, all, h2⟩ := hread vs b hs
      refine Or.inl ⟨_, _, root, all, _, hg, hlen, ⟨vs, b, cb, hs, h1, h2, rfl⟩, ?_, rfl, rfl⟩
      have := readAll_length h2; omega
    · exact Or.inr ⟨root, hg, hf⟩
  · rintro outs b ⟨root', all, b0, hg', _, ⟨vs, sb, cb, hs, h1, h2, _⟩, h3, rfl, _⟩
    rw [hg] at hg'; cases hg'
    have := readAll_length h2
    rw [List.length_drop]; omega

/-- C01, generic part, for languages without failing instructions. -/
theorem wf_eval_total (hT : L.Total) (hL : L.Lawful) (rc : RootCircuit L) (hw : WF rc) (root : Circuit L)
    (hg : rc.get 0 = some root) (ins : List F) (hlen : ins.length = root.numInputs) :
    ∃ outs b, Eval rc ins outs b := by
  rcases (wf_eval hL rc hw root hg ins hlen).2.1 with h | ⟨root', hg', hf⟩
  · exact h
  · rw [hg] at hg'; cases hg'
    exact (not_fails hT hL hw.wf hf _ (by simp [hlen]) (hw.wf.circ _ _ hg).insns (hw.wf.calls _ _ hg)).elim

end root

end Verif.IR
