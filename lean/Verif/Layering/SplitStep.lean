import Verif.Layering.SplitSeg

/-!
# One segment (for `ir_split.rs`)
-/

set_option linter.unusedSectionVars false
set_option linter.unusedSimpArgs false

namespace Verif.Layering.Split

open Verif.IR (Expr Coef Env dest Circuit RootCircuit WFGet CallsOk Calls CircOk InsnsOk numVars Run EvalSub readAll checkCons Constraint Term VarSpec)
open Verif.Layering

variable {F : Type} [Field F] [DecidableEq F]

/-- Value of a reference. -/
def rv (ins : List F) (V : Nat → F) : Ref → F
  | .input i => ins.getD i 0
  | .internal i => V i
  | .unknown => 0

/-- The segments refer to circuits of the pool and to earlier values; `k` and `k'` are the numbers of values before and after. -/
def SegsOk (pool : List (Prog F)) (n : Nat) : List Seg → Nat → Nat → Prop
  | [], k, k' => k' = k
  | s :: ss, k, k' => ∃ c, pool[s.id - 1]? = some c ∧ 1 ≤ s.id ∧ s.mid.length = c.numInputs ∧ (∀ i, Ref.input i ∈ s.mid → i < n) ∧ (∀ i, Ref.internal i ∈ s.mid → i < k) ∧
      SegsOk pool n ss (k + c.outs.length) k'

/-- Number of outputs of a circuit of the pool. -/
def outLen (pool : List (Prog F)) (id : Nat) : Nat :=
  match pool[id - 1]? with
  | some c => c.outs.length
  | none => 0

/-- The values `V` are computed by the segments. -/
def SegsHold (S : Nat → List F → List F → Prop) (pool : List (Prog F)) (ins : List F) (V : Nat → F) : List Seg → Nat → Prop
  | [], _ => True
  | s :: ss, k => S s.id (s.mid.map (rv ins V)) ((List.range' k (outLen pool s.id)).map V) ∧ SegsHold S pool ins V ss (k + outLen pool s.id)

/-- No reference is unknown. -/
def NoUnk (segs : List Seg) : Prop := ∀ s ∈ segs, Ref.unknown ∉ s.mid

theorem outLen_of {pool pool' : List (Prog F)} (hp : pool <+: pool') {id : Nat} {c : Prog F} (h : pool[id - 1]? = some c) : outLen pool' id = c.outs.length := by
  rw [outLen, prefix_get hp h]

theorem segsOk_append {pool : List (Prog F)} {n : Nat} {s : Seg} : ∀ {ss : List Seg} {k k' k'' : Nat}, SegsOk pool n ss k k' → SegsOk pool n [s] k' k'' → SegsOk pool n (ss ++ [s]) k k''
  | [], k, k', k'', h, h' => by cases h; exact h'
  | a :: ss, k, k', k'', h, h' => by
    obtain ⟨c, h1, h2, h3, h4, h5, h6⟩ := h
    exact ⟨c, h1, h2, h3, h4, h5, segsOk_append h6 h'⟩

theorem SegsOk.mono {pool pool' : List (Prog F)} (hp : pool <+: pool') {n : Nat} : ∀ {ss : List Seg} {k k' : Nat}, SegsOk pool n ss k k' → SegsOk pool' n ss k k'
  | [], _, _, h => h
  | a :: ss, k, k', h => by
    obtain ⟨c, h1, h2, h3, h4, h5, h6⟩ := h
    exact ⟨c, prefix_get hp h1, h2, h3, h4, h5, h6.mono hp⟩

theorem segsHold_append {S : Nat → List F → List F → Prop} {pool pool' : List (Prog F)} (hp : pool <+: pool') {n : Nat} {ins : List F} {V : Nat → F} {s : Seg} :
    ∀ {ss : List Seg} {k k' : Nat}, SegsOk pool n ss k k' → (SegsHold S pool' ins V (ss ++ [s]) k ↔ SegsHold S pool' ins V ss k ∧ SegsHold S pool' ins V [s] k')
  | [], k, k', h => by cases h; simp [SegsHold]
  | a :: ss, k, k', h => by
    obtain ⟨c, h1, h2, h3, h4, h5, h6⟩ := h
    show _ ∧ SegsHold S pool' ins V (ss ++ [s]) (k + outLen pool' a.id) ↔ _
    have e := outLen_of hp h1
    rw [e, segsHold_append hp h6]
    simp only [SegsHold, e, and_assoc]

/-- All variables of an instruction are on one layer; constants are on layer 1. -/
def LayOk (mn : List Nat) (is : List (Verif.IR.Dest.Insn F)) (cur : Nat) : Prop :=
  ∀ p ∈ placed is cur, (∀ v, p.2 ≤ v → v < p.2 + nOut p.1 → layAt mn v = layAt mn p.2) ∧ (∀ c, p.1 = .constantLike c → layAt mn p.2 = 1)

theorem incl_lay {mn : List Nat} {is : List (Verif.IR.Dest.Insn F)} {cur start stop : Nat} (hl : LayOk mn is cur) (hs : start < stop) {p : Verif.IR.Dest.Insn F × Nat}
    (hp : p ∈ placed is cur) (hi : incl mn start stop p.1 p.2 = true) {v : Nat} (h1 : p.2 ≤ v) (h2 : v < p.2 + nOut p.1) : start < layAt mn v ∧ layAt mn v ≤ stop := by
  obtain ⟨g1, g2⟩ := hl p hp
  rw [g1 v h1 h2]
  obtain ⟨i, c⟩ := p
  cases i with
  | constantLike x =>
    have := g2 x rfl
    simp only [incl, beq_iff_eq] at hi
    simp only at this ⊢
    omega
  | internal e => simpa [incl] using hi
  | call d xs n =>
    simp only [incl, Bool.and_eq_true, decide_eq_true_eq] at hi
    exact hi.2

/-- Variables with values after the segments `done`. -/
def Asg (n : Nat) (mn : List Nat) (is : List (Verif.IR.Dest.Insn F)) (done : List (Nat × Nat)) (v : Nat) : Prop :=
  (1 ≤ v ∧ v ≤ n) ∨ ∃ q ∈ done, ∃ p ∈ placed is (n + 1), incl mn q.1 q.2 p.1 p.2 = true ∧ p.2 ≤ v ∧ v < p.2 + nOut p.1

/-- Structure of the state; `iv` lists the variables of the values. -/
structure Inv (n : Nat) (pool : List (Prog F)) (st : SegSt) (iv : List Nat) : Prop where
  count : st.count = iv.length
  int : ∀ j i, st.varNew j = .internal i → iv[i]? = some j
  inp : ∀ j i, st.varNew j = .input i → j = i + 1 ∧ i < n
  fin : ∀ j r, st.fin j = some r → (∃ i, r = .input i ∧ j = i + 1 ∧ i < n) ∨ ∃ i, r = .internal i ∧ iv[i]? = some j
  segs : SegsOk pool n st.segs 0 iv.length

/-- Meaning of the state. -/
structure Mean (E : Env F) (S : Nat → List F → List F → Prop) (PF : List (Prog F)) (n : Nat) (mn : List Nat) (is : List (Verif.IR.Dest.Insn F)) (st : SegSt) (iv : List Nat) (done : List (Nat × Nat)) : Prop where
  asg : ∀ v ∈ iv, Asg n mn is done v
  args : ∀ q ∈ done, ∀ p ∈ placed is (n + 1), incl mn q.1 q.2 p.1 p.2 = true → ∀ v ∈ argsOf p.1, Asg n mn is done v
  fwd : ∀ (ins : List F) (W V : Nat → F), ins.length = n → InputsAre W ins → HoldsAll E S W is (n + 1) → (∀ (i v : Nat), iv[i]? = some v → V i = W v) → SegsHold S PF ins V st.segs 0
  bwd : ∀ (ins : List F) (V : Nat → F), ins.length = n → SegsHold S PF ins V st.segs 0 → ∃ P, InputsAre P ins ∧
    (∀ q ∈ done, ∀ p ∈ placed is (n + 1), incl mn q.1 q.2 p.1 p.2 = true → Holds E S P p.1 p.2) ∧ ∀ (i v : Nat), iv[i]? = some v → V i = P v

/-- The variables a segment returns (ir_split.rs:422-436). -/
def segJs (cvm : Nat) (mn mx : List Nat) (stop : Nat) (st : SegSt) (lv : List Nat) : List Nat :=
  (List.range' 1 cvm).filter fun j => (st.isOut j || (decide (layAt mn j ≤ stop) && decide (stop ≤ layAt mx j))) && decide (j ∈ lv)

/-- The circuit of a segment (ir_split.rs:437-442). -/
def segCirc (en lv js : List Nat) (sis : List (Verif.IR.Dest.Insn F)) : Prog F := ⟨en.length, sis, [], js.map (locOf lv)⟩

/-- The references of the inputs of a segment. -/
def segMid (en : List Nat × List Nat) (st : SegSt) : List Ref := en.1.map (fun j => Ref.input (j - 1)) ++ en.2.map st.varNew

/-- The state after a segment. -/
def segNext (start stop id : Nat) (mid : List Ref) (js : List Nat) (st : SegSt) : SegSt :=
  ⟨fun j => if j ∈ js then .internal (st.count + js.idxOf j) else st.varNew j,
      fun j => st.isOut j && !decide (j ∈ js),
      fun j => if j ∈ js ∧ st.isOut j = true then some (.internal (st.count + js.idxOf j)) else st.fin j,
      st.count + js.length,
      st.segs ++ [⟨start, stop, id, mid⟩]⟩

theorem segStep_some {n cvm : Nat} {is : List (Verif.IR.Dest.Insn F)} {mn mx : List Nat} {start stop : Nat} {st st' : SegSt} {pool pool' : List (Prog F)}
    (h : segStep n cvm is mn mx start stop st pool = some (st', pool')) :
    ∃ en sis lv js, en = segIns n cvm mn mx start ∧ segInsns mn start stop is (n + 1) (en.1 ++ en.2) = some (sis, lv) ∧ js = segJs cvm mn mx stop st lv ∧
      st' = segNext start stop (poolAdd pool (segCirc (en.1 ++ en.2) lv js sis)).1 (segMid en st) js st ∧ pool' = (poolAdd pool (segCirc (en.1 ++ en.2) lv js sis)).2 := by
  unfold segStep at h
  cases hs : segInsns mn start stop is (n + 1) ((segIns n cvm mn mx start).1 ++ (segIns n cvm mn mx start).2) with
  | none => simp only [hs] at h; cases h
  | some r =>
    obtain ⟨sis, lv⟩ := r
    simp only [hs] at h
    have h' := Option.some.inj h
    refine ⟨_, sis, lv, _, rfl, hs, rfl, ?_, ?_⟩
    · exact (congrArg Prod.fst h').symm
    · exact (congrArg Prod.snd h').symm

theorem js_mem {cvm : Nat} {mn mx : List Nat} {stop : Nat} {st : SegSt} {lv : List Nat} : ∀ j ∈ segJs cvm mn mx stop st lv, j ∈ lv := by
  intro j hj
  have := (List.mem_filter.1 hj).2
  simp only [Bool.and_eq_true, decide_eq_true_eq] at this
  exact this.2

theorem en_lay {n cvm : Nat} {mn mx : List Nat} {start : Nat} : ∀ j ∈ (segIns n cvm mn mx start).1 ++ (segIns n cvm mn mx start).2, layAt mn j ≤ start := by
  intro j hj
  simp only [segIns, List.mem_append, List.mem_filter, beq_iff_eq, Bool.and_eq_true, Bool.or_eq_true, decide_eq_true_eq] at hj
  omega

theorem idxOf_get {l : List Nat} {j : Nat} (h : j ∈ l) : l[l.idxOf j]? = some j := by
  rw [List.getElem?_eq_getElem (List.idxOf_lt_length_iff.2 h)]; simp

section
variable {n cvm : Nat} {is : List (Verif.IR.Dest.Insn F)} {mn mx : List Nat} {start stop : Nat} {st : SegSt} {pool : List (Prog F)} {iv : List Nat}

theorem circ_in {npi : Nat} {en lv js : List Nat} {sis : List (Verif.IR.Dest.Insn F)} {new : List Nat} (hi : SegInsnsOk mn start stop is (n + 1) en sis lv new)
    (hv : ∀ i ∈ is, Verif.IR.Dest.Insn.valid npi i = true) (hc : CallsIn pool pool.length is) (hj : ∀ j ∈ js, j ∈ lv) : CircIn npi pool pool.length (segCirc en lv js sis) := by
  refine ⟨⟨hi.argsOk, by simp [segCirc], ?_⟩, rfl, hi.valid npi hv, hi.calls _ _ hc⟩
  intro x hx
  obtain ⟨j, hj', rfl⟩ := List.mem_map.1 hx
  have := locOf_get (hj j hj')
  show _ ∧ _ < endOf sis (en.length + 1)
  rw [hi.fin]; omega

theorem next_inv {id : Nat} {mid : List Ref} {js : List Nat} {pool' : List (Prog F)} {c : Prog F} (h : Inv n pool st iv) (hp : pool <+: pool') (hid : 1 ≤ id) (hc : pool'[id - 1]? = some c)
    (hmid : mid.length = c.numInputs) (hjs : js.length = c.outs.length) (hi : ∀ i, Ref.input i ∈ mid → i < n) (hn : ∀ i, Ref.internal i ∈ mid → i < iv.length) :
    Inv n pool' (segNext start stop id mid js st) (iv ++ js) := by
  have hget : ∀ j, j ∈ js → (iv ++ js)[st.count + js.idxOf j]? = some j := by
    intro j hj
    rw [h.count, List.getElem?_append_right (by omega), Nat.add_sub_cancel_left]
    exact idxOf_get hj
  have hold : ∀ (i j : Nat), iv[i]? = some j → (iv ++ js)[i]? = some j := by
    intro i j hi
    rw [List.getElem?_append_left (List.getElem?_eq_some_iff.1 hi).1]; exact hi
  refine ⟨?_, ?_, ?_, ?_, ?_⟩
  · simp [segNext, h.count]
  · intro j i hji
    simp only [segNext] at hji
    split at hji
    · rename_i hj
      cases hji
      exact hget j hj
    · exact hold _ _ (h.int j i hji)
  · intro j i hji
    simp only [segNext] at hji
    split at hji
    · cases hji
    · exact h.inp j i hji
  · intro j r hr
    simp only [segNext] at hr
    split at hr
    · rename_i hj
      cases hr
      exact Or.inr ⟨_, rfl, hget j hj.1⟩
    · rcases h.fin j r hr with h1 | ⟨i, h1, h2⟩
      · exact Or.inl h1
      · exact Or.inr ⟨i, h1, hold _ _ h2⟩
  · refine segsOk_append (h.segs.mono hp) ?_
    refine ⟨c, hc, hid, hmid, hi, hn, ?_⟩
    show _ = _
    rw [List.length_append, hjs]

theorem mid_input (h : Inv n pool st iv) : ∀ i, Ref.input i ∈ segMid (segIns n cvm mn mx start) st → i < n := by
  intro i hi
  rcases List.mem_append.1 hi with hi | hi
  · obtain ⟨j, hj, e⟩ := List.mem_map.1 hi
    cases e
    have := List.mem_range'_1.1 (List.mem_filter.1 hj).1
    omega
  · obtain ⟨j, hj, e⟩ := List.mem_map.1 hi
    exact (h.inp j i e).2

theorem mid_internal (h : Inv n pool st iv) : ∀ i, Ref.internal i ∈ segMid (segIns n cvm mn mx start) st → i < iv.length := by
  intro i hi
  rcases List.mem_append.1 hi with hi | hi
  · obtain ⟨j, hj, e⟩ := List.mem_map.1 hi
    cases e
  · obtain ⟨j, hj, e⟩ := List.mem_map.1 hi
    exact (List.getElem?_eq_some_iff.1 (h.int j i e)).1

/-- Values of the references of the inputs. -/
theorem mid_vals (h : Inv n pool st iv) (hu : Ref.unknown ∉ segMid (segIns n cvm mn mx start) st) {ins : List F} {W V : Nat → F} (hlen : ins.length = n) (hin : InputsAre W ins)
    (hV : ∀ (i v : Nat), iv[i]? = some v → V i = W v) :
    (segMid (segIns n cvm mn mx start) st).map (rv ins V) = ((segIns n cvm mn mx start).1 ++ (segIns n cvm mn mx start).2).map W := by
  have hins : ∀ i, i < n → ins.getD i 0 = W (i + 1) := by
    intro i hi
    rw [List.getD_eq_getElem?_getD, List.getElem?_eq_getElem (by omega)]
    exact (hin i _ (List.getElem?_eq_getElem (by omega))).symm
  rw [segMid, List.map_append, List.map_append, List.map_map, List.map_map]
  congr 1
  · refine map_congr_mem fun j hj => ?_
    have := List.mem_range'_1.1 (List.mem_filter.1 hj).1
    simp only [Function.comp, rv]
    rw [hins _ (by omega), Nat.sub_add_cancel (by omega)]
  · refine map_congr_mem fun j hj => ?_
    simp only [Function.comp]
    cases e : st.varNew j with
    | input i =>
      obtain ⟨rfl, h2⟩ := h.inp j i e
      exact hins i h2
    | internal i => exact hV i j (h.int j i e)
    | unknown =>
      exfalso; apply hu
      exact List.mem_append.2 (Or.inr (List.mem_map.2 ⟨j, hj, e⟩))

/-- Variables that enter a segment have values. -/
theorem en_asg {E : Env F} {S : Nat → List F → List F → Prop} {PF : List (Prog F)} {done : List (Nat × Nat)} (h : Inv n pool st iv) (hm : Mean E S PF n mn is st iv done)
    (hu : Ref.unknown ∉ segMid (segIns n cvm mn mx start) st) : ∀ j ∈ (segIns n cvm mn mx start).1 ++ (segIns n cvm mn mx start).2, Asg n mn is done j := by
  intro j hj
  rcases List.mem_append.1 hj with hj | hj
  · have := List.mem_range'_1.1 (List.mem_filter.1 hj).1
    exact Or.inl ⟨by omega, by omega⟩
  · cases e : st.varNew j with
    | input i => obtain ⟨rfl, h2⟩ := h.inp j i e; exact Or.inl ⟨by omega, by omega⟩
    | internal i => exact hm.asg j (List.mem_of_getElem? (h.int j i e))
    | unknown =>
      exfalso; apply hu
      exact List.mem_append.2 (Or.inr (List.mem_map.2 ⟨j, hj, e⟩))

theorem asg_mono {done : List (Nat × Nat)} {q : Nat × Nat} {v : Nat} (h : Asg n mn is done v) : Asg n mn is (done ++ [q]) v := by
  rcases h with h | ⟨q', h1, h2⟩
  · exact Or.inl h
  · exact Or.inr ⟨q', by simp [h1], h2⟩

/-- Meaning of the state after a segment. -/
theorem next_mean {E : Env F} {S : Nat → List F → List F → Prop} {PF : List (Prog F)} {done : List (Nat × Nat)} {lv new js : List Nat} {sis : List (Verif.IR.Dest.Insn F)} {id : Nat}
    (hlay : LayOk mn is (n + 1)) (hss : start < stop) (hd : ∀ q ∈ done, q.1 < q.2 ∧ q.2 ≤ start)
    (h : Inv n pool st iv) (hm : Mean E S PF n mn is st iv done) (hpre : pool <+: PF) (hsub : SubSem E S PF)
    (hi : SegInsnsOk mn start stop is (n + 1) ((segIns n cvm mn mx start).1 ++ (segIns n cvm mn mx start).2) sis lv new) (hj : ∀ j ∈ js, j ∈ lv) (hid : 1 ≤ id)
    (hc : PF[id - 1]? = some (segCirc ((segIns n cvm mn mx start).1 ++ (segIns n cvm mn mx start).2) lv js sis))
    (hu : Ref.unknown ∉ segMid (segIns n cvm mn mx start) st) :
    Mean E S PF n mn is (segNext start stop id (segMid (segIns n cvm mn mx start) st) js st) (iv ++ js) (done ++ [(start, stop)]) := by
  generalize hen : (segIns n cvm mn mx start).1 ++ (segIns n cvm mn mx start).2 = en at hi hc
  have hasg := en_asg h hm hu
  have henl : ∀ j ∈ en, layAt mn j ≤ start := by rw [← hen]; exact en_lay
  rw [hen] at hasg
  have hnew : ∀ v ∈ new, start < layAt mn v := by
    intro v hv
    obtain ⟨p, p1, p2, p3, p4⟩ := (hi.mem v).1 hv
    exact (incl_lay hlay hss p1 p2 p3 p4).1
  have hlvasg : ∀ v ∈ lv, Asg n mn is (done ++ [(start, stop)]) v := by
    intro v hv
    rw [hi.app] at hv
    rcases List.mem_append.1 hv with hv | hv
    · exact asg_mono (hasg v hv)
    · exact Or.inr ⟨(start, stop), by simp, (hi.mem v).1 hv⟩
  have hol : outLen PF id = js.length := by
    rw [outLen, hc]; simp [segCirc]
  have hone : ∀ ins V, SegsHold S PF ins V [⟨start, stop, id, segMid (segIns n cvm mn mx start) st⟩] iv.length ↔
      S (id - 1 + 1) ((segMid (segIns n cvm mn mx start) st).map (rv ins V)) ((List.range' iv.length js.length).map V) := by
    intro ins V
    simp only [SegsHold, and_true, hol, Nat.sub_add_cancel hid]
  have hsegs : ∀ ins V, SegsHold S PF ins V (segNext start stop id (segMid (segIns n cvm mn mx start) st) js st).segs 0 ↔ SegsHold S PF ins V st.segs 0 ∧
      SegsHold S PF ins V [⟨start, stop, id, segMid (segIns n cvm mn mx start) st⟩] iv.length := by
    intro ins V
    exact segsHold_append hpre h.segs
  refine ⟨?_, ?_, ?_, ?_⟩
  · intro v hv
    rcases List.mem_append.1 hv with hv | hv
    · exact asg_mono (hm.asg v hv)
    · exact hlvasg v (hj v hv)
  · intro q hq p hp hin v hv
    rcases List.mem_append.1 hq with hq | hq
    · exact asg_mono (hm.args q hq p hp hin v hv)
    · simp only [List.mem_singleton] at hq
      subst hq
      exact hlvasg v (hi.args p hp hin v hv)
  · intro ins W V hlen hin hW hV
    have hV1 : ∀ (i v : Nat), iv[i]? = some v → V i = W v := fun i v hiv => hV i v (by rw [List.getElem?_append_left (List.getElem?_eq_some_iff.1 hiv).1]; exact hiv)
    rw [hsegs, hone]
    refine ⟨hm.fwd ins W V hlen hin hW hV1, ?_⟩
    rw [mid_vals h hu hlen hin hV1, hen, hsub _ _ hc]
    have hloc : Local lv (fun k => W (lv.getD (k - 1) 0)) W := by
      intro k v hk
      simp only [Nat.add_sub_cancel]
      rw [List.getD_eq_getElem?_getD, hk]; rfl
    refine ⟨by simp [segCirc], fun k => W (lv.getD (k - 1) 0), ?_, ?_, ?_⟩
    · intro k v hk
      rw [List.getElem?_map] at hk
      obtain ⟨x, hx, rfl⟩ := Option.map_eq_some_iff.1 hk
      rw [hi.app] at hloc ⊢
      exact hloc.left k x hx
    · exact (hi.holds E S _ _ hloc).2 (fun p hp _ => holdsAll_iff.1 hW p hp)
    · show _ = (js.map (locOf lv)).map _
      rw [List.map_map]
      apply List.ext_getElem?
      intro k
      rw [List.getElem?_map, List.getElem?_map]
      by_cases hk : k < js.length
      · rw [range'_get hk, List.getElem?_eq_getElem hk]
        simp only [Option.map_some, Option.some.injEq, Function.comp]
        rw [hV _ js[k] (by rw [List.getElem?_append_right (by omega), Nat.add_sub_cancel_left]; exact List.getElem?_eq_getElem hk)]
        exact (hloc.loc (hj _ (List.getElem_mem hk))).symm
      · rw [List.getElem?_eq_none (by simp; omega), List.getElem?_eq_none (by omega)]; rfl
  · intro ins V hlen hh
    rw [hsegs, hone] at hh
    obtain ⟨P, p1, p2, p3⟩ := hm.bwd ins V hlen hh.1
    have h2 := hh.2
    rw [mid_vals h hu hlen p1 p3, hen, hsub _ _ hc] at h2
    obtain ⟨-, Wl, w1, w2, w3⟩ := h2
    have hnot : ∀ v, Asg n mn is done v → v ∉ new := by
      intro v hv hn
      rcases hv with hv | ⟨q, q1, p, q2, q3, q4, q5⟩
      · have := hi.ge v hn; omega
      · have := (incl_lay hlay (hd q q1).1 q2 q3 q4 q5).2
        have := (hd q q1).2
        have := hnew v hn
        omega
    let P' : Nat → F := fun v => if v ∈ new then Wl (en.length + new.idxOf v + 1) else P v
    have hP' : ∀ v, v ∉ new → P' v = P v := fun v hv => if_neg hv
    have hloc : Local lv Wl P' := by
      rw [hi.app]
      intro k v hk
      by_cases hk' : k < en.length
      · rw [List.getElem?_append_left hk'] at hk
        have hv := List.mem_of_getElem? hk
        rw [hP' v (fun hn => by have := hnew v hn; have := henl v hv; omega)]
        exact w1 k _ (by rw [List.getElem?_map, hk]; rfl)
      · rw [List.getElem?_append_right (by omega)] at hk
        have hv := List.mem_of_getElem? hk
        have hidx : new.idxOf v = k - en.length := by
          have h1 := List.idxOf_lt_length_iff.2 hv
          refine (List.getElem?_inj h1 hi.nodup).1 ?_
          rw [idxOf_get hv, hk]
        show _ = if v ∈ new then _ else _
        rw [if_pos hv, hidx]; congr 1; omega
    refine ⟨P', ?_, ?_, ?_⟩
    · intro i v hiv
      rw [hP']
      · exact p1 i v hiv
      · intro hn
        have := hi.ge _ hn
        have := (List.getElem?_eq_some_iff.1 hiv).1
        omega
    · intro q hq p hp hin
      rcases List.mem_append.1 hq with hq | hq
      · refine (p2 q hq p hp hin).congr ?_ ?_
        · intro v hv; exact (hP' v (hnot v (hm.args q hq p hp hin v hv))).symm
        · intro v hv hv'
          exact (hP' v (hnot v (Or.inr ⟨q, hq, p, hp, hin, hv, hv'⟩))).symm
      · simp only [List.mem_singleton] at hq
        subst hq
        exact (hi.holds E S Wl P' hloc).1 w2 p hp hin
    · intro i v hiv
      by_cases hil : i < iv.length
      · rw [List.getElem?_append_left hil] at hiv
        rw [hP' v (hnot v (hm.asg v (List.mem_of_getElem? hiv)))]
        exact p3 i v hiv
      · rw [List.getElem?_append_right (by omega)] at hiv
        have hk := (List.getElem?_eq_some_iff.1 hiv).1
        have e := congrArg (fun l => l[i - iv.length]?) w3
        simp only [segCirc] at e
        rw [List.getElem?_map, range'_get hk, List.getElem?_map, List.getElem?_map, hiv] at e
        simp only [Option.map_some, Option.some.injEq] at e
        rw [show iv.length + (i - iv.length) = i by omega] at e
        rw [e]
        exact hloc.loc (hj v (List.mem_of_getElem? hiv))

end

end Verif.Layering.Split
