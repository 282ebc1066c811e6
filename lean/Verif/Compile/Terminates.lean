import Verif.Compile.Passes
import Verif.IR.DceCanon

/-!
# The optimisation loops stop

`optimize_until_fixed_point` (compile/mod.rs:59-77) has no bound on the number of rounds.  For the closures the compiler uses, after two
rounds no circuit has duplicate outputs, and from then on every round that changes the circuit makes it smaller.
-/

set_option linter.unusedSectionVars false
set_option linter.unusedSimpArgs false

namespace Verif.Compile

open Verif.IR

section generic
variable {T : Type} {eq : T → T → Bool} {f : T → Option (T × InputMapping)}

theorem optLoop_stops {Inv : T → Prop} {m : T → Nat} (hstep : ∀ y, Inv y → ∀ z im, f y = some (z, im) → Inv z ∧ (eq y z = true ∨ m z < m y)) :
    ∀ fuel y im, Inv y → m y < fuel → optLoop eq f fuel y im ≠ .running := by
  intro fuel
  induction fuel with
  | zero => intro y im _ h; omega
  | succ n ih =>
    intro y im hy hm
    rw [optLoop]
    cases hf : f y with
    | none => simp
    | some p =>
      obtain ⟨z, imz⟩ := p
      dsimp only
      obtain ⟨h1, h2⟩ := hstep y hy z imz hf
      by_cases he : eq y z = true
      · rw [if_pos he]; simp
      · rw [if_neg he]
        cases im.composeInPlace imz with
        | none => simp
        | some im' => exact ih z im' h1 (by rcases h2 with h2 | h2; exact (he h2).elim; omega)

theorem optLoop_later {N : Nat} {y : T} (h : ∀ z imz, f y = some (z, imz) → ∀ fuel im, N ≤ fuel → optLoop eq f fuel z im ≠ .running) (fuel : Nat)
    (im : InputMapping) (hf : N + 1 ≤ fuel) : optLoop eq f fuel y im ≠ .running := by
  obtain ⟨n, rfl⟩ : ∃ n, fuel = n + 1 := ⟨fuel - 1, by omega⟩
  rw [optLoop]
  cases hfy : f y with
  | none => simp
  | some p =>
    obtain ⟨z, imz⟩ := p
    dsimp only
    split
    · simp
    · cases im.composeInPlace imz with
      | none => simp
      | some im' => exact h z imz hfy n im' (by omega)

theorem optimize_stops {Inv : T → Prop} {m : T → Nat} (hstep : ∀ y, Inv y → ∀ z im, f y = some (z, im) → Inv z ∧ (eq y z = true ∨ m z < m y))
    (x : T) (h2 : ∀ y im z im', f x = some (y, im) → f y = some (z, im') → Inv z) :
    ∃ N, ∀ fuel im, N ≤ fuel → optimizeUntilFixedPoint eq f fuel x im ≠ .running := by
  have key : ∀ y imy, f x = some (y, imy) → ∃ N, ∀ fuel im, N ≤ fuel → optLoop eq f fuel y im ≠ .running := by
    intro y imy hy
    cases hz : f y with
    | none =>
      refine ⟨1, fun fuel im h => ?_⟩
      obtain ⟨n, rfl⟩ : ∃ n, fuel = n + 1 := ⟨fuel - 1, by omega⟩
      rw [optLoop, hz]; simp
    | some p =>
      obtain ⟨z, imz⟩ := p
      refine ⟨m z + 1 + 1, fun fuel im h => optLoop_later (N := m z + 1) ?_ fuel im h⟩
      intro z' imz' hz' fuel im hf
      rw [hz] at hz'
      cases hz'
      exact optLoop_stops hstep fuel z im (h2 y imy z imz hy hz) (by omega)
  cases hf : f x with
  | none => exact ⟨0, fun fuel im _ => by simp [optimizeUntilFixedPoint, hf]⟩
  | some p =>
    obtain ⟨y, imy⟩ := p
    obtain ⟨N, hN⟩ := key y imy hf
    refine ⟨N, fun fuel im h => ?_⟩
    simp only [optimizeUntilFixedPoint, hf]
    split
    · simp
    · cases im.composeInPlace imy with
      | none => simp
      | some im' => exact hN fuel im' h
end generic

variable {F : Type} [Field F] [DecidableEq F] {L : Lang F}

theorem rcEq_of_get [DecidableEq L.Insn] [DecidableEq L.Con] {a b : RootCircuit L} (ha : a.vertices.Nodup) (hg : b.get = a.get) (hp : b.vertices.Perm a.vertices)
    (h1 : b.numPublicInputs = a.numPublicInputs) (h2 : b.expectedNumOutputZeroes = a.expectedNumOutputZeroes) : rcEq a b = true := by
  simp only [rcEq, Bool.and_eq_true, decide_eq_true_eq, List.all_eq_true]
  refine ⟨⟨⟨h1.symm, h2.symm⟩, ?_⟩, fun p hm => ?_⟩
  · have := hp.length_eq
    simpa [RootCircuit.vertices] using this.symm
  · rw [hg]; exact get_of_mem ha hm

theorem rcSize_congr {a b : RootCircuit L} (hg : b.get = a.get) (hp : b.vertices.Perm a.vertices) : rcSize b = rcSize a := by
  unfold rcSize
  rw [hg]
  have : b.vertices.toFinset = a.vertices.toFinset := by
    ext c; simp [hp.mem_iff]
  rw [this]

/-- One round from a circuit without duplicate outputs. -/
theorem cleanup_step (hL : L.Lawful) (hR : L.Renames) {npi : Option Nat} {rc rc' : RootCircuit L} {im : InputMapping} (hk : rc.vertices.Nodup)
    (hw : WFAt npi rc) (hn : NoDupOut rc.get) (h : cleanup rc = some (rc', im)) :
    rc'.vertices.Nodup ∧ WFAt npi rc' ∧ NoDupOut rc'.get ∧ rc'.numPublicInputs = rc.numPublicInputs ∧
      rc'.expectedNumOutputZeroes = rc.expectedNumOutputZeroes ∧
      (rcSize rc' < rcSize rc ∨ (rc'.get = rc.get ∧ rc'.vertices.Perm rc.vertices)) := by
  obtain ⟨root, hroot, _⟩ := hw.root
  obtain ⟨r, im1, h1, h2, h3, _⟩ := removeUnreachable_correct' hL rc hk hw root hroot
  obtain ⟨r', im', _, _, q1, q2, q3, _⟩ := removeUnreachable_full rc hk hw hroot
  rw [h1] at q1; cases q1
  have hnd : NoDupOut r.get := dce_noDup hL rc hk hw (fun root h => hn 0 root h) (noDup_canonical hL hw.wf hn) h1
  simp only [cleanup, h1, reassign_noDup hnd h2, Option.map_some, Option.some.injEq, Prod.mk.injEq] at h
  obtain ⟨rfl, rfl⟩ := h
  exact ⟨h2, h3, hnd, q2, q3, removeUnreachable_size hL hR rc hk hw h1⟩

/-- After one round no use of a duplicate output. -/
theorem cleanup_canonical (hL : L.Lawful) (ho : ReassignOk L) {npi : Option Nat} {rc rc' : RootCircuit L} {im : InputMapping} (hk : rc.vertices.Nodup)
    (hw : WFAt npi rc) (h : cleanup rc = some (rc', im)) : rc'.vertices.Nodup ∧ WFAt npi rc' ∧ Canonical rc'.get ∧
      ∀ root, rc'.get 0 = some root → root.outputs.Nodup := by
  obtain ⟨root, hroot, _⟩ := hw.root
  obtain ⟨r, im1, h1, h2, h3, _⟩ := removeUnreachable_correct' hL rc hk hw root hroot
  rcases ho with ⟨a1, a2, a3⟩ | hno
  · obtain ⟨r', b1, b2, b3, _, _, _, _, b8⟩ := reassign_correct' hL a1 a2 a3 r h2 h3 false
    simp only [cleanup, h1, b1, Option.map_some, Option.some.injEq, Prod.mk.injEq] at h
    obtain ⟨rfl, rfl⟩ := h
    refine ⟨b2, b3, reassign_canonical hL r h2 h3 ⟨npi, b3.wf⟩ (fun root h => b8 0 root h (.inl rfl)) b1, fun root h => b8 0 root h (.inl rfl)⟩
  · have hnd : NoDupOut r.get := by
      intro c circ hg
      rcases (h3.wf.circ c circ hg).outsNodup with e | e
      · rw [hno] at e; cases e
      · exact e
    simp only [cleanup, h1, reassign_noDup hnd h2, Option.map_some, Option.some.injEq, Prod.mk.injEq] at h
    obtain ⟨rfl, rfl⟩ := h
    exact ⟨h2, h3, noDup_canonical hL h3.wf hnd, fun root h => hnd 0 root h⟩

/-- After the next round no duplicate outputs. -/
theorem cleanup_noDup (hL : L.Lawful) {npi : Option Nat} {rc rc' : RootCircuit L} {im : InputMapping} (hk : rc.vertices.Nodup)
    (hw : WFAt npi rc) (hc : Canonical rc.get) (h0 : ∀ root, rc.get 0 = some root → root.outputs.Nodup) (h : cleanup rc = some (rc', im)) :
    rc'.vertices.Nodup ∧ WFAt npi rc' ∧ NoDupOut rc'.get := by
  obtain ⟨root, hroot, _⟩ := hw.root
  obtain ⟨r, im1, h1, h2, h3, _⟩ := removeUnreachable_correct' hL rc hk hw root hroot
  have hnd : NoDupOut r.get := dce_noDup hL rc hk hw h0 hc h1
  simp only [cleanup, h1, reassign_noDup hnd h2, Option.map_some, Option.some.injEq, Prod.mk.injEq] at h
  obtain ⟨rfl, rfl⟩ := h
  exact ⟨h2, h3, hnd⟩

theorem cleanup_stops [DecidableEq L.Insn] [DecidableEq L.Con] (hL : L.Lawful) (hR : L.Renames) (ho : ReassignOk L) (rc : RootCircuit L) {npi : Option Nat}
    (hk : rc.vertices.Nodup) (hw : WFAt npi rc) : ∃ N, ∀ fuel im, N ≤ fuel → optimizeUntilFixedPoint rcEq cleanup fuel rc im ≠ .running := by
  refine optimize_stops (Inv := fun y => y.vertices.Nodup ∧ WFAt npi y ∧ NoDupOut y.get) (m := rcSize) ?_ rc ?_
  · rintro y ⟨a, b, c⟩ z im h
    obtain ⟨h1, h2, h3, h4, h5, h6⟩ := cleanup_step hL hR a b c h
    refine ⟨⟨h1, h2, h3⟩, ?_⟩
    rcases h6 with h6 | ⟨h6, h7⟩
    · exact .inr h6
    · exact .inl (rcEq_of_get a h6 h7 h4 h5)
  · intro y im z im' hy hz
    obtain ⟨a, b, c, d⟩ := cleanup_canonical hL ho hk hw hy
    exact cleanup_noDup hL a b c d hz

/-- `remove_unreachable` alone (compile/mod.rs:291-294). -/
theorem removeUnreachable_stops [DecidableEq L.Insn] [DecidableEq L.Con] (hL : L.Lawful) (hR : L.Renames) (rc : RootCircuit L) {npi : Option Nat}
    (hk : rc.vertices.Nodup) (hw : WFAt npi rc) : ∃ N, ∀ fuel im, N ≤ fuel → optimizeUntilFixedPoint rcEq removeUnreachable fuel rc im ≠ .running := by
  have step : ∀ y : RootCircuit L, y.vertices.Nodup ∧ WFAt npi y → ∀ z im, removeUnreachable y = some (z, im) →
      (z.vertices.Nodup ∧ WFAt npi z) ∧ (rcEq y z = true ∨ rcSize z < rcSize y) := by
    rintro y ⟨a, b⟩ z im h
    obtain ⟨root, hroot, _⟩ := b.root
    obtain ⟨r, im1, h1, h2, h3, _⟩ := removeUnreachable_correct' hL y a b root hroot
    obtain ⟨r', im', _, _, q1, q2, q3, _⟩ := removeUnreachable_full y a b hroot
    rw [h1] at q1; cases q1
    rw [h1] at h; cases h
    refine ⟨⟨h2, h3⟩, ?_⟩
    rcases removeUnreachable_size hL hR y a b h1 with h6 | ⟨h6, h7⟩
    · exact .inr h6
    · exact .inl (rcEq_of_get a h6 h7 q2 q3)
  refine optimize_stops (Inv := fun y => y.vertices.Nodup ∧ WFAt npi y) (m := rcSize) step rc ?_
  intro y im z im' hy hz
  exact (step y (step rc ⟨hk, hw⟩ y im hy).1 z im' hz).1

/-! ### The source-level loop -/

section source
open Source (Insn)

/-- Forgets the operands of the instructions that `detect_chains` changes. -/
def strip : Insn F → Insn F
  | .linComb _ => .linComb ⟨[], 0⟩
  | .mul _ => .mul []
  | i => i

theorem strip_set (is : List (Insn F)) (j : Nat) (a b : Insn F) (h : is[j]? = some b) (hs : strip a = strip b) : (is.set j a).map strip = is.map strip := by
  rw [List.map_set, hs]
  exact Chains.set_self (by rw [List.getElem?_map, h]; rfl)

theorem strip_lin {is js : List (Insn F)} (h : is.map strip = js.map strip) {i : Nat} {lc : LinComb F} (hi : js[i]? = some (.linComb lc)) : ∃ lc', is[i]? = some (.linComb lc') := by
  have := congrArg (fun l => l[i]?) h
  simp only [List.getElem?_map, hi, Option.map_some] at this
  cases hx : is[i]? with
  | none => simp [hx] at this
  | some x => cases x <;> simp [hx, strip] at this; exact ⟨_, rfl⟩

theorem strip_mul {is js : List (Insn F)} (h : is.map strip = js.map strip) {i : Nat} {lc : List Nat} (hi : js[i]? = some (.mul lc)) : ∃ lc', is[i]? = some (.mul lc') := by
  have := congrArg (fun l => l[i]?) h
  simp only [List.getElem?_map, hi, Option.map_some] at this
  cases hx : is[i]? with
  | none => simp [hx] at this
  | some x => cases x <;> simp [hx, strip] at this; exact ⟨_, rfl⟩

theorem absorbAdd_strip (I : Chains.Info) : ∀ (todo : List (Nat × F)) (st : List (Insn F) × List (List (Nat × F)) × List (Nat × F) × F),
    (Chains.absorbAdd I todo st).1.map strip = st.1.map strip := by
  intro todo
  induction todo with
  | nil => intro st; rfl
  | cons x xs ih =>
    rintro ⟨is, lcs, rem, c⟩
    rw [Chains.absorbAdd]
    split
    · cases h : is[I.id x.1]? with
      | none => dsimp only; rw [ih]
      | some i =>
        cases i with
        | linComb xl => dsimp only; rw [ih]; exact strip_set _ _ _ _ h rfl
        | _ => dsimp only; rw [ih]
    · rw [ih]

theorem absorbMul_strip (I : Chains.Info) : ∀ (todo : List Nat) (st : List (Insn F) × List (List Nat) × List Nat),
    (Chains.absorbMul I todo st).1.map strip = st.1.map strip := by
  intro todo
  induction todo with
  | nil => intro st; rfl
  | cons x xs ih =>
    rintro ⟨is, vecs, rem⟩
    rw [Chains.absorbMul]
    split
    · cases h : is[I.id x]? with
      | none => dsimp only; rw [ih]
      | some i =>
        cases i with
        | mul ys => dsimp only; rw [ih]; exact strip_set _ _ _ _ h rfl
        | _ => dsimp only; rw [ih]
    · rw [ih]

theorem stepAdd_strip (I : Chains.Info) (is : List (Insn F)) (i : Nat) : (Chains.stepAdd I is i).map strip = is.map strip := by
  unfold Chains.stepAdd
  split
  swap
  · rfl
  split
  swap
  · rfl
  rename_i lc hlc
  split
  swap
  · rfl
  have h := absorbAdd_strip I lc.terms (is, [], [], lc.const)
  obtain ⟨lc', h'⟩ := strip_lin h hlc
  refine Eq.trans ?_ h
  exact strip_set _ _ _ _ h' rfl

theorem stepMul_strip (I : Chains.Info) (is : List (Insn F)) (i : Nat) : (Chains.stepMul I is i).map strip = is.map strip := by
  unfold Chains.stepMul
  split
  swap
  · rfl
  split
  swap
  · rfl
  rename_i vs hlc
  split
  swap
  · rfl
  have h := absorbMul_strip (F := F) I vs (is, [], [])
  obtain ⟨lc', h'⟩ := strip_mul h hlc
  refine Eq.trans ?_ h
  exact strip_set _ _ _ _ h' rfl

variable {q : Insn F → List F → List F → Prop} {vd : Nat → Insn F → Bool}

theorem detectCircuit_strip (o : Circuit (Chains.srcL q vd)) : (Chains.detectCircuit o).instructions.map strip = o.instructions.map strip := by
  have hf : ∀ (step : List (Insn F) → Nat → List (Insn F)), (∀ is i, (step is i).map strip = is.map strip) → ∀ (l : List Nat) is,
      (l.foldl step is).map strip = is.map strip := by
    intro step hs l
    induction l with
    | nil => intro is; rfl
    | cons a l ih => intro is; rw [List.foldl_cons, ih, hs]
  exact (hf _ (stepMul_strip _) _ _).trans (hf _ (stepAdd_strip _) _ _)

theorem callOut_strip {v d j : Nat} : ∀ (is js : List (Insn F)) (cur : Nat), is.map strip = js.map strip →
    CallOut (Chains.srcL q vd) v d j cur is → CallOut (Chains.srcL q vd) v d j cur js := by
  intro is
  induction is with
  | nil => intro js cur _ h; exact h.elim
  | cons i is ih =>
    intro js cur h hco
    cases js with
    | nil => simp at h
    | cons k js =>
      simp only [List.map_cons, List.cons.injEq] at h
      have hn : i.numOutputs = k.numOutputs := by
        have hs : ∀ x : Insn F, (strip x).numOutputs = x.numOutputs := by intro x; cases x <;> rfl
        rw [← hs i, h.1, hs]
      have ha : i.asCall = k.asCall := by
        have hs : ∀ x : Insn F, (strip x).asCall = x.asCall := by intro x; cases x <;> rfl
        rw [← hs i, h.1, hs]
      rcases hco with ⟨a, n, h1, h2, h3⟩ | hco
      · exact .inl ⟨a, n, by show k.asCall = _; rw [← ha]; exact h1, h2, h3⟩
      · refine .inr ?_
        have e : (Chains.srcL q vd).numOutputs i = (Chains.srcL q vd).numOutputs k := hn
        rw [← e]
        exact ih js _ h.2 hco

theorem detect_get (rc : RootCircuit (Chains.srcL q vd)) (c : Nat) : (Chains.detectChains rc).get c = (rc.get c).map Chains.detectCircuit := by
  unfold RootCircuit.get Chains.detectChains
  simp only
  generalize rc.circuits = l
  induction l with
  | nil => rfl
  | cons p l ih =>
    obtain ⟨a, k⟩ := p
    simp only [List.map_cons, List.lookup_cons, ih]
    cases (c == a) <;> rfl

theorem detect_back {rc : RootCircuit (Chains.srcL q vd)} {c : Nat} {circ' : Circuit (Chains.srcL q vd)} (h : (Chains.detectChains rc).get c = some circ') :
    ∃ circ, rc.get c = some circ ∧ circ' = Chains.detectCircuit circ := by
  rw [detect_get] at h
  cases hg : rc.get c with
  | none => rw [hg] at h; cases h
  | some circ => rw [hg] at h; exact ⟨circ, rfl, (Option.some.inj h).symm⟩

theorem detect_noDup {rc : RootCircuit (Chains.srcL q vd)} (h : NoDupOut rc.get) : NoDupOut (Chains.detectChains rc).get := by
  intro c circ' hg
  obtain ⟨circ, h1, rfl⟩ := detect_back hg
  exact h c circ h1

theorem detect_canonical (hE : Chains.QOk q vd) {rc : RootCircuit (Chains.srcL q vd)} {npi : Option Nat} (hw : WFAt npi rc) (h : Canonical rc.get) :
    Canonical (Chains.detectChains rc).get := by
  intro c circ' hg v hv d j hco sub' hs j' hj'
  obtain ⟨circ, h1, rfl⟩ := detect_back hg
  obtain ⟨sub, h2, rfl⟩ := detect_back hs
  have hinv := Chains.detectCircuit_inv (get := rc.get) hE (hw.wf.calls c circ h1) (Chains.insnsOk_none _ _ (hw.wf.circ c circ h1).insns)
  refine h c circ h1 v ?_ d j (callOut_strip _ _ _ (detectCircuit_strip circ) hco) sub h2 j' hj'
  have hc := hinv.cnt v
  have hm : 0 < (Chains.occ (Chains.detectCircuit circ).instructions circ.outputs (Chains.cvars circ)).count v := by
    rw [List.count_pos_iff]
    unfold refs at hv
    unfold Chains.occ
    simp only [List.mem_append] at hv ⊢
    rcases hv with hv | hv | hv
    · exact .inl hv
    · exact .inr (.inr hv)
    · exact .inr (.inl hv)
  have := List.count_pos_iff.1 (lt_of_lt_of_le hm hc)
  unfold Chains.occ at this
  unfold refs
  simp only [List.mem_append] at this ⊢
  rcases this with hv | hv | hv
  · exact .inl hv
  · exact .inr (.inr hv)
  · exact .inr (.inl hv)

theorem detect_size (hE : Chains.QOk q vd) {rc : RootCircuit (Chains.srcL q vd)} {npi : Option Nat} (hw : WFAt npi rc) :
    rcSize (Chains.detectChains rc) < rcSize rc ∨ (Chains.detectChains rc).get = rc.get := by
  have hv : (Chains.detectChains rc).vertices = rc.vertices := by simp [RootCircuit.vertices, Chains.detectChains, Function.comp_def]
  have hcirc : ∀ c, sizeAt (Chains.detectChains rc).get c < sizeAt rc.get c ∨ (Chains.detectChains rc).get c = rc.get c := by
    intro c
    unfold sizeAt
    rw [detect_get]
    cases hg : rc.get c with
    | none => exact .inr rfl
    | some circ =>
      simp only [Option.map_some, Option.getD_some]
      rcases Chains.detectCircuit_size (get := rc.get) hE (hw.wf.calls c circ hg) (Chains.insnsOk_none _ _ (hw.wf.circ c circ hg).insns) with h | h
      · left
        have h' : insnsSize (L := Chains.srcL q vd) (Chains.detectCircuit circ).instructions < insnsSize (L := Chains.srcL q vd) circ.instructions := h
        unfold circSize
        have e1 : (Chains.detectCircuit circ).numInputs = circ.numInputs := rfl
        have e2 : (Chains.detectCircuit circ).outputs = circ.outputs := rfl
        rw [e1, e2]
        omega
      · right
        congr 1
        unfold Chains.detectCircuit at h ⊢
        dsimp only at h ⊢
        rw [h]
  by_cases hall : ∀ c, (Chains.detectChains rc).get c = rc.get c
  · exact .inr (funext hall)
  · left
    simp only [not_forall] at hall
    obtain ⟨c, hc⟩ := hall
    have hlt := (hcirc c).resolve_right hc
    unfold rcSize
    rw [hv]
    refine Finset.sum_lt_sum (fun d _ => ?_) ⟨c, ?_, hlt⟩
    · rcases hcirc d with h | h
      · exact h.le
      · unfold sizeAt; rw [h]
    · rw [List.mem_toFinset]
      by_contra hn
      have : rc.get c = none := by
        cases hg : rc.get c with
        | none => rfl
        | some k => exact (hn (List.mem_map_of_mem (f := Prod.fst) (mem_of_get hg))).elim
      rw [detect_get, this] at hc
      exact hc rfl

theorem cleanupSource_stops {E : Env F} (hE : E.HintLen) (hR : (source E).Renames) (rc : RootCircuit (source E)) {npi : Option Nat} (hk : rc.vertices.Nodup)
    (hw : WFAt npi rc) : ∃ N, ∀ fuel im, N ≤ fuel → optimizeUntilFixedPoint rcEq cleanupSource fuel rc im ≠ .running := by
  have hL := source_lawful E hE
  have hQ := Chains.qok_source hE
  have hb : ∀ {y z : RootCircuit (source E)} {im : InputMapping}, cleanupSource y = some (z, im) → ∃ r, cleanup y = some (r, im) ∧ z = Chains.detectChains r := by
    intro y z im h
    unfold cleanupSource at h
    cases hc : cleanup y with
    | none => rw [hc] at h; cases h
    | some p =>
      obtain ⟨r, im'⟩ := p
      rw [hc] at h
      simp only [Option.map_some, Option.some.injEq, Prod.mk.injEq] at h
      exact ⟨r, by rw [h.2], h.1.symm⟩
  refine optimize_stops (Inv := fun y => y.vertices.Nodup ∧ (∃ npi, WFAt npi y) ∧ NoDupOut y.get) (m := rcSize) ?_ rc ?_
  · rintro y ⟨a, ⟨n, b⟩, c⟩ z im h
    obtain ⟨r, hr, rfl⟩ := hb h
    obtain ⟨h1, h2, h3, h4, h5, h6⟩ := cleanup_step hL hR a b c hr
    obtain ⟨v, w, _⟩ := Chains.detectChains_correct hQ r h2
    refine ⟨⟨by rw [v]; exact h1, ⟨none, w⟩, detect_noDup h3⟩, ?_⟩
    rcases h6 with h6 | ⟨h6, h7⟩
    · right
      rcases detect_size hQ h2 with h8 | h8
      · exact lt_trans h8 h6
      · refine lt_of_le_of_lt (le_of_eq ?_) h6
        exact rcSize_congr h8 (by rw [v])
    · rcases detect_size hQ h2 with h8 | h8
      · right
        rw [← rcSize_congr h6 h7]
        exact h8
      · left
        exact rcEq_of_get a (h8.trans h6) (by rw [v]; exact h7) h4 h5
  · intro y im z im' hy hz
    obtain ⟨r, hr, rfl⟩ := hb hy
    obtain ⟨a, b, c, d⟩ := cleanup_canonical hL (.inl ⟨rfl, rfl, rfl⟩) hk hw hr
    obtain ⟨v, w, _⟩ := Chains.detectChains_correct hQ r b
    obtain ⟨r2, hr2, rfl⟩ := hb hz
    obtain ⟨a2, b2, c2⟩ := cleanup_noDup hL (by rw [v]; exact a) w (detect_canonical hQ b c) (by
      intro root hroot
      obtain ⟨root0, h0, rfl⟩ := detect_back hroot
      exact d root0 h0) hr2
    obtain ⟨v2, w2, _⟩ := Chains.detectChains_correct hQ r2 b2
    exact ⟨by rw [v2]; exact a2, ⟨none, w2⟩, detect_noDup c2⟩
end source

/-! ### Renaming by the identity -/

theorem map_id_on {l : List Nat} {f : Nat → Nat} (h : ∀ v ∈ l, f v = v) : l.map f = l := by
  conv_rhs => rw [← List.map_id l]
  exact List.map_congr_left h

theorem lin_id {lc : LinComb F} {f : Nat → Nat} (h : ∀ v ∈ lc.vars, f v = v) : lc.replaceVars f = lc := by
  obtain ⟨ts, c⟩ := lc
  simp only [LinComb.replaceVars, LinComb.mk.injEq, and_true]
  conv_rhs => rw [← List.map_id ts]
  refine List.map_congr_left (fun t ht => ?_)
  rw [h t.1 (List.mem_map_of_mem (f := Prod.fst) ht)]
  rfl

theorem source_renames (E : Env F) : (source E).Renames where
  replace_id := by
    intro i f h
    cases i <;> simp_all [Source.Insn.inputs, Source.Insn.replaceVars, lin_id, map_id_on]
  mk_call := by
    intro i d a n h
    cases i <;> simp_all [Source.Insn.asCall]

theorem hintNorm_renames (E : Env F) : (hintNorm E).Renames where
  replace_id := by
    intro i f h
    cases i <;> simp_all [HintNorm.Insn.inputs, HintNorm.Insn.replaceVars, lin_id, map_id_on]
  mk_call := by
    intro i d a n h
    cases i <;> simp_all [HintNorm.Insn.asCall]

theorem hintLess_renames (E : Env F) : (hintLess E).Renames where
  replace_id := by
    intro i f h
    cases i <;> simp_all [HintLess.Insn.inputs, HintLess.Insn.replaceVars, lin_id, map_id_on]
  mk_call := by
    intro i d a n h
    cases i <;> simp_all [HintLess.Insn.asCall]

theorem expr_id {e : Expr F} {f : Nat → Nat} (h : ∀ v ∈ e.getVars, f v = v) : e.replaceVars f = e := by
  unfold Expr.replaceVars
  conv_rhs => rw [← List.map_id e]
  refine List.map_congr_left (fun t ht => ?_)
  obtain ⟨k, vs⟩ := t
  have hv : ∀ v ∈ vs.vars, f v = v := fun v hv => h v (List.mem_flatMap.2 ⟨_, ht, hv⟩)
  have : vs.replaceVars f = vs := by
    cases vs <;> simp_all [VarSpec.vars, VarSpec.replaceVars, map_id_on]
  simp [this]

theorem dest_renames (E : Env F) (relaxed : Bool) : (dest E relaxed).Renames where
  replace_id := by
    intro i f h
    cases i <;> simp_all [Dest.Insn.inputs, Dest.Insn.replaceVars, expr_id, map_id_on]
  mk_call := by
    intro i d a n h
    cases i <;> simp_all [Dest.Insn.asCall]

end Verif.Compile
