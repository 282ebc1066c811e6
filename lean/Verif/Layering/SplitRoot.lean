import Verif.Layering.SplitRec

/-!
# `split_to_single_layer` is correct
-/

set_option linter.unusedSectionVars false
set_option linter.unusedSimpArgs false

namespace Verif.Layering.Split

open Verif.IR (Expr Coef Env dest Circuit RootCircuit WFGet WFAt WF Eval CallsOk Calls CircOk InsnsOk numVars Run EvalSub readAll checkCons Constraint Term VarSpec)
open Verif.Layering

variable {F : Type} [Field F] [DecidableEq F] {random : Bool} {E : Env F} {relaxed : Bool}

/-- A circuit from its parts. -/
def circOf (E : Env F) (p : Prog F) : Circuit (dest E true) := ⟨p.insns, p.cons.map fun x => ⟨(), x⟩, p.outs, p.numInputs⟩

/-- The circuits of the pool with their numbers (ir_split.rs:482-489). -/
def numbered (E : Env F) : List (Prog F) → Nat → List (Nat × Circuit (dest E true))
  | [], _ => []
  | p :: ps, i => (i, circOf E p) :: numbered E ps (i + 1)

/-- The result of `split_to_single_layer` (ir_split.rs:464-493). -/
def splitRc (E : Env F) (npi : Nat) (r : Prog F × List (Prog F) × Nat) : RootCircuit (dest E true) :=
  ⟨npi, r.2.2, (0, circOf E r.1) :: numbered E r.2.1 1⟩

theorem numbered_lookup : ∀ (ps : List (Prog F)) (i j : Nat), (numbered E ps i).lookup (i + j) = (ps[j]?).map (circOf E)
  | [], _, _ => rfl
  | p :: ps, i, 0 => by simp [numbered, List.lookup]
  | p :: ps, i, j + 1 => by
    simp only [numbered, List.lookup]
    have : (i + (j + 1) == i) = false := by simp
    rw [this]
    simp only [List.getElem?_cons_succ]
    rw [show i + (j + 1) = i + 1 + j by omega]
    exact numbered_lookup ps (i + 1) j

theorem numbered_keys : ∀ (ps : List (Prog F)) (i : Nat), (numbered E ps i).map (·.1) = List.range' i ps.length
  | [], _ => rfl
  | p :: ps, i => by simp only [numbered, List.map_cons, List.length_cons, List.range'_succ]; rw [numbered_keys ps (i + 1)]

section
variable {npi : Nat} {r : Prog F × List (Prog F) × Nat}

theorem splitRc_zero : (splitRc E npi r).get 0 = some (circOf E r.1) := rfl

theorem splitRc_succ (i : Nat) : (splitRc E npi r).get (i + 1) = (r.2.1[i]?).map (circOf E) := by
  show List.lookup (i + 1) ((0, circOf E r.1) :: numbered E r.2.1 1) = _
  rw [List.lookup]
  have : (i + 1 == 0) = false := by simp
  rw [this]
  simp only
  rw [show i + 1 = 1 + i by omega]
  exact numbered_lookup _ _ _

theorem splitRc_nodup : (splitRc E npi r).vertices.Nodup := by
  show (((0, circOf E r.1) :: numbered E r.2.1 1).map (·.1)).Nodup
  rw [List.map_cons, numbered_keys, List.nodup_cons]
  exact ⟨by simp, List.nodup_range'⟩

end

theorem insnsOk_of_args {npi : Nat} : ∀ {is : List (Verif.IR.Dest.Insn F)} {cur : Nat}, ArgsOk is (cur + 1) → (∀ i ∈ is, Verif.IR.Dest.Insn.valid npi i = true) →
    InsnsOk (dest E true) (some npi) cur is
  | [], _, _, _ => trivial
  | i :: is, cur, ha, hv => by
    rw [argsOk_cons] at ha
    refine ⟨?_, hv i (by simp), Or.inl rfl, ?_⟩
    · intro t ht
      have : t ∈ argsOf i := by cases i <;> exact ht
      have := ha.1 t this
      omega
    · have : (dest E true).numOutputs i = nOut i := by cases i <;> rfl
      rw [this]
      refine insnsOk_of_args ?_ (fun j hj => hv j (by simp [hj]))
      rw [show cur + nOut i + 1 = cur + 1 + nOut i by omega]; exact ha.2

theorem circOk_of {npi : Nat} {p : Prog F} (hp : RProgOk p) (hv : ∀ i ∈ p.insns, Verif.IR.Dest.Insn.valid npi i = true) : CircOk (some npi) (circOf E p) where
  insns := insnsOk_of_args hp.args hv
  cons := by
    intro k hk
    obtain ⟨x, hx, rfl⟩ := List.mem_map.1 hk
    have := hp.cons x hx
    rw [endOf_numVars (E := E) (relaxed := true)] at this
    show x ≤ numVars (L := dest E true) p.numInputs p.insns ∧ x ≠ 0
    omega
  consNodup := Or.inl rfl
  outs := by
    intro x hx
    have := hp.outs x hx
    rw [endOf_numVars (E := E) (relaxed := true)] at this
    show x ≤ numVars (L := dest E true) p.numInputs p.insns ∧ x ≠ 0
    omega
  outsNodup := Or.inl rfl

theorem asCall_eq {i : Verif.IR.Dest.Insn F} {d : Nat} {a : List Nat} {n : Nat} : (dest E relaxed).asCall i = some (d, a, n) ↔ i = .call d a n := by
  cases i with
  | internal e => exact ⟨fun h => (by cases h), fun h => (by cases h)⟩
  | constantLike c => exact ⟨fun h => (by cases h), fun h => (by cases h)⟩
  | call d' xs m =>
    constructor
    · intro h; injection h with h; cases h; rfl
    · intro h; cases h; rfl

/-- Equations with and without verdicts. -/
theorem holdsAll_of_B {S : Nat → List F → List F → Prop} {SB : Nat → List F → List F → Bool → Prop} {W : Nat → F} : ∀ {is : List (Verif.IR.Dest.Insn F)} {cur : Nat},
    (∀ d xs m, Verif.IR.Dest.Insn.call d xs m ∈ is → ∀ outs, (∃ b, SB d (xs.map W) outs b) ↔ S d (xs.map W) outs) →
    ((∃ b, HoldsAllB E SB W is cur b) ↔ HoldsAll E S W is cur)
  | [], _, _ => ⟨fun _ => trivial, fun _ => ⟨true, rfl⟩⟩
  | i :: is, cur, h => by
    have ih := holdsAll_of_B (is := is) (cur := cur + nOut i) fun d xs m hm => h d xs m (by simp [hm])
    have h1 : (∃ b, HoldsB E SB W i cur b) ↔ Holds E S W i cur := by
      cases i with
      | internal e => exact ⟨fun ⟨b, h, _⟩ => h, fun h => ⟨true, h, rfl⟩⟩
      | constantLike c => exact ⟨fun ⟨b, h, _⟩ => h, fun h => ⟨true, h, rfl⟩⟩
      | call d xs m => exact h d xs m (by simp) _
    simp only [HoldsAll, ← ih, ← h1, HoldsAllB]
    constructor
    · rintro ⟨b, b1, b2, g1, g2, -⟩; exact ⟨⟨b1, g1⟩, ⟨b2, g2⟩⟩
    · rintro ⟨⟨b1, g1⟩, ⟨b2, g2⟩⟩; exact ⟨_, b1, b2, g1, g2, rfl⟩

theorem holdsAllB_true {SB : Nat → List F → List F → Bool → Prop} {W : Nat → F} : ∀ {is : List (Verif.IR.Dest.Insn F)} {cur : Nat} {b : Bool},
    (∀ d xs m, Verif.IR.Dest.Insn.call d xs m ∈ is → ∀ outs b, SB d (xs.map W) outs b → b = true) → HoldsAllB E SB W is cur b → b = true
  | [], _, _, _, h => h
  | i :: is, cur, b, hc, h => by
    obtain ⟨b1, b2, h1, h2, rfl⟩ := h
    have e2 := holdsAllB_true (fun d xs m hm => hc d xs m (by simp [hm])) h2
    have e1 : b1 = true := by
      cases i with
      | internal e => exact h1.2
      | constantLike c => exact h1.2
      | call d xs m => exact hc d xs m (by simp) _ _ h1
    rw [e1, e2]; rfl

section
variable {npi : Nat} {root : Prog F} {pool : List (Prog F)} {k : Nat}

/-- What the new circuits do. -/
def NewSem (get : Nat → Option (Circuit (dest E true))) (d : Nat) (ins outs : List F) : Prop := ∃ sub, get d = some sub ∧ ins.length = sub.numInputs ∧ ∃ b, EvalSub get sub ins outs b

theorem pool_callsOk {is : List (Verif.IR.Dest.Insn F)} {j : Nat} (h : CallsIn pool j is) : CallsOk (L := dest E true) (splitRc E npi (root, pool, k)).get is := by
  intro i hi d a n hd
  rw [asCall_eq] at hd
  subst hd
  obtain ⟨h1, h2, c, h3, h4, h5⟩ := h d a n hi
  refine ⟨circOf E c, ?_, h4, h5⟩
  rw [show d = (d - 1) + 1 by omega, splitRc_succ, h3]; rfl

theorem newSem_call {is : List (Verif.IR.Dest.Insn F)} {j : Nat} (h : CallsIn pool j is) {W : Nat → F} : ∀ d xs m, Verif.IR.Dest.Insn.call d xs m ∈ is → ∀ outs,
    (∃ b, subSem (splitRc E npi (root, pool, k)).get d (xs.map W) outs b) ↔ NewSem (splitRc E npi (root, pool, k)).get d (xs.map W) outs := by
  intro d xs m hm outs
  obtain ⟨sub, hs, hl, -⟩ := pool_callsOk (E := E) (npi := npi) (root := root) (k := k) h _ hm d xs m rfl
  constructor
  · rintro ⟨b, sub', hs', he⟩
    rw [hs] at hs'; cases hs'
    exact ⟨sub, hs, by rw [List.length_map]; exact hl, b, he⟩
  · rintro ⟨sub', hs', -, b, he⟩
    exact ⟨b, sub', hs', he⟩

/-- Circuits without constraints that call circuits of the pool. -/
theorem eval_new {p : Prog F} (hp : RProgOk p) (hc0 : p.cons = []) {j : Nat} (hc : CallsIn pool j p.insns)
    (htrue : ∀ d xs m, Verif.IR.Dest.Insn.call d xs m ∈ p.insns → ∀ ins outs b, ins.length = xs.length → subSem (splitRc E npi (root, pool, k)).get d ins outs b → b = true)
    {ins outs : List F} {b : Bool} (hl : ins.length = p.numInputs) : EvalSub (splitRc E npi (root, pool, k)).get (circOf E p) ins outs b ↔
      b = true ∧ ∃ W, InputsAre W ins ∧ HoldsAll E (NewSem (splitRc E npi (root, pool, k)).get) W p.insns (p.numInputs + 1) ∧ outs = p.outs.map W := by
  have e : progOf (circOf E p) = p := by
    cases p with
    | mk a b c d => simp only at hc0; subst hc0; rfl
  rw [evalSub_iff (by rw [e]; exact hp) (pool_callsOk hc) hl, e, hc0]
  simp only [List.all_nil, Bool.and_true]
  constructor
  · rintro ⟨W, sb, h1, h2, h3, rfl⟩
    refine ⟨holdsAllB_true ?_ h2, W, h1, (holdsAll_of_B (newSem_call hc)).1 ⟨_, h2⟩, h3⟩
    intro d xs m hm outs b hb
    exact htrue d xs m hm _ outs b (by simp) hb
  · rintro ⟨rfl, W, h1, h2, h3⟩
    obtain ⟨sb, h4⟩ := (holdsAll_of_B (newSem_call (E := E) (npi := npi) (root := root) (k := k) hc)).2 h2
    refine ⟨W, sb, h1, h4, h3, ?_⟩
    refine (holdsAllB_true ?_ h4).symm
    intro d xs m hm outs b hb
    exact htrue d xs m hm _ outs b (by simp) hb

theorem pool_true (hp : PoolOk npi pool) : ∀ (i : Nat) (c : Prog F), pool[i]? = some c → ∀ ins outs b, ins.length = c.numInputs → EvalSub (splitRc E npi (root, pool, k)).get (circOf E c) ins outs b → b = true := by
  intro i
  induction i using Nat.strong_induction_on with
  | _ i ih =>
    intro c hc ins outs b hl h
    have hci := hp i c hc
    refine ((eval_new hci.prog hci.cons hci.calls ?_ hl).1 h).1
    intro d xs m hm ins' outs' b' hl' hsub
    obtain ⟨h1, h2, c', h3, h4, h5⟩ := hci.calls d xs m hm
    obtain ⟨sub, hs, he⟩ := hsub
    rw [show d = (d - 1) + 1 by omega, splitRc_succ] at hs
    have hs : (pool[d - 1]?).map (circOf E) = some sub := hs
    rw [h3] at hs
    cases hs
    exact ih (d - 1) (by omega) c' h3 ins' outs' b' (by omega) he

theorem calls_true (hp : PoolOk npi pool) {is : List (Verif.IR.Dest.Insn F)} {j : Nat} (hc : CallsIn pool j is) : ∀ d xs m, Verif.IR.Dest.Insn.call d xs m ∈ is → ∀ ins outs b, ins.length = xs.length →
    subSem (splitRc E npi (root, pool, k)).get d ins outs b → b = true := by
  intro d xs m hm ins' outs' b' hl' hsub
  obtain ⟨h1, h2, c', h3, h4, h5⟩ := hc d xs m hm
  obtain ⟨sub, hs, he⟩ := hsub
  rw [show d = (d - 1) + 1 by omega, splitRc_succ] at hs
  have hs : (pool[d - 1]?).map (circOf E) = some sub := hs
  rw [h3] at hs
  cases hs
  exact pool_true hp (d - 1) c' h3 ins' outs' b' (by omega) he

theorem new_subSem (hp : PoolOk npi pool) : SubSem E (NewSem (splitRc E npi (root, pool, k)).get) pool := by
  intro i c hc ins outs
  have hci := hp i c hc
  have hget : (splitRc E npi (root, pool, k)).get (i + 1) = some (circOf E c) := by rw [splitRc_succ]; show (pool[i]?).map _ = _; rw [hc]; rfl
  constructor
  · rintro ⟨sub, hs, hl, b, he⟩
    rw [hget] at hs; cases hs
    exact ⟨hl, ((eval_new hci.prog hci.cons hci.calls (calls_true hp hci.calls) hl).1 he).2⟩
  · rintro ⟨hl, hW⟩
    exact ⟨_, hget, hl, true, (eval_new hci.prog hci.cons hci.calls (calls_true hp hci.calls) hl).2 ⟨rfl, hW⟩⟩

theorem splitRc_wfget (hp : PoolOk npi pool) (hr : RProgOk root) (hv : ∀ i ∈ root.insns, Verif.IR.Dest.Insn.valid npi i = true) (hc : CallsIn pool pool.length root.insns) :
    WFGet (some npi) (splitRc E npi (root, pool, k)).get := by
  have hcase : ∀ d circ, (splitRc E npi (root, pool, k)).get d = some circ → (d = 0 ∧ circ = circOf E root) ∨ ∃ i c, d = i + 1 ∧ pool[i]? = some c ∧ circ = circOf E c := by
    intro d circ h
    cases d with
    | zero => rw [splitRc_zero] at h; cases h; exact Or.inl ⟨rfl, rfl⟩
    | succ i =>
      rw [splitRc_succ] at h
      obtain ⟨c, h1, rfl⟩ := Option.map_eq_some_iff.1 h
      exact Or.inr ⟨i, c, rfl, h1, rfl⟩
  refine ⟨?_, ?_, fun d => if d = 0 then pool.length + 1 else d, ?_⟩
  · intro d circ h
    rcases hcase d circ h with ⟨rfl, rfl⟩ | ⟨i, c, rfl, h1, rfl⟩
    · exact circOk_of hr hv
    · exact circOk_of (hp i c h1).prog (hp i c h1).valid
  · intro d circ h
    rcases hcase d circ h with ⟨rfl, rfl⟩ | ⟨i, c, rfl, h1, rfl⟩
    · exact pool_callsOk hc
    · exact pool_callsOk (hp i c h1).calls
  · rintro d e ⟨circ, h, i, hi, a, n, ha⟩
    rw [asCall_eq] at ha
    subst ha
    rcases hcase d circ h with ⟨rfl, rfl⟩ | ⟨i, c, rfl, h1, rfl⟩
    · obtain ⟨g1, g2, -⟩ := hc e a n hi
      simp only [if_true]
      rw [if_neg (by omega)]; omega
    · obtain ⟨g1, g2, -⟩ := (hp i c h1).calls e a n hi
      simp only
      rw [if_neg (by omega), if_neg (by omega)]; omega

end

/-! ### The original circuit -/

theorem insnsOk_valid {npi : Nat} : ∀ {is : List (Verif.IR.Dest.Insn F)} {cur : Nat}, InsnsOk (dest E relaxed) (some npi) cur is → ∀ i ∈ is, Verif.IR.Dest.Insn.valid npi i = true
  | [], _, _, i, hi => by cases hi
  | j :: is, cur, h, i, hi => by
    rcases List.mem_cons.1 hi with rfl | hi
    · exact h.2.1
    · exact insnsOk_valid h.2.2.2 i hi

variable {rc : RootCircuit (dest E relaxed)}

theorem progGet_eq {d : Nat} {p : Prog F} (h : progGet rc.get d = some p) : ∃ circ, rc.get d = some circ ∧ progOf circ = p := Option.map_eq_some_iff.1 h

theorem old_progIn (hw : WFGet (some rc.numPublicInputs) rc.get) (hchar : random = true → ∀ d circ, rc.get d = some circ → ∀ k : Nat, 0 < k → k ≤ circ.constraints.length → (k : F) ≠ 0)
    (hnone : random = false → ∀ d circ, rc.get d = some circ → circ.constraints = []) : ∀ d p, progGet rc.get d = some p → ProgIn random (progGet rc.get) rc.numPublicInputs p := by
  intro d p h
  obtain ⟨circ, hg, rfl⟩ := progGet_eq h
  refine ⟨rprogOk_of (hw.circ d circ hg), ⟨insnsOk_valid (hw.circ d circ hg).insns, ?_⟩, ?_, ?_⟩
  · intro d' xs m hm
    obtain ⟨sub, h1, h2, h3⟩ := hw.calls d circ hg _ hm d' xs m rfl
    exact ⟨progOf sub, by rw [progGet, h1]; rfl, h2, h3⟩
  · intro hr k h1 h2
    exact hchar hr d circ hg k h1 (by simpa [progOf] using h2)
  · intro hr
    simp [progOf, hnone hr d circ hg]

theorem old_sem (hw : WFGet (some rc.numPublicInputs) rc.get) : OldSem (progGet rc.get) E (subSem rc.get) := by
  intro d p h ins ys b hl
  obtain ⟨circ, hg, rfl⟩ := progGet_eq h
  have he := evalSub_iff (rprogOk_of (hw.circ d circ hg)) (hw.calls d circ hg) (outs := ys) (b := b) hl
  constructor
  · rintro ⟨sub, hs, h⟩
    rw [hg] at hs; cases hs
    exact he.1 h
  · intro h; exact ⟨circ, hg, he.2 h⟩

theorem hasC_of {d : Nat} {circ : Circuit (dest E relaxed)} (hg : rc.get d = some circ) (hc : circ.constraints ≠ []) : ∀ {a : Nat}, Relation.ReflTransGen (Calls rc.get) a d → HasC (progGet rc.get) a := by
  intro a h
  induction h using Relation.ReflTransGen.head_induction_on with
  | refl => exact .here (p := progOf circ) (by rw [progGet, hg]; rfl) (by simpa [progOf] using hc)
  | head h1 _ ih =>
    obtain ⟨c, g1, i, g2, xs, n, g3⟩ := h1
    rw [asCall_eq] at g3
    subst g3
    exact .there (p := progOf c) (by rw [progGet, g1]; rfl) g2 ih

/-- Splitting preserves well-formedness, outputs, and verdicts up to the random coefficients; the result has no constraints. -/
theorem splitRoot_correct (hw : WF rc) {fuel : Nat} {r : Prog F × List (Prog F) × Nat} (h : splitRoot random (progGet rc.get) fuel rc.expectedNumOutputZeroes = some r)
    (hchar : random = true → ∀ d circ, rc.get d = some circ → ∀ k : Nat, 0 < k → k ≤ circ.constraints.length → (k : F) ≠ 0)
    (hsome : random = true → ∃ d circ, Relation.ReflTransGen (Calls rc.get) 0 d ∧ rc.get d = some circ ∧ circ.constraints ≠ [])
    (hnone : random = false → ∀ d circ, rc.get d = some circ → circ.constraints = []) :
    WF (splitRc E rc.numPublicInputs r) ∧ (∀ d circ, (splitRc E rc.numPublicInputs r).get d = some circ → circ.constraints = []) ∧
      (∀ ins outs b, Eval rc ins outs b → Eval (splitRc E rc.numPublicInputs r) ins outs b) ∧
      (∀ ins outs b', Eval (splitRc E rc.numPublicInputs r) ins outs b' → ∃ b, Eval rc ins outs b ∧ (b = true → b' = true) ∧ (random = false → b = b')) := by
  obtain ⟨root, hroot, hexp, hne⟩ := hw.root
  have hpg : progGet rc.get 0 = some (progOf root) := by rw [progGet, hroot]; rfl
  have hprogs := old_progIn hw.wf hchar hnone
  have hold := old_sem hw.wf
  unfold splitRoot at h
  rw [hpg] at h
  dsimp only at h
  cases hlay : layersOf (progGet rc.get) fuel 0 (List.replicate (progOf root).numInputs 0) with
  | none => rw [hlay] at h; cases h
  | some q =>
    obtain ⟨o, cc⟩ := q
    rw [hlay] at h
    dsimp only at h
    generalize hrec : split random (progGet rc.get) fuel fuel (sortDedup ([0] ++ (List.replicate (progOf root).numInputs 0 ++ (o ++ cc)))) = rec at h
    cases hfl : flatten random true (layersOf (progGet rc.get) fuel) rec (progOf root) (List.replicate (progOf root).numInputs 0) [] with
    | none => rw [hfl] at h; cases h
    | some q =>
      obtain ⟨fl, pool⟩ := q
      rw [hfl] at h
      dsimp only at h
      split at h
      · simp only [Option.some.injEq] at h
        subst h
        have hrecOk : RecOk random (progGet rc.get) rc.numPublicInputs E (subSem rc.get) rec := by rw [← hrec]; exact split_spec hprogs hold fuel _ _
        have hf := flatten_spec (root := true) hrecOk (hprogs 0 _ hpg) (by simp) (fun i c h => by simp at h) hfl
        have hpok := hf.poolOk
        generalize hk' : rc.expectedNumOutputZeroes + (if random = true then 1 else 0) = k'
        have hrp : RProgOk (⟨(progOf root).numInputs, fl.insns, [], fl.adds ++ fl.outs⟩ : Prog F) := ⟨hf.args, (fun x hx => by cases hx), hf.outsR⟩
        have hlenAdds : fl.adds.length = if random = true then 1 else 0 := by
          cases random with
          | false => rw [hf.nonrandom rfl]; rfl
          | true =>
            obtain ⟨d, circ, h1, h2, h3⟩ := hsome rfl
            have g1 := hf.nonempty rfl (hasCons_of hpg (hasC_of h2 h3 h1))
            have g2 := hf.rootLen rfl
            have := List.length_pos_iff.2 g1
            simp only [if_true]; omega
        have houtsLen : fl.outs.length = root.outputs.length := hf.lenOuts
        have hev : ∀ {ins all : List F} {b : Bool}, ins.length = root.numInputs →
            (EvalSub (splitRc E rc.numPublicInputs (⟨(progOf root).numInputs, fl.insns, [], fl.adds ++ fl.outs⟩, pool, k')).get (circOf E ⟨(progOf root).numInputs, fl.insns, [], fl.adds ++ fl.outs⟩) ins all b ↔
              b = true ∧ ∃ W, InputsAre W ins ∧ HoldsAll E (NewSem (splitRc E rc.numPublicInputs (⟨(progOf root).numInputs, fl.insns, [], fl.adds ++ fl.outs⟩, pool, k')).get) W fl.insns ((progOf root).numInputs + 1) ∧ all = (fl.adds ++ fl.outs).map W) := by
          intro ins all b hl
          exact eval_new hrp rfl hf.calls (calls_true hpok hf.calls) hl
        have hsub := new_subSem (E := E) (root := ⟨(progOf root).numInputs, fl.insns, [], fl.adds ++ fl.outs⟩) (k := k') hpok
        have holdRoot : ∀ {ins ys : List F} {b : Bool}, ins.length = root.numInputs → (EvalSub rc.get root ins ys b ↔ Old E (subSem rc.get) (progOf root) ins ys b) := by
          intro ins ys b hl
          exact evalSub_iff (rprogOk_of (hw.wf.circ 0 root hroot)) (hw.wf.calls 0 root hroot) hl
        -- the verdict of the result
        have hverd : ∀ (W : Nat → F), (((fl.adds ++ fl.outs).map W).take k').all (fun x => decide (x = 0)) =
            ((fl.adds.map W).all (fun x => decide (x = 0)) && ((fl.outs.map W).take rc.expectedNumOutputZeroes).all fun x => decide (x = 0)) := by
          intro W
          rw [List.map_append, List.take_append, List.all_append, List.length_map, hlenAdds, ← hk', Nat.add_sub_cancel]
          rw [List.take_of_length_le (by rw [List.length_map, hlenAdds]; omega)]
        have hdrop : ∀ (W : Nat → F), ((fl.adds ++ fl.outs).map W).drop k' = (fl.outs.map W).drop rc.expectedNumOutputZeroes := by
          intro W
          rw [List.map_append, List.drop_append, List.length_map, hlenAdds, ← hk', Nat.add_sub_cancel]
          rw [List.drop_eq_nil_of_le (by rw [List.length_map, hlenAdds]; omega), List.nil_append]
        have hle : ∀ (W : Nat → F), k' ≤ ((fl.adds ++ fl.outs).map W).length := by
          intro W
          rw [List.length_map, List.length_append, hlenAdds, houtsLen]; omega
        refine ⟨⟨splitRc_wfget hpok hrp hf.valid hf.calls, _, rfl, ?_, ?_⟩, ?_, ?_, ?_⟩
        · show k' ≤ (fl.adds ++ fl.outs).length
          rw [List.length_append, hlenAdds, houtsLen]; omega
        · intro hnil
          exfalso
          have hnil : fl.adds ++ fl.outs = [] := hnil
          obtain ⟨e1, e2⟩ := List.append_eq_nil_iff.1 hnil
          rw [e1] at hlenAdds
          cases random with
          | true => simp at hlenAdds
          | false =>
            rw [e2] at houtsLen
            obtain ⟨d, circ, -, h1, h2⟩ := hne (List.length_eq_zero_iff.1 houtsLen.symm)
            exact h2 (hnone rfl d circ h1)
        · intro d circ hd
          cases d with
          | zero => rw [splitRc_zero] at hd; cases hd; rfl
          | succ i =>
            rw [splitRc_succ] at hd
            obtain ⟨c, h1, rfl⟩ := Option.map_eq_some_iff.1 hd
            show c.cons.map _ = []
            rw [(hpok i c h1).cons]; rfl
        · rintro ins outs b ⟨root', all, b0, g1, g2, g3, g4, rfl, rfl⟩
          rw [hroot] at g1; cases g1
          have hold' := (holdRoot g2).1 g3
          cases b0 with
          | true =>
            obtain ⟨W, w1, w2, rfl, w4⟩ := hf.fwd0 _ pool (List.prefix_refl _) hpok hsub ins all true g2 hold'
            refine ⟨_, _, true, rfl, g2, (hev g2).2 ⟨rfl, W, w1, w2, rfl⟩, hle W, (hdrop W).symm, ?_⟩
            show _ = (true && (((fl.adds ++ fl.outs).map W).take k').all _)
            rw [hverd W]
            have : (fl.adds.map W).all (fun x => decide (x = 0)) = true := by
              rw [List.all_eq_true]
              intro y hy
              obtain ⟨x, hx, rfl⟩ := List.mem_map.1 hy
              exact decide_eq_true (w4 x hx)
            rw [this]; simp
          | false =>
            obtain ⟨W, w1, w2, rfl, w4⟩ := hf.fwd1 _ pool (List.prefix_refl _) hpok hsub ins all g2 hold'
            refine ⟨_, _, true, rfl, g2, (hev g2).2 ⟨rfl, W, w1, w2, rfl⟩, hle W, (hdrop W).symm, ?_⟩
            show _ = (true && (((fl.adds ++ fl.outs).map W).take k').all _)
            rw [hverd W]
            have : (fl.adds.map W).all (fun x => decide (x = 0)) = false := by
              obtain ⟨a, y, b, e, hy, -⟩ := w4
              rw [e, List.all_append, List.all_cons, decide_eq_false hy]; simp
            rw [this]; simp
        · rintro ins outs b' ⟨root', all, b0, g1, g2, g3, g4, rfl, rfl⟩
          rw [splitRc_zero] at g1; cases g1
          have g2 : ins.length = root.numInputs := g2
          obtain ⟨rfl, W, w1, w2, rfl⟩ := (hev g2).1 g3
          obtain ⟨b, h1, h2⟩ := hf.bwd _ pool (List.prefix_refl _) hpok hsub ins W g2 w1 w2
          refine ⟨_, ⟨root, _, b, hroot, g2, (holdRoot g2).2 h1, by rw [List.length_map, houtsLen]; exact hexp, hdrop W, rfl⟩, ?_, ?_⟩
          rotate_left
          · intro hr
            show _ = (true && (((fl.adds ++ fl.outs).map W).take k').all _)
            rw [hverd W, hf.nonrandom hr]
            have : b = true := by
              cases b with
              | true => rfl
              | false =>
                obtain ⟨W', -, -, -, a, y, c, e, -⟩ := hf.fwd1 _ pool (List.prefix_refl _) hpok hsub ins _ g2 h1
                rw [hf.nonrandom hr] at e
                simp at e
            rw [this]; simp
          intro hb
          obtain ⟨rfl, hb2⟩ := Bool.and_eq_true_iff.1 hb
          show (true && (((fl.adds ++ fl.outs).map W).take k').all _) = true
          rw [hverd W, hb2]
          have : (fl.adds.map W).all (fun x => decide (x = 0)) = true := by
            rw [List.all_eq_true]
            intro y hy
            obtain ⟨x, hx, rfl⟩ := List.mem_map.1 hy
            exact decide_eq_true (h2 rfl x hx)
          rw [this]; rfl
      · cases h

theorem splitRoot_zeroes {fuel npi : Nat} {r : Prog F × List (Prog F) × Nat} (h : splitRoot random (progGet rc.get) fuel rc.expectedNumOutputZeroes = some r) :
    (splitRc E npi r).expectedNumOutputZeroes = rc.expectedNumOutputZeroes + if random then 1 else 0 := by
  unfold splitRoot at h
  split at h
  · cases h
  · dsimp only at h
    split at h
    · cases h
    · split at h
      · cases h
      · split at h
        · cases h; rfl
        · cases h

end Verif.Layering.Split
