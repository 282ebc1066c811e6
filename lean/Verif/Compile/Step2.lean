import Verif.Compile.Link
import Verif.Props.C10
import Verif.Props.C11
import Verif.Props.C12
import Verif.Props.C13
import Verif.Props.C14

/-!
# From the circuit without hints to the circuit in final form

`compile_step_2` (compile/mod.rs:148-255) keeps every outcome; without random values the outcomes of the result are those of the circuit,
except that constraints that do not hold may be accepted by a random combination.
-/

set_option linter.unusedSectionVars false
set_option linter.unusedSimpArgs false

namespace Verif.Compile

open Verif.IR Verif.IR.HintExport Verif.Props Verif.Utils

variable {F : Type} [Field F] [DecidableEq F] {L : Lang F}

/-- What a circuit computes: inputs, outputs, whether all constraints hold. -/
abbrev Beh (F : Type) := List F → List F → Bool → Prop

/-- `rc`, fed with the inputs placed by `im`, computes what `A` computes: always forward, backward if `K`, up to accepting more. -/
structure Stage (A : Beh F) (n0 npi0 : Nat) (K : Prop) (im : InputMapping) (rc : RootCircuit L) : Prop where
  valid : Valid rc
  npi : rc.numPublicInputs = npi0
  map : MapOk n0 im (inputSize rc)
  fwd : ∀ x y, im.Placed x y → ∀ o b, A x o b → Eval rc y o b
  bwd : K → ∀ x y, im.Placed x y → ∀ o b', Eval rc y o b' → ∃ b, A x o b ∧ (b = true → b' = true)

variable {A : Beh F} {n0 npi0 : Nat} {K : Prop} {im im' : InputMapping}

theorem Stage.factor {x y : RootCircuit L} (h : Stage A n0 npi0 K im x) (hv : Valid y) (hn : y.numPublicInputs = x.numPublicInputs)
    (hm : MapOk n0 im' (inputSize y)) (hf : Factor im im' (fun b c => SameEval x b y c)) : Stage A n0 npi0 K im' y := by
  refine ⟨hv, hn.trans h.npi, hm, fun a c hp o b ha => ?_, fun hK a c hp o b' hb => ?_⟩
  · obtain ⟨b0, h1, h2⟩ := hf a c hp
    exact (h2 o b).1 (h.fwd a b0 h1 o b ha)
  · obtain ⟨b0, h1, h2⟩ := hf a c hp
    exact h.bwd hK a b0 h1 o b' ((h2 o b').2 hb)

theorem Stage.pass {L' : Lang F} {x : RootCircuit L} {y : RootCircuit L'} (h : Stage A n0 npi0 K im x) (hv : Valid y) (hn : y.numPublicInputs = x.numPublicInputs)
    (hm : inputSize y = inputSize x) (hf : ∀ ins o b, Eval x ins o b → Eval y ins o b)
    (hb : K → ∀ ins o b', Eval y ins o b' → ∃ b, Eval x ins o b ∧ (b = true → b' = true)) : Stage A n0 npi0 K im y := by
  refine ⟨hv, hn.trans h.npi, by rw [hm]; exact h.map, fun a c hp o b ha => hf _ _ _ (h.fwd a c hp o b ha), fun hK a c hp o b' he => ?_⟩
  obtain ⟨b1, h1, h2⟩ := hb hK c o b' he
  obtain ⟨b, h3, h4⟩ := h.bwd hK a c hp o b1 h1
  exact ⟨b, h3, fun hb => h2 (h4 hb)⟩

theorem inputSize_of_numInputs {L' : Lang F} {x : RootCircuit L} {y : RootCircuit L'} (h : ∀ c, (y.get c).map (·.numInputs) = (x.get c).map (·.numInputs)) :
    inputSize y = inputSize x := by
  unfold inputSize
  rw [h 0]

theorem Stage.tidy [DecidableEq L.Insn] [DecidableEq L.Con] (hL : L.Lawful) (ho : ReassignOk L) (hT : L.Total) {opt fuel : Nat} {x y : RootCircuit L} (h : Stage A n0 npi0 K im x)
    (ht : tidy opt fuel x im = some (y, im')) : Stage A n0 npi0 K im' y := by
  obtain ⟨a, b, c⟩ := tidy_factor hL ho hT h.valid h.map ht
  exact h.factor a (tidy_fwd hL (npi_fwd _) ht rfl) b c

theorem reassignOk_hintLess (E : Env F) : ReassignOk (hintLess E) := .inl ⟨rfl, rfl, rfl⟩
theorem reassignOk_dest (E : Env F) (r : Bool) : ReassignOk (dest E r) := by
  cases r
  · exact .inr rfl
  · exact .inl ⟨rfl, rfl, rfl⟩

/-- Validation checks the conditions on the root, even for a table with duplicate keys. -/
theorem validate_rootOk {rc : RootCircuit L} (h : rc.validate = true) : RootOk rc := by
  have hcalls : ∀ c d, d ∈ succs rc.edges c → Calls rc.get c d := by
    intro c d hd
    unfold succs at hd
    have hl : rc.edges.lookup c = (rc.get c).map fun circ => (callees circ.instructions).dedup := lookup_map_snd (fun circ : Circuit L => (callees circ.instructions).dedup) rc.circuits c
    rw [hl] at hd
    cases hg : rc.get c with
    | none => simp [hg] at hd
    | some circ =>
      simp only [hg, Option.map_some, Option.getD_some, List.mem_dedup] at hd
      obtain ⟨i, hi, hc⟩ := List.mem_filterMap.1 hd
      obtain ⟨⟨d', a, n⟩, hc', rfl⟩ := Option.map_eq_some_iff.1 hc
      exact ⟨circ, hg, i, hi, a, n, hc'⟩
  have hset : ∀ (order : List Nat) (c : Nat), c ∈ hasConstraintSet rc order → ∃ d circ, Relation.ReflTransGen (Calls rc.get) c d ∧ rc.get d = some circ ∧ circ.constraints ≠ [] := by
    intro order
    induction order with
    | nil => intro c hc; simp [hasConstraintSet] at hc
    | cons v order ih =>
      intro c hc
      simp only [hasConstraintSet] at hc
      split at hc
      · exact ih c hc
      · rename_i circ hg
        split at hc
        · rename_i hcond
          rcases List.mem_cons.1 hc with rfl | hc
          · simp only [Bool.or_eq_true, Bool.not_eq_true', List.isEmpty_eq_false_iff, List.any_eq_true, List.contains_iff_mem] at hcond
            rcases hcond with hcond | ⟨o, ho, hin⟩
            · exact ⟨c, circ, .refl, hg, hcond⟩
            · obtain ⟨d, k, h1, h2, h3⟩ := ih o hin
              exact ⟨d, k, .head (hcalls _ _ ho) h1, h2, h3⟩
          · exact ih c hc
        · exact ih c hc
  unfold RootCircuit.validate at h
  cases hg : rc.get 0 with
  | none => simp [hg] at h
  | some root =>
    simp only [hg, Bool.and_eq_true] at h
    obtain ⟨_, h3⟩ := h
    split at h3
    · cases h3
    · rename_i order isDag _
      simp only [Bool.and_eq_true, Bool.or_eq_true, decide_eq_true_eq, Bool.not_eq_true', List.isEmpty_eq_false_iff, List.contains_iff_mem] at h3
      refine ⟨root, hg, h3.2, fun he => ?_⟩
      rcases h3.1.2 with h | h
      · exact (h he).elim
      · exact hset _ _ h

theorem placed_identity_eq {n : Nat} {x y : List F} (hp : (InputMapping.identity n).Placed x y) : y = x := by
  refine InputMapping.Placed.unique (InputMapping.identity_surjective n) hp ?_
  have := InputMapping.placed_identity x
  rw [hp.cur] at this
  simpa [InputMapping.identity, InputMapping.curSize] using this

theorem step2a_stage {P : Params F} {o : Options} {E : Env F} {hl r : RootCircuit (hintLess E)} (hk : hl.vertices.Nodup) (hw : WF hl) (h : step2a P o hl = some (r, im)) :
    Stage (Eval hl) (inputSize hl) hl.numPublicInputs K im r ∧ (HlNoRandom hl → HlNoRandom r) := by
  have h0 : Stage (Eval hl) (inputSize hl) hl.numPublicInputs K (.identity (inputSize hl)) hl := by
    refine ⟨⟨hk, hw⟩, rfl, mapOk_identity _, fun x y hp o b ha => ?_, fun _ x y hp o b ha => ⟨b, ?_, id⟩⟩
    · rw [placed_identity_eq hp]; exact ha
    · rw [← placed_identity_eq hp]; exact ha
  unfold step2a at h
  by_cases h2 : 2 ≤ o.optLevel
  · simp only [if_pos h2, Option.bind_eq_bind, Option.bind_eq_some_iff] at h
    obtain ⟨⟨r1, im1⟩, h1, r2, h2, h3⟩ := h
    obtain ⟨rfl, _⟩ := checked_some.1 h2
    cases h3
    have ht : tidy 2 P.fuel hl (.identity (inputSize hl)) = some (r, im1) := by
      unfold tidy; rw [if_pos (by omega)]; exact h1
    exact ⟨h0.tidy (hintLess_lawful E) (reassignOk_hintLess E) (hintLess_total E) ht, fun hn => tidy_fwd (hintLess_lawful E) hl_fwd ht hn⟩
  · simp only [if_neg h2, Option.bind_eq_bind, Option.bind_eq_some_iff] at h
    obtain ⟨⟨r1, im1⟩, h1, r2, h2, h3⟩ := h
    obtain ⟨rfl, _⟩ := checked_some.1 h2
    cases h3; cases h1
    exact ⟨h0, id⟩

theorem optional_limit {P : Params F} {o : Options} (ho : o.valid = true) {l : Nat} (h : o.mulFanoutLimit = some l) : 2 ≤ l := by
  unfold Options.valid at ho
  rw [h] at ho
  simp only [Bool.and_eq_true, decide_eq_true_eq] at ho
  omega

theorem step2b_stage {P : Params F} {o : Options} (ho : o.valid = true) (hcs : FinalBuild.CostOk P.costs) {E : Env F} {hl : RootCircuit (hintLess E)} {d : RootCircuit (dest E true)}
    (hs : Stage A n0 npi0 K im hl) (hK : K → HlNoRandom hl) (h : step2b P o hl im = some (d, im')) : Stage A n0 npi0 K im' d ∧ (K → DestNoRandom d) := by
  simp only [step2b, Option.bind_eq_bind, Option.bind_eq_some_iff] at h
  obtain ⟨d1, h1, ⟨d2, im2⟩, h2, d3, h3, h4⟩ := h
  obtain ⟨rfl, hv3⟩ := checked_some.1 h3
  rw [outcomeOption_some] at h1
  rcases C10_finalBuild_partial E hcs P.ltE hl hs.valid.1 ((validate_iff hl hs.valid.1).2 hs.valid.2) with ⟨e, _⟩ | ⟨d1', e, a1, a2, a3, a4, a5, a6, _, a8, a9⟩
  · rw [e] at h1; cases h1
  rw [e] at h1; cases h1
  have hL := dest_lawful E true
  have hroot : RootOk d1 := tidy_rootOk hL h2 (validate_rootOk hv3)
  have hv1 : Valid d1 := ⟨a1, ⟨a6, hroot⟩⟩
  have hs1 : Stage A n0 npi0 K im d1 := hs.pass hv1 a3 (inputSize_of_numInputs a4) (fun ins o b he => (a5 ins o b).2 he)
    (fun _ ins o b' he => ⟨b', (a5 ins o b').1 he, id⟩)
  have hlin1 : AllInsn (L := dest E true) NoRandomLinear d1 := by
    intro c circ hg i hi
    cases i with
    | internal e => exact a8 c circ hg e hi
    | call c xs n => trivial
    | constantLike c => trivial
  have hnr1 : K → DestNoRandom d1 := by
    intro hK' c circ hg i hi
    have := a9 (fun c circ hg hm => hK hK' c circ hg _ hm rfl) c circ hg
    cases i with
    | internal e => exact a8 c circ hg e hi
    | call c xs n => trivial
    | constantLike c => exact fun he => this (he ▸ hi)
  have hs3 : Stage A n0 npi0 K im2 d3 := hs1.tidy hL (reassignOk_dest E true) (dest_total E true) h2
  have hlin3 := tidy_fwd hL randomLinear_fwd h2 hlin1
  have hnr3 : K → DestNoRandom d3 := fun hK => tidy_fwd hL dest_fwd h2 (hnr1 hK)
  cases hm : o.mulFanoutLimit with
  | none =>
    rw [hm] at h4; cases h4
    exact ⟨hs3, hnr3⟩
  | some l =>
    rw [hm] at h4
    simp only [Option.bind_eq_bind, Option.bind_eq_some_iff] at h4
    obtain ⟨d4, h5, d5, h6, h7⟩ := h4
    obtain ⟨rfl, hv5⟩ := checked_some.1 h6
    cases h7
    obtain ⟨d4', e, c1, c2, c3, c4, _, c6, c7⟩ := C11_mulFanout_partial E l (optional_limit (P := P) ho hm) d3 hs3.valid.1 hv3 (fun c circ hg e he => hlin3 c circ hg (.internal e) he)
    rw [e] at h5; cases h5
    refine ⟨hs3.pass (valid_of (by rw [c1]; exact hs3.valid.1) hv5) c3 (inputSize_of_numInputs c4) c6 (fun hK ins o b' he => ⟨b', ?_, id⟩), fun hK => solveRoot_noRandom e (hnr3 hK)⟩
    refine (c7 ?_ ins o b').1 he
    intro c circ hg hm
    exact hnr3 hK c circ hg _ hm rfl

theorem Stage.prune (hL : L.Lawful) (hT : L.Total) {x y : RootCircuit L} (h : Stage A n0 npi0 K im x) (ht : pruneOnce x im = some (y, im')) : Stage A n0 npi0 K im' y := by
  obtain ⟨m, h1, h2⟩ := pruneOnce_some.1 ht
  obtain ⟨a, b, c⟩ := factor_compose (removeUnreachable_passOk hL hT) (fun h => removeUnreachable_surj h) h.valid h.map h1 h2
  exact h.factor a (removeUnreachable_derived hL h1).npi b c

theorem Stage.reassign (hL : L.Lawful) (g1 : L.allowDupInputs = true) (g2 : L.allowDupConstraints = true) (g3 : L.allowDupOutputs = true) {force : Bool}
    {x y : RootCircuit L} (h : Stage A n0 npi0 K im x) (ht : reassign x force = some y) : Stage A n0 npi0 K im y := by
  obtain ⟨rc', a, b, c, d, _, e, f, _⟩ := reassign_correct' hL g1 g2 g3 x h.valid.1 h.valid.2 force
  rw [ht] at a; cases a
  refine h.pass ⟨b, by rw [show WF y = WFAt (some y.numPublicInputs) y from rfl, d]; exact c⟩ d ?_ (fun ins o b he => (f ins o b).1 he) (fun _ ins o b' he => ⟨b', (f ins o b').2 he, id⟩)
  have := e 0
  unfold inputSize
  cases h0 : x.get 0 <;> cases h0' : y.get 0 <;> simp [h0, h0'] at this ⊢
  exact this.1

theorem reassign_fwd (hL : L.Lawful) {Q : RootCircuit L → Prop} (hq : Fwd Q) {x y : RootCircuit L} {force : Bool} (h : IR.reassign x force = some y) (hx : Q x) : Q y := by
  rcases reassign_derived hL h with rfl | hd
  · exact hx
  · exact hq hd hx

theorem step2c_stage {o : Options} {E : Env F} {d r : RootCircuit (dest E true)} (hs : Stage A n0 npi0 K im d) (hK : K → DestNoRandom d) (h : step2c o d im = some (r, im')) :
    Stage A n0 npi0 K im' r ∧ (K → DestNoRandom r) ∧ (o.randomComb = false → ∀ c circ, r.get c = some circ → circ.constraints = []) := by
  unfold step2c at h
  by_cases hr : o.randomComb = true
  · rw [if_pos hr] at h; cases h
    exact ⟨hs, hK, fun e => by rw [hr] at e; cases e⟩
  · rw [if_neg hr] at h
    simp only [Option.bind_eq_bind, Option.bind_eq_some_iff] at h
    obtain ⟨d1, h1, d2, h2, ⟨d3, im3⟩, h3, d4, h4, h5⟩ := h
    obtain ⟨rfl, _⟩ := checked_some.1 h4
    cases h5
    obtain ⟨d1', e, a1, a2, a3, a4, a5, a6⟩ := C12_exportConstraints E d hs.valid.1 ((validate_iff d hs.valid.1).2 hs.valid.2)
    rw [e] at h1; cases h1
    have hL := dest_lawful E true
    have hs1 : Stage A n0 npi0 K im d1 := hs.pass (valid_of a1 a2) a3 (inputSize_of_numInputs a5) (fun ins o b he => (a6 ins o b).2 he) (fun _ ins o b' he => ⟨b', (a6 ins o b').1 he, id⟩)
    have hs2 := hs1.reassign hL rfl rfl rfl h2
    obtain ⟨m, h6, _⟩ := pruneOnce_some.1 h3
    have hq : Fwd (fun rc : RootCircuit (dest E true) => ∀ c circ, rc.get c = some circ → circ.constraints = []) := by
      intro x y hd hx c circ hg
      obtain ⟨k, hk, hd'⟩ := hd.circ c circ hg
      have := hd'.cons
      rw [hx c k hk] at this
      exact List.length_eq_zero_iff.1 (by simpa using this)
    refine ⟨hs2.prune hL (dest_total E true) h3, fun hK' => ?_, fun _ => removeUnreachable_fwd hL hq h6 (reassign_fwd hL hq h2 a4)⟩
    exact removeUnreachable_fwd hL dest_fwd h6 (reassign_fwd hL dest_fwd h2 (exportConstraints_noRandom e (hK hK')))

/-- The conditions under which a random combination of constraints is zero for all random numbers only if all constraints hold, and
`split_to_single_layer` adds a combination at all (`C14`). -/
structure Combinable {E : Env F} (rc : RootCircuit (dest E true)) : Prop where
  char : ∀ d circ, rc.get d = some circ → ∀ k : Nat, 0 < k → k ≤ circ.constraints.length → (k : F) ≠ 0
  some : ∃ d circ, Relation.ReflTransGen (Calls rc.get) 0 d ∧ rc.get d = some circ ∧ circ.constraints ≠ []

theorem splitRoot_inputs {random : Bool} {get : Nat → Option (Layering.Prog F)} {fuel k : Nat} {r : Layering.Prog F × List (Layering.Prog F) × Nat}
    (h : Layering.Split.splitRoot random get fuel k = some r) : ∃ p, get 0 = some p ∧ r.1.numInputs = p.numInputs := by
  unfold Layering.Split.splitRoot at h
  split at h
  · cases h
  · rename_i p hp
    dsimp only at h
    split at h
    · cases h
    · split at h
      · cases h
      · split at h
        · cases h; exact ⟨p, hp, rfl⟩
        · cases h

theorem step2d_stage {P : Params F} {o : Options} {E : Env F} {d r : RootCircuit (dest E true)} (hs : Stage A n0 npi0 K im d) (hK : K → DestNoRandom d)
    (hnone : o.randomComb = false → ∀ c circ, d.get c = some circ → circ.constraints = []) (hcomb : o.randomComb = true → o.cross = false → Combinable d)
    (h : step2d P o d im = some (r, im')) : Stage A n0 npi0 K im' r ∧ (K → DestRandLast r) := by
  unfold step2d at h
  by_cases hc : o.cross = true
  · rw [if_pos hc] at h; cases h
    exact ⟨hs, fun hk => (hK hk).randLast⟩
  · rw [if_neg hc] at h
    simp only [Option.bind_eq_bind, Option.bind_eq_some_iff] at h
    obtain ⟨p, h1, r1, h2, h3⟩ := h
    obtain ⟨rfl, hv⟩ := checked_some.1 h2
    have hvd := (validate_iff d hs.valid.1).2 hs.valid.2
    have hin : inputSize (Layering.Split.splitRc E d.numPublicInputs p) = inputSize d := by
      obtain ⟨q, hq, e⟩ := splitRoot_inputs h1
      unfold Layering.progGet at hq
      obtain ⟨circ, hg, rfl⟩ := Option.map_eq_some_iff.1 hq
      unfold inputSize
      rw [hg, show (Layering.Split.splitRc E d.numPublicInputs p).get 0 = some (Layering.Split.circOf E p.1) from by simp [Layering.Split.splitRc, RootCircuit.get, List.lookup]]
      exact e
    have hL := dest_lawful E true
    have hs1 : Stage A n0 npi0 K im (Layering.Split.splitRc E d.numPublicInputs p) := by
      cases hr : o.randomComb with
      | true =>
        rw [hr] at h1
        have hco := hcomb hr (by simpa using hc)
        obtain ⟨a1, a2, a3, a4, a5, a6⟩ := C14_split_partial E true d hs.valid.1 hvd P.fuel p h1 hco.char hco.some
        exact hs.pass (valid_of a2 a1) rfl hin a5 (fun _ => a6)
      | false =>
        rw [hr] at h1
        obtain ⟨a1, a2, a3, a4, a5⟩ := C14_split_noRandom E true d hs.valid.1 hvd P.fuel p h1 (hnone hr)
        exact hs.pass (valid_of a2 a1) rfl hin (fun ins o b he => (a5 ins o b).2 he) (fun _ ins o b' he => ⟨b', (a5 ins o b').1 he, id⟩)
    exact ⟨hs1.tidy hL (reassignOk_dest E true) (dest_total E true) h3, fun hk => tidy_fwd hL randLast_fwd h3 (splitRoot_last h1 (hK hk) _)⟩

theorem step2e_stage {P : Params F} {o : Options} (hord : ∀ l, (P.ord l).Perm l) {E : Env F} {d : RootCircuit (dest E true)} {r : RootCircuit (dest E false)} (hs : Stage A n0 npi0 K im d)
    (hK : K → DestRandLast d) (h : step2e P o d im = some (r, im')) : Stage A n0 npi0 K im' r := by
  have key : ∀ d' : RootCircuit (dest E true), Stage A n0 npi0 K im d' → (K → DestRandLast d') → ∀ r1, SolveDup.solveDuplicates E P.ord d' = some r1 → Stage A n0 npi0 K im r1 := by
    intro d' hs hK r1 h1
    have hnd : ∀ c circ, d'.get c = some circ → circ.outputs.Nodup := by
      intro c circ hg
      by_contra hd
      have := C13_panic E P.ord d' (c, circ) (mem_of_get hg) hd
      rw [this] at h1; cases h1
    obtain ⟨r1', e, a1, a2, a3, a4, a5, a6⟩ := C13_solveDuplicates_partial E P.ord hord d' hs.valid.1 ((validate_iff d' hs.valid.1).2 hs.valid.2) hnd
    rw [e] at h1; cases h1
    exact hs.pass (valid_of (by rw [a1]; exact hs.valid.1) a2) a3 (inputSize_of_numInputs a4) a5 (fun hk ins o b' he => ⟨b', (a6 (hK hk) ins o b').1 he, id⟩)
  have hL := dest_lawful E true
  have fin : ∀ d' : RootCircuit (dest E true), Stage A n0 npi0 K im d' → (K → DestRandLast d') → ∀ r1 r2 im2, SolveDup.solveDuplicates E P.ord d' = some r1 →
      tidy o.optLevel P.fuel r1 im = some (r2, im2) → Stage A n0 npi0 K im2 r2 := fun d' hs hK r1 r2 im2 h1 h2 =>
    (key d' hs hK r1 h1).tidy (dest_lawful E false) (reassignOk_dest E false) (dest_total E false) h2
  unfold step2e at h
  by_cases h1 : o.optLevel = 1
  · simp only [if_pos h1, Option.bind_eq_bind, Option.bind_eq_some_iff] at h
    obtain ⟨d1, g1, r1, g2, ⟨r2, im2⟩, g3, r3, g4, g5⟩ := h
    obtain ⟨rfl, _⟩ := checked_some.1 g4
    split at g5
    · cases g5
      exact fin d1 (hs.reassign hL rfl rfl rfl g1) (fun hk => reassign_fwd hL randLast_fwd g1 (hK hk)) _ _ _ g2 g3
    · cases g5
  · simp only [if_neg h1, Option.bind_eq_bind, Option.bind_eq_some_iff] at h
    obtain ⟨d1, g1, r1, g2, ⟨r2, im2⟩, g3, r3, g4, g5⟩ := h
    obtain ⟨rfl, _⟩ := checked_some.1 g4
    cases g1
    split at g5
    · cases g5
      exact fin d hs hK _ _ _ g2 g3
    · cases g5

/-- `compile_step_2` keeps every outcome, and without random values adds none except that more may be accepted. -/
theorem step2_stage {P : Params F} {o : Options} (ho : o.valid = true) (hcs : FinalBuild.CostOk P.costs) (hord : ∀ l, (P.ord l).Perm l) {E : Env F}
    {hl : RootCircuit (hintLess E)} (hk : hl.vertices.Nodup) (hw : WF hl) {relaxed : RootCircuit (dest E true)} {d : RootCircuit (dest E false)}
    (h : step2 P o hl = some (relaxed, d, im)) (hcomb : o.randomComb = true → o.cross = false → Combinable relaxed) :
    Stage (Eval hl) (inputSize hl) hl.numPublicInputs (HlNoRandom hl) im d := by
  simp only [step2, Option.bind_eq_bind, Option.bind_eq_some_iff] at h
  obtain ⟨⟨r1, m1⟩, h1, ⟨r2, m2⟩, h2, ⟨r3, m3⟩, h3, ⟨r4, m4⟩, h4, ⟨r5, m5⟩, h5, h6⟩ := h
  cases h6
  obtain ⟨s1, k1⟩ := step2a_stage (K := HlNoRandom hl) hk hw h1
  obtain ⟨s2, k2⟩ := step2b_stage ho hcs s1 k1 h2
  obtain ⟨s3, k3, c3⟩ := step2c_stage s2 k2 h3
  obtain ⟨s4, k4⟩ := step2d_stage s3 k3 c3 hcomb h4
  exact step2e_stage hord s4 k4 h5

end Verif.Compile
