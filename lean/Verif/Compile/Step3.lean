import Verif.Compile.Step2
import Verif.Props.C15
import Verif.Props.C18
import Verif.Props.C17
import Verif.Props.C19
import Verif.Layered.GateSort
import Verif.Layering.Once

/-!
# The layered half

`compile_step_3` and `layering::compile` together with `compile_step_2`: what the layered circuit computes, in terms of the circuit without
hints.
-/

set_option linter.unusedSectionVars false
set_option linter.unusedSimpArgs false

namespace Verif.Compile

open Verif.IR Verif.IR.HintExport

variable {F : Type} [Field F] [DecidableEq F]

/-- The orders left open are orders: `sort()` on gates sorts them (`gateKey`, Layered/GateSort.lean), the others return the same elements. -/
structure Params.LayeredOk (P : Params F) : Prop where
  sorts : Layered.Sorts P.srtG
  srtA : ∀ l, (P.srtA l).Perm l
  ordH : ∀ l, (P.ordH l).Perm l
  srtE : ∀ l, (P.srtE l).Perm l
  srtC : ∀ l, (P.srtC l).Perm l

theorem Params.LayeredOk.srtG {P : Params F} (h : P.LayeredOk) : ∀ l, (P.srtG l).Perm l := fun l => (h.sorts l).1

/-- The two circuits have the same outcomes. -/
def SameOutcomes (V : Layered.LEnv F F) (c c' : Layered.Circuit F) : Prop := ∀ inputs, Layered.Outcomes V c inputs = Layered.Outcomes V c' inputs

theorem shrink_ok {P : Params F} (hP : P.LayeredOk) {V : Layered.LEnv F F} (hV : V.Lawful) {c c' : Layered.Circuit F} (ht : c.Tidy)
    (h : shrink P c = some c') : c'.Tidy ∧ c'.inputSize = c.inputSize ∧ SameOutcomes V c c' := by
  have hc := ht.ok
  have hne := ht.noEmpty
  obtain ⟨k1, k2⟩ := Layered.expandSmall_ok hc hne hP.srtG hP.srtA hP.ordH
  have t1 := Layered.expandSmall_tidy hP.srtG hP.sorts.grouped hP.srtA hP.ordH ht
  have e1 : SameOutcomes V c (c.expandSmall P.srtG P.srtA P.ordH) := fun inputs =>
    (Layered.outcomes_of_traces (Layered.expandSmall_traces hV hc hne hP.srtG hP.srtA hP.ordH inputs)
      (by unfold Layered.Circuit.expandSmall; split <;> rfl) (by unfold Layered.Circuit.expandSmall; split <;> rfl)).symm
  unfold shrink at h
  dsimp only at h
  split at h
  · rename_i hl
    obtain ⟨c2, h1, h2, h3, h4, h5, h6⟩ := Layered.findCommon_spec (srt := P.srtG) hP.srtG hP.srtE P.sample k1 t1.pow2
    rw [h1] at h; cases h
    refine ⟨Layered.findCommon_tidy hP.srtG hP.sorts.grouped hP.srtE P.sample t1 h1, h3.trans k2, fun inputs => (e1 inputs).trans ?_⟩
    exact (Layered.outcomes_of_traces (h6 t1.twins F V hV inputs) h4 h5).symm
  · cases h
    exact ⟨t1, k2, e1⟩

theorem shrinkLoop_ok {P : Params F} (hP : P.LayeredOk) {V : Layered.LEnv F F} (hV : V.Lawful) : ∀ (n : Nat) {c c' : Layered.Circuit F}, c.Tidy →
    shrinkLoop P n c = some c' → c'.Tidy ∧ c'.inputSize = c.inputSize ∧ SameOutcomes V c c' := by
  intro n
  induction n with
  | zero => intro c c' _ h; cases h
  | succ n ih =>
    intro c c' hc h
    unfold shrinkLoop at h
    cases hh : shrink P c with
    | none => rw [hh] at h; cases h
    | some c2 =>
      rw [hh] at h
      dsimp only at h
      split at h
      · cases h; exact ⟨hc, rfl, fun _ => rfl⟩
      · obtain ⟨k1, k2, k3⟩ := shrink_ok hP hV hc hh
        obtain ⟨g1, g2, g3⟩ := ih k1 h
        exact ⟨g1, g2.trans k2, fun i => (k3 i).trans (g3 i)⟩

/-- An accepted circuit that writes at most one public input to each wire and lists no child without allocations: after `dedup_gates` the loop of
`compile_step_3` may start. -/
theorem tidy_dedup {srt : List (Layered.Gate F) → List (Layered.Gate F)} (hs : Layered.Sorts srt) {c : Layered.Circuit F} (hv : c.validate = some true) (hp : c.PubOnce)
    (hne : c.NoEmptyAllocs) : (c.dedup srt).Tidy := by
  have hs' : ∀ l, (srt l).Perm l := fun l => (hs l).1
  have hpd := Layered.dedup_pubOnce hs' hp
  have hseg : ∀ s ∈ (c.dedup srt).segments, ∃ t ∈ c.segments, t.dedup srt = s := fun s h => List.mem_map.1 h
  refine ⟨(Layered.dedup_ok hs' (Layered.validate_ok hv)).1, ?_, ?_, hpd, ?_⟩
  · intro s h
    obtain ⟨t, ht, rfl⟩ := hseg s h
    exact hne t ht
  · intro s h
    obtain ⟨t, ht, rfl⟩ := hseg s h
    exact Layered.pow2_dedup (Props.pow2Sizes_of_validate hv t ht)
  · intro s h
    obtain ⟨t, ht, e⟩ := hseg s h
    exact Layered.noTwins_of_pub hs' hs.grouped hpd h e.symm

theorem step3_ok {P : Params F} (hP : P.LayeredOk) {o : Options} {V : Layered.LEnv F F} (hV : V.Lawful) {c c' : Layered.Circuit F} (ho : 1 ≤ o.optLevel)
    (hs : 3 ≤ o.optLevel → c.PubOnce ∧ c.NoEmptyAllocs) (h : step3 P o c = some c') : c'.inputSize = c.inputSize ∧ SameOutcomes V c c' := by
  unfold step3 at h
  split at h
  · rename_i hv
    have hc := Layered.validate_ok hv
    obtain ⟨d1, d2⟩ := Layered.dedup_ok (srt := P.srtG) hP.srtG hc
    have d3 : SameOutcomes V c (c.dedup P.srtG) := fun i =>
      (Layered.outcomes_of_traces ((Layered.dedup_segMap hV hP.srtG).traces (c' := c.dedup P.srtG) hc rfl rfl i) rfl rfl).symm
    simp only [ho, if_true] at h
    cases hl : (if 3 ≤ o.optLevel then shrinkLoop P P.fuel (c.dedup P.srtG) else some (c.dedup P.srtG)) with
    | none => rw [hl] at h; cases h
    | some c2 =>
      rw [hl] at h
      dsimp only at h
      split at h
      · rename_i hv2
        cases h
        have hc2 := Layered.validate_ok hv2
        obtain ⟨_, q2⟩ := Layered.sort_ok (srt := P.srtG) (srtC := P.srtC) hP.srtG hP.srtC hc2
        have q3 : SameOutcomes V c2 (c2.sortAll P.srtG P.srtC) := fun i =>
          (Layered.outcomes_of_traces ((Layered.sort_segMap hP.srtG hP.srtC).traces (c' := c2.sortAll P.srtG P.srtC) hc2 rfl rfl i) rfl rfl).symm
        have mid : c2.inputSize = c.inputSize ∧ SameOutcomes V c c2 := by
          split at hl
          · rename_i h3
            obtain ⟨_, g2, g3⟩ := shrinkLoop_ok hP hV _ (tidy_dedup hP.sorts hv (hs h3).1 (hs h3).2) hl
            exact ⟨g2.trans d2, fun i => (d3 i).trans (g3 i)⟩
          · cases hl; exact ⟨d2, d3⟩
        exact ⟨q2.trans mid.1, fun i => (mid.2 i).trans (q3 i)⟩
      · cases h
  · cases h

/-- The evaluation environment of the layered circuit has the constants, the custom gates and the public inputs of `E`. -/
structure EnvOk (E : Env F) (npi : Nat) (V : Layered.LEnv F F) : Prop where
  const : ∀ x, V.const x = x
  custom : ∀ g xs, V.custom g xs = E.custom g xs
  pub : ∀ i < npi, V.pub i = some (E.pub i)

theorem EnvOk.lawful {E : Env F} {npi : Nat} {V : Layered.LEnv F F} (h : EnvOk E npi V) : V.Lawful := by
  constructor <;> simp [h.const]

theorem eval_length {V : Layered.LEnv F F} {lc : Layered.Circuit F} {y : List F} {tape : Nat → F} {r : List F × Bool} (h : lc.eval V y tape = some r) : lc.inputSize = some y.length := by
  by_contra hn
  have : lc.wires V y tape = none := by unfold Layered.Circuit.wires; rw [if_neg hn]
  simp [Layered.Circuit.eval, Layered.Circuit.evalRaw, this] at h

/-- `lc`, fed with the values placed by `im`, computes what `A` computes. -/
structure Back (A : Beh F) (n0 : Nat) (K : Prop) (V : Layered.LEnv F F) (im : InputMapping) (lc : Layered.Circuit F) : Prop where
  cur : im.curSize = n0
  range : im.InRange
  inj : im.Injective
  fwd : ∀ x y, im.Placed x y → ∀ o b, A x o b → ∃ tape, lc.eval V y tape = some (o, b)
  bwd : K → ∀ x y, im.Placed x y → ∀ tape o b', lc.eval V y tape = some (o, b') → ∃ b, A x o b ∧ (b = true → b' = true)
  total : ∀ x y, im.Placed x y → ∀ tape, ∃ o b, lc.eval V y tape = some (o, b)
  size : lc.inputSize = some im.nextSize

/-- From the circuit without hints to the layered circuit. -/
theorem back_spec {P : Params F} {o : Options} (ho : o.valid = true) (hcs : FinalBuild.CostOk P.costs) (hord : ∀ l, (P.ord l).Perm l) (hP : P.LayeredOk) {E : Env F}
    {hl : RootCircuit (hintLess E)} (hk : hl.vertices.Nodup) (hw : WF hl) {relaxed : RootCircuit (dest E true)} {d : RootCircuit (dest E false)} {hlIm im : InputMapping}
    (h : step2 P o hl = some (relaxed, d, hlIm)) (hcomb : o.randomComb = true → o.cross = false → Combinable relaxed)
    {lc0 lc : Layered.Circuit F} {size : Nat} {order : List (Option Nat)}
    (h2 : Layering.compile o.cross o.allowReorder (Layering.progGet d.get) P.fuel d.numPublicInputs d.expectedNumOutputZeroes = some (lc0, size, order))
    (h3 : step3 P o lc0 = some lc) (h4 : hlIm.composeInPlace ⟨size, order⟩ = some im)
    {V : Layered.LEnv F F} (hV : EnvOk E hl.numPublicInputs V) :
    Back (Eval hl) (inputSize hl) (HlNoRandom hl) V im lc := by
  have st := step2_stage ho hcs hord hk hw h hcomb
  obtain ⟨root, hr, _⟩ := st.valid.2.root
  obtain ⟨m1, m2, m3, key⟩ := Props.C15_placed E d st.valid.1 ((validate_iff d st.valid.1).2 st.valid.2) o.cross o.allowReorder P.fuel lc0 size order h2 V hV.const hV.custom
    (by rw [st.npi]; exact hV.pub) root hr
  have hsz : hlIm.nextSize = InputMapping.curSize ⟨size, order⟩ := by
    rw [st.map.next]
    simp [inputSize, hr, InputMapping.curSize, m3]
  have h4' : hlIm.compose ⟨size, order⟩ = some im := h4
  obtain ⟨im', e', c1, c2, _⟩ := InputMapping.compose_isSome hlIm ⟨size, order⟩ st.map.range hsz
  rw [h4'] at e'; cases e'
  have hopt : 1 ≤ o.optLevel := by
    simp only [Options.valid, Bool.and_eq_true, decide_eq_true_eq] at ho
    exact ho.1.2
  obtain ⟨_, same⟩ := step3_ok hP hV.lawful hopt (fun _ => Layering.compile_once st.valid.2.wf h2) h3
  have dec : ∀ x y, im.Placed x y → ∃ z, hlIm.Placed x z ∧ InputMapping.Placed ⟨size, order⟩ z y := fun x y hp => by
    obtain ⟨z, _, a, b⟩ := InputMapping.Placed.decompose st.map.range st.map.inj st.map.surj hsz h4' (0 : F) hp
    exact ⟨z, a, b⟩
  have ex : ∀ y ob, (∃ tape, lc0.eval V y tape = some ob) ↔ ∃ tape, lc.eval V y tape = some ob := fun y ob => Set.ext_iff.1 (same y) ob
  have rng := InputMapping.compose_inRange st.map.range hsz m1 h4'
  have inj := InputMapping.compose_injective st.map.range hsz st.map.inj m2 h4'
  have tot : ∀ x y, im.Placed x y → ∀ tape, ∃ o b, lc.eval V y tape = some (o, b) := by
    intro x y hp tape
    obtain ⟨z, p1, p2⟩ := dec x y hp
    obtain ⟨o1, b1, g⟩ := (key z y p2).2.2 tape
    obtain ⟨t, ht⟩ := (ex y _).1 ⟨tape, g⟩
    exact Layered.eval_uniform ht rfl tape
  refine ⟨c2.trans st.map.cur, rng, inj, ?_, ?_, tot, ?_⟩
  · intro x y hp ou b ha
    obtain ⟨z, p1, p2⟩ := dec x y hp
    exact (ex y _).1 ((key z y p2).1 ou b (st.fwd x z p1 ou b ha))
  · intro hK x y hp tape ou b' he
    obtain ⟨z, p1, p2⟩ := dec x y hp
    obtain ⟨t0, ht0⟩ := (ex y _).2 ⟨tape, he⟩
    obtain ⟨b1, g1, g2⟩ := (key z y p2).2.1 t0 ou b' ht0
    obtain ⟨b, g3, g4⟩ := st.bwd hK x z p1 ou b1 g1
    exact ⟨b, g3, fun hb => g2 (g4 hb)⟩
  · obtain ⟨y, _, hp⟩ := InputMapping.mapInputs_placed rng inj (0 : F) (xs := List.replicate im.curSize 0) (by simp)
    obtain ⟨o1, b1, g⟩ := tot _ y hp fun _ => 0
    rw [← hp.next]
    exact eval_length g

end Verif.Compile
