import Verif.Zkcuda.KernelSpec
import Verif.Props.C24

/-!
# C49: a compiled kernel

`rc` is the circuit `compile_with_spec_and_shapes` builds for a kernel: its inputs are the inputs of the kernel followed by its expected outputs.
`compileSpec` and `compilePrimitive` are the two halves of the compiler for kernels; `shapes` are the padded shapes of the inputs and outputs.
-/

set_option linter.unusedSectionVars false

namespace Verif.Props

open Verif.IR Verif.IR.HintExport Verif.Builder Verif.Compile Verif.Witness Zkcuda

variable {F : Type} [Field F] [DecidableEq F] {E : Env F}

theorem spec_parts (hE : E.HintLen) (hB : E.Builtin) {P : Params F} (hP : P.Ok) {o : Options} (ho : o.valid = true) {rc : RootCircuit (source E)} (hk : rc.vertices.Nodup)
    {nIn : Nat} {s : SpecTrace E} (hs : compileSpec P o rc nIn = some s) :
    Front rc s.src s.hn (.identity (inputSize rc)) (KeepsAsserts E.canon P.srt s.src ∨ ∀ x : F, x = 0 ∨ x = 1) ∧ NoRoot s.hn ∧
      s.hn.expectedNumOutputZeroes = rc.expectedNumOutputZeroes ∧ inputSize s.hn = inputSize rc ∧ (SrcNoRandom rc → HintExport.NoRandom s.hn) ∧
      (∃ c0, s.hn.get 0 = some c0 ∧ step4 P o (clearCons s.hn c0) (.identity (inputSize s.hn)) = some (s.calling, s.im)) ∧ isIdentity (s.im.mapping.take nIn) = true := by
  have hopt : 1 ≤ o.optLevel := by
    simp only [Options.valid, Bool.and_eq_true, decide_eq_true_eq] at ho
    exact ho.1.2
  simp only [compileSpec, Option.bind_eq_bind, Option.bind_eq_some_iff] at hs
  obtain ⟨⟨src, hn, srcIm⟩, h1, _, h2, c0, h3, ⟨calling, im⟩, h4, _, h5, h6⟩ := hs
  cases h6
  have hF := step1_front hE hB hP.srt hk h1
  obtain ⟨e1, e2⟩ := identity_of hF.map (ensure_some.1 h2)
  subst e2
  obtain ⟨q1, q2⟩ := step1_noRoot hopt hE hB hP.srt hk h1
  exact ⟨hF, q1, q2, e1, step1_noRandom hE h1, ⟨c0, h3, h4⟩, ensure_some.1 h5⟩

theorem spec_plain (hE : E.HintLen) {P : Params F} {o : Options} {rc : RootCircuit (source E)} {nIn : Nat} {s : SpecTrace E} (hs : compileSpec P o rc nIn = some s)
    (hp : AllInsn (L := source E) PlainIns rc) : KeepsAsserts E.canon P.srt s.src := by
  simp only [compileSpec, Option.bind_eq_bind, Option.bind_eq_some_iff] at hs
  obtain ⟨⟨src, hn, srcIm⟩, h1, _, h2, c0, h3, ⟨calling, im⟩, h4, _, h5, h6⟩ := hs
  cases h6
  exact plain_keeps _ _ (step1_src plainIns_stable hE h1 hp)

/-- The data are what the circuit of the kernel takes: nonzero sides, and as many values as inputs. -/
structure ShapesOk (rc : RootCircuit (source E)) (shapes : List (List Nat)) : Prop where
  ne : shapes ≠ []
  sides : ∀ sh ∈ shapes, ∀ n ∈ sh, n ≠ 0
  total : (shapes.map List.prod).sum = inputSize rc

/-- The layered circuit has one block of inputs for every vector and one for the hints, if there are any; their lengths are the padded lengths, they are
aligned, disjoint and inside the inputs. -/
theorem C49_layout (hE : E.HintLen) (hB : E.Builtin) {P : Params F} (hP : P.Ok) {o : Options} (ho : o.valid = true) {rc : RootCircuit (source E)} (hk : rc.vertices.Nodup)
    (hz : rc.expectedNumOutputZeroes = 0) {nIn : Nat} {s : SpecTrace E} (hs : compileSpec P o rc nIn = some s) {shapes : List (List Nat)} (hsh : ShapesOk rc shapes)
    {k : KernelTrace E} (hc : compilePrimitive P o s.hn shapes = some k) (hok : k.Ok P o) {V : Layered.LEnv F F} (hV : EnvOk E rc.numPublicInputs V) :
    ∃ shapes', (k.numHints = 0 ∧ shapes' = shapes ∨ 0 < k.numHints ∧ shapes' = shapes ++ [[k.numHints]]) ∧ k.blocks.length = shapes'.length ∧
      ∃ size, k.lc.inputSize = some size ∧
      (∀ (i : Nat) (sh : List Nat), shapes'[i]? = some sh → ∃ off, k.blocks[i]? = some ((sh.map Pow2.next).prod, off) ∧
        (sh.map Pow2.next).prod ∣ off ∧ off + (sh.map Pow2.next).prod ≤ size) ∧
      ∀ (i j : Nat) (n off m off' : Nat), i ≠ j → k.blocks[i]? = some (n, off) → k.blocks[j]? = some (m, off') → off + n ≤ off' ∨ off' + m ≤ off := by
  obtain ⟨f1, f2, f3, f4, f5, f6, f7⟩ := spec_parts hE hB hP ho hk hs
  have p := kernel_parts hP ho hE f1.valid f2 (f3.trans hz) hsh.ne hsh.sides (hsh.total.trans f4.symm) hc hok (V := V) (by rw [f1.npi]; exact hV)
  refine ⟨shapesWithHints shapes k.numHints, ?_, p.layout⟩
  unfold shapesWithHints
  split
  · exact .inr ⟨by assumption, rfl⟩
  · exact .inl ⟨by omega, rfl⟩

/-- For kernels without random values whose hints are functions: if the circuit of the kernel evaluates on the inputs and outputs `data` with verdict `b`,
the solver computes exactly one list of hints, and on every buffer that holds the padded vectors and these hints in their blocks — whatever it holds
elsewhere — the layered circuit accepts exactly when `b`: if the constraints hold, for all random numbers; if not, some random numbers make it reject. -/
theorem C49_exact_partial (hE : E.HintLen) (hB : E.Builtin) (hf : E.HintFun) {P : Params F} (hP : P.Ok) {o : Options} (ho : o.valid = true) {rc : RootCircuit (source E)} (hk : rc.vertices.Nodup)
    (hr : SrcNoRandom rc) (hz : rc.expectedNumOutputZeroes = 0) {nIn : Nat} {s : SpecTrace E} (hs : compileSpec P o rc nIn = some s) {shapes : List (List Nat)} (hsh : ShapesOk rc shapes)
    {k : KernelTrace E} (hc : compilePrimitive P o s.hn shapes = some k) (hok : k.Ok P o) {V : Layered.LEnv F F} (hV : EnvOk E rc.numPublicInputs V)
    {data : List (List F)} (hd : List.Forall₂ (fun sh d => d.length = List.prod sh) shapes data) {outs : List F} {b : Bool} (h : Eval rc data.flatten outs b) :
    ∃ hints, hints.length = k.numHints ∧ (∀ hints', (∃ be, Eval k.solver data.flatten hints' be) ↔ hints' = hints) ∧
      ∀ buf, k.lc.inputSize = some buf.length → HoldsPadded (shapesWithHints shapes k.numHints) (withHints data hints) k.blocks buf →
        (∃ tape, k.lc.eval V buf tape = some ([], b)) ∧ (Accepts V k.lc buf ↔ b = true) := by
  obtain ⟨f1, f2, f3, f4, f5, f6, f7⟩ := spec_parts hE hB hP ho hk hs
  have p := kernel_parts hP ho hE f1.valid f2 (f3.trans hz) hsh.ne hsh.sides (hsh.total.trans f4.symm) hc hok (V := V) (by rw [f1.npi]; exact hV)
  obtain ⟨n1, n2⟩ := p.noRandom (f5 hr)
  have hlen : data.flatten.length = inputSize rc := by rw [(flatten_prevOffset shapes data hd).1, hsh.total]
  have hn := f1.fwd data.flatten data.flatten (hlen ▸ InputMapping.placed_identity _) outs b h
  obtain ⟨hints, be, g1, g2, g3⟩ := p.solve _ _ _ hn
  refine ⟨hints, g1, fun h' => ⟨?_, ?_⟩, fun buf hb hhold => ?_⟩
  · rintro ⟨be', he'⟩
    exact (eval_det (fun c circ hg i hi => hn_primFun hf (n2 c circ hg i hi)) he' g2).1
  · rintro rfl; exact ⟨be, g2⟩
  · obtain ⟨r1, r2, r3⟩ := p.run data hints buf hd g1 hb hhold
    refine ⟨r2 outs b g3, fun ha => ?_, fun hb' tape => ?_⟩
    · obtain ⟨tape, ht⟩ := r2 outs b g3
      obtain ⟨o1, e⟩ := ha tape
      rw [ht] at e
      cases e; rfl
    · obtain ⟨b', e⟩ := r1 tape
      obtain ⟨ou, b1, e1, e2⟩ := r3 n1 tape b' e
      obtain ⟨_, rfl⟩ := eval_det (fun c circ hg i hi => hl_primFun (n1 c circ hg i hi)) g3 e1
      rw [e2 hb'] at e
      exact ⟨[], e⟩

/-- Soundness against a prover who chooses the hints: if the layered circuit accepts, for all random numbers, a buffer that holds the padded vectors `data` and
any hints, the circuit of the kernel accepts the inputs and outputs `data`, in the sense of `C24_sound_partial`. -/
theorem C49_sound_partial (hE : E.HintLen) (hB : E.Builtin) {P : Params F} (hP : P.Ok) {o : Options} (ho : o.valid = true) {rc : RootCircuit (source E)} (hk : rc.vertices.Nodup)
    (hz : rc.expectedNumOutputZeroes = 0) {nIn : Nat} {s : SpecTrace E} (hs : compileSpec P o rc nIn = some s) (hK : KeepsAsserts E.canon P.srt s.src ∨ ∀ x : F, x = 0 ∨ x = 1)
    {shapes : List (List Nat)} (hsh : ShapesOk rc shapes)
    {k : KernelTrace E} (hc : compilePrimitive P o s.hn shapes = some k) (hok : k.Ok P o) {V : Layered.LEnv F F} (hV : EnvOk E rc.numPublicInputs V)
    {data : List (List F)} (hd : List.Forall₂ (fun sh d => d.length = List.prod sh) shapes data) {hints : List F} (hh : hints.length = k.numHints) {buf : List F}
    (hhold : HoldsPadded (shapesWithHints shapes k.numHints) (withHints data hints) k.blocks buf) (ha : Accepts V k.lc buf) :
    ∃ outs, ∀ χ, Eval (fillRc χ (semAdv E.anyHint) rc) data.flatten outs true := by
  obtain ⟨f1, f2, f3, f4, f5, f6, f7⟩ := spec_parts hE hB hP ho hk hs
  have p := kernel_parts hP ho hE f1.valid f2 (f3.trans hz) hsh.ne hsh.sides (hsh.total.trans f4.symm) hc hok (V := V) (by rw [f1.npi]; exact hV)
  have hlen : data.flatten.length = inputSize rc := by rw [(flatten_prevOffset shapes data hd).1, hsh.total]
  obtain ⟨o0, h0⟩ := ha fun _ => 0
  obtain ⟨r1, r2, r3⟩ := p.run data hints buf hd hh (eval_length h0) hhold
  obtain ⟨outs, b, he⟩ := p.hlTotal (data.flatten ++ hints) (by rw [List.length_append, hlen, f4, hh])
  obtain ⟨tape, ht⟩ := r2 outs b he
  obtain ⟨o1, e⟩ := ha tape
  rw [ht] at e
  cases e
  exact ⟨outs, fun χ => f1.bwd hK χ _ _ (hlen ▸ InputMapping.placed_identity _) outs (p.adv _ _ _ _ (hlen.trans f4.symm) he)⟩

/-- The circuit `call_kernel` evaluates computes the outputs of the kernel's circuit, and its first inputs are the inputs of the kernel. -/
theorem C49_calling (hE : E.HintLen) (hB : E.Builtin) {P : Params F} (hP : P.Ok) {o : Options} (ho : o.valid = true) {rc : RootCircuit (source E)} (hk : rc.vertices.Nodup)
    {nIn : Nat} {s : SpecTrace E} (hs : compileSpec P o rc nIn = some s) {ins outs : List F} {b : Bool} (h : Eval rc ins outs b) :
    ∃ ins' b', Eval s.calling ins' outs b' ∧ (b = true → b' = true) ∧ ins'.length ≤ ins.length ∧ ins'.take nIn = ins.take nIn := by
  obtain ⟨f1, f2, f3, f4, f5, ⟨c0, f6, f7⟩, f8⟩ := spec_parts hE hB hP ho hk hs
  have hlen : ins.length = inputSize rc := by
    obtain ⟨r, _, _, q1, q2, _⟩ := h
    rw [q2, inputSize_of q1]
  have hn := f1.fwd ins ins (hlen ▸ InputMapping.placed_identity _) outs b h
  obtain ⟨b', g1, g2⟩ := clearCons_eval (hintNorm_lawful E hE) f1.valid.2 f6 hn
  have hsz : inputSize (clearCons s.hn c0) = inputSize s.hn := by
    have := clearCons_get f6 0
    rw [if_pos rfl] at this
    rw [inputSize_of this, inputSize_of f6]
  obtain ⟨m, key⟩ := step4_keeps hE (by rw [clearCons_vertices]; exact f1.valid.1) hsz f7
  obtain ⟨ins', _, hp⟩ := InputMapping.mapInputs_placed m.range m.inj (0 : F) (xs := ins) (by rw [m.cur, f4, hlen])
  have hid := of_decide_eq_true f8
  have hcur : s.im.mapping.length = ins.length := by
    have := m.cur; rw [f4, ← hlen] at this; exact this
  have hpos : ∀ i, i < nIn → i < ins.length → s.im.mapping[i]? = some (some i) := by
    intro i h1 h2
    have : (s.im.mapping.take nIn)[i]? = some (some i) := by
      rw [hid, List.getElem?_map, List.getElem?_range (by simp; omega)]; rfl
    rw [List.getElem?_take, if_pos h1] at this
    exact this
  have hval : ∀ i, i < nIn → i < ins.length → ins'[i]? = ins[i]? := fun i h1 h2 => hp.val i i (hpos i h1 h2)
  have hle : ins'.length ≤ ins.length := by
    -- every position of the result is the image of an input
    rw [hp.next]
    by_contra hc
    have hsurj := m.surj
    have hf : ∀ j : Fin s.im.nextSize, ∃ i : Fin ins.length, s.im.mapping[i.val]? = some (some j.val) := by
      intro j
      obtain ⟨i, hi⟩ := hsurj j.val j.isLt
      have := (List.getElem?_eq_some_iff.1 hi).1
      exact ⟨⟨i, by omega⟩, hi⟩
    choose g hg using hf
    have hinj : Function.Injective g := by
      intro a b hab
      have h1 := hg a
      have h2 := hg b
      rw [hab, h2] at h1
      simp only [Option.some.injEq] at h1
      exact Fin.ext h1.symm
    have := Fintype.card_le_of_injective g hinj
    simp only [Fintype.card_fin] at this
    omega
  refine ⟨ins', b', key ins ins' hp outs b' g1, g2, hle, ?_⟩
  apply List.ext_getElem?
  intro i
  rw [List.getElem?_take, List.getElem?_take]
  split
  · rename_i hi
    by_cases h2 : i < ins.length
    · exact hval i hi h2
    · rw [List.getElem?_eq_none (by omega), List.getElem?_eq_none (by omega)]
  · rfl

namespace C49Ex

open C24Ex

/-- A kernel that divides the two elements of its input; its inputs are the vector and the expected quotient. -/
def src : RootCircuit (source env) := ⟨0, 0, [
  (0, ⟨[.div 1 2 true, .linComb ⟨[(4, 1), (3, -1)], 0⟩], [⟨.zero, 5⟩], [1, 2, 4], 3⟩)]⟩

def good : Bool :=
  match compileSpec params opts src 2 with
  | none => false
  | some s => match compilePrimitive params opts s.hn [[2], [1]] with
    | none => false
    | some k => k.relaxed.circuits.all (fun c => decide (c.2.constraints.length < 7)) && ((k.relaxed.get 0).map (fun c => c.constraints.isEmpty) == some false) &&
        decide (k.numHints = 1) && decide (k.blocks = [(2, 0), (1, 3), (1, 2)])

theorem good_true : good = true := by decide +kernel

theorem of_good : ∃ s k, compileSpec params opts src 2 = some s ∧ compilePrimitive params opts s.hn [[2], [1]] = some k ∧ k.Ok params opts ∧ k.numHints = 1 ∧ k.blocks = [(2, 0), (1, 3), (1, 2)] := by
  have h := good_true
  unfold good at h
  cases hc : compileSpec params opts src 2 with
  | none => rw [hc] at h; cases h
  | some s =>
    rw [hc] at h
    dsimp only at h
    cases hk : compilePrimitive params opts s.hn [[2], [1]] with
    | none => rw [hk] at h; cases h
    | some k =>
      rw [hk] at h
      simp only [Bool.and_eq_true, List.all_eq_true, decide_eq_true_eq, beq_iff_eq] at h
      obtain ⟨⟨⟨h1, h2⟩, h3⟩, h4⟩ := h
      refine ⟨s, k, rfl, hk, ⟨fun _ _ => ⟨?_, ?_⟩⟩, h3, h4⟩
      · intro d circ hg k h0 hk
        have h7 : circ.constraints.length < 7 := h1 _ (mem_of_get hg)
        intro e
        have := (ZMod.natCast_eq_zero_iff k 7).1 e
        have := Nat.le_of_dvd h0 this
        omega
      · cases hr : k.relaxed.get 0 with
        | none => rw [hr] at h2; cases h2
        | some circ =>
          rw [hr] at h2
          refine ⟨0, circ, .refl, hr, ?_⟩
          intro e
          simp [e] at h2

theorem src_shapes : ShapesOk src [[2], [1]] := ⟨by simp, by simp, by decide⟩

/-- The kernel accepts `6 / 2 = 3` and rejects `6 / 2 = 4`. -/
theorem verdicts : Eval src [6, 2, 3] [6, 2, 3] true ∧ Eval src [6, 2, 4] [6, 2, 3] false := by
  constructor
  · refine ⟨_, [6, 2, 3], true, rfl, rfl, ⟨[0, 6, 2, 3, 3, 0], true, true, ?_, by decide, by decide, rfl⟩, by decide, rfl, rfl⟩
    refine .prim (L := source env) (outs := [3]) rfl ⟨[6, 2], rfl, (by simp only [Source.Insn.sem]; decide +kernel)⟩ ?_
    exact .prim (L := source env) (outs := [0]) rfl ⟨[3, 3], rfl, rfl⟩ (.nil _)
  · refine ⟨_, [6, 2, 3], false, rfl, rfl, ⟨[0, 6, 2, 4, 3, 6], true, false, ?_, by decide, by decide, rfl⟩, by decide, rfl, rfl⟩
    refine .prim (L := source env) (outs := [3]) rfl ⟨[6, 2], rfl, (by simp only [Source.Insn.sem]; decide +kernel)⟩ ?_
    exact .prim (L := source env) (outs := [6]) rfl ⟨[3, 4], rfl, rfl⟩ (.nil _)

theorem holds (x y z hint : Ex.F7) : HoldsPadded (shapesWithHints [[2], [1]] 1) (withHints [[x, y], [z]] [hint]) [(2, 0), (1, 3), (1, 2)] [x, y, hint, z] := by
  have hsh : shapesWithHints [[2], [1]] 1 = [[2], [1], [1]] := rfl
  have hda : withHints [[x, y], [z]] [hint] = [[x, y], [z], [hint]] := rfl
  rw [hsh, hda]
  intro i sh d len off h1 h2 h3 idx hv
  match i with
  | 0 =>
    cases h1; cases h2; cases h3
    match idx, hv with
    | [a], hv =>
      have ha : a < 2 := hv.1
      match a with
      | 0 => rfl
      | 1 => rfl
  | 1 =>
    cases h1; cases h2; cases h3
    match idx, hv with
    | [a], hv =>
      have ha : a < 1 := hv.1
      match a with
      | 0 => rfl
  | 2 =>
    cases h1; cases h2; cases h3
    match idx, hv with
    | [a], hv =>
      have ha : a < 1 := hv.1
      match a with
      | 0 => rfl
  | n + 3 => simp at h1

theorem size_four : ∀ s k, compileSpec params opts src 2 = some s → compilePrimitive params opts s.hn [[2], [1]] = some k → k.lc.inputSize = some 4 := by
  have h : ((compileSpec params opts src 2).bind fun s => (compilePrimitive params opts s.hn [[2], [1]]).map fun k => k.lc.inputSize) = some (some 4) := by decide +kernel
  intro s k h1 h2
  rw [h1] at h
  simp only [Option.bind_some, h2, Option.map_some, Option.some.injEq] at h
  exact h

/-- The kernel compiles; the solver finds one hint, and with it the layered circuit accepts `6 / 2 = 3` and rejects `6 / 2 = 4`.  Whatever hint is accepted,
the circuit of the kernel accepts the data. -/
example : ∃ s k, compileSpec params opts src 2 = some s ∧ compilePrimitive params opts s.hn [[2], [1]] = some k ∧
    (∃ hint, (∀ h', (∃ be, Eval k.solver [6, 2, 3] h' be) ↔ h' = [hint]) ∧ Accepts (.withPublic custom []) k.lc [6, 2, hint, 3]) ∧
    (∃ hint, (∀ h', (∃ be, Eval k.solver [6, 2, 4] h' be) ↔ h' = [hint]) ∧ ¬ Accepts (.withPublic custom []) k.lc [6, 2, hint, 4]) ∧
    ∀ x y z hint, Accepts (.withPublic custom []) k.lc [x, y, hint, z] → ∃ outs, ∀ χ, Eval (fillRc χ (semAdv env.anyHint) src) [x, y, z] outs true := by
  have hE := solveEnv_len canon custom hc [3]
  have hB := solveEnv_builtin canon custom hc [3]
  have hr : SrcNoRandom src := all_of (by decide)
  obtain ⟨s, k, h1, h2, h3, h4, h5⟩ := of_good
  have h6 := size_four s k h1 h2
  have hV : EnvOk env src.numPublicInputs (.withPublic custom []) := ⟨fun _ => rfl, fun _ _ => rfl, fun i hi => absurd hi (Nat.not_lt_zero i)⟩
  have key := fun (z : Ex.F7) (b : Bool) (he : Eval src [6, 2, z] [6, 2, 3] b) => C49_exact_partial hE hB (solveEnv_fun canon custom hc [3]) params_ok (o := opts) (by decide) (by decide) hr rfl h1 src_shapes h2 h3 hV
      (data := [[6, 2], [z]]) (by simp) he
  refine ⟨s, k, h1, h2, ?_, ?_, ?_⟩
  · obtain ⟨hints, g1, g2, g3⟩ := key 3 true verdicts.1
    obtain ⟨hint, rfl⟩ := List.length_eq_one_iff.1 (g1.trans h4)
    exact ⟨hint, g2, ((g3 [6, 2, hint, 3] h6 (by rw [h4, h5]; exact holds _ _ _ _)).2).2 rfl⟩
  · obtain ⟨hints, g1, g2, g3⟩ := key 4 false verdicts.2
    obtain ⟨hint, rfl⟩ := List.length_eq_one_iff.1 (g1.trans h4)
    exact ⟨hint, g2, fun ha => absurd (((g3 [6, 2, hint, 4] h6 (by rw [h4, h5]; exact holds _ _ _ _)).2).1 ha) (by decide)⟩
  · intro x y z hint ha
    exact C49_sound_partial hE hB params_ok (o := opts) (by decide) (by decide) rfl h1 (.inl (spec_plain hE h1 (all_of (by decide)))) src_shapes h2 h3 hV (data := [[x, y], [z]]) (hints := [hint]) (by simp) (by simp [h4])
      (by rw [h4, h5]; exact holds _ _ _ _) ha

end C49Ex

end Verif.Props
