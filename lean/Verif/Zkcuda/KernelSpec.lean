import Verif.Zkcuda.Kernel
import Verif.Props.C48

/-!
# The compiled kernel
-/

set_option linter.unusedSectionVars false
set_option linter.unusedSimpArgs false

namespace Verif.Zkcuda

open Verif.IR Verif.IR.HintExport Verif.Compile

variable {F : Type} [Field F] [DecidableEq F] {L : Lang F} {E : Env F}

/-- The vectors with the hints, if there are any. -/
def withHints (data : List (List F)) (hints : List F) : List (List F) := if 0 < hints.length then data ++ [hints] else data

theorem withHints_flatten (data : List (List F)) (hints : List F) : (withHints data hints).flatten = data.flatten ++ hints := by
  unfold withHints
  split
  · simp
  · rename_i h
    have : hints = [] := List.length_eq_zero_iff.1 (by omega)
    simp [this]

theorem withHints_shapes {shapes : List (List Nat)} {data : List (List F)} (h : List.Forall₂ (fun sh d => d.length = List.prod sh) shapes data) {hints : List F} {m : Nat}
    (hm : hints.length = m) : List.Forall₂ (fun sh d => d.length = List.prod sh) (shapesWithHints shapes m) (withHints data hints) := by
  subst hm
  unfold shapesWithHints withHints
  split
  · exact List.rel_append h (.cons (by simp) .nil)
  · exact h

theorem renumRoot_noRoot (hL : L.Lawful) {rc : RootCircuit L} {root : Circuit L} (hg : rc.get 0 = some root) (hno : NoRoot rc) (vm : List Nat) (n : Nat) : NoRoot (renumRoot rc vm n root) := by
  rintro c ⟨circ, h1, i, hi, a, m, h2⟩
  rw [renumRoot_get hg] at h1
  split at h1
  · cases h1
    obtain ⟨j, hj, f, rfl⟩ := AddBack.renumber_calls hL _ _ _ i hi
    rw [hL.asCall_replace, Option.map_eq_some_iff] at h2
    obtain ⟨⟨d', a', n'⟩, hc, he⟩ := h2
    simp only [Prod.mk.injEq] at he
    obtain ⟨rfl, rfl, rfl⟩ := he
    exact hno 0 ⟨root, hg, j, hj, a', n', hc⟩
  · exact hno c ⟨circ, h1, i, hi, a, m, h2⟩

theorem paddedLen_pos (sh : List Nat) : 0 < paddedLen sh := by
  obtain ⟨m, h⟩ := paddedLen_pow sh
  rw [h]; exact Nat.two_pow_pos m

/-- What the theorems assume of the compilation of a kernel; see `Compile.Trace.Ok`. -/
structure KernelTrace.Ok (P : Params F) (o : Options) (t : KernelTrace E) : Prop where
  comb : o.randomComb = true → o.cross = false → Combinable t.relaxed

/-- How the results of `compile_primitive` are connected. -/
structure KernelParts (rc : RootCircuit (hintNorm E)) (shapes : List (List Nat)) (k : KernelTrace E) (V : Layered.LEnv F F) : Prop where
  /-- honest hints -/
  solve : ∀ ins outs b, Eval rc ins outs b → ∃ hints be, hints.length = k.numHints ∧ Eval k.solver ins hints be ∧ Eval k.hl (ins ++ hints) outs b
  /-- any hints -/
  adv : ∀ ins hints outs b, ins.length = inputSize rc → Eval k.hl (ins ++ hints) outs b → Eval (castRc rc) ins outs b
  noRandom : HintExport.NoRandom rc → HlNoRandom k.hl ∧ HintExport.NoRandom k.solver
  hlTotal : ∀ ins, ins.length = inputSize rc + k.numHints → ∃ outs b, Eval k.hl ins outs b
  layout : k.blocks.length = (shapesWithHints shapes k.numHints).length ∧ ∃ size, k.lc.inputSize = some size ∧
    (∀ (i : Nat) (sh : List Nat), (shapesWithHints shapes k.numHints)[i]? = some sh → ∃ off, k.blocks[i]? = some ((sh.map Pow2.next).prod, off) ∧
      (sh.map Pow2.next).prod ∣ off ∧ off + (sh.map Pow2.next).prod ≤ size) ∧
    (∀ (i j : Nat) (n off m off' : Nat), i ≠ j → k.blocks[i]? = some (n, off) → k.blocks[j]? = some (m, off') → off + n ≤ off' ∨ off' + m ≤ off)
  run : ∀ data hints buf, List.Forall₂ (fun sh d => d.length = List.prod sh) shapes data → hints.length = k.numHints → k.lc.inputSize = some buf.length →
    Props.HoldsPadded (shapesWithHints shapes k.numHints) (withHints data hints) k.blocks buf →
    (∀ tape, ∃ b, k.lc.eval V buf tape = some ([], b)) ∧
    (∀ ou b, Eval k.hl (data.flatten ++ hints) ou b → ∃ tape, k.lc.eval V buf tape = some ([], b)) ∧
    (HlNoRandom k.hl → ∀ tape b', k.lc.eval V buf tape = some ([], b') → ∃ ou b, Eval k.hl (data.flatten ++ hints) ou b ∧ (b = true → b' = true))

theorem kernel_parts {P : Params F} (hP : P.Ok) {o : Options} (ho : o.valid = true) (hE : E.HintLen) {rc : RootCircuit (hintNorm E)} (hv : Compile.Valid rc) (hno : NoRoot rc)
    (hz : rc.expectedNumOutputZeroes = 0) {shapes : List (List Nat)} (hne : shapes ≠ []) (h0 : ∀ sh ∈ shapes, ∀ n ∈ sh, n ≠ 0)
    (hsum : (shapes.map List.prod).sum = inputSize rc) {k : KernelTrace E} (h : compilePrimitive P o rc shapes = some k) (hk : k.Ok P o)
    {V : Layered.LEnv F F} (hV : EnvOk E rc.numPublicInputs V) : KernelParts rc shapes k V := by
  simp only [compilePrimitive, Option.bind_eq_bind, Option.bind_eq_some_iff] at h
  obtain ⟨⟨hl, ex⟩, h1, ex', h2, ⟨ex2, im⟩, h3, _, h4, c0, h5, _, h6, ⟨hl1, blocks⟩, h7, r0, h8, ⟨relaxed, d, hlIm⟩, h9, _, h10, d0, h11, ⟨lc0, size, order⟩, h12, _, h13, lc, h14, h15⟩ := h
  cases h15
  dsimp only at *
  obtain ⟨rfl, v2⟩ := checked_some.1 h2
  replace h4 := ensure_some.1 h4
  replace h6 := of_decide_eq_true (ensure_some.1 h6)
  replace h10 := ensure_some.1 h10
  replace h13 := ensure_some.1 h13
  obtain ⟨hl', ex'', e1, e2, e3, e4, e5, e6, e7⟩ := removeAndExport_correct hE rc hv.1 hv.2
  rw [h1] at e1; cases e1
  obtain ⟨root, hr, _⟩ := hv.2.root
  have hin : inputSize rc = root.numInputs := inputSize_of hr
  obtain ⟨m, ⟨hlr, q1, q2⟩, ⟨exr, q3, q4, q5⟩, q6, q7, q8⟩ := removeAndExport_sizes hv.1 hv.2.wf h1 hr
  have kx : ex'.vertices.Nodup := by rw [e3]; exact hv.1
  have wx : WF ex' := (validate_iff ex' kx).1 v2
  obtain ⟨x1, x2, x3, x4, ⟨xr, x5, x6⟩, x7, x8⟩ := step4_id hE kx h3 h4 q3
  rw [h5] at x5; cases x5
  have hm : (c0.outputs.drop (inputSize rc)).length = m := by simp only [List.length_drop, x6, q5]; omega
  have kl : hl.vertices.Nodup := by rw [e2]; exact hv.1
  have hzl : hl.expectedNumOutputZeroes = 0 := q8.trans hz
  have hnol := q6 hno
  have hLl := hintLess_lawful E
  have hLn := hintNorm_lawful E hE
  have h0' : ∀ sh ∈ shapesWithHints shapes m, ∀ n ∈ sh, n ≠ 0 := by
    unfold shapesWithHints
    split
    · intro sh hs
      rcases List.mem_append.1 hs with hs | hs
      · exact h0 sh hs
      · simp only [List.mem_singleton] at hs; subst hs; intro n hn; simp only [List.mem_singleton] at hn; omega
    · exact h0
  have hsum' : ((shapesWithHints shapes m).map List.prod).sum = hlr.numInputs := by
    rw [q2, ← hin, ← hsum]
    unfold shapesWithHints
    split
    · simp
    · rename_i hm0
      have : m = 0 := by omega
      subst this; rfl
  have hne' : shapesWithHints shapes m ≠ [] := by
    unfold shapesWithHints; split
    · simp
    · exact hne
  rw [hm] at h7 hk ⊢
  have hvl : hl.validate = true := (validate_iff hl kl).2 e4
  obtain ⟨hl1', blocks', root', s1, s2, s3, s4, s5, s6, s7, s8⟩ := Props.C48_reorder E hl kl hvl hlr q1 (shapesWithHints shapes m) h0' hsum'
  rw [h7] at s1; cases s1
  rw [h8] at s2; cases s2
  have k1 : hl1.vertices.Nodup := by rw [s4]; exact kl
  have w1 : WF hl1 := (validate_iff hl1 k1).1 (Props.C48_valid E hl kl hvl hlr q1 hnol (shapesWithHints shapes m) h0' hsum' hl1 blocks h7)
  obtain ⟨vm, lcx, t1, _⟩ := reorderInputs_spec hLl hl e4 q1 (shapesWithHints shapes m) h0' hsum'
  rw [h7] at t1
  have t2 : hl1 = renumRoot hl vm ((shapesWithHints shapes m).map paddedLen).sum hlr := by cases t1; rfl
  have hno1 : NoRoot hl1 := by rw [t2]; exact renumRoot_noRoot hLl q1 hnol _ _
  have hz1 : hl1.expectedNumOutputZeroes = 0 := by rw [t2]; exact hzl
  have hnp1 : hl1.numPublicInputs = hl.numPublicInputs := by rw [t2]; rfl
  -- the circuit all of whose inputs are outputs
  have hrng : ∀ v ∈ List.range' 1 r0.numInputs, v ≤ numVars r0.numInputs r0.instructions ∧ v ≠ 0 := by
    intro v hv
    have hmono : ∀ (is : List (hintLess E).Insn) (n : Nat), n ≤ numVars n is := by
      intro is
      induction is with
      | nil => intro n; exact le_refl _
      | cons i is ih => intro n; rw [numVars_cons]; exact le_trans (by omega) (ih _)
    have h1 := hmono r0.instructions r0.numInputs
    simp only [List.mem_range'_1] at hv
    omega
  have hgx : (withOutputs hl1 r0 (List.range' 1 r0.numInputs)).get 0 = some ⟨r0.instructions, r0.constraints, List.range' 1 r0.numInputs, r0.numInputs⟩ := by
    rw [withOutputs_get h8]; rfl
  have hpos : 0 < r0.numInputs := by
    rw [s3]
    obtain ⟨sh, rest, hsh⟩ := List.exists_cons_of_ne_nil hne'
    rw [hsh]
    have := paddedLen_pos sh
    simp only [List.map_cons, List.sum_cons]
    unfold paddedLen at this
    omega
  have wexp : WF (withOutputs hl1 r0 (List.range' 1 r0.numInputs)) := by
    refine ⟨withOutputs_wf w1.wf hno1 h8 hrng (.inr List.nodup_range'), _, hgx, ?_, ?_⟩
    · show hl1.expectedNumOutputZeroes ≤ _; omega
    · intro hnil
      have := congrArg List.length hnil
      simp at this; omega
  have h12' : Layering.compile o.cross false (Layering.progGet (withOutputs d d0 (d0.outputs.take (d0.outputs.length - (List.range' 1 r0.numInputs).length))).get) P.fuel d.numPublicInputs
      d.expectedNumOutputZeroes = some (lc0, size, order) := by rw [List.length_range']; exact h12
  obtain ⟨y1, y2, y3⟩ := exposed_layered hP ho (by rw [withOutputs_vertices]; exact k1) wexp hz1 hgx h9 hk.comb h10 h11 h12' h13 h14 (V := V)
    (by show EnvOk E hl1.numPublicInputs V; rw [hnp1, e5]; exact hV)
  dsimp only at y2 y3
  have hnoR : HlNoRandom hl → HlNoRandom (withOutputs hl1 r0 (List.range' 1 r0.numInputs)) := by
    intro hr c circ hc i hi
    have hsub : ∀ c circ, hl1.get c = some circ → ∀ i ∈ circ.instructions, i ≠ HintLess.Insn.constantLike .random := by
      intro c circ hc i hi
      rw [t2, renumRoot_get q1] at hc
      split at hc
      · cases hc
        obtain ⟨j, hj, f, rfl⟩ := AddBack.renumber_calls hLl _ _ _ i hi
        have := hr 0 hlr q1 j hj
        intro e
        apply this
        change HintLess.Insn.replaceVars j f = _ at e
        cases j <;> simp_all [HintLess.Insn.replaceVars]
      · exact hr c circ hc i hi
    rw [withOutputs_get h8] at hc
    split at hc
    · cases hc; exact hsub 0 r0 h8 i hi
    · exact hsub c circ hc i hi
  have hfn : ∀ ins o b, Eval ex' ins o b → ∀ hints, o = ins ++ hints → ins.length = root.numInputs → Eval (withOutputs ex2 c0 (c0.outputs.drop (inputSize rc))) ins hints b := by
    intro ins o b he hints heq hlen
    refine (withOutputs_drop hLn x1.2 h5 (inputSize rc) (x3.trans q7)).2 ⟨o, x7 ins o b he, ?_⟩
    rw [heq, hin, ← hlen]; simp
  refine ⟨?_, ?_, ?_, ?_, ?_, ?_⟩
  · intro ins outs b he
    have hlen : ins.length = root.numInputs := by
      obtain ⟨r, _, _, g1, g2, _⟩ := he
      rw [hr] at g1; cases g1; exact g2
    obtain ⟨hints, be, g1, g2⟩ := (e6 root hr (.inr wx) ins hlen).1 outs b he
    refine ⟨hints, be, ?_, hfn ins _ be g1 hints rfl hlen, g2⟩
    obtain ⟨g3, _⟩ := (eval_iff q1).1 g2
    rw [List.length_append, q2, hlen] at g3
    show hints.length = m
    omega
  · intro ins hints outs b hlen he
    exact (e7 root hr ins (hlen.trans hin) outs b).2 ⟨hints, he⟩
  · intro hr
    obtain ⟨n1, n2⟩ := removeAndExport_noRandom hv.1 hv.2.wf h1 hr
    refine ⟨n1, ?_⟩
    have := x8 n2
    intro c circ hc i hi
    rw [withOutputs_get h5] at hc
    split at hc
    · cases hc; exact this 0 c0 h5 i hi
    · exact this c circ hc i hi
  · intro ins hlen
    exact wf_eval_total (hintLess_total E) hLl hl e4 hlr q1 ins (by rw [hlen, q2, hin])
  · refine ⟨s5, size, y1, ?_, s7⟩
    intro i sh hs
    obtain ⟨off, o1, o2, o3⟩ := s6 i sh hs
    exact ⟨off, o1, o2, by omega⟩
  · intro data hints buf hd hh hb hhold
    have hbl : buf.length = size := by rw [y1] at hb; exact (Option.some.inj hb).symm
    have hd' := withHints_shapes hd hh
    have hhold' : Props.HoldsPadded (shapesWithHints shapes m) (withHints data hints) blocks (buf.take r0.numInputs) := by
      intro i sh dd len off g1 g2 g3 idx g4
      obtain ⟨off', o1, o2, o3⟩ := s6 i sh g1
      rw [g3] at o1
      simp only [Option.some.injEq, Prod.mk.injEq] at o1
      obtain ⟨rfl, rfl⟩ := o1
      have hlt : ravel (sh.map Pow2.next) idx < (sh.map Pow2.next).prod := ravel_lt (valid_padded g4)
      rw [List.getElem?_take, if_pos (by omega)]
      exact hhold i sh dd _ off g1 g2 g3 idx g4
    have key := s8 (withHints data hints) (buf.take r0.numInputs) hd' (by simp; omega) hhold'
    rw [withHints_flatten] at key
    have any : ∀ b, (∃ ou, Eval (withOutputs hl1 r0 (List.range' 1 r0.numInputs)) (buf.take r0.numInputs) ou b) ↔ ∃ ou, Eval hl (data.flatten ++ hints) ou b := by
      intro b
      rw [withOutputs_any hLl w1 h8 (fun v hv => (hrng v hv).1) hz1]
      exact exists_congr fun ou => key ou b
    obtain ⟨z1, z2, z3⟩ := y3 buf hbl
    refine ⟨z1, ?_, ?_⟩
    · intro ou b he
      obtain ⟨ou', he'⟩ := (any b).2 ⟨ou, he⟩
      exact z2 ou' b he'
    · intro hr tape b' hb'
      obtain ⟨ou, b, g1, g2⟩ := z3 (hnoR hr) tape b' hb'
      obtain ⟨ou', he'⟩ := (any b).1 ⟨ou, g1⟩
      exact ⟨ou', b, he', g2⟩

/-! ### The circuit used by `call_kernel` -/

/-- The root circuit without its constraints (kernel.rs:154). -/
def clearCons (rc : RootCircuit L) (c : Circuit L) : RootCircuit L :=
  ⟨rc.numPublicInputs, rc.expectedNumOutputZeroes, rc.circuits.map fun p => if p.1 = 0 then (0, ⟨c.instructions, [], c.outputs, c.numInputs⟩) else p⟩

/-- What `compile_with_spec_and_shapes` computes from the circuit of the kernel. -/
structure SpecTrace (E : Env F) where
  /-- the circuit after the source-level optimisation -/
  src : RootCircuit (source E)
  /-- `ir_for_later_compilation` -/
  hn : RootCircuit (hintNorm E)
  /-- `ir_for_calling` -/
  calling : RootCircuit (hintNorm E)
  /-- `tmp_im` -/
  im : InputMapping

/-- `compile_with_spec_and_shapes` (kernel.rs:142-164) after the circuit has been built; `nIn` is the total length of the inputs. -/
def compileSpec (P : Params F) (o : Options) (rc : RootCircuit (source E)) (nIn : Nat) : Option (SpecTrace E) := do
  let (src, hn, srcIm) ← step1 P o rc
  ensure (isIdentity srcIm.mapping)
  let c0 ← hn.get 0
  let (calling, im) ← step4 P o (clearCons hn c0) (.identity (inputSize hn))
  ensure (isIdentity (im.mapping.take nIn))
  some ⟨src, hn, calling, im⟩

theorem clearCons_get {rc : RootCircuit L} {c : Circuit L} (hg : rc.get 0 = some c) (d : Nat) :
    (clearCons rc c).get d = if d = 0 then some ⟨c.instructions, [], c.outputs, c.numInputs⟩ else rc.get d := by
  have hgz : rc.circuits.lookup 0 = some c := hg
  simp only [RootCircuit.get, clearCons]
  rw [AddBack.lookup_replace, hgz]; rfl

theorem clearCons_vertices (rc : RootCircuit L) (c : Circuit L) : (clearCons rc c).vertices = rc.vertices := by
  simp only [RootCircuit.vertices, clearCons, List.map_map]
  apply List.map_congr_left
  intro p hp
  simp only [Function.comp]
  split <;> simp_all

/-- Without constraints the results are the same. -/
theorem clearCons_eval (hL : L.Lawful) {npi : Option Nat} {rc : RootCircuit L} (hw : WFAt npi rc) {c : Circuit L} (hg : rc.get 0 = some c) {ins o : List F} {b : Bool} (h : Eval rc ins o b) :
    ∃ b', Eval (clearCons rc c) ins o b' ∧ (b = true → b' = true) := by
  obtain ⟨h1, vs, sb, cb, all, h2, h3, h4, h5, h6, h7⟩ := (eval_iff hg).1 h
  have hg' := clearCons_get hg 0
  rw [if_pos rfl] at hg'
  have key := (AddBack.evalSub_replace_root hL hw.wf (get' := (clearCons rc c).get) (fun d hd => by rw [clearCons_get hg, if_neg hd]) (noCall_root hw.wf)
    ⟨c.instructions, [], c.outputs, c.numInputs⟩ (by
      intro i hi d a n hcall
      obtain ⟨sub, s1, s2, s3⟩ := hw.wf.calls 0 c hg i hi d a n hcall
      exact ⟨⟨c, hg, i, hi, a, n, hcall⟩, sub, s1, s2, s3⟩) ins all sb).1 ⟨vs, sb, true, h2, rfl, h4, by simp⟩
  refine ⟨_, ⟨_, all, sb, hg', h1, key, h5, h6, rfl⟩, ?_⟩
  intro hb
  rw [h7] at hb
  simp only [Bool.and_eq_true] at hb ⊢
  exact ⟨hb.1.1, hb.2⟩

/-- `compile_step_4` keeps every outcome. -/
theorem step4_keeps (hE : E.HintLen) {P : Params F} {o : Options} {ex ex2 : RootCircuit (hintNorm E)} {im : InputMapping} {n : Nat} (hk : ex.vertices.Nodup) (hn : inputSize ex = n)
    (h : step4 P o ex (.identity n) = some (ex2, im)) :
    MapOk n im (inputSize ex2) ∧ ∀ x y, im.Placed x y → ∀ ou b, Eval ex x ou b → Eval ex2 y ou b := by
  subst hn
  have hL := hintNorm_lawful E hE
  simp only [step4, Option.bind_eq_bind, Option.bind_eq_some_iff] at h
  obtain ⟨ex', h1, h2⟩ := h
  obtain ⟨rfl, v1⟩ := checked_some.1 h1
  have hv := valid_of hk v1
  have hm := mapOk_identity (inputSize ex')
  split at h2
  · obtain ⟨a, b, c⟩ := factor_optimize keepsEval_preord (removeUnreachable_keepsOk hL) eqOk_keeps (fun h => removeUnreachable_surj h) hv hm (toOption_some.1 h2)
    refine ⟨b, fun x y hp ou bb he => ?_⟩
    obtain ⟨z, z1, z2⟩ := c x y hp
    cases placed_identity_eq z1
    exact z2 ou bb he
  · cases h2
    exact ⟨hm, fun x y hp ou b he => by cases placed_identity_eq hp; exact he⟩

theorem tidySource_zeroes (hE : E.HintLen) {opt fuel : Nat} {x y : RootCircuit (source E)} {im im' : InputMapping} (h : tidySource opt fuel x im = some (y, im')) :
    y.expectedNumOutputZeroes = x.expectedNumOutputZeroes := by
  have hL := source_lawful E hE
  unfold tidySource at h
  split at h
  · refine optimize_fwd (Q := fun z : RootCircuit (source E) => z.expectedNumOutputZeroes = x.expectedNumOutputZeroes) (fun {a b m} hf ha => ?_) (toOption_some.1 h) rfl
    unfold cleanupSource at hf
    obtain ⟨z, hz, e⟩ := Option.map_eq_some_iff.1 hf
    cases e
    exact cleanup_fwd hL (zeroes_fwd _) (y := z.1) hz ha
  · split at h
    · obtain ⟨m, h1, h2⟩ := pruneOnce_some.1 h
      exact removeUnreachable_fwd hL (zeroes_fwd x.expectedNumOutputZeroes) h1 rfl
    · cases h; rfl

/-- `compile_step_1` leaves no circuit that calls the root, and the number of outputs that must be zero. -/
theorem step1_noRoot {P : Params F} {o : Options} (ho : 1 ≤ o.optLevel) (hE : E.HintLen) (hB : E.Builtin) (hsrt : ∀ l, (P.srt l).Perm l) {rc src : RootCircuit (source E)}
    {hn : RootCircuit (hintNorm E)} {im : InputMapping} (hk : rc.vertices.Nodup) (h : step1 P o rc = some (src, hn, im)) :
    NoRoot hn ∧ hn.expectedNumOutputZeroes = rc.expectedNumOutputZeroes := by
  simp only [step1, Option.bind_eq_bind, Option.bind_eq_some_iff] at h
  obtain ⟨rc1, h1, ⟨src1, m1⟩, h2, src2, h3, hn1, h4, ⟨hn2, m2⟩, h5, hn3, h6, h7⟩ := h
  cases h7
  obtain ⟨rfl, v1⟩ := checked_some.1 h1
  obtain ⟨rfl, v3⟩ := checked_some.1 h3
  obtain ⟨rfl, v6⟩ := checked_some.1 h6
  have hv := valid_of hk v1
  obtain ⟨⟨ks, _⟩, ms, fs⟩ := tidySource_keeps hE ⟨hk, _, hv.2⟩ (mapOk_identity (inputSize rc1)) h2
  have hp := outcomeOption_some.1 h4
  obtain ⟨rc', e, c1, c2, c3, c4, c5, c6⟩ : ∃ rc', Builder.process E.canon P.srt E src = .ok rc' ∧ rc'.vertices.Nodup ∧ (∀ c, c ∈ rc'.vertices ↔ c ∈ src.vertices) ∧
      rc'.numPublicInputs = src.numPublicInputs ∧ rc'.expectedNumOutputZeroes = src.expectedNumOutputZeroes ∧
      WFGet (some rc'.numPublicInputs) rc'.get ∧ ∀ ins outs b, Eval src ins outs b → Eval rc' ins outs b := by
    rcases Props.C06_complete E hE hB P.srt hsrt src ks v3 with ⟨h, _⟩ | h
    · rw [h] at hp; cases hp
    · exact h
  rw [hp] at e
  cases e
  have hLh := hintNorm_lawful E hE
  have hval1 : Compile.Valid hn1 := ⟨c1, c5, tidy_rootOk hLh h5 (validate_rootOk v6)⟩
  refine ⟨tidy_noRoot hLh (.inl ⟨rfl, rfl, rfl⟩) ho hval1 h5, ?_⟩
  rw [show hn.expectedNumOutputZeroes = hn1.expectedNumOutputZeroes from tidy_fwd hLh (zeroes_fwd _) h5 rfl, c4]
  exact tidySource_zeroes hE h2

/-- The circuit without hints has at most one outcome. -/
theorem hl_primFun {i : HintLess.Insn F} (hr : i ≠ .constantLike .random) : PrimFun (hintLess E) i := by
  intro hc val o o' h h'
  obtain ⟨a, h1, h2⟩ := h
  obtain ⟨a', h1', h2'⟩ := h'
  rw [h1] at h1'; cases h1'
  cases i with
  | linComb lc => simp only [HintLess.Insn.sem] at h2 h2'; rw [h2, h2']
  | mul xs => simp only [HintLess.Insn.sem] at h2 h2'; rw [h2, h2']
  | call _ _ _ => cases hc
  | customGate g xs => simp only [HintLess.Insn.sem] at h2 h2'; rw [h2, h2']
  | constantLike c =>
    obtain ⟨y, hy, rfl⟩ := h2
    obtain ⟨y', hy', rfl⟩ := h2'
    cases c with
    | const c => simp only [Coef.Sem] at hy hy'; rw [hy, hy']
    | random => exact absurd rfl hr
    | pub i => simp only [Coef.Sem] at hy hy'; rw [hy, hy']

end Verif.Zkcuda
