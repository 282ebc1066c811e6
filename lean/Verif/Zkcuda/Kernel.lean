import Verif.Compile.NoRoot
import Verif.Compile.Whole
import Verif.Zkcuda.Reorder

/-!
# Compiling a kernel

`compile_primitive` (zkcuda/kernel.rs:176-270): the circuit of a kernel is split into a solver of its hints and a layered circuit whose inputs are
the padded inputs and outputs of the kernel and the hints.
-/

set_option linter.unusedSectionVars false
set_option linter.unusedSimpArgs false

namespace Verif.Zkcuda

open Verif.IR Verif.IR.HintExport Verif.Compile

variable {F : Type} [Field F] [DecidableEq F] {L : Lang F} {E : Env F}

/-- `assert!` and `assert_eq!`: failing is `none`. -/
def ensure (b : Bool) : Option Unit := if b then some () else none

/-- The loops `for (i, x) in im.mapping().iter().enumerate() { assert_eq!(i, *x) }` (kernel.rs:196-198, 233-235). -/
def isIdentity (m : List (Option Nat)) : Bool := decide (m = (List.range m.length).map some)

/-- What `compile_primitive` computes. -/
structure KernelTrace (E : Env F) where
  hl : RootCircuit (hintLess E)
  ex : RootCircuit (hintNorm E)
  /-- `hint_solver` -/
  solver : RootCircuit (hintNorm E)
  /-- `num_hints` -/
  numHints : Nat
  /-- `layered_circuit_input`: length and offset of every vector -/
  blocks : List (Nat × Nat)
  /-- the circuit without hints, after `reorder_ir_inputs`, all of whose inputs are outputs -/
  exposed : RootCircuit (hintLess E)
  /-- the circuit before it is split at layers -/
  relaxed : RootCircuit (IR.dest E true)
  dest : RootCircuit (IR.dest E false)
  lc0 : Layered.Circuit F
  /-- `layered_circuit` -/
  lc : Layered.Circuit F

/-- `reorder_pad_shapes` with the hints (kernel.rs:206-220). -/
def shapesWithHints (shapes : List (List Nat)) (numHints : Nat) : List (List Nat) := if 0 < numHints then shapes ++ [[numHints]] else shapes

/-- `compile_primitive` (kernel.rs:176-270).  `shapes`: the padded shapes of all inputs, then of all outputs (kernel.rs:206-217).  The code uses
`CompileOptions::default()` and does not reorder inputs; here the other options are arbitrary.  `hint_solver` is `None` if there are no hints. -/
def compilePrimitive (P : Params F) (o : Options) (rc : RootCircuit (hintNorm E)) (shapes : List (List Nat)) : Option (KernelTrace E) := do
  let (hl, ex) ← removeAndExport E rc
  let ex ← checked ex
  let (ex2, im) ← step4 P o ex (.identity (inputSize ex))
  ensure (isIdentity im.mapping)
  let c0 ← ex2.get 0
  ensure (decide (inputSize rc ≤ c0.outputs.length))
  let solver := withOutputs ex2 c0 (c0.outputs.drop (inputSize rc))
  let numHints := (c0.outputs.drop (inputSize rc)).length
  let (hl1, blocks) ← reorderInputs (shapesWithHints shapes numHints) hl
  let r0 ← hl1.get 0
  let exposed := withOutputs hl1 r0 (List.range' 1 r0.numInputs)
  let (relaxed, d, hlIm) ← step2 P o exposed
  ensure (isIdentity hlIm.mapping)
  let d0 ← d.get 0
  let dest := withOutputs d d0 (d0.outputs.take (d0.outputs.length - r0.numInputs))
  let (lc0, size, order) ← Layering.compile o.cross false (Layering.progGet dest.get) P.fuel dest.numPublicInputs dest.expectedNumOutputZeroes
  ensure (isIdentity order)
  let lc ← step3 P o lc0
  some ⟨hl, ex, solver, numHints, blocks, exposed, relaxed, dest, lc0, lc⟩

/-! ### Identity mappings -/

theorem ensure_some {b : Bool} {u : Unit} : ensure b = some u ↔ b = true := by
  unfold ensure; split <;> simp_all

theorem identity_of {n m : Nat} {im : InputMapping} (h : MapOk n im m) (hi : isIdentity im.mapping = true) : m = n ∧ im = .identity n := by
  have hm := of_decide_eq_true hi
  have hl : im.mapping.length = n := h.cur
  obtain ⟨nx, mp⟩ := im
  dsimp only at hm hl
  rw [hl] at hm
  subst hm
  have hn : nx = m := h.next
  have hmn : nx = n := by
    apply Nat.le_antisymm
    · by_contra hc
      obtain ⟨i, hi⟩ := h.surj n (by show n < nx; omega)
      simp only [List.getElem?_map, Option.map_eq_some_iff] at hi
      obtain ⟨a, ha, e⟩ := hi
      cases e
      obtain ⟨h1, h2⟩ := List.getElem?_eq_some_iff.1 ha
      simp at h1 h2; omega
    · rcases Nat.eq_zero_or_pos n with h0 | h0
      · omega
      · have h2 : n - 1 < nx := h.range (n - 1) (by simp; omega)
        omega
  subst hmn
  exact ⟨hn.symm, rfl⟩

/-! ### Other outputs -/

theorem eval_iff {rc : RootCircuit L} {c : Circuit L} (hg : rc.get 0 = some c) {ins o : List F} {b : Bool} : Eval rc ins o b ↔ ins.length = c.numInputs ∧
    ∃ vs sb cb all, Run rc.get c.instructions (0 :: ins) vs sb ∧ checkCons vs c.constraints = some cb ∧ readAll vs c.outputs = some all ∧
      rc.expectedNumOutputZeroes ≤ all.length ∧ o = all.drop rc.expectedNumOutputZeroes ∧
      b = (sb && cb && (all.take rc.expectedNumOutputZeroes).all (fun x => decide (x = 0))) := by
  constructor
  · rintro ⟨root, all, b0, h1, h2, ⟨vs, sb, cb, h3, h4, h5, rfl⟩, h6, h7, h8⟩
    rw [hg] at h1; cases h1
    exact ⟨h2, vs, sb, cb, all, h3, h4, h5, h6, h7, h8⟩
  · rintro ⟨h2, vs, sb, cb, all, h3, h4, h5, h6, h7, h8⟩
    exact ⟨c, all, _, hg, h2, ⟨vs, sb, cb, h3, h4, h5, rfl⟩, h6, h7, h8⟩

theorem withOutputs_eval_iff (hL : L.Lawful) {npi : Option Nat} {rc : RootCircuit L} (hw : WFAt npi rc) {c : Circuit L} (hg : rc.get 0 = some c) (outs : List Nat)
    {ins o : List F} {b : Bool} : Eval (withOutputs rc c outs) ins o b ↔ ins.length = c.numInputs ∧
    ∃ vs sb cb all, Run rc.get c.instructions (0 :: ins) vs sb ∧ checkCons vs c.constraints = some cb ∧ readAll vs outs = some all ∧
      rc.expectedNumOutputZeroes ≤ all.length ∧ o = all.drop rc.expectedNumOutputZeroes ∧
      b = (sb && cb && (all.take rc.expectedNumOutputZeroes).all (fun x => decide (x = 0))) := by
  have hg' := withOutputs_get hg outs 0
  rw [if_pos rfl] at hg'
  have key := fun all b0 => withOutputs_eval hL hw hg outs ins all b0
  constructor
  · rintro ⟨root, all, b0, h1, h2, h3, h6, h7, h8⟩
    rw [hg'] at h1; cases h1
    obtain ⟨vs, sb, cb, g1, g2, g3, rfl⟩ := (key all b0).1 h3
    exact ⟨h2, vs, sb, cb, all, g1, g2, g3, h6, h7, h8⟩
  · rintro ⟨h2, vs, sb, cb, all, h3, h4, h5, h6, h7, h8⟩
    exact ⟨_, all, sb && cb, hg', h2, (key all _).2 ⟨vs, sb, cb, h3, h4, h5, rfl⟩, h6, h7, h8⟩

theorem run_readAll (hL : L.Lawful) {npi : Option Nat} {rc : RootCircuit L} (hw : WFAt npi rc) {c : Circuit L} (hg : rc.get 0 = some c) {ins vs : List F} {sb : Bool}
    (hl : ins.length = c.numInputs) (hr : Run rc.get c.instructions (0 :: ins) vs sb) {outs : List Nat} (ho : ∀ v ∈ outs, v ≤ numVars c.numInputs c.instructions) :
    ∃ all, readAll vs outs = some all := by
  refine readAll_isSome fun v hv => ?_
  have := hr.length hL (hw.wf.calls 0 c hg) (c.numInputs + 1) (by simp [hl])
  rw [numVars_add] at this
  have := ho v hv
  omega

/-- Outputs do not matter for the verdict if none of them must be zero. -/
theorem withOutputs_any (hL : L.Lawful) {npi : Option Nat} {rc : RootCircuit L} (hw : WFAt npi rc) {c : Circuit L} (hg : rc.get 0 = some c) {outs : List Nat}
    (ho : ∀ v ∈ outs, v ≤ numVars c.numInputs c.instructions) (hz : rc.expectedNumOutputZeroes = 0) {ins : List F} {b : Bool} :
    (∃ o, Eval (withOutputs rc c outs) ins o b) ↔ ∃ o, Eval rc ins o b := by
  constructor
  · rintro ⟨o, h⟩
    obtain ⟨h1, vs, sb, cb, all, h2, h3, h4, h5, h6, h7⟩ := (withOutputs_eval_iff hL hw hg outs).1 h
    obtain ⟨all', ha⟩ := run_readAll hL hw hg h1 h2 (outs := c.outputs) (fun v hv => ((hw.wf.circ 0 c hg).outs v hv).1)
    refine ⟨_, (eval_iff hg).2 ⟨h1, vs, sb, cb, all', h2, h3, ha, by omega, rfl, ?_⟩⟩
    rw [h7, hz]; rfl
  · rintro ⟨o, h⟩
    obtain ⟨h1, vs, sb, cb, all, h2, h3, h4, h5, h6, h7⟩ := (eval_iff hg).1 h
    obtain ⟨all', ha⟩ := run_readAll hL hw hg h1 h2 ho
    refine ⟨_, (withOutputs_eval_iff hL hw hg outs).2 ⟨h1, vs, sb, cb, all', h2, h3, ha, by omega, rfl, ?_⟩⟩
    rw [h7, hz]; rfl

theorem readAll_drop {vs : List F} {is : List Nat} {xs : List F} (h : readAll vs is = some xs) (m : Nat) : readAll vs (is.drop m) = some (xs.drop m) := by
  rw [readAll_eq_some_iff] at h ⊢
  refine ⟨by simp [h.1], fun j v hj => ?_⟩
  rw [List.getElem?_drop] at hj ⊢
  exact h.2 _ v hj

theorem readAll_take {vs : List F} {is : List Nat} {xs : List F} (h : readAll vs is = some xs) (m : Nat) : readAll vs (is.take m) = some (xs.take m) := by
  rw [readAll_eq_some_iff] at h ⊢
  refine ⟨by simp [h.1], fun j v hj => ?_⟩
  rw [List.getElem?_take] at hj ⊢
  split at hj
  · rename_i hlt
    rw [if_pos hlt]; exact h.2 _ v hj
  · cases hj

/-- Without the first outputs, if none must be zero. -/
theorem withOutputs_drop (hL : L.Lawful) {npi : Option Nat} {rc : RootCircuit L} (hw : WFAt npi rc) {c : Circuit L} (hg : rc.get 0 = some c) (m : Nat)
    (hz : rc.expectedNumOutputZeroes = 0) {ins o : List F} {b : Bool} :
    Eval (withOutputs rc c (c.outputs.drop m)) ins o b ↔ ∃ o', Eval rc ins o' b ∧ o = o'.drop m := by
  constructor
  · intro h
    obtain ⟨h1, vs, sb, cb, all, h2, h3, h4, h5, h6, h7⟩ := (withOutputs_eval_iff hL hw hg _).1 h
    obtain ⟨all', ha⟩ := run_readAll hL hw hg h1 h2 (outs := c.outputs) (fun v hv => ((hw.wf.circ 0 c hg).outs v hv).1)
    have := readAll_drop ha m
    rw [h4] at this; cases this
    refine ⟨all', (eval_iff hg).2 ⟨h1, vs, sb, cb, all', h2, h3, ha, by omega, ?_, ?_⟩, ?_⟩
    · rw [hz]; rfl
    · rw [h7, hz]; rfl
    · rw [h6, hz]; rfl
  · rintro ⟨o', h, rfl⟩
    obtain ⟨h1, vs, sb, cb, all, h2, h3, h4, h5, rfl, h7⟩ := (eval_iff hg).1 h
    refine (withOutputs_eval_iff hL hw hg _).2 ⟨h1, vs, sb, cb, all.drop m, h2, h3, readAll_drop h4 m, by omega, ?_, ?_⟩
    · rw [hz]; rfl
    · rw [h7, hz]; rfl

/-- Without the last outputs, if these need not be zero. -/
theorem withOutputs_take (hL : L.Lawful) {npi : Option Nat} {rc : RootCircuit L} (hw : WFAt npi rc) {c : Circuit L} (hg : rc.get 0 = some c) {m : Nat}
    (hz : rc.expectedNumOutputZeroes ≤ m) (hm : m ≤ c.outputs.length) {ins o : List F} {b : Bool} :
    Eval (withOutputs rc c (c.outputs.take m)) ins o b ↔ ∃ o', Eval rc ins o' b ∧ o = o'.take (m - rc.expectedNumOutputZeroes) := by
  have key : ∀ all : List F, (all.take m).take rc.expectedNumOutputZeroes = all.take rc.expectedNumOutputZeroes := fun all => by
    rw [List.take_take, Nat.min_eq_left hz]
  constructor
  · intro h
    obtain ⟨h1, vs, sb, cb, all, h2, h3, h4, h5, h6, h7⟩ := (withOutputs_eval_iff hL hw hg _).1 h
    obtain ⟨all', ha⟩ := run_readAll hL hw hg h1 h2 (outs := c.outputs) (fun v hv => ((hw.wf.circ 0 c hg).outs v hv).1)
    have := readAll_take ha m
    rw [h4] at this; cases this
    refine ⟨_, (eval_iff hg).2 ⟨h1, vs, sb, cb, all', h2, h3, ha, ?_, rfl, ?_⟩, ?_⟩
    · simp only [List.length_take] at h5; omega
    · rw [h7, key]
    · rw [h6, List.drop_take]
  · rintro ⟨o', h, rfl⟩
    obtain ⟨h1, vs, sb, cb, all, h2, h3, h4, h5, rfl, h7⟩ := (eval_iff hg).1 h
    refine (withOutputs_eval_iff hL hw hg _).2 ⟨h1, vs, sb, cb, all.take m, h2, h3, readAll_take h4 m, ?_, ?_, ?_⟩
    · simp only [List.length_take]; omega
    · rw [List.drop_take]
    · rw [h7, key]

/-- If no circuit calls the root, the circuit with other outputs is well-formed. -/
theorem withOutputs_wf {npi : Option Nat} {rc : RootCircuit L} (hw : WFGet npi rc.get) (hno : NoRoot rc) {c : Circuit L} (hg : rc.get 0 = some c) {outs : List Nat}
    (ho : ∀ v ∈ outs, v ≤ numVars c.numInputs c.instructions ∧ v ≠ 0) (hd : L.allowDupOutputs = true ∨ outs.Nodup) : WFGet npi (withOutputs rc c outs).get := by
  have hget := withOutputs_get hg outs
  have hcalls : ∀ a d, Calls (withOutputs rc c outs).get a d → Calls rc.get a d := by
    rintro a d ⟨circ, h1, h2⟩
    rw [hget] at h1
    split at h1
    · rename_i ha; subst ha; cases h1; exact ⟨c, hg, h2⟩
    · exact ⟨circ, h1, h2⟩
  obtain ⟨r, hr⟩ := hw.dag
  refine ⟨?_, ?_, r, fun a d h => hr a d (hcalls a d h)⟩
  · intro a circ h1
    rw [hget] at h1
    split at h1
    · cases h1
      have := hw.circ 0 c hg
      exact ⟨this.insns, this.cons, this.consNodup, ho, hd⟩
    · exact hw.circ a circ h1
  · intro a circ h1 i hi d x n hc
    have hcl : Calls rc.get a d := hcalls a d ⟨circ, h1, i, hi, x, n, hc⟩
    have hd0 : d ≠ 0 := fun h => hno a (h ▸ hcl)
    rw [hget, if_neg hd0]
    rw [hget] at h1
    split at h1
    · cases h1; exact hw.calls 0 c hg i hi d x n hc
    · exact hw.calls a circ h1 i hi d x n hc

theorem withOutputs_noRoot {rc : RootCircuit L} (hno : NoRoot rc) {c : Circuit L} (hg : rc.get 0 = some c) (outs : List Nat) : NoRoot (withOutputs rc c outs) := by
  rintro a ⟨circ, h1, h2⟩
  rw [withOutputs_get hg] at h1
  split at h1
  · rename_i ha; subst ha; cases h1; exact hno 0 ⟨c, hg, h2⟩
  · exact hno a ⟨circ, h1, h2⟩

/-! ### Numbers of outputs -/

theorem removeUnreachable_outputs {npi : Option Nat} {rc rc' : RootCircuit L} {im : InputMapping} (hk : rc.vertices.Nodup) (hw : WFAt npi rc) {root : Circuit L}
    (hg : rc.get 0 = some root) (h : removeUnreachable rc = some (rc', im)) : ∃ root', rc'.get 0 = some root' ∧ root'.outputs.length = root.outputs.length := by
  obtain ⟨rc1, im1, order, vis, hrun, hp, hz, hget, hnd, hcl, h0, hro, him⟩ := removeUnreachable_closed rc hk hw hg
  rw [h] at hrun; cases hrun
  refine ⟨rebuildCircuit vis 0 root, by rw [hget, rebuildGet, if_pos h0, hg]; rfl, ?_⟩
  unfold rebuildCircuit
  simp only
  rw [List.length_map, filter_zipIdx (fun j => vis (eO 0 j)), ← List.range_eq_range', sel_map_true hro]

/-- The shapes of the two circuits. -/
theorem removeAndExport_sizes {npi : Option Nat} {rc : RootCircuit (hintNorm E)} {hl : RootCircuit (hintLess E)} {ex : RootCircuit (hintNorm E)} (hk : rc.vertices.Nodup)
    (hw : WFGet npi rc.get) (h : removeAndExport E rc = some (hl, ex)) {root : Circuit (hintNorm E)} (hg : rc.get 0 = some root) :
    ∃ m, (∃ r, hl.get 0 = some r ∧ r.numInputs = root.numInputs + m) ∧ (∃ r, ex.get 0 = some r ∧ r.numInputs = root.numInputs ∧ r.outputs.length = root.numInputs + m) ∧
      (NoRoot rc → NoRoot hl) ∧ ex.expectedNumOutputZeroes = 0 ∧ hl.expectedNumOutputZeroes = rc.expectedNumOutputZeroes := by
  obtain ⟨hs, hsz, heq⟩ := removeAndExport_eq rc hk hw
  rw [heq] at h; cases h
  have hgz : rc.circuits.lookup 0 = some root := hg
  have hget : (⟨rc.numPublicInputs, rc.expectedNumOutputZeroes, rc.circuits.map (fun p => (p.1, removeCore E hs p.1 p.2))⟩ : RootCircuit (hintLess E)).get = removedGet hs rc.get := by
    funext c; exact lookup_map_key (fun c x => removeCore E hs c x) rc.circuits c
  refine ⟨(hs 0).1, ⟨removeCore E hs 0 root, by rw [hget]; simp [removedGet, hg], rfl⟩, ⟨exportHints E hs true root, ?_, rfl, ?_⟩, ?_, rfl, rfl⟩
  · have := lookup_map_key (fun c x => exportHints E hs (c == 0) x) rc.circuits 0
    rw [RootCircuit.get, this, hgz]; rfl
  · have hel : ∀ (is : List (HintNorm.Insn F)) vm mx, (exportInsns hs is vm mx).2.2.1.length = (sizes hs is).2 ∧
        (exportInsns hs is vm mx).2.2.2.length = (sizes hs is).1 := by
      intro is
      induction is with
      | nil => intro vm mx; exact ⟨rfl, rfl⟩
      | cons i is ih =>
        intro vm mx
        simp only [exportInsns, sizes]
        cases hv : view i <;> simp [ih] <;> omega
    simp only [exportHints, if_true, List.length_append, List.length_range', hel]
    rw [hsz 0 root hg]; simp only [computeHintSizes]; omega
  · intro hno c hc
    rw [hget] at hc
    exact hno c ((calls_removed c 0).1 hc)

/-- `compile_step_4` if it removes no input. -/
theorem step4_id (hE : E.HintLen) {P : Params F} {o : Options} {ex ex2 : RootCircuit (hintNorm E)} {im : InputMapping} (hk : ex.vertices.Nodup)
    (h : step4 P o ex (.identity (inputSize ex)) = some (ex2, im)) (hi : isIdentity im.mapping = true) {root : Circuit (hintNorm E)} (hg : ex.get 0 = some root) :
    Compile.Valid ex2 ∧ ex2.numPublicInputs = ex.numPublicInputs ∧ ex2.expectedNumOutputZeroes = ex.expectedNumOutputZeroes ∧ inputSize ex2 = inputSize ex ∧
    (∃ r, ex2.get 0 = some r ∧ r.outputs.length = root.outputs.length) ∧ (∀ ins o b, Eval ex ins o b → Eval ex2 ins o b) ∧
    (HintExport.NoRandom ex → HintExport.NoRandom ex2) := by
  have hL := hintNorm_lawful E hE
  have hnr := step4_noRandom hE h
  simp only [step4, Option.bind_eq_bind, Option.bind_eq_some_iff] at h
  obtain ⟨ex', h1, h2⟩ := h
  obtain ⟨rfl, v1⟩ := checked_some.1 h1
  have hv := valid_of hk v1
  have hm := mapOk_identity (inputSize ex')
  split at h2
  · obtain ⟨a, b, c⟩ := factor_optimize keepsEval_preord (removeUnreachable_keepsOk hL) eqOk_keeps (fun h => removeUnreachable_surj h) hv hm (toOption_some.1 h2)
    obtain ⟨e1, e2⟩ := identity_of b hi
    have hlen := optimize_last (A := fun z : RootCircuit (hintNorm E) => Compile.Valid z ∧ ∃ r, z.get 0 = some r ∧ r.outputs.length = root.outputs.length)
      (Q := fun z => ∃ r, z.get 0 = some r ∧ r.outputs.length = root.outputs.length) (fun {x y m} hx hf => by
        obtain ⟨r, g1, g2⟩ := hx.2
        obtain ⟨r', g3, g4⟩ := removeUnreachable_outputs hx.1.1 hx.1.2 g1 hf
        have : Compile.Valid y := by
          obtain ⟨y', m', e, hb, _⟩ := removeUnreachable_keepsOk hL x hx.1
          rw [hf] at e; cases e; exact hb
        exact ⟨⟨this, r', g3, g4.trans g2⟩, r', g3, g4.trans g2⟩) ⟨hv, root, hg, rfl⟩ (toOption_some.1 h2)
    refine ⟨a, ?_, ?_, e1, hlen, fun ins ou bb he => ?_, hnr⟩
    · exact optimize_fwd (Q := fun z : RootCircuit (hintNorm E) => z.numPublicInputs = ex'.numPublicInputs)
        (fun hf hx => removeUnreachable_fwd hL (npi_fwd _) hf hx) (toOption_some.1 h2) rfl
    · exact optimize_fwd (Q := fun z : RootCircuit (hintNorm E) => z.expectedNumOutputZeroes = ex'.expectedNumOutputZeroes)
        (fun hf hx => removeUnreachable_fwd hL (zeroes_fwd _) hf hx) (toOption_some.1 h2) rfl
    · subst e2
      have hlen : ins.length = inputSize ex' := by
        obtain ⟨r, _, _, q1, q2, _⟩ := he
        rw [q2, inputSize_of q1]
      obtain ⟨b', b1, b2⟩ := c ins ins (hlen ▸ InputMapping.placed_identity ins)
      cases placed_identity_eq b1
      exact b2 ou bb he
  · cases h2
    exact ⟨hv, rfl, rfl, rfl, ⟨root, hg, rfl⟩, fun _ _ _ h => h, hnr⟩

/-! ### From the circuit without hints to the layered circuit -/

theorem step2e_noRoot {P : Params F} {o : Options} (ho : 1 ≤ o.optLevel) (hord : ∀ l, (P.ord l).Perm l) {d : RootCircuit (IR.dest E true)} {r : RootCircuit (IR.dest E false)}
    {im im' : InputMapping} (hv : Compile.Valid d) (h : step2e P o d im = some (r, im')) : NoRoot r := by
  have key : ∀ d' : RootCircuit (IR.dest E true), Compile.Valid d' → ∀ r1 r2 im2, SolveDup.solveDuplicates E P.ord d' = some r1 →
      tidy o.optLevel P.fuel r1 im = some (r2, im2) → NoRoot r2 := by
    intro d' hs r1 r2 im2 h1 h2
    have hnd : ∀ c circ, d'.get c = some circ → circ.outputs.Nodup := by
      intro c circ hg
      by_contra hd
      have := Props.C13_panic E P.ord d' (c, circ) (mem_of_get hg) hd
      rw [this] at h1; cases h1
    obtain ⟨r1', e, a1, a2, a3, a4, a5, a6⟩ := Props.C13_solveDuplicates_partial E P.ord hord d' hs.1 ((validate_iff d' hs.1).2 hs.2) hnd
    rw [e] at h1; cases h1
    exact tidy_noRoot (dest_lawful E false) (reassignOk_dest E false) ho (valid_of (by rw [a1]; exact hs.1) a2) h2
  unfold step2e at h
  by_cases h1 : o.optLevel = 1
  · simp only [if_pos h1, Option.bind_eq_bind, Option.bind_eq_some_iff] at h
    obtain ⟨d1, g1, r1, g2, ⟨r2, im2⟩, g3, r3, g4, g5⟩ := h
    obtain ⟨rfl, _⟩ := checked_some.1 g4
    split at g5
    · cases g5
      refine key d1 ?_ _ _ _ g2 g3
      have st : Stage (Eval d) (inputSize d) d.numPublicInputs False (.identity (inputSize d)) d :=
        ⟨hv, rfl, mapOk_identity _, fun x y hp ou b he => by cases placed_identity_eq hp; exact he, fun h => h.elim⟩
      exact (st.reassign (dest_lawful E true) rfl rfl rfl g1).valid
    · cases g5
  · simp only [if_neg h1, Option.bind_eq_bind, Option.bind_eq_some_iff] at h
    obtain ⟨d1, g1, r1, g2, ⟨r2, im2⟩, g3, r3, g4, g5⟩ := h
    obtain ⟨rfl, _⟩ := checked_some.1 g4
    cases g1
    split at g5
    · cases g5
      exact key d hv _ _ _ g2 g3
    · cases g5

theorem step2_noRoot {P : Params F} {o : Options} (ho : o.valid = true) (hcs : FinalBuild.CostOk P.costs) (hord : ∀ l, (P.ord l).Perm l)
    {hl : RootCircuit (hintLess E)} (hk : hl.vertices.Nodup) (hw : WF hl) {relaxed : RootCircuit (IR.dest E true)} {d : RootCircuit (IR.dest E false)} {im : InputMapping}
    (h : step2 P o hl = some (relaxed, d, im)) (hcomb : o.randomComb = true → o.cross = false → Combinable relaxed) : NoRoot d := by
  have hopt : 1 ≤ o.optLevel := by
    simp only [Options.valid, Bool.and_eq_true, decide_eq_true_eq] at ho
    exact ho.1.2
  simp only [step2, Option.bind_eq_bind, Option.bind_eq_some_iff] at h
  obtain ⟨⟨r1, m1⟩, h1, ⟨r2, m2⟩, h2, ⟨r3, m3⟩, h3, ⟨r4, m4⟩, h4, ⟨r5, m5⟩, h5, h6⟩ := h
  cases h6
  obtain ⟨s1, k1⟩ := step2a_stage (K := HlNoRandom hl) hk hw h1
  obtain ⟨s2, k2⟩ := step2b_stage ho hcs s1 k1 h2
  obtain ⟨s3, k3, c3⟩ := step2c_stage s2 k2 h3
  obtain ⟨s4, k4⟩ := step2d_stage s3 k3 c3 hcomb h4
  exact step2e_noRoot hopt hord s4.valid h5

/-- The verdicts of the layered circuit on a buffer whose first `n` elements are `ins` are those of the circuit without hints on `ins`. -/
theorem exposed_layered {P : Params F} (hP : P.Ok) {o : Options} (ho : o.valid = true)
    {x : RootCircuit (hintLess E)} (hk : x.vertices.Nodup) (hw : WF x) (hz : x.expectedNumOutputZeroes = 0) {r0 : Circuit (hintLess E)} (hg : x.get 0 = some r0)
    {relaxed : RootCircuit (IR.dest E true)} {d : RootCircuit (IR.dest E false)} {hlIm : InputMapping} (h : step2 P o x = some (relaxed, d, hlIm))
    (hcomb : o.randomComb = true → o.cross = false → Combinable relaxed) (hid : isIdentity hlIm.mapping = true) {d0 : Circuit (IR.dest E false)} (hd : d.get 0 = some d0)
    {lc0 lc : Layered.Circuit F} {size : Nat} {order : List (Option Nat)}
    (h2 : Layering.compile o.cross false (Layering.progGet (withOutputs d d0 (d0.outputs.take (d0.outputs.length - r0.outputs.length))).get) P.fuel d.numPublicInputs
      d.expectedNumOutputZeroes = some (lc0, size, order)) (hio : isIdentity order = true)
    (h3 : step3 P o lc0 = some lc) {V : Layered.LEnv F F} (hV : EnvOk E x.numPublicInputs V) :
    lc.inputSize = some size ∧ r0.numInputs ≤ size ∧ ∀ buf : List F, buf.length = size →
      (∀ tape, ∃ b, lc.eval V buf tape = some ([], b)) ∧
      (∀ ou b, Eval x (buf.take r0.numInputs) ou b → ∃ tape, lc.eval V buf tape = some ([], b)) ∧
      (HlNoRandom x → ∀ tape b', lc.eval V buf tape = some ([], b') → ∃ ou b, Eval x (buf.take r0.numInputs) ou b ∧ (b = true → b' = true)) := by
  have st := step2_stage ho hP.costs hP.ord hk hw h hcomb
  have hno := step2_noRoot ho hP.costs hP.ord hk hw h hcomb
  obtain ⟨e1, e2⟩ := identity_of st.map hid
  have hn0 : inputSize x = r0.numInputs := inputSize_of hg
  have hd0 : d0.numInputs = r0.numInputs := by rw [← inputSize_of hd, e1, hn0]
  have hLd := dest_lawful E false
  have plc : ∀ ins : List F, ins.length = r0.numInputs → hlIm.Placed ins ins := fun ins hl => by
    rw [e2, hn0, ← hl]; exact InputMapping.placed_identity ins
  have tot : ∀ ins : List F, ins.length = r0.numInputs → ∃ ou b, Eval x ins ou b := fun ins hl =>
    wf_eval_total (hintLess_total E) (hintLess_lawful E) x hw r0 hg ins hl
  -- the number of outputs
  have hlen : d0.outputs.length = d.expectedNumOutputZeroes + r0.outputs.length := by
    obtain ⟨ou, b, he⟩ := tot (List.replicate r0.numInputs 0) (by simp)
    obtain ⟨_, vs, sb, cb, all, g1, g2, g3, g4, g5, g6⟩ := (eval_iff hg).1 he
    obtain ⟨_, vs', sb', cb', all', k1, k2, k3, k4, k5, k6⟩ := (eval_iff hd).1 (st.fwd _ _ (plc _ (by simp)) ou b he)
    have a1 := readAll_length g3
    have a2 := readAll_length k3
    have : ou.length = all.length - 0 := by rw [g5, hz]; simp
    have a3 : ou.length = all'.length - d.expectedNumOutputZeroes := by rw [k5]; simp
    omega
  have hm : d0.outputs.length - r0.outputs.length = d.expectedNumOutputZeroes := by omega
  rw [hm] at h2
  have hsub : ∀ v ∈ d0.outputs.take d.expectedNumOutputZeroes, v ≤ numVars d0.numInputs d0.instructions ∧ v ≠ 0 := fun v hv =>
    (st.valid.2.wf.circ 0 d0 hd).outs v (List.mem_of_mem_take hv)
  have hget2 : (withOutputs d d0 (d0.outputs.take d.expectedNumOutputZeroes)).get 0 = some ⟨d0.instructions, d0.constraints, d0.outputs.take d.expectedNumOutputZeroes, d0.numInputs⟩ := by
    rw [withOutputs_get hd]; rfl
  have hrun : Layering.Runnable (withOutputs d d0 (d0.outputs.take d.expectedNumOutputZeroes)) := by
    refine ⟨withOutputs_wf st.valid.2.wf hno hd hsub ?_, _, hget2, ?_⟩
    · exact (st.valid.2.wf.circ 0 d0 hd).outsNodup.imp id fun hn => hn.sublist (List.take_sublist _ _)
    · show d.expectedNumOutputZeroes ≤ (d0.outputs.take _).length
      simp only [List.length_take]; omega
  have hcor := fun (ins : List F) (hl : ins.length = r0.numInputs) => Layering.compile_correct (V := V) hrun ⟨hV.const, hV.custom⟩
    (by intro i hi; exact hV.pub i (by rw [← st.npi]; exact hi)) h2 hget2 (ins := ins) (hl.trans hd0.symm)
  obtain ⟨c1, c2, c3, -⟩ := hcor (List.replicate r0.numInputs 0) (by simp)
  have c3' : order.length = r0.numInputs := c3.trans hd0
  have hord := of_decide_eq_true hio
  rw [c3'] at hord
  have hle : r0.numInputs ≤ size := by
    rcases Nat.eq_zero_or_pos r0.numInputs with h0 | h0
    · omega
    · have h2 : r0.numInputs - 1 < size := c1 (r0.numInputs - 1) (by show _ ∈ order; rw [hord]; simp; omega)
      omega
  have hopt : 1 ≤ o.optLevel := by
    simp only [Options.valid, Bool.and_eq_true, decide_eq_true_eq] at ho
    exact ho.1.2
  obtain ⟨_, same⟩ := step3_ok hP.layered hV.lawful hopt (fun _ => Layering.compile_once hrun.1 h2) h3
  have ex : ∀ y ob, (∃ tape, lc0.eval V y tape = some ob) ↔ ∃ tape, lc.eval V y tape = some ob := fun y ob => Set.ext_iff.1 (same y) ob
  have main : ∀ buf : List F, buf.length = size →
      (∀ tape, ∃ b, lc.eval V buf tape = some ([], b)) ∧
      (∀ ou b, Eval x (buf.take r0.numInputs) ou b → ∃ tape, lc.eval V buf tape = some ([], b)) ∧
      (HlNoRandom x → ∀ tape b', lc.eval V buf tape = some ([], b') → ∃ ou b, Eval x (buf.take r0.numInputs) ou b ∧ (b = true → b' = true)) := by
    intro buf hbl
    have hl : (buf.take r0.numInputs).length = r0.numInputs := by simp; omega
    have hpl : InputMapping.Placed ⟨size, order⟩ (buf.take r0.numInputs) buf := by
      refine ⟨?_, hbl, ?_⟩
      · rw [hl]; exact c3'.symm
      · intro i p hp
        have hp' : order[i]? = some (some p) := hp
        rw [hord, List.getElem?_map, Option.map_eq_some_iff] at hp'
        obtain ⟨a, ha, e⟩ := hp'
        cases e
        obtain ⟨q1, q2⟩ := List.getElem?_eq_some_iff.1 ha
        simp at q1 q2
        subst q2
        rw [List.getElem?_take, if_pos q1]
    obtain ⟨-, -, -, hb⟩ := hcor _ hl
    obtain ⟨b1, b2⟩ := hb buf hpl
    have fwd : ∀ ou b, Eval x (buf.take r0.numInputs) ou b → ∃ tape, lc.eval V buf tape = some ([], b) := by
      intro ou b he
      refine (ex buf _).1 (b1 [] b ?_)
      refine (withOutputs_take hLd st.valid.2 hd (le_refl _) (by omega)).2 ⟨ou, st.fwd _ _ (plc _ hl) ou b he, ?_⟩
      simp
    refine ⟨?_, fwd, ?_⟩
    · intro tape
      obtain ⟨ou, b, he⟩ := tot _ hl
      obtain ⟨t, ht⟩ := fwd ou b he
      obtain ⟨o1, b1', g⟩ := Layered.eval_uniform ht rfl tape
      obtain ⟨t0, ht0⟩ := (ex buf _).2 ⟨tape, g⟩
      obtain ⟨_, q, _⟩ := b2 t0 _ _ ht0
      obtain ⟨_, _, e⟩ := (withOutputs_take hLd st.valid.2 hd (le_refl _) (by omega)).1 q
      have : o1 = [] := by simpa using e
      subst this
      exact ⟨b1', g⟩
    · intro hK tape b' hb'
      obtain ⟨t0, ht0⟩ := (ex buf _).2 ⟨tape, hb'⟩
      obtain ⟨b3, q, q'⟩ := b2 t0 _ _ ht0
      obtain ⟨ou, q2, _⟩ := (withOutputs_take hLd st.valid.2 hd (le_refl _) (by omega)).1 q
      obtain ⟨b4, q3, q4⟩ := st.bwd hK _ _ (plc _ hl) ou b3 q2
      exact ⟨ou, b4, q3, fun h => q' (q4 h)⟩
  refine ⟨?_, hle, main⟩
  obtain ⟨b, g⟩ := (main (List.replicate size 0) (by simp)).1 fun _ => 0
  have := eval_length g
  simpa using this

end Verif.Zkcuda
