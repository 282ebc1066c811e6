import Verif.Compile.Whole
import Verif.Compile.NoMarks
import Verif.Props.C27

/-!
# C24: the compiler end to end

`compileTrace P o rc` is `compile_with_options` on the source circuit `rc`; `t.solver` and `t.lc` are the circuits it returns.
-/

set_option linter.unusedSectionVars false

namespace Verif.Props

open Verif.IR Verif.IR.HintExport Verif.Builder Verif.Compile Verif.Witness

variable {F : Type} [Field F] [DecidableEq F] {E : Env F}

/-- Specification: the layered circuit accepts the witness `w`, whatever random numbers are drawn. -/
def Accepts (V : Layered.LEnv F F) (lc : Layered.Circuit F) (w : List F) : Prop := ∀ tape, ∃ outs, lc.eval V w tape = some (outs, true)

/-- Completeness, for circuits with arbitrary hints and random values: every outcome (outputs and verdict) of the source circuit on an
assignment is an outcome of the layered circuit on a witness the solver circuit computes from that assignment.  The layered circuit can be
evaluated on this witness whatever random numbers are drawn. -/
theorem C24_complete_partial (hE : E.HintLen) (hB : E.Builtin) {P : Params F} (hP : P.Ok) {o : Options} {rc : RootCircuit (source E)} (hk : rc.vertices.Nodup)
    {t : Trace E} (hc : compileTrace P o rc = some t) (ht : t.Ok P o) {V : Layered.LEnv F F} (hV : EnvOk E rc.numPublicInputs V)
    {ins outs : List F} {b : Bool} (h : Eval rc ins outs b) :
    ∃ w be, Eval t.solver ins w be ∧ (∃ tape, t.lc.eval V w tape = some (outs, b)) ∧ ∀ tape, (t.lc.eval V w tape).isSome = true := by
  have p := parts hP hE hB hk hc ht hV
  have hlen : ins.length = t.srcIm.curSize := by
    obtain ⟨r, _, _, q1, q2, _⟩ := h
    rw [q2, p.front.map.cur, inputSize_of q1]
  obtain ⟨y, _, hy⟩ := InputMapping.mapInputs_placed p.front.map.range p.front.map.inj (0 : F) hlen
  obtain ⟨full, w, be, g1, g2, g3, im, hB', hw⟩ := p.run ins y hy outs b (p.front.fwd ins y hy outs b h)
  refine ⟨w, be, g3, hB'.fwd full w hw outs b g2, fun tape => ?_⟩
  obtain ⟨o1, b1, e⟩ := hB'.total full w hw tape
  rw [e]; rfl

/-- Solve and run, for circuits without random values whose hints are functions: if the source circuit evaluates on the assignment to
`outs` with verdict `b`, the solver circuit computes exactly one witness, on that witness the layered circuit returns `outs` whatever random
numbers are drawn, and it accepts exactly when `b`: if the constraints hold, for all random numbers; if not, some random numbers make it reject. -/
theorem C24_exact_partial (hE : E.HintLen) (hB : E.Builtin) (hf : E.HintFun) {P : Params F} (hP : P.Ok) {o : Options} {rc : RootCircuit (source E)}
    (hk : rc.vertices.Nodup) (hr : SrcNoRandom rc) {t : Trace E} (hc : compileTrace P o rc = some t) (ht : t.Ok P o) {V : Layered.LEnv F F}
    (hV : EnvOk E rc.numPublicInputs V) {ins outs : List F} {b : Bool} (h : Eval rc ins outs b) :
    ∃ w, (∀ w', (∃ be, Eval t.solver ins w' be) ↔ w' = w) ∧
      (∀ tape, ∃ b', t.lc.eval V w tape = some (outs, b') ∧ (b = true → b' = true)) ∧
      (∃ tape, t.lc.eval V w tape = some (outs, b)) ∧
      (Accepts V t.lc w ↔ b = true) := by
  have p := parts hP hE hB hk hc ht hV
  obtain ⟨n1, n2, n3⟩ := p.noRandom hr
  have hlen : ins.length = t.srcIm.curSize := by
    obtain ⟨r, _, _, q1, q2, _⟩ := h
    rw [q2, p.front.map.cur, inputSize_of q1]
  obtain ⟨y, _, hy⟩ := InputMapping.mapInputs_placed p.front.map.range p.front.map.inj (0 : F) hlen
  have hn := p.front.fwd ins y hy outs b h
  obtain ⟨full, w, be, g1, g2, g3, im, hB', hw⟩ := p.run ins y hy outs b hn
  have all : ∀ tape, ∃ b', t.lc.eval V w tape = some (outs, b') ∧ (b = true → b' = true) := by
    intro tape
    obtain ⟨o1, b1, e⟩ := hB'.total full w hw tape
    obtain ⟨b2, e2, e3⟩ := hB'.bwd n2 full w hw tape o1 b1 e
    have e4 := p.inv n1 y (by rw [hy.next, p.front.map.next]) full be o1 b2 g1 e2
    obtain ⟨rfl, rfl⟩ := eval_det (fun c circ hg i hi => hn_primFun hf (n1 c circ hg i hi)) hn e4
    exact ⟨b1, e, e3⟩
  obtain ⟨tape, ht'⟩ := hB'.fwd full w hw outs b g2
  refine ⟨w, fun w' => ⟨?_, ?_⟩, all, ⟨tape, ht'⟩, ?_, ?_⟩
  · rintro ⟨be', he'⟩
    exact (eval_det (fun c circ hg i hi => hn_primFun hf (n3 c circ hg i hi)) he' g3).1
  · rintro rfl; exact ⟨be, g3⟩
  · intro ha
    obtain ⟨o1, e⟩ := ha tape
    rw [ht'] at e
    cases e; rfl
  · intro hb tape
    obtain ⟨b', e1, e2⟩ := all tape
    rw [e2 hb] at e1
    exact ⟨outs, e1⟩

/-- Soundness against a prover who chooses the witness: if the layered circuit accepts a witness for all random numbers, there is an
assignment on which the source circuit accepts with the same outputs, where hints and unconstrained operations may answer anything, and
where instructions whose implied assertion fails (division by zero, a non-boolean operand, too few bits) may have any results `χ`: since
the source circuit accepts with the same outputs for all of them, only instructions without influence on the outputs and constraints fail. -/
theorem C24_sound_partial (hE : E.HintLen) (hB : E.Builtin) {P : Params F} (hP : P.Ok) {o : Options} {rc : RootCircuit (source E)} (hk : rc.vertices.Nodup)
    {t : Trace E} (hc : compileTrace P o rc = some t) (ht : t.Ok P o) (hK : KeepsAsserts E.canon P.srt t.src ∨ ∀ x : F, x = 0 ∨ x = 1) {V : Layered.LEnv F F}
    (hV : EnvOk E rc.numPublicInputs V) {w : List F} (ha : Accepts V t.lc w) :
    ∃ ins outs, (∃ tape, t.lc.eval V w tape = some (outs, true)) ∧ ∀ χ, Eval (fillRc χ (semAdv E.anyHint) rc) ins outs true := by
  have p := parts hP hE hB hk hc ht hV
  obtain ⟨im, hB'⟩ := p.back
  obtain ⟨o0, h0⟩ := ha fun _ => 0
  have hwl := eval_length h0
  rw [hB'.size] at hwl
  obtain ⟨full, hfull⟩ := InputMapping.exists_placed im hB'.range (0 : F) (Option.some.inj hwl).symm
  have hfl : full.length = inputSize t.hl := by rw [hfull.cur, hB'.cur]
  obtain ⟨root, hg, _⟩ := p.hlWF.root
  obtain ⟨outs, b, he⟩ := wf_eval_total (hintLess_total E) (hintLess_lawful E) t.hl p.hlWF root hg full (by rw [hfl, inputSize_of hg])
  obtain ⟨tape, ht'⟩ := hB'.fwd full w hfull outs b he
  obtain ⟨o1, e1⟩ := ha tape
  rw [ht'] at e1
  cases e1
  obtain ⟨y, hy, hadv⟩ := p.adv full hfl
  obtain ⟨ins, hins⟩ := InputMapping.exists_placed t.srcIm p.front.map.range (0 : F) (ys := y) (by rw [hy, p.front.map.next])
  exact ⟨ins, outs, ⟨tape, ht'⟩, fun χ => p.front.bwd hK χ ins y hins outs (hadv outs true he)⟩

/-- Soundness for a solved witness: if the solver circuit computes `w` from the assignment `ins` and the layered circuit accepts `w` for all
random numbers, the source circuit accepts on `ins` itself (in the sense of `C24_sound_partial`). -/
theorem C24_solved_partial (hE : E.HintLen) (hB : E.Builtin) {P : Params F} (hP : P.Ok) {o : Options} {rc : RootCircuit (source E)} (hk : rc.vertices.Nodup)
    {t : Trace E} (hc : compileTrace P o rc = some t) (ht : t.Ok P o) (hK : KeepsAsserts E.canon P.srt t.src ∨ ∀ x : F, x = 0 ∨ x = 1) {V : Layered.LEnv F F}
    (hV : EnvOk E rc.numPublicInputs V) {ins w : List F} {be : Bool} (hs : Eval t.solver ins w be) (ha : Accepts V t.lc w) :
    ∃ outs, (∃ tape, t.lc.eval V w tape = some (outs, true)) ∧ ∀ χ, Eval (fillRc χ (semAdv E.anyHint) rc) ins outs true := by
  have p := parts hP hE hB hk hc ht hV
  obtain ⟨y, full, im, hy, hB', hfull, hadv⟩ := p.sback ins w be hs
  obtain ⟨root, hg, _⟩ := p.hlWF.root
  obtain ⟨outs, b, he⟩ := wf_eval_total (hintLess_total E) (hintLess_lawful E) t.hl p.hlWF root hg full (by rw [hfull.cur, hB'.cur, inputSize_of hg])
  obtain ⟨tape, ht'⟩ := hB'.fwd full w hfull outs b he
  obtain ⟨o1, e1⟩ := ha tape
  rw [ht'] at e1
  cases e1
  exact ⟨outs, ⟨tape, ht'⟩, fun χ => p.front.bwd hK χ ins y hy outs (hadv outs true he)⟩

/-! ### Arithmetic circuits -/

/-- The instruction has exactly one result on all operands: no hints, no unconstrained operations, no implied assertions, no random value. -/
def ArithInsn : Source.Insn F → Prop
  | .linComb _ => True
  | .mul _ => True
  | .isZero _ => True
  | .constantLike c => c ≠ .random
  | .customGate _ _ => True
  | .call _ _ _ => True
  | _ => False

/-- All instructions are arithmetic. -/
def Arith (rc : RootCircuit (source E)) : Prop := AllInsn (L := source E) ArithInsn rc

theorem Arith.noRandom {rc : RootCircuit (source E)} (h : Arith rc) : SrcNoRandom rc := by
  intro c circ hg i hi
  have := h c circ hg i hi
  cases i with
  | constantLike c => cases c <;> simp_all [ArithInsn, SrcIns]
  | _ => first | trivial | exact this.elim

theorem arith_fill {rc : RootCircuit (source E)} (h : Arith rc) {χ : List F → Nat → F} {x o : List F} {b : Bool} (he : Eval (fillRc χ (semAdv E.anyHint) rc) x o b) : Eval rc x o b := by
  refine eval_recast_back (L := source E) ?_ he
  rintro c circ hg i hi hcl val outs ⟨args, h1, h2⟩
  refine ⟨args, h1, ?_⟩
  have hi' := h c circ hg i hi
  have hl := mapOpt_length h1
  cases i with
  | linComb lc =>
    rcases h2 with h2 | h2
    · exact h2
    · exact (h2.1 ⟨_, rfl⟩).elim
  | mul xs =>
    rcases h2 with h2 | h2
    · exact h2
    · exact (h2.1 ⟨_, rfl⟩).elim
  | isZero v =>
    obtain ⟨a, rfl⟩ : ∃ a, args = [a] := List.length_eq_one_iff.1 (by simpa [Source.Insn.inputs] using hl)
    rcases h2 with h2 | h2
    · exact h2
    · exact (h2.1 ⟨_, rfl⟩).elim
  | constantLike k =>
    rcases h2 with h2 | h2
    · exact h2
    · cases k with
      | random => exact (hi' rfl).elim
      | const z => exact (h2.1 ⟨_, _, rfl, rfl⟩).elim
      | pub z => exact (h2.1 ⟨_, _, rfl, rfl⟩).elim
  | customGate g xs =>
    rcases h2 with h2 | h2
    · exact h2
    · exact (h2.1 ⟨_, rfl⟩).elim
  | call c xs n => exact absurd hcl (by simp [source, Source.Insn.asCall])
  | _ => exact hi'.elim

/-- Arithmetic circuits, solved witness: the layered circuit accepts the witness the solver circuit computes from the assignment exactly when
the source circuit accepts the assignment. -/
theorem C24_arith_partial (hE : E.HintLen) (hB : E.Builtin) (hf : E.HintFun) {P : Params F} (hP : P.Ok) {o : Options} {rc : RootCircuit (source E)}
    (hk : rc.vertices.Nodup) (hr : Arith rc) {t : Trace E} (hc : compileTrace P o rc = some t) (ht : t.Ok P o)
    (hK : KeepsAsserts E.canon P.srt t.src ∨ ∀ x : F, x = 0 ∨ x = 1) {V : Layered.LEnv F F} (hV : EnvOk E rc.numPublicInputs V)
    {ins w : List F} {be : Bool} (hs : Eval t.solver ins w be) : Accepts V t.lc w ↔ ∃ outs, Eval rc ins outs true := by
  constructor
  · intro ha
    obtain ⟨outs, _, h⟩ := C24_solved_partial hE hB hP hk hc ht hK hV hs ha
    exact ⟨outs, arith_fill hr (h fun _ _ => 0)⟩
  · rintro ⟨outs, h⟩
    obtain ⟨w', h1, _, _, h4⟩ := C24_exact_partial hE hB hf hP hk hr.noRandom hc ht hV h
    obtain rfl := (h1 w).1 ⟨be, hs⟩
    exact h4.2 rfl

/-- Arithmetic circuits, any witness: if the layered circuit accepts a witness for all random numbers, some assignment satisfies the source
circuit, with the same outputs. -/
theorem C24_arith_sound_partial (hE : E.HintLen) (hB : E.Builtin) {P : Params F} (hP : P.Ok) {o : Options} {rc : RootCircuit (source E)}
    (hk : rc.vertices.Nodup) (hr : Arith rc) {t : Trace E} (hc : compileTrace P o rc = some t) (ht : t.Ok P o)
    (hK : KeepsAsserts E.canon P.srt t.src ∨ ∀ x : F, x = 0 ∨ x = 1) {V : Layered.LEnv F F} (hV : EnvOk E rc.numPublicInputs V)
    {w : List F} (ha : Accepts V t.lc w) : ∃ ins outs, (∃ tape, t.lc.eval V w tape = some (outs, true)) ∧ Eval rc ins outs true := by
  obtain ⟨ins, outs, h1, h2⟩ := C24_sound_partial hE hB hP hk hc ht hK hV ha
  exact ⟨ins, outs, h1, arith_fill hr (h2 fun _ _ => 0)⟩

/-- Circuits without boolean operations, zero tests and bit decompositions keep their assertions: the hypothesis `hK` of the soundness
theorems holds for them. -/
theorem C24_plain {E : Env F} (hE : E.HintLen) {P : Params F} {o : Options} {rc : RootCircuit (source E)} {t : Trace E} (hc : compileTrace P o rc = some t)
    (hp : AllInsn (L := source E) PlainIns rc) : KeepsAsserts E.canon P.srt t.src ∨ ∀ x : F, x = 0 ∨ x = 1 := .inl (trace_plain_keeps hE hc hp)

/-- Whatever the compiler returns passes its validators: the layered circuit (after the last sort, which is not checked again) and the solver. -/
theorem C24_valid {E : Env F} {P : Params F} (hs : ∀ l, (P.srtG l).Perm l) (hsC : ∀ l, (P.srtC l).Perm l) {o : Options} {rc : RootCircuit (source E)} {t : Trace E}
    (hc : compileTrace P o rc = some t) : t.lc0.validate = some true ∧ t.lc.validate = some true ∧ t.solver.validate = true := by
  unfold compileTrace at hc
  by_cases ho : o.valid = true
  swap
  · rw [if_neg ho] at hc; cases hc
  rw [if_pos ho] at hc
  simp only [Option.bind_eq_bind, Option.bind_eq_some_iff] at hc
  obtain ⟨_, _, _, _, _, _, _, _, ⟨lc0, size, order⟩, _, lc, h6, _, _, _, _, _, _, _, _, solver, h11, h12⟩ := hc
  cases h12
  unfold step3 at h6
  split at h6
  swap
  · cases h6
  rename_i h0
  dsimp only at h6
  split at h6
  · cases h6
  · split at h6
    swap
    · cases h6
    rename_i h1
    cases h6
    obtain ⟨rfl, v⟩ := checked_some.1 h11
    exact ⟨h0, Layered.sortAll_valid hs hsC h1, v⟩

/-! ### With the real witness solver -/

theorem toNat_fromNat (i : Hints.Id) : Hints.Id.fromNat i.toNat = some i := by cases i <;> rfl

theorem solveEnv_builtin (cn : Canon F) (custom) (hc) (pub : List F) : (solveEnv cn custom hc pub).Builtin := by
  intro i ins n outs h hl
  refine ⟨?_, hl⟩
  simp only [safeImpl, toNat_fromNat]
  exact h

theorem solveEnv_fun (cn : Canon F) (custom) (hc) (pub : List F) : (solveEnv cn custom hc pub).HintFun := by
  intro id ins n o o' h h'
  have := h.1.symm.trans h'.1
  exact Option.some.inj this

theorem solveEnv_ok (cn : Canon F) (custom) (hc) {pub : List F} {npi : Nat} (h : pub.length = npi) :
    EnvOk (solveEnv cn custom hc pub) npi (Layered.LEnv.withPublic custom pub) where
  const := fun _ => rfl
  custom := fun _ _ => rfl
  pub := fun i hi => by
    show pub[i]? = some ((pub[i]?).getD 0)
    rw [List.getElem?_eq_getElem (by omega)]; rfl

/-- Compile, solve, run: `solve_witness` with the compiled solver circuit on an assignment and public inputs returns a witness with one
row; if the source circuit evaluates on the assignment to `outs` with verdict `b` (hints answered as the solver answers them), the layered
circuit evaluated on that row with these public inputs returns `outs` for all random numbers, and accepts exactly when `b`. -/
theorem C24_run_partial (Pk : Nat) (cn : Canon F) (custom : Nat → List F → F) (hc : Nat → List F → Nat → Option (List F)) (hH : HcLen hc)
    (pub : List F) {P : Params F} (hP : P.Ok) {o : Options} {rc : RootCircuit (source (solveEnv cn custom hc pub))}
    (hk : rc.vertices.Nodup) (hr : SrcNoRandom rc) (hp : pub.length = rc.numPublicInputs) {t : Trace (solveEnv cn custom hc pub)}
    (hct : compileTrace P o rc = some t) (ht : t.Ok P o) (fuel : Nat) (ins : List F) (w : Witness Pk F)
    (h : solveWitness Pk cn hc fuel t.solver ins pub = some w) :
    ∃ row, RowsOf w = some [(row, pub)] ∧ ∀ outs b, Eval rc ins outs b →
      (∀ tape, ∃ b', t.lc.eval (.withPublic custom pub) row tape = some (outs, b') ∧ (b = true → b' = true)) ∧
      (Accepts (.withPublic custom pub) t.lc row ↔ b = true) := by
  have hV := solveEnv_ok cn custom hc hp
  have p := parts hP (solveEnv_len cn custom hc pub) (solveEnv_builtin cn custom hc pub) hk hct ht hV
  simp only [solveWitness, Option.map_eq_some_iff] at h
  obtain ⟨⟨vals, n⟩, hs, rfl⟩ := h
  obtain ⟨full, be, he, rfl, rfl⟩ := solveInner_sound hH p.valid.2 p.zeroes hs
  refine ⟨full, iterScalar_scalar _ [(full, pub)] ⟨rfl, by simp [RowsOk, hp, p.snpi], by simp [flat]⟩, fun outs b hev => ?_⟩
  obtain ⟨w', h1, h2, _, h4⟩ := C24_exact_partial (solveEnv_len cn custom hc pub) (solveEnv_builtin cn custom hc pub) (solveEnv_fun cn custom hc pub) hP hk hr hct ht hV hev
  obtain rfl := (h1 full).1 ⟨be, he⟩
  exact ⟨h2, h4⟩

/-- ... and the solver does return a witness whenever the source circuit evaluates on the assignment, unless the compiled solver circuit
contains a custom gate (which `solve_witness` does not support). -/
theorem C24_solver_partial (Pk : Nat) (cn : Canon F) (custom : Nat → List F → F) (hc : Nat → List F → Nat → Option (List F))
    (pub : List F) {P : Params F} (hP : P.Ok) {o : Options} {rc : RootCircuit (source (solveEnv cn custom hc pub))}
    (hk : rc.vertices.Nodup) (hr : SrcNoRandom rc) (hp : pub.length = rc.numPublicInputs) {t : Trace (solveEnv cn custom hc pub)}
    (hct : compileTrace P o rc = some t) (ht : t.Ok P o)
    (hg : ∀ c circ, t.solver.get c = some circ → ∀ i ∈ (circ.instructions : List (HintNorm.Insn F)), ∀ g xs, i ≠ .customGate g xs)
    (ins outs : List F) (b : Bool) (h : Eval rc ins outs b) : ∃ fuel w, solveWitness Pk cn hc fuel t.solver ins pub = some w := by
  have hV := solveEnv_ok cn custom hc hp
  have p := parts hP (solveEnv_len cn custom hc pub) (solveEnv_builtin cn custom hc pub) hk hct ht hV
  obtain ⟨w, be, h1, _⟩ := C24_complete_partial (solveEnv_len cn custom hc pub) (solveEnv_builtin cn custom hc pub) hP hk hct ht hV h
  have hs : ∀ c circ, t.solver.get c = some circ → ∀ i ∈ circ.instructions, SafeInsn pub.length i := by
    intro c circ hgc i hi
    refine ⟨(p.noRandom hr).2.2 c circ hgc i hi, hg c circ hgc i hi, fun k hik => ?_⟩
    have := insnsOk_valid ((p.valid.2.wf.circ c circ hgc).insns) i hi
    rw [hik] at this
    rw [hp, ← p.snpi]
    simpa [HintNorm.Insn.valid, Coef.valid] using this
  obtain ⟨fuel, hf⟩ := solveInner_complete p.zeroes (by rw [p.snpi]; exact hp) hs h1
  exact ⟨fuel, _, by rw [solveWitness, hf]; rfl⟩

/-! ### A concrete compilation -/

namespace C24Ex

/-- The field and the hint caller of the example. -/
def canon : Canon Ex.F7 := Canon.zmod 7 (by decide)
def hc : Nat → List Ex.F7 → Nat → Option (List Ex.F7) := fun _ _ n => some (List.replicate n 0)
def custom : Nat → List Ex.F7 → Ex.F7 := fun _ xs => xs.sum
abbrev env : Env Ex.F7 := solveEnv canon custom hc [3]

/-- Gates are sorted, the other orders are the given ones, all gates are sampled, the costs are those of a configuration; the default optimisation level. -/
def params : Params Ex.F7 := ⟨20, id, ⟨10, 3, 3, 100⟩, fun _ _ => false, id, Layered.sortGates, id, id, id, List.map Layered.Segment.uniSet, id⟩
def opts : Options := ⟨none, 3, false, true, false⟩

theorem params_ok : params.Ok := by
  refine ⟨fun _ => .refl _, fun _ => .refl _, ?_, ⟨Layered.sortGates_sorts, fun _ => .refl _, fun _ => .refl _, fun _ => .refl _, fun _ => .refl _⟩⟩
  constructor <;> simp [params]

/-- A circuit with a public input, a sub-circuit, a checked division and constraints in both circuits. -/
def src : RootCircuit (source env) := ⟨1, 0, [
  (0, ⟨[.constantLike (.pub 0), .mul [1, 2], .linComb ⟨[(4, 1), (3, -1)], 0⟩, .call 1 [1, 4] 1, .div 6 1 true], [⟨.zero, 5⟩], [4, 6, 7], 2⟩),
  (1, ⟨[.mul [1, 2], .linComb ⟨[(3, 1)], 1⟩], [⟨.nonZero, 4⟩], [4], 2⟩)]⟩

/-- The same without the division: arithmetic. -/
def arith : RootCircuit (source env) := ⟨1, 0, [
  (0, ⟨[.constantLike (.pub 0), .mul [1, 2], .linComb ⟨[(4, 1), (3, -1)], 0⟩, .call 1 [1, 4] 1], [⟨.zero, 5⟩], [4, 6], 2⟩),
  (1, ⟨[.mul [1, 2], .linComb ⟨[(3, 1)], 1⟩], [⟨.nonZero, 4⟩], [4], 2⟩)]⟩

/-- What has to be computed of a compilation to apply the theorems. -/
def good (rc : RootCircuit (source env)) : Bool :=
  match compileTrace params opts rc with
  | none => false
  | some t => t.relaxed.circuits.all (fun c => decide (c.2.constraints.length < 7)) && ((t.relaxed.get 0).map (fun c => c.constraints.isEmpty) == some false) &&
      t.solver.circuits.all (fun c => (c.2.instructions : List (HintNorm.Insn Ex.F7)).all fun i => match i with | .customGate _ _ => false | _ => true)

theorem of_good {rc : RootCircuit (source env)} (h : good rc = true) : ∃ t, compileTrace params opts rc = some t ∧ t.Ok params opts ∧
    ∀ c circ, t.solver.get c = some circ → ∀ i ∈ (circ.instructions : List (HintNorm.Insn Ex.F7)), ∀ g xs, i ≠ .customGate g xs := by
  unfold good at h
  cases hc : compileTrace params opts rc with
  | none => rw [hc] at h; cases h
  | some t =>
    rw [hc] at h
    simp only [Bool.and_eq_true, List.all_eq_true, decide_eq_true_eq, beq_iff_eq] at h
    obtain ⟨⟨h1, h2⟩, h3⟩ := h
    refine ⟨t, rfl, ⟨fun _ _ => ⟨?_, ?_⟩⟩, ?_⟩
    · intro d circ hg k h0 hk
      have h7 : circ.constraints.length < 7 := h1 _ (mem_of_get hg)
      intro e
      have := (ZMod.natCast_eq_zero_iff k 7).1 e
      have := Nat.le_of_dvd h0 this
      omega
    · cases hr : t.relaxed.get 0 with
      | none => rw [hr] at h2; cases h2
      | some circ =>
        rw [hr] at h2
        refine ⟨0, circ, .refl, hr, ?_⟩
        intro e
        simp [e] at h2
    · intro c circ hg i hi g xs e
      have := h3 _ (mem_of_get hg) i hi
      rw [e] at this
      cases this

theorem src_good : good src = true := by decide +kernel
theorem arith_good : good arith = true := by decide +kernel
theorem src_nodup : src.vertices.Nodup := by decide
theorem arith_nodup : arith.vertices.Nodup := by decide

theorem all_of {R : Source.Insn Ex.F7 → Prop} [DecidablePred R] {rc : RootCircuit (source env)}
    (h : rc.circuits.all (fun c => (c.2.instructions : List (Source.Insn Ex.F7)).all fun i => decide (R i)) = true) : AllInsn (L := source env) R rc := by
  intro c circ hg i hi
  simp only [List.all_eq_true, decide_eq_true_eq] at h
  exact h _ (mem_of_get hg) i hi

instance decSrcIns : DecidablePred (SrcIns (F := Ex.F7)) := fun i => by
  cases i with
  | constantLike c => cases c <;> simp only [SrcIns] <;> infer_instance
  | _ => simp only [SrcIns]; infer_instance

instance decPlainIns : DecidablePred (PlainIns (F := Ex.F7)) := fun i => by
  cases i <;> simp only [PlainIns] <;> infer_instance

instance decArithInsn : DecidablePred (ArithInsn (F := Ex.F7)) := fun i => by
  cases i <;> simp only [ArithInsn] <;> infer_instance

/-- The circuit compiles, `solve_witness` finds a witness for every assignment on which it evaluates, and the layered circuit decides it. -/
example : ∃ t, compileTrace params opts src = some t ∧ ∀ ins outs b, Eval src ins outs b →
    ∃ fuel w row, solveWitness 4 canon hc fuel t.solver ins [3] = some w ∧ RowsOf w = some [(row, [3])] ∧
      (Accepts (.withPublic custom [3]) t.lc row ↔ b = true) := by
  obtain ⟨t, h1, h2, h3⟩ := of_good src_good
  refine ⟨t, h1, fun ins outs b h => ?_⟩
  have hr : SrcNoRandom src := all_of (by decide)
  obtain ⟨fuel, w, hw⟩ := C24_solver_partial 4 canon custom hc [3] params_ok src_nodup hr rfl h1 h2 h3 ins outs b h
  obtain ⟨row, r1, r2⟩ := C24_run_partial 4 canon custom hc (fun _ _ n o e => by cases e; simp) [3] params_ok src_nodup hr rfl h1 h2 fuel ins w hw
  exact ⟨fuel, w, row, hw, r1, (r2 outs b h).2⟩

/-- Accepted witnesses of the compiled circuit come from assignments that satisfy the source circuit. -/
example : ∃ t, compileTrace params opts src = some t ∧ ∀ w, Accepts (.withPublic custom [3]) t.lc w →
    ∃ ins outs, ∀ χ, Eval (fillRc χ (semAdv env.anyHint) src) ins outs true := by
  obtain ⟨t, h1, h2, h3⟩ := of_good src_good
  refine ⟨t, h1, fun w h => ?_⟩
  obtain ⟨ins, outs, _, h⟩ := C24_sound_partial (solveEnv_len canon custom hc [3]) (solveEnv_builtin canon custom hc [3]) params_ok src_nodup h1 h2
    (C24_plain (solveEnv_len canon custom hc [3]) h1 (all_of (by decide))) (solveEnv_ok canon custom hc rfl) h
  exact ⟨ins, outs, h⟩

/-- For the arithmetic circuit the two directions meet. -/
example : ∃ t, compileTrace params opts arith = some t ∧
    (∀ ins w be, Eval t.solver ins w be → (Accepts (.withPublic custom [3]) t.lc w ↔ ∃ outs, Eval arith ins outs true)) ∧
    ∀ w, Accepts (.withPublic custom [3]) t.lc w → ∃ ins outs, Eval arith ins outs true := by
  obtain ⟨t, h1, h2, h3⟩ := of_good arith_good
  have hK := C24_plain (solveEnv_len canon custom hc [3]) h1 (all_of (by decide))
  have ha : Arith arith := all_of (by decide)
  refine ⟨t, h1, fun ins w be h => ?_, fun w h => ?_⟩
  · exact C24_arith_partial (solveEnv_len canon custom hc [3]) (solveEnv_builtin canon custom hc [3]) (solveEnv_fun canon custom hc [3]) params_ok arith_nodup ha h1 h2 hK (solveEnv_ok canon custom hc rfl) h
  · obtain ⟨ins, outs, _, h⟩ := C24_arith_sound_partial (solveEnv_len canon custom hc [3]) (solveEnv_builtin canon custom hc [3]) params_ok arith_nodup ha h1 h2 hK (solveEnv_ok canon custom hc rfl) h
    exact ⟨ins, outs, h⟩

/-- The source circuit accepts some assignment and rejects another, so both verdicts occur. -/
theorem arith_verdicts : Eval arith [1, 3] [3, 4] true ∧ Eval arith [1, 4] [4, 5] false := by
  constructor
  · refine ⟨_, [3, 4], true, rfl, rfl, ⟨[0, 1, 3, 3, 3, 0, 4], true, true, ?_, by decide, by decide, rfl⟩, by decide, rfl, rfl⟩
    refine .prim (L := source env) (outs := [3]) rfl ⟨[], rfl, ⟨3, rfl, rfl⟩⟩ ?_
    refine .prim (L := source env) (outs := [3]) rfl ⟨[1, 3], rfl, rfl⟩ ?_
    refine .prim (L := source env) (outs := [0]) rfl ⟨[3, 3], rfl, rfl⟩ ?_
    refine .call (L := source env) (c := 1) (a := [1, 4]) (n := 1) (args := [1, 3]) (svs := [0, 1, 3, 3, 4]) (res := [4]) (b := true) (sb := true) (cb := true) rfl rfl rfl ?_ (by decide) (by decide) (.nil _)
    refine .prim (L := source env) (outs := [3]) rfl ⟨[1, 3], rfl, rfl⟩ ?_
    refine .prim (L := source env) (outs := [4]) rfl ⟨[3], rfl, rfl⟩ (.nil _)
  · refine ⟨_, [4, 5], false, rfl, rfl, ⟨[0, 1, 4, 3, 4, 1, 5], true, false, ?_, by decide, by decide, rfl⟩, by decide, rfl, rfl⟩
    refine .prim (L := source env) (outs := [3]) rfl ⟨[], rfl, ⟨3, rfl, rfl⟩⟩ ?_
    refine .prim (L := source env) (outs := [4]) rfl ⟨[1, 4], rfl, rfl⟩ ?_
    refine .prim (L := source env) (outs := [1]) rfl ⟨[4, 3], rfl, rfl⟩ ?_
    refine .call (L := source env) (c := 1) (a := [1, 4]) (n := 1) (args := [1, 4]) (svs := [0, 1, 4, 4, 5]) (res := [5]) (b := true) (sb := true) (cb := true) rfl rfl rfl ?_ (by decide) (by decide) (.nil _)
    refine .prim (L := source env) (outs := [4]) rfl ⟨[1, 4], rfl, rfl⟩ ?_
    refine .prim (L := source env) (outs := [5]) rfl ⟨[4], rfl, rfl⟩ (.nil _)

end C24Ex

end Verif.Props
