import Verif.Props.C06
import Verif.Props.C28
import Verif.Compile.Passes
import Verif.Builder.AdvComplete

/-!
# C07: hint normalisation is sound

The specification of a source circuit in the presence of a malicious prover is `sourceAdv E` (Builder/Gadgets.lean): every operation
that is constrained has the result its source semantics assigns to it (`C07_constrained`), and the results of hints and
`unconstrained_*` operations are arbitrary.  `advRc E rc` is the circuit `rc` read in that language.
-/

namespace Verif.Props

open Verif.IR Verif.Builder Verif.Hints

variable {F : Type} [Field F] [DecidableEq F]

/-- The operations whose result is determined by constraints (over a field with `m` elements). -/
def Constrained (m : Nat) : Source.Insn F → Prop
  | .linComb _ | .mul _ | .div _ _ true | .boolBinOp _ _ _ | .isZero _ | .constantLike _ | .customGate _ _ => True
  | .toBinary _ n => 2 ^ n ≤ m
  | _ => False

theorem bitsSum_bool (bits : List Bool) : bitsSum (bits.map (fun b => if b then (1 : F) else 0)) = ((bitsValue bits : Nat) : F) := by
  induction bits with
  | nil => simp [bitsSum, bitsValue]
  | cons b bs ih =>
    simp only [List.map_cons, bitsSum, ih, bitsValue]
    cases b <;> simp <;> ring

theorem bits_of {outs : List F} (h : ∀ b ∈ outs, b = 0 ∨ b = 1) : ∃ bits : List Bool, outs = bits.map (fun b => if b then (1 : F) else 0) := by
  induction outs with
  | nil => exact ⟨[], rfl⟩
  | cons o os ih =>
    obtain ⟨bs, rfl⟩ := ih (fun b hb => h b (by simp [hb]))
    rcases h o (by simp) with rfl | rfl
    · exact ⟨false :: bs, by simp⟩
    · exact ⟨true :: bs, by simp⟩

/-- If `2^n` is at most the field size, the only `n` bits that sum up to `x` are those of its canonical representative. -/
theorem C07_bits (cn : Canon F) (x : F) (n : Nat) (hn : 2 ^ n ≤ cn.modulus) (outs : List F) :
    (outs.length = n ∧ (∀ b ∈ outs, b = 0 ∨ b = 1) ∧ bitsSum outs = x) ↔ toBinary cn x n = some outs := by
  constructor
  · rintro ⟨h1, h2, h3⟩
    obtain ⟨bits, rfl⟩ := bits_of h2
    rw [bitsSum_bool] at h3
    simp only [List.length_map] at h1
    refine (C28_toBinary cn x n _).2 ⟨bits, h1, ?_, rfl⟩
    rw [← h3, cn.toNat_cast]
    have := bitsValue_lt bits
    rw [h1] at this
    omega
  · exact bitsSum_toBinary cn

/-- Constrained operations have their source semantics. -/
theorem C07_constrained (E : Env F) (i : Source.Insn F) (hi : Constrained E.canon.modulus i) (args outs : List F) :
    semAdv E i args outs ↔ i.sem E args outs := by
  cases i with
  | linComb lc => rfl
  | mul xs => rfl
  | boolBinOp x y op => rfl
  | isZero x => rfl
  | constantLike c => rfl
  | customGate g xs => rfl
  | div x y ch =>
    cases ch with
    | false => exact absurd hi (by simp [Constrained])
    | true =>
      rcases args with _ | ⟨a, _ | ⟨b, _ | ⟨c, l⟩⟩⟩ <;> simp [semAdv, Source.Insn.sem]
  | toBinary x n =>
    rcases args with _ | ⟨a, _ | ⟨b, l⟩⟩
    · simp [semAdv, Source.Insn.sem]
    · simp only [semAdv, Source.Insn.sem]
      exact C07_bits E.canon a n hi outs
    · simp [semAdv, Source.Insn.sem]
  | _ => exact absurd hi (by simp [Constrained])

/-- Full statement: whatever the hints answer, if all constraints of the normalised circuit hold, then the outputs are outputs of
the source circuit with all its constraints holding and all constrained operations having their source semantics. -/
def C07_full (E : Env F) (cn : Canon F) (srt : List (Expr F) → List (Expr F)) (rc : RootCircuit (source E)) : Prop :=
  ∀ rc', process cn srt E.anyHint rc = .ok rc' → ∀ ins outs, Eval rc' ins outs true → Eval (advRc E.anyHint rc) ins outs true

/-- Partial: the full statement holds when no recorded assertion is replaced by a mark (`KeepsAsserts`).  Missing: circuits in which
it is; for those the statement is false (`C07_violated`). -/
theorem C07_partial (E : Env F) (cn : Canon F) (srt : List (Expr F) → List (Expr F)) (hsrt : ∀ l, (srt l).Perm l)
    (rc : RootCircuit (source E)) (hk : rc.vertices.Nodup) (hv : rc.validate = true) (hok : KeepsAsserts cn srt rc) : C07_full E cn srt rc := by
  intro rc' hp ins outs he
  have hw := (validate_iff rc hk).1 hv
  rcases process_spec (cn := cn) hsrt E.anyHint rc hk hw with h | ⟨rc2, h1, h2⟩
  · rw [h] at hp; cases hp
  · rw [h1] at hp; cases hp
    exact h2.sound hsrt (HintExport.anyHint_len E) hw (.inl hok) he

/-- Over the field with two elements the full statement holds for every circuit. -/
theorem C07_gf2 (E : Env F) (h2 : ∀ x : F, x = 0 ∨ x = 1) (cn : Canon F) (srt : List (Expr F) → List (Expr F)) (hsrt : ∀ l, (srt l).Perm l)
    (rc : RootCircuit (source E)) (hk : rc.vertices.Nodup) (hv : rc.validate = true) : C07_full E cn srt rc := by
  intro rc' hp ins outs he
  have hw := (validate_iff rc hk).1 hv
  rcases process_spec (cn := cn) hsrt E.anyHint rc hk hw with h | ⟨rc2, h1, h2'⟩
  · rw [h] at hp; cases hp
  · rw [h1] at hp; cases hp
    exact h2'.sound hsrt (HintExport.anyHint_len E) hw (.inr (fun x => by rcases h2 x with rfl | rfl <;> simp)) he

/-! ## The hypotheses are met -/

/-- **The specification is exact**: for circuits without the unconstrained operations that are computed at compile time for constant operands (`Exact`), every adversarial
behaviour of the source circuit is accepted by the normalised circuit for some hint answers.  So C07 cannot be strengthened: the normalised circuit accepts exactly the
behaviours of `sourceAdv`. -/
theorem C07_exact (E : Env F) (srt : List (Expr F) → List (Expr F)) (hsrt : ∀ l, (srt l).Perm l) (rc : RootCircuit (source E)) (hk : rc.vertices.Nodup)
    (hv : rc.validate = true) (hex : ExactRc rc) (rc' : RootCircuit (hintNorm E.anyHint)) (hp : process E.canon srt E.anyHint rc = .ok rc') (ins outs : List F) :
    (Eval (advRc E.anyHint rc) ins outs true → Eval rc' ins outs true) ∧
    (KeepsAsserts E.canon srt rc → Eval rc' ins outs true → Eval (advRc E.anyHint rc) ins outs true) := by
  have hw := (validate_iff rc hk).1 hv
  refine ⟨fun he => ?_, fun hok he => C07_partial E E.canon srt hsrt rc hk hv hok rc' hp ins outs he⟩
  rcases process_spec (cn := E.canon) hsrt E.anyHint rc hk hw with h | ⟨rc2, h1, h2⟩
  · rw [h] at hp; cases hp
  · rw [h1] at hp; cases hp
    exact h2.adv_complete (E := E.anyHint) hsrt (HintExport.anyHint_len E) (fun _ _ _ _ _ h => h) (fun _ _ _ _ h => h) hw hex he

/-- The final builder state of a circuit keeps its assertions. -/
def keeps {E : Env Ex.F7} (c : Circuit (source E)) : Bool :=
  match buildCircuit Ex.env.canon id c.numInputs c.instructions (consOf c) with
  | .ok ps => !ps.st.overwrote
  | _ => true

theorem keepsAsserts_of {rc : RootCircuit (source Ex.env)} (h : rc.circuits.all (fun c => keeps c.2) = true) : KeepsAsserts Ex.env.canon id rc := by
  intro c circ hg ps hb
  have := List.all_eq_true.1 h _ (mem_of_get hg)
  simp only [keeps, hb] at this
  simpa using this

example : KeepsAsserts Ex.env.canon id gadgetRc := keepsAsserts_of (by decide +kernel)

/-- The theorem applies to the circuit with all gadgets. -/
example : C07_full Ex.env Ex.env.canon id gadgetRc :=
  C07_partial Ex.env Ex.env.canon id (fun _ => List.Perm.refl _) gadgetRc gadgetRc_nodup gadgetRc_valid (keepsAsserts_of (by decide +kernel))

/-! ## Where it fails -/

/-- `Or(x, 0)`: in the source circuit the operation fails unless `x` is a bit. -/
def orRc : RootCircuit (source Ex.env) := ⟨0, 0, [(0, ⟨[.constantLike (.const 0), .boolBinOp 1 2 .or], [], [3], 1⟩)]⟩

/-- The normalised circuit, as computed: its only constraint is on variable 10, the constant 0 (it is the assertion that the
constant operand is a bit); the assertion that `x` is a bit is gone. -/
def orOut : RootCircuit (hintNorm Ex.env.anyHint) :=
  ⟨0, 0, [(0, ⟨[.linComb ⟨[], 0⟩, .linComb ⟨[], 1⟩, .linComb ⟨[(1, 1)], 6⟩, .mul [1, 4], .linComb ⟨[], 1⟩, .linComb ⟨[], 6⟩, .linComb ⟨[], 0⟩,
    .linComb ⟨[(1, 1)], 0⟩, .linComb ⟨[], 0⟩, .linComb ⟨[(1, 1)], 0⟩, .linComb ⟨[], 1⟩, .linComb ⟨[(1, 1)], 6⟩, .linComb ⟨[(5, 1)], 0⟩], [⟨(), 10⟩], [11], 1⟩)]⟩

instance {L : Lang F} [DecidableEq L.Insn] [DecidableEq L.Con] : DecidableEq (RootCircuit L) := fun a b =>
  if h : a.numPublicInputs = b.numPublicInputs ∧ a.expectedNumOutputZeroes = b.expectedNumOutputZeroes ∧ a.circuits = b.circuits then
    isTrue (by cases a; cases b; simp_all)
  else isFalse (by rintro rfl; exact h ⟨rfl, rfl, rfl⟩)

theorem orOut_eq : process Ex.env.canon id Ex.env.anyHint orRc = .ok orOut := by decide +kernel

/-- The value 3 satisfies the normalised circuit. -/
theorem orOut_eval : Eval orOut [3] [3] true := by
  refine ⟨_, [3], true, rfl, rfl, ⟨[0, 3, 0, 1, 2, 6, 1, 6, 0, 3, 0, 3, 1, 2, 6], true, true, ?_, ?_, rfl, rfl⟩, by decide, rfl, rfl⟩
  · refine .prim rfl (outs := [0]) ⟨[], rfl, by simp only [HintNorm.Insn.sem]; decide⟩ ?_
    refine .prim rfl (outs := [1]) ⟨[], rfl, by simp only [HintNorm.Insn.sem]; decide⟩ ?_
    refine .prim rfl (outs := [2]) ⟨[3], rfl, by simp only [HintNorm.Insn.sem]; decide⟩ ?_
    refine .prim rfl (outs := [6]) ⟨[3, 2], rfl, by simp only [HintNorm.Insn.sem]; decide⟩ ?_
    refine .prim rfl (outs := [1]) ⟨[], rfl, by simp only [HintNorm.Insn.sem]; decide⟩ ?_
    refine .prim rfl (outs := [6]) ⟨[], rfl, by simp only [HintNorm.Insn.sem]; decide⟩ ?_
    refine .prim rfl (outs := [0]) ⟨[], rfl, by simp only [HintNorm.Insn.sem]; decide⟩ ?_
    refine .prim rfl (outs := [3]) ⟨[3], rfl, by simp only [HintNorm.Insn.sem]; decide⟩ ?_
    refine .prim rfl (outs := [0]) ⟨[], rfl, by simp only [HintNorm.Insn.sem]; decide⟩ ?_
    refine .prim rfl (outs := [3]) ⟨[3], rfl, by simp only [HintNorm.Insn.sem]; decide⟩ ?_
    refine .prim rfl (outs := [1]) ⟨[], rfl, by simp only [HintNorm.Insn.sem]; decide⟩ ?_
    refine .prim rfl (outs := [2]) ⟨[3], rfl, by simp only [HintNorm.Insn.sem]; decide⟩ ?_
    refine .prim rfl (outs := [6]) ⟨[6], rfl, by simp only [HintNorm.Insn.sem]; decide⟩ ?_
    exact .nil _
  · decide

/-- The full statement is false: the source circuit has no run at all on `x = 3`, since `3` is not a bit. -/
theorem C07_violated : orRc.validate = true ∧ orRc.vertices.Nodup ∧ ¬ C07_full Ex.env Ex.env.canon id orRc := by
  refine ⟨by decide +kernel, by decide, fun h => ?_⟩
  obtain ⟨root, all, b0, h1, _, ⟨vs, sb, cb, hr, _⟩, _⟩ := h orOut orOut_eq [3] [3] orOut_eval
  cases h1
  obtain ⟨o1, ⟨a1, hm1, hp1⟩, hr⟩ := (run_prim_iff (L := sourceAdv Ex.env.anyHint) rfl).1 hr
  obtain ⟨y, hy, rfl⟩ : ∃ y, Coef.Sem Ex.env.anyHint (.const 0) y ∧ o1 = [y] := hp1
  obtain ⟨o2, ⟨a2, hm2, hp2⟩, hr⟩ := (run_prim_iff (L := sourceAdv Ex.env.anyHint) rfl).1 hr
  have : a2 = [3, y] := by
    have : mapOpt (fun v => ([0, 3, y] : List Ex.F7)[v]?) [1, 2] = some a2 := hm2
    simpa [mapOpt, eq_comm] using this
  subst this
  have : ((3 : Ex.F7) = 0 ∨ (3 : Ex.F7) = 1) := hp2.1
  revert this
  decide

end Verif.Props
