import Verif.IR.Dest

/-!
# Concrete circuits over the field with seven elements, used to show that the hypotheses of the theorems can be met
-/

namespace Verif.Props.Ex

open Verif.IR

instance : Fact (Nat.Prime 7) := ⟨by decide⟩

abbrev F7 := ZMod 7

/-- Public inputs are their index; custom gate = sum of the arguments; hint answers = anything of the right length. -/
def env : Env F7 where
  pub := fun i => i
  custom := fun _ xs => xs.sum
  hint := fun _ _ n outs => outs.length = n
  canon := Canon.zmod 7 (by decide)

theorem env_len : env.HintLen := fun _ _ _ _ h => h

theorem env_total : env.HintTotal := fun _ _ n _ => ⟨List.replicate n 0, by simp [env]⟩

/-- A source circuit with a sub-circuit that has a duplicated output and an unused input and a dead instruction. -/
def srcRc : RootCircuit (source env) :=
  ⟨0, 0, [
    (0, ⟨[.call 1 [1, 2] 3, .mul [3, 4], .isZero 5, .linComb ⟨[(1, 2), (2, 3)], 1⟩], [⟨.bool, 7⟩], [6, 3, 6], 2⟩),
    (1, ⟨[.mul [1, 1], .linComb ⟨[(3, 1)], 5⟩], [⟨.nonZero, 1⟩], [3, 3, 4], 2⟩)]⟩

/-- A hint-normalised circuit. -/
def hnRc : RootCircuit (hintNorm env) :=
  ⟨0, 0, [
    (0, ⟨[.call 1 [1, 2] 3, .mul [3, 4], .hint 1234567 [5] 1], [⟨(), 6⟩], [6, 3, 6], 2⟩),
    (1, ⟨[.mul [1, 1], .linComb ⟨[(3, 1)], 5⟩], [⟨(), 1⟩], [3, 3, 4], 2⟩)]⟩

/-- A hint-less circuit. -/
def hlRc : RootCircuit (hintLess env) :=
  ⟨0, 1, [
    (0, ⟨[.call 1 [1, 2] 3, .mul [3, 4]], [⟨(), 5⟩], [6, 3, 6], 2⟩),
    (1, ⟨[.mul [1, 1], .linComb ⟨[(3, 1)], 5⟩], [⟨(), 1⟩], [3, 3, 4], 2⟩)]⟩

/-- An expression-level circuit. -/
def destRc : RootCircuit (dest env true) :=
  ⟨1, 1, [
    (0, ⟨[.call 1 [1, 2] 3, .internal [⟨2, .linear 3⟩, ⟨3, .quad 4 4⟩], .constantLike (.pub 0)], [⟨(), 5⟩], [6, 3, 6, 7], 2⟩),
    (1, ⟨[.internal [⟨1, .quad 1 1⟩], .internal [⟨5, .const⟩, ⟨1, .linear 3⟩]], [⟨(), 1⟩], [3, 3, 4], 2⟩)]⟩

theorem srcRc_valid : srcRc.validate = true := by decide +kernel
theorem hnRc_valid : hnRc.validate = true := by decide +kernel
theorem hlRc_valid : hlRc.validate = true := by decide +kernel
theorem destRc_valid : destRc.validate = true := by decide +kernel
theorem srcRc_nodup : srcRc.vertices.Nodup := by decide
theorem hnRc_nodup : hnRc.vertices.Nodup := by decide
theorem hlRc_nodup : hlRc.vertices.Nodup := by decide
theorem destRc_nodup : destRc.vertices.Nodup := by decide

end Verif.Props.Ex
