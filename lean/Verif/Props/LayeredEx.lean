import Verif.Layered.Safe
import Verif.Layered.Masks
import Mathlib.Data.ZMod.Basic

/-!
# A concrete layered circuit, used to show that the hypotheses of the layered theorems are met
-/

namespace Verif.Props.LEx

open Verif.Layered

abbrev F7 := ZMod 7

instance : Fact (Nat.Prime 7) := ⟨by decide⟩

/-- `out[0] += in[0] * in[1]`. -/
def seg0 : Segment F7 := ⟨[2], 1, [], [⟨none, [⟨0, 0⟩, ⟨0, 1⟩], 0, .const 1⟩], [], [], []⟩

/-- Two copies of `seg0`, `out[1] += 3 in[0]` in two parts, `out[0] += public 0`, `out[1] += custom 9 [in[3]]`. -/
def seg1 : Segment F7 :=
  ⟨[4], 2, [(0, [⟨[2], 1⟩, ⟨[0], 0⟩])], [⟨none, [⟨0, 3⟩, ⟨0, 1⟩], 0, .const 0⟩],
    [⟨none, [⟨0, 0⟩], 1, .const 2⟩, ⟨none, [⟨0, 0⟩], 1, .const 1⟩], [⟨none, [], 0, .pub 0⟩], [⟨some 9, [⟨0, 3⟩], 1, .const 1⟩]⟩

/-- `out[0] += r * in[0]`, `out[1] += in[1]`. -/
def seg2 : Segment F7 := ⟨[2], 2, [], [], [⟨none, [⟨0, 0⟩], 0, .random⟩, ⟨none, [⟨0, 1⟩], 1, .const 1⟩], [], []⟩

def circ : Circuit F7 := ⟨1, 2, 1, [seg0, seg1, seg2], [1, 2]⟩

/-- Public input 0 is `4`; custom gate = sum of its inputs plus one. -/
def V : LEnv F7 F7 := LEnv.withPublic (fun _ vs => vs.sum + 1) [4]

theorem circ_valid : circ.validate = some true := by decide +kernel

theorem circ_ok : circ.Ok := validate_ok circ_valid

theorem circ_pubs : PubsOk V circ.segments := by
  intro s hs g hg i hi
  simp only [circ, List.mem_cons, List.not_mem_nil, or_false] at hs
  rcases hs with rfl | rfl | rfl
  · simp [Segment.allGates, seg0] at hg; subst hg; cases hi
  · simp [Segment.allGates, seg1] at hg
    rcases hg with rfl | rfl | rfl | rfl | rfl <;> first | (cases hi; rfl) | cases hi
  · simp [Segment.allGates, seg2] at hg
    rcases hg with rfl | rfl <;> cases hi

example : circ.eval V [1, 2, 3, 5] (fun _ => 0) = some ([3], true) := by decide +kernel
example : circ.eval V [1, 2, 3, 5] (fun _ => 1) = some ([3], false) := by decide +kernel

end Verif.Props.LEx
