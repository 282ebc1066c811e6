import Verif.Zkcuda.Context

/-!
# C37: kernel registration uses the kernel that was called

A history is a list of calls: the memory address of the kernel passed, and the kernel itself.
-/
namespace Verif.Props
open Verif.Zkcuda Verif.Utils

variable {K : Type} [DecidableEq K]

/-- **Partial**: if kernels at one address are always the same kernel during the history, then the kernel recorded for each call is the kernel passed to it.
Missing: the cache is keyed by address, so when an address is reused for another kernel the first one is recorded (`C37_violated`). -/
theorem C37_partial (hist : List (Nat × K)) (haddr : ∀ p k k', (p, k) ∈ hist → (p, k') ∈ hist → k = k') (i : Nat) (p : Nat) (k : K) (hi : hist[i]? = some (p, k)) :
    ((Reg.new : Reg K).run hist).recorded i = some k :=
  (Reg.run_ok (r := Reg.new) (hist := []) hist Reg.new_ok (by simpa using haddr)).calls i p k hi

/-- **C37 is violated** whenever an address is reused: whatever was called in between and before (with other addresses), a call of another kernel at the same address is
recorded as the kernel first seen there. -/
theorem C37_violated (r : Reg K) (p : Nat) (k k' : K) (hne : k ≠ k') (hr : r.prims.Ok) (hnew : r.cache.lookup p = none) :
    ((r.call p k).call p k').recorded (r.calls.length + 1) = some k ∧ ((r.call p k).call p k').recorded (r.calls.length + 1) ≠ some k' := by
  have h : ((r.call p k).call p k').recorded (r.calls.length + 1) = some k := by
    obtain ⟨_, h2, _⟩ := Pool.add_spec hr k
    simp [Reg.call, hnew, List.lookup, Reg.recorded, h2]
  exact ⟨h, by rw [h]; simpa using hne⟩

/-- A kernel dropped and another one allocated at the same address: both calls are recorded as kernel 5. -/
example : ((Reg.new : Reg Nat).run [(64, 5), (64, 9)]).recorded 1 = some 5 := by decide

example : ((Reg.new : Reg Nat).run [(64, 5), (128, 9), (64, 5), (192, 9)]).recorded 3 = some 9 :=
  C37_partial _ (by intro p k k' h h'; simp at h h'; omega) 3 192 9 rfl

end Verif.Props
