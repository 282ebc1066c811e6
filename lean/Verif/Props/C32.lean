import Verif.Frontend.MemoExec

/-!
# C32: argument flattening for memoised calls is lossless

`Nest α n` is `Vec<..Vec<α>..>` (`n` times).  `join` / `rebuild` model `join_vec_variables` / `rebuild_vec_variables`, `memoKey` is the byte string fed to the hash.
-/
namespace Verif.Props
open Verif.Frontend

/-- **Round trip**: for every nesting depth and all lengths, rebuilding what was joined gives the value back and consumes exactly what was written
(whatever follows in the two buffers). -/
theorem C32_roundtrip (n : Nat) (x : Nest Nat n) (vars structure_ : List Nat) (h : join n x = some (vars, structure_)) (moreVars moreStructure : List Nat) :
    rebuild n (vars ++ moreVars) (structure_ ++ moreStructure) = some (x, moreVars, moreStructure) :=
  rebuild_join n x (vars, structure_) h moreVars moreStructure

/-- Joining panics only on the invalid variable 0. -/
theorem C32_join_total (n : Nat) (x : Nest Nat n) : (join n x).isSome ↔ Nest.All (· ≠ 0) n x := join_isSome n x

/-- **All arguments of a call**, variables and primitives mixed: the function body rebuilt from its inputs gets the arguments it was called with. -/
theorem C32_arguments (args : List (AVal Nat)) (vars structure_ : List Nat) (h : joinArgs args = some (vars, structure_)) : rebuildArgs args vars structure_ = some args := by
  have := rebuildArgs_join args (vars, structure_) h [] []
  simpa using this

/-- … and when rebuilt from any other variables (the fresh inputs of the sub-circuit, or the variables returned by the call) the structure and the primitives
are the same. -/
theorem C32_fresh (args : List (AVal Nat)) (vars structure_ : List Nat) (h : joinArgs args = some (vars, structure_)) (fresh : List Nat) (hl : fresh.length = vars.length) :
    ∃ bs, rebuildArgs args fresh structure_ = some bs ∧ bs.map AVal.skel = args.map AVal.skel := by
  have := rebuildArgs_fresh args (vars, structure_) h fresh [] [] hl
  simpa using this

/-- The value returned by a memoised call: the recorded output structure applied to the call's output variables has the structure of the body's result. -/
theorem C32_result (d : Nat) (result : Nest Nat d) (outs structure_ : List Nat) (h : join d result = some (outs, structure_)) (returned : List Nat)
    (hl : returned.length = outs.length) :
    ∃ y, rebuild d returned structure_ = some (y, [], []) ∧ Nest.map (fun _ => ()) d y = Nest.map (fun _ => ()) d result := by
  have := rebuild_fresh d result (outs, structure_) h returned [] [] hl
  simpa using this

/-- **The hash input is injective** on structure and primitives: for the same parameter types, argument lists feed the same byte string to the hash exactly when all
nested vectors have the same lengths and all primitives are equal. -/
theorem C32_hash_injective {V : Type} (as bs : List (AVal V)) (ht : as.map AVal.param = bs.map AVal.param) :
    memoKey as = memoKey bs ↔ as.map AVal.skel = bs.map AVal.skel := by
  refine ⟨memoKey_inj ht, fun h => ?_⟩
  rw [← memoKey_skel as, ← memoKey_skel bs, h]

/-! ### Concrete cases -/

/-- `Vec<Vec<Variable>>` with lengths 2 and 0, a `Vec<i64>` and a `Variable`. -/
def c32args : List (AVal Nat) := [.var 2 ([[3, 4], []] : List (List Nat)), .prim 1 ([-12, 7] : List Int), .var 0 (5 : Nat)]

example : joinArgs c32args = some ([3, 4, 5], [2, 2, 0]) := by decide +kernel
example : rebuildArgs c32args [3, 4, 5] [2, 2, 0] = some c32args := C32_arguments c32args _ _ (by decide +kernel)
/-- The text hashed for it. -/
example : c32args.flatMap AVal.enc = "2;2;0;2;3,-121,7".toList := by decide +kernel
/-- `[[a, b], []]` and `[[], [a, b]]` are told apart. -/
example : memoKey [.var 2 ([[3, 4], []] : List (List Nat))] ≠ memoKey [.var 2 ([[], [3, 4]] : List (List Nat))] := by decide +kernel

end Verif.Props
