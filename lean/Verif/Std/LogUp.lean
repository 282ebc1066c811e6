import Mathlib.Algebra.Field.Basic
import Mathlib.Tactic.Ring
import Verif.Hints.Builtin
/-!
Model of `/repo/circuit-std-rs/src/logup.rs` at the level of field values.

The gadgets call the `RootAPI` operations `add`, `sub`, `mul`, `constant`, `get_random_value`,
`new_hint` and `assert_is_equal`.  What these calls mean as constraints on values is the subject of
property C29; here each variable is replaced by the value it carries, `get_random_value` by a drawn
value passed as an argument, `new_hint` by an arbitrary list of the requested length (the prover's
choice), and `assert_is_equal` by a Boolean.  `none` models a Rust panic.
-/
namespace Verif.Std.LogUp

/-- circuit-std-rs/src/logup.rs:33-37. -/
@[ext] structure Rational (R : Type) where
  num : R
  den : R
deriving DecidableEq

section
variable {R : Type} [CommRing R]

/-- logup.rs:39-51. -/
def addRational (v1 v2 : Rational R) : Rational R := ⟨v1.num * v2.den + v1.den * v2.num, v1.den * v2.den⟩

/-- logup.rs:53-57: the asserted equality. -/
def eqRational [DecidableEq R] (v1 v2 : Rational R) : Bool := decide (v1.num * v2.den = v1.den * v2.num)

/-- One iteration of the loop at logup.rs:78-89.  The loop works in place on the first
`n_values_to_sum` entries; here the list holds exactly those entries (entry `i + half` is read before
any entry at or above `half` is written). -/
def halve (l : List (Rational R)) : List (Rational R) :=
  let h := l.length / 2
  List.zipWith addRational (l.take h) ((l.drop h).take h) ++ l.drop (2 * h)

/-- The `while` loop of logup.rs:78-90 with a bound on the number of iterations. -/
def sumLoop : Nat → List (Rational R) → Rational R
  | 0, l => l.headD ⟨0, 1⟩
  | k + 1, l => if l.length ≤ 1 then l.headD ⟨0, 1⟩ else sumLoop k (halve l)

/-- logup.rs:59-93. -/
def sumRationalVec (l : List (Rational R)) : Rational R := sumLoop l.length l

/-- logup.rs:138-153. -/
def logupPolyVal (vals counts : List R) (x : R) : Rational R :=
  sumRationalVec ((vals.zip counts).map fun p => ⟨p.2, x - p.1⟩)

/-- The inner product of logup.rs:127-134. -/
def combineRow (row rand : List R) : R := (row.zip rand).foldl (fun acc p => acc + p.1 * p.2) 0

/-- logup.rs:114-136. -/
def combineColumns (rows : List (List R)) (rand : List R) : Option (List R) :=
  match rows with
  | [] => some []
  | r :: _ => if rand.length = r.length then some (rows.map fun row => combineRow row rand) else none

/-- logup.rs:95-100. -/
def concatD1 (a b : List (List R)) : List (List R) := (a.zip b).map fun p => p.1 ++ p.2

/-- Number of values drawn by `get_column_randomness` (logup.rs:102-112). -/
def drawsOf (columns : Nat) : Nat := columns - 1

/-- logup.rs:102-112: a leading one and the drawn values. -/
def columnRandomness (draws : List R) : List R := 1 :: draws

/-- The check common to logup.rs:156-184, 297-330 and 332-359: `alpha` and `draws` are the challenges,
`counts` the multiplicities (inputs of the circuit, or the answer of a hint). -/
def tableCheck [DecidableEq R] (table query : List (List R)) (counts : List R) (alpha : R) (draws : List R) : Option Bool :=
  match combineColumns table (columnRandomness draws), combineColumns query (columnRandomness draws) with
  | some t, some q => some (eqRational (logupPolyVal t counts alpha) (logupPolyVal q (q.map fun _ => 1) alpha))
  | _, _ => none

/-- The inputs of `LogUpCircuit` (logup.rs:20-29). -/
structure LogUpCircuit (R : Type) where
  tableKeys : List (List R)
  tableValues : List (List R)
  queryKeys : List (List R)
  queryResults : List (List R)
  queryCount : List R

/-- Number of columns, logup.rs:157-158, 161. -/
def LogUpCircuit.columns (c : LogUpCircuit R) : Option Nat :=
  match c.tableKeys, c.tableValues with
  | k :: _, v :: _ => some (k.length + v.length)
  | _, _ => none

/-- logup.rs:155-185 (`define`).  `draws` are the values drawn for the columns. -/
def LogUpCircuit.define [DecidableEq R] (c : LogUpCircuit R) (alpha : R) (draws : List R) : Option Bool :=
  match c.columns with
  | none => none
  | some n => if draws.length = drawsOf n then
      tableCheck (concatD1 c.tableKeys c.tableValues) (concatD1 c.queryKeys c.queryResults) c.queryCount alpha draws else none

/-- logup.rs:245-249. -/
structure SingleKeyTable (R : Type) where
  table : List (List R)
  queryKeys : List R
  queryResults : List (List R)

/-- logup.rs:252-258. -/
def SingleKeyTable.new : SingleKeyTable R := ⟨[], [], []⟩

/-- logup.rs:260-272. -/
def SingleKeyTable.newTable (t : SingleKeyTable R) (key : List R) (value : List (List R)) : Option (SingleKeyTable R) :=
  if key.length ≠ value.length then none
  else if t.table ≠ [] then none
  else some { t with table := (key.zip value).map fun p => p.1 :: p.2 }

/-- logup.rs:274-278. -/
def SingleKeyTable.addTableRow (t : SingleKeyTable R) (key : R) (value : List R) : SingleKeyTable R :=
  { t with table := t.table ++ [key :: value] }

/-- logup.rs:280-289 (`add_query` and `query`). -/
def SingleKeyTable.query (t : SingleKeyTable R) (key : R) (value : List R) : SingleKeyTable R :=
  { t with queryKeys := t.queryKeys ++ [key], queryResults := t.queryResults ++ [key :: value] }

/-- logup.rs:291-295. -/
def SingleKeyTable.batchQuery (t : SingleKeyTable R) : List R → List (List R) → Option (SingleKeyTable R)
  | [], _ => some t
  | k :: ks, v :: vs => (t.query k v).batchQuery ks vs
  | _ :: _, [] => none

/-- logup.rs:297-330 (`final_check`) and 332-359 (`final_check_with_query_count`): `counts` is the answer
of the hint in the first case and the argument in the second.  `zip` at logup.rs:146 ignores surplus counts. -/
def SingleKeyTable.finalCheck [DecidableEq R] (t : SingleKeyTable R) (counts : List R) (alpha : R) (draws : List R) : Option Bool :=
  match t.table with
  | [] => none
  | row :: _ => if t.queryKeys = [] then none
    else if draws.length = drawsOf row.length then tableCheck t.table t.queryResults counts alpha draws else none

/-- logup.rs:362-366. -/
structure RangeTable (R : Type) where
  tableKeys : List R
  queryKeys : List R
  bits : Nat

/-- logup.rs:369-375 followed by 377-386: the keys `0 .. 2^bits - 1`. -/
def RangeTable.initial (bits : Nat) : RangeTable R := ⟨(List.range (2 ^ bits)).map (fun i : Nat => (i : R)), [], bits⟩

/-- logup.rs:388-390, 466-468. -/
def RangeTable.queryRange (t : RangeTable R) (key : R) : RangeTable R := { t with queryKeys := t.queryKeys ++ [key] }

/-- logup.rs:470-486 and 488-505. -/
def RangeTable.finalCheck [DecidableEq R] (t : RangeTable R) (counts : List R) (alpha : R) : Bool :=
  eqRational (logupPolyVal t.tableKeys counts alpha) (logupPolyVal t.queryKeys (t.queryKeys.map fun _ => 1) alpha)

end

section
variable {F : Type} [Field F]

/-- logup.rs:508-518 (`query_count_hint`).  `as_usize` keeps the low 64 bits; an index beyond the outputs panics.
`count as u32` is modelled without its wrap-around at 2^32 queries. -/
def queryCountHint (cn : Canon F) (inputs : List F) (nOut : Nat) : Option (List F) :=
  let ids := inputs.map fun x => cn.toNat x % 2 ^ 64
  if ids.all (· < nOut) then some ((List.range nOut).map fun i => ((ids.count i : Nat) : F)) else none

/-- `to_u256().as_u32()`. -/
def key32 (cn : Canon F) (x : F) : Nat := cn.toNat x % 2 ^ 32

/-- logup.rs:520-543 (`query_count_by_key_hint`).  The `HashMap` from keys to numbers of occurrences is modelled by `count`;
slices out of range panic; `outputs` has one entry per table row (logup.rs:317). -/
def queryCountByKeyHint (cn : Canon F) (inputs : List F) (nOut : Nat) : Option (List F) :=
  match inputs with
  | [] => none
  | n :: rest =>
    let size := cn.toNat n % 2 ^ 64
    if size ≤ rest.length ∧ size ≤ nOut then
      let keys := (rest.drop size).map (key32 cn)
      some (((rest.take size).map fun v => ((keys.count (key32 cn v) : Nat) : F)) ++ List.replicate (nOut - size) 0)
    else none

/-- The arguments passed to the hint at logup.rs:307-317. -/
def SingleKeyTable.hintInputs (t : SingleKeyTable F) : List F :=
  ((t.table.length % 2 ^ 32 : Nat) : F) :: (t.table.map fun r => r.headD 0) ++ t.queryKeys

/-- logup.rs:297-330 with the answer of the registered hint. -/
def SingleKeyTable.finalCheckHonest [DecidableEq F] (cn : Canon F) (t : SingleKeyTable F) (alpha : F) (draws : List F) : Option Bool :=
  match queryCountByKeyHint cn t.hintInputs t.table.length with
  | some counts => t.finalCheck counts alpha draws
  | none => none

/-- logup.rs:470-486 with the answer of the registered hint. -/
def RangeTable.finalCheckHonest [DecidableEq F] (cn : Canon F) (t : RangeTable F) (alpha : F) : Option Bool :=
  match queryCountHint cn t.queryKeys t.tableKeys.length with
  | some counts => some (t.finalCheck counts alpha)
  | none => none

/-- logup.rs:545-563 (`rangeproof_hint`): base `2^m` digits, least significant first.  `as_i64`, `as_u32` are exact for the
arguments passed by `rangeproof` (n ≤ 160, digits below 2^m with m < 32). -/
def rangeproofDigits (m : Nat) : Nat → Nat → List Nat
  | 0, _ => []
  | k + 1, a => a % 2 ^ m :: rangeproofDigits m k (a / 2 ^ m)

/-- logup.rs:545-563. -/
def rangeproofHint (cn : Canon F) (n m : Nat) (a : F) : List F := (rangeproofDigits m (n / m) (cn.toNat a)).map fun d : Nat => (d : F)

/-- The recombination loop logup.rs:424-432: `w₀ + Σ wᵢ * 2^(bits*i)`. -/
def recombine (bits : Nat) : Nat → List F → F
  | _, [] => 0
  | i, w :: ws => w * ((2 ^ (bits * i) : Nat) : F) + recombine bits (i + 1) ws

/-- logup.rs:442-464 (`rangeproof_onechunk`), `none` = panic (also `n % 0`). -/
def RangeTable.onechunk (t : RangeTable F) (a : F) (n : Nat) : Option (RangeTable F) :=
  if n > t.bits ∨ t.bits = 0 then none
  else if n % t.bits ≠ 0 then
    let shift := t.bits - n % t.bits
    some (t.queryRange (a + ((2 ^ shift - 1 : Nat) : F) * ((2 ^ n : Nat) : F)))
  else some (t.queryRange a)

/-- logup.rs:392-440 (`rangeproof`): the Boolean is the asserted equality of the recombined witnesses, `ws` the answer of the
hint (of length `n / bits`).  The `u128` shifts are exact for `n ≤ 128` and `bits * i < 128`. -/
def RangeTable.rangeproof [DecidableEq F] (t : RangeTable F) (a : F) (n : Nat) (ws : List F) : Option (RangeTable F × Bool) :=
  if n > 128 then none
  else if n ≤ t.bits then (t.onechunk a n).map fun t => (t, true)
  else if t.bits = 0 then none
  else
    let rem := n % t.bits
    let shift := if rem ≠ 0 then t.bits - rem else 0
    let newA := if rem ≠ 0 then a + ((2 ^ shift - 1 : Nat) : F) * ((2 ^ n : Nat) : F) else a
    if ws.length = (n + shift) / t.bits then
      some ({ t with queryKeys := t.queryKeys ++ ws }, decide (recombine t.bits 0 ws = newA))
    else none

end

end Verif.Std.LogUp
