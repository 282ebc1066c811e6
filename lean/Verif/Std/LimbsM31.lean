import Verif.Std.ShaM31
/-!
The limb helpers of circuit-std-rs/src/sha256/m31_utils.rs that are not used by the hash function itself, and
`simple_select`, `simple_lookup2` of circuit-std-rs/src/utils.rs.  As in `ShaM31`, a gadget is the set of results its
constraints admit; `Rel.fail` is a panic while the circuit is built.
-/
namespace Verif.Std.ShaM31
open Verif.IR Verif.IR.Source Verif.Builder

variable {F : Type} [Field F] [DecidableEq F]

/-- The literal `1 << n` of type `u32` (release build: the amount is taken modulo 32; a debug build panics from 32 on). -/
def shl32 (n : Nat) : Nat := 2 ^ (n % 32)

/-- `api.is_zero` (frontend/builder.rs:359-367; its constraints determine the result, see C06 and C07). -/
def isZeroF (x : F) : F := if x = 0 then 1 else 0

/-- m31_utils.rs:150-163 (`big_array_add_no_reduce`) on any number of limbs. -/
def addNoReduce (a b : List F) : Rel (List F) :=
  if a.length = b.length then pure (List.zipWith (· + ·) a b) else Rel.fail

/-- The loop of `big_array_add_reduce` (m31_utils.rs:175-181). -/
def reduceLoop (n : Nat) : List F → List F → F → Rel (List F)
  | a :: as, b :: bs, carry => do
    let c := a + b
    let c := c + carry
    let l ← toBinary c (n + 1)
    let carry := l.getD n 0
    let rest ← reduceLoop n as bs carry
    pure ((c - carry * ((shl32 n : Nat) : F)) :: rest)
  | _, _, _ => pure []

/-- m31_utils.rs:164-183 (`big_array_add_reduce`). -/
def addReduce (a b : List F) (n : Nat) : Rel (List F) :=
  if a.length = b.length then reduceLoop n a b 0 else Rel.fail

/-- The loop and the last limb of `big_array_add` (m31_utils.rs:195-203). -/
def carryLoop (n : Nat) : List F → List F → F → Rel (List F)
  | [a], [b], carry => pure [a + b + carry]
  | a :: as, b :: bs, carry => do
    let c := a + b
    let c := c + carry
    let l ← toBinary c (n + 1)
    let carry := l.getD n 0
    let rest ← carryLoop n as bs carry
    pure ((c - carry * ((shl32 n : Nat) : F)) :: rest)
  | _, _, _ => Rel.fail

/-- m31_utils.rs:184-205 (`big_array_add`; on empty arrays `a.len() - 1` underflows and the access panics). -/
def addLast (a b : List F) (n : Nat) : Rel (List F) :=
  if a.length = b.length then carryLoop n a b 0 else Rel.fail

/-- m31_utils.rs:229-238 (`bit_array_to_m31`; the second slice panics below 30 bits). -/
def bitArray30 (bits : List F) : Rel (F × F) :=
  if 60 ≤ bits.length then Rel.fail
  else if bits.length < 30 then Rel.fail
  else pure (fromBinary (bits.take 30), fromBinary (bits.drop 30))

/-- m31_utils.rs:252-265 (`big_endian_m31_array_put_uint32`): the four bytes written to `b`. -/
def bePutU32 (x : F × F) : Rel (List F) := do
  let (q3, r3) ← idivModBit x.1 8
  let (q2, r2) ← idivModBit q3 8
  let (q1, r1) ← idivModBit q2 8
  pure [q1 + x.2 * ((shl32 6 : Nat) : F), r1, r2, r3]

/-- The loop of `big_endian_put_uint64` (m31_utils.rs:287-291); the bytes written so far are at the end of the list. -/
def put64Loop : Nat → F → List F → Rel (List F)
  | 0, quo, l => pure (quo :: l)
  | i + 1, quo, l => do
    let (q, r) ← idivModBit quo 8
    put64Loop i q (r :: l)

/-- m31_utils.rs:281-293 (`big_endian_put_uint64`). -/
def bePutU64 (x : F) : Rel (List F) := put64Loop 7 x []

/-- m31_utils.rs:294-300 (`m31_to_bit_array`). -/
def toBitArray : List F → Rel (List F)
  | [] => pure []
  | v :: vs => do
    let b ← toBinary v 30
    let rest ← toBitArray vs
    pure (b ++ rest)

/-- m31_utils.rs:324-331 (`big_is_zero`). -/
def bigIsZero (k : Nat) (l : List F) : F :=
  isZeroF ((l.take k).foldl (fun total v => total - isZeroF v) (k : F))

/-- m31_utils.rs:381-393 (`my_is_less`). -/
def myIsLess (n : Nat) (a b : F) : Rel F := do
  let bi1 ← toBinary (a + ((shl32 n : Nat) : F) + -b) (n + 1)
  pure (1 - bi1.getD n 0)

/-- The comparisons of the limbs (m31_utils.rs:360-364): `lt` and `eq`. -/
def limbCmp (n : Nat) : Nat → List F → List F → Rel (List F × List F)
  | 0, _, _ => pure ([], [])
  | k + 1, a :: as, b :: bs => do
    let lt ← myIsLess n a b
    let (lts, eqs) ← limbCmp n k as bs
    pure (lt :: lts, isZeroF (a - b) :: eqs)
  | _ + 1, _, _ => Rel.fail

/-- The rest of the loop of `big_less_than` (m31_utils.rs:373-376), for the limbs `i - 1, .., 0`; `(ors[i], eq_ands[i])` are the
last two arguments and the result is `ors[0]`. -/
def orsLoop (lt eq : List F) : Nat → F → F → Rel F
  | 0, ors, _ => pure ors
  | i + 1, ors, eqAnds => do
    let ands ← boolOp .and eqAnds (lt.getD i 0)
    let eqAnds' ← boolOp .and eqAnds (eq.getD i 0)
    let ors' ← boolOp .or ors ands
    orsLoop lt eq i ors' eqAnds'

/-- m31_utils.rs:351-380 (`big_less_than`; with `k = 0` the length `k - 1` underflows, with `k = 1` the access to `ors[0]` panics). -/
def bigLessThan (n k : Nat) (a b : List F) : Rel F := do
  let (lt, eq) ← limbCmp n k a b
  if 2 ≤ k then
    let ands ← boolOp .and (eq.getD (k - 1) 0) (lt.getD (k - 2) 0)
    let eqAnds ← boolOp .and (eq.getD (k - 1) 0) (eq.getD (k - 2) 0)
    let ors ← boolOp .or (lt.getD (k - 1) 0) ands
    orsLoop lt eq (k - 2) ors eqAnds
  else Rel.fail

/-- m31_utils.rs:333-350 (`bigint_to_m31_array`, of a number that is not negative): the limbs as integers. `to_u32` panics when a
limb has more than 32 bits. -/
def bigintLimbs (n : Nat) : Nat → Nat → Option (List Nat)
  | 0, _ => some []
  | k + 1, a =>
    if a % 2 ^ n < 2 ^ 32 then do
      let rest ← bigintLimbs n k (a / 2 ^ n)
      pure (a % 2 ^ n :: rest)
    else none

/-- circuit-std-rs/src/utils.rs:14-23 (`simple_select`). -/
def simpleSelect (selector a b : F) : F := b + (a - b) * selector

/-- circuit-std-rs/src/utils.rs:29-41 (`simple_lookup2`). -/
def simpleLookup2 (s0 s1 i0 i1 i2 i3 : F) : F :=
  let tmp0 := simpleSelect s0 i1 i0
  let tmp1 := simpleSelect s0 i3 i2
  simpleSelect s1 tmp1 tmp0

end Verif.Std.ShaM31
