import Verif.Std.Sha256
import Verif.IR.Langs
import Verif.Builder.ExpandProof
/-!
The SHA-256 gadget over fields of more than 2^30 elements (circuit-std-rs/src/sha256/{m31,m31_utils}.rs).  A word is either 32
bits, least significant first, or two limbs: the low 26 bits and the high 6 bits.

The value of a gadget is the set of results its constraints admit: `to_binary` admits every list of bits that sums up to the
argument, whoever provides it (a hint), and `xor`, `and` admit a result only for boolean operands.
-/
namespace Verif.Std.ShaM31
open Verif.IR Verif.IR.Source Verif.Builder

/-- The results admitted by a sequence of API calls. -/
def Rel (α : Type) : Type := α → Prop

instance relMonad : Monad Rel where
  pure a := fun b => b = a
  bind m f := fun b => ∃ a, m a ∧ f a b

/-- No result (a panic while the circuit is built). -/
def Rel.fail {α : Type} : Rel α := fun _ => False

variable {F : Type} [Field F] [DecidableEq F]

/-- `api.to_binary(x, n)` (expander_compiler/src/frontend/builder.rs:369-383; the constraints are those `hint_normalize.rs:267-280`
generates): `n` boolean values that sum up to `x`. -/
def toBinary (x : F) (n : Nat) : Rel (List F) := fun l => l.length = n ∧ (∀ b ∈ l, b = 0 ∨ b = 1) ∧ bitsSum l = x

/-- `api.xor`, `api.and` (frontend/builder.rs:283-357): both operands are constrained to be boolean. -/
def boolOp (op : BoolOp) (x y : F) : Rel F := fun r => (x = 0 ∨ x = 1) ∧ (y = 0 ∨ y = 1) ∧ r = op.eval x y

/-- m31_utils.rs:314-322 (`from_binary`). -/
def fromBinary (bits : List F) : F := bits.zipIdx.foldl (fun res p => res + (((2 ^ p.2 : Nat) : F) * p.1)) 0

/-- m31_utils.rs:12-22 (`bytes_to_bits`; of an empty slice it panics: not reached). -/
def bytesLoop : List F → List F → Rel (List F)
  | [], ret => pure ret
  | v :: vs, ret => do
    let b ← toBinary v 8
    bytesLoop vs (b ++ ret)

def bytesToBits (vals : List F) : Rel (List F) := do
  let ret ← toBinary (vals.headD 0) 8
  bytesLoop (vals.drop 1) ret

/-- m31_utils.rs:23-36 (words always have 32 bits here, so that the panics of the functions below are not reached). -/
def rightShift (bits : List F) (k : Nat) : List F := bits.drop k ++ List.replicate k 0

/-- m31_utils.rs:37-44. -/
def rotateRight (bits : List F) (k : Nat) : List F := bits.drop k ++ bits.take k

/-- The loop of the four sigma functions (m31_utils.rs:55-59, 72-76, 89-93, 106-110). -/
def xor3 : List F → List F → List F → Rel (List F)
  | a :: as, b :: bs, c :: cs => do
    let tmp ← boolOp .xor a b
    let r ← boolOp .xor tmp c
    let rest ← xor3 as bs cs
    pure (r :: rest)
  | _, _, _ => pure []

/-- m31_utils.rs:45-61. -/
def sigma0 (bits : List F) : Rel (List F) := xor3 (rotateRight bits 7) (rotateRight bits 18) (rightShift bits 3)
/-- m31_utils.rs:62-78. -/
def sigma1 (bits : List F) : Rel (List F) := xor3 (rotateRight bits 17) (rotateRight bits 19) (rightShift bits 10)
/-- m31_utils.rs:79-95. -/
def capSigma0 (bits : List F) : Rel (List F) := xor3 (rotateRight bits 2) (rotateRight bits 13) (rotateRight bits 22)
/-- m31_utils.rs:96-112. -/
def capSigma1 (bits : List F) : Rel (List F) := xor3 (rotateRight bits 6) (rotateRight bits 11) (rotateRight bits 25)

/-- m31_utils.rs:113-130. -/
def ch : List F → List F → List F → Rel (List F)
  | x :: xs, y :: ys, z :: zs => do
    let tmp1 ← boolOp .and x y
    let tmp2 ← boolOp .xor x 1
    let tmp3 ← boolOp .and tmp2 z
    let r ← boolOp .xor tmp1 tmp3
    let rest ← ch xs ys zs
    pure (r :: rest)
  | _, _, _ => pure []

/-- m31_utils.rs:131-149. -/
def maj : List F → List F → List F → Rel (List F)
  | x :: xs, y :: ys, z :: zs => do
    let tmp1 ← boolOp .and x y
    let tmp2 ← boolOp .and x z
    let tmp3 ← boolOp .and y z
    let tmp4 ← boolOp .xor tmp1 tmp2
    let r ← boolOp .xor tmp3 tmp4
    let rest ← maj xs ys zs
    pure (r :: rest)
  | _, _, _ => pure []

/-- m31_utils.rs:150-163 (`big_array_add_no_reduce`) on two limbs. -/
def addNR (a b : F × F) : F × F := (a.1 + b.1, a.2 + b.2)

/-- m31_utils.rs:206-228 (`sha_m31_26_add`). -/
def shaAdd (a b : F × F) (nbBits : Nat) : Rel (F × F) := do
  let c0 := a.1 + b.1 + 0
  let l0 ← toBinary c0 (nbBits + 1)
  let carry := l0.getD nbBits 0
  let c0 := c0 - carry * ((2 ^ nbBits : Nat) : F)
  let c1 := a.2 + b.2 + carry
  let l1 ← toBinary c1 7
  let carry := l1.getD 6 0
  pure (c0, c1 - carry * ((2 ^ 6 : Nat) : F))

/-- m31_utils.rs:239-250 (`bit_array_to_m31_26`). -/
def bitArray26 (bits : List F) : F × F := (fromBinary (bits.take 26), fromBinary (bits.drop 26))

/-- m31_utils.rs:395-404 (`idiv_mod_bit`): quotient and remainder. -/
def idivModBit (a : F) (b : Nat) : Rel (F × F) := do
  let bits ← toBinary a 30
  pure (fromBinary (bits.drop b), fromBinary (bits.take b))

/-- m31_utils.rs:267-280 (`m31_26_array_put_uint32`): the four bytes, most significant first. -/
def putU32 (x : F × F) : Rel (List F) := do
  let (q3, r3) ← idivModBit x.1 8
  let (q2, r2) ← idivModBit q3 8
  let (q1, r1) ← idivModBit q2 8
  pure [q1 + x.2 * ((2 ^ 2 : Nat) : F), r1, r2, r3]

/-- m31_utils.rs:301-313 (`m31_26_to_bit_array_seperate`). -/
def sepBits (x : F × F) (overflow : Nat) : Rel (List F) := do
  let bits30 ← toBinary x.1 30
  let carry := fromBinary (bits30.drop 26)
  let high ← toBinary (x.2 + carry) (6 + overflow + 1)
  pure (bits30.take 26 ++ high)

/-- `m31_26_to_bit_array_seperate(api, .., overflow)[..32]`, as it is always used. -/
def toWord (x : F × F) (overflow : Nat) : Rel (List F) := do
  let l ← sepBits x overflow
  pure (l.take 32)

/-- m31.rs:158-170 (the same as 255-267): the word appended to the schedule. -/
def schedWord (w : List (List F)) : Rel (List F) := do
  let t := w.length
  let s1 ← sigma1 (w.getD (t - 2) [])
  let term1 := bitArray26 s1
  let term2 := bitArray26 (w.getD (t - 7) [])
  let s0 ← sigma0 (w.getD (t - 15) [])
  let term3 := bitArray26 s0
  let term4 := bitArray26 (w.getD (t - 16) [])
  toWord (addNR (addNR term1 term2) (addNR term3 term4)) 2

/-- m31.rs:154-172: `n` words remain to be appended. -/
def extend : Nat → List (List F) → Rel (List (List F))
  | 0, w => pure w
  | n + 1, w => do
    let x ← schedWord w
    extend n (w ++ [x])

/-- The variables of the round loop (m31.rs:173-188). -/
structure St (F : Type) where
  a : F × F
  b : F × F
  c : F × F
  d : F × F
  e : F × F
  f : F × F
  g : F × F
  h : F × F
  aBit : List F
  bBit : List F
  cBit : List F
  eBit : List F
  fBit : List F
  gBit : List F

open Verif.Std.Sha (State kTable)

/-- m31.rs:173-188 (the same as 268-283 and 344-359). -/
def initSt (h : State (F × F)) : Rel (St F) := do
  let aBit ← toWord h.a 0
  let bBit ← toWord h.b 0
  let cBit ← toWord h.c 0
  let eBit ← toWord h.e 0
  let fBit ← toWord h.f 0
  let gBit ← toWord h.g 0
  pure ⟨h.a, h.b, h.c, h.d, h.e, h.f, h.g, h.h, aBit, bBit, cBit, eBit, fBit, gBit⟩

/-- m31.rs:189-229 (the same as 284-322 and 360-398): one round. -/
def round (kbits schedule : List F) (s : St F) : Rel (St F) := do
  let t2 ← capSigma1 s.eBit
  let t3 ← ch s.eBit s.fBit s.gBit
  let t1 := addNR (addNR (addNR s.h (bitArray26 t2)) (addNR (bitArray26 t3) (bitArray26 kbits))) (bitArray26 schedule)
  let u1 ← capSigma0 s.aBit
  let u2 ← maj s.aBit s.bBit s.cBit
  let newA ← toWord (addNR t1 (addNR (bitArray26 u1) (bitArray26 u2))) 4
  let newE ← toWord (addNR s.d t1) 4
  pure ⟨bitArray26 newA, s.a, s.b, s.c, bitArray26 newE, s.e, s.f, s.g, newA, s.aBit, s.bBit, newE, s.eBit, s.fBit⟩

/-- The loop over the rounds; the pairs are the bits of the constant and the word of the schedule. -/
def rounds : List (List F × List F) → St F → Rel (St F)
  | [], s => pure s
  | (k, w) :: l, s => do
    let s' ← round k w s
    rounds l s'

/-- m31.rs:72-83: the bits of the round constants. -/
def kBits : List (List F) := kTable.map fun k => (List.range 32).map fun j => (((k >>> j) % 2 : Nat) : F)

/-- m31.rs:230-237 (the same as 323-330). -/
def addState (hh : State (F × F)) (s : St F) : Rel (State (F × F)) := do
  let a ← shaAdd hh.a s.a 26
  let b ← shaAdd hh.b s.b 26
  let c ← shaAdd hh.c s.c 26
  let d ← shaAdd hh.d s.d 26
  let e ← shaAdd hh.e s.e 26
  let f ← shaAdd hh.f s.f 26
  let g ← shaAdd hh.g s.g 26
  let h ← shaAdd hh.h s.h 26
  pure ⟨a, b, c, d, e, f, g, h⟩

/-- m31.rs:155-157: the first words of the schedule, from bytes. -/
def firstWords : Nat → List F → Rel (List (List F))
  | 0, _ => pure []
  | n + 1, p => do
    let w ← bytesToBits (p.take 4)
    let rest ← firstWords n (p.drop 4)
    pure (w :: rest)

/-- m31.rs:145-241 (`block`); `chunk_write` (116-123) calls it with one chunk of 64 bytes, so that the `while` loop of `block`
has one iteration. -/
def block (h : State (F × F)) (p : List F) : Rel (State (F × F)) := do
  let w0 ← firstWords 16 p
  let w ← extend 48 w0
  let s0 ← initSt h
  let s ← rounds (kBits.zip w) s0
  addState h s

/-- m31.rs:19-34, 55-71: a constant as two limbs. -/
def split26 (x : Nat) : F × F := (((x % 2 ^ 26 : Nat) : F), ((x / 2 ^ 26 : Nat) : F))

/-- m31.rs:54-91 (`new`), 92-114 (`reset`). -/
def initState : State (F × F) :=
  ⟨split26 0x6A09E667, split26 0xBB67AE85, split26 0x3C6EF372, split26 0xA54FF53A, split26 0x510E527F, split26 0x9B05688C,
    split26 0x1F83D9AB, split26 0x5BE0CD19⟩

/-- m31.rs:132-144 (`return_sum`). -/
def returnSum (h : State (F × F)) : Rel (List F) := do
  let a ← putU32 h.a
  let b ← putU32 h.b
  let c ← putU32 h.c
  let d ← putU32 h.d
  let e ← putU32 h.e
  let f ← putU32 h.f
  let g ← putU32 h.g
  let i ← putU32 h.h
  pure (a ++ b ++ c ++ d ++ e ++ f ++ g ++ i)

/-- m31.rs:509-511: the loop over the chunks; the first argument is `n / 64`. -/
def chunks : Nat → List F → State (F × F) → Rel (State (F × F))
  | 0, _, h => pure h
  | n + 1, data, h => do
    let h' ← block h (data.take 64)
    chunks n (data.drop 64) h'

/-- m31.rs:489-502: the padding of `n` bytes.  `(n * 8).to_be_bytes()` are eight bytes; the multiplication wraps in a release
build (in a debug build it panics for `n ≥ 2^61`), as does this definition. -/
def padBytes (n : Nat) : List Nat :=
  let padLen := if n % 64 > 55 then 128 - n % 64 else 64 - n % 64
  [128] ++ List.replicate (padLen - 9) 0 ++ (List.range 8).map fun i => (n * 8) / 256 ^ (7 - i) % 256

/-- m31.rs:483-513 (`sha256_var_bytes`). -/
def sha256VarBytes (data : List F) : Rel (List F) := do
  let data := data ++ (padBytes data.length).map (Nat.cast : Nat → F)
  let h ← chunks (data.length / 64) data initState
  returnSum h

/-- m31.rs:410-428 (`sha256_37bytes`); the empty set of results stands for the panic. -/
def sha256_37bytes (data : List F) : Rel (List F) := do
  if data.length = 37 then
    let pre := ([128] ++ List.replicate 24 0 ++ [37 * 8 / 256, (32 + 1 + 4) * 8 - 256]).map (Nat.cast : Nat → F)
    let h ← block initState (data ++ pre)
    returnSum h
  else Rel.fail

/-- m31.rs:252-254, 341-343: words from bits. -/
def bitWords : Nat → List F → List (List F)
  | 0, _ => []
  | n + 1, p => p.take 32 :: bitWords n (p.drop 32)

/-- m31.rs:333-407 (`block_37bytes_compress_26_set_8words_states`): the state after eight rounds. -/
def first8 (h : State (F × F)) (p : List F) : Rel (State (F × F)) := do
  let s0 ← initSt h
  let s ← rounds (kBits.zip (bitWords 8 p)) s0
  pure ⟨s.a, s.b, s.c, s.d, s.e, s.f, s.g, s.h⟩

/-- m31.rs:242-332 (`block_37bytes_compress`): the rounds from the ninth on, from the given state. -/
def blockCompress (first h : State (F × F)) (p : List F) : Rel (State (F × F)) := do
  let w ← extend 48 (bitWords 16 p)
  let s0 ← initSt first
  let s ← rounds ((kBits.zip w).drop 8) s0
  addState h s

/-- m31.rs:439-446 (the same as 460-472): padding, and the bit order of two words reversed. -/
def padBits (data : List F) : List F :=
  let pre := (List.range 216).map fun i => if i = 0 ∨ i = 207 ∨ i = 210 ∨ i = 212 then (1 : F) else 0
  let d := data ++ pre
  let d := d.take 288 ++ ((d.drop 288).take 32).reverse ++ d.drop 320
  d.take 480 ++ (d.drop 480).reverse

/-- m31.rs:430-451 (with `chunk_write_compress`, 124-131) (`sha256_37bytes_compress`); the empty set of results stands for the panic. -/
def sha256_37compress (data : List F) : Rel (List F) := do
  if data.length = 296 then
    let first ← first8 initState (padBits data)
    let h ← blockCompress first initState (padBits data)
    returnSum h
  else Rel.fail

/-- m31.rs:457-479: all further elements of the batch. -/
def batchLoop (first : State (F × F)) : List (List F) → Rel (List (List F))
  | [] => pure []
  | data :: rest => do
    if data.length = 296 then
      let h ← blockCompress first initState (padBits data)
      let o ← returnSum h
      let os ← batchLoop first rest
      pure (o :: os)
    else Rel.fail

/-- m31.rs:453-481 (`sha256_37bytes_256batch_compress`): the first eight rounds are those of the first element. -/
def sha256_37batch : List (List F) → Rel (List (List F))
  | [] => pure []
  | data :: rest => do
    if data.length = 296 then
      let first ← first8 initState (padBits data)
      batchLoop first (data :: rest)
    else Rel.fail

end Verif.Std.ShaM31
