import Mathlib.Data.ZMod.Basic
import Mathlib.Algebra.Field.ZMod
/-!
Model of `/repo/circuit-std-rs/src/sha256/gf2.rs` and `gf2_utils.rs` at the level of values: variables of a GF(2) circuit carry
elements of `ZMod 2`; `api.add`, `api.sub`, `api.mul` and `api.constant` are the field operations (C29).  A `Sha256Word`
(`[Variable; 32]`, most significant bit first) is a list.
-/
namespace Verif.Std.Sha

abbrev Bit := ZMod 2
abbrev Word := List Bit

/-- gf2_utils.rs:6-12 (width 32) and 14-20 (width 64): the bits of a constant, most significant first. -/
def natToBits (width value : Nat) : List Bit := (List.range width).map fun i => if (value >>> (width - 1 - i)) % 2 = 1 then 1 else 0

/-- gf2_utils.rs:22-29. -/
def rotateRight (w : Word) (k : Nat) : Word := w.drop (32 - k) ++ w.take (32 - k)

/-- gf2_utils.rs:31-42. -/
def shiftRight (w : Word) (k : Nat) : Word := List.replicate k 0 ++ w.take (32 - k)

/-- gf2_utils.rs:294-304. -/
def xor (a b : Word) : Word := List.zipWith (· + ·) a b

/-- gf2_utils.rs:306-316. -/
def and (a b : Word) : Word := List.zipWith (· * ·) a b

/-- gf2_utils.rs:318-324. -/
def not (a : Word) : Word := a.map fun x => 1 - x

/-- gf2_utils.rs:45-56. -/
def ch (x y z : Word) : Word := xor (and x y) (and (not x) z)

/-- gf2_utils.rs:59-71. -/
def maj (x y z : Word) : Word := xor (xor (and x y) (and x z)) (and y z)

/-- gf2_utils.rs:74-84. -/
def lowerSigma0 (w : Word) : Word := xor (xor (rotateRight w 7) (rotateRight w 18)) (shiftRight w 3)

/-- gf2_utils.rs:86-96. -/
def lowerSigma1 (w : Word) : Word := xor (xor (rotateRight w 17) (rotateRight w 19)) (shiftRight w 10)

/-- gf2_utils.rs:99-109. -/
def capitalSigma0 (x : Word) : Word := xor (xor (rotateRight x 2) (rotateRight x 13)) (rotateRight x 22)

/-- gf2_utils.rs:112-122. -/
def capitalSigma1 (x : Word) : Word := xor (xor (rotateRight x 6) (rotateRight x 11)) (rotateRight x 25)

/-- The loop gf2_utils.rs:132-143 from the last index to the first, on reversed lists; the second list holds the bits of the constant. -/
def addConstLoop : List Bit → List Bool → Bit → List Bit
  | a :: as, true :: bs, ci => ((a + 1) + ci) :: addConstLoop as bs (ci * (a + 1) + a)
  | a :: as, false :: bs, ci => (a + ci) :: addConstLoop as bs (ci * a)
  | _, _, _ => []

/-- gf2_utils.rs:124-145: `(b >> (31 - i)) & 1` for `i` from 31 down to 0. -/
def addConst (a : Word) (b : Nat) : Word := (addConstLoop a.reverse ((List.range 32).map fun j => (b >>> j) % 2 = 1) 0).reverse

/-- gf2_utils.rs:177-224: sum bits and carry out, least significant bit first. -/
def brentKung4 (a0 a1 a2 a3 b0 b1 b2 b3 cin : Bit) : (Bit × Bit × Bit × Bit) × Bit :=
  let g0 := a0 * b0; let g1 := a1 * b1; let g2 := a2 * b2; let g3 := a3 * b3
  let p0 := a0 + b0; let p1 := a1 + b1; let p2 := a2 + b2; let p3 := a3 + b3
  let p1g0 := p1 * g0
  let p0p1 := p0 * p1
  let p2p3 := p2 * p3
  let g10 := g1 + p1g0
  let g20 := g2 + p2 * g10
  let g30 := g3 + p3 * g20
  let c0 := cin
  let c1 := g0 + p0 * c0
  let c2 := g10 + p0p1 * c0
  let c3 := g20 + p0p1 * (p2 * c0)
  let c4 := g30 + (p0p1 * p2p3) * c0
  ((p0 + c0, p1 + c1, p2 + c2, p3 + c3), c4)

/-- The loop gf2_utils.rs:162-170 over blocks of four bits, least significant block first. -/
def brentKungLoop : List Bit → List Bit → Bit → List Bit
  | a0 :: a1 :: a2 :: a3 :: as, b0 :: b1 :: b2 :: b3 :: bs, ci =>
    match brentKung4 a0 a1 a2 a3 b0 b1 b2 b3 ci with
    | ((s0, s1, s2, s3), c) => s0 :: s1 :: s2 :: s3 :: brentKungLoop as bs c
  | _, _, _ => []

/-- gf2_utils.rs:148-175 and `add` 226-232. -/
def add (a b : Word) : Word := (brentKungLoop a.reverse b.reverse 0).reverse

/-- gf2_utils.rs:255-277. -/
def bitAddWithCarry (a b c : Bit) : Bit × Bit :=
  let ab := a * b; let ac := a * c; let bc := b * c; let abc := ab * c
  ((a + b) + c, ((((ab + abc) + abc) + ac) + bc))

/-- The loop gf2_utils.rs:288-290 on reversed lists. -/
def vanillaLoop : List Bit → List Bit → Bit → List Bit
  | a :: as, b :: bs, c => (bitAddWithCarry a b c).1 :: vanillaLoop as bs (bitAddWithCarry a b c).2
  | _, _, _ => []

/-- gf2_utils.rs:280-292. -/
def addVanilla (a b : Word) : Word := (vanillaLoop a.reverse b.reverse 0).reverse

/-- One iteration of the `while` loop gf2_utils.rs:239-250 on the first `n_values_to_sum` entries. -/
def halve (l : List Word) : List Word :=
  let h := l.length / 2
  List.zipWith add (l.take h) ((l.drop h).take h) ++ l.drop (2 * h)

/-- The `while` loop of gf2_utils.rs:239-250 with a bound on the number of iterations. -/
def sumLoop : Nat → List Word → Word
  | 0, l => l.headD []
  | k + 1, l => if l.length ≤ 1 then l.headD [] else sumLoop k (halve l)

/-- gf2_utils.rs:234-253 (an empty argument panics in Rust; here it gives the empty list). -/
def sumAll (l : List Word) : Word := sumLoop l.length l

/-- gf2.rs:13-15. -/
def initState : List Nat := [0x6a09e667, 0xbb67ae85, 0x3c6ef372, 0xa54ff53a, 0x510e527f, 0x9b05688c, 0x1f83d9ab, 0x5be0cd19]

/-- gf2.rs:17-26. -/
def kTable : List Nat := [
    0x428a2f98, 0x71374491, 0xb5c0fbcf, 0xe9b5dba5, 0x3956c25b, 0x59f111f1, 0x923f82a4, 0xab1c5ed5,
    0xd807aa98, 0x12835b01, 0x243185be, 0x550c7dc3, 0x72be5d74, 0x80deb1fe, 0x9bdc06a7, 0xc19bf174,
    0xe49b69c1, 0xefbe4786, 0x0fc19dc6, 0x240ca1cc, 0x2de92c6f, 0x4a7484aa, 0x5cb0a9dc, 0x76f988da,
    0x983e5152, 0xa831c66d, 0xb00327c8, 0xbf597fc7, 0xc6e00bf3, 0xd5a79147, 0x06ca6351, 0x14292967,
    0x27b70a85, 0x2e1b2138, 0x4d2c6dfc, 0x53380d13, 0x650a7354, 0x766a0abb, 0x81c2c92e, 0x92722c85,
    0xa2bfe8a1, 0xa81a664b, 0xc24b8b70, 0xc76c51a3, 0xd192e819, 0xd6990624, 0xf40e3585, 0x106aa070,
    0x19a4c116, 0x1e376c08, 0x2748774c, 0x34b0bcb5, 0x391c0cb3, 0x4ed8aa4a, 0x5b9cca4f, 0x682e6ff3,
    0x748f82ee, 0x78a5636f, 0x84c87814, 0x8cc70208, 0x90befffa, 0xa4506ceb, 0xbef9a3f7, 0xc67178f2]

/-- The eight words `a .. h`. -/
@[ext] structure State (W : Type) where
  a : W
  b : W
  c : W
  d : W
  e : W
  f : W
  g : W
  h : W
deriving DecidableEq

/-- gf2.rs:73-76: the sixteen words of a 512-bit chunk. -/
def chunkWords : Nat → List Bit → List Word
  | 0, _ => []
  | k + 1, l => l.take 32 :: chunkWords k (l.drop 32)

/-- gf2.rs:77-85: the schedule; `n` words remain to be appended. -/
def extend : Nat → List Word → List Word
  | 0, w => w
  | n + 1, w =>
    let i := w.length
    let s0 := add (lowerSigma1 (w.getD (i - 2) [])) (w.getD (i - 7) [])
    let s1 := add (lowerSigma0 (w.getD (i - 15) [])) (w.getD (i - 16) [])
    extend n (w ++ [add s0 s1])

/-- gf2.rs:87-106: one round. -/
def roundStep (s : State Word) (w : Word) (k : Nat) : State Word :=
  let wk := addConst w k
  let t1 := sumAll [s.h, capitalSigma1 s.e, ch s.e s.f s.g, wk]
  let t2 := add (capitalSigma0 s.a) (maj s.a s.b s.c)
  ⟨add t1 t2, s.a, s.b, s.c, add s.d t1, s.e, s.f, s.g⟩

/-- gf2.rs:63-116. -/
def compress (state : State Word) (input : List Bit) : State Word :=
  let w := extend 48 (chunkWords 16 input)
  let s := (w.zip kTable).foldl (fun s p => roundStep s p.1 p.2) state
  ⟨add state.a s.a, add state.b s.b, add state.c s.c, add state.d s.d, add state.e s.e, add state.f s.f, add state.g s.g, add state.h s.h⟩

/-- gf2.rs:45-50: the padded data; `448 - (len + 1) % 512` is a subtraction of `usize`, which panics when it is negative. -/
def pad (data : List Bit) : Option (List Bit) :=
  if (data.length + 1) % 512 ≤ 448 then
    some (data ++ [1] ++ List.replicate (448 - (data.length + 1) % 512) 0 ++ natToBits 64 (data.length % 2 ^ 64))
  else none

/-- `chunks_exact(512)` (gf2.rs:58); the first argument bounds the number of chunks. -/
def chunksExact : Nat → List Bit → List (List Bit)
  | 0, _ => []
  | k + 1, l => if 512 ≤ l.length then l.take 512 :: chunksExact k (l.drop 512) else []

/-- gf2.rs:52-57. -/
def initWords : State Word :=
  let w := initState.map (natToBits 32)
  ⟨w.getD 0 [], w.getD 1 [], w.getD 2 [], w.getD 3 [], w.getD 4 [], w.getD 5 [], w.getD 6 [], w.getD 7 []⟩

def State.flatten (s : State Word) : List Bit := s.a ++ s.b ++ s.c ++ s.d ++ s.e ++ s.f ++ s.g ++ s.h

/-- gf2.rs:40-62 (`finalize`) on the data collected by `update`. -/
def finalize (data : List Bit) : Option (List Bit) :=
  match pad data with
  | some l => some ((chunksExact l.length l).foldl compress initWords).flatten
  | none => none

end Verif.Std.Sha
