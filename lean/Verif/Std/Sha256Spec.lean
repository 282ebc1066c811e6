/-!
SHA-256 as in FIPS 180-4, on 32-bit words.  Used as the specification of the GF(2) gadget; independent of the model.
-/
namespace Verif.Fips

abbrev W32 := BitVec 32

/-- FIPS 180-4, 4.1.2. -/
def Ch (x y z : W32) : W32 := (x &&& y) ^^^ (~~~x &&& z)
def Maj (x y z : W32) : W32 := (x &&& y) ^^^ (x &&& z) ^^^ (y &&& z)
def bigSigma0 (x : W32) : W32 := x.rotateRight 2 ^^^ x.rotateRight 13 ^^^ x.rotateRight 22
def bigSigma1 (x : W32) : W32 := x.rotateRight 6 ^^^ x.rotateRight 11 ^^^ x.rotateRight 25
def smallSigma0 (x : W32) : W32 := x.rotateRight 7 ^^^ x.rotateRight 18 ^^^ (x >>> 3)
def smallSigma1 (x : W32) : W32 := x.rotateRight 17 ^^^ x.rotateRight 19 ^^^ (x >>> 10)

/-- FIPS 180-4, 4.2.2. -/
def K : List Nat := [
    0x428a2f98, 0x71374491, 0xb5c0fbcf, 0xe9b5dba5, 0x3956c25b, 0x59f111f1, 0x923f82a4, 0xab1c5ed5,
    0xd807aa98, 0x12835b01, 0x243185be, 0x550c7dc3, 0x72be5d74, 0x80deb1fe, 0x9bdc06a7, 0xc19bf174,
    0xe49b69c1, 0xefbe4786, 0x0fc19dc6, 0x240ca1cc, 0x2de92c6f, 0x4a7484aa, 0x5cb0a9dc, 0x76f988da,
    0x983e5152, 0xa831c66d, 0xb00327c8, 0xbf597fc7, 0xc6e00bf3, 0xd5a79147, 0x06ca6351, 0x14292967,
    0x27b70a85, 0x2e1b2138, 0x4d2c6dfc, 0x53380d13, 0x650a7354, 0x766a0abb, 0x81c2c92e, 0x92722c85,
    0xa2bfe8a1, 0xa81a664b, 0xc24b8b70, 0xc76c51a3, 0xd192e819, 0xd6990624, 0xf40e3585, 0x106aa070,
    0x19a4c116, 0x1e376c08, 0x2748774c, 0x34b0bcb5, 0x391c0cb3, 0x4ed8aa4a, 0x5b9cca4f, 0x682e6ff3,
    0x748f82ee, 0x78a5636f, 0x84c87814, 0x8cc70208, 0x90befffa, 0xa4506ceb, 0xbef9a3f7, 0xc67178f2]

/-- FIPS 180-4, 5.3.3. -/
def H0 : List Nat := [0x6a09e667, 0xbb67ae85, 0x3c6ef372, 0xa54ff53a, 0x510e527f, 0x9b05688c, 0x1f83d9ab, 0x5be0cd19]

/-- Message schedule, 6.2.2 step 1. -/
def schedule (M : Nat → W32) (t : Nat) : W32 :=
  if h : t < 16 then M t
  else smallSigma1 (schedule M (t - 2)) + schedule M (t - 7) + smallSigma0 (schedule M (t - 15)) + schedule M (t - 16)
termination_by t

/-- Working variables. -/
structure Vars where
  a : W32
  b : W32
  c : W32
  d : W32
  e : W32
  f : W32
  g : W32
  h : W32
deriving DecidableEq

/-- 6.2.2 step 3. -/
def step (k w : W32) (s : Vars) : Vars :=
  let T1 := s.h + bigSigma1 s.e + Ch s.e s.f s.g + k + w
  let T2 := bigSigma0 s.a + Maj s.a s.b s.c
  { h := s.g, g := s.f, f := s.e, e := s.d + T1, d := s.c, c := s.b, b := s.a, a := T1 + T2 }

/-- The first `t` rounds. -/
def rounds (M : Nat → W32) (s : Vars) : Nat → Vars
  | 0 => s
  | t + 1 => step (BitVec.ofNat 32 (K.getD t 0)) (schedule M t) (rounds M s t)

/-- 6.2.2 step 4: the hash after one block. -/
def block (s : Vars) (M : Nat → W32) : Vars :=
  let r := rounds M s 64
  { a := s.a + r.a, b := s.b + r.b, c := s.c + r.c, d := s.d + r.d, e := s.e + r.e, f := s.f + r.f, g := s.g + r.g, h := s.h + r.h }

/-- Number of zero bits of the padding, 5.1.1: the smallest `k` with `l + 1 + k ≡ 448 (mod 512)`. -/
def IsZeroPad (l k : Nat) : Prop := (l + 1 + k) % 512 = 448 ∧ ∀ j, (l + 1 + j) % 512 = 448 → k ≤ j

/-- The bits of a word, most significant first. -/
def wordBits (w : W32) : List Bool := (List.range 32).map fun i => w.getLsbD (31 - i)

/-- The word with the given bits, most significant first. -/
def ofBits (l : List Bool) : W32 := BitVec.ofNat 32 (l.foldl (fun acc b => 2 * acc + b.toNat) 0)

/-- Word `t` of block `i` of a padded message, 5.2.1. -/
def messageWord (msg : List Bool) (i t : Nat) : W32 := ofBits ((msg.drop (512 * i + 32 * t)).take 32)

def iv : Vars := ⟨BitVec.ofNat 32 0x6a09e667, BitVec.ofNat 32 0xbb67ae85, BitVec.ofNat 32 0x3c6ef372, BitVec.ofNat 32 0xa54ff53a,
  BitVec.ofNat 32 0x510e527f, BitVec.ofNat 32 0x9b05688c, BitVec.ofNat 32 0x1f83d9ab, BitVec.ofNat 32 0x5be0cd19⟩

/-- The hash of the first `n` blocks. -/
def hashBlocks (msg : List Bool) : Nat → Vars
  | 0 => iv
  | n + 1 => block (hashBlocks msg n) (messageWord msg n)

/-- The digest as bits. -/
def Vars.bits (s : Vars) : List Bool := wordBits s.a ++ wordBits s.b ++ wordBits s.c ++ wordBits s.d ++ wordBits s.e ++ wordBits s.f ++ wordBits s.g ++ wordBits s.h

/-- The 64-bit big-endian length. -/
def lengthBits (l : Nat) : List Bool := (List.range 64).map fun i => l.testBit (63 - i)

/-- 5.1.1, with `k` zero bits. -/
def padded (msg : List Bool) (k : Nat) : List Bool := msg ++ [true] ++ List.replicate k false ++ lengthBits msg.length

/-- `d` is the SHA-256 digest of the bit string `msg`. -/
def IsSha256 (msg d : List Bool) : Prop :=
  ∃ k, IsZeroPad msg.length k ∧ d = (hashBlocks (padded msg k) ((padded msg k).length / 512)).bits

end Verif.Fips
