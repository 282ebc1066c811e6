import Verif.Std.LimbsM31
import Mathlib.Data.Nat.Log
import Mathlib.Data.Nat.Size
/-!
Emulated ("non-native") field arithmetic: circuit-std-rs/src/gnark/{field,element,limbs,utils,emparam}.rs.

A gadget is the set of pairs of a result and the list of multiplication checks it registers (`GField::mul_checks`), over everything
a prover may return from a hint; the checks are asserted later, at a random challenge, by `check_mul`.  A range proof
(`LogUpRangeProofTable::rangeproof`, see C41) is taken by its meaning: the value is below `2^n`.
-/
namespace Verif.Std.Emu
open Verif.Std.ShaM31 (simpleSelect)

variable {F : Type} [Field F] [DecidableEq F]

/-- emparam.rs:41-46 (`trait FieldParams`). -/
structure Params where
  modulus : Nat
  bits : Nat
  nlimbs : Nat

/-- emparam.rs:4-20 (`Bls12381Fp`). -/
def bls12381Fp : Params :=
  ⟨0x1a0111ea397fe69a4b1ba7b6434bacd764774b84f38512bf6730d2a0f6b0f6241eabfffeb153ffffb9feffffffffaaab, 8, 48⟩

/-- emparam.rs:22-40 (`Bls12381Fr`). -/
def bls12381Fr : Params := ⟨0x73eda753299d7d483339d80809a1d80553bda402fffe5bfeffffffff00000001, 8, 32⟩

/-- element.rs:10-18 (`Element`), without the cache of the evaluation at the challenge. -/
structure El (F : Type) where
  limbs : List F
  overflow : Nat
  internal : Bool
  modReduced : Bool

/-- element.rs:93-95 (`new_internal_element`). -/
def El.int (limbs : List F) (overflow : Nat) : El F := ⟨limbs, overflow, true, false⟩

/-- field.rs:13-20 (`MulCheck`): the limbs of the elements. -/
structure MulCheck (F : Type) where
  a : List F
  b : List F
  r : List F
  k : List F
  c : List F
  p : List F

/-- A gadget: its results with the checks registered. -/
def Gad (F α : Type) : Type := α → List (MulCheck F) → Prop

instance gadMonad : Monad (Gad F) where
  pure a := fun b l => b = a ∧ l = []
  bind m f := fun b l => ∃ a l1 l2, m a l1 ∧ f a b l2 ∧ l = l1 ++ l2

/-- A panic while the circuit is built. -/
def Gad.fail {α : Type} : Gad F α := fun _ _ => False
/-- A constraint asserted at once. -/
def Gad.require (p : Prop) : Gad F Unit := fun _ l => p ∧ l = []
/-- Pushing a check (`self.mul_checks.push(mc)`). -/
def Gad.push (mc : MulCheck F) : Gad F Unit := fun _ l => l = [mc]
/-- The outputs of a hint: any list of the right length. -/
def Gad.hint (n : Nat) : Gad F (List F) := fun o l => o.length = n ∧ l = []

/-- The little-endian limbs of a number (`decompose` in limbs.rs:17-28 when the number fits). -/
def digits (n : Nat) : Nat → Nat → List Nat
  | 0, _ => []
  | k + 1, x => x % 2 ^ n :: digits n k (x / 2 ^ n)

/-- limbs.rs:17-28 (`decompose`); `none` is the error. -/
def decompose (x n k : Nat) : Option (List Nat) := if x.size ≤ k * n then some (digits n k x) else none

/-- limbs.rs:6-16 (`recompose`; not called on an empty list). -/
def recompose (l : List Nat) (n : Nat) : Nat := l.reverse.foldl (fun res x => res * 2 ^ n + x) 0

/-- element.rs:60-92 (`value_of`, `new_const_element`) on a number that is not negative; the modulus itself is not reduced. -/
def constEl (P : Params) (v : Nat) : Gad F (El F) :=
  let v := if P.modulus = v then v else v % P.modulus
  match decompose v P.bits P.nlimbs with
  | none => Gad.fail
  | some l => pure (El.int (l.map (Nat.cast : Nat → F)) 0)

/-- field.rs:95-99: the limbs of `n_const`, `one_const`, `zero_const` (set in `new`, where a panic of `value_of` is possible). -/
def nConst (P : Params) : El F := El.int ((digits P.bits P.nlimbs P.modulus).map (Nat.cast : Nat → F)) 0
def oneConst (P : Params) : El F := El.int ((digits P.bits P.nlimbs (1 % P.modulus)).map (Nat.cast : Nat → F)) 0
def zeroConst (P : Params) : El F := El.int ((digits P.bits P.nlimbs 0).map (Nat.cast : Nat → F)) 0
/-- field.rs:99. -/
def shortOne : El F := El.int [1] 0

/-- field.rs:83 (`max_of`). -/
def Params.maxOf (P : Params) : Nat := 28 - P.bits

/-- The meaning of a range proof. -/
def inRange (n : Nat) (x : F) : Prop := ∃ X : Nat, X < 2 ^ n ∧ x = (X : F)

/-- The width of the last limb of a number below the modulus (field.rs:190). -/
def Params.lastBits (P : Params) : Nat := (P.modulus.size - 1) % P.bits + 1

/-- field.rs:180-197 (`enforce_width`). -/
def enforceWidth (P : Params) (limbs : List F) (modWidth : Bool) : Prop :=
  ∀ i < limbs.length, inRange (if modWidth ∧ i = limbs.length - 1 then P.lastBits else P.bits) (limbs.getD i 0)

/-- field.rs:156-179 (`enforce_width_conditional`; the map of constrained limbs only influences the result, which is never used). -/
def condWidth (P : Params) (a : El F) : Gad F Unit := Gad.require (a.internal = false → enforceWidth P a.limbs true)

/-- gnark/utils.rs:16-23 (`nb_multiplication_res_limbs`). -/
def mulLimbs (l r : Nat) : Nat := l + r - 1

/-- field.rs:282-290 (`mul_pre_cond`). -/
def mulPreCond (P : Params) (a b : El F) : Nat :=
  let nb := mulLimbs a.limbs.length b.limbs.length
  P.bits + (if 0 < nb then Nat.clog 2 nb else 1) + a.overflow + b.overflow

/-- field.rs:240-249 (`pack_limbs`). -/
def packLimbs (P : Params) (limbs : List F) (strict : Bool) : Gad F (El F) := do
  Gad.require (enforceWidth P limbs strict)
  pure (El.int limbs 0)

/-- field.rs:311-317: the number of limbs of the quotient; `none` is the underflow of the subtraction. -/
def nbQuo (P : Params) (la lb nextOverflow : Nat) : Option Nat :=
  let n := mulLimbs la lb * P.bits + nextOverflow + 1
  if n < P.modulus.size then none else some ((n - P.modulus.size + P.bits - 1) / P.bits)

/-- field.rs:291-354 (`call_mul_hint`): quotient, remainder and carries; the carries are not range checked. -/
def callMulHint (P : Params) (a b : El F) (isMulMod : Bool) : Gad F (El F × El F × El F) :=
  let nextOverflow := if isMulMod then mulPreCond P a b else a.overflow
  match nbQuo P a.limbs.length b.limbs.length nextOverflow with
  | none => Gad.fail
  | some nq => do
    let nbCarry := max (mulLimbs a.limbs.length b.limbs.length) (mulLimbs nq P.nlimbs) - 1
    let ret ← Gad.hint (nq + P.nlimbs + nbCarry)
    let quo ← packLimbs P (ret.take nq) false
    let rem ← if isMulMod then packLimbs P ((ret.drop nq).take P.nlimbs) true else pure ⟨[], 0, false, false⟩
    pure (quo, rem, El.int (ret.drop (nq + P.nlimbs)) 0)

/-- field.rs:263-281 (`mul_mod`); the last argument of the code is empty in every call. -/
def mulMod (P : Params) (a b : El F) : Gad F (El F) := do
  condWidth P a
  condWidth P b
  let (k, r, c) ← callMulHint P a b true
  Gad.push ⟨a.limbs, b.limbs, r.limbs, k.limbs, c.limbs, []⟩
  pure r

/-- field.rs:250-262 (`reduce`). -/
def reduce (P : Params) (a : El F) (strict : Bool) : Gad F (El F) := do
  condWidth P a
  if a.modReduced = true then pure a
  else if strict = false ∧ a.overflow = 0 then pure a
  else mulMod P a (oneConst P)

/-- The reduction that precedes `add`, `sub`, `div` (field.rs:399-404, 429-434, 508-513). -/
def reduceIf (P : Params) (a : El F) (k : Nat) : Gad F (El F) := if a.overflow + k > P.maxOf then reduce P a false else pure a

/-- field.rs:355-373 (`check_zero`, with no modulus given, as in every call). -/
def checkZero (P : Params) (a : El F) : Gad F Unit := do
  condWidth P a
  let (k, r, c) ← callMulHint P a shortOne false
  Gad.push ⟨a.limbs, [1], r.limbs, k.limbs, c.limbs, []⟩

/-- field.rs:389-418 (`add`). -/
def add (P : Params) (a b : El F) : Gad F (El F) := do
  condWidth P a
  condWidth P b
  let a' ← reduceIf P a 1
  let b' ← reduceIf P b 1
  let nextOverflow := max a'.overflow b'.overflow + 1
  let nbLimbs := max a'.limbs.length b'.limbs.length
  pure (El.int ((List.range nbLimbs).map fun i => a'.limbs.getD i 0 + b'.limbs.getD i 0) nextOverflow)

/-- gnark/utils.rs:25-52 (`sub_padding`); `none` is a panic. -/
def subPadding (P : Params) (overflow nbLimbs : Nat) : Option (List Nat) :=
  if P.modulus = 0 then none
  else
    let nLimbs := List.replicate nbLimbs (2 ^ (overflow + P.bits))
    let n := P.modulus - recompose nLimbs P.bits % P.modulus
    match decompose n P.bits nbLimbs with
    | none => none
    | some pad => some (pad.map (· + 2 ^ (overflow + P.bits)))

/-- field.rs:419-454 (`sub`). -/
def sub (P : Params) (a b : El F) : Gad F (El F) := do
  condWidth P a
  condWidth P b
  let a' ← reduceIf P a 1
  let b' ← reduceIf P b 2
  let nextOverflow := max a'.overflow (b'.overflow + 1) + 1
  let nbLimbs := max a'.limbs.length b'.limbs.length
  match subPadding P b'.overflow nbLimbs with
  | none => Gad.fail
  | some pad => pure (El.int ((List.range nbLimbs).map fun i =>
      (((pad.getD i 0 : Nat) : F) + a'.limbs.getD i 0) - b'.limbs.getD i 0) nextOverflow)

/-- field.rs:455-458 (`neg`). -/
def neg (P : Params) (a : El F) : Gad F (El F) := sub P (zeroConst P) a

/-- field.rs:378-388 (`assert_is_equal`). -/
def assertEqual (P : Params) (a b : El F) : Gad F Unit := do
  condWidth P a
  condWidth P b
  let diff ← sub P b a
  checkZero P diff

/-- field.rs:469-486: the reduction of one factor, done twice. -/
def mulStep (P : Params) (a b : El F) : Gad F (El F × El F) :=
  if mulPreCond P a b > P.maxOf then
    if a.overflow < b.overflow then do
      let b' ← reduce P b false
      pure (a, b')
    else do
      let a' ← reduce P a false
      pure (a', b)
  else pure (a, b)

/-- field.rs:459-491 (`mul`). -/
def mul (P : Params) (a b : El F) : Gad F (El F) := do
  condWidth P a
  condWidth P b
  let q1 ← mulStep P a b
  let q2 ← mulStep P q1.1 q1.2
  mulMod P q2.1 q2.2

/-- field.rs:501-507, 532-538: the first reduction of the divisor, with `mul_of`. -/
def divStep (P : Params) (b : El F) : Gad F (El F × Nat) :=
  let mulOf := mulPreCond P (zeroConst P : El F) b
  if mulOf > P.maxOf then do
    let b' ← reduce P b false
    pure (b', 0)
  else pure (b, mulOf)

/-- field.rs:511-513, 539-541: the second one. -/
def divStep2 (P : Params) (q : El F × Nat) : Gad F (El F) := if q.2 + 2 > P.maxOf then reduce P q.1 false else pure q.1

/-- field.rs:492-523 (`div`). -/
def div (P : Params) (a b : El F) : Gad F (El F) := do
  condWidth P a
  condWidth P b
  let q ← divStep P b
  let a1 ← reduceIf P a 1
  let b2 ← divStep2 P q
  let d ← Gad.hint P.nlimbs
  let e ← packLimbs P d true
  let res ← mul P e b2
  assertEqual P res a1
  pure e

/-- field.rs:524-553 (`inverse`). -/
def inverse (P : Params) (b : El F) : Gad F (El F) := do
  condWidth P b
  let q ← divStep P b
  let b2 ← divStep2 P q
  let d ← Gad.hint P.nlimbs
  let e ← packLimbs P d true
  let res ← mul P e b2
  assertEqual P res (oneConst P)
  pure e

/-- field.rs:588-620 (`mul_const`) for a constant that is not negative (`max_overflow` is 20; a negative one multiplies `neg a`). -/
def mulConst (P : Params) (a : El F) (c : Nat) : Gad F (El F) :=
  if c = 0 then pure (zeroConst P)
  else if c.size > 20 then Gad.fail
  else do
    let a' ← reduceIf P a c.size
    pure (El.int (a'.limbs.map fun x => x * (c : F)) (a'.overflow + c.size))

/-- field.rs:130-155 (`select`). -/
def select (P : Params) (selector : F) (a b : El F) : Gad F (El F) := do
  condWidth P a
  condWidth P b
  let nbLimbs := max a.limbs.length b.limbs.length
  pure (El.int ((List.range nbLimbs).map fun i => simpleSelect selector (a.limbs.getD i 0) (b.limbs.getD i 0)) (max a.overflow b.overflow))

/-- field.rs:108-129 (`is_zero`). -/
def isZero (P : Params) (a : El F) : Gad F F := do
  let ca ← reduce P a false
  if ca.limbs.length - 1 > 20 then
    pure ((ca.limbs.drop 1).foldl (fun res x => res * Verif.Std.ShaM31.isZeroF x) (Verif.Std.ShaM31.isZeroF (ca.limbs.getD 0 0)))
  else pure (Verif.Std.ShaM31.isZeroF ((ca.limbs.drop 1).foldl (· + ·) (ca.limbs.getD 0 0)))

/-- field.rs:374-377 (`copy`). -/
def copyEl (P : Params) (x : El F) : Gad F (El F) := do
  let o ← Gad.hint P.nlimbs
  let res ← packLimbs P o true
  assertEqual P x res
  pure res

/-- field.rs:685-712 (`eval_with_challenge`), with the powers of the challenge made in field.rs:629-632. -/
def evalAt (l : List F) (ch : F) : F := l.zipIdx.foldl (fun sum p => sum + p.1 * ch ^ p.2) 0

/-- field.rs:34-45 (`check`) with `pval`, `ccoef` of field.rs:639-641. -/
def MulCheck.check (P : Params) (mc : MulCheck F) (ch : F) : Prop :=
  evalAt mc.a ch * evalAt mc.b ch =
    evalAt mc.r ch + (if mc.p = [] then evalAt (nConst P : El F).limbs ch else evalAt mc.p ch) * evalAt mc.k ch +
      evalAt mc.c ch * (((2 ^ P.bits : Nat) : F) - ch)

/-- field.rs:621-649 (`check_mul`) for one challenge. -/
def checkMul (P : Params) (l : List (MulCheck F)) (ch : F) : Prop := ∀ mc ∈ l, mc.check P ch

end Verif.Std.Emu
