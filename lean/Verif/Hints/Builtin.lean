import Verif.Base
import Mathlib.Algebra.Field.ZMod
import Mathlib.Data.Nat.Size

/-!
# Built-in hints (hints/builtin.rs)
-/

namespace Verif

/-- The canonical representation of field elements used by `to_u256` / `from_u256` / `MODULUS` of `trait Field`
(crate `arith`, outside the repository): `to_u256` is the representative in `[0, MODULUS)`, `from_u256` reduces. -/
structure Canon (F : Type) [Field F] where
  modulus : Nat
  toNat : F → Nat
  cast_toNat : ∀ x, ((toNat x : Nat) : F) = x
  toNat_lt : ∀ x, toNat x < modulus
  toNat_cast : ∀ n, n < modulus → toNat (n : F) = n
  lt_u256 : modulus < 2 ^ 256

/-- The prime fields. -/
def Canon.zmod (p : Nat) [Fact p.Prime] (h : p < 2 ^ 256) : Canon (ZMod p) where
  modulus := p
  toNat := ZMod.val
  cast_toNat := fun x => ZMod.natCast_zmod_val x
  toNat_lt := fun x => ZMod.val_lt x
  toNat_cast := fun n hn => by rw [ZMod.val_natCast, Nat.mod_eq_of_lt hn]
  lt_u256 := h

namespace Hints

/-- Width of `ethnum::U256`. -/
def W : Nat := 2 ^ 256

/-- `u256_bit_length` (builtin.rs:316-318). -/
def bitLength (x : Nat) : Nat := x.size

/-- The amount by which a shift by `k ≤ MODULUS/2` shifts (builtin.rs:323-330, 343-350); `none` is "≥ 256, return 0". -/
def shiftAmount (M k : Nat) : Option Nat :=
  let s := if k / 2 ^ 64 = 0 then k else bitLength M
  if 256 ≤ s then none else some s

/-- `circom_shift_l_impl`, branch `k <= top` (builtin.rs:322-334).  `x << shift` drops the bits above 256. -/
def shlCore (M x k : Nat) : Nat :=
  match shiftAmount M k with
  | none => 0
  | some s => (x * 2 ^ s % W) &&& ((2 ^ bitLength M % W + W - 1) % W)

/-- `circom_shift_r_impl`, branch `k <= top` (builtin.rs:342-352). -/
def shrCore (M x k : Nat) : Nat :=
  match shiftAmount M k with
  | none => 0
  | some s => x / 2 ^ s

/-- `circom_shift_l_impl` and `circom_shift_r_impl` (builtin.rs:320-356) as written: mutually recursive.  `fuel` = recursion depth,
`none` = not finished. -/
def shiftRec (M : Nat) : Nat → Bool → Nat → Nat → Option Nat
  | 0, _, _, _ => none
  | fuel + 1, left, x, k =>
    if k ≤ M / 2 then some (if left then shlCore M x k else shrCore M x k)
    else shiftRec M fuel (!left) x (M - k)

/-- `circom_shift_l_impl` (builtin.rs:320-338); the mutual recursion is unfolded once, see `shift_terminates`. -/
def shiftL (M x k : Nat) : Nat := if k ≤ M / 2 then shlCore M x k else shrCore M x (M - k)

/-- `circom_shift_r_impl` (builtin.rs:340-356). -/
def shiftR (M x k : Nat) : Nat := if k ≤ M / 2 then shrCore M x k else shlCore M x (M - k)

theorem shift_terminates (M x k fuel : Nat) (h : 2 ≤ fuel) :
    shiftRec M fuel true x k = some (shiftL M x k) ∧ shiftRec M fuel false x k = some (shiftR M x k) := by
  obtain ⟨f, rfl⟩ : ∃ f, fuel = f + 2 := ⟨fuel - 2, by omega⟩
  unfold shiftL shiftR
  by_cases hk : k ≤ M / 2
  · simp [shiftRec, hk]
  · have : M - k ≤ M / 2 := by omega
    simp [shiftRec, hk, this]

/-- `to_binary` (builtin.rs:253-266): the bits, lowest first, and what is left of the number. -/
def bitsRest : Nat → Nat → List Nat × Nat
  | 0, y => ([], y)
  | n + 1, y => let r := bitsRest n (y / 2); (y % 2 :: r.1, r.2)

variable {F : Type} [Field F] [DecidableEq F] (cn : Canon F)

/-- `to_binary` (builtin.rs:253-266). -/
def toBinary (x : F) (n : Nat) : Option (List F) :=
  let r := bitsRest n (cn.toNat x)
  if r.2 = 0 then some (r.1.map (fun b : Nat => (b : F))) else none

/-- `F::from(b as u32)`. -/
def ofBool (b : Bool) : F := if b then 1 else 0

/-- Square-and-multiply loop of `pow` (builtin.rs:206-219, source/mod.rs:424-436).  Fuel 256 suffices for a 256-bit exponent. -/
def powLoop : Nat → F → F → Nat → F
  | 0, _, res, _ => res
  | fuel + 1, t, res, y => if y = 0 then res else powLoop fuel (t * t) (if y % 2 = 1 then res * t else res) (y / 2)

/-- `enum BuiltinHintIds` (builtin.rs:8-31). -/
inductive Id
  | identity | div | eq | notEq | boolOr | boolAnd | bitOr | bitAnd | bitXor | select | pow | intDiv | mod
  | shiftL | shiftR | lesserEq | greaterEq | lesser | greater | toBinary
  deriving DecidableEq, Repr

def Id.all : List Id := [.identity, .div, .eq, .notEq, .boolOr, .boolAnd, .bitOr, .bitAnd, .bitXor, .select, .pow, .intDiv, .mod,
  .shiftL, .shiftR, .lesserEq, .greaterEq, .lesser, .greater, .toBinary]

def Id.base : Nat := 0xccc000000000

/-- The discriminant of a variant: `Identity = 0xccc000000000`, then consecutive. -/
def Id.toNat (i : Id) : Nat := Id.base + i.ctorIdx

/-- `BuiltinHintIds::from_usize` (builtin.rs:37-67). -/
def Id.fromNat (n : Nat) : Option Id :=
  if n < Id.base then none else if Id.base + 100 < n then none else Id.all[n - Id.base]?

/-- `validate_builtin_hint` (builtin.rs:82-154). -/
def validateBuiltin (i : Id) (nin nout : Nat) : Bool :=
  match i with
  | .identity => nin = nout && nin ≠ 0
  | .select => nin = 3 && nout = 1
  | .toBinary => nin = 1 && nout ≠ 0
  | _ => nin = 2 && nout = 1

/-- `validate_hint` (builtin.rs:156-173). -/
def validateHint (hid nin nout : Nat) : Bool :=
  match Id.fromNat hid with
  | some i => validateBuiltin i nin nout
  | none => nout ≠ 0 && nin ≠ 0

/-- The binary built-in hints (builtin.rs:181-250). -/
def binop (i : Id) (x y : F) : F :=
  let a := cn.toNat x
  let b := cn.toNat y
  match i with
  | .div => if y = 0 then 0 else x * y⁻¹
  | .eq => ofBool (x = y)
  | .notEq => ofBool (x ≠ y)
  | .boolOr => ofBool (x ≠ 0 || y ≠ 0)
  | .boolAnd => ofBool (x ≠ 0 && y ≠ 0)
  | .bitOr => ((a ||| b : Nat) : F)
  | .bitAnd => ((a &&& b : Nat) : F)
  | .bitXor => ((a ^^^ b : Nat) : F)
  | .pow => powLoop 256 x 1 b
  | .intDiv => if b = 0 then 0 else ((a / b : Nat) : F)
  | .mod => if b = 0 then 0 else ((a % b : Nat) : F)
  | .shiftL => (shiftL cn.modulus a b : F)
  | .shiftR => (shiftR cn.modulus a b : F)
  | .lesserEq => ofBool (a ≤ b)
  | .greaterEq => ofBool (b ≤ a)
  | .lesser => ofBool (a < b)
  | .greater => ofBool (b < a)
  | _ => 0

/-- `impl_builtin_hint` (builtin.rs:175-239); `none` is a panic (index out of range or the `unwrap` of `to_binary`). The
comparison hints compare field elements with `Ord`, which is the order of the canonical representatives. -/
def implBuiltin (i : Id) (ins : List F) (n : Nat) : Option (List F) :=
  match i, ins with
  | .identity, ins => some (ins.take n)
  | .select, c :: t :: f :: _ => some [if c ≠ 0 then t else f]
  | .toBinary, x :: _ => toBinary cn x n
  | .select, _ => none
  | .toBinary, _ => none
  | i, x :: y :: _ => some [binop cn i x y]
  | _, _ => none

end Hints
end Verif
