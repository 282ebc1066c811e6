import Verif.Hints.Builtin
/-!
Model of `/repo/circuit-std-rs/src/non_native/{u120,u2048,util}.rs` at the level of values.  Arithmetic and assertions of the API
have their documented meaning (C29, C30); every result of an `unconstrained_*` call is only required to satisfy the relation `O`
(`O` always true: an arbitrary prover; `O` the built-in hint: the honest prover).  A gadget is the relation between its inputs and
the outputs the circuit accepts.
-/
namespace Verif.Std.BigInt
open Verif.Hints

variable {F : Type} [Field F]

/-- Which results of `unconstrained_op(x, y)` the prover may use. -/
abbrev Oracle (F : Type) := Id → F → F → F → Prop

/-- Any result: the circuit does not constrain hints. -/
def anyHint : Oracle F := fun _ _ _ _ => True

/-- The result the built-in hint computes (C28). -/
def honest [DecidableEq F] (cn : Canon F) : Oracle F := fun i x y r => r = binop cn i x y

/-- `assert_is_bool`. -/
def IsBool (x : F) : Prop := x = 0 ∨ x = 1

variable (O : Oracle F) (T : F)

/-- u120.rs:24-49 `accumulate_u120`: result `r` and carry `c`; the two calls of `range_proof_u120` (u120.rs:16-22) assert nothing;
`none` inputs: at least two are required. -/
def accumulate (xs : List F) (r c : F) : Prop :=
  1 < xs.length ∧ O .mod xs.sum T r ∧ O .intDiv xs.sum T c ∧ xs.sum = r + c * T

/-- u120.rs:51-79 `add_u120`: result `r` and carry `c`; `range_proof_u120` asserts nothing. -/
def addU120 (x y cin r c : F) : Prop :=
  O .greaterEq (x + y + cin) T c ∧ r = x + y + cin - c * T ∧ IsBool c

/-- u120.rs:81-107 `mul_u120`; `range_proof_u120` asserts nothing. -/
def mulU120 (x y cin r c : F) : Prop :=
  O .intDiv (x * y + cin) T c ∧ r = x * y + cin - c * T

/-- util.rs:4-18 `unconstrained_byte_decomposition`: the loop with `k` iterations left. -/
def byteDecomp : Nat → F → List F → Prop
  | 0, _, bs => bs = []
  | k + 1, x, bs => ∃ b q rest, O .mod x (2 ^ 8) b ∧ O .intDiv x (2 ^ 8) q ∧ byteDecomp k q rest ∧ bs = b :: rest

/-- util.rs:20-39 `byte_decomposition` with the given scalars. -/
def byteDecomposition (scalars : List F) (x : F) (bs : List F) : Prop :=
  byteDecomp O 32 x bs ∧ x = (List.zipWith (· * ·) bs scalars).sum

/-- u120.rs:109-134 `is_less_than_u120`. -/
def isLessThan (x y res : F) : Prop :=
  ∃ bs, byteDecomp O 32 (x - y) bs ∧ O .lesser x y res ∧ (1 - res) * bs.getD 31 0 + res * 0 = 0

/-- `builder.is_zero`. -/
def isZero [DecidableEq F] (x : F) : F := if x = 0 then 1 else 0

/-- u2048.rs:71-94: the loop of `assert_is_less_than` over pairs of limbs, most significant first, from the state
`(result, all_eq_so_far)` to the final one.  `builder.and`/`builder.or` assert that their arguments are boolean. -/
def lessLoop [DecidableEq F] : List (F × F) → F → F → F → F → Prop
  | [], res, eq, res', eq' => res' = res ∧ eq' = eq
  | (x, y) :: l, res, eq, res', eq' => ∃ cur upd r1 e1,
      isLessThan O x y cur ∧ IsBool eq ∧ IsBool cur ∧ upd = eq * cur ∧
      IsBool res ∧ IsBool upd ∧ r1 = res + upd - res * upd ∧
      IsBool (isZero (x - y)) ∧ e1 = eq * isZero (x - y) ∧
      IsBool r1 ∧ IsBool e1 ∧ cur * isZero (x - y) = 0 ∧
      lessLoop l r1 e1 res' eq'

/-- u2048.rs:59-101 `assert_is_less_than`; limbs least significant first. -/
def assertLess [DecidableEq F] (x y : List F) (res : F) : Prop :=
  ∃ eq, lessLoop O (x.zip y).reverse 0 1 res eq ∧ eq * res = 0

/-- u2048.rs:124-142 `assert_is_equal`. -/
def assertEqual [DecidableEq F] (x y : List F) (res : F) : Prop :=
  res = ((x.zip y).map fun p => isZero (p.1 - p.2)).foldl (· * ·) 1 ∧ IsBool res

/-- u2048.rs:104-121 `assert_is_greater_eq`. -/
def assertGreaterEq [DecidableEq F] (x y : List F) (res : F) : Prop :=
  ∃ less eq, assertLess O y x less ∧ assertEqual x y eq ∧ res = less + eq - less * eq ∧ IsBool res

/-- The loop `for i in .. { (r[i], carry) = add_u120(a[i], b[i], carry) }` (u2048.rs:157-163, 178-186, 220-238, 298-306). -/
def addChain : List (F × F) → F → List F → F → Prop
  | [], c, rs, c' => rs = [] ∧ c' = c
  | (x, y) :: l, c, rs, c' => ∃ r c1 rest, addU120 O T x y c r c1 ∧ addChain l c1 rest c' ∧ rs = r :: rest

/-- u2048.rs:144-198 `assert_add`; `assert_is_equal` on each limb is the shared list `sum`. -/
def assertAdd [DecidableEq F] (x y result : List F) (carry : F) (modulus : List F) : Prop :=
  ∃ sum c1 expected c2 lt, addChain O T (x.zip y) 0 sum c1 ∧ IsBool carry ∧
    addChain O T (result.zip (modulus.map (carry * ·))) 0 expected c2 ∧ sum = expected ∧ c2 = 0 ∧
    assertLess O result modulus lt ∧ lt = 1

/-- u2048.rs:262-290: the body of the double loop at `(i, j)` on `(local_res, addition_carries)`. -/
def mulStep (x y : List F) (p : Nat × Nat) (st st' : List F × List F) : Prop :=
  ∃ lo hi s1 c1 s2 c2, mulU120 O T (x.getD p.1 0) (y.getD p.2 0) 0 lo hi ∧
    addU120 O T (st.1.getD (p.1 + p.2) 0) lo 0 s1 c1 ∧
    addU120 O T ((st.1.set (p.1 + p.2) s1).getD (p.1 + p.2 + 1) 0) hi 0 s2 c2 ∧
    st' = ((st.1.set (p.1 + p.2) s1).set (p.1 + p.2 + 1) s2,
      (st.2.set (p.1 + p.2 + 1) (st.2.getD (p.1 + p.2 + 1) 0 + c1)).set (p.1 + p.2 + 2)
        ((st.2.set (p.1 + p.2 + 1) (st.2.getD (p.1 + p.2 + 1) 0 + c1)).getD (p.1 + p.2 + 2) 0 + c2))

/-- The double loop over a list of index pairs. -/
def mulLoop (x y : List F) : List (Nat × Nat) → List F × List F → List F × List F → Prop
  | [], st, st' => st' = st
  | p :: l, st, st' => ∃ s1, mulStep O T x y p st s1 ∧ mulLoop x y l s1 st'

/-- The index pairs in the order of the double loop, for `n` limbs. -/
def pairs (n : Nat) : List (Nat × Nat) := (List.range n).flatMap fun i => (List.range n).map fun j => (i, j)

/-- u2048.rs:249-307 `mul_without_mod_reduction` for `n` limbs. -/
def mulNoMod (n : Nat) (x y : List F) (out : List F) : Prop :=
  ∃ st c, mulLoop O T x y (pairs n) (List.replicate (2 * n) 0, List.replicate (2 * n + 1) 0) st ∧
    addChain O T (st.1.zip (st.2.take (2 * n))) 0 out c

/-- u2048.rs:200-246 `assert_mul` for `n` limbs: the last loop compares positions `0..4`. -/
def assertMul (n : Nat) (x y result carry modulus : List F) : Prop :=
  ∃ left right right' c, mulNoMod O T n x y left ∧ mulNoMod O T n carry modulus right ∧
    addChain O T ((result ++ List.replicate n 0).zip right) 0 right' c ∧
    ∀ i < 4, left.getD i 0 = right'.getD i 0

/-- u2048.rs:5-6. -/
def nLimbs : Nat := 18

/-- The integer with the given limbs of 120 bits. -/
def num (cn : Canon F) (l : List F) : Nat := l.foldr (fun x acc => cn.toNat x + 2 ^ 120 * acc) 0

/-- Limbs in range. -/
def Limbs (cn : Canon F) (l : List F) : Prop := ∀ x ∈ l, cn.toNat x < 2 ^ 120

end Verif.Std.BigInt
