import Verif.Std.LimbsM31More
import Verif.Props.C30
/-!
C51: the limb helpers of the large-field SHA-256 (`m31_utils.rs`) and `simple_select`, `simple_lookup2` (`utils.rs`) do what their
names say, for every prover.

`limbsVal n l` is the number with the limbs `l` of `n` bits, lowest first, `enc l` the same limbs as field elements.  A gadget is the
set of outputs some prover can reach; each theorem says that exactly the right outputs can be reached.
-/
set_option linter.unusedSectionVars false
namespace Verif.Props
open Verif.Std.ShaM31 Verif.Hints

variable {F : Type} [Field F] [DecidableEq F]

theorem limbs_unique {n : Nat} {C D : List Nat} (hl : C.length = D.length) (hC : ∀ x ∈ C, x < 2 ^ n) (hD : ∀ x ∈ D, x < 2 ^ n)
    (h : limbsVal n C = limbsVal n D) : C = D := limbsVal_inj n C D hl hC hD h

/-- `big_array_add_reduce` on numbers of `k` limbs of `n` bits: the sum modulo `2 ^ (n k)`, in limbs of `n` bits. -/
theorem C51_add_reduce (cn : Canon F) {n : Nat} (h32 : n < 32) (hn : 2 ^ (n + 1) ≤ cn.modulus) (A B : List Nat) (h : A.length = B.length)
    (hA : ∀ x ∈ A, x < 2 ^ n) (hB : ∀ x ∈ B, x < 2 ^ n) (out : List F) :
    addReduce (enc A) (enc B) n out ↔
      ∃ C, C.length = A.length ∧ (∀ x ∈ C, x < 2 ^ n) ∧ limbsVal n C = (limbsVal n A + limbsVal n B) % 2 ^ (n * A.length) ∧ out = enc C := by
  obtain ⟨h1, h2, h3⟩ := sumLimbs_spec n A B 0 h hA hB (by omega)
  have e := reduceLoop_enc cn h32 hn A B 0 h hA hB (by omega)
  rw [Nat.cast_zero] at e
  rw [addReduce, if_pos (by simpa [enc] using h), e]
  constructor
  · intro g; exact ⟨_, h1, h2, h3, g⟩
  · rintro ⟨C, g1, g2, g3, rfl⟩
    rw [limbs_unique (g1.trans h1.symm) g2 h2 (g3.trans h3.symm)]; rfl

theorem last_unique (n : Nat) : ∀ C D : List Nat, C.length = D.length → (∀ x ∈ C.dropLast, x < 2 ^ n) → (∀ x ∈ D.dropLast, x < 2 ^ n) →
    limbsVal n C = limbsVal n D → C = D := by
  intro C
  induction C with
  | nil => intro D h _ _ _; exact (List.length_eq_zero_iff.1 h.symm).symm
  | cons c C ih =>
    intro D h hC hD e
    cases D with
    | nil => simp at h
    | cons d D =>
      cases C with
      | nil =>
        cases D with
        | nil => simpa [limbsVal] using e
        | cons _ _ => simp at h
      | cons c2 C =>
        cases D with
        | nil => simp at h
        | cons d2 D =>
          rw [List.dropLast_cons_cons] at hC hD
          have hc := hC c (by simp)
          have hd := hD d (by simp)
          rw [limbsVal.eq_2 n c, limbsVal.eq_2 n d] at e
          have e1 : c = d := by
            have := congrArg (· % 2 ^ n) e
            simpa only [Nat.add_mul_mod_self_left, Nat.mod_eq_of_lt hc, Nat.mod_eq_of_lt hd] using this
          subst e1
          rw [ih (d2 :: D) (by simpa using h) (fun x hx => hC x (List.mem_cons_of_mem _ hx)) (fun x hx => hD x (List.mem_cons_of_mem _ hx))
            (Nat.eq_of_mul_eq_mul_left (Nat.two_pow_pos n) (by omega))]

/-- `big_array_add`: the whole sum; the last limb takes the overflow. -/
theorem C51_add (cn : Canon F) {n : Nat} (h32 : n < 32) (hn : 2 ^ (n + 1) ≤ cn.modulus) (A B : List Nat) (h : A.length = B.length) (h0 : A ≠ [])
    (hA : ∀ x ∈ A, x < 2 ^ n) (hB : ∀ x ∈ B, x < 2 ^ n) (out : List F) :
    addLast (enc A) (enc B) n out ↔
      ∃ C, C.length = A.length ∧ (∀ x ∈ C.dropLast, x < 2 ^ n) ∧ limbsVal n C = limbsVal n A + limbsVal n B ∧ out = enc C := by
  obtain ⟨e, h1, h2, h3⟩ := carryLoop_enc (F := F) cn h32 hn A B 0 h0 h hA hB (by omega)
  rw [Nat.cast_zero] at e
  rw [addLast, if_pos (by simpa [enc] using h), e]
  constructor
  · intro g; exact ⟨_, h1, h2, h3, g⟩
  · rintro ⟨C, g1, g2, g3, rfl⟩
    rw [last_unique n C _ (g1.trans h1.symm) g2 h2 (g3.trans h3.symm)]; rfl

/-- `big_array_add_no_reduce`: limb by limb, so that the values add up. -/
theorem C51_add_no_reduce (n : Nat) (A B : List Nat) (h : A.length = B.length) (out : List F) :
    addNoReduce (enc A) (enc B) out ↔ out = enc (List.zipWith (· + ·) A B) ∧ limbsVal n (List.zipWith (· + ·) A B) = limbsVal n A + limbsVal n B := by
  have hv : ∀ A B : List Nat, A.length = B.length → limbsVal n (List.zipWith (· + ·) A B) = limbsVal n A + limbsVal n B := by
    intro A
    induction A with
    | nil => intro B h; cases B <;> simp [limbsVal] at *
    | cons a A ih =>
      intro B h
      cases B with
      | nil => simp at h
      | cons b B =>
        rw [List.zipWith_cons_cons, limbsVal, ih B (by simpa using h), limbsVal, limbsVal, Nat.mul_add]; omega
  have he : ∀ A B : List Nat, List.zipWith (· + ·) (enc A : List F) (enc B) = enc (List.zipWith (· + ·) A B) := by
    intro A
    induction A with
    | nil => intro B; rfl
    | cons a A ih =>
      intro B
      cases B with
      | nil => rfl
      | cons b B =>
        have := ih B
        simp only [enc, List.map_cons, List.zipWith_cons_cons] at this ⊢
        rw [this, Nat.cast_add]
  rw [addNoReduce, if_pos (by simpa [enc] using h), he]
  exact ⟨fun g => ⟨g, hv A B h⟩, fun g => g.1⟩

/-- `my_is_less` on numbers of `n` bits. -/
theorem C51_less (cn : Canon F) {n : Nat} (h32 : n < 32) (hn : 2 ^ (n + 1) ≤ cn.modulus) {a b : Nat} (ha : a < 2 ^ n) (hb : b < 2 ^ n) (out : F) :
    myIsLess n (a : F) (b : F) out ↔ out = if a < b then 1 else 0 := by
  rw [myIsLess_enc cn h32 hn ha hb, ofBool]
  by_cases h : a < b <;> simp only [h, decide_true, decide_false, if_true, if_false] <;> exact Iff.rfl

/-- `big_less_than` on the first `k ≥ 2` limbs of `n` bits. -/
theorem C51_big_less (cn : Canon F) {n : Nat} (h32 : n < 32) (hn : 2 ^ (n + 1) ≤ cn.modulus) (A B : List Nat) (k : Nat) (hk : 2 ≤ k)
    (hAk : k ≤ A.length) (hBk : k ≤ B.length) (hA : ∀ x ∈ A.take k, x < 2 ^ n) (hB : ∀ x ∈ B.take k, x < 2 ^ n) (out : F) :
    bigLessThan n k (enc A) (enc B) out ↔ out = if limbsVal n (A.take k) < limbsVal n (B.take k) then 1 else 0 := by
  rw [bigLessThan_enc cn h32 hn hk hAk hBk hA hB, ofBool]
  by_cases h : limbsVal n (A.take k) < limbsVal n (B.take k) <;> simp only [h, decide_true, decide_false, if_true, if_false] <;> exact Iff.rfl

/-- `big_is_zero`, on any field elements. -/
theorem C51_is_zero (cn : Canon F) {k : Nat} (hk : k < cn.modulus) (l : List F) (hl : k ≤ l.length) :
    bigIsZero k l = if ∀ v ∈ l.take k, v = 0 then 1 else 0 := by
  rw [bigIsZero_eq cn hk]; simp only [hl, true_and]

/-- `idiv_mod_bit`, on any field element: satisfiable exactly below 2^30, with quotient and remainder by 2^b. -/
theorem C51_div (cn : Canon F) (hm : 2 ^ 30 ≤ cn.modulus) (x : F) {b : Nat} (hb : b ≤ 30) (q r : F) :
    idivModBit x b (q, r) ↔ ∃ X : Nat, X < 2 ^ 30 ∧ x = (X : F) ∧ q = ((X / 2 ^ b : Nat) : F) ∧ r = ((X % 2 ^ b : Nat) : F) := by
  constructor
  · intro h
    obtain ⟨l, h1, -⟩ := id h
    obtain ⟨X, hX, rfl⟩ := toBinary_lt h1
    rw [idivModBit_nat cn hm hX hb] at h
    have h' : (q, r) = (((X / 2 ^ b : Nat) : F), ((X % 2 ^ b : Nat) : F)) := h
    exact ⟨X, hX, rfl, (Prod.mk.inj h').1, (Prod.mk.inj h').2⟩
  · rintro ⟨X, hX, rfl, rfl, rfl⟩
    rw [idivModBit_nat cn hm hX hb]; rfl

theorem bytesBE_spec : ∀ n X : Nat, (bytesBE n X).length = n ∧ (∀ x ∈ bytesBE n X, x < 2 ^ 8) ∧ limbsVal 8 (bytesBE n X).reverse = X % 256 ^ n := by
  intro n
  induction n with
  | zero => intro X; simp [bytesBE, limbsVal, Nat.mod_one]
  | succ n ih =>
    intro X
    obtain ⟨h1, h2, h3⟩ := ih X
    refine ⟨by simp [bytesBE, h1], ?_, ?_⟩
    · intro x hx
      rw [bytesBE, List.mem_cons] at hx
      rcases hx with rfl | hx
      · exact Nat.mod_lt _ (by omega)
      · exact h2 x hx
    · rw [bytesBE, List.reverse_cons, limbsVal_append, h3, List.length_reverse, h1, Nat.pow_mul, Nat.pow_succ 256 n, Nat.mod_mul]
      simp [limbsVal]

theorem bytes_iff {n X : Nat} (h : X < 256 ^ n) (out : List F) :
    out = enc (bytesBE n X) ↔ ∃ bs, bs.length = n ∧ (∀ x ∈ bs, x < 2 ^ 8) ∧ limbsVal 8 bs.reverse = X ∧ out = enc bs := by
  obtain ⟨h1, h2, h3⟩ := bytesBE_spec n X
  rw [Nat.mod_eq_of_lt h] at h3
  constructor
  · intro g; exact ⟨_, h1, h2, h3, g⟩
  · rintro ⟨bs, g1, g2, g3, rfl⟩
    rw [← List.reverse_inj.1 (limbs_unique (by simp [g1, h1]) (by simpa using g2) (by simpa using h2) (g3.trans h3.symm))]

/-- `big_endian_m31_array_put_uint32` on limbs of 30 and 2 bits: four bytes, most significant first. -/
theorem C51_put32 (cn : Canon F) (hm : 2 ^ 30 ≤ cn.modulus) {lo hi : Nat} (h1 : lo < 2 ^ 30) (h2 : hi < 4) (out : List F) :
    bePutU32 ((lo : F), (hi : F)) out ↔ ∃ bs, bs.length = 4 ∧ (∀ x ∈ bs, x < 2 ^ 8) ∧ limbsVal 8 bs.reverse = lo + 2 ^ 30 * hi ∧ out = enc bs := by
  have e := bePutU32_nat cn hm (X := lo + 2 ^ 30 * hi) (by omega)
  rw [Nat.add_mul_mod_self_left, Nat.mod_eq_of_lt h1, Nat.add_mul_div_left _ _ (Nat.two_pow_pos 30), Nat.div_eq_of_lt h1, Nat.zero_add] at e
  rw [e, ← bytes_iff (by omega)]; exact Iff.rfl

/-- `m31_26_array_put_uint32` on limbs of 26 and 6 bits. -/
theorem C51_put32_26 (cn : Canon F) (hm : 2 ^ 30 ≤ cn.modulus) {lo hi : Nat} (h1 : lo < 2 ^ 26) (h2 : hi < 64) (out : List F) :
    putU32 ((lo : F), (hi : F)) out ↔ ∃ bs, bs.length = 4 ∧ (∀ x ∈ bs, x < 2 ^ 8) ∧ limbsVal 8 bs.reverse = lo + 2 ^ 26 * hi ∧ out = enc bs := by
  have e := putU32_nat cn hm (X := lo + 2 ^ 26 * hi) (by omega)
  rw [Nat.add_mul_mod_self_left, Nat.mod_eq_of_lt h1, Nat.add_mul_div_left _ _ (Nat.two_pow_pos 26), Nat.div_eq_of_lt h1, Nat.zero_add] at e
  rw [e, ← bytes_iff (by omega)]; exact Iff.rfl

/-- `big_endian_put_uint64`: eight bytes; numbers from 2^30 on are rejected. -/
theorem C51_put64 (cn : Canon F) (hm : 2 ^ 30 ≤ cn.modulus) (x : F) (out : List F) :
    bePutU64 x out ↔ ∃ (X : Nat) (bs : List Nat), X < 2 ^ 30 ∧ x = (X : F) ∧ bs.length = 8 ∧ (∀ x ∈ bs, x < 2 ^ 8) ∧ limbsVal 8 bs.reverse = X ∧ out = enc bs := by
  constructor
  · intro h
    obtain ⟨qr, ⟨l, h1, -⟩, -⟩ := id h
    obtain ⟨X, hX, rfl⟩ := toBinary_lt h1
    rw [bePutU64_nat cn hm hX] at h
    obtain ⟨bs, g⟩ := (bytes_iff (n := 8) (X := X) (by omega) out).1 h
    exact ⟨X, bs, hX, rfl, g⟩
  · rintro ⟨X, bs, hX, rfl, g⟩
    rw [bePutU64_nat cn hm hX]
    exact (bytes_iff (n := 8) (X := X) (by omega) out).2 ⟨bs, g⟩

theorem lb_bits : ∀ (n X : Nat), ∃ bs, (lb n X : List F) = enc bs ∧ bs.length = n ∧ (∀ x ∈ bs, x < 2 ^ 1) ∧ limbsVal 1 bs = X % 2 ^ n := by
  intro n
  induction n with
  | zero => intro X; exact ⟨[], rfl, rfl, by simp, by simp [limbsVal, Nat.mod_one]⟩
  | succ n ih =>
    intro X
    obtain ⟨bs, h1, h2, h3, h4⟩ := ih (X / 2)
    refine ⟨X % 2 :: bs, ?_, by simp [h2], ?_, ?_⟩
    · have e : (lb (n + 1) X : List F) = ((X % 2 : Nat) : F) :: lb n (X / 2) := by
        have a := List.take_append_drop 1 (lb (n + 1) X : List F)
        rw [lb_take (by omega), lb_drop, Nat.pow_one, Nat.add_sub_cancel] at a
        rw [← a]
        rcases Nat.mod_two_eq_zero_or_one X with h | h <;> simp [lb, Verif.Frontend.bitsOf, ofBool, h]
      rw [e, h1]; rfl
    · intro x hx
      rw [List.mem_cons] at hx
      rcases hx with rfl | hx
      · exact Nat.mod_lt _ (by omega)
      · exact h3 x hx
    · rw [limbsVal, h4, Nat.pow_succ 2 n, Nat.mul_comm (2 ^ n), Nat.mod_mul, Nat.pow_one]

/-- `m31_to_bit_array`, on any field elements: satisfiable exactly if all of them are below 2^30; the output is the bits of the number,
lowest first. -/
theorem C51_to_bits (cn : Canon F) (hm : 2 ^ 30 ≤ cn.modulus) (l out : List F) :
    toBitArray l out ↔ ∃ L bs, (∀ x ∈ L, x < 2 ^ 30) ∧ l = enc L ∧ bs.length = 30 * L.length ∧ (∀ x ∈ bs, x < 2 ^ 1) ∧
      limbsVal 1 bs = limbsVal 30 L ∧ out = enc bs := by
  constructor
  · intro h
    obtain ⟨L, hL, rfl⟩ := toBitArray_range l out h
    rw [toBitArray_nat cn hm L hL] at h
    obtain ⟨bs, h1, h2, h3, h4⟩ := lb_bits (F := F) (30 * L.length) (limbsVal 30 L)
    rw [Nat.mod_eq_of_lt (limbsVal_lt 30 L hL)] at h4
    exact ⟨L, bs, hL, rfl, h2, h3, h4, by rw [← h1]; exact h⟩
  · rintro ⟨L, bs, hL, rfl, h2, h3, h4, rfl⟩
    rw [toBitArray_nat cn hm L hL]
    obtain ⟨cs, g1, g2, g3, g4⟩ := lb_bits (F := F) (30 * L.length) (limbsVal 30 L)
    rw [Nat.mod_eq_of_lt (limbsVal_lt 30 L hL)] at g4
    rw [g1, limbs_unique (h2.trans g2.symm) h3 g3 (h4.trans g4.symm)]; rfl

/-- `bit_array_to_m31`: of 30 to 59 bits it makes the two limbs of 30 bits; any other number of bits is rejected. -/
theorem C51_from_bits (bs : List Nat) (hb : ∀ x ∈ bs, x < 2 ^ 1) (x y : F) :
    bitArray30 (enc bs) (x, y) ↔ 30 ≤ bs.length ∧ bs.length < 60 ∧ x = ((limbsVal 1 bs % 2 ^ 30 : Nat) : F) ∧ y = ((limbsVal 1 bs / 2 ^ 30 : Nat) : F) := by
  have hX := limbsVal_lt 1 bs hb
  rw [Nat.one_mul] at hX
  have e : (enc bs : List F) = lb bs.length (limbsVal 1 bs) := by
    obtain ⟨cs, g1, g2, g3, g4⟩ := lb_bits (F := F) bs.length (limbsVal 1 bs)
    rw [Nat.mod_eq_of_lt hX] at g4
    rw [g1, limbs_unique g2.symm hb g3 g4.symm]
  by_cases h1 : 60 ≤ bs.length
  · rw [bitArray30, if_pos (by simpa [enc] using h1)]
    exact ⟨fun h => h.elim, fun h => by omega⟩
  · by_cases h2 : bs.length < 30
    · rw [bitArray30, if_neg (by simpa [enc] using h1), if_pos (by simpa [enc] using h2)]
      exact ⟨fun h => h.elim, fun h => by omega⟩
    · rw [e, bitArray30_nat (by omega) (by omega) hX]
      constructor
      · intro h
        have h' := Prod.mk.inj (show (x, y) = _ from h)
        exact ⟨by omega, by omega, h'.1, h'.2⟩
      · rintro ⟨-, -, rfl, rfl⟩; rfl

/-- `bigint_to_m31_array` (and `string_to_m31_array`, where there are 48 limbs): the limbs of the number modulo `2 ^ (n k)`. -/
theorem C51_bigint (n k a : Nat) (h : n ≤ 32) (l : List Nat) :
    bigintLimbs n k a = some l ↔ l.length = k ∧ (∀ x ∈ l, x < 2 ^ n) ∧ limbsVal n l = a % 2 ^ (n * k) := by
  obtain ⟨m, h1, h2, h3, h4⟩ := bigintLimbs_spec n k a h
  rw [h1, Option.some.injEq]
  constructor
  · rintro rfl; exact ⟨h2, h3, h4⟩
  · rintro ⟨g1, g2, g3⟩; exact limbs_unique (h2.trans g1.symm) h3 g2 (h4.trans g3.symm)

theorem C51_select (s : Bool) (a b : F) : simpleSelect (ofBool s) a b = if s then a else b := by
  cases s <;> simp [simpleSelect, ofBool]

theorem C51_lookup (s0 s1 : Bool) (i0 i1 i2 i3 : F) :
    simpleLookup2 (ofBool s0) (ofBool s1) i0 i1 i2 i3 = match s0, s1 with
      | false, false => i0
      | true, false => i1
      | false, true => i2
      | true, true => i3 := by
  cases s0 <;> cases s1 <;> simp [simpleLookup2, simpleSelect, ofBool]

/-- The bound on the limbs is needed: with limbs of 30 bits over M31 a prover can make `0 + 0` equal to `2^30 - 1` and the largest
limb less than 0. -/
theorem C51_thirty_violated :
    addReduce (enc [0] : List M31) (enc [0]) 30 (enc [2 ^ 30 - 1]) ∧
      myIsLess 30 ((2 ^ 30 - 1 : Nat) : M31) ((0 : Nat) : M31) 1 := by
  constructor
  · rw [addReduce, if_pos rfl]
    show reduceLoop 30 [((0 : Nat) : M31)] [((0 : Nat) : M31)] 0 _
    rw [reduceLoop]
    refine ⟨List.replicate 31 1, ⟨by decide, ?_, ?_⟩, [], rfl, ?_⟩
    · intro b hb; right; exact List.eq_of_mem_replicate hb
    · decide +kernel
    · show (enc [2 ^ 30 - 1] : List M31) = _
      decide +kernel
  · refine ⟨List.replicate 31 0, ⟨by decide, ?_, ?_⟩, ?_⟩
    · intro b hb; left; exact List.eq_of_mem_replicate hb
    · decide +kernel
    · show (1 : M31) = _
      decide +kernel

/-- With one limb `big_less_than` always panics. -/
theorem C51_one_limb_violated (n : Nat) (a b : List F) (out : F) : ¬ bigLessThan n 1 a b out := by
  rintro ⟨⟨lt, eq⟩, -, h⟩
  dsimp only at h
  rw [if_neg (by omega)] at h
  exact h

/-- The conditions are met: limbs of 8 bits over M31. -/
example : 8 < 32 ∧ 2 ^ (8 + 1) ≤ (Canon.zmod 2147483647 (by decide)).modulus ∧
    2 ^ 30 ≤ (Canon.zmod 2147483647 (by decide)).modulus ∧ ∀ x ∈ [255, 1], x < 2 ^ 8 := by
  refine ⟨by decide, ?_, ?_, by decide⟩ <;> show _ ≤ 2147483647 <;> decide
example : addReduce (enc [255, 1] : List M31) (enc [2, 255]) 8 (enc [1, 1]) :=
  (C51_add_reduce (Canon.zmod 2147483647 (by decide)) (by decide) (by show _ ≤ 2147483647; decide) [255, 1] [2, 255] rfl (by decide) (by decide) _).2
    ⟨[1, 1], rfl, by decide, by decide, rfl⟩

end Verif.Props
