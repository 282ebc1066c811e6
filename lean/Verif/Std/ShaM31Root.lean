import Verif.Std.ShaM31Proof
/-!
The SHA-256 gadget over large fields computes FIPS 180-4.
-/
set_option linter.unusedSimpArgs false
set_option linter.unusedSectionVars false
namespace Verif.Std.ShaM31
open Verif.IR Verif.IR.Source Verif.Builder Verif.Fips Verif.Frontend
open Verif.Hints
open Verif.Std.Sha (State kTable)

/-- The bits of a byte, most significant first. -/
def byteBits (b : Nat) : List Bool := (List.range 8).map fun i => b.testBit (7 - i)

/-- The bits of a string of bytes. -/
def bitsOfBytes (bs : List Nat) : List Bool := bs.flatMap byteBits

def Bytes (bs : List Nat) : Prop := ∀ b ∈ bs, b < 256

theorem bitsOfBytes_length (bs : List Nat) : (bitsOfBytes bs).length = 8 * bs.length := by
  induction bs with
  | nil => rfl
  | cons b bs ih =>
    have : (bitsOfBytes (b :: bs)) = byteBits b ++ bitsOfBytes bs := rfl
    rw [this, List.length_append, ih]; simp [byteBits]; omega

theorem bitsOfBytes_append (a b : List Nat) : bitsOfBytes (a ++ b) = bitsOfBytes a ++ bitsOfBytes b := by simp [bitsOfBytes]

theorem bitsOfBytes_drop : ∀ (k : Nat) (bs : List Nat), bitsOfBytes (bs.drop k) = (bitsOfBytes bs).drop (8 * k) := by
  intro k
  induction k with
  | zero => intro bs; rfl
  | succ k ih =>
    intro bs
    cases bs with
    | nil => simp [bitsOfBytes]
    | cons b bs =>
      have e : bitsOfBytes (b :: bs) = byteBits b ++ bitsOfBytes bs := rfl
      have hl : (byteBits b).length = 8 := by simp [byteBits]
      rw [List.drop_succ_cons, ih, e, show 8 * (k + 1) = (byteBits b).length + 8 * k by omega, List.drop_length_add_append]

theorem bitsOfBytes_take : ∀ (k : Nat) (bs : List Nat), bitsOfBytes (bs.take k) = (bitsOfBytes bs).take (8 * k) := by
  intro k
  induction k with
  | zero => intro bs; rfl
  | succ k ih =>
    intro bs
    cases bs with
    | nil => simp [bitsOfBytes]
    | cons b bs =>
      have e : ∀ l, bitsOfBytes (b :: l) = byteBits b ++ bitsOfBytes l := fun _ => rfl
      have hl : (byteBits b).length = 8 := by simp [byteBits]
      rw [List.take_succ_cons, e, e, ih, show 8 * (k + 1) = (byteBits b).length + 8 * k by omega, List.take_length_add_append]

theorem foldl_bits (l : List Bool) : ∀ acc : Nat, l.foldl (fun acc b => 2 * acc + b.toNat) acc = acc * 2 ^ l.length + l.foldl (fun acc b => 2 * acc + b.toNat) 0 := by
  induction l with
  | nil => intro acc; simp
  | cons b l ih =>
    intro acc
    rw [List.foldl_cons, List.foldl_cons, ih (2 * acc + b.toNat), ih (2 * 0 + b.toNat), List.length_cons, pow_succ]
    ring

theorem foldl_byte {b : Nat} (h : b < 256) (acc : Nat) : (byteBits b).foldl (fun acc b => 2 * acc + b.toNat) acc = acc * 256 + b := by
  rw [foldl_bits]
  have : ∀ b < 256, (byteBits b).foldl (fun acc b => 2 * acc + b.toNat) 0 = b := by decide +kernel
  rw [this b h]
  have : (byteBits b).length = 8 := by simp [byteBits]
  rw [this]
  omega

theorem ofBits_four {a b c d : Nat} (h : Bytes [a, b, c, d]) : ofBits (bitsOfBytes [a, b, c, d]) = BitVec.ofNat 32 (a * 2 ^ 24 + b * 2 ^ 16 + c * 2 ^ 8 + d) := by
  have e : bitsOfBytes [a, b, c, d] = byteBits a ++ (byteBits b ++ (byteBits c ++ byteBits d)) := by simp [bitsOfBytes]
  rw [ofBits, e, List.foldl_append, List.foldl_append, List.foldl_append, foldl_byte (h a (by simp)), foldl_byte (h b (by simp)),
    foldl_byte (h c (by simp)), foldl_byte (h d (by simp))]
  refine congrArg (BitVec.ofNat 32) ?_
  omega

theorem wordBits_bytes (w : W32) : bitsOfBytes [w.toNat / 2 ^ 24, w.toNat / 2 ^ 16 % 256, w.toNat / 2 ^ 8 % 256, w.toNat % 256] = wordBits w := by
  have e : (256 : Nat) = 2 ^ 8 := rfl
  have h : ∀ i, w.toNat.testBit i = w.getLsbD i := fun _ => rfl
  simp only [bitsOfBytes, byteBits, wordBits, e, List.flatMap_cons, List.flatMap_nil, Nat.testBit_mod_two_pow, Nat.testBit_div_two_pow, h]
  simp [List.range_succ]

theorem byteBits_inj : ∀ {a b : Nat}, a < 256 → b < 256 → byteBits a = byteBits b → a = b := by
  intro a b ha hb h
  have := congrArg (fun l => l.foldl (fun acc b => 2 * acc + b.toNat) 0) h
  simpa [foldl_byte ha, foldl_byte hb] using this

theorem bitsOfBytes_inj : ∀ {a b : List Nat}, Bytes a → Bytes b → bitsOfBytes a = bitsOfBytes b → a = b := by
  intro a
  induction a with
  | nil =>
    intro b _ _ h
    have := congrArg List.length h
    rw [bitsOfBytes_length, bitsOfBytes_length] at this
    have : b.length = 0 := by simp at this; simpa using this.symm
    exact (List.length_eq_zero_iff.1 this).symm
  | cons x a ih =>
    intro b ha hb h
    cases b with
    | nil => have := congrArg List.length h; simp [bitsOfBytes_length] at this
    | cons y b =>
      have h' : byteBits x ++ bitsOfBytes a = byteBits y ++ bitsOfBytes b := h
      obtain ⟨h1, h2⟩ := List.append_inj h' (by simp [byteBits])
      rw [byteBits_inj (ha x (by simp)) (hb y (by simp)) h1, ih (fun z hz => ha z (by simp [hz])) (fun z hz => hb z (by simp [hz])) h2]

variable {F : Type} [Field F] [DecidableEq F]

theorem lb_W (X : Nat) : (lb 32 X : List F) = W (BitVec.ofNat 32 X) := by rw [W, BitVec.toNat_ofNat, lb_mod]

/-- A hash value as limbs. -/
def encH (s : Vars) : State (F × F) :=
  ⟨split26 s.a.toNat, split26 s.b.toNat, split26 s.c.toNat, split26 s.d.toNat, split26 s.e.toNat, split26 s.f.toNat, split26 s.g.toNat, split26 s.h.toNat⟩

/-- The variables of the round loop. -/
def encSt (s : Vars) : St F :=
  ⟨split26 s.a.toNat, split26 s.b.toNat, split26 s.c.toNat, split26 s.d.toNat, split26 s.e.toNat, split26 s.f.toNat, split26 s.g.toNat, split26 s.h.toNat,
    W s.a, W s.b, W s.c, W s.e, W s.f, W s.g⟩

theorem initState_enc : (initState : State (F × F)) = encH iv := rfl

theorem kBits_get {n : Nat} (h : n < 64) : (kBits : List (List F))[n]? = some (W (BitVec.ofNat 32 (K.getD n 0))) := by
  have hk : kTable[n]? = some (K.getD n 0) := by
    have : n < kTable.length := by show n < 64; omega
    rw [List.getElem?_eq_getElem this]
    show _ = some (kTable.getD n 0)
    rw [List.getD_eq_getElem?_getD, List.getElem?_eq_getElem this]; rfl
  rw [kBits, List.getElem?_map, hk, Option.map_some, ← lb_W]
  congr 1
  apply List.ext_getElem?
  intro i
  rw [lb, List.getElem?_map, List.getElem?_map, bitsOf_get]
  by_cases hi : i < 32
  · rw [List.getElem?_range hi, if_pos hi, Option.map_some, Option.map_some, Nat.testBit_eq_decide_div_mod_eq, Nat.shiftRight_eq_div_pow]
    rcases Nat.mod_two_eq_zero_or_one (K.getD n 0 / 2 ^ i) with h | h <;> simp only [h] <;> simp [ofBool]
  · rw [List.getElem?_eq_none (by simpa using hi), if_neg hi]; rfl

section
variable (cn : Canon F) (hm : 2 ^ 30 ≤ cn.modulus)
include hm

theorem schedWord_eq (M : Nat → W32) (i : Nat) (hi : 16 ≤ i) :
    schedWord ((List.range i).map fun t => (W (schedule M t) : List F)) = pure (W (schedule M i)) := by
  have hg : ∀ j, 1 ≤ j → j ≤ 16 → ((List.range i).map fun t => (W (schedule M t) : List F)).getD (i - j) [] = W (schedule M (i - j)) := by
    intro j h1 h2
    rw [List.getD_eq_getElem?_getD, List.getElem?_map, List.getElem?_range (by omega)]; rfl
  rw [schedWord]
  simp only [List.length_map, List.length_range]
  rw [hg 2 (by omega) (by omega), hg 7 (by omega) (by omega), hg 15 (by omega) (by omega), hg 16 (by omega) (by omega), sigma1_W, Rel.pure_bind,
    sigma0_W, Rel.pure_bind]
  simp only [bitArray26_W]
  rw [toWord_holds cn hm (((holds_split _).add (holds_split _)).add ((holds_split _).add (holds_split _))) (by omega) 2 (by decide) (by omega)]
  congr 2
  conv_rhs => rw [schedule, dif_neg (by omega)]
  ac_rfl

theorem extend_enc (M : Nat → W32) : ∀ (n i : Nat), 16 ≤ i →
    extend n ((List.range i).map fun t => (W (schedule M t) : List F)) = pure ((List.range (i + n)).map fun t => W (schedule M t)) := by
  intro n
  induction n with
  | zero => intro i _; rfl
  | succ n ih =>
    intro i hi
    rw [extend, schedWord_eq cn hm M i hi, Rel.pure_bind]
    have e : ((List.range i).map fun t => (W (schedule M t) : List F)) ++ [W (schedule M i)] = (List.range (i + 1)).map fun t => W (schedule M t) := by
      rw [List.range_succ, List.map_append]; rfl
    rw [e, ih (i + 1) (by omega), show i + 1 + n = i + (n + 1) by omega]

theorem round_enc (k w : W32) (s : Vars) : round (W k) (W w) (encSt s : St F) = pure (encSt (step k w s)) := by
  rw [round]
  simp only [encSt]
  rw [capSigma1_W, Rel.pure_bind, ch_W, Rel.pure_bind, capSigma0_W, Rel.pure_bind, maj_W, Rel.pure_bind]
  simp only [bitArray26_W]
  have h1 := ((((holds_split (F := F) s.h).add (holds_split (bigSigma1 s.e))).add ((holds_split (Ch s.e s.f s.g)).add (holds_split k))).add (holds_split w))
  have e1 : s.h + bigSigma1 s.e + (Ch s.e s.f s.g + k) + w = s.h + bigSigma1 s.e + Ch s.e s.f s.g + k + w := by ac_rfl
  rw [e1] at h1
  rw [toWord_holds cn hm (h1.add ((holds_split _).add (holds_split _))) (by omega) 4 (by decide) (by omega), Rel.pure_bind,
    toWord_holds cn hm ((holds_split s.d).add h1) (by omega) 4 (by decide) (by omega), Rel.pure_bind]
  simp only [bitArray26_W]
  rfl

theorem rounds_enc (M : Nat → W32) (s : Vars) : ∀ n m,
    rounds ((List.range' m n).map fun t => ((W (BitVec.ofNat 32 (K.getD t 0)) : List F), W (schedule M t))) (encSt (Fips.rounds M s m)) =
      pure (encSt (Fips.rounds M s (m + n))) := by
  intro n
  induction n with
  | zero => intro m; rfl
  | succ n ih =>
    intro m
    rw [List.range'_succ, List.map_cons, rounds, round_enc cn hm, Rel.pure_bind]
    have := ih (m + 1)
    rw [show m + 1 + n = m + (n + 1) by omega] at this
    rw [← this]
    rfl

theorem initSt_enc (s : Vars) : initSt (encH s : State (F × F)) = pure (encSt s) := by
  have h : ∀ w : W32, toWord (split26 w.toNat : F × F) 0 = pure (W w) := fun w => toWord_holds cn hm (holds_split w) (by omega) 0 (by decide) (by omega)
  unfold initSt
  simp only [encH, h, Rel.pure_bind]
  rfl

theorem addState_enc (x y : Vars) : addState (encH x : State (F × F)) (encSt y) =
    pure (encH ⟨x.a + y.a, x.b + y.b, x.c + y.c, x.d + y.d, x.e + y.e, x.f + y.f, x.g + y.g, x.h + y.h⟩) := by
  unfold addState
  simp only [encH, encSt, shaAdd_split cn hm, Rel.pure_bind]

theorem kBits_zip (M : Nat → W32) : ∀ n ≤ 64, kBits.zip ((List.range n).map fun t => (W (schedule M t) : List F)) =
    (List.range' 0 n).map fun t => ((W (BitVec.ofNat 32 (K.getD t 0)) : List F), W (schedule M t)) := by
  intro n hn
  apply List.ext_getElem?
  intro i
  rw [List.getElem?_map]
  by_cases hi : i < n
  · rw [List.getElem?_range' hi, (List.getElem?_zip_eq_some (z := (W (BitVec.ofNat 32 (K.getD i 0)), W (schedule M i)))).2 ⟨kBits_get (by omega), by rw [List.getElem?_map, List.getElem?_range hi]; rfl⟩]
    simp
  · rw [List.getElem?_eq_none (by simp; omega), List.getElem?_eq_none (by simp; omega)]; rfl

theorem firstWords_enc : ∀ (n : Nat) (bs : List Nat), Bytes bs → 4 * n ≤ bs.length →
    firstWords n (bs.map (Nat.cast : Nat → F)) = pure ((List.range n).map fun t => W (messageWord (bitsOfBytes bs) 0 t)) := by
  intro n
  induction n with
  | zero => intro bs _ _; rfl
  | succ n ih =>
    intro bs hb hl
    rcases bs with _ | ⟨a, _ | ⟨b, _ | ⟨c, _ | ⟨d, bs⟩⟩⟩⟩
    iterate 4 (simp at hl; try omega)
    have h4 : Bytes [a, b, c, d] := fun x hx => hb x (by simp at hx ⊢; tauto)
    rw [firstWords]
    simp only [List.map_cons, List.take_succ_cons, List.take_zero, List.drop_succ_cons, List.drop_zero]
    rw [bytesToBits_four cn hm (h4 a (by simp)) (h4 b (by simp)) (h4 c (by simp)) (h4 d (by simp)), Rel.pure_bind,
      ih bs (fun x hx => hb x (by simp [hx])) (by simp at hl; omega), Rel.pure_bind, List.range_succ_eq_map, List.map_cons, List.map_map]
    congr 2
    rw [messageWord, Nat.mul_zero, Nat.zero_add, List.drop_zero, lb_W, ← ofBits_four h4]
    rfl

theorem block_enc (s : Vars) (bs : List Nat) (hb : Bytes bs) (hl : bs.length = 64) :
    block (encH s : State (F × F)) (bs.map (Nat.cast : Nat → F)) = pure (encH (Fips.block s (messageWord (bitsOfBytes bs) 0))) := by
  have e : ((List.range 16).map fun t => (W (messageWord (bitsOfBytes bs) 0 t) : List F)) =
      (List.range 16).map fun t => W (schedule (messageWord (bitsOfBytes bs) 0) t) := by
    apply List.map_congr_left
    intro t ht
    rw [List.mem_range] at ht
    rw [schedule, dif_pos ht]
  have hr := rounds_enc (F := F) cn hm (messageWord (bitsOfBytes bs) 0) s 64 0
  rw [block, firstWords_enc cn hm 16 bs hb (by omega), Rel.pure_bind, e, extend_enc cn hm _ 48 16 (by omega), Rel.pure_bind, initSt_enc cn hm, Rel.pure_bind,
    kBits_zip cn hm _ _ (by omega)]
  rw [show encSt s = encSt (F := F) (Fips.rounds (messageWord (bitsOfBytes bs) 0) s 0) from rfl, hr, Rel.pure_bind, addState_enc cn hm]
  rfl

theorem chunks_enc (bs : List Nat) (hb : Bytes bs) : ∀ n i, 64 * (i + n) ≤ bs.length →
    chunks n ((bs.drop (64 * i)).map (Nat.cast : Nat → F)) (encH (hashBlocks (bitsOfBytes bs) i)) = pure (encH (hashBlocks (bitsOfBytes bs) (i + n))) := by
  intro n
  induction n with
  | zero => intro i _; rfl
  | succ n ih =>
    intro i h
    rw [chunks, ← List.map_take, ← List.map_drop, block_enc cn hm _ _ (fun b hx => hb b (List.mem_of_mem_drop (List.mem_of_mem_take hx)))
      (by rw [List.length_take, List.length_drop]; omega), Rel.pure_bind, List.drop_drop]
    have e : Fips.block (hashBlocks (bitsOfBytes bs) i) (messageWord (bitsOfBytes ((bs.drop (64 * i)).take 64)) 0) = hashBlocks (bitsOfBytes bs) (i + 1) := by
      rw [hashBlocks]
      apply Verif.Std.Sha.block_congr
      intro t ht
      rw [bitsOfBytes_take, bitsOfBytes_drop, show 8 * (64 * i) = 512 * i by omega]
      exact Verif.Std.Sha.messageWord_chunk _ i t ht
    rw [e]
    have := ih (i + 1) (by omega)
    rw [show 64 * (i + 1) = 64 * i + 64 by omega] at this
    rw [this, show i + 1 + n = i + (n + 1) by omega]

/-- The bytes of a digest. -/
def digestBytes (s : Vars) : List Nat :=
  [s.a, s.b, s.c, s.d, s.e, s.f, s.g, s.h].flatMap fun w => [w.toNat / 2 ^ 24, w.toNat / 2 ^ 16 % 256, w.toNat / 2 ^ 8 % 256, w.toNat % 256]

theorem returnSum_enc (s : Vars) : returnSum (encH s : State (F × F)) = pure ((digestBytes s).map (Nat.cast : Nat → F)) := by
  unfold returnSum
  simp only [encH, putU32_split cn hm, Rel.pure_bind]
  rfl

end

theorem digestBytes_bytes (s : Vars) : Bytes (digestBytes s) := by
  intro b hb
  rw [digestBytes, List.mem_flatMap] at hb
  obtain ⟨w, _, h⟩ := hb
  have := w.isLt
  simp only [List.mem_cons, List.not_mem_nil, or_false] at h
  omega

theorem digestBytes_bits (s : Vars) : bitsOfBytes (digestBytes s) = s.bits := by
  have h : ∀ l : List W32, bitsOfBytes (l.flatMap fun w => [w.toNat / 2 ^ 24, w.toNat / 2 ^ 16 % 256, w.toNat / 2 ^ 8 % 256, w.toNat % 256]) = l.flatMap wordBits := by
    intro l
    induction l with
    | nil => rfl
    | cons w l ih => rw [List.flatMap_cons, List.flatMap_cons, bitsOfBytes_append, ih, wordBits_bytes]
  rw [digestBytes, h]
  simp [Vars.bits]

theorem padBytes_bytes (n : Nat) : Bytes (padBytes n) := by
  intro b hb
  simp only [padBytes, List.mem_append, List.mem_replicate, List.mem_map, List.mem_singleton] at hb
  rcases hb with (rfl | ⟨-, rfl⟩) | ⟨i, -, rfl⟩
  · omega
  · omega
  · exact Nat.mod_lt _ (by omega)

/-- The padding in bytes is the padding in bits. -/
theorem padBytes_bits (msg : List Nat) : ∃ k, IsZeroPad (bitsOfBytes msg).length k ∧ bitsOfBytes (msg ++ padBytes msg.length) = padded (bitsOfBytes msg) k ∧
    64 * ((msg ++ padBytes msg.length).length / 64) = (msg ++ padBytes msg.length).length := by
  have hz : ∀ k, bitsOfBytes (List.replicate k 0) = List.replicate (8 * k) false := by
    intro k
    induction k with
    | zero => rfl
    | succ k ih =>
      have e0 : byteBits 0 = List.replicate 8 false := by decide
      have : bitsOfBytes (List.replicate (k + 1) 0) = byteBits 0 ++ bitsOfBytes (List.replicate k 0) := rfl
      rw [this, ih, e0, List.replicate_append_replicate, show 8 + 8 * k = 8 * (k + 1) by omega]
  have hL : bitsOfBytes ((List.range 8).map fun i => (msg.length * 8) / 256 ^ (7 - i) % 256) = lengthBits (bitsOfBytes msg).length := by
    rw [bitsOfBytes_length, Nat.mul_comm 8]
    generalize msg.length * 8 = X
    have e : (256 : Nat) = 2 ^ 8 := rfl
    simp only [bitsOfBytes, byteBits, lengthBits, List.flatMap_map, e, ← Nat.pow_mul, Nat.testBit_mod_two_pow, Nat.testBit_div_two_pow]
    have : (List.range 64).map (fun i => X.testBit (63 - i)) = (List.range 8).flatMap fun i => (List.range 8).map fun j => X.testBit (63 - (8 * i + j)) := rfl
    rw [this]
    rw [List.flatMap_def, List.flatMap_def]
    congr 1
  have h128 : bitsOfBytes [128] = true :: List.replicate 7 false := by decide
  let p := (if msg.length % 64 > 55 then 128 - msg.length % 64 else 64 - msg.length % 64) - 9
  have hp : (msg.length + 9 + p) % 64 = 0 ∧ p < 64 := by
    simp only [p]; split <;> omega
  have epad : padBytes msg.length = [128] ++ List.replicate p 0 ++ (List.range 8).map fun i => (msg.length * 8) / 256 ^ (7 - i) % 256 := rfl
  have hlen : (msg ++ padBytes msg.length).length = msg.length + 9 + p := by
    rw [epad]; simp; omega
  refine ⟨7 + 8 * p, ?_, ?_, ?_⟩
  · rw [bitsOfBytes_length]
    exact ⟨by omega, fun j hj => by omega⟩
  · rw [epad, bitsOfBytes_append, bitsOfBytes_append, bitsOfBytes_append, hL, hz, h128, padded]
    simp only [List.append_assoc, List.cons_append, List.nil_append]
    rw [← List.append_assoc (List.replicate 7 false), List.replicate_append_replicate]
  · rw [hlen]; omega

/-- The hash of a string of bytes. -/
theorem sha256VarBytes_enc (cn : Canon F) (hm : 2 ^ 30 ≤ cn.modulus) (msg : List Nat) (hb : Bytes msg) :
    ∃ d, Bytes d ∧ IsSha256 (bitsOfBytes msg) (bitsOfBytes d) ∧
      sha256VarBytes (msg.map (Nat.cast : Nat → F)) = pure (d.map (Nat.cast : Nat → F)) := by
  obtain ⟨k, hk, hpad, hlen⟩ := padBytes_bits msg
  have hb' : Bytes (msg ++ padBytes msg.length) := fun b h => (List.mem_append.1 h).elim (hb b) (padBytes_bytes _ b)
  refine ⟨digestBytes (hashBlocks (padded (bitsOfBytes msg) k) ((padded (bitsOfBytes msg) k).length / 512)), digestBytes_bytes _, ⟨k, hk, digestBytes_bits _⟩, ?_⟩
  have hc := chunks_enc (F := F) cn hm _ hb' ((msg ++ padBytes msg.length).length / 64) 0 (by omega)
  rw [Nat.mul_zero, List.drop_zero, Nat.zero_add, hpad] at hc
  have hn : (padded (bitsOfBytes msg) k).length / 512 = (msg ++ padBytes msg.length).length / 64 := by
    rw [← hpad, bitsOfBytes_length]; omega
  rw [sha256VarBytes]
  rw [List.length_map, ← List.map_append, List.length_map, initState_enc]
  have hc' : chunks ((msg ++ padBytes msg.length).length / 64) ((msg ++ padBytes msg.length).map (Nat.cast : Nat → F)) (encH iv) = _ := hc
  rw [hc', Rel.pure_bind, returnSum_enc cn hm, hn]

/-- Only bytes are admitted. -/
theorem bytesLoop_bytes : ∀ (vs : List F) (r l : List F), bytesLoop vs r l → ∀ v ∈ vs, ∃ X : Nat, X < 256 ∧ v = (X : F) := by
  intro vs
  induction vs with
  | nil => intro r l _ v hv; simp at hv
  | cons v vs ih =>
    rintro r l ⟨b, h1, h2⟩ w hw
    rcases List.mem_cons.1 hw with rfl | hw
    · exact toBinary_lt h1
    · exact ih _ _ h2 w hw

theorem bytesToBits_bytes {vs l : List F} (hl : vs ≠ []) (h : bytesToBits vs l) : ∀ v ∈ vs, ∃ X : Nat, X < 256 ∧ v = (X : F) := by
  obtain ⟨b, h1, h2⟩ := h
  cases vs with
  | nil => exact absurd rfl hl
  | cons v vs =>
    intro w hw
    rcases List.mem_cons.1 hw with rfl | hw
    · exact toBinary_lt h1
    · exact bytesLoop_bytes _ _ _ h2 w hw

theorem firstWords_bytes : ∀ (n : Nat) (p : List F) (l : List (List F)), 4 * n ≤ p.length → firstWords n p l → ∀ v ∈ p.take (4 * n), ∃ X : Nat, X < 256 ∧ v = (X : F) := by
  intro n
  induction n with
  | zero => intro p l _ _ v hv; simp at hv
  | succ n ih =>
    rintro p l hl ⟨w, h1, rest, h2, -⟩ v hv
    rw [show 4 * (n + 1) = 4 + 4 * n by omega, List.take_add, List.mem_append] at hv
    rcases hv with hv | hv
    · exact bytesToBits_bytes (by intro h; have := congrArg List.length h; rw [List.length_take, List.length_nil] at this; omega) h1 v hv
    · exact ih _ _ (by rw [List.length_drop]; omega) h2 v hv

theorem chunks_bytes : ∀ (n : Nat) (p : List F) (h o : State (F × F)), 64 * n ≤ p.length → chunks n p h o → ∀ v ∈ p.take (64 * n), ∃ X : Nat, X < 256 ∧ v = (X : F) := by
  intro n
  induction n with
  | zero => intro p h o _ _ v hv; simp at hv
  | succ n ih =>
    rintro p h o hl ⟨h', h1, h2⟩ v hv
    rw [show 64 * (n + 1) = 64 + 64 * n by omega, List.take_add, List.mem_append] at hv
    rcases hv with hv | hv
    · obtain ⟨w0, h3, -⟩ := h1
      have := firstWords_bytes 16 _ w0 (by rw [List.length_take]; omega) h3
      rw [List.take_take] at this
      exact this v hv
    · exact ih _ _ _ (by rw [List.length_drop]; omega) h2 v hv

theorem bytes_of (l : List F) (h : ∀ v ∈ l, ∃ X : Nat, X < 256 ∧ v = (X : F)) : ∃ msg, Bytes msg ∧ l = msg.map (Nat.cast : Nat → F) := by
  induction l with
  | nil => exact ⟨[], fun _ h => by simp at h, rfl⟩
  | cons v l ih =>
    obtain ⟨X, hX, rfl⟩ := h v (by simp)
    obtain ⟨msg, h1, rfl⟩ := ih fun w hw => h w (by simp [hw])
    exact ⟨X :: msg, fun b hb => (List.mem_cons.1 hb).elim (fun e => e ▸ hX) (h1 b), rfl⟩

theorem sha256VarBytes_bytes {data out : List F} (h : sha256VarBytes data out) : ∃ msg, Bytes msg ∧ data = msg.map (Nat.cast : Nat → F) := by
  obtain ⟨o, h1, -⟩ := h
  have hl : data.length ≤ 64 * ((data ++ (padBytes data.length).map (Nat.cast : Nat → F)).length / 64) := by
    have := (padBytes_bits (List.replicate data.length 0)).choose_spec.2.2
    simp only [List.length_append, List.length_replicate, List.length_map] at this ⊢
    omega
  have := chunks_bytes _ _ _ _ (by omega) h1
  exact bytes_of data fun v hv => this v (by
    rw [List.take_append]
    rw [List.take_of_length_le hl]
    simp [hv])

theorem sha256_37bytes_eq (data : List F) (h : data.length = 37) : sha256_37bytes data = sha256VarBytes data := by
  unfold sha256_37bytes sha256VarBytes
  rw [if_pos h]
  have e : padBytes 37 = [128] ++ List.replicate 24 0 ++ [37 * 8 / 256, (32 + 1 + 4) * 8 - 256] := by decide
  dsimp only
  rw [h, ← e]
  have hl : (data ++ (padBytes 37).map (Nat.cast : Nat → F)).length = 64 := by rw [List.length_append, h, List.length_map]; decide
  rw [hl]
  simp only [chunks]
  rw [List.take_of_length_le (by omega)]
  funext out
  apply propext
  constructor
  · rintro ⟨s, h1, h2⟩; exact ⟨s, ⟨s, h1, rfl⟩, h2⟩
  · rintro ⟨s, ⟨s', h1, h3⟩, h2⟩; cases h3; exact ⟨_, h1, h2⟩

end Verif.Std.ShaM31
