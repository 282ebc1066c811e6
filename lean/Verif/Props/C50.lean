import Verif.Std.ShaM31Batch
/-!
C50: the SHA-256 gadget over large fields (M31) admits the SHA-256 digest and nothing else.

A gadget is modelled as the set of results its constraints admit, for every prover (`Rel`): bit decompositions are any booleans
with the right sum.  The specification is FIPS 180-4 (`Verif.Fips.IsSha256`), as in C43.  `Bytes l` says that all numbers of `l`
are below 256, `bitsOfBytes l` are their bits, most significant first.
-/
set_option linter.unusedSectionVars false
namespace Verif.Props
open Verif.Std.ShaM31 Verif.Fips Verif.Hints

variable {F : Type} [Field F] [DecidableEq F]

theorem C50_sha_unique {msg d e : List Bool} (h : IsSha256 msg d) (g : IsSha256 msg e) : d = e := by
  obtain ⟨k, hk, rfl⟩ := h
  obtain ⟨j, hj, rfl⟩ := g
  rw [Nat.le_antisymm (hk.2 j hj.1) (hj.2 k hk.1)]

/-- `sha256_var_bytes`, on any number of field elements: it is satisfiable exactly if they are bytes, and its only result is the
digest of these bytes. -/
theorem C50_hash (cn : Canon F) (hm : 2 ^ 30 ≤ cn.modulus) (data out : List F) :
    sha256VarBytes data out ↔ ∃ msg d, Bytes msg ∧ Bytes d ∧ data = msg.map (Nat.cast : Nat → F) ∧ out = d.map (Nat.cast : Nat → F) ∧
      IsSha256 (bitsOfBytes msg) (bitsOfBytes d) := by
  constructor
  · intro h
    obtain ⟨msg, hb, rfl⟩ := sha256VarBytes_bytes h
    obtain ⟨d, hd, hs, he⟩ := sha256VarBytes_enc cn hm msg hb
    rw [he] at h
    exact ⟨msg, d, hb, hd, rfl, h, hs⟩
  · rintro ⟨msg, d, hb, hd, rfl, rfl, hs⟩
    obtain ⟨e, he, hs', h⟩ := sha256VarBytes_enc cn hm msg hb
    rw [h, bitsOfBytes_inj hd he (C50_sha_unique hs hs')]
    rfl

/-- `sha256_37bytes` is the same function on 37 bytes. -/
theorem C50_37bytes (cn : Canon F) (hm : 2 ^ 30 ≤ cn.modulus) (data out : List F) :
    sha256_37bytes data out ↔ data.length = 37 ∧ ∃ msg d, Bytes msg ∧ Bytes d ∧ data = msg.map (Nat.cast : Nat → F) ∧ out = d.map (Nat.cast : Nat → F) ∧
      IsSha256 (bitsOfBytes msg) (bitsOfBytes d) := by
  by_cases h : data.length = 37
  · rw [sha256_37bytes_eq data h, C50_hash cn hm]
    exact ⟨fun g => ⟨h, g⟩, fun g => g.2⟩
  · constructor
    · intro g; unfold sha256_37bytes at g; rw [if_neg h] at g; exact g.elim
    · exact fun g => absurd g.1 h

/-- `sha256_37bytes_compress`, on the bits of any 37-byte message in the order the gadget expects: the only result is the digest. -/
theorem C50_compress (cn : Canon F) (hm : 2 ^ 30 ≤ cn.modulus) (msg : List Bool) (h : msg.length = 296) (out : List F) :
    sha256_37compress (encBits (gadgetOrder msg)) out ↔ ∃ d, Bytes d ∧ out = d.map (Nat.cast : Nat → F) ∧ IsSha256 msg (bitsOfBytes d) := by
  rw [sha256_37compress_enc cn hm msg h]
  constructor
  · intro g; exact ⟨_, digestBytes_bytes _, g, digest37 cn hm msg h⟩
  · rintro ⟨d, hd, rfl, hs⟩
    rw [bitsOfBytes_inj hd (digestBytes_bytes _) (C50_sha_unique hs (digest37 cn hm msg h))]
    rfl

/-- `sha256_37bytes_256batch_compress`, on any number of 37-byte messages with equal first 32 bytes: the digests, in order. -/
theorem C50_batch (cn : Canon F) (hm : 2 ^ 30 ≤ cn.modulus) (msgs : List (List Bool)) (h : ∀ m ∈ msgs, m.length = 296)
    (hs : ∀ x ∈ msgs, ∀ y ∈ msgs, x.take 256 = y.take 256) (outs : List (List F)) :
    sha256_37batch (msgs.map fun m => encBits (gadgetOrder m)) outs ↔
      List.Forall₂ (fun m out => ∃ d, Bytes d ∧ out = d.map (Nat.cast : Nat → F) ∧ IsSha256 m (bitsOfBytes d)) msgs outs := by
  rw [batch_enc cn hm msgs h hs]
  have key : ∀ (l : List (List Bool)) (os : List (List F)), (∀ m ∈ l, m.length = 296) →
      (os = l.map (fun m => (digest37of m).map (Nat.cast : Nat → F)) ↔
        List.Forall₂ (fun m out => ∃ d, Bytes d ∧ out = d.map (Nat.cast : Nat → F) ∧ IsSha256 m (bitsOfBytes d)) l os) := by
    intro l
    induction l with
    | nil => intro os _; simp
    | cons m l ih =>
      intro os hl
      have h1 := hl m (by simp)
      cases os with
      | nil => simp
      | cons o os =>
        rw [List.map_cons, List.cons.injEq, List.forall₂_cons, ih os fun x hx => hl x (by simp [hx])]
        refine and_congr ⟨fun g => ⟨_, digestBytes_bytes _, g, digest37 cn hm m h1⟩, ?_⟩ Iff.rfl
        rintro ⟨d, hd, rfl, hs⟩
        rw [bitsOfBytes_inj hd (digestBytes_bytes _) (C50_sha_unique hs (digest37 cn hm m h1))]
        rfl
  exact key msgs outs h

/-- Without the condition on the first 32 bytes the batch variant is wrong: of two messages that agree on the first 28 bytes and
differ in the next four, the second one gets a wrong digest, and only this one is admitted. -/
theorem C50_batch_violated (cn : Canon F) (hm : 2 ^ 30 ≤ cn.modulus) (m x : List Bool) (h1 : m.length = 296) (h2 : x.length = 296)
    (h3 : m.take 224 = x.take 224) (h4 : m.take 256 ≠ x.take 256) :
    ∃ d e, Bytes d ∧ Bytes e ∧ IsSha256 m (bitsOfBytes d) ∧ ¬ IsSha256 x (bitsOfBytes e) ∧
      ∀ outs : List (List F), sha256_37batch [encBits (gadgetOrder m), encBits (gadgetOrder x)] outs ↔
        outs = [d.map (Nat.cast : Nat → F), e.map (Nat.cast : Nat → F)] := by
  have hb := batch_from cn hm m [x] (by simp [h1, h2])
  refine ⟨digest37of m, digestBytes (finish iv (Verif.Fips.rounds (messageWord (padded m 151) 0) iv 8) (messageWord (padded x 151) 0)),
    digestBytes_bytes _, digestBytes_bytes _, digest37 cn hm m h1, ?_, fun outs => ?_⟩
  rotate_left
  · simp only [List.map_cons, List.map_nil, finish_block] at hb
    rw [hb]
    exact Iff.rfl
  · intro h
    exact batch_wrong h1 h2 h3 h4 (bitsOfBytes_inj (digestBytes_bytes _) (digestBytes_bytes _) (C50_sha_unique h (digest37 cn hm x h2)))

/-- The bit variants do not check that their inputs are bits: for every message whose first word ends with the bits 1, 0, an input
with a 2 in it is admitted with the same digest. -/
theorem C50_bits_violated (cn : Canon F) (hm : 2 ^ 30 ≤ cn.modulus) (w t : List Bool) (h1 : w.length = 30) (h2 : t.length = 264) :
    ∃ (data out : List F), (∃ v ∈ data, v ≠ 0 ∧ v ≠ 1) ∧ sha256_37compress data out ∧
      sha256_37compress (encBits (gadgetOrder (w ++ [true, false] ++ t))) out := by
  have hl : (w ++ [true, false] ++ t).length = 296 := by simp [h1, h2]
  have hg : ∃ r : List F, encBits (gadgetOrder (w ++ [true, false] ++ t)) = ([0, 1] ++ encBits w.reverse) ++ r := by
    refine ⟨encBits (((List.range 8).flatMap fun s => (((w ++ [true, false] ++ t).drop (32 * (s + 1))).take 32).reverse) ++ (w ++ [true, false] ++ t).drop 288), ?_⟩
    have e0 : ((w ++ [true, false] ++ t).drop (32 * 0)).take 32 = w ++ [true, false] := by
      rw [Nat.mul_zero, List.drop_zero, List.take_left' (by simp [h1])]
    rw [gadgetOrder, List.range_succ_eq_map, List.flatMap_cons, List.flatMap_map, e0]
    simp only [encBits, List.map_append, List.append_assoc, List.reverse_append]
    rfl
  obtain ⟨r, hr⟩ := hg
  have hd : sha256_37compress (encBits (gadgetOrder (w ++ [true, false] ++ t)) : List F)
      ((digest37of (w ++ [true, false] ++ t)).map (Nat.cast : Nat → F)) := by rw [sha256_37compress_enc cn hm _ hl]; rfl
  have h2F : (2 : F) ≠ 0 ∧ (2 : F) ≠ 1 := by
    have e : ∀ k, k < 3 → cn.toNat ((k : Nat) : F) = k := fun k hk => cn.toNat_cast k (by omega)
    constructor
    · intro h
      have a := e 2 (by omega); have b := e 0 (by omega)
      rw [Nat.cast_ofNat, h] at a; rw [Nat.cast_zero] at b; omega
    · intro h
      have a := e 2 (by omega); have b := e 1 (by omega)
      rw [Nat.cast_ofNat, h] at a; rw [Nat.cast_one] at b; omega
  refine ⟨([2, 0] ++ encBits w.reverse) ++ r, _, ⟨2, by simp, h2F⟩, ?_, hd⟩
  rw [hr] at hd
  refine compress_first ?_ (by simp [encBits, h1]) (by simp [encBits, h1]) r _ hd
  have e1 : ∀ a b : F, bitArray26 ([a, b] ++ encBits w.reverse) = (a + 2 * (b + 2 * fromBinary ((encBits w.reverse : List F).take 24)), fromBinary ((encBits w.reverse : List F).drop 24)) := by
    intro a b
    rw [bitArray26]
    simp only [List.cons_append, List.nil_append, List.take_succ_cons, List.drop_succ_cons, fromBinary_eq, Verif.Builder.bitsSum]
  rw [e1, e1]
  congr 1
  ring

/-- The field of the gadget, and other instances: any prime above 2^30 will do. -/
example (p : Nat) [Fact p.Prime] (h1 : p < 2 ^ 256) (h2 : 2 ^ 30 ≤ p) : ∀ (out : List (ZMod p)),
    sha256VarBytes ([0x61, 0x62, 0x63].map (Nat.cast : Nat → ZMod p)) out → out.length = 32 := by
  intro out h
  obtain ⟨msg, d, -, -, -, rfl, ⟨k, -, hk⟩⟩ := (C50_hash (Canon.zmod p h1) h2 _ _).1 h
  have := congrArg List.length hk
  rw [bitsOfBytes_length, Vars.bits] at this
  simp [wordBits] at this
  rw [List.length_map]; omega

/-- The conditions of `C50_batch`, `C50_batch_violated` and `C50_bits_violated` are met. -/
example : ∃ a b : List Bool, a.length = 296 ∧ b.length = 296 ∧ a ≠ b ∧ a.take 256 = b.take 256 :=
  ⟨List.replicate 256 false ++ List.replicate 40 false, List.replicate 256 false ++ List.replicate 40 true, by decide +kernel⟩
example : ∃ a b : List Bool, a.length = 296 ∧ b.length = 296 ∧ a.take 224 = b.take 224 ∧ a.take 256 ≠ b.take 256 :=
  ⟨List.replicate 224 false ++ List.replicate 72 false, List.replicate 224 false ++ List.replicate 72 true, by decide +kernel⟩
example : ∃ w t : List Bool, w.length = 30 ∧ t.length = 264 := ⟨List.replicate 30 false, List.replicate 264 false, by decide +kernel⟩

end Verif.Props
