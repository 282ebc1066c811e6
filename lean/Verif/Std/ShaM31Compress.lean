import Verif.Std.ShaM31Root
/-!
The variants of the gadget for 37-byte messages given as bits.
-/
set_option linter.unusedSimpArgs false
set_option linter.unusedSectionVars false
namespace Verif.Std.ShaM31
open Verif.IR Verif.IR.Source Verif.Builder Verif.Fips Verif.Frontend
open Verif.Hints
open Verif.Std.Sha (State kTable)

/-- The order in which the gadget expects the bits of a 37-byte message: each of the nine whole words least significant bit first,
the last byte most significant bit first. -/
def gadgetOrder (msg : List Bool) : List Bool :=
  ((List.range 9).flatMap fun t => ((msg.drop (32 * t)).take 32).reverse) ++ msg.drop 288

variable {F : Type} [Field F] [DecidableEq F]

def encBits (l : List Bool) : List F := l.map ofBool

theorem W_ofBits (l : List Bool) (h : l.length = 32) : (W (ofBits l) : List F) = encBits l.reverse := by
  rw [W_eq, encBits]
  congr 1
  have h1 := Verif.Std.Sha.bits_ofBits l h
  have h2 : Verif.Fips.wordBits (ofBits l) = l := by
    have := h1
    rw [Verif.Std.Sha.bits, Verif.Std.Sha.enc, Verif.Std.Sha.enc] at this
    exact List.map_injective_iff.2 (fun _ _ => Verif.Std.Sha.encB_inj) this
  apply List.ext_getElem?
  intro i
  rw [WB_get]
  by_cases hi : i < 32
  · rw [if_pos hi, List.getElem?_reverse (by omega), h]
    have h3 : l[32 - 1 - i]? = (wordBits (ofBits l))[32 - 1 - i]? := by rw [h2]
    rw [h3, wordBits, List.getElem?_map, List.getElem?_range (by omega), Option.map_some]
    congr 2
    omega
  · rw [if_neg hi, List.getElem?_eq_none (by simp; omega)]

theorem bitWords_append : ∀ (n k : Nat) (a b : List F), a.length = 32 * n → bitWords (n + k) (a ++ b) = bitWords n a ++ bitWords k b := by
  intro n
  induction n with
  | zero => intro k a b h; rw [List.length_eq_zero_iff.1 (show a.length = 0 by omega)]; simp [bitWords]
  | succ n ih =>
    intro k a b h
    rw [show n + 1 + k = (n + k) + 1 by omega, bitWords, bitWords, List.take_append_of_le_length (by omega), List.drop_append_of_le_length (by omega),
      ih k _ b (by rw [List.length_drop]; omega)]
    rfl

/-- The words read from reversed words. -/
theorem bitWords_rev : ∀ (n : Nat) (m : List Bool), 32 * n ≤ m.length →
    bitWords n (encBits ((List.range n).flatMap fun t => ((m.drop (32 * t)).take 32).reverse) : List F) =
      (List.range n).map fun t => W (messageWord m 0 t) := by
  intro n
  induction n with
  | zero => intro m _; rfl
  | succ n ih =>
    intro m h
    have hw := W_ofBits (F := F) (m.take 32) (by rw [List.length_take]; omega)
    have e : ((List.range (n + 1)).flatMap fun t => ((m.drop (32 * t)).take 32).reverse) =
        (m.take 32).reverse ++ (List.range n).flatMap fun t => (((m.drop 32).drop (32 * t)).take 32).reverse := by
      rw [List.range_succ_eq_map, List.flatMap_cons, List.flatMap_map]
      congr 1
      rw [List.flatMap_def, List.flatMap_def]
      congr 1
      apply List.map_congr_left
      intro t _
      rw [List.drop_drop]
      congr 3
      omega
    have hl : ((m.take 32).reverse.map ofBool : List F).length = 32 := by rw [List.length_map, List.length_reverse, List.length_take]; omega
    have := ih (m.drop 32) (by rw [List.length_drop]; omega)
    rw [encBits] at this
    rw [e, encBits, List.map_append, bitWords, List.take_append_of_le_length (by omega), List.take_of_length_le (by omega), List.drop_append_of_le_length (by omega),
      List.drop_of_length_le (by omega), List.nil_append, this, List.range_succ_eq_map, List.map_cons, List.map_map]
    congr 1
    · rw [← encBits, ← hw, messageWord]; rfl
    · apply List.map_congr_left
      intro t _
      simp only [Function.comp, messageWord]
      rw [List.drop_drop]
      congr 4
      omega

/-- A list of eight. -/
theorem eight {α : Type} (l : List α) (h : l.length = 8) : ∃ a b c d e f g i, l = [a, b, c, d, e, f, g, i] := by
  rcases l with _ | ⟨a, _ | ⟨b, _ | ⟨c, _ | ⟨d, _ | ⟨e, _ | ⟨f, _ | ⟨g, _ | ⟨i, _ | ⟨j, l⟩⟩⟩⟩⟩⟩⟩⟩⟩ <;> simp at h
  exact ⟨a, b, c, d, e, f, g, i, rfl⟩

theorem padded37 (m r : List Bool) (h : m.length + r.length = 296) : padded (m ++ r) 151 = m ++ (r ++ (true :: List.replicate 151 false) ++ lengthBits 296) := by
  rw [padded, List.length_append, h]; simp

set_option maxRecDepth 20000 in
/-- The padded words. -/
theorem padBits_words (msg : List Bool) (h : msg.length = 296) :
    bitWords 16 (padBits (encBits (gadgetOrder msg)) : List F) = (List.range 16).map fun t => W (messageWord (padded msg 151) 0 t) := by
  obtain ⟨m, r, rfl, hm, hr⟩ : ∃ m r, msg = m ++ r ∧ m.length = 288 ∧ r.length = 8 :=
    ⟨msg.take 288, msg.drop 288, (List.take_append_drop _ _).symm, by rw [List.length_take]; omega, by rw [List.length_drop]; omega⟩
  have e1 : gadgetOrder (m ++ r) = ((List.range 9).flatMap fun t => ((m.drop (32 * t)).take 32).reverse) ++ r := by
    rw [gadgetOrder, List.drop_left' hm]
    congr 1
    rw [List.flatMap_def, List.flatMap_def]
    congr 1
    apply List.map_congr_left
    intro t ht
    rw [List.mem_range] at ht
    rw [List.drop_append_of_le_length (by omega), List.take_append_of_le_length (by rw [List.length_drop]; omega)]
  have e2 : (List.range 16) = List.range 9 ++ (List.range 7).map (9 + ·) := by decide
  rw [e1, padded37 m r (by omega), e2, List.map_append, List.map_map]
  generalize hA : ((List.range 9).flatMap fun t => ((m.drop (32 * t)).take 32).reverse) = A
  have hAl : A.length = 288 := by
    rw [← hA, List.length_flatMap, List.map_congr_left (g := fun _ => 32)]
    · rfl
    · intro t ht
      rw [List.mem_range] at ht
      rw [List.length_reverse, List.length_take, List.length_drop]; omega
  have hBl : (encBits A : List F).length = 288 := by rw [encBits, List.length_map, hAl]
  have e3 : padBits (encBits (A ++ r) : List F) = encBits A ++ (padBits (encBits (List.replicate 288 false ++ r))).drop 288 := by
    have e4 : ∀ B : List F, B.length = 288 → padBits (B ++ encBits r) =
        B ++ (((encBits r ++ (List.range 216).map fun i => if i = 0 ∨ i = 207 ∨ i = 210 ∨ i = 212 then (1 : F) else 0).take 32).reverse ++
          (((encBits r ++ (List.range 216).map fun i => if i = 0 ∨ i = 207 ∨ i = 210 ∨ i = 212 then (1 : F) else 0).drop 32).take 160) ++
          ((encBits r ++ (List.range 216).map fun i => if i = 0 ∨ i = 207 ∨ i = 210 ∨ i = 212 then (1 : F) else 0).drop 192).reverse) := by
      intro B hB
      have hrl : (encBits r : List F).length = 8 := by rw [encBits, List.length_map, hr]
      rw [padBits]
      generalize hP : ((List.range 216).map fun i => if i = 0 ∨ i = 207 ∨ i = 210 ∨ i = 212 then (1 : F) else 0) = P
      have hPl : P.length = 216 := by rw [← hP]; simp
      generalize hQ : encBits r ++ P = Q
      have hQl : Q.length = 224 := by rw [← hQ, List.length_append, hrl, hPl]
      rw [List.append_assoc B, hQ, List.take_left' hB, List.drop_left' hB, show 320 = B.length + 32 by omega, List.drop_length_add_append]
      generalize hR : (Q.take 32).reverse = R
      have hRl : R.length = 32 := by rw [← hR, List.length_reverse, List.length_take]; omega
      rw [List.append_assoc B R, show 480 = B.length + 192 by omega, List.take_length_add_append, List.drop_length_add_append, show 192 = R.length + 160 by omega,
        List.take_length_add_append, List.drop_length_add_append, List.drop_drop, hRl]
      simp only [List.append_assoc]
    have hz : (encBits (List.replicate 288 false) : List F).length = 288 := by rw [encBits, List.length_map, List.length_replicate]
    have ea : ∀ a b : List Bool, (encBits (a ++ b) : List F) = encBits a ++ encBits b := fun a b => List.map_append
    rw [ea, ea, e4 _ hBl, e4 _ hz, List.drop_left' hz]
  rw [e3, show (16 : Nat) = 9 + 7 from rfl, bitWords_append 9 7 _ _ (by omega), ← hA, bitWords_rev 9 m (by omega)]
  refine congrArg₂ (· ++ ·) ?_ ?_
  · apply List.map_congr_left
    intro t ht
    rw [List.mem_range] at ht
    rw [messageWord, messageWord, List.drop_append_of_le_length (by omega), List.take_append_of_le_length (by rw [List.length_drop]; omega)]
  · have e5 : ∀ (l : List Bool) (t : Nat), messageWord (m ++ l) 0 (9 + t) = messageWord l 0 t := by
      intro l t
      rw [messageWord, messageWord, show 512 * 0 + 32 * (9 + t) = m.length + (512 * 0 + 32 * t) by omega, List.drop_length_add_append]
    obtain ⟨a, b, c, d, e, f, g, i, rfl⟩ := eight r hr
    simp only [Function.comp_def, e5]
    simp only [messageWord]
    rw [show (List.range 7) = [0, 1, 2, 3, 4, 5, 6] from rfl]
    simp only [List.map_cons, List.map_nil]
    rw [W_ofBits _ rfl, W_ofBits _ rfl, W_ofBits _ rfl, W_ofBits _ rfl, W_ofBits _ rfl, W_ofBits _ rfl, W_ofBits _ rfl]
    rfl

section
variable (cn : Canon F) (hm : 2 ^ 30 ≤ cn.modulus)
include hm

theorem first8_enc (M : Nat → W32) (s : Vars) {p : List F} (hp : bitWords 16 p = (List.range 16).map fun t => W (M t)) :
    first8 (encH s) p = pure (encH (Fips.rounds M s 8)) := by
  have e : bitWords 8 p = (List.range 8).map fun t => (W (schedule M t) : List F) := by
    have h8 : ∀ (n k : Nat) (q : List F), (bitWords (n + k) q).take n = bitWords n q := by
      intro n
      induction n with
      | zero => intro k q; rfl
      | succ n ih => intro k q; rw [show n + 1 + k = (n + k) + 1 by omega, bitWords, List.take_succ_cons, ih, bitWords]
    rw [← h8 8 8 p, hp, ← List.map_take]
    apply List.map_congr_left
    intro t ht
    have : t < 16 := List.mem_range.1 (List.mem_of_mem_take ht)
    rw [schedule, dif_pos this]
  have hr := rounds_enc (F := F) cn hm M s 8 0
  rw [first8, initSt_enc cn hm, Rel.pure_bind, e, kBits_zip cn hm _ _ (by omega), show encSt s = encSt (F := F) (Fips.rounds M s 0) from rfl, hr, Rel.pure_bind]
  rfl

theorem blockCompress_enc (M : Nat → W32) (s : Vars) {p : List F} (hp : bitWords 16 p = (List.range 16).map fun t => W (M t)) :
    blockCompress (encH (Fips.rounds M s 8)) (encH s) p = pure (encH (Fips.block s M)) := by
  have e : bitWords 16 p = (List.range 16).map fun t => (W (schedule M t) : List F) := by
    rw [hp]
    apply List.map_congr_left
    intro t ht
    rw [List.mem_range] at ht
    rw [schedule, dif_pos ht]
  have hr := rounds_enc (F := F) cn hm M s 56 8
  have hd : ((List.range' 0 64).map fun t => ((W (BitVec.ofNat 32 (K.getD t 0)) : List F), (W (schedule M t) : List F))).drop 8 =
      (List.range' 8 56).map fun t => ((W (BitVec.ofNat 32 (K.getD t 0)) : List F), (W (schedule M t) : List F)) := by rw [← List.map_drop]; rfl
  rw [blockCompress, e, extend_enc cn hm M 48 16 (by omega), Rel.pure_bind, initSt_enc cn hm, Rel.pure_bind, kBits_zip cn hm _ _ (by omega), hd, hr, Rel.pure_bind,
    addState_enc cn hm]
  rfl

/-- The digest of a 37-byte message. -/
theorem digest37 (msg : List Bool) (h : msg.length = 296) : IsSha256 msg (bitsOfBytes (digestBytes (Fips.block iv (messageWord (padded msg 151) 0)))) := by
  refine ⟨151, ⟨by omega, fun j hj => by omega⟩, ?_⟩
  rw [digestBytes_bits]
  have : (padded msg 151).length / 512 = 1 := by rw [Verif.Std.Sha.padded_length, h]
  rw [this]
  rfl

theorem sha256_37compress_enc (msg : List Bool) (h : msg.length = 296) :
    sha256_37compress (encBits (gadgetOrder msg) : List F) = pure ((digestBytes (Fips.block iv (messageWord (padded msg 151) 0))).map (Nat.cast : Nat → F)) := by
  have hl : (encBits (gadgetOrder msg) : List F).length = 296 := by
    have hgo : (gadgetOrder msg).length = 296 := by
      rw [gadgetOrder, List.length_append, List.length_drop, List.length_flatMap, List.map_congr_left (g := fun _ => 32), h]
      · rfl
      · intro t ht
        rw [List.mem_range] at ht
        rw [List.length_reverse, List.length_take, List.length_drop]; omega
    rw [encBits, List.length_map, hgo]
  unfold sha256_37compress
  rw [if_pos hl, initState_enc, first8_enc cn hm _ iv (padBits_words msg h), Rel.pure_bind, blockCompress_enc cn hm _ iv (padBits_words msg h), Rel.pure_bind,
    returnSum_enc cn hm]

end
end Verif.Std.ShaM31
