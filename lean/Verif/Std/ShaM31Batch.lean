import Verif.Std.ShaM31Compress
/-!
The batch variant of the gadget, and what the bit variants do not check.
-/
set_option linter.unusedSimpArgs false
set_option linter.unusedSectionVars false
namespace Verif.Std.ShaM31
open Verif.IR Verif.IR.Source Verif.Builder Verif.Fips Verif.Frontend
open Verif.Hints
open Verif.Std.Sha (State kTable)

variable {F : Type} [Field F] [DecidableEq F]

/-- The bytes of the digest of a 37-byte message. -/
def digest37of (msg : List Bool) : List Nat := digestBytes (Fips.block iv (messageWord (padded msg 151) 0))

/-- `n` rounds from round `m` on, from any state. -/
def roundsFrom (M : Nat → W32) : Vars → Nat → Nat → Vars
  | v, _, 0 => v
  | v, m, n + 1 => roundsFrom M (step (BitVec.ofNat 32 (K.getD m 0)) (schedule M m) v) (m + 1) n

theorem rounds_add (M : Nat → W32) (s : Vars) : ∀ n m, Fips.rounds M s (m + n) = roundsFrom M (Fips.rounds M s m) m n := by
  intro n
  induction n with
  | zero => intro m; rfl
  | succ n ih => intro m; rw [roundsFrom, show m + (n + 1) = (m + 1) + n by omega, ih (m + 1)]; rfl

theorem addR {a b c : W32} (h : a + c = b + c) : a = b := by
  have := congrArg (· - c) h
  simpa [BitVec.add_sub_cancel] using this

theorem addL {a b c : W32} (h : c + a = c + b) : a = b := by
  rw [BitVec.add_comm c, BitVec.add_comm c] at h; exact addR h

theorem step_inj {k w : W32} {s t : Vars} (h : step k w s = step k w t) : s = t := by
  obtain ⟨a, b, c, d, e, f, g, i⟩ := s
  obtain ⟨a', b', c', d', e', f', g', i'⟩ := t
  simp only [step, Vars.mk.injEq] at h
  obtain ⟨h1, rfl, rfl, rfl, h2, rfl, rfl, rfl⟩ := h
  have h3 := addR h1
  rw [h3] at h2
  have h4 := addR h2
  have h5 := addR (addR (addR (addR h3)))
  rw [h4, h5]

/-- A round shows its word of the schedule. -/
theorem step_word {k w w' : W32} {s : Vars} (h : step k w s = step k w' s) : w = w' := by
  simp only [step, Vars.mk.injEq] at h
  exact addL (addR h.1)

theorem roundsFrom_inj (M : Nat → W32) : ∀ (n m : Nat) {s t : Vars}, roundsFrom M s m n = roundsFrom M t m n → s = t := by
  intro n
  induction n with
  | zero => intro m s t h; exact h
  | succ n ih => intro m s t h; exact step_inj (ih (m + 1) h)

/-- The hash, when the state after eight rounds is `v`. -/
def finish (s v : Vars) (M : Nat → W32) : Vars :=
  let r := roundsFrom M v 8 56
  { a := s.a + r.a, b := s.b + r.b, c := s.c + r.c, d := s.d + r.d, e := s.e + r.e, f := s.f + r.f, g := s.g + r.g, h := s.h + r.h }

theorem finish_block (s : Vars) (M : Nat → W32) : finish s (Fips.rounds M s 8) M = Fips.block s M := by
  rw [finish, Fips.block, ← rounds_add]

theorem finish_inj {s v v' : Vars} {M : Nat → W32} (h : finish s v M = finish s v' M) : v = v' := by
  apply roundsFrom_inj M 56 8
  simp only [finish, Vars.mk.injEq] at h
  obtain ⟨h1, h2, h3, h4, h5, h6, h7, h8⟩ := h
  have h1 := addL h1
  have h2 := addL h2
  have h3 := addL h3
  have h4 := addL h4
  have h5 := addL h5
  have h6 := addL h6
  have h7 := addL h7
  have h8 := addL h8
  generalize roundsFrom M v 8 56 = x at *
  generalize roundsFrom M v' 8 56 = y at *
  cases x; cases y
  simp_all

theorem digestBytes_inj {s t : Vars} (h : digestBytes s = digestBytes t) : s = t := by
  have hw : ∀ x y : W32, [x.toNat / 2 ^ 24, x.toNat / 2 ^ 16 % 256, x.toNat / 2 ^ 8 % 256, x.toNat % 256] =
      [y.toNat / 2 ^ 24, y.toNat / 2 ^ 16 % 256, y.toNat / 2 ^ 8 % 256, y.toNat % 256] → x = y := by
    intro x y h
    simp only [List.cons.injEq, and_true] at h
    apply BitVec.eq_of_toNat_eq
    omega
  have hl : ∀ l l' : List W32, l.length = l'.length →
      (l.flatMap fun w => [w.toNat / 2 ^ 24, w.toNat / 2 ^ 16 % 256, w.toNat / 2 ^ 8 % 256, w.toNat % 256]) =
        (l'.flatMap fun w => [w.toNat / 2 ^ 24, w.toNat / 2 ^ 16 % 256, w.toNat / 2 ^ 8 % 256, w.toNat % 256]) → l = l' := by
    intro l
    induction l with
    | nil => intro l' h1 _; exact (List.length_eq_zero_iff.1 h1.symm).symm
    | cons x l ih =>
      intro l' h1 h2
      cases l' with
      | nil => simp at h1
      | cons y l' =>
        rw [List.flatMap_cons, List.flatMap_cons] at h2
        obtain ⟨h3, h4⟩ := List.append_inj h2 rfl
        rw [hw x y h3, ih l' (by simpa using h1) h4]
  have := hl [s.a, s.b, s.c, s.d, s.e, s.f, s.g, s.h] [t.a, t.b, t.c, t.d, t.e, t.f, t.g, t.h] rfl h
  simp only [List.cons.injEq, and_true] at this
  cases s; cases t
  simp_all

/-- The first words of the block of a padded message depend on the first bits of the message only. -/
theorem messageWord_first {a b : List Bool} {n : Nat} (hn : n ≤ 9) (ha : a.length = 296) (hb : b.length = 296) (h : a.take (32 * n) = b.take (32 * n)) :
    ∀ t < n, messageWord (padded a 151) 0 t = messageWord (padded b 151) 0 t := by
  have key : ∀ c : List Bool, c.length = 296 → ∀ t < n, messageWord (padded c 151) 0 t = ofBits (((c.take (32 * n)).drop (32 * t)).take 32) := by
    intro c hc t ht
    rw [messageWord, padded, List.append_assoc, List.append_assoc, Nat.mul_zero, Nat.zero_add, List.drop_append_of_le_length (by omega),
      List.take_append_of_le_length (by rw [List.length_drop]; omega), List.drop_take, List.take_take, Nat.min_eq_left (by omega)]
  intro t ht
  rw [key a ha t ht, key b hb t ht, h]

theorem rounds_first {M N : Nat → W32} (s : Vars) : ∀ n ≤ 16, (∀ t < n, M t = N t) → Fips.rounds M s n = Fips.rounds N s n := by
  intro n
  induction n with
  | zero => intro _ _; rfl
  | succ n ih =>
    intro h16 h
    rw [Fips.rounds, Fips.rounds, ih (by omega) fun t ht => h t (by omega)]
    have e : ∀ L : Nat → W32, schedule L n = L n := fun L => by rw [schedule, dif_pos (by omega)]
    rw [e, e, h n (by omega)]

theorem gadgetOrder_length {msg : List Bool} (h : msg.length = 296) : (encBits (gadgetOrder msg) : List F).length = 296 := by
  have hgo : (gadgetOrder msg).length = 296 := by
    rw [gadgetOrder, List.length_append, List.length_drop, List.length_flatMap, List.map_congr_left (g := fun _ => 32), h]
    · rfl
    · intro t ht
      rw [List.mem_range] at ht
      rw [List.length_reverse, List.length_take, List.length_drop]; omega
  rw [encBits, List.length_map, hgo]

section
variable (cn : Canon F) (hm : 2 ^ 30 ≤ cn.modulus)
include hm

theorem rounds_from (M : Nat → W32) : ∀ n m v,
    rounds ((List.range' m n).map fun t => ((W (BitVec.ofNat 32 (K.getD t 0)) : List F), W (schedule M t))) (encSt v) = pure (encSt (roundsFrom M v m n)) := by
  intro n
  induction n with
  | zero => intro m v; rfl
  | succ n ih => intro m v; rw [List.range'_succ, List.map_cons, rounds, round_enc cn hm, Rel.pure_bind, ih]; rfl

/-- The compression from any state after eight rounds. -/
theorem blockCompress_from (M : Nat → W32) (v s : Vars) {p : List F} (hp : bitWords 16 p = (List.range 16).map fun t => W (M t)) :
    blockCompress (encH v) (encH s) p = pure (encH (finish s v M)) := by
  have e : bitWords 16 p = (List.range 16).map fun t => (W (schedule M t) : List F) := by
    rw [hp]
    apply List.map_congr_left
    intro t ht
    rw [List.mem_range] at ht
    rw [schedule, dif_pos ht]
  have hd : ((List.range' 0 64).map fun t => ((W (BitVec.ofNat 32 (K.getD t 0)) : List F), (W (schedule M t) : List F))).drop 8 =
      (List.range' 8 56).map fun t => ((W (BitVec.ofNat 32 (K.getD t 0)) : List F), (W (schedule M t) : List F)) := by rw [← List.map_drop]; rfl
  rw [blockCompress, e, extend_enc cn hm M 48 16 (by omega), Rel.pure_bind, initSt_enc cn hm, Rel.pure_bind, kBits_zip cn hm _ _ (by omega), hd, rounds_from cn hm, Rel.pure_bind,
    addState_enc cn hm]
  rfl

theorem batchLoop_from (v : Vars) : ∀ msgs : List (List Bool), (∀ m ∈ msgs, m.length = 296) →
    batchLoop (encH v) (msgs.map fun m => (encBits (gadgetOrder m) : List F)) =
      pure (msgs.map fun m => (digestBytes (finish iv v (messageWord (padded m 151) 0))).map (Nat.cast : Nat → F)) := by
  intro msgs
  induction msgs with
  | nil => intro _; rfl
  | cons m msgs ih =>
    intro h
    have h1 := h m (by simp)
    rw [List.map_cons, batchLoop, if_pos (gadgetOrder_length h1), initState_enc, blockCompress_from cn hm _ v iv (padBits_words m h1), Rel.pure_bind,
      returnSum_enc cn hm, Rel.pure_bind, ih fun x hx => h x (by simp [hx]), Rel.pure_bind]
    rfl

theorem batch_from (m : List Bool) (msgs : List (List Bool)) (h : ∀ x ∈ m :: msgs, x.length = 296) :
    sha256_37batch ((m :: msgs).map fun m => (encBits (gadgetOrder m) : List F)) =
      pure ((m :: msgs).map fun x => (digestBytes (finish iv (Fips.rounds (messageWord (padded m 151) 0) iv 8) (messageWord (padded x 151) 0))).map (Nat.cast : Nat → F)) := by
  have h1 := h m (by simp)
  have hb := batchLoop_from cn hm (Fips.rounds (messageWord (padded m 151) 0) iv 8) (m :: msgs) h
  rw [List.map_cons] at hb ⊢
  rw [sha256_37batch, if_pos (gadgetOrder_length h1), initState_enc, first8_enc cn hm _ iv (padBits_words m h1), Rel.pure_bind]
  exact hb

theorem batch_enc (msgs : List (List Bool)) (h : ∀ x ∈ msgs, x.length = 296) (hs : ∀ x ∈ msgs, ∀ y ∈ msgs, x.take 256 = y.take 256) :
    sha256_37batch (msgs.map fun m => (encBits (gadgetOrder m) : List F)) = pure (msgs.map fun m => (digest37of m).map (Nat.cast : Nat → F)) := by
  cases msgs with
  | nil => rfl
  | cons m msgs =>
    rw [batch_from cn hm m msgs h]
    refine congrArg (fun l => (pure l : Rel (List (List F)))) ?_
    apply List.map_congr_left
    intro x hx
    rw [digest37of, ← finish_block, rounds_first iv 8 (by omega) (messageWord_first (n := 8) (by omega) (h m (by simp)) (h x hx) (hs m (by simp) x hx))]

end

/-- Different words after equal ones: the wrong digest. -/
theorem batch_wrong {m x : List Bool} (hm : m.length = 296) (hx : x.length = 296) (h7 : m.take 224 = x.take 224) (h8 : m.take 256 ≠ x.take 256) :
    digestBytes (finish iv (Fips.rounds (messageWord (padded m 151) 0) iv 8) (messageWord (padded x 151) 0)) ≠ digest37of x := by
  intro h
  rw [digest37of, ← finish_block] at h
  have h1 := finish_inj (digestBytes_inj h)
  have e8 : ∀ L : Nat → W32, Fips.rounds L iv 8 = step (BitVec.ofNat 32 (K.getD 7 0)) (schedule L 7) (Fips.rounds L iv 7) := fun _ => rfl
  rw [e8, e8, rounds_first iv 7 (by omega) (messageWord_first (n := 7) (by omega) hm hx h7)] at h1
  have h2 := step_word h1
  have e : ∀ L : Nat → W32, schedule L 7 = L 7 := fun L => by rw [schedule, dif_pos (by omega)]
  rw [e, e] at h2
  have key : ∀ c : List Bool, c.length = 296 → messageWord (padded c 151) 0 7 = ofBits ((c.drop 224).take 32) := by
    intro c hc
    rw [messageWord, padded, List.append_assoc, List.append_assoc, Nat.mul_zero, Nat.zero_add, List.drop_append_of_le_length (by omega),
      List.take_append_of_le_length (by rw [List.length_drop]; omega)]
  rw [key m hm, key x hx] at h2
  have h3 := congrArg Verif.Std.Sha.bits h2
  rw [Verif.Std.Sha.bits_ofBits _ (by rw [List.length_take, List.length_drop]; omega), Verif.Std.Sha.bits_ofBits _ (by rw [List.length_take, List.length_drop]; omega)] at h3
  have h4 := List.map_injective_iff.2 (fun _ _ => Verif.Std.Sha.encB_inj) h3
  apply h8
  have e : ∀ c : List Bool, c.take 256 = c.take 224 ++ (c.drop 224).take 32 := fun c => by rw [show (256 : Nat) = 224 + 32 from rfl, List.take_add]
  rw [e m, e x, h7, h4]

/-- Word 0 enters the schedule as a number only. -/
theorem schedWord_first {w w' : List F} (hw : bitArray26 w = bitArray26 w') (l : List (List F)) (hl : 15 ≤ l.length) :
    schedWord (w :: l) = schedWord (w' :: l) := by
  have h : ∀ j, 1 ≤ j → j ≤ 15 → ((w :: l).getD ((w :: l).length - j) [] : List F) = (w' :: l).getD ((w' :: l).length - j) [] := by
    intro j h1 h2
    have e : (w :: l).length - j = (l.length - j) + 1 := by simp; omega
    have e' : (w' :: l).length - j = (l.length - j) + 1 := by simp; omega
    rw [e, e', List.getD_cons_succ, List.getD_cons_succ]
  have h16 : bitArray26 ((w :: l).getD ((w :: l).length - 16) [] : List F) = bitArray26 ((w' :: l).getD ((w' :: l).length - 16) []) := by
    rcases Nat.eq_or_lt_of_le hl with h0 | h0
    · have e : (w :: l).length - 16 = 0 := by simp; omega
      have e' : (w' :: l).length - 16 = 0 := by simp; omega
      rw [e, e', List.getD_cons_zero, List.getD_cons_zero, hw]
    · have e : (w :: l).length - 16 = (l.length - 16) + 1 := by simp; omega
      have e' : (w' :: l).length - 16 = (l.length - 16) + 1 := by simp; omega
      rw [e, e', List.getD_cons_succ, List.getD_cons_succ]
  unfold schedWord
  dsimp only
  rw [h 2 (by omega) (by omega), h 7 (by omega) (by omega), h 15 (by omega) (by omega), h16]

theorem extend_first {w w' : List F} (hw : bitArray26 w = bitArray26 w') : ∀ (n : Nat) (l : List (List F)), 15 ≤ l.length → ∀ r, extend n (w :: l) r →
    ∃ l', r = w :: l' ∧ extend n (w' :: l) (w' :: l') := by
  intro n
  induction n with
  | zero => rintro l _ r h; exact ⟨l, h, rfl⟩
  | succ n ih =>
    rintro l hl r ⟨x, h1, h2⟩
    obtain ⟨l', rfl, h3⟩ := ih (l ++ [x]) (by simp; omega) r h2
    exact ⟨l', rfl, x, by rw [← schedWord_first hw l hl]; exact h1, h3⟩

theorem round_word {w w' : List F} (hw : bitArray26 w = bitArray26 w') (k : List F) (s : St F) : round k w s = round k w' s := by
  unfold round; rw [hw]

theorem bitWords_length : ∀ (n : Nat) (p : List F), (bitWords n p).length = n := by
  intro n
  induction n with
  | zero => intro p; rfl
  | succ n ih => intro p; rw [bitWords, List.length_cons, ih]

/-- Two inputs that differ in the first word only, but whose first words stand for the same number, are treated alike. -/
theorem compress_first {w w' : List F} (hw : bitArray26 w = bitArray26 w') (hl : w.length = 32) (hl' : w'.length = 32) (rest out : List F)
    (h : sha256_37compress (w ++ rest) out) : sha256_37compress (w' ++ rest) out := by
  have hp : ∀ v : List F, v.length = 32 → rest.length = 264 → ∃ q, padBits (v ++ rest) = v ++ q ∧ q = (padBits (List.replicate 32 0 ++ rest)).drop 32 := by
    have key : ∀ v : List F, v.length = 32 → rest.length = 264 → ∀ P : List F, P.length = 216 →
        (let d := v ++ rest ++ P
         let d := d.take 288 ++ ((d.drop 288).take 32).reverse ++ d.drop 320
         d.take 480 ++ (d.drop 480).reverse) =
        v ++ (((rest ++ P).take 256 ++ (((rest ++ P).drop 256).take 32).reverse ++ (rest ++ P).drop 288).take 448 ++
          (((rest ++ P).take 256 ++ (((rest ++ P).drop 256).take 32).reverse ++ (rest ++ P).drop 288).drop 448).reverse) := by
      intro v hv hr P hP
      dsimp only
      generalize hQ : rest ++ P = Q
      have hQl : Q.length = 480 := by rw [← hQ, List.length_append]; omega
      rw [List.append_assoc v, hQ, show 288 = v.length + 256 by omega, show 320 = v.length + 288 by omega, List.take_length_add_append, List.drop_length_add_append,
        List.drop_length_add_append, List.append_assoc v, List.append_assoc v, show 480 = v.length + 448 by omega, List.take_length_add_append, List.drop_length_add_append,
        List.append_assoc v]
      simp only [hv]
    intro v hv hr
    have hPl : ((List.range 216).map fun i => if i = 0 ∨ i = 207 ∨ i = 210 ∨ i = 212 then (1 : F) else 0).length = 216 := by simp
    refine ⟨_, key v hv hr _ hPl, ?_⟩
    have := key (List.replicate 32 0) (by simp) hr _ hPl
    rw [padBits, this, List.drop_left' (List.length_replicate)]
  unfold sha256_37compress at h ⊢
  by_cases hlen : (w ++ rest).length = 296
  · have hr : rest.length = 264 := by rw [List.length_append] at hlen; omega
    rw [if_pos hlen] at h
    rw [if_pos (by rw [List.length_append]; omega)]
    obtain ⟨q, e1, hq⟩ := hp w hl hr
    obtain ⟨q', e2, hq'⟩ := hp w' hl' hr
    have hqq : q' = q := by rw [hq, hq']
    rw [hqq] at e2
    rw [e1] at h
    rw [e2]
    have hb : ∀ (v : List F) (n : Nat), v.length = 32 → bitWords (n + 1) (v ++ q) = v :: bitWords n q := by
      intro v n hv
      rw [bitWords, List.take_left' hv, List.drop_left' hv]
    obtain ⟨f, ⟨s0, g1, s, g2, g3⟩, o, ⟨ws, g4, s1, g5, s2, g6, g7⟩, g8⟩ := h
    obtain ⟨k0, kt, hk⟩ : ∃ k0 kt, (kBits : List (List F)) = k0 :: kt := ⟨_, _, rfl⟩
    rw [hb w 7 hl, hk, List.zip_cons_cons] at g2
    rw [hb w 15 hl] at g4
    obtain ⟨l', rfl, g4'⟩ := extend_first hw 48 _ (by rw [bitWords_length]) _ g4
    rw [hk, List.zip_cons_cons, List.drop_succ_cons] at g6
    refine ⟨f, ⟨s0, g1, s, ?_, g3⟩, o, ⟨w' :: l', ?_, s1, g5, s2, ?_, g7⟩, g8⟩
    · rw [hb w' 7 hl', hk, List.zip_cons_cons]
      obtain ⟨s', g9, g10⟩ := g2
      exact ⟨s', by rw [← round_word hw]; exact g9, g10⟩
    · rw [hb w' 15 hl']; exact g4'
    · rw [hk, List.zip_cons_cons, List.drop_succ_cons]; exact g6
  · rw [if_neg hlen] at h; exact h.elim

end Verif.Std.ShaM31
