import Verif.Std.LogUpProof
/-!
Which values `rangeproof` (circuit-std-rs/src/logup.rs:392-464) accepts.
-/
set_option linter.unusedSectionVars false
set_option linter.unusedSimpArgs false
namespace Verif.Std.LogUp

variable {F : Type} [Field F] [DecidableEq F]

/-- `Σ dᵢ 2^(m i)`. -/
def natOf (m : Nat) : Nat → List Nat → Nat
  | _, [] => 0
  | i, d :: ds => d * 2 ^ (m * i) + natOf m (i + 1) ds

theorem natOf_shift (m : Nat) : ∀ (ds : List Nat) (i : Nat), natOf m (i + 1) ds = 2 ^ m * natOf m i ds := by
  intro ds
  induction ds with
  | nil => intro i; simp [natOf]
  | cons d ds ih =>
    intro i
    simp only [natOf, ih (i + 1), Nat.mul_add, Nat.pow_add, Nat.mul_one]; ring

theorem natOf_lt (m : Nat) : ∀ (ds : List Nat), (∀ d ∈ ds, d < 2 ^ m) → natOf m 0 ds < 2 ^ (m * ds.length) := by
  intro ds
  induction ds with
  | nil => intro _; simp [natOf]
  | cons d ds ih =>
    intro h
    have h1 := ih (fun x hx => h x (by simp [hx]))
    have h2 := h d (by simp)
    simp only [natOf, natOf_shift, Nat.mul_zero, Nat.pow_zero, Nat.mul_one, List.length_cons, Nat.mul_add, Nat.pow_add]
    have : 2 ^ m * (natOf m 0 ds + 1) ≤ 2 ^ m * 2 ^ (m * ds.length) := Nat.mul_le_mul_left _ h1
    rw [Nat.mul_add] at this
    rw [Nat.mul_comm (2 ^ (m * ds.length))]
    omega

theorem digits_natOf (m : Nat) : ∀ (k a : Nat), a < 2 ^ (m * k) → natOf m 0 (rangeproofDigits m k a) = a := by
  intro k
  induction k with
  | zero => intro a h; simp at h; simp [rangeproofDigits, natOf, h]
  | succ k ih =>
    intro a h
    simp only [rangeproofDigits, natOf, natOf_shift, Nat.mul_zero, Nat.pow_zero, Nat.mul_one]
    rw [ih]
    · exact Nat.mod_add_div a (2 ^ m)
    · rw [Nat.mul_succ, Nat.pow_add] at h
      exact Nat.div_lt_of_lt_mul (by rwa [Nat.mul_comm])

theorem digits_length (m : Nat) : ∀ (k a : Nat), (rangeproofDigits m k a).length = k := by
  intro k; induction k with
  | zero => intro a; rfl
  | succ k ih => intro a; simp [rangeproofDigits, ih]

theorem digits_lt (m : Nat) : ∀ (k a : Nat), ∀ d ∈ rangeproofDigits m k a, d < 2 ^ m := by
  intro k; induction k with
  | zero => intro a d h; simp [rangeproofDigits] at h
  | succ k ih =>
    intro a d h
    simp only [rangeproofDigits, List.mem_cons] at h
    rcases h with rfl | h
    · exact Nat.mod_lt _ (Nat.two_pow_pos m)
    · exact ih _ d h

theorem recombine_cast (m : Nat) : ∀ (ds : List Nat) (i : Nat), recombine m i (ds.map fun d : Nat => (d : F)) = ((natOf m i ds : Nat) : F) := by
  intro ds
  induction ds with
  | nil => intro i; simp [recombine, natOf]
  | cons d ds ih => intro i; simp only [List.map_cons, recombine, natOf, ih]; push_cast; ring

theorem mem_initial {m : Nat} {x : F} : x ∈ (RangeTable.initial (R := F) m).tableKeys ↔ ∃ d : Nat, d < 2 ^ m ∧ (d : F) = x := by
  simp [RangeTable.initial]

/-- Values in the table are images of digits. -/
theorem digits_of_mem {m : Nat} : ∀ (ws : List F), (∀ w ∈ ws, w ∈ (RangeTable.initial (R := F) m).tableKeys) →
    ∃ ds : List Nat, (∀ d ∈ ds, d < 2 ^ m) ∧ ds.map (fun d : Nat => (d : F)) = ws := by
  intro ws
  induction ws with
  | nil => intro _; exact ⟨[], by simp⟩
  | cons w ws ih =>
    intro h
    obtain ⟨ds, h1, h2⟩ := ih (fun x hx => h x (by simp [hx]))
    obtain ⟨d, h3, h4⟩ := mem_initial.1 (h w (by simp))
    exact ⟨d :: ds, by simpa using ⟨h3, h1⟩, by simp [h2, h4]⟩

theorem toNat_lt_iff (cn : Canon F) {N : Nat} (hN : N ≤ cn.modulus) (x : F) : cn.toNat x < N ↔ ∃ d : Nat, d < N ∧ (d : F) = x := by
  constructor
  · intro h; exact ⟨_, h, cn.cast_toNat x⟩
  · rintro ⟨d, h, rfl⟩; rw [cn.toNat_cast d (by omega)]; exact h

/-- Recombination of table values reaches exactly the canonical values below `2^(m k)`. -/
theorem recombine_iff (cn : Canon F) {m k : Nat} (hN : 2 ^ (m * k) ≤ cn.modulus) (x : F) :
    (∃ ws : List F, ws.length = k ∧ (∀ w ∈ ws, w ∈ (RangeTable.initial (R := F) m).tableKeys) ∧ recombine m 0 ws = x) ↔ cn.toNat x < 2 ^ (m * k) := by
  rw [toNat_lt_iff cn hN]
  constructor
  · rintro ⟨ws, hl, hm, rfl⟩
    obtain ⟨ds, h1, rfl⟩ := digits_of_mem ws hm
    refine ⟨natOf m 0 ds, ?_, (recombine_cast m ds 0).symm⟩
    have := natOf_lt m ds h1
    rw [List.length_map] at hl
    rwa [hl] at this
  · rintro ⟨d, hd, rfl⟩
    refine ⟨(rangeproofDigits m k d).map fun d : Nat => (d : F), by simp [digits_length], ?_, ?_⟩
    · intro w hw
      obtain ⟨e, he, rfl⟩ := List.mem_map.1 hw
      exact mem_initial.2 ⟨e, digits_lt m k d e he, rfl⟩
    · rw [recombine_cast, digits_natOf m k d hd]

/-- `n` rounded up to a multiple of the chunk size. -/
def roundUp (m n : Nat) : Nat := if n % m = 0 then n else n + (m - n % m)

theorem roundUp_dvd {m : Nat} (hm : 0 < m) (n : Nat) : m * (roundUp m n / m) = roundUp m n := by
  apply Nat.mul_div_cancel'
  unfold roundUp
  split
  · exact Nat.dvd_of_mod_eq_zero ‹_›
  · have h1 := Nat.mod_lt n hm
    have h2 := Nat.div_add_mod n m
    refine ⟨n / m + 1, ?_⟩
    rw [Nat.mul_add]; omega

theorem le_roundUp (m n : Nat) : n ≤ roundUp m n := by unfold roundUp; split <;> omega

/-- The value that is decomposed. -/
def shifted (m n : Nat) (a : F) : F := a + ((2 ^ roundUp m n - 2 ^ n : Nat) : F)

theorem shift_eq {m n : Nat} (h : n % m ≠ 0) (a : F) :
    a + ((2 ^ (m - n % m) - 1 : Nat) : F) * ((2 ^ n : Nat) : F) = shifted m n a := by
  simp only [shifted, roundUp, if_neg h]
  rw [← Nat.cast_mul, Nat.sub_mul, Nat.one_mul, Nat.pow_add, Nat.mul_comm]

theorem shifted_zero {m n : Nat} (h : n % m = 0) (a : F) : shifted m n a = a := by
  simp [shifted, roundUp, h]

theorem roundUp_le {m n : Nat} (hn : 0 < n) (h : n ≤ m) : roundUp m n = m := by
  unfold roundUp
  by_cases e : n = m
  · subst e; simp
  · rw [if_neg (by rw [Nat.mod_eq_of_lt (by omega)]; omega), Nat.mod_eq_of_lt (by omega)]; omega

theorem rangeproof_small (t : RangeTable F) {n : Nat} (hm : 0 < t.bits) (h128 : n ≤ 128) (hle : n ≤ t.bits) (a : F) (ws : List F) :
    t.rangeproof a n ws = some (t.queryRange (shifted t.bits n a), true) := by
  have h1 : t.onechunk a n = some (t.queryRange (shifted t.bits n a)) := by
    unfold RangeTable.onechunk
    rw [if_neg (by omega)]
    by_cases e : n % t.bits = 0
    · rw [if_neg (by simpa using e), shifted_zero e]
    · rw [if_pos e]
      simp only [shift_eq e]
  unfold RangeTable.rangeproof
  rw [if_neg (by omega), if_pos hle, h1]; rfl

theorem rangeproof_big (t : RangeTable F) {n : Nat} (hm : 0 < t.bits) (h128 : n ≤ 128) (hlt : t.bits < n) (a : F) (ws : List F) :
    t.rangeproof a n ws = if ws.length = roundUp t.bits n / t.bits then
      some ({ t with queryKeys := t.queryKeys ++ ws }, decide (recombine t.bits 0 ws = shifted t.bits n a)) else none := by
  unfold RangeTable.rangeproof
  rw [if_neg (by omega), if_neg (by omega), if_neg (by omega)]
  by_cases e : n % t.bits = 0
  · simp [e, shifted_zero e, roundUp]
  · simp [e, ← shift_eq e, roundUp]

/-- The queries pushed and the equality asserted are satisfiable with table values: the proof is accepted. -/
def RangeAccepts (m : Nat) (a : F) (n : Nat) : Prop :=
  ∃ ws t', (RangeTable.initial (R := F) m).rangeproof a n ws = some (t', true) ∧ ∀ x ∈ t'.queryKeys, x ∈ t'.tableKeys

theorem rangeAccepts_iff (cn : Canon F) {m n : Nat} (hm : 0 < m) (hn : 0 < n) (h128 : n ≤ 128) (hN : 2 ^ roundUp m n ≤ cn.modulus) (a : F) :
    RangeAccepts m a n ↔ cn.toNat (shifted m n a) < 2 ^ roundUp m n := by
  unfold RangeAccepts
  by_cases hle : n ≤ m
  · have hr := roundUp_le hn hle
    rw [toNat_lt_iff cn hN, hr, ← mem_initial]
    constructor
    · rintro ⟨ws, t', h, hq⟩
      rw [rangeproof_small (RangeTable.initial (R := F) m) hm h128 hle] at h
      simp only [Option.some.injEq, Prod.mk.injEq, and_true] at h
      subst h
      exact hq (shifted m n a) (by simp [RangeTable.queryRange, RangeTable.initial])
    · intro h
      refine ⟨[], _, rangeproof_small (RangeTable.initial (R := F) m) hm h128 hle _ _, ?_⟩
      intro x hx
      simp only [RangeTable.queryRange, RangeTable.initial, List.nil_append, List.mem_singleton] at hx
      subst hx; exact h
  · have hk := roundUp_dvd hm n
    have hrec := recombine_iff cn (m := m) (k := roundUp m n / m) (by rw [hk]; exact hN) (shifted m n a)
    rw [hk] at hrec
    rw [← hrec]
    have hb : (RangeTable.initial (R := F) m).bits < n := by show m < n; omega
    constructor
    · rintro ⟨ws, t', h, hq⟩
      rw [rangeproof_big (RangeTable.initial (R := F) m) hm h128 hb] at h
      split at h
      · rename_i hl
        simp only [Option.some.injEq, Prod.mk.injEq, decide_eq_true_eq] at h
        obtain ⟨rfl, h⟩ := h
        exact ⟨ws, hl, fun w hw => hq w (by simpa [RangeTable.initial] using hw), h⟩
      · simp at h
    · rintro ⟨ws, hl, hw, h⟩
      refine ⟨ws, { RangeTable.initial (R := F) m with queryKeys := (RangeTable.initial (R := F) m).queryKeys ++ ws }, ?_, ?_⟩
      · rw [rangeproof_big (RangeTable.initial (R := F) m) hm h128 hb]
        show (if ws.length = roundUp m n / m then _ else _) = _
        rw [if_pos hl]
        simp only [Option.some.injEq, Prod.mk.injEq, decide_eq_true_eq, true_and]; exact h
      · intro x hx; exact hw x (by simpa [RangeTable.initial] using hx)

theorem rangeproof_table (t : RangeTable F) (a : F) (n : Nat) (ws : List F) {t' : RangeTable F} {b : Bool} (h : t.rangeproof a n ws = some (t', b)) :
    t'.tableKeys = t.tableKeys ∧ t'.bits = t.bits ∧ ∃ new, t'.queryKeys = t.queryKeys ++ new := by
  by_cases h128 : n ≤ 128
  · by_cases hm : 0 < t.bits
    · by_cases hle : n ≤ t.bits
      · rw [rangeproof_small t hm h128 hle] at h
        simp only [Option.some.injEq, Prod.mk.injEq] at h
        obtain ⟨rfl, _⟩ := h; exact ⟨rfl, rfl, _, rfl⟩
      · rw [rangeproof_big t hm h128 (by omega)] at h
        split at h
        · simp only [Option.some.injEq, Prod.mk.injEq] at h
          obtain ⟨rfl, _⟩ := h; exact ⟨rfl, rfl, _, rfl⟩
        · simp at h
    · have h0 : t.bits = 0 := by omega
      unfold RangeTable.rangeproof RangeTable.onechunk at h
      simp [h0, show ¬ n > 128 by omega] at h
  · unfold RangeTable.rangeproof at h
    rw [if_pos (by omega)] at h; simp at h

/-- The new queries of an accepted equality cannot all be in the table unless the shifted value is below the bound. -/
theorem rangeproof_sound (cn : Canon F) {m n : Nat} (hm : 0 < m) (hn : 0 < n) (h128 : n ≤ 128) (hN : 2 ^ roundUp m n ≤ cn.modulus) {a : F} {t t' : RangeTable F}
    {ws : List F} (hb : t.bits = m) (ht : t.tableKeys = (RangeTable.initial (R := F) m).tableKeys) (h : t.rangeproof a n ws = some (t', true))
    (hq : ∀ x ∈ t'.queryKeys, x ∈ t'.tableKeys) : cn.toNat (shifted m n a) < 2 ^ roundUp m n := by
  rw [← rangeAccepts_iff cn hm hn h128 hN]
  obtain ⟨e1, _, _⟩ := rangeproof_table t a n ws h
  subst hb
  by_cases hle : n ≤ t.bits
  · rw [rangeproof_small t hm h128 hle] at h
    simp only [Option.some.injEq, Prod.mk.injEq, and_true] at h
    subst h
    refine ⟨[], _, rangeproof_small (RangeTable.initial (R := F) t.bits) hm h128 hle _ _, ?_⟩
    intro x hx
    show x ∈ (RangeTable.initial (R := F) t.bits).tableKeys
    rw [← ht]
    apply hq
    simp only [RangeTable.queryRange, RangeTable.initial, List.nil_append, List.mem_singleton] at hx
    subst hx; simp [RangeTable.queryRange]
  · rw [rangeproof_big t hm h128 (by omega)] at h
    split at h
    · rename_i hl
      simp only [Option.some.injEq, Prod.mk.injEq, decide_eq_true_eq] at h
      obtain ⟨rfl, h⟩ := h
      refine ⟨ws, { RangeTable.initial (R := F) t.bits with queryKeys := (RangeTable.initial (R := F) t.bits).queryKeys ++ ws }, ?_, ?_⟩
      · rw [rangeproof_big (RangeTable.initial (R := F) t.bits) hm h128 (by show t.bits < n; omega)]
        show (if ws.length = roundUp t.bits n / t.bits then _ else _) = _
        rw [if_pos hl]
        simp only [Option.some.injEq, Prod.mk.injEq, decide_eq_true_eq, true_and]; exact h
      · intro x hx
        have : x ∈ ws := by simpa [RangeTable.initial] using hx
        have := hq x (by simp [this])
        show x ∈ (RangeTable.initial (R := F) t.bits).tableKeys
        rw [← ht]; exact this
    · simp at h

end Verif.Std.LogUp
