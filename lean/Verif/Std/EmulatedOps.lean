import Verif.Std.EmulatedProof
/-!
Subtraction, equality, multiplication, division and selection of emulated elements, provided the registered checks hold over the
integers.
-/
set_option linter.unusedSectionVars false
set_option linter.unusedSimpArgs false
namespace Verif.Std.Emu
open Verif.Std.ShaM31 (simpleSelect limbsVal limbsVal_append limbsVal_take limbsVal_lt)

variable {F : Type} [Field F] [DecidableEq F] {cn : Canon F} {P : Params} (hg : Good cn P)

theorem recompose_eq (l : List Nat) (n : Nat) : recompose l n = limbsVal n l := by
  unfold recompose
  induction l with
  | nil => rfl
  | cons x xs ih => rw [List.reverse_cons, List.foldl_append, ih, limbsVal]; simp only [List.foldl_cons, List.foldl_nil]; rw [Nat.mul_comm]; omega

theorem lv_replicate (n m c : Nat) : limbsVal n ((List.range m).map fun _ => c) = limbsVal n (List.replicate m c) := by
  rw [List.map_const', List.length_range]

/-- The padding of a subtraction: limbs that dominate the subtrahend, of a number divisible by the modulus. -/
theorem subPadding_spec {ov nb : Nat} {pad : List Nat} (h : subPadding P ov nb = some pad) :
    pad.length = nb ∧ (∀ x ∈ pad, 2 ^ (ov + P.bits) ≤ x ∧ x < 2 ^ (ov + P.bits) + 2 ^ P.bits) ∧ limbsVal P.bits pad ≡ 0 [MOD P.modulus] := by
  unfold subPadding at h
  split at h
  · exact absurd h (by simp)
  · rename_i hm
    dsimp only at h
    split at h
    · exact absurd h (by simp)
    · rename_i pad' hd
      rw [Option.some.injEq] at h
      subst h
      unfold decompose at hd
      split at hd
      · rename_i hs
        rw [Option.some.injEq] at hd
        subst hd
        set N := recompose (List.replicate nb (2 ^ (ov + P.bits))) P.bits with hN
        obtain ⟨h1, h2, h3⟩ := digits_spec P.bits nb (P.modulus - N % P.modulus)
        refine ⟨by simp [h1], ?_, ?_⟩
        · intro x hx
          obtain ⟨y, hy, rfl⟩ := List.mem_map.1 hx
          have := h2 y hy
          omega
        · have e : (digits P.bits nb (P.modulus - N % P.modulus)).map (· + 2 ^ (ov + P.bits)) =
              (List.range nb).map fun i => (digits P.bits nb (P.modulus - N % P.modulus)).getD i 0 + 2 ^ (ov + P.bits) := by
            apply List.ext_getElem
            · simp [h1]
            · intro i a b
              simp only [List.getElem_map, List.getElem_range, List.getD_eq_getElem?_getD]
              rw [List.getElem?_eq_getElem (by simpa using a)]; rfl
          rw [e, lv_add, lv_getD _ _ _ (by omega), lv_replicate, h3, ← recompose_eq, ← hN, Nat.mod_eq_of_lt (a := P.modulus - N % P.modulus)]
          · have := Nat.mod_lt N (Nat.pos_of_ne_zero hm)
            have hd := Nat.mod_add_div N P.modulus
            have : P.modulus - N % P.modulus + N = P.modulus * (N / P.modulus + 1) := by rw [Nat.mul_add]; omega
            rw [this, Nat.ModEq, Nat.mul_mod_right, Nat.zero_mod]
          · exact Nat.lt_of_lt_of_le (Nat.lt_size_self _) (Nat.pow_le_pow_right (by omega) (by rw [Nat.mul_comm]; exact hs))
      · exact absurd hd (by simp)

include hg in
theorem sub_spec {a b : El F} (ha : Ok cn P a) (hb : Ok cn P b) :
    Spec cn P (sub P a b) (fun r => Ok cn P r ∧ value cn P r.limbs + value cn P b.limbs ≡ value cn P a.limbs [MOD P.modulus]) := by
  have h2 := maxOf2 hg
  have h0 := good0 hg
  unfold sub
  refine spec_bind cn P (condWidth_spec hg ha) fun _ fa => spec_bind cn P (condWidth_spec hg hb) fun _ fb => ?_
  refine spec_bind cn P (reduceIf_spec hg ha fa 1 (by omega)) fun a' ha' => spec_bind cn P (reduceIf_spec hg hb fb 2 (by omega)) fun b' hb' => ?_
  obtain ⟨_, fa', oa, va⟩ := ha'
  obtain ⟨_, fb', ob, vb⟩ := hb'
  dsimp only
  split
  · exact spec_fail cn P
  · rename_i pad hp
    obtain ⟨p1, p2, p3⟩ := subPadding_spec hp
    have hmx : P.bits + P.maxOf = 28 := by have := hg.bits26; rw [Params.maxOf]; omega
    set m := max a'.overflow (b'.overflow + 1) with hm
    have pa : ∀ i, cn.toNat (a'.limbs.getD i 0) < 2 ^ (P.bits + m) := fun i =>
      Nat.lt_of_lt_of_le (getD_lt h0 fa'.2 i) (Nat.pow_le_pow_right (by omega) (by omega))
    have pb : ∀ i, cn.toNat (b'.limbs.getD i 0) < 2 ^ (b'.overflow + P.bits) := fun i => by
      rw [Nat.add_comm]; exact getD_lt h0 fb'.2 i
    have p28 : 2 ^ (P.bits + (m + 1)) ≤ 2 ^ 28 := Nat.pow_le_pow_right (by omega) (by omega)
    have e28 : 2 ^ (P.bits + (m + 1)) = 2 * 2 ^ (P.bits + m) := by rw [← Nat.add_assoc, Nat.pow_succ, Nat.mul_comm]
    have q1 : 2 ^ (b'.overflow + P.bits) + 2 ^ P.bits ≤ 2 ^ (P.bits + m) := by
      have x1 : 2 ^ P.bits ≤ 2 ^ (b'.overflow + P.bits) := Nat.pow_le_pow_right (by omega) (by omega)
      have x2 : 2 ^ (b'.overflow + P.bits + 1) ≤ 2 ^ (P.bits + m) := Nat.pow_le_pow_right (by omega) (by omega)
      rw [Nat.pow_succ] at x2; omega
    have hnat := hg.native
    have hpad : ∀ i, i < pad.length → 2 ^ (b'.overflow + P.bits) ≤ pad.getD i 0 ∧ pad.getD i 0 < 2 ^ (b'.overflow + P.bits) + 2 ^ P.bits := fun i hi => by
      rw [List.getD_eq_getElem?_getD, List.getElem?_eq_getElem hi]
      exact p2 _ (List.getElem_mem hi)
    have hs : ∀ i, i < pad.length → cn.toNat ((((pad.getD i 0 : Nat) : F) + a'.limbs.getD i 0) - b'.limbs.getD i 0) + cn.toNat (b'.limbs.getD i 0) =
        pad.getD i 0 + cn.toNat (a'.limbs.getD i 0) := fun i hi => by
      have k1 := hpad i hi
      have k2 := pa i
      have k3 := pb i
      have k4 : cn.toNat ((pad.getD i 0 : Nat) : F) = pad.getD i 0 := cn.toNat_cast _ (by omega)
      have k5 : cn.toNat (((pad.getD i 0 : Nat) : F) + a'.limbs.getD i 0) = pad.getD i 0 + cn.toNat (a'.limbs.getD i 0) := by
        rw [toNat_add' (by rw [k4]; omega), k4]
      rw [toNat_sub' (by rw [k5]; omega), k5]; omega
    refine spec_pure cn P ⟨ok_of_full ⟨by show m + 1 ≤ P.maxOf; omega, ?_⟩, ?_⟩
    · intro x hx
      obtain ⟨i, hi, rfl⟩ := List.mem_map.1 hx
      rw [List.mem_range] at hi
      show cn.toNat _ < 2 ^ (P.bits + (m + 1))
      have := hs i (by omega); have := hpad i (by omega); have := pa i; omega
    · show value cn P ((List.range (max a'.limbs.length b'.limbs.length)).map fun i => (((pad.getD i 0 : Nat) : F) + a'.limbs.getD i 0) - b'.limbs.getD i 0) + _ ≡ _ [MOD _]
      have e1 : value cn P ((List.range (max a'.limbs.length b'.limbs.length)).map fun i => (((pad.getD i 0 : Nat) : F) + a'.limbs.getD i 0) - b'.limbs.getD i 0) + value cn P b'.limbs =
          limbsVal P.bits pad + value cn P a'.limbs := by
        rw [value_range]
        have v1 : value cn P b'.limbs = limbsVal P.bits ((List.range (max a'.limbs.length b'.limbs.length)).map fun i => cn.toNat (b'.limbs.getD i 0)) := by
          simp only [← getD_toNat h0]; rw [lv_getD _ _ _ (by simp)]; rfl
        have v2 : value cn P a'.limbs = limbsVal P.bits ((List.range (max a'.limbs.length b'.limbs.length)).map fun i => cn.toNat (a'.limbs.getD i 0)) := by
          simp only [← getD_toNat h0]; rw [lv_getD _ _ _ (by simp)]; rfl
        have v3 : limbsVal P.bits pad = limbsVal P.bits ((List.range (max a'.limbs.length b'.limbs.length)).map fun i => pad.getD i 0) := (lv_getD _ _ _ (by omega)).symm
        rw [v1, v2, v3, ← lv_add, ← lv_add]
        refine congrArg _ (List.map_congr_left fun i hi => ?_)
        rw [List.mem_range] at hi
        exact hs i (by omega)
      refine (Nat.ModEq.add_left _ vb.symm).trans ?_
      rw [e1]
      exact (p3.add va).trans (by rw [Nat.zero_add])

theorem value_one (h1 : 1 < cn.modulus) : value cn P [(1 : F)] = 1 := by
  have : cn.toNat (1 : F) = 1 := by rw [← Nat.cast_one, cn.toNat_cast 1 h1]
  simp [value, limbsVal, this]

include hg in
theorem checkZero_spec {a : El F} (ha : Ok cn P a) : Spec cn P (checkZero P a) (fun _ => value cn P a.limbs ≡ 0 [MOD P.modulus]) := by
  unfold checkZero
  refine spec_bind cn P (condWidth_spec hg ha) fun _ _ => spec_bind cn P (callMulHint_spec hg) ?_
  rintro ⟨k, r, c⟩ ⟨-, hr⟩
  refine spec_mono cn P (spec_push cn P) fun _ hc => ?_
  have hc' : value cn P a.limbs * value cn P [(1 : F)] = value cn P r.limbs + value cn P k.limbs * P.modulus := hc
  have hn := hg.native
  have hr' : r.limbs = [] := hr rfl
  rw [value_one (by omega), Nat.mul_one, hr'] at hc'
  have e0 : value cn P ([] : List F) = 0 := rfl
  rw [hc', e0, Nat.zero_add, Nat.ModEq, Nat.mul_mod_left, Nat.zero_mod]

include hg in
theorem assertEqual_spec {a b : El F} (ha : Ok cn P a) (hb : Ok cn P b) :
    Spec cn P (assertEqual P a b) (fun _ => value cn P a.limbs ≡ value cn P b.limbs [MOD P.modulus]) := by
  unfold assertEqual
  refine spec_bind cn P (condWidth_spec hg ha) fun _ _ => spec_bind cn P (condWidth_spec hg hb) fun _ _ => spec_bind cn P (sub_spec hg hb ha) fun d hd => ?_
  refine spec_mono cn P (checkZero_spec hg hd.1) fun _ hz => ?_
  have := (hz.add_right (value cn P a.limbs)).symm.trans hd.2
  rwa [Nat.zero_add] at this

include hg in
theorem mulStep_spec {a b : El F} (ha : Ok cn P a) (hb : Ok cn P b) :
    Spec cn P (mulStep P a b) (fun q => Ok cn P q.1 ∧ Ok cn P q.2 ∧
      value cn P q.1.limbs * value cn P q.2.limbs ≡ value cn P a.limbs * value cn P b.limbs [MOD P.modulus]) := by
  unfold mulStep
  split
  · split
    · exact spec_bind cn P (reduce_spec hg hb) fun r hr => spec_pure cn P ⟨ha, hr.1.1, hr.2.mul_left _⟩
    · exact spec_bind cn P (reduce_spec hg ha) fun r hr => spec_pure cn P ⟨hr.1.1, hb, hr.2.mul_right _⟩
  · exact spec_pure cn P ⟨ha, hb, rfl⟩

include hg in
theorem mul_spec {a b : El F} (ha : Ok cn P a) (hb : Ok cn P b) :
    Spec cn P (mul P a b) (fun r => New cn P r ∧ value cn P r.limbs ≡ value cn P a.limbs * value cn P b.limbs [MOD P.modulus]) := by
  unfold mul
  refine spec_bind cn P (condWidth_spec hg ha) fun _ _ => spec_bind cn P (condWidth_spec hg hb) fun _ _ => ?_
  refine spec_bind cn P (mulStep_spec hg ha hb) fun q1 h1 => spec_bind cn P (mulStep_spec hg h1.1 h1.2.1) fun q2 h2 => ?_
  exact spec_mono cn P (mulMod_spec hg h2.1 h2.2.1) fun r hr => ⟨hr.1, hr.2.trans (h2.2.2.trans h1.2.2)⟩

include hg in
theorem divStep_spec {b : El F} (hb : Ok cn P b) :
    Spec cn P (divStep P b) (fun q => Ok cn P q.1 ∧ value cn P q.1.limbs ≡ value cn P b.limbs [MOD P.modulus]) := by
  unfold divStep
  dsimp only
  split
  · exact spec_bind cn P (reduce_spec hg hb) fun r hr => spec_pure cn P ⟨hr.1.1, hr.2⟩
  · exact spec_pure cn P ⟨hb, rfl⟩

include hg in
theorem divStep2_spec {q : El F × Nat} (hb : Ok cn P q.1) :
    Spec cn P (divStep2 P q) (fun r => Ok cn P r ∧ value cn P r.limbs ≡ value cn P q.1.limbs [MOD P.modulus]) := by
  unfold divStep2
  split
  · exact spec_mono cn P (reduce_spec hg hb) fun r hr => ⟨hr.1.1, hr.2⟩
  · exact spec_pure cn P ⟨hb, rfl⟩

include hg in
theorem div_spec {a b : El F} (ha : Ok cn P a) (hb : Ok cn P b) :
    Spec cn P (div P a b) (fun r => New cn P r ∧ value cn P r.limbs * value cn P b.limbs ≡ value cn P a.limbs [MOD P.modulus]) := by
  have h2 := maxOf2 hg
  unfold div
  refine spec_bind cn P (condWidth_spec hg ha) fun _ fa => spec_bind cn P (condWidth_spec hg hb) fun _ _ => ?_
  refine spec_bind cn P (divStep_spec hg hb) fun q hq => spec_bind cn P (reduceIf_spec hg ha fa 1 (by omega)) fun a1 ha1 => ?_
  refine spec_bind cn P (divStep2_spec hg hq.1) fun b2 hb2 => spec_bind cn P (spec_hint cn P) fun d _ => spec_bind cn P (packLimbs_spec hg) ?_
  rintro e ⟨rfl, he⟩
  refine spec_bind cn P (mul_spec hg (new_int he).1 hb2.1) fun res hr => spec_bind cn P (assertEqual_spec hg hr.1.1 ha1.1) fun _ heq => ?_
  refine spec_pure cn P ⟨new_int he, ?_⟩
  exact (((hb2.2.trans hq.2).symm.mul_left _).trans hr.2.symm).trans (heq.trans ha1.2.2.2)

include hg in
theorem inverse_spec {b : El F} (hb : Ok cn P b) :
    Spec cn P (inverse P b) (fun r => New cn P r ∧ value cn P r.limbs * value cn P b.limbs ≡ 1 [MOD P.modulus]) := by
  unfold inverse
  refine spec_bind cn P (condWidth_spec hg hb) fun _ _ => ?_
  refine spec_bind cn P (divStep_spec hg hb) fun q hq => ?_
  refine spec_bind cn P (divStep2_spec hg hq.1) fun b2 hb2 => spec_bind cn P (spec_hint cn P) fun d _ => spec_bind cn P (packLimbs_spec hg) ?_
  rintro e ⟨rfl, he⟩
  obtain ⟨o1, o2⟩ := one_el (F := F) hg
  refine spec_bind cn P (mul_spec hg (new_int he).1 hb2.1) fun res hr => spec_bind cn P (assertEqual_spec hg hr.1.1 o2.1) fun _ heq => ?_
  refine spec_pure cn P ⟨new_int he, ?_⟩
  have := (((hb2.2.trans hq.2).symm.mul_left _).trans hr.2.symm).trans heq
  rwa [o1] at this

include hg in
theorem neg_spec {a : El F} (ha : Ok cn P a) :
    Spec cn P (neg P a) (fun r => Ok cn P r ∧ value cn P r.limbs + value cn P a.limbs ≡ 0 [MOD P.modulus]) := by
  obtain ⟨z1, z2⟩ := zero_el (F := F) hg
  refine spec_mono cn P (sub_spec hg z2.1 ha) fun r hr => ⟨hr.1, ?_⟩
  have := hr.2
  rwa [z1] at this

include hg in
theorem mulConst_spec {a : El F} (ha : Ok cn P a) (hf : Full cn P a) (hb : P.bits ≤ 8) (c : Nat) :
    Spec cn P (mulConst P a c) (fun r => Ok cn P r ∧ value cn P r.limbs ≡ value cn P a.limbs * c [MOD P.modulus]) := by
  unfold mulConst
  split
  · rename_i h0
    obtain ⟨z1, z2⟩ := zero_el (F := F) hg
    refine spec_pure cn P ⟨z2.1, ?_⟩
    rw [z1, h0, Nat.mul_zero]
  · split
    · exact spec_fail cn P
    · rename_i hc0 hc
      refine spec_bind cn P (reduceIf_spec hg ha hf c.size (by rw [Params.maxOf]; omega)) fun a' ha' => ?_
      obtain ⟨_, fa', oa, va⟩ := ha'
      have hmx : P.bits + P.maxOf = 28 := by rw [Params.maxOf]; omega
      have hnat := hg.native
      have hlt : ∀ x ∈ a'.limbs, cn.toNat x * c < 2 ^ (P.bits + (a'.overflow + c.size)) := fun x hx => by
        have h1 := fa'.2 x hx
        have h2 := Nat.lt_size_self c
        rw [← Nat.add_assoc, Nat.pow_add]
        exact Nat.mul_lt_mul_of_lt_of_le' h1 (Nat.le_of_lt h2) (by omega)
      have p28 : 2 ^ (P.bits + (a'.overflow + c.size)) ≤ 2 ^ 28 := Nat.pow_le_pow_right (by omega) (by omega)
      refine spec_pure cn P ⟨ok_of_full ⟨by show a'.overflow + c.size ≤ P.maxOf; omega, ?_⟩, ?_⟩
      · intro x hx
        obtain ⟨y, hy, rfl⟩ := List.mem_map.1 hx
        show cn.toNat (y * (c : F)) < _
        rw [toNat_mulc (by have := hlt y hy; omega)]
        exact hlt y hy
      · have : value cn P (a'.limbs.map fun x => x * (c : F)) = value cn P a'.limbs * c := by
          rw [value, value]
          have key : ∀ l : List F, (∀ x ∈ l, cn.toNat x * c < 2 ^ 28) → limbsVal P.bits ((l.map fun x => x * (c : F)).map cn.toNat) = limbsVal P.bits (l.map cn.toNat) * c := by
            intro l
            induction l with
            | nil => intro _; simp [limbsVal]
            | cons x xs ih =>
              intro h
              rw [List.map_cons, List.map_cons, limbsVal, ih fun y hy => h y (by simp [hy]), toNat_mulc (by have := h x (by simp); omega), List.map_cons, limbsVal, Nat.add_mul, Nat.mul_assoc]
          exact key _ fun x hx => by have := hlt x hx; omega
        show value cn P (a'.limbs.map fun x => x * (c : F)) ≡ _ [MOD _]
        rw [this]
        exact va.mul_right c

include hg in
theorem select_spec {a b : El F} (ha : Ok cn P a) (hb : Ok cn P b) (s : Bool) :
    Spec cn P (select P (Hints.ofBool s) a b) (fun r => Ok cn P r ∧ value cn P r.limbs = value cn P (if s then a.limbs else b.limbs)) := by
  have h0 := good0 hg
  unfold select
  refine spec_bind cn P (condWidth_spec hg ha) fun _ fa => spec_bind cn P (condWidth_spec hg hb) fun _ fb => ?_
  have e : ∀ x y : F, simpleSelect (Hints.ofBool s) x y = if s then x else y := fun x y => by
    cases s <;> simp [simpleSelect, Hints.ofBool]
  dsimp only
  simp only [e]
  refine spec_pure cn P ⟨ok_of_full ⟨?_, ?_⟩, ?_⟩
  · have := fa.1; have := fb.1; show max a.overflow b.overflow ≤ _; omega
  · intro x hx
    obtain ⟨i, -, rfl⟩ := List.mem_map.1 hx
    show cn.toNat _ < 2 ^ (P.bits + max a.overflow b.overflow)
    cases s with
    | true => exact Nat.lt_of_lt_of_le (getD_lt h0 fa.2 i) (Nat.pow_le_pow_right (by omega) (by omega))
    | false => exact Nat.lt_of_lt_of_le (getD_lt h0 fb.2 i) (Nat.pow_le_pow_right (by omega) (by omega))
  · show value cn P ((List.range _).map _) = _
    rw [value_range]
    cases s with
    | true => simp only [if_true, ← getD_toNat h0]; rw [lv_getD _ _ _ (by simp)]; rfl
    | false => simp only [Bool.false_eq_true, if_false, ← getD_toNat h0]; rw [lv_getD _ _ _ (by simp)]; rfl

include hg in
theorem copyEl_spec {a : El F} (ha : Ok cn P a) :
    Spec cn P (copyEl P a) (fun r => New cn P r ∧ value cn P r.limbs ≡ value cn P a.limbs [MOD P.modulus]) := by
  unfold copyEl
  refine spec_bind cn P (spec_hint cn P) fun o _ => spec_bind cn P (packLimbs_spec hg) ?_
  rintro e ⟨rfl, he⟩
  exact spec_bind cn P (assertEqual_spec hg ha (new_int he).1) fun _ h => spec_pure cn P ⟨new_int he, h.symm⟩

end Verif.Std.Emu
