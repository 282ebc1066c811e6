import Verif.Std.EmulatedAny
/-!
The honest prover is accepted by the gadgets of the emulated field: the quotient and the remainder fit their limbs.
-/
set_option linter.unusedSectionVars false
set_option linter.unusedSimpArgs false
namespace Verif.Std.Emu
open Verif.Std.ShaM31 (simpleSelect limbsVal isZeroF)

variable {F : Type} [Field F] [DecidableEq F] (cn : Canon F) (P : Params)

/-- The conditions on the parameters: the modulus needs all its limbs, and is not too close to a power of two. -/
structure Tight : Prop where
  good : Good cn P
  two : 2 ≤ P.nlimbs
  all : (P.nlimbs - 1) * P.bits < P.modulus.size
  lead : 2 ^ (P.modulus.size - 1 + P.bits) ≤ P.modulus * (2 ^ P.bits - 1)

/-- An operand: in range, with at least the limbs of the modulus. -/
def Valid (e : El F) : Prop := Ok cn P e ∧ Full cn P e ∧ P.nlimbs ≤ e.limbs.length ∧ (e.internal = false → enforceWidth P e.limbs true)

/-- Some prover is accepted, with a result for which `Q` holds, and the checks registered hold over the integers. -/
def Honest {α : Type} (g : Gad F α) (Q : α → Prop) : Prop := ∃ x l, g x l ∧ Q x ∧ ∀ mc ∈ l, mc.Holds cn P ∧ ∀ ch, mc.check P ch

variable {cn P}

theorem honest_bind {α β : Type} {m : Gad F α} {f : α → Gad F β} {Q : α → Prop} {R : β → Prop} (h1 : Honest cn P m Q)
    (h2 : ∀ a, Q a → Honest cn P (f a) R) : Honest cn P (m >>= f) R := by
  obtain ⟨a, l1, g1, q, c1⟩ := h1
  obtain ⟨b, l2, g2, r, c2⟩ := h2 a q
  refine ⟨b, l1 ++ l2, ⟨a, l1, l2, g1, g2, rfl⟩, r, fun mc hm => ?_⟩
  rcases List.mem_append.1 hm with h | h
  · exact c1 mc h
  · exact c2 mc h

theorem honest_pure {α : Type} {a : α} {Q : α → Prop} (h : Q a) : Honest cn P (pure a : Gad F α) Q := ⟨a, [], ⟨rfl, rfl⟩, h, by simp⟩
theorem honest_require {p : Prop} (h : p) : Honest cn P (Gad.require p : Gad F Unit) (fun _ => True) := ⟨(), [], ⟨h, rfl⟩, trivial, by simp⟩
theorem honest_mono {α : Type} {g : Gad F α} {Q R : α → Prop} (h : Honest cn P g Q) (i : ∀ x, Q x → R x) : Honest cn P g R := by
  obtain ⟨x, l, h1, h2, h3⟩ := h
  exact ⟨x, l, h1, i x h2, h3⟩
theorem honest_spec {α : Type} {g : Gad F α} {Q R : α → Prop} (h : Honest cn P g Q) (s : Spec cn P g R) : Honest cn P g (fun x => Q x ∧ R x) := by
  obtain ⟨x, l, h1, h2, h3⟩ := h
  exact ⟨x, l, h1, ⟨h2, s x l h1 fun mc hm => (h3 mc hm).1⟩, h3⟩
theorem honest_hint {n : Nat} {o : List F} (h : o.length = n) {Q : List F → Prop} (hq : Q o) : Honest cn P (Gad.hint n) Q := ⟨o, [], ⟨h, rfl⟩, hq, by simp⟩
theorem honest_cond {a : El F} (h : Valid cn P a) : Honest cn P (condWidth P a) (fun _ => True) := honest_require h.2.2.2

/-- The value of limbs below `M`. -/
theorem limbs_bound (n M : Nat) : ∀ {l : List Nat}, (∀ x ∈ l, x ≤ M) → limbsVal n l * (2 ^ n - 1) + M ≤ M * 2 ^ (n * l.length) := by
  intro l
  induction l with
  | nil => intro _; simp [limbsVal]
  | cons x l ih =>
    intro h
    have h1 := ih fun y hy => h y (by simp [hy])
    have hx := h x (by simp)
    have hN := Nat.two_pow_pos n
    generalize hD : 2 ^ n - 1 = D at h1
    have hND : 2 ^ n = D + 1 := by omega
    rw [limbsVal, List.length_cons, Nat.mul_succ, Nat.pow_add, hND]
    have h2 := Nat.mul_le_mul_right D hx
    have h3 := Nat.mul_le_mul_left (D + 1) h1
    calc (x + (D + 1) * limbsVal n l) * D + M = x * D + M + (D + 1) * (limbsVal n l * D) := by ring
      _ ≤ M * D + M + (D + 1) * (limbsVal n l * D) := by omega
      _ = (D + 1) * (limbsVal n l * D + M) := by ring
      _ ≤ (D + 1) * (M * 2 ^ (n * l.length)) := h3
      _ = M * (2 ^ (n * l.length) * (D + 1)) := by ring

theorem value_bound {e : El F} (h : Full cn P e) : value cn P e.limbs * (2 ^ P.bits - 1) < 2 ^ (P.bits + e.overflow + P.bits * e.limbs.length) := by
  have := limbs_bound P.bits (2 ^ (P.bits + e.overflow)) (l := e.limbs.map cn.toNat) (by
    intro x hx
    obtain ⟨y, hy, rfl⟩ := List.mem_map.1 hx
    exact Nat.le_of_lt (h.2 y hy))
  rw [List.length_map, ← Nat.pow_add] at this
  have h0 := Nat.two_pow_pos (P.bits + e.overflow)
  rw [value]
  omega

theorem ceil_mul {b m : Nat} (hb : 0 < b) : m ≤ b * ((m + b - 1) / b) := by
  have h1 := Nat.div_add_mod (m + b - 1) b
  have h2 := Nat.mod_lt (m + b - 1) hb
  omega

theorem digits_getD (n : Nat) : ∀ k x i, i < k → (digits n k x).getD i 0 = x / 2 ^ (n * i) % 2 ^ n := by
  intro k
  induction k with
  | zero => intro x i h; omega
  | succ k ih =>
    intro x i h
    cases i with
    | zero => simp [digits]
    | succ i =>
      rw [digits, List.getD_cons_succ, ih _ _ (by omega), Nat.div_div_eq_div_mul, ← Nat.pow_add, Nat.mul_succ, Nat.add_comm n]

/-- The limbs of a number below the modulus pass the range checks. -/
theorem digits_width (ht : Tight cn P) {x : Nat} (hx : x < P.modulus) :
    enforceWidth P ((digits P.bits P.nlimbs x).map (Nat.cast : Nat → F)) true := by
  obtain ⟨h1, h2, -⟩ := digits_spec P.bits P.nlimbs x
  have ha := ht.all
  have hf := ht.good.fits
  have hb := ht.good.bits0
  have h2' := ht.two
  intro i hi
  have hi' : i < P.nlimbs := by simpa [h1] using hi
  rw [List.length_map, h1]
  have e : ((digits P.bits P.nlimbs x).map (Nat.cast : Nat → F)).getD i 0 = ((x / 2 ^ (P.bits * i) % 2 ^ P.bits : Nat) : F) := by
    rw [← digits_getD _ _ _ _ hi']
    simp [List.getD_eq_getElem?_getD, List.getElem?_map, List.getElem?_eq_getElem (h1 ▸ hi')]
  rw [e]
  refine ⟨_, ?_, rfl⟩
  split
  · rename_i hl
    have hsz : x < 2 ^ P.modulus.size := Nat.lt_trans hx (Nat.lt_size_self _)
    have hlast : P.modulus.size = P.bits * i + P.lastBits := by
      rw [Params.lastBits]
      have hc : P.bits * i = (P.nlimbs - 1) * P.bits := by rw [hl.2, Nat.mul_comm]
      have hd : P.nlimbs * P.bits = (P.nlimbs - 1) * P.bits + P.bits := by
        rw [← Nat.succ_mul]; congr 1; omega
      obtain ⟨t, ht'⟩ : ∃ t, P.modulus.size - 1 = P.bits * i + t := ⟨P.modulus.size - 1 - P.bits * i, by omega⟩
      rw [ht', Nat.mul_add_mod, Nat.mod_eq_of_lt (by omega)]
      omega
    have : x / 2 ^ (P.bits * i) < 2 ^ P.lastBits := by
      rw [Nat.div_lt_iff_lt_mul (Nat.two_pow_pos _), ← Nat.pow_add, Nat.add_comm, ← hlast]
      exact hsz
    exact Nat.lt_of_le_of_lt (Nat.mod_le _ _) this
  · exact Nat.mod_lt _ (Nat.two_pow_pos _)

/-- The element made of the limbs of a number below the modulus. -/
theorem digits_valid (ht : Tight cn P) {x : Nat} (hx : x < P.modulus) :
    Valid cn P (El.int ((digits P.bits P.nlimbs x).map (Nat.cast : Nat → F)) 0) ∧ value cn P ((digits P.bits P.nlimbs x).map (Nat.cast : Nat → F)) = x := by
  obtain ⟨h1, h2⟩ := digits_el (F := F) ht.good x (Nat.lt_trans hx (modulus_lt ht.good))
  exact ⟨⟨h2.1, h2.2.1, by simp [El.int, (digits_spec _ _ _).1], fun h => by simp [El.int] at h⟩, h1⟩

theorem one_valid (ht : Tight cn P) : Valid cn P (oneConst P : El F) :=
  (digits_valid ht (Nat.mod_lt _ (by have := ht.good.modulus1; omega))).1
theorem zero_valid (ht : Tight cn P) : Valid cn P (zeroConst P : El F) := (digits_valid ht (by have := ht.good.modulus1; omega)).1

/-- A gadget that registers no checks. -/
def NoChecks {α : Type} (g : Gad F α) : Prop := ∀ x l, g x l → l = []

theorem nil_bind {α β : Type} {m : Gad F α} {f : α → Gad F β} (h1 : NoChecks m) (h2 : ∀ a, NoChecks (f a)) : NoChecks (m >>= f) := by
  rintro x l ⟨a, l1, l2, g1, g2, rfl⟩
  rw [h1 _ _ g1, h2 _ _ _ g2]; rfl

theorem nil_callMulHint {a b : El F} {m : Bool} : NoChecks (callMulHint P a b m) := by
  have hp : ∀ l s, NoChecks (packLimbs P (l : List F) s) := fun l s => nil_bind (fun _ _ h => h.2) fun _ _ _ h => h.2
  unfold callMulHint
  dsimp only
  split
  · exact fun _ _ h => h.elim
  · refine nil_bind (fun _ _ h => h.2) fun ret => nil_bind (hp _ _) fun quo => ?_
    cases m with
    | true => exact nil_bind (hp _ _) fun _ _ _ h => h.2
    | false => exact nil_bind (m := pure _) (fun _ _ h => h.2) fun _ _ _ h => h.2

/-- The hint of the honest prover for `a b = r + K p`. -/
theorem honest_hint_mul (hg : Good cn P) (h2 : 2 ≤ P.nlimbs) {a b : El F} {m : Bool} {nq : Nat}
    (hq : nbQuo P a.limbs.length b.limbs.length (if m then mulPreCond P a b else a.overflow) = some nq) (hnq : nq ≠ 0) (la : a.limbs ≠ []) (lb : b.limbs ≠ [])
    {r : List F} (lr : r.length = P.nlimbs) (hr : m = true → enforceWidth P r true) {K : Nat} (hK : K < 2 ^ (P.bits * nq))
    (he : value cn P a.limbs * value cn P b.limbs = (if m then value cn P r else 0) + K * P.modulus) {α : Type} {f : El F × El F × El F → Gad F α} {Q : α → Prop}
    (hf : ∀ k c : El F, (MulCheck.Holds cn P ⟨a.limbs, b.limbs, if m then r else [], k.limbs, c.limbs, []⟩ ∧
      ∀ ch, MulCheck.check P ⟨a.limbs, b.limbs, if m then r else [], k.limbs, c.limbs, []⟩ ch) →
      Honest cn P (f (k, if m then El.int r 0 else ⟨[], 0, false, false⟩, c)) Q) :
    Honest cn P (callMulHint P a b m >>= f) Q := by
  obtain ⟨d1, d2, d3⟩ := digits_spec P.bits nq K
  have lk : ((digits P.bits nq K).map (Nat.cast : Nat → F)).length = nq := by rw [List.length_map, d1]
  have hb : 2 ^ P.bits ≤ 2 ^ 26 := Nat.pow_le_pow_right (by omega) hg.bits26
  have hn := hg.native
  have hm := map_toNat_cast (cn := cn) (digits P.bits nq K) fun y hy => by have := d2 y hy; omega
  have hv : value cn P ((digits P.bits nq K).map (Nat.cast : Nat → F)) = K := by rw [value, hm, d3, Nat.mod_eq_of_lt hK]
  have hr' : value cn P (if m then r else []) = if m then value cn P r else 0 := by cases m <;> rfl
  obtain ⟨c, lc, hc⟩ := (check_iff (cn := cn) hg (a := a.limbs) (b := b.limbs) (r := if m then r else []) la lb
    (k := (digits P.bits nq K).map (Nat.cast : Nat → F)) (by intro h; rw [h] at lk; exact hnq lk.symm) (by omega) (by cases m <;> simp; omega)).2 (by
      rw [hv, hr', he])
  rw [lk] at lc
  obtain ⟨l1, g1, c1⟩ : ∃ l, callMulHint P a b m (El.int ((digits P.bits nq K).map (Nat.cast : Nat → F)) 0, if m then El.int r 0 else ⟨[], 0, false, false⟩, El.int c 0) l ∧ l = [] := by
    obtain ⟨l, hl, -⟩ := reaches_callMulHint (P := P) (a := a) (b := b) (m := m) hq lk lr lc (width_digits _ _) hr
    exact ⟨l, hl, nil_callMulHint _ _ hl⟩
  subst c1
  obtain ⟨x, l2, g2, hx, c2⟩ := hf (El.int ((digits P.bits nq K).map (Nat.cast : Nat → F)) 0) (El.int c 0) ⟨by
    show value cn P a.limbs * value cn P b.limbs = value cn P (if m then r else []) + value cn P ((digits P.bits nq K).map (Nat.cast : Nat → F)) * P.modulus
    rw [hr', hv, he], hc⟩
  exact ⟨x, l2, ⟨_, [], l2, g1, g2, rfl⟩, hx, c2⟩

theorem honest_push {mc : MulCheck F} (h : mc.Holds cn P ∧ ∀ ch, mc.check P ch) : Honest cn P (Gad.push mc) (fun _ => True) :=
  ⟨(), [mc], rfl, trivial, fun m hm => by rw [List.mem_singleton.1 hm]; exact h⟩

theorem pow_bound {D b s V q p : Nat} {t : Nat} (hD : D = 2 ^ b - 1) (h1 : V * D < 2 ^ t) (hp : 2 ^ (s - 1 + b) ≤ p * D) (ht : t ≤ s - 1 + b + q) :
    V < p * 2 ^ q := by
  by_contra hc
  have h2 := Nat.mul_le_mul_right D (Nat.le_of_not_lt hc)
  have h3 : 2 ^ t ≤ 2 ^ (s - 1 + b) * 2 ^ q := by rw [← Nat.pow_add]; exact Nat.pow_le_pow_right (by omega) ht
  have h4 := Nat.mul_le_mul_right (2 ^ q) hp
  have h5 : p * D * 2 ^ q = p * 2 ^ q * D := by ring
  omega

theorem mulMod_honest (ht : Tight cn P) {a b : El F} (ha : Valid cn P a) (hb : Valid cn P b) :
    Honest cn P (mulMod P a b) (fun r => Valid cn P r ∧ r.overflow = 0) := by
  have h2 := ht.two
  have hla := ha.2.2.1
  have hlb := hb.2.2.1
  have hb0 := ht.good.bits0
  have hfit := ht.good.fits
  have hmod := ht.good.modulus1
  unfold mulMod
  refine honest_bind (honest_cond ha) fun _ _ => honest_bind (honest_cond hb) fun _ _ => ?_
  set la := a.limbs.length with hlad
  set lb := b.limbs.length with hlbd
  have hpc : mulPreCond P a b = P.bits + Nat.clog 2 (la + lb - 1) + a.overflow + b.overflow := by
    simp only [mulPreCond, mulLimbs, ← hlad, ← hlbd]
    rw [if_pos (by omega)]
  have hclog : 1 ≤ Nat.clog 2 (la + lb - 1) := Nat.clog_pos (by omega) (by omega)
  have hlen : P.nlimbs * P.bits ≤ (la + lb - 1) * P.bits := Nat.mul_le_mul_right _ (by omega)
  have e1 : (la + lb - 1) * P.bits + P.bits = P.bits * la + P.bits * lb := by
    rw [← Nat.succ_mul, show (la + lb - 1).succ = la + lb by omega]; ring
  obtain ⟨nq, hnq⟩ : ∃ nq, nq = ((la + lb - 1) * P.bits + mulPreCond P a b + 1 - P.modulus.size + P.bits - 1) / P.bits := ⟨_, rfl⟩
  have hq : nbQuo P la lb (mulPreCond P a b) = some nq := by
    unfold nbQuo
    dsimp only
    rw [show mulLimbs la lb = la + lb - 1 from rfl, if_neg (by omega), hnq]
  have hc := ceil_mul (m := (la + lb - 1) * P.bits + mulPreCond P a b + 1 - P.modulus.size) hb0
  rw [← hnq] at hc
  have hq0 : nq ≠ 0 := by rintro rfl; simp only [Nat.mul_zero] at hc; omega
  have hx := Nat.mod_lt (value cn P a.limbs * value cn P b.limbs) (show 0 < P.modulus by omega)
  obtain ⟨hv1, hv2⟩ := digits_valid (F := F) ht hx
  have hK : value cn P a.limbs * value cn P b.limbs / P.modulus < 2 ^ (P.bits * nq) := by
    rw [Nat.div_lt_iff_lt_mul (by omega), Nat.mul_comm _ P.modulus]
    have va := value_bound ha.2.1
    have vb := value_bound hb.2.1
    rw [← hlad] at va
    rw [← hlbd] at vb
    have hD : 2 ^ (P.bits - 1) ≤ 2 ^ P.bits - 1 := by
      have : 2 ^ P.bits = 2 ^ (P.bits - 1) * 2 := by rw [← Nat.pow_succ]; congr 1; omega
      have := Nat.two_pow_pos (P.bits - 1)
      omega
    generalize hDd : 2 ^ P.bits - 1 = D at va vb hD
    have hmul := Nat.mul_lt_mul_of_lt_of_le va (Nat.le_of_lt vb) (Nat.two_pow_pos _)
    rw [← Nat.pow_add] at hmul
    have h3 : value cn P a.limbs * value cn P b.limbs * D < 2 ^ (P.bits + 1 + a.overflow + b.overflow + P.bits * la + P.bits * lb) := by
      by_contra hcon
      have h4 := Nat.mul_le_mul_right (2 ^ (P.bits - 1)) (Nat.le_of_not_lt hcon)
      have h5 := Nat.mul_le_mul_left (value cn P a.limbs * value cn P b.limbs * D) hD
      rw [← Nat.pow_add, show P.bits + 1 + a.overflow + b.overflow + P.bits * la + P.bits * lb + (P.bits - 1) =
        P.bits + a.overflow + P.bits * la + (P.bits + b.overflow + P.bits * lb) by omega] at h4
      have h6 : value cn P a.limbs * value cn P b.limbs * D * D = value cn P a.limbs * D * (value cn P b.limbs * D) := by ring
      omega
    have hl := ht.lead
    rw [hDd] at hl
    exact pow_bound hDd.symm h3 hl (by omega)
  refine honest_hint_mul (m := true) ht.good h2 hq hq0 (by intro h; simp [h] at hlad; omega) (by intro h; simp [h] at hlbd; omega)
    (r := (digits P.bits P.nlimbs (value cn P a.limbs * value cn P b.limbs % P.modulus)).map (Nat.cast : Nat → F)) (by simp [(digits_spec _ _ _).1])
    (fun _ => digits_width ht hx) hK (by rw [if_pos rfl, hv2, Nat.mul_comm (_ / _)]; exact (Nat.mod_add_div _ _).symm) fun k c hkc => ?_
  exact honest_bind (honest_push hkc) fun _ _ => honest_pure ⟨hv1, rfl⟩

theorem reduce_honest (ht : Tight cn P) {a : El F} {s : Bool} (ha : Valid cn P a) : Honest cn P (reduce P a s) (fun r => Valid cn P r ∧ r.overflow = 0) := by
  unfold reduce
  refine honest_bind (honest_cond ha) fun _ _ => ?_
  split
  · rename_i h; exact honest_pure ⟨ha, ha.1.2.2 h⟩
  · split
    · rename_i h; exact honest_pure ⟨ha, h.2⟩
    · exact mulMod_honest ht ha (one_valid ht)

theorem reduceIf_honest (ht : Tight cn P) {a : El F} (ha : Valid cn P a) (k : Nat) : Honest cn P (reduceIf P a k) (Valid cn P) := by
  unfold reduceIf
  split
  · exact honest_mono (reduce_honest ht ha) fun _ h => h.1
  · exact honest_pure ha

theorem valid_of_ok {e : El F} (h : Ok cn P e) (hi : e.internal = true) (hl : P.nlimbs ≤ e.limbs.length) : Valid cn P e :=
  ⟨h, h.1 hi, hl, fun h' => by rw [hi] at h'; cases h'⟩

theorem add_honest (ht : Tight cn P) {a b : El F} (ha : Valid cn P a) (hb : Valid cn P b) :
    Honest cn P (add P a b) (fun r => Valid cn P r ∧ value cn P r.limbs ≡ value cn P a.limbs + value cn P b.limbs [MOD P.modulus]) := by
  have h : Honest cn P (add P a b) (fun r => r.internal = true ∧ P.nlimbs ≤ r.limbs.length) := by
    unfold add
    refine honest_bind (honest_cond ha) fun _ _ => honest_bind (honest_cond hb) fun _ _ => honest_bind (reduceIf_honest ht ha 1) fun a' ha' =>
      honest_bind (reduceIf_honest ht hb 1) fun b' hb' => honest_pure ⟨rfl, ?_⟩
    have := ha'.2.2.1
    simp [El.int]
    omega
  exact honest_mono (honest_spec h (add_spec ht.good ha.1 hb.1)) fun r hr => ⟨valid_of_ok hr.2.1 hr.1.1 hr.1.2, hr.2.2⟩

theorem subPadding_some (hg : Good cn P) {ov nb : Nat} (h : P.nlimbs ≤ nb) : (subPadding P ov nb).isSome = true := by
  have h1 := hg.modulus1
  have h2 : P.nlimbs * P.bits ≤ nb * P.bits := Nat.mul_le_mul_right _ h
  have h3 := hg.fits
  have hs : ∀ n, n ≤ P.modulus → n.size ≤ nb * P.bits := fun n hn => Nat.le_trans (Nat.size_le_size hn) (by omega)
  unfold subPadding
  rw [if_neg (by omega)]
  dsimp only
  rw [decompose, if_pos (hs _ (Nat.sub_le _ _))]
  rfl

theorem sub_honest (ht : Tight cn P) {a b : El F} (ha : Valid cn P a) (hb : Valid cn P b) :
    Honest cn P (sub P a b) (fun r => Valid cn P r ∧ value cn P r.limbs + value cn P b.limbs ≡ value cn P a.limbs [MOD P.modulus]) := by
  have h : Honest cn P (sub P a b) (fun r => r.internal = true ∧ P.nlimbs ≤ r.limbs.length) := by
    unfold sub
    refine honest_bind (honest_cond ha) fun _ _ => honest_bind (honest_cond hb) fun _ _ => honest_bind (reduceIf_honest ht ha 1) fun a' ha' =>
      honest_bind (reduceIf_honest ht hb 2) fun b' hb' => ?_
    have := ha'.2.2.1
    have hle : P.nlimbs ≤ max a'.limbs.length b'.limbs.length := by omega
    obtain ⟨pad, hp⟩ := Option.isSome_iff_exists.1 (subPadding_some ht.good (ov := b'.overflow) hle)
    dsimp only
    rw [hp]
    exact honest_pure ⟨rfl, by simpa [El.int] using hle⟩
  exact honest_mono (honest_spec h (sub_spec ht.good ha.1 hb.1)) fun r hr => ⟨valid_of_ok hr.2.1 hr.1.1 hr.1.2, hr.2.2⟩

theorem neg_honest (ht : Tight cn P) {a : El F} (ha : Valid cn P a) :
    Honest cn P (neg P a) (fun r => Valid cn P r ∧ value cn P r.limbs + value cn P a.limbs ≡ 0 [MOD P.modulus]) :=
  honest_mono (honest_spec (sub_honest ht (zero_valid ht) ha) (neg_spec ht.good ha.1)) fun _ hr => ⟨hr.1.1, hr.2.2⟩

theorem checkZero_honest (ht : Tight cn P) {a : El F} (ha : Valid cn P a) (h0 : value cn P a.limbs ≡ 0 [MOD P.modulus]) :
    Honest cn P (checkZero P a) (fun _ => True) := by
  have h2 := ht.two
  have hla := ha.2.2.1
  have hb0 := ht.good.bits0
  have hfit := ht.good.fits
  have hmod := ht.good.modulus1
  have hnat := ht.good.native
  unfold checkZero
  refine honest_bind (honest_cond ha) fun _ _ => ?_
  set la := a.limbs.length with hlad
  have hlen : P.nlimbs * P.bits ≤ la * P.bits := Nat.mul_le_mul_right _ hla
  obtain ⟨nq, hnq⟩ : ∃ nq, nq = (la * P.bits + a.overflow + 1 - P.modulus.size + P.bits - 1) / P.bits := ⟨_, rfl⟩
  have hq : nbQuo P la (shortOne : El F).limbs.length a.overflow = some nq := by
    show nbQuo P la 1 a.overflow = some nq
    unfold nbQuo
    dsimp only
    rw [show mulLimbs la 1 = la from Nat.add_sub_cancel .., if_neg (by omega), hnq]
  have hc := ceil_mul (m := la * P.bits + a.overflow + 1 - P.modulus.size) hb0
  rw [← hnq] at hc
  have hq0 : nq ≠ 0 := by rintro rfl; simp only [Nat.mul_zero] at hc; omega
  have hdvd : P.modulus ∣ value cn P a.limbs := (Nat.modEq_zero_iff_dvd).1 h0
  have hK : value cn P a.limbs / P.modulus < 2 ^ (P.bits * nq) := by
    rw [Nat.div_lt_iff_lt_mul (by omega), Nat.mul_comm _ P.modulus]
    have va := value_bound ha.2.1
    rw [← hlad] at va
    have e : la * P.bits = P.bits * la := Nat.mul_comm _ _
    exact pow_bound rfl va ht.lead (by omega)
  refine honest_hint_mul (m := false) ht.good h2 hq hq0 (by intro h; simp [h] at hlad; omega) (by simp [shortOne, El.int])
    (r := List.replicate P.nlimbs 0) (by simp) (by simp) hK (by
      rw [show value cn P (shortOne : El F).limbs = 1 from value_one (by omega), if_neg (by decide), Nat.div_mul_cancel hdvd]; omega) fun k c hkc => honest_push hkc

theorem assertEqual_honest (ht : Tight cn P) {a b : El F} (ha : Valid cn P a) (hb : Valid cn P b)
    (h : value cn P a.limbs ≡ value cn P b.limbs [MOD P.modulus]) : Honest cn P (assertEqual P a b) (fun _ => True) := by
  unfold assertEqual
  refine honest_bind (honest_cond ha) fun _ _ => honest_bind (honest_cond hb) fun _ _ => honest_bind (sub_honest ht hb ha) fun d hd => ?_
  refine checkZero_honest ht hd.1 (Nat.ModEq.add_right_cancel' (value cn P a.limbs) ?_)
  rw [Nat.zero_add]
  exact hd.2.trans h.symm

theorem mulStep_honest (ht : Tight cn P) {a b : El F} (ha : Valid cn P a) (hb : Valid cn P b) :
    Honest cn P (mulStep P a b) (fun q => Valid cn P q.1 ∧ Valid cn P q.2) := by
  unfold mulStep
  split
  · split
    · exact honest_bind (reduce_honest ht hb) fun b' hb' => honest_pure ⟨ha, hb'.1⟩
    · exact honest_bind (reduce_honest ht ha) fun a' ha' => honest_pure ⟨ha'.1, hb⟩
  · exact honest_pure ⟨ha, hb⟩

theorem mul_honest (ht : Tight cn P) {a b : El F} (ha : Valid cn P a) (hb : Valid cn P b) :
    Honest cn P (mul P a b) (fun r => Valid cn P r ∧ value cn P r.limbs ≡ value cn P a.limbs * value cn P b.limbs [MOD P.modulus]) := by
  have h : Honest cn P (mul P a b) (fun r => Valid cn P r ∧ r.overflow = 0) := by
    unfold mul
    exact honest_bind (honest_cond ha) fun _ _ => honest_bind (honest_cond hb) fun _ _ => honest_bind (mulStep_honest ht ha hb) fun q1 h1 =>
      honest_bind (mulStep_honest ht h1.1 h1.2) fun q2 h2 => mulMod_honest ht h2.1 h2.2
  exact honest_mono (honest_spec h (mul_spec ht.good ha.1 hb.1)) fun r hr => ⟨hr.1.1, hr.2.2⟩

theorem divStep_honest (ht : Tight cn P) {b : El F} (hb : Valid cn P b) : Honest cn P (divStep P b) (fun q => Valid cn P q.1) := by
  unfold divStep
  dsimp only
  split
  · exact honest_bind (reduce_honest ht hb) fun b' hb' => honest_pure hb'.1
  · exact honest_pure hb

theorem divStep2_honest (ht : Tight cn P) {q : El F × Nat} (hb : Valid cn P q.1) : Honest cn P (divStep2 P q) (Valid cn P) := by
  unfold divStep2
  split
  · exact honest_mono (reduce_honest ht hb) fun _ h => h.1
  · exact honest_pure hb

/-- A number below the modulus claimed by a hint. -/
theorem honest_pack (ht : Tight cn P) {x : Nat} (hx : x < P.modulus) {α : Type} {f : El F → Gad F α} {Q : α → Prop}
    (h : ∀ e : El F, Valid cn P e → value cn P e.limbs = x → Honest cn P (f e) Q) :
    Honest cn P (Gad.hint P.nlimbs >>= fun d => packLimbs P d true >>= f) Q := by
  obtain ⟨h1, h2⟩ := digits_valid (F := F) ht hx
  refine honest_bind (honest_hint (o := (digits P.bits P.nlimbs x).map (Nat.cast : Nat → F)) (by simp [(digits_spec _ _ _).1])
    (Q := fun o => o = (digits P.bits P.nlimbs x).map (Nat.cast : Nat → F)) rfl) ?_
  rintro _ rfl
  refine honest_bind (Q := fun e => e = El.int ((digits P.bits P.nlimbs x).map (Nat.cast : Nat → F)) 0)
    (honest_bind (honest_require (digits_width ht hx)) fun _ _ => honest_pure rfl) ?_
  rintro _ rfl
  exact h _ h1 h2

theorem inv_exists {m b : Nat} (hm : 1 < m) (hc : Nat.Coprime b m) (a : Nat) : ∃ x, x < m ∧ x * b ≡ a [MOD m] := by
  obtain ⟨y, -, hy⟩ := Nat.exists_mul_mod_eq_one_of_coprime hc hm
  refine ⟨y * a % m, Nat.mod_lt _ (by omega), ?_⟩
  have h1 : b * y ≡ 1 [MOD m] := by rw [Nat.ModEq, hy, Nat.mod_eq_of_lt hm]
  have h2 := ((Nat.mod_modEq (y * a) m).mul_right b)
  refine h2.trans ?_
  have h3 := h1.mul_right a
  rw [Nat.one_mul] at h3
  rw [show y * a * b = b * y * a by ring]
  exact h3

theorem div_honest (ht : Tight cn P) {a b : El F} (ha : Valid cn P a) (hb : Valid cn P b) (hc : Nat.Coprime (value cn P b.limbs) P.modulus) :
    Honest cn P (div P a b) (fun r => Valid cn P r ∧ value cn P r.limbs * value cn P b.limbs ≡ value cn P a.limbs [MOD P.modulus]) := by
  have hm2 := maxOf2 ht.good
  have h : Honest cn P (div P a b) (Valid cn P) := by
    unfold div
    refine honest_bind (honest_cond ha) fun _ _ => honest_bind (honest_cond hb) fun _ _ => ?_
    refine honest_bind (honest_spec (divStep_honest ht hb) (divStep_spec ht.good hb.1)) fun q hq => ?_
    refine honest_bind (honest_spec (reduceIf_honest ht ha 1) (reduceIf_spec ht.good ha.1 ha.2.1 1 (by omega))) fun a1 ha1 => ?_
    refine honest_bind (honest_spec (divStep2_honest ht hq.1) (divStep2_spec ht.good hq.1.1)) fun b2 hb2 => ?_
    obtain ⟨x, hx, hxb⟩ := inv_exists ht.good.modulus1 hc (value cn P a.limbs)
    refine honest_pack ht hx fun e he hex => ?_
    refine honest_bind (mul_honest ht he hb2.1) fun res hres => ?_
    refine honest_bind (assertEqual_honest ht hres.1 ha1.1 ?_) fun _ _ => honest_pure he
    refine hres.2.trans ?_
    rw [hex]
    exact (((hb2.2.2.trans hq.2.2).mul_left x).trans hxb).trans ha1.2.2.2.2.symm
  exact honest_mono (honest_spec h (div_spec ht.good ha.1 hb.1)) fun r hr => ⟨hr.1, hr.2.2⟩

theorem inverse_honest (ht : Tight cn P) {b : El F} (hb : Valid cn P b) (hc : Nat.Coprime (value cn P b.limbs) P.modulus) :
    Honest cn P (inverse P b) (fun r => Valid cn P r ∧ value cn P r.limbs * value cn P b.limbs ≡ 1 [MOD P.modulus]) := by
  have h : Honest cn P (inverse P b) (Valid cn P) := by
    unfold inverse
    refine honest_bind (honest_cond hb) fun _ _ => ?_
    refine honest_bind (honest_spec (divStep_honest ht hb) (divStep_spec ht.good hb.1)) fun q hq => ?_
    refine honest_bind (honest_spec (divStep2_honest ht hq.1) (divStep2_spec ht.good hq.1.1)) fun b2 hb2 => ?_
    obtain ⟨x, hx, hxb⟩ := inv_exists ht.good.modulus1 hc 1
    refine honest_pack ht hx fun e he hex => ?_
    refine honest_bind (mul_honest ht he hb2.1) fun res hres => ?_
    refine honest_bind (assertEqual_honest ht hres.1 (one_valid ht) ?_) fun _ _ => honest_pure he
    refine hres.2.trans ?_
    rw [hex, (one_el (F := F) ht.good).1]
    exact ((hb2.2.2.trans hq.2.2).mul_left x).trans hxb
  exact honest_mono (honest_spec h (inverse_spec ht.good hb.1)) fun r hr => ⟨hr.1, hr.2.2⟩

theorem copyEl_honest (ht : Tight cn P) {a : El F} (ha : Valid cn P a) :
    Honest cn P (copyEl P a) (fun r => Valid cn P r ∧ value cn P r.limbs ≡ value cn P a.limbs [MOD P.modulus]) := by
  have h : Honest cn P (copyEl P a) (Valid cn P) := by
    unfold copyEl
    refine honest_pack ht (Nat.mod_lt (value cn P a.limbs) (by have := ht.good.modulus1; omega)) fun e he hex => ?_
    refine honest_bind (assertEqual_honest ht ha he ?_) fun _ _ => honest_pure he
    rw [hex]
    exact (Nat.mod_modEq _ _).symm
  exact honest_mono (honest_spec h (copyEl_spec ht.good ha.1)) fun r hr => ⟨hr.1, hr.2.2⟩

theorem mulConst_honest (ht : Tight cn P) (h8 : P.bits ≤ 8) {a : El F} (ha : Valid cn P a) {c : Nat} (hc : c.size ≤ 20) :
    Honest cn P (mulConst P a c) (fun r => Valid cn P r ∧ value cn P r.limbs ≡ value cn P a.limbs * c [MOD P.modulus]) := by
  have h : Honest cn P (mulConst P a c) (fun r => r.internal = true ∧ P.nlimbs ≤ r.limbs.length) := by
    unfold mulConst
    split
    · exact honest_pure ⟨rfl, by simp [zeroConst, El.int, (digits_spec _ _ _).1]⟩
    · rw [if_neg (by omega)]
      exact honest_bind (reduceIf_honest ht ha c.size) fun a' ha' => honest_pure ⟨rfl, by simpa [El.int] using ha'.2.2.1⟩
  exact honest_mono (honest_spec h (mulConst_spec ht.good ha.1 ha.2.1 h8 c)) fun r hr => ⟨valid_of_ok hr.2.1 hr.1.1 hr.1.2, hr.2.2⟩

end Verif.Std.Emu
