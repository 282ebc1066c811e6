import Verif.Std.EmulatedCheck
/-!
What a dishonest prover reaches in the emulated field: the carries are not range checked, so that each check is an equation in the
native field only, which the quotient can meet.
-/
set_option linter.unusedSectionVars false
set_option linter.unusedSimpArgs false
namespace Verif.Std.Emu
open Verif.Std.ShaM31 (simpleSelect limbsVal isZeroF)

variable {F : Type} [Field F] [DecidableEq F] {cn : Canon F} {P : Params}

/-- Some prover makes the gadget return `x`, and every check it registers holds at every challenge. -/
def Reaches (P : Params) {α : Type} (g : Gad F α) (x : α) : Prop := ∃ l, g x l ∧ ∀ ch, checkMul P l ch

theorem reaches_bind {α β : Type} {m : Gad F α} {f : α → Gad F β} {a : α} {b : β} (h1 : Reaches P m a) (h2 : Reaches P (f a) b) :
    Reaches P (m >>= f) b := by
  obtain ⟨l1, g1, c1⟩ := h1
  obtain ⟨l2, g2, c2⟩ := h2
  refine ⟨l1 ++ l2, ⟨a, l1, l2, g1, g2, rfl⟩, fun ch mc hm => ?_⟩
  rcases List.mem_append.1 hm with h | h
  · exact c1 ch mc h
  · exact c2 ch mc h

theorem reaches_pure {α : Type} (a : α) : Reaches P (pure a : Gad F α) a := ⟨[], ⟨rfl, rfl⟩, by simp [checkMul]⟩
theorem reaches_require {p : Prop} (h : p) : Reaches P (Gad.require p : Gad F Unit) () := ⟨[], ⟨h, rfl⟩, by simp [checkMul]⟩
theorem reaches_hint {n : Nat} {o : List F} (h : o.length = n) : Reaches P (Gad.hint n) o := ⟨[], ⟨h, rfl⟩, by simp [checkMul]⟩
theorem reaches_push {mc : MulCheck F} (h : ∀ ch, mc.check P ch) : Reaches P (Gad.push mc) () :=
  ⟨[mc], rfl, fun ch m hm => by rw [List.mem_singleton.1 hm]; exact h ch⟩
theorem reaches_condWidth {a : El F} (h : a.internal = false → enforceWidth P a.limbs true) : Reaches P (condWidth P a) () := reaches_require h

theorem reaches_packLimbs {l : List F} {s : Bool} (h : enforceWidth P l s) : Reaches P (packLimbs P l s) (El.int l 0) :=
  reaches_bind (reaches_require h) (reaches_pure _)

theorem width_digits (n x : Nat) : enforceWidth P ((digits P.bits n x).map (Nat.cast : Nat → F)) false := by
  obtain ⟨h1, h2, -⟩ := digits_spec P.bits n x
  intro i hi
  have hi' : i < (digits P.bits n x).length := by simpa using hi
  refine ⟨(digits P.bits n x)[i], by simpa using h2 _ (List.getElem_mem hi'), ?_⟩
  simp [List.getD_eq_getElem?_getD, List.getElem?_map, List.getElem?_eq_getElem hi']

/-- Quotient, remainder and carries of any values. -/
theorem reaches_callMulHint {a b : El F} {m : Bool} {nq : Nat}
    (hq : nbQuo P a.limbs.length b.limbs.length (if m then mulPreCond P a b else a.overflow) = some nq) {k r c : List F} (lk : k.length = nq)
    (lr : r.length = P.nlimbs) (lc : c.length = max (mulLimbs a.limbs.length b.limbs.length) (mulLimbs nq P.nlimbs) - 1)
    (hk : enforceWidth P k false) (hr : m = true → enforceWidth P r true) :
    Reaches P (callMulHint P a b m) (El.int k 0, if m then El.int r 0 else ⟨[], 0, false, false⟩, El.int c 0) := by
  unfold callMulHint
  dsimp only
  rw [hq]
  have e1 : (k ++ (r ++ c)).take nq = k := by rw [← lk, List.take_left]
  have e2 : (k ++ (r ++ c)).drop nq = r ++ c := by rw [← lk, List.drop_left]
  have e3 : (r ++ c).take P.nlimbs = r := by rw [← lr, List.take_left]
  have e4 : (k ++ (r ++ c)).drop (nq + P.nlimbs) = c := by rw [← List.drop_drop, e2, ← lr, List.drop_left]
  refine reaches_bind (reaches_hint (o := k ++ (r ++ c)) (by simp [lk, lr, lc]; omega)) ?_
  rw [e1, e2, e3, e4]
  refine reaches_bind (reaches_packLimbs hk) ?_
  cases m with
  | true => exact reaches_bind (a := El.int r 0) (reaches_packLimbs (hr rfl)) (reaches_pure _)
  | false => exact reaches_bind (a := ⟨[], 0, false, false⟩) (reaches_pure _) (reaches_pure _)

/-- The quotient that meets the equation in the native field. -/
theorem quotient (hg : Good cn P) {n : Nat} {v : F} {K : Nat} (hK : K < 2 ^ (P.bits * n)) (e : v = ((K * P.modulus : Nat) : F)) :
    ((value cn P ((digits P.bits n K).map (Nat.cast : Nat → F)) * P.modulus : Nat) : F) = v := by
  obtain ⟨h1, h2, h3⟩ := digits_spec P.bits n K
  have hb : 2 ^ P.bits ≤ 2 ^ 26 := Nat.pow_le_pow_right (by omega) hg.bits26
  have hn := hg.native
  have hm := map_toNat_cast (cn := cn) (digits P.bits n K) fun y hy => by have := h2 y hy; omega
  rw [value, hm, h3, Nat.mod_eq_of_lt hK, e]

/-- **Any remainder is accepted**, if the quotient is wide enough for an element of the native field. -/
theorem mulMod_any (hg : Good cn P) (h0 : 0 < P.nlimbs) {a b : El F} (ha : a.internal = true) (hb : b.internal = true) (la : a.limbs ≠ []) (lb : b.limbs ≠ [])
    (hp : (P.modulus : F) ≠ 0) {nq : Nat} (hq : nbQuo P a.limbs.length b.limbs.length (mulPreCond P a b) = some nq)
    (hn : cn.modulus ≤ 2 ^ (P.bits * nq)) {r : List F} (lr : r.length = P.nlimbs) (hr : enforceWidth P r true) :
    Reaches P (mulMod P a b) (El.int r 0) := by
  unfold mulMod
  refine reaches_bind (reaches_condWidth fun h => by simp [ha] at h) (reaches_bind (reaches_condWidth fun h => by simp [hb] at h) ?_)
  have hnq : nq ≠ 0 := by
    rintro rfl
    have := hg.native
    simp only [Nat.mul_zero, Nat.pow_zero] at hn
    omega
  let v : F := ((value cn P a.limbs * value cn P b.limbs : Nat) : F) - ((value cn P r : Nat) : F)
  let K : Nat := cn.toNat (v / (P.modulus : F))
  have hK : K < 2 ^ (P.bits * nq) := Nat.lt_of_lt_of_le (cn.toNat_lt _) hn
  have hv := quotient hg (n := nq) (v := v) hK (by rw [Nat.cast_mul, cn.cast_toNat]; field_simp)
  have lk : ((digits P.bits nq K).map (Nat.cast : Nat → F)).length = nq := by rw [List.length_map, (digits_spec _ _ _).1]
  obtain ⟨c, lc, hc⟩ := (check_iff (cn := cn) hg (r := r) la lb (k := (digits P.bits nq K).map (Nat.cast : Nat → F))
    (by intro h; rw [h] at lk; exact hnq lk.symm) h0 (by omega)).2 (by rw [Nat.cast_add, hv]; ring)
  rw [lk] at lc
  refine reaches_bind (reaches_callMulHint (m := true) hq lk lr lc (width_digits _ _) fun _ => hr) ?_
  exact reaches_bind (reaches_push hc) (reaches_pure _)

/-- **A check for zero is accepted** for every element that is `K` times the modulus in the native field. -/
theorem checkZero_any (hg : Good cn P) (h0 : 0 < P.nlimbs) {a : El F} (ha : a.internal = true) (la : a.limbs ≠ []) {nq : Nat}
    (hq : nbQuo P a.limbs.length 1 a.overflow = some nq) (hn : nq ≠ 0) (h1 : 1 < cn.modulus) {K : Nat} (hK : K < 2 ^ (P.bits * nq))
    (hv : ((value cn P a.limbs : Nat) : F) = ((K * P.modulus : Nat) : F)) : Reaches P (checkZero P a) () := by
  unfold checkZero
  refine reaches_bind (reaches_condWidth fun h => by simp [ha] at h) ?_
  have hv' := quotient hg (n := nq) hK hv
  have lk : ((digits P.bits nq K).map (Nat.cast : Nat → F)).length = nq := by rw [List.length_map, (digits_spec _ _ _).1]
  obtain ⟨c, lc, hc⟩ := (check_iff (cn := cn) hg (a := a.limbs) (b := [1]) (r := []) la (by simp) (k := (digits P.bits nq K).map (Nat.cast : Nat → F))
    (by intro h; rw [h] at lk; exact hn lk.symm) h0 (by simp)).2 (by
      rw [Nat.cast_add, hv', value_one h1]; simp [value, limbsVal])
  rw [lk] at lc
  have := reaches_callMulHint (P := P) (a := a) (b := shortOne) (m := false) (nq := nq) (r := List.replicate P.nlimbs 0) hq lk (by simp) lc
    (width_digits _ _) (by simp)
  exact reaches_bind this (reaches_push hc)

theorem pev_map_add {ι : Type} (L : List ι) (f g : ι → F) (x : F) : pev (L.map fun i => f i + g i) x = pev (L.map f) x + pev (L.map g) x := by
  induction L with
  | nil => simp [pev]
  | cons i L ih => simp only [List.map_cons, pev, ih]; ring

theorem pev_map_sub {ι : Type} (L : List ι) (f g : ι → F) (x : F) : pev (L.map fun i => f i - g i) x = pev (L.map f) x - pev (L.map g) x := by
  induction L with
  | nil => simp [pev]
  | cons i L ih => simp only [List.map_cons, pev, ih]; ring

theorem range_getD {α : Type} (l : List α) (d : α) : (List.range l.length).map (fun i => l.getD i d) = l := by
  refine List.ext_getElem (by simp) fun i h1 h2 => ?_
  simp [List.getD_eq_getElem?_getD, List.getElem?_eq_getElem h2]

/-- **An equality is accepted** for two elements that are equal in the native field. -/
theorem assertEqual_any (hg : Good cn P) (h0 : 0 < P.nlimbs) {a b : El F} (ha : a.internal = true) (hb : b.internal = true)
    (la : a.limbs.length = P.nlimbs) (lb : b.limbs.length = P.nlimbs) (oa : a.overflow = 0) (ob : b.overflow = 0) (hm : 2 ≤ P.maxOf) {pad : List Nat}
    (hs : subPadding P 0 P.nlimbs = some pad) {nq : Nat} (hq : nbQuo P P.nlimbs 1 2 = some nq) (hn : nq ≠ 0) {K : Nat} (hK : K < 2 ^ (P.bits * nq))
    (hv : ((limbsVal P.bits pad : Nat) : F) = ((K * P.modulus : Nat) : F))
    (hab : ((value cn P a.limbs : Nat) : F) = ((value cn P b.limbs : Nat) : F)) : Reaches P (assertEqual P a b) () := by
  have hpl := (subPadding_spec hs).1
  have hsub : Reaches P (sub P b a) (El.int ((List.range P.nlimbs).map fun i => (((pad.getD i 0 : Nat) : F) + b.limbs.getD i 0) - a.limbs.getD i 0) 2) := by
    unfold sub
    refine reaches_bind (reaches_condWidth fun h => by simp [hb] at h) (reaches_bind (reaches_condWidth fun h => by simp [ha] at h) ?_)
    refine reaches_bind (a := b) ?_ (reaches_bind (a := a) ?_ ?_)
    · rw [reduceIf, if_neg (by omega)]; exact reaches_pure _
    · rw [reduceIf, if_neg (by omega)]; exact reaches_pure _
    · simp only [oa, ob, la, lb, Nat.max_self, hs]
      exact reaches_pure _
  unfold assertEqual
  refine reaches_bind (reaches_condWidth fun h => by simp [ha] at h) (reaches_bind (reaches_condWidth fun h => by simp [hb] at h) ?_)
  refine reaches_bind hsub (checkZero_any hg h0 rfl (by
    intro h
    have := congrArg List.length h
    simp [El.int] at this
    omega) (by simpa [El.int] using hq) hn (by have := hg.native; omega) hK ?_)
  have e1 : (List.range P.nlimbs).map (fun i => ((pad.getD i 0 : Nat) : F)) = pad.map (Nat.cast : Nat → F) := by
    conv_rhs => rw [← range_getD pad 0]
    rw [List.map_map, hpl]; rfl
  have e2 : (List.range P.nlimbs).map (fun i => a.limbs.getD i 0) = a.limbs := by rw [← la, range_getD]
  have e3 : (List.range P.nlimbs).map (fun i => b.limbs.getD i 0) = b.limbs := by rw [← lb, range_getD]
  have e4 : ∀ l : List Nat, pev (l.map (Nat.cast : Nat → F)) ((2 ^ P.bits : Nat) : F) = ((limbsVal P.bits l : Nat) : F) := by
    intro l
    induction l with
    | nil => simp [pev, limbsVal]
    | cons x l ih => rw [List.map_cons, pev, ih, limbsVal, Nat.cast_add, Nat.cast_mul]
  rw [El.int, ← pev_value cn, pev_map_sub, pev_map_add, e1, e2, e3, e4, pev_value cn, pev_value cn, hv, hab]
  ring

theorem value_zeros (cn : Canon F) (h0 : 0 < cn.modulus) {l : List F} (h : ∀ x ∈ l, x = 0) : value cn P l = 0 := by
  rw [value]
  induction l with
  | nil => rfl
  | cons x l ih =>
    rw [List.map_cons, limbsVal, ih fun y hy => h y (by simp [hy]), h x (by simp), toNat_zero' h0, Nat.mul_zero]

theorem foldl_add : ∀ (l : List F) (b : F), l.foldl (· + ·) b = b + l.sum := by
  intro l
  induction l with
  | nil => intro b; simp
  | cons x l ih => intro b; rw [List.foldl_cons, ih, List.sum_cons, add_assoc]

theorem isZero_fold (l : List F) : ∀ b : F, (b = 0 ∨ b = 1) → (l.foldl (fun res x => res * isZeroF x) b = 0 ∨ l.foldl (fun res x => res * isZeroF x) b = 1) ∧
    (l.foldl (fun res x => res * isZeroF x) b = 1 → b = 1 ∧ ∀ x ∈ l, x = 0) := by
  induction l with
  | nil => intro b hb; exact ⟨hb, fun h => ⟨h, by simp⟩⟩
  | cons x l ih =>
    intro b hb
    have hx : isZeroF x = 0 ∨ isZeroF x = 1 := by rw [isZeroF]; split <;> simp
    obtain ⟨i1, i2⟩ := ih (b * isZeroF x) (by rcases hb with h | h <;> rcases hx with g | g <;> simp [h, g])
    refine ⟨i1, fun h => ?_⟩
    obtain ⟨j1, j2⟩ := i2 h
    rcases hb with hb | hb
    · simp [hb] at j1
    · rcases hx with hx | hx
      · simp [hx] at j1
      · refine ⟨hb, fun y hy => ?_⟩
        rcases List.mem_cons.1 hy with rfl | hy
        · by_contra hne
          simp [isZeroF, hne] at hx
        · exact j2 y hy

theorem toNat_sum_lt (cn : Canon F) (h0 : 0 < cn.modulus) {c : Nat} : ∀ {l : List F}, (∀ x ∈ l, cn.toNat x ≤ c) → l.length * c < cn.modulus →
    cn.toNat l.sum = (l.map cn.toNat).sum ∧ (l.map cn.toNat).sum ≤ l.length * c := by
  intro l
  induction l with
  | nil => intro _ _; simp [toNat_zero' h0]
  | cons x l ih =>
    intro h hl
    have e : (x :: l).length * c = l.length * c + c := by rw [List.length_cons, Nat.succ_mul]
    obtain ⟨h1, h2⟩ := ih (fun y hy => h y (by simp [hy])) (by omega)
    have hx := h x (by simp)
    rw [List.sum_cons, List.map_cons, List.sum_cons, toNat_add' (by omega), h1, e]
    exact ⟨rfl, by omega⟩

theorem zeros_of_value {l : List F} (h : value cn P l = 0) : ∀ x ∈ l, x = 0 := by
  rw [value] at h
  induction l with
  | nil => simp
  | cons x l ih =>
    rw [List.map_cons, limbsVal] at h
    have h2 := Nat.two_pow_pos P.bits
    have h3 : limbsVal P.bits (l.map cn.toNat) = 0 := by
      rcases Nat.eq_zero_or_pos (limbsVal P.bits (l.map cn.toNat)) with h4 | h4
      · exact h4
      · have := Nat.mul_pos h2 h4; omega
    intro y hy
    rcases List.mem_cons.1 hy with rfl | hy
    · rw [← cn.cast_toNat y, show cn.toNat y = 0 by omega, Nat.cast_zero]
    · exact ih h3 y hy

theorem fold_zeros : ∀ {l : List F}, (∀ x ∈ l, x = 0) → ∀ b : F, l.foldl (fun res x => res * isZeroF x) b = b ∧ l.foldl (· + ·) b = b := by
  intro l
  induction l with
  | nil => intro _ b; exact ⟨rfl, rfl⟩
  | cons x l ih =>
    intro h b
    have hx := h x (by simp)
    subst hx
    simpa [isZeroF] using ih (fun y hy => h y (by simp [hy])) b

theorem isZero_zeros {l : List F} (h : ∀ x ∈ l, x = 0) :
    (l.drop 1).foldl (fun res x => res * isZeroF x) (isZeroF (l.getD 0 0)) = 1 ∧ isZeroF ((l.drop 1).foldl (· + ·) (l.getD 0 0)) = 1 := by
  have hd : ∀ x ∈ l.drop 1, x = 0 := fun x hx => h x (List.mem_of_mem_drop hx)
  have h0 : l.getD 0 0 = 0 := by cases l with
    | nil => rfl
    | cons y l => exact h y (by simp)
  rw [(fold_zeros hd _).1, (fold_zeros hd _).2, h0]
  simp [isZeroF]

/-- Both forms of the test for zero, on limbs in range. -/
theorem isZero_limbs (hg : Good cn P) (h8 : P.bits ≤ 8) {l : List F} (h : ∀ x ∈ l, cn.toNat x < 2 ^ (P.bits + 0)) :
    ((((l.drop 1).foldl (fun res x => res * isZeroF x) (isZeroF (l.getD 0 0))) = 0 ∨ ((l.drop 1).foldl (fun res x => res * isZeroF x) (isZeroF (l.getD 0 0))) = 1) ∧
      (((l.drop 1).foldl (fun res x => res * isZeroF x) (isZeroF (l.getD 0 0))) = 1 → value cn P l = 0)) ∧
    (l.length ≤ 21 → isZeroF ((l.drop 1).foldl (· + ·) (l.getD 0 0)) = 1 → value cn P l = 0) := by
  have h0 := good0 hg
  cases l with
  | nil => simp [isZeroF, value, limbsVal]
  | cons y l =>
    simp only [List.drop_succ_cons, List.drop_zero, List.getD_cons_zero]
    refine ⟨⟨(isZero_fold l _ (by rw [isZeroF]; split <;> simp)).1, fun h1 => ?_⟩, fun h21 h1 => ?_⟩
    · obtain ⟨j1, j2⟩ := (isZero_fold l _ (by rw [isZeroF]; split <;> simp)).2 h1
      refine value_zeros cn h0 fun x hx => ?_
      rcases List.mem_cons.1 hx with rfl | hx
      · by_contra hne
        simp [isZeroF, hne] at j1
      · exact j2 x hx
    · have hb : 2 ^ (P.bits + 0) ≤ 2 ^ 8 := Nat.pow_le_pow_right (by omega) h8
      have hn := hg.native
      have hs : (y :: l).sum = 0 := by
        rw [List.sum_cons, ← foldl_add]
        by_contra hne
        simp [isZeroF, hne] at h1
      have := toNat_sum_lt cn h0 (l := y :: l) (c := 255) (fun x hx => by have := h x hx; omega) (by omega)
      rw [hs, toNat_zero' h0] at this
      refine value_zeros cn h0 fun x hx => ?_
      have hx0 := (List.sum_eq_zero_iff (l := (y :: l).map cn.toNat)).1 this.1.symm _ (List.mem_map_of_mem hx)
      rw [← cn.cast_toNat x, hx0, Nat.cast_zero]

end Verif.Std.Emu
