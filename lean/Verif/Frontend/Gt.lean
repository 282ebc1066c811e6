import Verif.Frontend.Api

/-!
# Frontend builder: `gt` and `geq`
-/
set_option linter.unusedSectionVars false
set_option linter.unusedSimpArgs false
namespace Verif.Frontend
open Verif.IR

variable {F : Type} [Field F] [DecidableEq F] {adv : Bool} {E : Env F} {get : Nat → Option (Circuit (srcM adv E))} {npi : Option Nat}

/-- Naming an intermediate result whose value is a function `f` of the old values. -/
theorem tri_let {β : Type} {b : Builder F} (hb : Inv E get npi b) {m : M F Nat} {k : Nat → M F β} {rets : β → List Nat} {f : List F → Option F}
    {D : List F → List F → Prop} {D2 : Nat → List F → List F → Prop} (h : Tri E get npi b m single (fun vs outs => ∃ a, f vs = some a ∧ outs = [a]))
    (hk : ∀ u b1, Inv E get npi b1 → b.varConstId.length ≤ b1.varConstId.length → u ≠ 0 → u < b1.varConstId.length → Tri E get npi b1 (k u) rets (D2 u))
    (hD : ∀ u vs extra outs, vs.length = b.varConstId.length → (vs ++ extra)[u]? = f vs → (D2 u (vs ++ extra) outs ↔ D vs outs))
    (hnone : ∀ vs outs, f vs = none → ¬ D vs outs) :
    Tri E get npi b (m.andThen k) rets D := by
  refine (Tri.bind (D := fun vs _ outs => D vs outs) hb h (fun u b1 e1 => hk u b1 e1.inv e1.mono (e1.range u (by simp [single])).1 (e1.range u (by simp [single])).2) ?_).congr ?_
  · rintro u ins vs extra o1 outs ha hr ⟨a, h1, rfl⟩
    obtain ⟨a', h2, h3⟩ := readAll_single hr
    simp only [List.cons.injEq, and_true] at h3
    subst h3
    exact hD u vs extra outs (ha.length hb) (by rw [h2, h1])
  · intro ins vs ha o
    constructor
    · rintro ⟨_, _, h⟩; exact h
    · intro h
      cases hf : f vs with
      | none => exact absurd h (hnone vs o hf)
      | some a => exact ⟨[a], ⟨a, rfl, rfl⟩, h⟩

/-- Facts about old variables stay true. -/
theorem Ext.persist {b b' : Builder F} {rets : List Nat} {D : List F → List F → Prop} (h : Ext E get npi b b' rets D) {P : List F → Prop}
    (hK : ∀ ins vs, Acc E get b ins vs → P vs) (hP : ∀ vs extra, P vs → P (vs ++ extra)) : ∀ ins vs, Acc E get b' ins vs → P vs := by
  intro ins vs' ha
  obtain ⟨vs, extra, outs, rfl, h1, _⟩ := h.sound ins vs' ha
  exact hP vs extra (hK ins vs h1)

/-- A new constant is known. -/
theorem Ext.known {b b' : Builder F} {v : Nat} {x : F} (h : Ext E get npi b b' (single v) (fun _ o => o = [x])) : ∀ ins vs, Acc E get b' ins vs → vs[v]? = some x := by
  intro ins vs' ha
  obtain ⟨vs, extra, outs, rfl, h1, h2, rfl⟩ := h.sound ins vs' ha
  obtain ⟨a, h3, h4⟩ := readAll_single h2
  simp only [List.cons.injEq, and_true] at h4
  rw [h4]; exact h3

/-! ### Values -/

/-- Subtraction of possibly undefined values. -/
def subO : Option F → Option F → Option F
  | some a, some c => some (a - c)
  | _, _ => none

/-- A boolean operation on possibly undefined values; not boolean: undefined. -/
def boolO (op : Source.BoolOp) : Option F → Option F → Option F
  | some a, some c => if (a = 0 ∨ a = 1) ∧ (c = 0 ∨ c = 1) then some (boolV op a c) else none
  | _, _ => none

theorem tri_subO {b : Builder F} (hb : Inv E get npi b) {u v : Nat} (hu : u ≠ 0 ∧ u < b.varConstId.length) (hv : v ≠ 0 ∧ v < b.varConstId.length) :
    Tri E get npi b (sub (.var u) (.var v)) single (fun vs outs => ∃ a, subO vs[u]? vs[v]? = some a ∧ outs = [a]) := by
  refine (tri_sub hb (x := .var u) (y := .var v) hu hv).congr ?_
  intro _ vs _ o
  simp only [Arg.ev]
  cases vs[u]? with
  | none => simp [subO]
  | some a =>
    cases vs[v]? with
    | none => simp [subO]
    | some c => simp [subO]

theorem tri_boolO {b : Builder F} (hb : Inv E get npi b) {u v : Nat} (hu : u ≠ 0 ∧ u < b.varConstId.length) (hv : v ≠ 0 ∧ v < b.varConstId.length)
    (op : Source.BoolOp) : Tri E get npi b (boolOp op (.var u) (.var v)) single (fun vs outs => ∃ a, boolO op vs[u]? vs[v]? = some a ∧ outs = [a]) := by
  refine (tri_boolOp hb (x := .var u) (y := .var v) hu hv op).congr ?_
  intro _ vs _ o
  simp only [Arg.ev]
  cases vs[u]? with
  | none => simp [boolO]
  | some a =>
    cases vs[v]? with
    | none => simp [boolO]
    | some c =>
      by_cases h : (a = 0 ∨ a = 1) ∧ (c = 0 ∨ c = 1)
      · simp only [boolO, if_pos h]
        constructor
        · rintro ⟨a', c', h1, h2, h3, h4, rfl⟩
          simp only [Option.some.injEq] at h1 h2
          subst h1 h2
          exact ⟨_, rfl, rfl⟩
        · rintro ⟨_, h1, rfl⟩
          simp only [Option.some.injEq] at h1
          exact ⟨a, c, rfl, rfl, h.1, h.2, by rw [h1]⟩
      · simp only [boolO, if_neg h]
        constructor
        · rintro ⟨a', c', h1, h2, h3, h4, rfl⟩
          simp only [Option.some.injEq] at h1 h2
          subst h1 h2
          exact absurd ⟨h3, h4⟩ h
        · rintro ⟨_, h1, _⟩
          simp at h1

/-- Two returned variables. -/
def pairVars (p : Nat × Nat) : List Nat := [p.1, p.2]

/-- New `result` and `still_equal` of a round. -/
def roundR (o x y r s : Option F) : Option F := boolO .or r (boolO .and s (boolO .and x (subO o y)))
def roundS (o x y s : Option F) : Option F := boolO .and s (subO o (boolO .xor x y))

/-- A pair of results. -/
def Both (r s : Option F) (outs : List F) : Prop := ∃ a c, r = some a ∧ s = some c ∧ outs = [a, c]

theorem subO_none_right {o : Option F} : subO o none = none := by cases o <;> rfl
theorem boolO_none_right {op} {o : Option F} : boolO op o none = none := by cases o <;> rfl
theorem boolO_none_left {op} {o : Option F} : boolO op none o = none := rfl
theorem not_both_left {s : Option F} {o : List F} : ¬ Both none s o := by rintro ⟨a, c, h, _⟩; simp at h
theorem not_both_right {r : Option F} {o : List F} : ¬ Both r none o := by rintro ⟨a, c, _, h, _⟩; simp at h

theorem tri_gtRound {b : Builder F} (hb : Inv E get npi b) {one xb yb r s : Nat} (h1 : one ≠ 0 ∧ one < b.varConstId.length) (hx : xb ≠ 0 ∧ xb < b.varConstId.length)
    (hy : yb ≠ 0 ∧ yb < b.varConstId.length) (hr : r ≠ 0 ∧ r < b.varConstId.length) (hs : s ≠ 0 ∧ s < b.varConstId.length) :
    Tri E get npi b (gtRound one xb yb r s) pairVars
      (fun vs outs => Both (roundR vs[one]? vs[xb]? vs[yb]? vs[r]? vs[s]?) (roundS vs[one]? vs[xb]? vs[yb]? vs[s]?) outs) := by
  unfold gtRound
  have st : ∀ {v n : Nat} {vs extra : List F}, v ≠ 0 ∧ v < n → vs.length = n → (vs ++ extra)[v]? = vs[v]? := by
    intro v n vs extra h hl
    exact List.getElem?_append_left (by rw [hl]; exact h.2)
  have up : ∀ {v n m : Nat}, v ≠ 0 ∧ v < n → n ≤ m → v ≠ 0 ∧ v < m := fun h hm => ⟨h.1, lt_of_lt_of_le h.2 hm⟩
  refine tri_let hb (tri_subO hb h1 hy) (D2 := fun u vs outs => Both (boolO .or vs[r]? (boolO .and vs[s]? (boolO .and vs[xb]? vs[u]?))) (roundS vs[one]? vs[xb]? vs[yb]? vs[s]?) outs) ?_ ?_ ?_
  rotate_left
  · intro u vs extra outs hl hu
    rw [st h1 hl, st hx hl, st hy hl, st hr hl, st hs hl, hu]; exact Iff.rfl
  · intro vs outs h
    simp only [roundR, h, boolO_none_right]; exact not_both_left
  intro u1 b1 i1 m1 a1 c1
  have h1 := up h1 m1
  have hx := up hx m1
  have hy := up hy m1
  have hr := up hr m1
  have hs := up hs m1
  have hu1 : u1 ≠ 0 ∧ u1 < b1.varConstId.length := ⟨a1, c1⟩
  refine tri_let i1 (tri_boolO i1 hx hu1 .and) (D2 := fun u vs outs => Both (boolO .or vs[r]? (boolO .and vs[s]? vs[u]?)) (roundS vs[one]? vs[xb]? vs[yb]? vs[s]?) outs) ?_ ?_ ?_
  rotate_left
  · intro u vs extra outs hl hu
    rw [st h1 hl, st hx hl, st hy hl, st hr hl, st hs hl, hu]
  · intro vs outs h
    simp only [h, boolO_none_right]; exact not_both_left
  intro u2 b2 i2 m2 a2 c2
  have h1 := up h1 m2
  have hx := up hx m2
  have hy := up hy m2
  have hr := up hr m2
  have hs := up hs m2
  have hu2 : u2 ≠ 0 ∧ u2 < b2.varConstId.length := ⟨a2, c2⟩
  refine tri_let i2 (tri_boolO i2 hs hu2 .and) (D2 := fun u vs outs => Both (boolO .or vs[r]? vs[u]?) (roundS vs[one]? vs[xb]? vs[yb]? vs[s]?) outs) ?_ ?_ ?_
  rotate_left
  · intro u vs extra outs hl hu
    rw [st h1 hl, st hx hl, st hy hl, st hr hl, st hs hl, hu]
  · intro vs outs h
    simp only [h, boolO_none_right]; exact not_both_left
  intro u3 b3 i3 m3 a3 c3
  have h1 := up h1 m3
  have hx := up hx m3
  have hy := up hy m3
  have hr := up hr m3
  have hs := up hs m3
  have hu3 : u3 ≠ 0 ∧ u3 < b3.varConstId.length := ⟨a3, c3⟩
  refine tri_let i3 (tri_boolO i3 hr hu3 .or) (D2 := fun u vs outs => Both vs[u]? (roundS vs[one]? vs[xb]? vs[yb]? vs[s]?) outs) ?_ ?_ ?_
  rotate_left
  · intro u vs extra outs hl hu
    rw [st h1 hl, st hx hl, st hy hl, st hs hl, hu]
  · intro vs outs h
    simp only [h]; exact not_both_left
  intro u4 b4 i4 m4 a4 c4
  have h1 := up h1 m4
  have hx := up hx m4
  have hy := up hy m4
  have hs := up hs m4
  have hu4 : u4 ≠ 0 ∧ u4 < b4.varConstId.length := ⟨a4, c4⟩
  refine tri_let i4 (tri_boolO i4 hx hy .xor) (D2 := fun u vs outs => Both vs[u4]? (boolO .and vs[s]? (subO vs[one]? vs[u]?)) outs) ?_ ?_ ?_
  rotate_left
  · intro u vs extra outs hl hu
    rw [st h1 hl, st hu4 hl, st hs hl, hu]; exact Iff.rfl
  · intro vs outs h
    simp only [roundS, h, subO_none_right, boolO_none_right]; exact not_both_right
  intro u5 b5 i5 m5 a5 c5
  have h1 := up h1 m5
  have hs := up hs m5
  have hu4 := up hu4 m5
  have hu5 : u5 ≠ 0 ∧ u5 < b5.varConstId.length := ⟨a5, c5⟩
  refine tri_let i5 (tri_subO i5 h1 hu5) (D2 := fun u vs outs => Both vs[u4]? (boolO .and vs[s]? vs[u]?) outs) ?_ ?_ ?_
  rotate_left
  · intro u vs extra outs hl hu
    rw [st hu4 hl, st hs hl, hu]
  · intro vs outs h
    simp only [h, boolO_none_right]; exact not_both_right
  intro u6 b6 i6 m6 a6 c6
  have hs := up hs m6
  have hu4 := up hu4 m6
  have hu6 : u6 ≠ 0 ∧ u6 < b6.varConstId.length := ⟨a6, c6⟩
  refine tri_let i6 (tri_boolO i6 hs hu6 .and) (D2 := fun u vs outs => readAll vs [u4, u] = some outs) ?_ ?_ ?_
  rotate_left
  · intro u vs extra outs hl hu
    simp only [readAll, st hu4 hl, hu]
    cases vs[u4]? with
    | none => simp [Both]
    | some a =>
      cases boolO .and vs[s]? vs[u6]? with
      | none => simp [Both]
      | some c => simp [Both, eq_comm]
  · intro vs outs h
    simp only [h]; exact not_both_right
  intro u7 b7 i7 m7 a7 c7
  refine tri_ret i7 (u4, u7) pairVars ?_
  intro v hv
  simp only [pairVars, List.mem_cons, List.not_mem_nil, or_false] at hv
  rcases hv with rfl | rfl
  · exact up hu4 m7
  · exact ⟨a7, c7⟩

/-- The value the loop computes. -/
def loopV (o : Option F) : List (Option F × Option F) → Option F → Option F → Option F
  | [], r, s => match s with
    | some _ => r
    | none => none
  | (x, y) :: l, r, s => loopV o l (roundR o x y r s) (roundS o x y s)

theorem loopV_none_r (o : Option F) : ∀ (l : List (Option F × Option F)) (s : Option F), loopV o l none s = none := by
  intro l
  induction l with
  | nil => intro s; cases s <;> rfl
  | cons p l ih => intro s; simp only [loopV, roundR, boolO_none_left]; exact ih _

theorem loopV_none_s (o : Option F) : ∀ (l : List (Option F × Option F)) (r : Option F), loopV o l r none = none := by
  intro l
  induction l with
  | nil => intro r; rfl
  | cons p l ih => intro r; simp only [loopV, roundS, boolO_none_left]; exact ih _

theorem tri_gtLoop : ∀ (bits : List (Nat × Nat)) {b : Builder F}, Inv E get npi b → ∀ {one r s : Nat}, (one ≠ 0 ∧ one < b.varConstId.length) →
    (r ≠ 0 ∧ r < b.varConstId.length) → (s ≠ 0 ∧ s < b.varConstId.length) →
    (∀ p ∈ bits, (p.1 ≠ 0 ∧ p.1 < b.varConstId.length) ∧ (p.2 ≠ 0 ∧ p.2 < b.varConstId.length)) →
    Tri E get npi b (gtLoop one bits r s) single
      (fun vs outs => ∃ a, loopV vs[one]? (bits.map fun p => (vs[p.1]?, vs[p.2]?)) vs[r]? vs[s]? = some a ∧ outs = [a]) := by
  intro bits
  induction bits with
  | nil =>
    intro b hb one r s h1 hr hs _
    refine (tri_ret hb r single (by intro v hv; simp only [single, List.mem_singleton] at hv; subst hv; exact hr)).congr ?_
    intro ins vs ha o
    have hl := ha.length hb
    have e : vs[s]? = some (vs[s]'(by rw [hl]; exact hs.2)) := List.getElem?_eq_getElem _
    simp only [single, readAll, List.map_nil, loopV, e]
    cases vs[r]? with
    | none => simp
    | some a => simp [eq_comm]
  | cons p bits ih =>
    intro b hb one r s h1 hr hs hp
    have hp0 := hp p (by simp)
    have hps : ∀ q ∈ bits, _ := fun q hq => hp q (List.mem_cons_of_mem _ hq)
    refine (Tri.bind (D := fun vs o1 outs => ∃ a c e, o1 = [a, c] ∧ loopV vs[one]? (bits.map fun p => (vs[p.1]?, vs[p.2]?)) (some a) (some c) = some e ∧ outs = [e]) hb
      (tri_gtRound hb h1 hp0.1 hp0.2 hr hs)
      (D2 := fun q vs outs => ∃ e, loopV vs[one]? (bits.map fun p => (vs[p.1]?, vs[p.2]?)) vs[q.1]? vs[q.2]? = some e ∧ outs = [e]) ?_ ?_).congr ?_
    · intro q b1 e1
      refine ih e1.inv ⟨h1.1, lt_of_lt_of_le h1.2 e1.mono⟩ (e1.range q.1 (by simp [pairVars])) (e1.range q.2 (by simp [pairVars])) ?_
      intro q hq
      have := hps q hq
      exact ⟨⟨this.1.1, lt_of_lt_of_le this.1.2 e1.mono⟩, ⟨this.2.1, lt_of_lt_of_le this.2.2 e1.mono⟩⟩
    · intro q ins vs extra o1 outs ha hrd hd
      have hl := ha.length hb
      have st : ∀ {v : Nat}, v < b.varConstId.length → (vs ++ extra)[v]? = vs[v]? := fun h => List.getElem?_append_left (by rw [hl]; exact h)
      have e1 : (bits.map fun p => ((vs ++ extra)[p.1]?, (vs ++ extra)[p.2]?)) = bits.map fun p => (vs[p.1]?, vs[p.2]?) := by
        refine List.map_congr_left ?_
        intro q hq
        rw [st (hps q hq).1.2, st (hps q hq).2.2]
      rw [e1, st h1.2]
      simp only [pairVars, readAll] at hrd
      cases hq1 : (vs ++ extra)[q.1]? with
      | none => rw [hq1] at hrd; simp at hrd
      | some a =>
        cases hq2 : (vs ++ extra)[q.2]? with
        | none => rw [hq1, hq2] at hrd; simp at hrd
        | some c =>
          rw [hq1, hq2] at hrd
          simp only [Option.some.injEq] at hrd
          subst hrd
          constructor
          · rintro ⟨e, h2, h3⟩; exact ⟨a, c, e, rfl, h2, h3⟩
          · rintro ⟨a', c', e, h2, h3, h4⟩
            simp only [List.cons.injEq, and_true] at h2
            obtain ⟨rfl, rfl⟩ := h2
            exact ⟨e, h3, h4⟩
    · intro ins vs ha o
      simp only [List.map_cons, loopV]
      constructor
      · rintro ⟨o1, ⟨a, c, h2, h3, rfl⟩, a', c', e, h4, h5, h6⟩
        simp only [List.cons.injEq, and_true] at h4
        obtain ⟨rfl, rfl⟩ := h4
        rw [h2, h3]
        exact ⟨e, h5, h6⟩
      · rintro ⟨e, h2, h3⟩
        cases hR : roundR vs[one]? vs[p.1]? vs[p.2]? vs[r]? vs[s]? with
        | none => rw [hR, loopV_none_r] at h2; simp at h2
        | some a =>
          cases hS : roundS vs[one]? vs[p.1]? vs[p.2]? vs[s]? with
          | none => rw [hS, loopV_none_s] at h2; simp at h2
          | some c =>
            rw [hR, hS] at h2
            exact ⟨[a, c], ⟨a, c, rfl, rfl, rfl⟩, a, c, e, rfl, h2, h3⟩

/-! ### The value is the comparison of the numbers -/

/-- Comparison of bit strings, most significant bit first. -/
def gtB : List (Bool × Bool) → Bool
  | [] => false
  | (p, q) :: l => (p && !q) || ((p == q) && gtB l)

/-- The number of a bit string, most significant bit first. -/
def natB : List Bool → Nat
  | [] => 0
  | p :: l => (if p then 2 ^ l.length else 0) + natB l

theorem natB_lt : ∀ l : List Bool, natB l < 2 ^ l.length := by
  intro l
  induction l with
  | nil => simp [natB]
  | cons p l ih =>
    simp only [natB, List.length_cons, pow_succ]
    split <;> omega

theorem gtB_spec : ∀ l : List (Bool × Bool), gtB l = decide (natB (l.map (·.2)) < natB (l.map (·.1))) := by
  intro l
  induction l with
  | nil => simp [gtB, natB]
  | cons p l ih =>
    obtain ⟨p, q⟩ := p
    have h1 := natB_lt (l.map (·.1))
    have h2 := natB_lt (l.map (·.2))
    simp only [List.length_map] at h1 h2
    simp only [gtB, List.map_cons, natB, List.length_map, ih]
    cases p <;> cases q <;> simp <;> omega

theorem boolO_ofBool (op : Source.BoolOp) (p q : Bool) : boolO op (some (Hints.ofBool p : F)) (some (Hints.ofBool q)) =
    some (Hints.ofBool (match op with | .xor => p != q | .or => p || q | .and => p && q)) := by
  have h01 : (0 : F) ≠ 1 := zero_ne_one
  have h10 : (1 : F) ≠ 0 := one_ne_zero
  cases op <;> cases p <;> cases q <;> simp [boolO, boolV, Hints.ofBool, h01, h10]

theorem subO_ofBool (q : Bool) : subO (some (1 : F)) (some (Hints.ofBool q)) = some (Hints.ofBool (!q)) := by
  cases q <;> simp [subO, Hints.ofBool]

theorem loopV_bits : ∀ (l : List (Bool × Bool)) (r s : Bool),
    loopV (some (1 : F)) (l.map fun p => (some (Hints.ofBool p.1), some (Hints.ofBool p.2))) (some (Hints.ofBool r)) (some (Hints.ofBool s)) =
      some (Hints.ofBool (r || (s && gtB l))) := by
  intro l
  induction l with
  | nil => intro r s; cases r <;> cases s <;> rfl
  | cons p l ih =>
    intro r s
    obtain ⟨p, q⟩ := p
    simp only [List.map_cons, loopV, roundR, roundS, boolO_ofBool, subO_ofBool, ih]
    cases p <;> cases q <;> cases r <;> cases s <;> simp [gtB]

/-- The bits of a number, lowest first, as booleans. -/
def bitsOf : Nat → Nat → List Bool
  | 0, _ => []
  | n + 1, y => (y % 2 == 1) :: bitsOf n (y / 2)

theorem bitsOf_length : ∀ n y, (bitsOf n y).length = n := by
  intro n
  induction n with
  | zero => intro y; rfl
  | succ n ih => intro y; simp [bitsOf, ih]

theorem natB_append : ∀ (l : List Bool) (p : Bool), natB (l ++ [p]) = 2 * natB l + (if p then 1 else 0) := by
  intro l p
  induction l with
  | nil => cases p <;> rfl
  | cons q l ih =>
    simp only [List.cons_append, natB, ih, List.length_append, List.length_singleton, pow_succ]
    cases q <;> simp <;> omega

theorem natB_bitsOf : ∀ n y, y < 2 ^ n → natB (bitsOf n y).reverse = y := by
  intro n
  induction n with
  | zero => intro y h; simp only [pow_zero] at h; simp only [bitsOf, List.reverse_nil, natB]; omega
  | succ n ih =>
    intro y h
    rw [pow_succ] at h
    simp only [bitsOf, List.reverse_cons, natB_append, ih (y / 2) (by omega)]
    have : (y % 2 == 1) = decide (y % 2 = 1) := rfl
    rw [this]
    by_cases hy : y % 2 = 1
    · simp [hy]; omega
    · simp [hy]; omega

theorem bitsRest_eq : ∀ n y, (Hints.bitsRest n y).1.map (fun b : Nat => (b : F)) = (bitsOf n y).map Hints.ofBool ∧ (Hints.bitsRest n y).2 = y / 2 ^ n := by
  intro n
  induction n with
  | zero => intro y; simp [Hints.bitsRest, bitsOf]
  | succ n ih =>
    intro y
    obtain ⟨h1, h2⟩ := ih (y / 2)
    refine ⟨?_, ?_⟩
    · simp only [Hints.bitsRest, bitsOf, List.map_cons, h1]
      congr 1
      rcases Nat.mod_two_eq_zero_or_one y with h | h <;> simp [h, Hints.ofBool]
    · simp only [Hints.bitsRest, h2]
      rw [Nat.div_div_eq_div_mul, pow_succ, Nat.mul_comm]

/-- `to_binary` succeeds exactly on numbers below `2^n`, giving the bits. -/
theorem toBinary_iff (cn : Canon F) (a : F) (n : Nat) (outs : List F) :
    Hints.toBinary cn a n = some outs ↔ cn.toNat a < 2 ^ n ∧ outs = (bitsOf n (cn.toNat a)).map Hints.ofBool := by
  have h := bitsRest_eq (F := F) n (cn.toNat a)
  simp only [Hints.toBinary, h.2, h.1]
  have : cn.toNat a / 2 ^ n = 0 ↔ cn.toNat a < 2 ^ n := by
    rw [Nat.div_eq_zero_iff]
    simp
  by_cases hc : cn.toNat a < 2 ^ n
  · rw [if_pos (this.2 hc)]
    simp [hc, eq_comm]
  · rw [if_neg (fun h => hc (this.1 h))]
    simp [hc]

/-- An `n`-bit integer representing a field element: the canonical one, or — adversarially — any. -/
def Rep (adv : Bool) (cn : Canon F) (n : Nat) (a : F) (X : Nat) : Prop := X < 2 ^ n ∧ (X : F) = a ∧ (adv = false → X = cn.toNat a)

theorem rep_honest {cn : Canon F} {n : Nat} (hm : cn.modulus ≤ 2 ^ n) {a : F} {X : Nat} : Rep false cn n a X ↔ X = cn.toNat a := by
  constructor
  · intro h; exact h.2.2 rfl
  · rintro rfl; exact ⟨lt_of_lt_of_le (cn.toNat_lt a) hm, cn.cast_toNat a, fun _ => rfl⟩

/-- A list of field elements is the list of bits of a number. -/
def Bn (n : Nat) (xl : List F) (X : Nat) : Prop := X < 2 ^ n ∧ xl = (bitsOf n X).map Hints.ofBool

theorem Bn.inj {n : Nat} {xl : List F} {X Y : Nat} (h1 : Bn n xl X) (h2 : Bn n xl Y) : X = Y := by
  have h3 := h1.2.symm.trans h2.2
  have h4 : bitsOf n X = bitsOf n Y := by
    refine List.map_injective_iff.2 ?_ h3
    intro p q h
    cases p <;> cases q <;> simp [Hints.ofBool] at h <;> rfl
  rw [← natB_bitsOf n X h1.1, h4, natB_bitsOf n _ h2.1]

theorem bitsSum_bitsOf : ∀ n X, X < 2 ^ n → Verif.Builder.bitsSum ((bitsOf n X).map (Hints.ofBool (F := F))) = (X : F) := by
  intro n
  induction n with
  | zero => intro X h; simp only [Nat.pow_zero, Nat.lt_one_iff] at h; subst h; simp [bitsOf, Verif.Builder.bitsSum]
  | succ n ih =>
    intro X h
    have h2 : X / 2 < 2 ^ n := by rw [Nat.pow_succ] at h; omega
    have e : (X : F) = ((X % 2 + 2 * (X / 2) : Nat) : F) := by rw [Nat.mod_add_div]
    simp only [bitsOf, List.map_cons, Verif.Builder.bitsSum, ih (X / 2) h2]
    rw [e]
    push_cast
    congr 1
    rcases Nat.mod_two_eq_zero_or_one X with h0 | h0 <;> simp [h0, Hints.ofBool]

theorem bits_exist : ∀ (n : Nat) (bs : List F), bs.length = n → (∀ b ∈ bs, b = 0 ∨ b = 1) → ∃ X, Bn n bs X := by
  intro n
  induction n with
  | zero =>
    intro bs h _
    have : bs = [] := by simpa using h
    subst this
    exact ⟨0, by simp, rfl⟩
  | succ n ih =>
    intro bs h hb
    cases bs with
    | nil => simp at h
    | cons b bs =>
      obtain ⟨X, h1, h2⟩ := ih bs (by simpa using h) (fun c hc => hb c (by simp [hc]))
      rcases hb b (by simp) with rfl | rfl
      · refine ⟨2 * X, by rw [Nat.pow_succ]; omega, ?_⟩
        have e1 : 2 * X / 2 = X := by omega
        simp [bitsOf, e1, ← h2, Hints.ofBool]
      · refine ⟨2 * X + 1, by rw [Nat.pow_succ]; omega, ?_⟩
        have e1 : (2 * X + 1) / 2 = X := by omega
        have e2 : (2 * X + 1) % 2 = 1 := by omega
        simp [bitsOf, e1, e2, ← h2, Hints.ofBool]

theorem bitsR_iff {cn : Canon F} {n : Nat} (hm : cn.modulus ≤ 2 ^ n) (a : F) (bs : List F) : bitsR adv cn a n bs ↔ ∃ X, Rep adv cn n a X ∧ Bn n bs X := by
  cases adv with
  | false =>
    simp only [bitsR, toBinary_iff, rep_honest hm]
    constructor
    · rintro ⟨h1, h2⟩; exact ⟨_, rfl, h1, h2⟩
    · rintro ⟨_, rfl, h1, h2⟩; exact ⟨h1, h2⟩
  | true =>
    simp only [bitsR]
    constructor
    · rintro ⟨h1, h2, h3⟩
      obtain ⟨X, hX⟩ := bits_exist n bs h1 h2
      refine ⟨X, ⟨hX.1, ?_, by simp⟩, hX⟩
      rw [← h3, hX.2, bitsSum_bitsOf n X hX.1]
    · rintro ⟨X, ⟨h1, h2, _⟩, h3⟩
      refine ⟨by rw [h3.2]; simp [bitsOf_length], ?_, by rw [h3.2, bitsSum_bitsOf n X h1, h2]⟩
      intro b hb
      rw [h3.2] at hb
      obtain ⟨p, _, rfl⟩ := List.mem_map.1 hb
      cases p <;> simp [Hints.ofBool]

/-- **Specification** of `gt` for `n` bits. -/
def gtR (adv : Bool) (cn : Canon F) (n : Nat) (a c : F) (outs : List F) : Prop :=
  ∃ X Y, Rep adv cn n a X ∧ Rep adv cn n c Y ∧ outs = [Hints.ofBool (decide (Y < X))]

/-- **Specification** of `geq` for `n` bits. -/
def geqR (adv : Bool) (cn : Canon F) (n : Nat) (a c : F) (outs : List F) : Prop :=
  ∃ X Y, Rep adv cn n a X ∧ Rep adv cn n c Y ∧ outs = [Hints.ofBool (decide (Y ≤ X))]

theorem tri_gt {b : Builder F} (hb : Inv E get npi b) {x y : Arg F} (hx : x.Ok b.varConstId.length) (hy : y.Ok b.varConstId.length) {fs n : Nat}
    (hn : gtBits fs = some n) (hm : E.canon.modulus ≤ 2 ^ n) :
    Tri E get npi b (gt E.canon fs x y) single (fun vs outs => ∃ a c, x.ev vs = some a ∧ y.ev vs = some c ∧
      gtR adv E.canon n a c outs) := by
  have hn0 : 0 < n := by
    unfold gtBits at hn
    split at hn
    · simp at hn; omega
    · split at hn
      · simp at hn; omega
      · simp at hn
  have up : ∀ {v n m : Nat}, v ≠ 0 ∧ v < n → n ≤ m → v ≠ 0 ∧ v < m := fun h hm => ⟨h.1, lt_of_lt_of_le h.2 hm⟩
  have st : ∀ {v n : Nat} {vs extra : List F}, v ≠ 0 ∧ v < n → vs.length = n → (vs ++ extra)[v]? = vs[v]? := by
    intro v n vs extra h hl
    exact List.getElem?_append_left (by rw [hl]; exact h.2)
  let G : F → F → List F → Prop := gtR adv E.canon n
  let GG : Nat → F → List F → Prop := fun X c outs => ∃ Y, Rep adv E.canon n c Y ∧ outs = [Hints.ofBool (decide (Y < X))]
  unfold gt
  rw [hn]
  simp only []
  refine (Tri.bind (D := fun vs _ outs => ∃ a c, x.ev vs = some a ∧ y.ev vs = some c ∧ G a c outs) hb (tri_const hb 1)
    (D2 := fun one vs outs => ∃ a c, vs[one]? = some 1 ∧ x.ev vs = some a ∧ y.ev vs = some c ∧ G a c outs) ?_ ?_).congr ?_
  rotate_left
  · rintro one ins vs extra o1 outs ha hr rfl
    obtain ⟨a, h1, h2⟩ := readAll_single hr
    simp only [List.cons.injEq, and_true] at h2
    subst h2
    rw [Arg.ev_append hx (ha.length hb), Arg.ev_append hy (ha.length hb), h1]
    simp
  · intro ins vs ha o
    simp [G]
  intro one b1 e1
  have i1 := e1.inv
  have hone := e1.range one (by simp [single])
  have hx := hx.mono e1.mono
  have hy := hy.mono e1.mono
  have Kone := e1.known
  clear e1
  refine (Tri.bind (D := fun vs o1 outs => ∃ a c, o1 = [a] ∧ vs[one]? = some 1 ∧ y.ev vs = some c ∧ G a c outs) i1 (tri_toVar i1 hx)
    (D2 := fun u vs outs => ∃ a c, vs[one]? = some 1 ∧ vs[u]? = some a ∧ y.ev vs = some c ∧ G a c outs) ?_ ?_).congr ?_
  rotate_left
  · rintro u ins vs extra o1 outs ha hr hd
    obtain ⟨a, h1, rfl⟩ := readAll_single hr
    rw [Arg.ev_append hy (ha.length i1), h1, st hone (ha.length i1)]
    simp only [List.cons.injEq, and_true, Option.some.injEq]
    constructor
    · rintro ⟨a', c, h2, rfl, h4, h5⟩; exact ⟨a, c, rfl, h2, h4, h5⟩
    · rintro ⟨a', c, rfl, h3, h4, h5⟩; exact ⟨a, c, h3, rfl, h4, h5⟩
  · intro ins vs ha o
    constructor
    · rintro ⟨_, ⟨a, h1, rfl⟩, a', c, h2, h3, h4, h5⟩
      simp only [List.cons.injEq, and_true] at h2
      subst h2
      exact ⟨a, c, h3, h1, h4, h5⟩
    · rintro ⟨a, c, h1, h2, h3, h4⟩
      exact ⟨[a], ⟨a, h2, rfl⟩, a, c, rfl, h1, h3, h4⟩
  intro u b2 e2
  have i2 := e2.inv
  have hu := e2.range u (by simp [single])
  have hone := up hone e2.mono
  have hy := hy.mono e2.mono
  have Kone := e2.persist Kone (fun vs extra h => HintExport.getElem?_app_some h)
  clear e2
  refine (Tri.bind (D := fun vs o1 outs => ∃ a c, o1 = [c] ∧ vs[one]? = some 1 ∧ vs[u]? = some a ∧ G a c outs) i2 (tri_toVar i2 hy)
    (D2 := fun v vs outs => ∃ a c, vs[one]? = some 1 ∧ vs[u]? = some a ∧ vs[v]? = some c ∧ G a c outs) ?_ ?_).congr ?_
  rotate_left
  · rintro v ins vs extra o1 outs ha hr hd
    obtain ⟨c, h1, rfl⟩ := readAll_single hr
    rw [h1, st hone (ha.length i2), st hu (ha.length i2)]
    simp only [List.cons.injEq, and_true, Option.some.injEq]
    constructor
    · rintro ⟨a, c', h2, h3, rfl, h5⟩; exact ⟨a, c, rfl, h2, h3, h5⟩
    · rintro ⟨a, c', rfl, h3, h4, h5⟩; exact ⟨a, c, h3, h4, rfl, h5⟩
  · intro ins vs ha o
    constructor
    · rintro ⟨_, ⟨c, h1, rfl⟩, a, c', h2, h3, h4, h5⟩
      simp only [List.cons.injEq, and_true] at h2
      subst h2
      exact ⟨a, c, h3, h4, h1, h5⟩
    · rintro ⟨a, c, h1, h2, h3, h4⟩
      exact ⟨[c], ⟨c, h3, rfl⟩, a, c, rfl, h1, h2, h4⟩
  intro v b3 e3
  have i3 := e3.inv
  have hv := e3.range v (by simp [single])
  have hone := up hone e3.mono
  have hu := up hu e3.mono
  have Kone := e3.persist Kone (fun vs extra h => HintExport.getElem?_app_some h)
  clear e3 hx hy
  -- the bits of x
  let Bt : Option F → List F → Prop := fun o bs => ∃ a, o = some a ∧ bitsR adv E.canon a n bs
  refine (Tri.bind (D := fun vs xl outs => ∃ X c, Bn n xl X ∧ vs[one]? = some 1 ∧ vs[v]? = some c ∧ GG X c outs) i3
    (tri_toBinary i3 (x := .var u) hu (Or.inr hn0))
    (D2 := fun xs vs outs => ∃ X c xl, readAll vs xs = some xl ∧ Bn n xl X ∧ vs[one]? = some 1 ∧ vs[v]? = some c ∧ GG X c outs) ?_ ?_).congr ?_
  rotate_left
  · rintro xs ins vs extra xl outs ha hr _
    simp only [id] at hr
    rw [hr, st hone (ha.length i3), st hv (ha.length i3)]
    constructor
    · rintro ⟨X, c, xl', h3, h4, h5, h6, h7⟩
      simp only [Option.some.injEq] at h3
      subst h3
      exact ⟨X, c, h4, h5, h6, h7⟩
    · rintro ⟨X, c, h4, h5, h6, h7⟩
      exact ⟨X, c, xl, rfl, h4, h5, h6, h7⟩
  · intro ins vs ha o
    constructor
    · rintro ⟨xl, ⟨a, h1, h2⟩, X, c, h3, h4, h5, Y, h6, h7⟩
      obtain ⟨X', hX, hb'⟩ := (bitsR_iff hm _ _).1 h2
      have := hb'.inj h3
      subst this
      exact ⟨a, c, h4, h1, h5, X', Y, hX, h6, h7⟩
    · rintro ⟨a, c, h1, h2, h3, X, Y, h4, h5, h6⟩
      exact ⟨_, ⟨a, h2, (bitsR_iff hm _ _).2 ⟨X, h4, h4.1, rfl⟩⟩, X, c, ⟨h4.1, rfl⟩, h1, h3, Y, h5, h6⟩
  intro xs b4 e4
  have i4 := e4.inv
  have hxs := e4.range
  simp only [id] at hxs
  have hone := up hone e4.mono
  have hv := up hv e4.mono
  have Kone := e4.persist Kone (fun vs extra h => HintExport.getElem?_app_some h)
  have Kxs : ∀ ins vs, Acc E get b4 ins vs → ∃ X xl, readAll vs xs = some xl ∧ Bn n xl X := by
    intro ins vs' ha
    obtain ⟨vs, extra, outs, rfl, h1, h2, a, _, h4⟩ := e4.sound ins vs' ha
    obtain ⟨X, _, hX⟩ := (bitsR_iff hm _ _).1 h4
    exact ⟨X, outs, h2, hX⟩
  clear e4 hu
  let HH : Nat → Nat → List F → Prop := fun X Y outs => outs = [Hints.ofBool (decide (Y < X))]
  refine (Tri.bind (D := fun vs yl outs => ∃ X Y xl, readAll vs xs = some xl ∧ Bn n xl X ∧ Bn n yl Y ∧ vs[one]? = some 1 ∧ HH X Y outs) i4
    (tri_toBinary i4 (x := .var v) hv (Or.inr hn0))
    (D2 := fun ys vs outs => ∃ X Y xl yl, readAll vs xs = some xl ∧ readAll vs ys = some yl ∧ Bn n xl X ∧ Bn n yl Y ∧ vs[one]? = some 1 ∧ HH X Y outs) ?_ ?_).congr ?_
  rotate_left
  · rintro ys ins vs extra yl outs ha hr _
    simp only [id] at hr
    have hrx : readAll (vs ++ extra) xs = readAll vs xs := by
      obtain ⟨o, ho⟩ := readAll_isSome (vs := vs) (is := xs) (fun i hi => by rw [ha.length i4]; exact (hxs i hi).2)
      rw [ho, HintExport.readAll_extend ho]
    rw [hr, hrx, st hone (ha.length i4)]
    constructor
    · rintro ⟨X, Y, xl, yl', h3, h4, h5, h6, h7, h8⟩
      simp only [Option.some.injEq] at h4
      subst h4
      exact ⟨X, Y, xl, h3, h5, h6, h7, h8⟩
    · rintro ⟨X, Y, xl, h3, h4, h5, h6, h7⟩
      exact ⟨X, Y, xl, yl, h3, rfl, h4, h5, h6, h7⟩
  · intro ins vs ha o
    constructor
    · rintro ⟨yl, ⟨c, h1, h2⟩, X, Y, xl, h3, h4, h5, h6, h7⟩
      obtain ⟨Y', hY, hb'⟩ := (bitsR_iff hm _ _).1 h2
      have := hb'.inj h5
      subst this
      exact ⟨X, c, xl, h3, h4, h6, h1, Y', hY, h7⟩
    · rintro ⟨X, c, xl, h1, h2, h3, h4, Y, h5, h6⟩
      exact ⟨_, ⟨c, h4, (bitsR_iff hm _ _).2 ⟨Y, h5, h5.1, rfl⟩⟩, X, Y, xl, h1, h2, ⟨h5.1, rfl⟩, h3, h6⟩
  intro ys b5 e5
  have i5 := e5.inv
  have hys := e5.range
  simp only [id] at hys
  have hone := up hone e5.mono
  have hxs : ∀ r ∈ xs, r ≠ 0 ∧ r < b5.varConstId.length := fun r hr => up (hxs r hr) e5.mono
  have Kone := e5.persist Kone (fun vs extra h => HintExport.getElem?_app_some h)
  have Kxs := e5.persist Kxs (fun vs extra ⟨a, xl, h, h'⟩ => ⟨a, xl, HintExport.readAll_extend h, h'⟩)
  have Kys : ∀ ins vs, Acc E get b5 ins vs → ∃ X xl, readAll vs ys = some xl ∧ Bn n xl X := by
    intro ins vs' ha
    obtain ⟨vs, extra, outs, rfl, h1, h2, a, _, h4⟩ := e5.sound ins vs' ha
    obtain ⟨X, _, hX⟩ := (bitsR_iff hm _ _).1 h4
    exact ⟨X, outs, h2, hX⟩
  clear e5 hv
  -- result and still_equal
  let H : List F → List F → List F → Prop := fun xl yl outs => ∃ X Y, Bn n xl X ∧ Bn n yl Y ∧ HH X Y outs
  have hra : ∀ {b : Builder F} {vs extra : List F} {l : List Nat}, vs.length = b.varConstId.length → (∀ r ∈ l, r ≠ 0 ∧ r < b.varConstId.length) →
      readAll (vs ++ extra) l = readAll vs l := by
    intro b vs extra l hl h
    obtain ⟨o, ho⟩ := readAll_isSome (vs := vs) (is := l) (fun i hi => by rw [hl]; exact (h i hi).2)
    rw [ho, HintExport.readAll_extend ho]
  refine (Tri.bind (D := fun vs o1 outs => o1 = [0] ∧ ∃ xl yl, readAll vs xs = some xl ∧ readAll vs ys = some yl ∧ vs[one]? = some 1 ∧ H xl yl outs) i5 (tri_const i5 0)
    (D2 := fun r vs outs => vs[r]? = some 0 ∧ ∃ xl yl, readAll vs xs = some xl ∧ readAll vs ys = some yl ∧ vs[one]? = some 1 ∧ H xl yl outs) ?_ ?_).congr ?_
  rotate_left
  · rintro r ins vs extra o1 outs ha hr rfl
    obtain ⟨a, h1, h2⟩ := readAll_single hr
    simp only [List.cons.injEq, and_true] at h2
    subst h2
    rw [h1, hra (ha.length i5) hxs, hra (ha.length i5) hys, st hone (ha.length i5)]
    simp
  · intro ins vs ha o
    constructor
    · rintro ⟨_, rfl, _, xl, yl, h1, h2, h3, a, c, h4, h5, h6⟩
      exact ⟨a, c, xl, yl, h1, h2, h4, h5, h3, h6⟩
    · rintro ⟨a, c, xl, yl, h1, h2, h3, h4, h5, h6⟩
      exact ⟨_, rfl, rfl, xl, yl, h1, h2, h5, a, c, h3, h4, h6⟩
  intro r b6 e6
  have i6 := e6.inv
  have hr := e6.range r (by simp [single])
  have hone := up hone e6.mono
  have hxs : ∀ r ∈ xs, r ≠ 0 ∧ r < b6.varConstId.length := fun r hr => up (hxs r hr) e6.mono
  have hys : ∀ r ∈ ys, r ≠ 0 ∧ r < b6.varConstId.length := fun r hr => up (hys r hr) e6.mono
  have Kone := e6.persist Kone (fun vs extra h => HintExport.getElem?_app_some h)
  have Kxs := e6.persist Kxs (fun vs extra ⟨a, xl, h, h'⟩ => ⟨a, xl, HintExport.readAll_extend h, h'⟩)
  have Kys := e6.persist Kys (fun vs extra ⟨a, xl, h, h'⟩ => ⟨a, xl, HintExport.readAll_extend h, h'⟩)
  have Kr := e6.known
  clear e6
  refine (Tri.bind (D := fun vs o1 outs => o1 = [1] ∧ vs[r]? = some 0 ∧ ∃ xl yl, readAll vs xs = some xl ∧ readAll vs ys = some yl ∧ vs[one]? = some 1 ∧ H xl yl outs) i6 (tri_const i6 1)
    (D2 := fun s vs outs => vs[s]? = some 1 ∧ vs[r]? = some 0 ∧ ∃ xl yl, readAll vs xs = some xl ∧ readAll vs ys = some yl ∧ vs[one]? = some 1 ∧ H xl yl outs) ?_ ?_).congr ?_
  rotate_left
  · rintro s ins vs extra o1 outs ha hrd rfl
    obtain ⟨a, h1, h2⟩ := readAll_single hrd
    simp only [List.cons.injEq, and_true] at h2
    subst h2
    rw [h1, hra (ha.length i6) hxs, hra (ha.length i6) hys, st hone (ha.length i6), st hr (ha.length i6)]
    simp
  · intro ins vs ha o
    simp
  intro s b7 e7
  have Ks := e7.known
  have Kone := e7.persist Kone (fun vs extra h => HintExport.getElem?_app_some h)
  have Kxs := e7.persist Kxs (fun vs extra ⟨a, xl, h, h'⟩ => ⟨a, xl, HintExport.readAll_extend h, h'⟩)
  have Kys := e7.persist Kys (fun vs extra ⟨a, xl, h, h'⟩ => ⟨a, xl, HintExport.readAll_extend h, h'⟩)
  have Kr := e7.persist Kr (fun vs extra h => HintExport.getElem?_app_some h)
  have i7 := e7.inv
  have hs := e7.range s (by simp [single])
  have hone := up hone e7.mono
  have hr := up hr e7.mono
  have hxs : ∀ r ∈ xs, r ≠ 0 ∧ r < b7.varConstId.length := fun r hr => up (hxs r hr) e7.mono
  have hys : ∀ r ∈ ys, r ≠ 0 ∧ r < b7.varConstId.length := fun r hr => up (hys r hr) e7.mono
  refine (tri_gtLoop (xs.zip ys).reverse i7 hone hr hs ?_).congr ?_
  · intro p hp
    rw [List.mem_reverse] at hp
    have := List.of_mem_zip hp
    exact ⟨hxs _ this.1, hys _ this.2⟩
  · intro ins vs ha o
    rw [Kone ins vs ha, Kr ins vs ha, Ks ins vs ha]
    obtain ⟨X, xl, h1, h2⟩ := Kxs ins vs ha
    obtain ⟨Y, yl, h3, h4⟩ := Kys ins vs ha
    have hmap : ((xs.zip ys).reverse.map fun p => (vs[p.1]?, vs[p.2]?)) =
        (((bitsOf n X).zip (bitsOf n Y)).reverse.map fun p => (some (Hints.ofBool p.1), some (Hints.ofBool p.2))) := by
      rw [List.map_reverse, List.map_reverse]
      congr 1
      rw [h2.2] at h1
      rw [h4.2] at h3
      exact zip_read h1 h3
    have e0 : (some (0 : F)) = some (Hints.ofBool false) := rfl
    have e1 : (some (1 : F)) = some (Hints.ofBool true) := rfl
    have hval : loopV (some (1 : F)) ((xs.zip ys).reverse.map fun p => (vs[p.1]?, vs[p.2]?)) (some 0) (some 1) =
        some (Hints.ofBool (decide (Y < X))) := by
      rw [hmap]
      have := loopV_bits (F := F) ((bitsOf n X).zip (bitsOf n Y)).reverse false true
      simp only [Bool.false_or, Bool.true_and, gtB_spec] at this
      refine (show _ from this).trans ?_
      rw [List.map_reverse, List.map_reverse, List.map_fst_zip (by rw [bitsOf_length, bitsOf_length]), List.map_snd_zip (by rw [bitsOf_length, bitsOf_length]),
        natB_bitsOf _ _ h2.1, natB_bitsOf _ _ h4.1]
    rw [hval]
    constructor
    · rintro ⟨e, h5, h6⟩
      simp only [Option.some.injEq] at h5
      exact ⟨rfl, rfl, xl, yl, h1, h3, rfl, X, Y, h2, h4, by simp only [HH]; rw [h6, h5]⟩
    · rintro ⟨_, _, xl', yl', h5, h6, _, X', Y', h7, h8, h9⟩
      rw [h1] at h5
      rw [h3] at h6
      simp only [Option.some.injEq] at h5 h6
      subst h5 h6
      refine ⟨_, rfl, ?_⟩
      simp only [HH] at h9
      rw [h9, h2.inj h7, h4.inj h8]
where
  zip_read {vs : List F} : ∀ {xs ys : List Nat} {p q : List Bool}, readAll vs xs = some (p.map Hints.ofBool) → readAll vs ys = some (q.map Hints.ofBool) →
      ((xs.zip ys).map fun p => (vs[p.1]?, vs[p.2]?)) = (p.zip q).map fun p => (some (Hints.ofBool p.1), some (Hints.ofBool p.2)) := by
    intro xs
    induction xs with
    | nil =>
      intro ys p q h1 _
      simp only [readAll, Option.some.injEq] at h1
      have : p = [] := by cases p with
        | nil => rfl
        | cons a l => simp at h1
      subst this; simp
    | cons x xs ih =>
      intro ys p q h1 h2
      simp only [readAll] at h1
      cases hx : vs[x]? with
      | none => rw [hx] at h1; simp at h1
      | some a =>
        cases hxs : readAll vs xs with
        | none => rw [hx, hxs] at h1; simp at h1
        | some l =>
          rw [hx, hxs] at h1
          simp only [Option.some.injEq] at h1
          cases p with
          | nil => simp at h1
          | cons p0 p =>
            simp only [List.map_cons, List.cons.injEq] at h1
            cases ys with
            | nil =>
              simp only [readAll, Option.some.injEq] at h2
              cases q with
              | nil => simp
              | cons a l => simp at h2
            | cons y ys =>
              simp only [readAll] at h2
              cases hy : vs[y]? with
              | none => rw [hy] at h2; simp at h2
              | some c =>
                cases hys : readAll vs ys with
                | none => rw [hy, hys] at h2; simp at h2
                | some m =>
                  rw [hy, hys] at h2
                  simp only [Option.some.injEq] at h2
                  cases q with
                  | nil => simp at h2
                  | cons q0 q =>
                    simp only [List.map_cons, List.cons.injEq] at h2
                    simp only [List.zip_cons_cons, List.map_cons, hx, hy, h1.1, h2.1]
                    rw [ih (by rw [hxs, h1.2]) (by rw [hys, h2.2])]

theorem tri_geq {b : Builder F} (hb : Inv E get npi b) {x y : Arg F} (hx : x.Ok b.varConstId.length) (hy : y.Ok b.varConstId.length) {fs n : Nat}
    (hn : gtBits fs = some n) (hm : E.canon.modulus ≤ 2 ^ n) :
    Tri E get npi b (geq E.canon fs x y) single (fun vs outs => ∃ a c, x.ev vs = some a ∧ y.ev vs = some c ∧
      geqR adv E.canon n a c outs) := by
  unfold geq
  have key : ∀ X Y : Nat, (1 : F) - Hints.ofBool (decide (X < Y)) = Hints.ofBool (decide (Y ≤ X)) := by
    intro X Y
    by_cases h : X < Y
    · simp [Hints.ofBool, h, Nat.not_le.2 h]
    · simp [Hints.ofBool, h, Nat.not_lt.1 h]
  refine (Tri.bind (D := fun vs o1 outs => ∃ g, o1 = [g] ∧ outs = [1 - g]) hb (tri_gt hb hy hx hn hm) (D2 := fun u vs outs => ∃ g, vs[u]? = some g ∧ outs = [1 - g]) ?_ ?_).congr ?_
  rotate_left
  · intro u ins vs extra o1 outs ha hr hd
    obtain ⟨g, h1, rfl⟩ := readAll_single hr
    simp [h1]
  · intro ins vs ha o
    constructor
    · rintro ⟨_, ⟨c, a, h1, h2, Y, X, h4, h5, rfl⟩, g, h3, rfl⟩
      simp only [List.cons.injEq, and_true] at h3
      subst h3
      exact ⟨a, c, h2, h1, X, Y, h5, h4, by rw [key]⟩
    · rintro ⟨a, c, h1, h2, X, Y, h4, h5, rfl⟩
      exact ⟨_, ⟨c, a, h2, h1, Y, X, h5, h4, rfl⟩, _, rfl, by rw [key]⟩
  intro u b1 e1
  have hu := e1.range u (by simp [single])
  refine (Tri.bind (D := fun vs o1 outs => ∃ g, o1 = [1] ∧ vs[u]? = some g ∧ outs = [1 - g]) e1.inv (tri_const e1.inv 1)
    (D2 := fun v vs outs => ∃ a c, vs[v]? = some a ∧ vs[u]? = some c ∧ outs = [a - c]) ?_ ?_).congr ?_
  rotate_left
  · rintro v ins vs extra o1 outs ha hr rfl
    obtain ⟨a, h1, h2⟩ := readAll_single hr
    simp only [List.cons.injEq, and_true] at h2
    subst h2
    have : (vs ++ extra)[u]? = vs[u]? := List.getElem?_append_left (by rw [ha.length e1.inv]; exact hu.2)
    simp [h1, this]
  · intro ins vs ha o
    simp
  intro v b2 e2
  exact tri_sub e2.inv (x := .var v) (y := .var u) (e2.range v (by simp [single])) ⟨hu.1, lt_of_lt_of_le hu.2 e2.mono⟩

end Verif.Frontend
