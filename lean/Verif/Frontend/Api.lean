import Verif.Frontend.Prims
import Mathlib.Tactic.Ring

/-!
# Frontend builder: every API function does what is documented
-/
set_option linter.unusedSectionVars false
set_option linter.unusedSimpArgs false
namespace Verif.Frontend
open Verif.IR

variable {F : Type} [Field F] [DecidableEq F] {adv : Bool} {E : Env F} {get : Nat → Option (Circuit (srcM adv E))} {npi : Option Nat}

theorem tri_binary {b : Builder F} (hb : Inv E get npi b) {x y : Arg F} (hx : x.Ok b.varConstId.length) (hy : y.Ok b.varConstId.length)
    {fold : F → F → M F Nat} {mk : Nat → Nat → Source.Insn F} {G : F → F → List F → Prop}
    (hfold : ∀ a c, Tri E get npi b (fold a c) single (fun _ outs => G a c outs))
    (hval : ∀ u v, validAt (srcM adv E) npi (mk u v) = true) (hin : ∀ u v, (mk u v).inputs = [u, v])
    (hc : ∀ u v, (mk u v).asCall = none) (hk : ∀ u v, (mk u v).numOutputs = 1)
    (hG : ∀ u v a c outs, semM adv E (mk u v) [a, c] outs ↔ G a c outs) (hlen : ∀ a c outs, G a c outs → outs.length = 1) :
    Tri E get npi b (binary fold mk x y) single (fun vs outs => ∃ a c, x.ev vs = some a ∧ y.ev vs = some c ∧ G a c outs) := by
  unfold binary
  refine tri_constantValue hb hx fun xc h1 => tri_constantValue hb hy fun yc h2 => ?_
  cases xc with
  | none => exact tri_two hb hx hy hval hin hc hk hG hlen
  | some a =>
    cases yc with
    | none => exact tri_two hb hx hy hval hin hc hk hG hlen
    | some c =>
      refine (hfold a c).congr ?_
      intro ins vs ha o
      rw [h1 a rfl ins vs ha, h2 c rfl ins vs ha]
      simp

theorem tri_unary {b : Builder F} (hb : Inv E get npi b) {x : Arg F} (hx : x.Ok b.varConstId.length) {fold : F → M F Nat} {mk : Nat → Source.Insn F}
    {G : F → List F → Prop} (hfold : ∀ a, Tri E get npi b (fold a) single (fun _ outs => G a outs))
    (hval : ∀ u, validAt (srcM adv E) npi (mk u) = true) (hin : ∀ u, (mk u).inputs = [u]) (hc : ∀ u, (mk u).asCall = none) (hk : ∀ u, (mk u).numOutputs = 1)
    (hG : ∀ u a outs, semM adv E (mk u) [a] outs ↔ G a outs) (hlen : ∀ a outs, G a outs → outs.length = 1) :
    Tri E get npi b (unary fold mk x) single (fun vs outs => ∃ a, x.ev vs = some a ∧ G a outs) := by
  unfold unary
  refine tri_constantValue hb hx fun xc h1 => ?_
  cases xc with
  | none =>
    refine tri_one hb hx ?_
    intro u b1 hb1 _ h0 hu
    refine (tri_emit1 hb1 ?_ (hval u) (hk u) ?_).congr ?_
    · intro t ht
      rw [hin] at ht
      simp only [List.mem_singleton] at ht
      subst ht; exact ⟨h0, hu⟩
    · intro vs outs h
      obtain ⟨a, _, hg⟩ := (step_one (hc u) (hin u) (hG u) vs outs).1 h
      exact hlen a outs hg
    · intro _ vs _ o
      exact step_one (hc u) (hin u) (hG u) vs o
  | some a =>
    refine (hfold a).congr ?_
    intro ins vs ha o
    rw [h1 a rfl ins vs ha]
    simp

theorem valid_other {i : Source.Insn F} (h : ∀ n, i.valid n = true) : validAt (srcM adv E) npi i = true := by
  cases npi with
  | none => rfl
  | some n => exact h n

theorem tri_add {b : Builder F} (hb : Inv E get npi b) {x y : Arg F} (hx : x.Ok b.varConstId.length) (hy : y.Ok b.varConstId.length) :
    Tri E get npi b (add x y) single (fun vs outs => ∃ a c, x.ev vs = some a ∧ y.ev vs = some c ∧ outs = [a + c]) := by
  refine tri_binary hb hx hy (fun a c => tri_const hb _) (fun _ _ => valid_other fun _ => rfl) (fun _ _ => rfl) (fun _ _ => rfl) (fun _ _ => rfl) ?_ (by rintro a c _ rfl; rfl)
  intro u v a c outs
  cases adv <;> simp [semM, Verif.Builder.semAdv, Source.Insn.sem, LinComb.evalArgs]

theorem tri_sub {b : Builder F} (hb : Inv E get npi b) {x y : Arg F} (hx : x.Ok b.varConstId.length) (hy : y.Ok b.varConstId.length) :
    Tri E get npi b (sub x y) single (fun vs outs => ∃ a c, x.ev vs = some a ∧ y.ev vs = some c ∧ outs = [a - c]) := by
  refine tri_binary hb hx hy (fun a c => tri_const hb _) (fun _ _ => valid_other fun _ => rfl) (fun _ _ => rfl) (fun _ _ => rfl) (fun _ _ => rfl) ?_ (by rintro a c _ rfl; rfl)
  intro u v a c outs
  cases adv <;> simp [semM, Verif.Builder.semAdv, Source.Insn.sem, LinComb.evalArgs, sub_eq_add_neg]

theorem tri_mul {b : Builder F} (hb : Inv E get npi b) {x y : Arg F} (hx : x.Ok b.varConstId.length) (hy : y.Ok b.varConstId.length) :
    Tri E get npi b (mul x y) single (fun vs outs => ∃ a c, x.ev vs = some a ∧ y.ev vs = some c ∧ outs = [a * c]) := by
  refine tri_binary hb hx hy (fun a c => tri_const hb _) (fun _ _ => valid_other fun _ => rfl) (fun _ _ => rfl) (fun _ _ => rfl) (fun _ _ => rfl) ?_ (by rintro a c _ rfl; rfl)
  intro u v a c outs
  cases adv <;> simp [semM, Verif.Builder.semAdv, Source.Insn.sem]

theorem tri_neg {b : Builder F} (hb : Inv E get npi b) {x : Arg F} (hx : x.Ok b.varConstId.length) :
    Tri E get npi b (neg x) single (fun vs outs => ∃ a, x.ev vs = some a ∧ outs = [-a]) := by
  refine tri_unary hb hx (fun a => tri_const hb _) (fun _ => valid_other fun _ => rfl) (fun _ => rfl) (fun _ => rfl) (fun _ => rfl) ?_ (by rintro a _ rfl; rfl)
  intro u a outs
  cases adv <;> simp [semM, Verif.Builder.semAdv, Source.Insn.sem, LinComb.evalArgs]

/-- **Specification** of `div`; adversarially the unchecked quotient `0/0` is arbitrary. -/
def divR (adv checked : Bool) (a c : F) (outs : List F) : Prop :=
  (c ≠ 0 ∧ outs = [a / c]) ∨ (c = 0 ∧ a = 0 ∧ checked = false ∧ if adv then outs.length = 1 else outs = [0])

theorem tri_div {b : Builder F} (hb : Inv E get npi b) {x y : Arg F} (hx : x.Ok b.varConstId.length) (hy : y.Ok b.varConstId.length) (checked : Bool) :
    Tri E get npi b (div x y checked) single (fun vs outs => ∃ a c, x.ev vs = some a ∧ y.ev vs = some c ∧
      divR adv checked a c outs) := by
  refine tri_binary hb hx hy ?_ (fun _ _ => valid_other fun _ => rfl) (fun _ _ => rfl) (fun _ _ => rfl) (fun _ _ => rfl) ?_ ?_
  · intro a c
    by_cases hc : c = 0
    · simp only [hc, if_true]
      by_cases hp : (checked || decide (a ≠ 0)) = true
      · rw [if_pos hp]
        refine tri_panic ?_
        rintro ins vs _ o (⟨h, _⟩ | ⟨_, h1, h2, _⟩)
        · exact h rfl
        · simp [h1, h2] at hp
      · rw [if_neg hp]
        simp only [Bool.or_eq_true, decide_eq_true_eq, not_or, not_not, Bool.not_eq_true] at hp
        cases adv with
        | false =>
          refine (tri_const hb _).congr ?_
          intro _ vs _ o
          simp [divR, hp.1, hp.2]
        | true =>
          refine (tri_const hb _).weaken rfl ?_
          intro _ vs _ o h
          simp [divR, hp.1, hp.2, h]
    · simp only [hc, if_false]
      refine (tri_const hb _).congr ?_
      intro _ vs _ o
      simp [divR, hc, div_eq_mul_inv]
  · intro u v a c outs
    by_cases hc : c = 0
    · cases adv <;> simp [semM, Verif.Builder.semAdv, Source.Insn.sem, hc, divR]
    · cases adv <;> simp [semM, Verif.Builder.semAdv, Source.Insn.sem, hc, divR, div_eq_mul_inv]
  · rintro a c outs (⟨_, rfl⟩ | ⟨_, _, _, h⟩)
    · rfl
    · cases adv
      · simp only [Bool.false_eq_true, if_false] at h; rw [h]; rfl
      · simpa using h

theorem tri_isZero {b : Builder F} (hb : Inv E get npi b) {x : Arg F} (hx : x.Ok b.varConstId.length) :
    Tri E get npi b (isZero x) single (fun vs outs => ∃ a, x.ev vs = some a ∧ outs = [if a = 0 then 1 else 0]) := by
  refine tri_unary hb hx ?_ (fun _ => valid_other fun _ => rfl) (fun _ => rfl) (fun _ => rfl) (fun _ => rfl) ?_ (by rintro a _ rfl; rfl)
  · intro a
    refine (tri_const hb _).congr ?_
    intro _ vs _ o
    simp [Hints.ofBool]
  · intro u a outs
    cases adv <;> simp [semM, Verif.Builder.semAdv, Source.Insn.sem]

theorem tri_assertCon {b : Builder F} (hb : Inv E get npi b) {x : Arg F} (hx : x.Ok b.varConstId.length) (t : Source.Con) :
    Tri E get npi b (assertCon t x) (fun _ => []) (fun vs outs => ∃ a, x.ev vs = some a ∧ t.verify a = true ∧ outs = []) := by
  unfold assertCon
  refine tri_constantValue hb hx fun xc h1 => ?_
  have hgo : Tri E get npi b ((toVar x).andThen fun v => pushCon t v) (fun _ => []) (fun vs outs => ∃ a, x.ev vs = some a ∧ t.verify a = true ∧ outs = []) :=
    tri_one (G := fun a outs => t.verify a = true ∧ outs = []) hb hx fun u b1 hb1 _ h0 hu => tri_pushCon hb1 h0 hu
  cases xc with
  | none => exact hgo
  | some a =>
    by_cases hv : t.verify a = true
    · simp only [hv, if_true]; exact hgo
    · simp only [hv]
      refine tri_panic ?_
      rintro ins vs ha o ⟨a', h2, h3, _⟩
      rw [h1 a rfl ins vs ha] at h2
      simp only [Option.some.injEq] at h2
      subst h2
      exact hv h3

/-- The documented value of the boolean operations. -/
def boolV (op : Source.BoolOp) (a c : F) : F :=
  match op with
  | .xor => if a ≠ c then 1 else 0
  | .or => if a = 1 ∨ c = 1 then 1 else 0
  | .and => if a = 1 ∧ c = 1 then 1 else 0

theorem boolV_eval (op : Source.BoolOp) {a c : F} (ha : a = 0 ∨ a = 1) (hc : c = 0 ∨ c = 1) : op.eval a c = boolV op a c := by
  have h01 : (0 : F) ≠ 1 := zero_ne_one
  have h10 : (1 : F) ≠ 0 := one_ne_zero
  rcases ha with rfl | rfl <;> rcases hc with rfl | rfl <;> cases op <;> simp [Source.BoolOp.eval, boolV, h01, h10] <;> ring

theorem verify_bool {a : F} : Source.Con.verify .bool a = true ↔ a = 0 ∨ a = 1 := by
  simp [Source.Con.verify]

theorem tri_boolOp {b : Builder F} (hb : Inv E get npi b) {x y : Arg F} (hx : x.Ok b.varConstId.length) (hy : y.Ok b.varConstId.length) (op : Source.BoolOp) :
    Tri E get npi b (boolOp op x y) single (fun vs outs => ∃ a c, x.ev vs = some a ∧ y.ev vs = some c ∧
      (a = 0 ∨ a = 1) ∧ (c = 0 ∨ c = 1) ∧ outs = [boolV op a c]) := by
  refine tri_binary hb hx hy ?_ (fun _ _ => valid_other fun _ => rfl) (fun _ _ => rfl) (fun _ _ => rfl) (fun _ _ => rfl) ?_ ?_
  · intro a c
    have e : ∀ m : M F Nat, (∀ b1, Inv E get npi b1 → (a = 0 ∨ a = 1) → (c = 0 ∨ c = 1) → Tri E get npi b1 m single (fun _ outs => outs = [boolV op a c])) →
        Tri E get npi b ((assertCon .bool (.val a)).andThen fun _ => (assertCon .bool (.val c)).andThen fun _ => m) single
          (fun _ outs => (a = 0 ∨ a = 1) ∧ (c = 0 ∨ c = 1) ∧ outs = [boolV op a c]) := by
      intro m hm
      by_cases ha : a = 0 ∨ a = 1
      · refine (Tri.bind (D := fun _ _ outs => (c = 0 ∨ c = 1) ∧ outs = [boolV op a c]) hb (tri_assertCon hb (x := .val a) trivial .bool)
          (D2 := fun _ _ outs => (c = 0 ∨ c = 1) ∧ outs = [boolV op a c]) ?_ (by intros; rfl)).congr ?_
        · intro _ b1 e1
          by_cases hc : c = 0 ∨ c = 1
          · refine (Tri.bind (D := fun _ _ outs => outs = [boolV op a c]) e1.inv (tri_assertCon e1.inv (x := .val c) trivial .bool)
              (D2 := fun _ _ outs => outs = [boolV op a c]) ?_ (by intros; rfl)).congr ?_
            · intro _ b2 e2
              exact hm b2 e2.inv ha hc
            · intro _ vs _ o
              simp [Arg.ev, verify_bool, hc]
          · have hp : (assertCon Source.Con.bool (Arg.val c)) b1 = none := by
              have : Source.Con.verify .bool c = false := by
                cases h : Source.Con.verify .bool c
                · rfl
                · exact absurd (verify_bool.1 h) hc
              simp [assertCon, constantValue, M.andThen, M.ret, this, M.panic]
            constructor
            · intro v b2 h; simp [M.andThen, hp] at h
            · intro _ _ ins vs outs _ h; exact hc h.1
        · intro _ vs _ o
          simp [Arg.ev, verify_bool, ha]
      · have hp : (assertCon Source.Con.bool (Arg.val a)) b = none := by
          have : Source.Con.verify .bool a = false := by
            cases h : Source.Con.verify .bool a
            · rfl
            · exact absurd (verify_bool.1 h) ha
          simp [assertCon, constantValue, M.andThen, M.ret, this, M.panic]
        constructor
        · intro v b2 h; simp [M.andThen, hp] at h
        · intro _ _ ins vs outs _ h; exact ha h.1
    refine e _ ?_
    intro b1 hb1 ha hc
    refine (tri_const hb1 _).congr ?_
    intro _ vs _ o
    have h01 : (0 : F) ≠ 1 := zero_ne_one
    rcases ha with rfl | rfl <;> rcases hc with rfl | rfl <;> cases op <;> simp [boolV, Hints.ofBool]
  · intro u v a c outs
    have e : semM adv E (.boolBinOp u v op) [a, c] outs ↔ Source.Insn.sem E (.boolBinOp u v op) [a, c] outs := by cases adv <;> rfl
    rw [e]
    simp only [Source.Insn.sem]
    constructor
    · rintro ⟨h1, h2, rfl⟩; exact ⟨h1, h2, by rw [boolV_eval op h1 h2]⟩
    · rintro ⟨h1, h2, rfl⟩; exact ⟨h1, h2, by rw [boolV_eval op h1 h2]⟩
  · rintro a c outs ⟨_, _, rfl⟩; rfl

theorem tri_ret {α : Type} {b : Builder F} (hb : Inv E get npi b) (a : α) (rets : α → List Nat) (hr : ∀ r ∈ rets a, r ≠ 0 ∧ r < b.varConstId.length) :
    Tri E get npi b (M.ret a) rets (fun vs outs => readAll vs (rets a) = some outs) := by
  constructor
  · intro a' b' h
    simp only [M.ret, Option.some.injEq, Prod.mk.injEq] at h
    obtain ⟨rfl, rfl⟩ := h
    refine Ext.of_eq hb hr ?_
    intro ins vs ha
    have hl := ha.length hb
    obtain ⟨outs, ho⟩ : ∃ o, readAll vs (rets a) = some o := by
      have := readAll_isSome (vs := vs) (is := rets a) (fun i hi => by rw [hl]; exact (hr i hi).2)
      exact this
    refine ⟨outs, ho, fun o => ?_⟩
    rw [ho]
    simp only [Option.some.injEq]
    exact eq_comm
  · intro _ h; simp [M.ret] at h

theorem tri_constants : ∀ (l : List F) {b : Builder F}, Inv E get npi b → Tri E get npi b (constants l) id (fun _ outs => outs = l) := by
  intro l
  induction l with
  | nil =>
    intro b hb
    refine (tri_ret (α := List Nat) hb [] id (by simp)).congr ?_
    intro _ vs _ o
    simp [readAll, eq_comm]
  | cons x xs ih =>
    intro b hb
    refine (Tri.bind (D := fun _ o1 outs => outs = o1 ++ xs) hb (tri_const hb x) (D2 := fun v vs outs => ∃ a, vs[v]? = some a ∧ outs = a :: xs) ?_ ?_).congr ?_
    · intro v b1 e1
      have hv := e1.range v (by simp [single])
      refine (Tri.bind (D := fun vs o1 outs => ∃ a, vs[v]? = some a ∧ outs = a :: o1) e1.inv (ih e1.inv)
        (D2 := fun us vs outs => readAll vs (v :: us) = some outs) ?_ ?_).congr ?_
      · intro us b2 e2
        refine tri_ret e2.inv (v :: us) id ?_
        intro r hr
        rcases List.mem_cons.1 hr with rfl | hr
        · exact ⟨hv.1, lt_of_lt_of_le hv.2 e2.mono⟩
        · exact e2.range r hr
      · intro us ins vs extra o1 outs ha hr hd
        have hl := ha.length e1.inv
        have e : (vs ++ extra)[v]? = vs[v]? := List.getElem?_append_left (by rw [hl]; exact hv.2)
        simp only [id] at hr
        simp only [readAll, hr, e]
        cases vs[v]? with
        | none => simp
        | some a => simp [eq_comm]
      · intro _ vs _ o
        simp
    · intro v ins vs extra o1 outs ha hr hd
      obtain ⟨a, h1, rfl⟩ := readAll_single hr
      simp [h1]
    · intro _ vs _ o
      simp

/-- **Specification** of `to_binary`: the canonical bits; adversarially, any bits that sum up to the argument in the field. -/
def bitsR (adv : Bool) (cn : Canon F) (a : F) (n : Nat) (outs : List F) : Prop :=
  match adv with
  | false => Hints.toBinary cn a n = some outs
  | true => outs.length = n ∧ (∀ b ∈ outs, b = 0 ∨ b = 1) ∧ Verif.Builder.bitsSum outs = a

theorem bitsR_honest {adv : Bool} {cn : Canon F} {a : F} {n : Nat} {outs : List F} (h : Hints.toBinary cn a n = some outs) : bitsR adv cn a n outs := by
  cases adv with
  | false => exact h
  | true => exact Verif.Builder.bitsSum_toBinary cn h

theorem bitsR_length {adv : Bool} {cn : Canon F} {a : F} {n : Nat} {outs : List F} (h : bitsR adv cn a n outs) : outs.length = n := by
  cases adv with
  | false => exact (Verif.Builder.bitsSum_toBinary cn h).1
  | true => exact h.1

theorem tri_toBinary {b : Builder F} (hb : Inv E get npi b) {x : Arg F} (hx : x.Ok b.varConstId.length) {n : Nat} (hn : npi = none ∨ 0 < n) :
    Tri E get npi b (toBinary E.canon x n) id (fun vs outs => ∃ a, x.ev vs = some a ∧ bitsR adv E.canon a n outs) := by
  unfold toBinary
  refine tri_constantValue hb hx fun xc h1 => ?_
  cases xc with
  | none =>
    refine tri_one (G := fun a outs => bitsR adv E.canon a n outs) hb hx ?_
    intro u b1 hb1 _ h0 hu
    have hG : ∀ a outs, semM adv E (.toBinary u n) [a] outs ↔ bitsR adv E.canon a n outs := fun a outs => by cases adv <;> exact Iff.rfl
    refine (tri_emit hb1 (i := .toBinary u n) (k := n) ?_ ?_ rfl ?_).congr ?_
    · intro t ht
      simp only [Source.Insn.inputs, List.mem_singleton] at ht
      subst ht; exact ⟨h0, hu⟩
    · cases npi with
      | none => rfl
      | some m =>
        rcases hn with h | h
        · simp at h
        · simp [validAt, Source.Insn.valid, h]
    · intro vs outs h
      obtain ⟨a, _, hg⟩ := (step_one (get := get) (i := .toBinary u n) rfl rfl hG vs outs).1 h
      exact bitsR_length hg
    · intro _ vs _ o
      exact step_one (i := .toBinary u n) rfl rfl hG vs o
  | some a =>
    cases hv : Hints.toBinary E.canon a n with
    | none =>
      simp only [hv]
      refine tri_panic' ?_
      rintro hadv ins vs ha o ⟨a', h2, h3⟩
      rw [hadv] at h3
      rw [h1 a rfl ins vs ha] at h2
      simp only [Option.some.injEq] at h2
      subst h2
      simp only [bitsR] at h3
      rw [hv] at h3
      simp at h3
    | some l =>
      simp only [hv]
      cases adv with
      | false =>
        refine (tri_constants l hb).congr ?_
        intro ins vs ha o
        rw [h1 a rfl ins vs ha]
        simp [bitsR, hv, eq_comm]
      | true =>
        refine (tri_constants l hb).weaken rfl ?_
        intro ins vs ha o h
        rw [h1 a rfl ins vs ha]
        exact ⟨a, rfl, bitsR_honest (by rw [hv, h])⟩

end Verif.Frontend
