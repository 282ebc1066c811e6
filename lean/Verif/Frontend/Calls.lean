import Verif.Frontend.Gt

/-!
# Frontend builder: documented behaviour of every API call, and of every sequence of calls
-/
set_option linter.unusedSectionVars false
set_option linter.unusedSimpArgs false
namespace Verif.Frontend
open Verif.IR

variable {F : Type} [Field F] [DecidableEq F]

/-- The arguments of a call. -/
def Call.args : Call F → List (Arg F)
  | .constant x | .neg x | .isZero x | .toBinary x _ | .assertCon _ x | .uIdentity x => [x]
  | .add x y | .sub x y | .mul x y | .div x y _ | .boolOp _ x y | .gt x y | .geq x y | .uOp _ x y | .uAdd x y | .uMul x y => [x, y]
  | .random | .pub _ => []
  | .hint _ xs _ | .call _ xs _ => xs.map .var

/-- The value of an argument under an assignment of the variables. -/
def Arg.eval (val : Nat → F) : Arg F → F
  | .var v => val v
  | .val x => x

/-- The result of a hint: what the hint function returns, or — adversarially — anything of the declared length. -/
def hintR (adv : Bool) (E : Env F) (hid : Nat) (args : List F) (n : Nat) (outs : List F) : Prop := if adv then outs.length = n else E.hint hid args n outs

/-- **Specification**: what each call promises about the values `args` of its arguments and `outs` of the variables it returns.  With `adv = false`: in an honest
evaluation.  With `adv = true`: in every assignment the generated constraints allow, i.e. unconstrained results are arbitrary, the unchecked quotient `0/0` is
arbitrary, and bits are any bits with the right sum in the field.  (`fs` is `FIELD_SIZE`.) -/
def Call.Doc {adv : Bool} (E : Env F) (get : Nat → Option (Circuit (srcM adv E))) (fs : Nat) : Call F → (args outs : List F) → Prop
  | .constant _, [a], outs => outs = [a]
  | .add _ _, [a, c], outs => outs = [a + c]
  | .sub _ _, [a, c], outs => outs = [a - c]
  | .neg _, [a], outs => outs = [-a]
  | .mul _ _, [a, c], outs => outs = [a * c]
  | .div _ _ checked, [a, c], outs => (c ≠ 0 ∧ outs = [a / c]) ∨ (c = 0 ∧ a = 0 ∧ checked = false ∧ if adv then outs.length = 1 else outs = [0])
  | .boolOp op _ _, [a, c], outs => (a = 0 ∨ a = 1) ∧ (c = 0 ∨ c = 1) ∧ outs = [boolV op a c]
  | .isZero _, [a], outs => outs = [if a = 0 then 1 else 0]
  | .toBinary _ n, [a], outs =>
    if adv then outs.length = n ∧ (∀ b ∈ outs, b = 0 ∨ b = 1) ∧ Verif.Builder.bitsSum outs = a
    else E.canon.toNat a < 2 ^ n ∧ outs = (List.range n).map fun i => if (E.canon.toNat a).testBit i then 1 else 0
  | .assertCon t _, [a], outs => outs = [] ∧ match t with
      | .zero => a = 0
      | .nonZero => a ≠ 0
      | .bool => a = 0 ∨ a = 1
  | .random, [], outs => outs.length = 1
  | .pub i, [], outs => outs = [E.pub i]
  | .hint hid _ n, args, outs => hintR adv E hid args n outs
  | .gt _ _, [a, c], outs =>
    if adv then ∃ n X Y : Nat, gtBits fs = some n ∧ X < 2 ^ n ∧ Y < 2 ^ n ∧ (X : F) = a ∧ (Y : F) = c ∧ outs = [if X > Y then 1 else 0]
    else outs = [if E.canon.toNat a > E.canon.toNat c then 1 else 0]
  | .geq _ _, [a, c], outs =>
    if adv then ∃ n X Y : Nat, gtBits fs = some n ∧ X < 2 ^ n ∧ Y < 2 ^ n ∧ (X : F) = a ∧ (Y : F) = c ∧ outs = [if X ≥ Y then 1 else 0]
    else outs = [if E.canon.toNat a ≥ E.canon.toNat c then 1 else 0]
  | .uOp op _ _, [a, c], outs => if adv then outs.length = 1 else ∃ z, op.eval E.canon a c = some z ∧ outs = [z]
  | .uIdentity _, [a], outs => hintR adv E (Hints.Id.toNat .identity) [a] 1 outs
  | .uAdd _ _, [a, c], outs => hintR adv E (Hints.Id.toNat .identity) [a + c] 1 outs
  | .uMul _ _, [a, c], outs => hintR adv E (Hints.Id.toNat .identity) [a * c] 1 outs
  | .call c _ _, args, outs => ∃ circ, get c = some circ ∧ EvalSub get circ args outs true
  | _, _, _ => False

/-- Side conditions of a call: comparisons need a supported field, called circuits exist with the declared number of outputs, and — only if the
circuit is to pass `validate` (`npi = some _`) — bit counts are positive and hints take the number of inputs and outputs they are registered for. -/
def Call.Ok {adv : Bool} (E : Env F) (get : Nat → Option (Circuit (srcM adv E))) (npi : Option Nat) (fs : Nat) : Call F → Prop
  | .gt _ _ | .geq _ _ => ∃ n, gtBits fs = some n ∧ E.canon.modulus ≤ 2 ^ n
  | .toBinary _ n => npi = none ∨ 0 < n
  | .hint hid xs n => npi = none ∨ (Hints.validateHint hid xs.length n = true ∧ xs ≠ [])
  | .pub i => ∀ n, npi = some n → i < n
  | .call c _ n => ∀ circ, get c = some circ → circ.outputs.length = n
  | _ => True

variable {adv : Bool} {E : Env F} {get : Nat → Option (Circuit (srcM adv E))} {npi : Option Nat}

theorem bitsOf_testBit : ∀ n y, bitsOf n y = (List.range n).map fun i => y.testBit i := by
  intro n
  induction n with
  | zero => intro y; rfl
  | succ n ih =>
    intro y
    rw [List.range_succ_eq_map, List.map_cons, List.map_map]
    simp only [bitsOf, ih]
    congr 1
    · simp [Nat.testBit_zero, beq_eq_decide]
    · refine List.map_congr_left ?_
      intro i _
      simp [Nat.testBit_succ]

theorem mapOpt_readAll (vs : List F) : ∀ xs : List Nat, mapOpt (fun v => vs[v]?) xs = readAll vs xs := by
  intro xs
  induction xs with
  | nil => rfl
  | cons x xs ih =>
    simp only [mapOpt, readAll, ih]
    rfl

/-- Arguments that exist have values. -/
def evArgs (vs : List F) (l : List (Arg F)) : Option (List F) := mapOpt (Arg.ev vs) l

theorem evArgs_vars (vs : List F) : ∀ xs : List Nat, evArgs vs (xs.map .var) = readAll vs xs := by
  intro xs
  induction xs with
  | nil => rfl
  | cons x xs ih =>
    simp only [evArgs] at ih
    simp only [evArgs, List.map_cons, mapOpt, readAll, Arg.ev, ih]
    rfl

theorem evArgs_one (vs : List F) (x : Arg F) (P : List F → Prop) : (∃ args, evArgs vs [x] = some args ∧ P args) ↔ ∃ a, x.ev vs = some a ∧ P [a] := by
  simp only [evArgs, mapOpt]
  cases x.ev vs <;> simp

theorem evArgs_two (vs : List F) (x y : Arg F) (P : List F → Prop) :
    (∃ args, evArgs vs [x, y] = some args ∧ P args) ↔ ∃ a c, x.ev vs = some a ∧ y.ev vs = some c ∧ P [a, c] := by
  simp only [evArgs, mapOpt]
  cases x.ev vs with
  | none => simp
  | some a => cases y.ev vs <;> simp

theorem tri_one1 {b : Builder F} {m : M F Nat} {D : List F → List F → Prop} (h : Tri E get npi b m single D) : Tri E get npi b (one1 m) id D :=
  h.map (fun _ => rfl)

theorem ofBool_ite (p : Prop) [Decidable p] : (Hints.ofBool (decide p) : F) = if p then 1 else 0 := by
  by_cases h : p <;> simp [Hints.ofBool, h]

theorem hintR_length {adv : Bool} {E : Env F} (hH : E.HintLen) {hid : Nat} {args : List F} {n : Nat} {outs : List F} (h : hintR adv E hid args n outs) : outs.length = n := by
  cases adv with
  | false => exact hH _ _ _ _ h
  | true => exact h

theorem tri_uIdentity (hH : E.HintLen) {b : Builder F} (hb : Inv E get npi b) {x : Arg F} (hx : x.Ok b.varConstId.length) :
    Tri E get npi b (uIdentity x) single (fun vs outs => ∃ a, x.ev vs = some a ∧ hintR adv E (Hints.Id.toNat .identity) [a] 1 outs) := by
  refine tri_one (G := fun a outs => hintR adv E (Hints.Id.toNat .identity) [a] 1 outs) hb hx ?_
  intro u b1 hb1 _ h0 hu
  have hG : ∀ a outs, semM adv E (.hint (Hints.Id.toNat .identity) [u] 1) [a] outs ↔ hintR adv E (Hints.Id.toNat .identity) [a] 1 outs := fun _ _ => by cases adv <;> exact Iff.rfl
  refine (tri_emit1 hb1 (i := .hint (Hints.Id.toNat .identity) [u] 1) ?_ ?_ rfl ?_).congr ?_
  · intro t ht
    simp only [Source.Insn.inputs, List.mem_singleton] at ht
    subst ht; exact ⟨h0, hu⟩
  · exact valid_other fun _ => rfl
  · intro vs outs h
    obtain ⟨a, _, hg⟩ := (step_one (get := get) (i := .hint (Hints.Id.toNat .identity) [u] 1) rfl rfl hG vs outs).1 h
    exact hintR_length hH hg
  · intro _ vs _ o
    exact step_one (i := .hint (Hints.Id.toNat .identity) [u] 1) rfl rfl hG vs o

/-- `unconstrained_add`/`_mul`: the operation on the variables of the arguments, then the identity hint. -/
theorem tri_uArith (hH : E.HintLen) {b : Builder F} (hb : Inv E get npi b) {x y : Arg F} (hx : x.Ok b.varConstId.length) (hy : y.Ok b.varConstId.length)
    {op : Arg F → Arg F → M F Nat} {f : F → F → F}
    (hop : ∀ {b : Builder F}, Inv E get npi b → ∀ {x y : Arg F}, x.Ok b.varConstId.length → y.Ok b.varConstId.length →
      Tri E get npi b (op x y) single (fun vs outs => ∃ a c, x.ev vs = some a ∧ y.ev vs = some c ∧ outs = [f a c])) :
    Tri E get npi b ((toVar x).andThen fun x => (toVar y).andThen fun y => (op (.var x) (.var y)).andThen fun z => uIdentity (.var z)) single
      (fun vs outs => ∃ a c, x.ev vs = some a ∧ y.ev vs = some c ∧ hintR adv E (Hints.Id.toNat .identity) [f a c] 1 outs) := by
  refine (Tri.bind (D := fun vs o1 outs => ∃ a c, o1 = [a] ∧ y.ev vs = some c ∧ hintR adv E (Hints.Id.toNat .identity) [f a c] 1 outs) hb (tri_toVar hb hx)
    (D2 := fun u vs outs => ∃ a c, vs[u]? = some a ∧ y.ev vs = some c ∧ hintR adv E (Hints.Id.toNat .identity) [f a c] 1 outs) ?_ ?_).congr ?_
  rotate_left
  · intro u ins vs extra o1 outs ha hr hd
    obtain ⟨a, h1, rfl⟩ := readAll_single hr
    rw [Arg.ev_append hy (ha.length hb), h1]
    simp
  · intro ins vs ha o
    constructor
    · rintro ⟨_, ⟨a, h1, rfl⟩, a', c, h2, h3, h4⟩
      simp only [List.cons.injEq, and_true] at h2
      subst h2
      exact ⟨a, c, h1, h3, h4⟩
    · rintro ⟨a, c, h1, h2, h3⟩
      exact ⟨[a], ⟨a, h1, rfl⟩, a, c, rfl, h2, h3⟩
  intro u b1 e1
  have hu := e1.range u (by simp [single])
  have hy := hy.mono e1.mono
  have i1 := e1.inv
  refine (Tri.bind (D := fun vs o1 outs => ∃ a c, vs[u]? = some a ∧ o1 = [c] ∧ hintR adv E (Hints.Id.toNat .identity) [f a c] 1 outs) i1 (tri_toVar i1 hy)
    (D2 := fun v vs outs => ∃ a c, vs[u]? = some a ∧ vs[v]? = some c ∧ hintR adv E (Hints.Id.toNat .identity) [f a c] 1 outs) ?_ ?_).congr ?_
  rotate_left
  · intro v ins vs extra o1 outs ha hr hd
    obtain ⟨c, h1, rfl⟩ := readAll_single hr
    have : (vs ++ extra)[u]? = vs[u]? := List.getElem?_append_left (by rw [ha.length i1]; exact hu.2)
    simp [h1, this]
  · intro ins vs ha o
    constructor
    · rintro ⟨_, ⟨c, h1, rfl⟩, a, c', h2, h3, h4⟩
      simp only [List.cons.injEq, and_true] at h3
      subst h3
      exact ⟨a, c, h2, h1, h4⟩
    · rintro ⟨a, c, h1, h2, h3⟩
      exact ⟨[c], ⟨c, h2, rfl⟩, a, c, h1, rfl, h3⟩
  intro v b2 e2
  have hu : u ≠ 0 ∧ u < b2.varConstId.length := ⟨hu.1, lt_of_lt_of_le hu.2 e2.mono⟩
  have hv := e2.range v (by simp [single])
  have i2 := e2.inv
  refine (Tri.bind (D := fun vs o1 outs => ∃ z, o1 = [z] ∧ hintR adv E (Hints.Id.toNat .identity) [z] 1 outs) i2 (hop i2 (x := .var u) (y := .var v) hu hv)
    (D2 := fun w vs outs => ∃ z, vs[w]? = some z ∧ hintR adv E (Hints.Id.toNat .identity) [z] 1 outs) ?_ ?_).congr ?_
  rotate_left
  · intro w ins vs extra o1 outs ha hr hd
    obtain ⟨z, h1, rfl⟩ := readAll_single hr
    simp [h1]
  · intro ins vs ha o
    constructor
    · rintro ⟨_, ⟨a, c, h1, h2, rfl⟩, z, h3, h4⟩
      simp only [List.cons.injEq, and_true] at h3
      subst h3
      exact ⟨a, c, h1, h2, h4⟩
    · rintro ⟨a, c, h1, h2, h3⟩
      exact ⟨[f a c], ⟨a, c, h1, h2, rfl⟩, _, rfl, h3⟩
  intro w b3 e3
  exact tri_uIdentity hH e3.inv (x := .var w) (e3.range w (by simp [single]))

theorem sem_constantLike {adv : Bool} {E : Env F} (c : Coef F) (args outs : List F) : semM adv E (.constantLike c) args outs ↔ ∃ y, Coef.Sem E c y ∧ outs = [y] := by
  cases adv <;> exact Iff.rfl

/-- Every API call implements its documentation. -/
theorem tri_call (hH : E.HintLen) {fs : Nat} {b : Builder F} (hb : Inv E get npi b) (c : Call F) (hargs : ∀ x ∈ c.args, x.Ok b.varConstId.length)
    (hok : c.Ok E get npi fs) :
    Tri E get npi b (c.run E.canon fs) id (fun vs outs => ∃ args, evArgs vs c.args = some args ∧ c.Doc E get fs args outs) := by
  cases c with
  | constant x =>
    refine (tri_one1 (tri_toVar hb (hargs x (by simp [Call.args])))).congr fun _ vs _ o => ?_
    rw [Call.args, evArgs_one]; rfl
  | add x y =>
    refine (tri_one1 (tri_add hb (hargs x (by simp [Call.args])) (hargs y (by simp [Call.args])))).congr fun _ vs _ o => ?_
    rw [Call.args, evArgs_two]; rfl
  | sub x y =>
    refine (tri_one1 (tri_sub hb (hargs x (by simp [Call.args])) (hargs y (by simp [Call.args])))).congr fun _ vs _ o => ?_
    rw [Call.args, evArgs_two]; rfl
  | neg x =>
    refine (tri_one1 (tri_neg hb (hargs x (by simp [Call.args])))).congr fun _ vs _ o => ?_
    rw [Call.args, evArgs_one]; rfl
  | mul x y =>
    refine (tri_one1 (tri_mul hb (hargs x (by simp [Call.args])) (hargs y (by simp [Call.args])))).congr fun _ vs _ o => ?_
    rw [Call.args, evArgs_two]; rfl
  | div x y k =>
    refine (tri_one1 (tri_div hb (hargs x (by simp [Call.args])) (hargs y (by simp [Call.args])) k)).congr fun _ vs _ o => ?_
    rw [Call.args, evArgs_two]; rfl
  | boolOp op x y =>
    refine (tri_one1 (tri_boolOp hb (hargs x (by simp [Call.args])) (hargs y (by simp [Call.args])) op)).congr fun _ vs _ o => ?_
    rw [Call.args, evArgs_two]; rfl
  | isZero x =>
    refine (tri_one1 (tri_isZero hb (hargs x (by simp [Call.args])))).congr fun _ vs _ o => ?_
    rw [Call.args, evArgs_one]; rfl
  | toBinary x n =>
    refine (tri_toBinary hb (hargs x (by simp [Call.args])) hok).congr fun _ vs _ o => ?_
    rw [Call.args, evArgs_one]
    refine exists_congr fun a => and_congr_right fun _ => ?_
    cases adv with
    | false =>
      simp only [Call.Doc, bitsR, toBinary_iff, bitsOf_testBit, List.map_map]
      exact Iff.rfl
    | true => exact Iff.rfl
  | assertCon t x =>
    refine Tri.map (r1 := fun _ => []) ((tri_assertCon hb (hargs x (by simp [Call.args])) t).congr fun _ vs _ o => ?_) (fun _ => rfl)
    rw [Call.args, evArgs_one]
    cases t <;> simp [Call.Doc, Source.Con.verify, and_comm]
  | random =>
    refine (tri_one1 (tri_emit1 hb (i := .constantLike .random) (by intro t ht; simp [Source.Insn.inputs] at ht) (valid_other fun _ => rfl) rfl ?_)).congr ?_
    · intro vs outs h
      obtain ⟨args, _, h⟩ := (step_prim rfl).1 h
      obtain ⟨y, _, h2⟩ := (sem_constantLike _ _ _).1 h
      rw [h2]; rfl
    · intro _ vs _ o
      rw [step_prim rfl]
      simp only [Call.args, evArgs, mapOpt, Option.some.injEq, exists_eq_left', Call.Doc]
      constructor
      · rintro ⟨args, _, h⟩
        obtain ⟨y, _, h2⟩ := (sem_constantLike _ _ _).1 h
        rw [h2]; rfl
      · intro h
        rw [List.length_eq_one_iff] at h
        obtain ⟨y, rfl⟩ := h
        exact ⟨[], rfl, (sem_constantLike _ _ _).2 ⟨y, trivial, rfl⟩⟩
  | pub i =>
    refine (tri_one1 (tri_emit1 hb (i := .constantLike (.pub i)) (by intro t ht; simp [Source.Insn.inputs] at ht) ?_ rfl ?_)).congr ?_
    · cases npi with
      | none => rfl
      | some n => simp [validAt, Source.Insn.valid, Coef.valid, hok n rfl]
    · intro vs outs h
      obtain ⟨args, _, h⟩ := (step_prim rfl).1 h
      obtain ⟨y, _, h2⟩ := (sem_constantLike _ _ _).1 h
      rw [h2]; rfl
    · intro _ vs _ o
      rw [step_prim rfl]
      simp only [Call.args, evArgs, mapOpt, Option.some.injEq, exists_eq_left', Call.Doc]
      constructor
      · rintro ⟨args, _, h⟩
        obtain ⟨y, h1, h2⟩ := (sem_constantLike _ _ _).1 h
        simp only [Coef.Sem] at h1
        rw [h2, h1]
      · rintro rfl
        exact ⟨[], rfl, (sem_constantLike _ _ _).2 ⟨_, rfl, rfl⟩⟩
  | hint hid xs n =>
    have hxs : ∀ t ∈ xs, t ≠ 0 ∧ t < b.varConstId.length := fun t ht => hargs (.var t) (by simp only [Call.args, List.mem_map]; exact ⟨t, ht, rfl⟩)
    have h0 : ¬ (0 ∈ xs) := fun h => (hxs 0 h).1 rfl
    have hst : ∀ vs outs, Step E get (.hint hid xs n) vs outs ↔ ∃ args, readAll vs xs = some args ∧ hintR adv E hid args n outs := by
      intro vs outs
      rw [step_prim rfl]
      constructor
      · rintro ⟨args, h1, h2⟩
        have e : mapOpt (fun v => vs[v]?) xs = some args := h1
        rw [mapOpt_readAll] at e
        exact ⟨args, e, by cases adv <;> exact h2⟩
      · rintro ⟨args, h1, h2⟩
        refine ⟨args, ?_, by cases adv <;> exact h2⟩
        show mapOpt (fun v => vs[v]?) xs = some args
        rw [mapOpt_readAll]; exact h1
    have htri : Tri E get npi b (emit (.hint hid xs n) n) id (fun vs outs => ∃ args, readAll vs xs = some args ∧ hintR adv E hid args n outs) := by
      refine (tri_emit hb (i := .hint hid xs n) hxs ?_ rfl ?_).congr fun _ vs _ o => hst vs o
      · cases npi with
        | none => rfl
        | some m =>
          rcases hok with h | ⟨h1, h2⟩
          · simp at h
          · have : xs.isEmpty = false := by cases xs with
              | nil => exact absurd rfl h2
              | cons _ _ => rfl
            simp [validAt, Source.Insn.valid, h1, this]
      · intro vs outs h
        obtain ⟨args, _, h2⟩ := (hst vs outs).1 h
        exact hintR_length hH h2
    have e : newHint (F := F) hid xs n b = emit (.hint hid xs n) n b := by
      simp [newHint, ensureValid, M.andThen, h0]
    refine Tri.congr (D := fun vs outs => ∃ args, readAll vs xs = some args ∧ hintR adv E hid args n outs) ?_ ?_
    · constructor
      · intro a b' h
        simp only [Call.run, e] at h
        exact htri.ext a b' h
      · intro hf h
        simp only [Call.run, e] at h
        exact htri.panics hf h
    · intro _ vs _ o
      rw [Call.args, evArgs_vars]
      rfl
  | gt x y =>
    obtain ⟨n, hn, hm⟩ := hok
    refine (tri_one1 (tri_gt hb (hargs x (by simp [Call.args])) (hargs y (by simp [Call.args])) hn hm)).congr fun _ vs _ o => ?_
    rw [Call.args, evArgs_two]
    refine exists_congr fun a => exists_congr fun c => and_congr_right fun _ => and_congr_right fun _ => ?_
    cases adv with
    | false => simp [Call.Doc, gtR, geqR, rep_honest hm, ofBool_ite]
    | true =>
      simp only [Call.Doc, gtR, geqR, Rep, if_true, ofBool_ite]
      constructor
      · rintro ⟨X, Y, ⟨h1, h2, _⟩, ⟨h3, h4, _⟩, h5⟩
        exact ⟨n, X, Y, hn, h1, h3, h2, h4, h5⟩
      · rintro ⟨m, X, Y, hm', h1, h3, h2, h4, h5⟩
        rw [hn] at hm'
        simp only [Option.some.injEq] at hm'
        subst hm'
        exact ⟨X, Y, ⟨h1, h2, by simp⟩, ⟨h3, h4, by simp⟩, h5⟩
  | geq x y =>
    obtain ⟨n, hn, hm⟩ := hok
    refine (tri_one1 (tri_geq hb (hargs x (by simp [Call.args])) (hargs y (by simp [Call.args])) hn hm)).congr fun _ vs _ o => ?_
    rw [Call.args, evArgs_two]
    refine exists_congr fun a => exists_congr fun c => and_congr_right fun _ => and_congr_right fun _ => ?_
    cases adv with
    | false => simp [Call.Doc, gtR, geqR, rep_honest hm, ofBool_ite]
    | true =>
      simp only [Call.Doc, gtR, geqR, Rep, if_true, ofBool_ite]
      constructor
      · rintro ⟨X, Y, ⟨h1, h2, _⟩, ⟨h3, h4, _⟩, h5⟩
        exact ⟨n, X, Y, hn, h1, h3, h2, h4, h5⟩
      · rintro ⟨m, X, Y, hm', h1, h3, h2, h4, h5⟩
        rw [hn] at hm'
        simp only [Option.some.injEq] at hm'
        subst hm'
        exact ⟨X, Y, ⟨h1, h2, by simp⟩, ⟨h3, h4, by simp⟩, h5⟩
  | uOp op x y =>
    refine (tri_one1 (tri_two (mk := fun u v => .unconstrainedBinOp u v op) (G := fun a c outs => if adv then outs.length = 1 else ∃ z, op.eval E.canon a c = some z ∧ outs = [z]) hb
      (hargs x (by simp [Call.args])) (hargs y (by simp [Call.args])) (fun _ _ => valid_other fun _ => rfl) (fun _ _ => rfl) (fun _ _ => rfl) (fun _ _ => rfl)
      (fun _ _ _ _ _ => by cases adv <;> exact Iff.rfl) ?_)).congr fun _ vs _ o => ?_
    · intro a c outs h
      cases adv with
      | true => exact h
      | false =>
        obtain ⟨z, _, rfl⟩ : ∃ z, op.eval E.canon a c = some z ∧ outs = [z] := h
        rfl
    · rw [Call.args, evArgs_two]; rfl
  | uIdentity x =>
    refine (tri_one1 (tri_uIdentity hH hb (hargs x (by simp [Call.args])))).congr fun _ vs _ o => ?_
    rw [Call.args, evArgs_one]; rfl
  | uAdd x y =>
    refine (tri_one1 (tri_uArith hH hb (hargs x (by simp [Call.args])) (hargs y (by simp [Call.args])) (op := add) (f := fun a c => a + c) tri_add)).congr fun _ vs _ o => ?_
    rw [Call.args, evArgs_two]; rfl
  | uMul x y =>
    refine (tri_one1 (tri_uArith hH hb (hargs x (by simp [Call.args])) (hargs y (by simp [Call.args])) (op := mul) (f := fun a c => a * c) tri_mul)).congr fun _ vs _ o => ?_
    rw [Call.args, evArgs_two]; rfl
  | call c xs n =>
    have hxs : ∀ t ∈ xs, t ≠ 0 ∧ t < b.varConstId.length := fun t ht => hargs (.var t) (by simp only [Call.args, List.mem_map]; exact ⟨t, ht, rfl⟩)
    have hst : ∀ vs outs, Step E get (.call c xs n) vs outs ↔ ∃ args, readAll vs xs = some args ∧ ∃ circ, get c = some circ ∧ EvalSub get circ args outs true := by
      intro vs outs
      unfold Step
      rw [run_call_iff (L := srcM adv E) (c := c) (a := xs) (n := n) rfl]
      constructor
      · rintro ⟨circ, args, res, sb, b', h1, h2, h3, h4, h5⟩
        obtain ⟨rfl, rfl⟩ : sb = true ∧ b' = true := by simpa using h5.symm
        have := (run_nil_iff.1 h4).1
        rw [List.append_cancel_left_eq] at this
        rw [this]
        exact ⟨args, h2, circ, h1, h3⟩
      · rintro ⟨args, h2, circ, h1, h3⟩
        exact ⟨circ, args, outs, true, true, h1, h2, h3, run_nil_iff.2 ⟨rfl, rfl⟩, rfl⟩
    refine (tri_emit hb (i := .call c xs n) hxs (valid_other fun _ => rfl) rfl ?_).congr fun _ vs _ o => ?_
    · intro vs outs h
      obtain ⟨args, _, circ, h1, h2⟩ := (hst vs outs).1 h
      rw [h2.length]
      exact hok circ h1
    · rw [hst, Call.args, evArgs_vars]
      rfl

/-! ### Sequences of calls -/

/-- Every call uses only variables that are inputs or were returned earlier, and meets its side conditions. -/
def Uses {adv : Bool} (E : Env F) (get : Nat → Option (Circuit (srcM adv E))) (npi : Option Nat) (fs : Nat) : List Nat → List (Call F × List Nat) → Prop
  | _, [] => True
  | avail, (c, rets) :: log => (∀ v, Arg.var v ∈ c.args → v ∈ avail) ∧ c.Ok E get npi fs ∧ Uses E get npi fs (avail ++ rets) log

/-- The variables available after a log. -/
def available (avail : List Nat) (log : List (Call F × List Nat)) : List Nat := avail ++ log.flatMap (·.2)

/-- A vector agrees with an assignment on given variables. -/
def Agrees (vs : List F) (val : Nat → F) (l : List Nat) : Prop := ∀ v ∈ l, vs[v]? = some (val v)

theorem agrees_args {vs : List F} {val : Nat → F} {avail : List Nat} (h : Agrees vs val avail) : ∀ {l : List (Arg F)}, (∀ v, Arg.var v ∈ l → v ∈ avail) →
    evArgs vs l = some (l.map (Arg.eval val)) := by
  intro l
  induction l with
  | nil => intro _; rfl
  | cons x l ih =>
    intro hl
    have h1 : x.ev vs = some (x.eval val) := by
      cases x with
      | var v => exact h v (hl v (by simp))
      | val a => rfl
    have h2 := ih (fun v hv => hl v (List.mem_cons_of_mem _ hv))
    simp only [evArgs] at h2
    simp only [evArgs, mapOpt, h1, h2, List.map_cons]

theorem agrees_read {vs : List F} {val : Nat → F} : ∀ {l : List Nat}, Agrees vs val l ↔ readAll vs l = some (l.map val) := by
  intro l
  induction l with
  | nil => simp [Agrees, readAll]
  | cons v l ih =>
    have : Agrees vs val (v :: l) ↔ vs[v]? = some (val v) ∧ Agrees vs val l := by simp [Agrees]
    rw [this, ih]
    simp only [readAll, List.map_cons]
    cases vs[v]? with
    | none => simp
    | some a =>
      cases readAll vs l with
      | none => simp
      | some m => simp

theorem Agrees.extend {vs extra : List F} {val : Nat → F} {l : List Nat} (h : Agrees vs val l) : Agrees (vs ++ extra) val l :=
  fun v hv => HintExport.getElem?_app_some (h v hv)

/-- The fundamental theorem: which values the variables returned by a sequence of calls can take. -/
theorem runCalls_spec (hH : E.HintLen) {fs : Nat} : ∀ (cs : List (Call F)) {b b' : Builder F} {log : List (Call F × List Nat)} {avail : List Nat},
    Inv E get npi b → runCalls E.canon fs cs b = some (log, b') → (∀ v ∈ avail, v ≠ 0 ∧ v < b.varConstId.length) → Uses E get npi fs avail log →
    Inv E get npi b' ∧ b'.numInputs = b.numInputs ∧ (∀ v ∈ available avail log, v ≠ 0 ∧ v < b'.varConstId.length) ∧
    (∀ ins val, ((∃ vs, Acc E get b' ins vs ∧ Agrees vs val (available avail log)) →
      (∃ vs, Acc E get b ins vs ∧ Agrees vs val avail) ∧ ∀ e ∈ log, e.1.Doc E get fs (e.1.args.map (Arg.eval val)) (e.2.map val)) ∧
      (adv = false → ((∃ vs, Acc E get b ins vs ∧ Agrees vs val avail) ∧ ∀ e ∈ log, e.1.Doc E get fs (e.1.args.map (Arg.eval val)) (e.2.map val)) →
      ∃ vs, Acc E get b' ins vs ∧ Agrees vs val (available avail log))) := by
  intro cs
  induction cs with
  | nil =>
    intro b b' log avail hb h hav hu
    simp only [runCalls, M.ret, Option.some.injEq, Prod.mk.injEq] at h
    obtain ⟨rfl, rfl⟩ := h
    refine ⟨hb, rfl, by simpa [available] using hav, ?_⟩
    intro ins val
    simp [available]
  | cons c cs ih =>
    intro b b' log avail hb h hav hu
    simp only [runCalls, M.andThen] at h
    cases hc : c.run E.canon fs b with
    | none => rw [hc] at h; simp at h
    | some p =>
      obtain ⟨rets, b1⟩ := p
      rw [hc] at h
      simp only at h
      cases hr : runCalls E.canon fs cs b1 with
      | none => rw [hr] at h; simp at h
      | some q =>
        obtain ⟨l, b2⟩ := q
        rw [hr] at h
        simp only [M.ret, Option.some.injEq, Prod.mk.injEq] at h
        obtain ⟨rfl, rfl⟩ := h
        obtain ⟨hu1, hu2, hu3⟩ := hu
        have hargs : ∀ x ∈ c.args, x.Ok b.varConstId.length := by
          intro x hx
          cases x with
          | var v => exact hav v (hu1 v hx)
          | val _ => trivial
        have e1 := (tri_call hH hb c hargs hu2).ext rets b1 hc
        have hav1 : ∀ v ∈ avail ++ rets, v ≠ 0 ∧ v < b1.varConstId.length := by
          intro v hv
          rcases List.mem_append.1 hv with hv | hv
          · exact ⟨(hav v hv).1, lt_of_lt_of_le (hav v hv).2 e1.mono⟩
          · exact e1.range v hv
        obtain ⟨h1, h2, h3, h4⟩ := ih e1.inv hr hav1 hu3
        have eav : available avail ((c, rets) :: l) = available (avail ++ rets) l := by simp [available]
        refine ⟨h1, h2.trans e1.inputs, by rw [eav]; exact h3, ?_⟩
        intro ins val
        rw [eav]
        simp only [List.forall_mem_cons]
        constructor
        · intro h
          obtain ⟨⟨vs1, ha1, hag⟩, hrest⟩ := (h4 ins val).1 h
          obtain ⟨vs, extra, outs, rfl, ha, hrd, args, hev, hdoc⟩ := e1.sound ins vs1 ha1
          have hag0 : Agrees vs val avail := by
            intro v hv
            have := hag v (List.mem_append_left _ hv)
            rwa [List.getElem?_append_left (by rw [ha.length hb]; exact (hav v hv).2)] at this
          have hagr : Agrees (vs ++ extra) val rets := fun v hv => hag v (List.mem_append_right _ hv)
          refine ⟨⟨vs, ha, hag0⟩, ?_, hrest⟩
          rw [agrees_args hag0 hu1] at hev
          simp only [Option.some.injEq] at hev
          have : readAll (vs ++ extra) rets = some outs := hrd
          rw [agrees_read.1 hagr] at this
          simp only [Option.some.injEq] at this
          rw [hev, this]; exact hdoc
        · rintro hf ⟨⟨vs, ha, hag0⟩, hdoc, hrest⟩
          obtain ⟨extra, ha1, hrd⟩ := e1.complete hf ins vs _ ha ⟨_, agrees_args hag0 hu1, hdoc⟩
          refine (h4 ins val).2 hf ⟨⟨vs ++ extra, ha1, ?_⟩, hrest⟩
          intro v hv
          rcases List.mem_append.1 hv with hv | hv
          · exact hag0.extend v hv
          · exact agrees_read.2 hrd v hv

end Verif.Frontend
