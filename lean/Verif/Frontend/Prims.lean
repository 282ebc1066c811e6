import Verif.Frontend.Hoare

/-!
# Frontend builder: the primitive operations satisfy their specification
-/
set_option linter.unusedSectionVars false
set_option linter.unusedSimpArgs false
namespace Verif.Frontend
open Verif.IR Verif.IR.Chains

variable {F : Type} [Field F] [DecidableEq F] {adv : Bool} {E : Env F} {get : Nat → Option (Circuit (srcM adv E))} {npi : Option Nat}

/-- The value of an argument. -/
def Arg.ev (vs : List F) : Arg F → Option F
  | .var v => vs[v]?
  | .val x => some x

/-- A variable argument is one that exists. -/
def Arg.Ok (n : Nat) : Arg F → Prop
  | .var v => v ≠ 0 ∧ v < n
  | .val _ => True

theorem Arg.Ok.mono {n m : Nat} {x : Arg F} (h : x.Ok n) (hm : n ≤ m) : x.Ok m := by
  cases x with
  | var v => exact ⟨h.1, lt_of_lt_of_le h.2 hm⟩
  | val _ => trivial

theorem Acc.length {b : Builder F} (hb : Inv E get npi b) {ins vs : List F} (h : Acc E get b ins vs) : vs.length = b.varConstId.length := hb.vlen ins vs h.1 h.2.1

theorem Arg.ev_append {n : Nat} {x : Arg F} (h : x.Ok n) {vs extra : List F} (hl : vs.length = n) : x.ev (vs ++ extra) = x.ev vs := by
  cases x with
  | var v => exact List.getElem?_append_left (by rw [hl]; exact h.2)
  | val _ => rfl

theorem Arg.ev_some {n : Nat} {x : Arg F} (h : x.Ok n) {vs : List F} (hl : vs.length = n) : ∃ a, x.ev vs = some a := by
  cases x with
  | var v => exact ⟨_, List.getElem?_eq_getElem (by rw [hl]; exact h.2)⟩
  | val a => exact ⟨a, rfl⟩

/-- Appending one instruction. -/
theorem ext_emit {b b' : Builder F} {i : Source.Insn F} {k : Nat} {ids : List Nat} {cs : List F} (hb : Inv E get npi b)
    (hi : b'.instructions = b.instructions ++ [i]) (hc : b'.constraints = b.constraints) (hn : b'.numInputs = b.numInputs)
    (hids : b'.varConstId = b.varConstId ++ ids) (hcs : b'.constValues = b.constValues ++ cs) (hkl : ids.length = k)
    (hin : ∀ t ∈ i.inputs, t ≠ 0 ∧ t < b.varConstId.length) (hval : validAt (srcM adv E) npi i = true) (hk : i.numOutputs = k)
    (hlen : ∀ vs outs, Step E get i vs outs → outs.length = k)
    (hcst : ∀ j t : Nat, ids[j]? = some (t + 1) → ∃ c, b'.constValues[t + 1]? = some c ∧ ∀ vs outs : List F, Step E get i vs outs → outs[j]? = some c) :
    Ext E get npi b b' ((List.range k).map (b.varConstId.length + ·)) (Step E get i) := by
  have hacc : ∀ ins vs', Acc E get b' ins vs' ↔ ∃ vs outs, vs' = vs ++ outs ∧ Acc E get b ins vs ∧ Step E get i vs outs := fun ins vs' =>
    acc_append hi hc hn (fun k hk => (hb.cons k hk).2) hb.vlen
  have hpos : 0 < b.varConstId.length := by rw [hb.len]; omega
  refine ⟨⟨?_, ?_, ?_, ?_, ?_, ?_⟩, ?_, hn, ?_, ?_, ?_⟩
  · rw [hi, hn, insnsOk_append]
    refine ⟨hb.insns, ?_, hval, Or.inl rfl, trivial⟩
    intro t ht
    have h1 := hin t ht
    have h2 := hb.len
    exact ⟨by omega, h1.1⟩
  · rw [hids, hi, hn, List.length_append, numVars_append, hb.len, hkl]
    have : numVars (L := srcM adv E) (numVars (L := srcM adv E) b.numInputs b.instructions) [i] = numVars (L := srcM adv E) b.numInputs b.instructions + i.numOutputs := rfl
    rw [this, hk]; omega
  · intro k hk
    rw [hc] at hk
    have := hb.cons k hk
    rw [hids, List.length_append]
    exact ⟨this.1, by omega⟩
  · intro ins vs h1 h2
    rw [hi] at h2
    rw [hn] at h1
    obtain ⟨ws, b1, b2, h3, h4, h5⟩ := (run_append_iff (L := srcM adv E)).1 h2
    obtain ⟨rfl, rfl⟩ : b1 = true ∧ b2 = true := by simpa using h5.symm
    obtain ⟨t, rfl⟩ := h4.prefix
    rw [hids, List.length_append, List.length_append, hb.vlen ins ws h1 h3, hlen ws t h4, hkl]
  · rw [hcs, List.length_append]
    have := hb.pos
    omega
  · intro v t hv
    rw [hids] at hv
    rcases Nat.lt_or_ge v b.varConstId.length with hlt | hge
    · rw [List.getElem?_append_left hlt] at hv
      obtain ⟨c, h1, h2⟩ := hb.const v t hv
      refine ⟨c, by rw [hcs]; exact HintExport.getElem?_app_some h1, ?_⟩
      intro ins vs' ha
      obtain ⟨vs, outs, rfl, ha0, _⟩ := (hacc ins vs').1 ha
      exact HintExport.getElem?_app_some (h2 ins vs ha0)
    · rw [List.getElem?_append_right hge] at hv
      obtain ⟨c, h1, h2⟩ := hcst _ t hv
      refine ⟨c, h1, ?_⟩
      intro ins vs' ha
      obtain ⟨vs, outs, rfl, ha0, hs⟩ := (hacc ins vs').1 ha
      have hl := ha0.length hb
      rw [List.getElem?_append_right (by omega), hl]
      exact h2 vs outs hs
  · rw [hids, List.length_append]; omega
  · intro r hr
    obtain ⟨j, hj, rfl⟩ := List.mem_map.1 hr
    rw [List.mem_range] at hj
    rw [hids, List.length_append, hkl]
    exact ⟨by omega, by omega⟩
  · intro ins vs' ha
    obtain ⟨vs, outs, rfl, ha0, hs⟩ := (hacc ins vs').1 ha
    refine ⟨vs, outs, outs, rfl, ha0, ?_, hs⟩
    rw [← ha0.length hb, ← hlen vs outs hs]
    exact readAll_block vs outs
  · intro _ ins vs outs ha hs
    refine ⟨outs, (hacc ins _).2 ⟨vs, outs, rfl, ha, hs⟩, ?_⟩
    rw [← ha.length hb, ← hlen vs outs hs]
    exact readAll_block vs outs

theorem tri_emit {b : Builder F} (hb : Inv E get npi b) {i : Source.Insn F} {k : Nat} (hin : ∀ t ∈ i.inputs, t ≠ 0 ∧ t < b.varConstId.length)
    (hval : validAt (srcM adv E) npi i = true) (hk : i.numOutputs = k) (hlen : ∀ vs outs, Step E get i vs outs → outs.length = k) :
    Tri E get npi b (emit i k) id (Step E get i) := by
  constructor
  · intro a b' h
    simp only [emit, Option.some.injEq, Prod.mk.injEq] at h
    obtain ⟨rfl, rfl⟩ := h
    refine ext_emit (ids := List.replicate k 0) (cs := []) hb rfl rfl rfl rfl (by simp) (by simp) hin hval hk hlen ?_
    intro j t h
    rw [List.getElem?_replicate] at h
    split at h <;> simp at h
  · intro _ h; simp [emit] at h

/-- The returned variable as a list. -/
def single (v : Nat) : List Nat := [v]

theorem tri_emit1 {b : Builder F} (hb : Inv E get npi b) {i : Source.Insn F} (hin : ∀ t ∈ i.inputs, t ≠ 0 ∧ t < b.varConstId.length)
    (hval : validAt (srcM adv E) npi i = true) (hk : i.numOutputs = 1) (hlen : ∀ vs outs, Step E get i vs outs → outs.length = 1) :
    Tri E get npi b (emit1 i) single (Step E get i) := by
  constructor
  · intro a b' h
    simp only [emit1, Option.some.injEq, Prod.mk.injEq] at h
    obtain ⟨rfl, rfl⟩ := h
    have := ext_emit (b' := { b with instructions := b.instructions ++ [i], varConstId := b.varConstId ++ [0] }) (ids := [0]) (cs := []) hb rfl rfl rfl rfl
      (by simp) rfl hin hval hk hlen (by
        intro j t h
        rcases j with _ | j <;> simp at h)
    simpa [single] using this
  · intro _ h; simp [emit1] at h

theorem step_const {x : F} {vs outs : List F} : Step E get (.constantLike (.const x)) vs outs ↔ outs = [x] := by
  rw [step_prim rfl]
  constructor
  · rintro ⟨args, _, h⟩
    have : ∃ y, Coef.Sem E (.const x) y ∧ outs = [y] := by cases adv <;> exact h
    obtain ⟨y, h1, h2⟩ := this
    simp only [Coef.Sem] at h1
    rw [h2, h1]
  · rintro rfl
    refine ⟨[], rfl, ?_⟩
    cases adv <;> exact ⟨x, rfl, rfl⟩

theorem valid_const {x : F} : validAt (srcM adv E) npi (.constantLike (.const x)) = true := by
  cases npi <;> rfl

theorem tri_const {b : Builder F} (hb : Inv E get npi b) (x : F) : Tri E get npi b (constant (.val x)) single (fun _ outs => outs = [x]) := by
  constructor
  · intro a b' h
    simp only [constant, toVar, Option.some.injEq, Prod.mk.injEq] at h
    obtain ⟨rfl, rfl⟩ := h
    have := ext_emit (i := .constantLike (.const x)) (b' := ⟨b.instructions ++ [.constantLike (.const x)], b.constraints, b.varConstId ++ [b.constValues.length], b.constValues ++ [x], b.numInputs⟩) (ids := [b.constValues.length]) (cs := [x]) (k := 1)
      hb rfl rfl rfl rfl rfl rfl (by intro t ht; simp [Source.Insn.inputs] at ht) valid_const rfl
      (by intro vs outs h; rw [step_const.1 h]; rfl) (by
        intro j t h
        rcases j with _ | j
        · simp only [List.getElem?_cons_zero, Option.some.injEq] at h
          refine ⟨x, ?_, ?_⟩
          · simp only []
            rw [← h, List.getElem?_append_right (le_refl _)]
            simp
          · intro vs outs hs
            rw [step_const.1 hs]; rfl
        · simp at h)
    have := this.congr (D' := fun _ outs => outs = [x]) (fun _ _ _ _ => step_const)
    simpa [single] using this
  · intro _ h; simp [constant, toVar] at h

theorem tri_toVar {b : Builder F} (hb : Inv E get npi b) {x : Arg F} (hx : x.Ok b.varConstId.length) :
    Tri E get npi b (toVar x) single (fun vs outs => ∃ a, x.ev vs = some a ∧ outs = [a]) := by
  cases x with
  | val a =>
    refine (tri_const hb a).congr ?_
    intro _ vs _ o
    simp [Arg.ev]
  | var v =>
    constructor
    · intro a b' h
      simp only [toVar, hx.1, if_false, Option.some.injEq, Prod.mk.injEq] at h
      obtain ⟨rfl, rfl⟩ := h
      refine Ext.of_eq hb (by intro r hr; simp only [single, List.mem_singleton] at hr; subst hr; exact hx) ?_
      intro ins vs ha
      have hl := ha.length hb
      obtain ⟨c, hc⟩ := Arg.ev_some hx hl
      refine ⟨[c], ?_, ?_⟩
      · simp only [Arg.ev] at hc
        simp [single, readAll, hc]
      · intro o
        rw [hc]
        simp
    · intro _ h; simp [toVar, hx.1] at h

/-- What `constant_value` knows is true in every accepted vector. -/
theorem constantValue_spec {b : Builder F} (hb : Inv E get npi b) {x : Arg F} (hx : x.Ok b.varConstId.length) :
    ∃ xc, constantValue x b = some (xc, b) ∧ ∀ c, xc = some c → ∀ ins vs, Acc E get b ins vs → x.ev vs = some c := by
  cases x with
  | val a =>
    refine ⟨some a, rfl, ?_⟩
    rintro c h ins vs _
    simp only [Option.some.injEq] at h
    subst h; rfl
  | var v =>
    obtain ⟨t, ht⟩ : ∃ t, b.varConstId[v]? = some t := ⟨_, List.getElem?_eq_getElem hx.2⟩
    cases t with
    | zero => exact ⟨none, by simp [constantValue, hx.1, ht], by intro c h; simp at h⟩
    | succ t =>
      obtain ⟨c, h1, h2⟩ := hb.const v t ht
      refine ⟨some c, by simp [constantValue, hx.1, ht, h1], ?_⟩
      intro c' h
      simp only [Option.some.injEq] at h
      subst h; exact h2

theorem tri_panic {α : Type} {b : Builder F} {rets : α → List Nat} {D : List F → List F → Prop} (h : ∀ ins vs, Acc E get b ins vs → ∀ o, ¬ D vs o) :
    Tri E get npi b (M.panic : M F α) rets D :=
  ⟨fun a b' h => by simp [M.panic] at h, fun _ _ ins vs outs ha hd => h ins vs ha outs hd⟩

theorem tri_panic' {α : Type} {b : Builder F} {rets : α → List Nat} {D : List F → List F → Prop} (h : adv = false → ∀ ins vs, Acc E get b ins vs → ∀ o, ¬ D vs o) :
    Tri E get npi b (M.panic : M F α) rets D :=
  ⟨fun a b' h => by simp [M.panic] at h, fun hf _ ins vs outs ha hd => h hf ins vs ha outs hd⟩

/-- Using `constant_value`: consider both answers. -/
theorem tri_constantValue {α : Type} {b : Builder F} (hb : Inv E get npi b) {x : Arg F} (hx : x.Ok b.varConstId.length) {k : Option F → M F α}
    {rets : α → List Nat} {D : List F → List F → Prop}
    (h : ∀ xc, (∀ c, xc = some c → ∀ ins vs, Acc E get b ins vs → x.ev vs = some c) → Tri E get npi b (k xc) rets D) :
    Tri E get npi b ((constantValue x).andThen k) rets D := by
  obtain ⟨xc, h1, h2⟩ := constantValue_spec hb hx
  have h3 := h xc h2
  constructor
  · intro a b' hm
    simp only [M.andThen, h1] at hm
    exact h3.ext a b' hm
  · intro hf hm
    simp only [M.andThen, h1] at hm
    exact h3.panics hf hm

theorem readAll_single {vs : List F} {v : Nat} {o : List F} (h : readAll vs (single v) = some o) : ∃ a, vs[v]? = some a ∧ o = [a] := by
  simp only [single, readAll] at h
  cases h1 : vs[v]? with
  | none => rw [h1] at h; simp at h
  | some a => rw [h1] at h; simp only [Option.some.injEq] at h; exact ⟨a, rfl, h.symm⟩

/-- Two arguments converted, then a one-output instruction. -/
theorem tri_two {b : Builder F} (hb : Inv E get npi b) {x y : Arg F} (hx : x.Ok b.varConstId.length) (hy : y.Ok b.varConstId.length)
    {mk : Nat → Nat → Source.Insn F} {G : F → F → List F → Prop} (hval : ∀ u v, validAt (srcM adv E) npi (mk u v) = true) (hin : ∀ u v, (mk u v).inputs = [u, v])
    (hc : ∀ u v, (mk u v).asCall = none) (hk : ∀ u v, (mk u v).numOutputs = 1)
    (hG : ∀ u v a c outs, semM adv E (mk u v) [a, c] outs ↔ G a c outs) (hlen : ∀ a c outs, G a c outs → outs.length = 1) :
    Tri E get npi b ((toVar x).andThen fun u => (toVar y).andThen fun v => emit1 (mk u v)) single
      (fun vs outs => ∃ a c, x.ev vs = some a ∧ y.ev vs = some c ∧ G a c outs) := by
  have hst : ∀ u v vs outs, Step E get (mk u v) vs outs ↔ ∃ a c, vs[u]? = some a ∧ vs[v]? = some c ∧ G a c outs := by
    intro u v vs outs
    rw [step_prim (hc u v)]
    constructor
    · rintro ⟨args, h1, h2⟩
      rw [hin] at h1
      simp only [mapOpt] at h1
      cases ha : vs[u]? with
      | none => rw [ha] at h1; simp at h1
      | some a =>
        cases hc : vs[v]? with
        | none => rw [ha, hc] at h1; simp at h1
        | some c =>
          rw [ha, hc] at h1
          simp only [Option.some.injEq] at h1
          subst h1
          exact ⟨a, c, rfl, rfl, (hG u v a c outs).1 h2⟩
    · rintro ⟨a, c, ha, hc, hg⟩
      refine ⟨[a, c], ?_, (hG u v a c outs).2 hg⟩
      rw [hin]
      simp [mapOpt, ha, hc]
  refine (Tri.bind (r1 := single) (D := fun vs o1 outs => ∃ a c, o1 = [a] ∧ y.ev vs = some c ∧ G a c outs) hb (tri_toVar hb hx)
    (D2 := fun u vs outs => ∃ a c, vs[u]? = some a ∧ y.ev vs = some c ∧ G a c outs) ?_ ?_).congr ?_
  · intro u b1 e1
    have hy1 := hy.mono e1.mono
    have hu := e1.range u (by simp [single])
    refine (Tri.bind (r1 := single) (D := fun vs o1 outs => ∃ a c, vs[u]? = some a ∧ o1 = [c] ∧ G a c outs) e1.inv (tri_toVar e1.inv hy1)
      (D2 := fun v vs outs => Step E get (mk u v) vs outs) ?_ ?_).congr ?_
    · intro v b2 e2
      have hv := e2.range v (by simp [single])
      refine tri_emit1 e2.inv ?_ (hval u v) (hk u v) ?_
      · intro t ht
        rw [hin] at ht
        simp only [List.mem_cons, List.not_mem_nil, or_false] at ht
        rcases ht with rfl | rfl
        · exact ⟨hu.1, lt_of_lt_of_le hu.2 e2.mono⟩
        · exact hv
      · intro vs outs h
        obtain ⟨a, c, _, _, hg⟩ := (hst u v vs outs).1 h
        exact hlen a c outs hg
    · intro v ins vs extra o1 outs ha hr hd
      obtain ⟨c, hc1, rfl⟩ := readAll_single hr
      rw [hst]
      have hl := ha.length e1.inv
      have e : (vs ++ extra)[u]? = vs[u]? := List.getElem?_append_left (by rw [hl]; exact hu.2)
      rw [e, hc1]
      constructor
      · rintro ⟨a, c', h1, h2, h3⟩
        simp only [Option.some.injEq] at h2
        subst h2
        exact ⟨a, c, h1, rfl, h3⟩
      · rintro ⟨a, c', h1, h2, h3⟩
        simp only [List.cons.injEq, and_true] at h2
        subst h2
        exact ⟨a, c, h1, rfl, h3⟩
    · intro ins vs ha o
      constructor
      · rintro ⟨o1, ⟨c, h1, rfl⟩, a, c', h2, h3, h4⟩
        simp only [List.cons.injEq, and_true] at h3
        subst h3
        exact ⟨a, c, h2, h1, h4⟩
      · rintro ⟨a, c, h1, h2, h3⟩
        exact ⟨[c], ⟨c, h2, rfl⟩, a, c, h1, rfl, h3⟩
  · intro u ins vs extra o1 outs ha hr hd
    obtain ⟨a, ha1, rfl⟩ := readAll_single hr
    rw [Arg.ev_append hy (ha.length hb), ha1]
    constructor
    · rintro ⟨a', c, h1, h2, h3⟩
      simp only [Option.some.injEq] at h1
      subst h1
      exact ⟨a, c, rfl, h2, h3⟩
    · rintro ⟨a', c, h1, h2, h3⟩
      simp only [List.cons.injEq, and_true] at h1
      subst h1
      exact ⟨a, c, rfl, h2, h3⟩
  · intro ins vs ha o
    constructor
    · rintro ⟨o1, ⟨a, h1, rfl⟩, a', c, h2, h3, h4⟩
      simp only [List.cons.injEq, and_true] at h2
      subst h2
      exact ⟨a, c, h1, h3, h4⟩
    · rintro ⟨a, c, h1, h2, h3⟩
      exact ⟨[a], ⟨a, h1, rfl⟩, a, c, rfl, h2, h3⟩

/-- One argument converted, then one instruction. -/
theorem tri_one {α : Type} {b : Builder F} (hb : Inv E get npi b) {x : Arg F} (hx : x.Ok b.varConstId.length) {k : Nat → M F α} {rets : α → List Nat}
    {G : F → List F → Prop}
    (hk : ∀ u b1, Inv E get npi b1 → b.varConstId.length ≤ b1.varConstId.length → u ≠ 0 → u < b1.varConstId.length →
      Tri E get npi b1 (k u) rets (fun vs outs => ∃ a, vs[u]? = some a ∧ G a outs)) :
    Tri E get npi b ((toVar x).andThen k) rets (fun vs outs => ∃ a, x.ev vs = some a ∧ G a outs) := by
  refine (Tri.bind (r1 := single) (D := fun vs o1 outs => ∃ a, o1 = [a] ∧ G a outs) hb (tri_toVar hb hx)
    (D2 := fun u vs outs => ∃ a, vs[u]? = some a ∧ G a outs) ?_ ?_).congr ?_
  · intro u b1 e1
    have hu := e1.range u (by simp [single])
    exact hk u b1 e1.inv e1.mono hu.1 hu.2
  · intro u ins vs extra o1 outs ha hr hd
    obtain ⟨a, ha1, rfl⟩ := readAll_single hr
    rw [ha1]
    constructor
    · rintro ⟨a', h1, h2⟩
      simp only [Option.some.injEq] at h1
      subst h1
      exact ⟨a, rfl, h2⟩
    · rintro ⟨a', h1, h2⟩
      simp only [List.cons.injEq, and_true] at h1
      subst h1
      exact ⟨a, rfl, h2⟩
  · intro ins vs ha o
    constructor
    · rintro ⟨o1, ⟨a, h1, rfl⟩, a', h2, h3⟩
      simp only [List.cons.injEq, and_true] at h2
      subst h2
      exact ⟨a, h1, h3⟩
    · rintro ⟨a, h1, h2⟩
      exact ⟨[a], ⟨a, h1, rfl⟩, a, rfl, h2⟩

/-- A one-input instruction with its meaning. -/
theorem step_one {i : Source.Insn F} {u : Nat} {G : F → List F → Prop} (hc : i.asCall = none) (hin : i.inputs = [u])
    (hG : ∀ a outs, semM adv E i [a] outs ↔ G a outs) (vs outs : List F) : Step E get i vs outs ↔ ∃ a, vs[u]? = some a ∧ G a outs := by
  rw [step_prim hc]
  constructor
  · rintro ⟨args, h1, h2⟩
    rw [hin] at h1
    simp only [mapOpt] at h1
    cases ha : vs[u]? with
    | none => rw [ha] at h1; simp at h1
    | some a =>
      rw [ha] at h1
      simp only [Option.some.injEq] at h1
      subst h1
      exact ⟨a, rfl, (hG a outs).1 h2⟩
  · rintro ⟨a, ha, hg⟩
    refine ⟨[a], ?_, (hG a outs).2 hg⟩
    rw [hin]
    simp [mapOpt, ha]

theorem tri_pushCon {b : Builder F} (hb : Inv E get npi b) {t : Source.Con} {v : Nat} (h0 : v ≠ 0) (hv : v < b.varConstId.length) :
    Tri E get npi b (pushCon t v) (fun _ => []) (fun vs outs => ∃ a, vs[v]? = some a ∧ t.verify a = true ∧ outs = []) := by
  constructor
  · intro a b' h
    simp only [pushCon, Option.some.injEq, Prod.mk.injEq] at h
    obtain ⟨-, rfl⟩ := h
    have hacc : ∀ ins vs, Acc E get { b with constraints := b.constraints ++ [(t, v)] } ins vs ↔
        Acc E get b ins vs ∧ ∃ a, vs[v]? = some a ∧ t.verify a = true := by
      intro ins vs
      simp only [Acc, List.forall_mem_append, List.forall_mem_singleton]
      tauto
    refine ⟨⟨hb.insns, hb.len, ?_, hb.vlen, hb.pos, ?_⟩, le_refl _, rfl, by simp, ?_, ?_⟩
    · intro k hk
      rcases List.mem_append.1 hk with hk | hk
      · exact hb.cons k hk
      · simp only [List.mem_singleton] at hk
        subst hk
        exact ⟨h0, hv⟩
    · intro u s hu
      obtain ⟨c, h1, h2⟩ := hb.const u s hu
      exact ⟨c, h1, fun ins vs ha => h2 ins vs ((hacc ins vs).1 ha).1⟩
    · intro ins vs' ha
      obtain ⟨h1, a, h2, h3⟩ := (hacc ins vs').1 ha
      exact ⟨vs', [], [], by simp, h1, rfl, a, h2, h3, rfl⟩
    · rintro _ ins vs outs ha ⟨a, h2, h3, rfl⟩
      exact ⟨[], by rw [List.append_nil]; exact (hacc ins vs).2 ⟨ha, a, h2, h3⟩, rfl⟩
  · intro _ h; simp [pushCon] at h

end Verif.Frontend
