import Verif.Frontend.Builder
import Verif.IR.ChainsProof
import Verif.IR.HintExportProof

/-!
# A program logic for the frontend builder

`Acc`: the value vectors accepted by the instructions and constraints collected so far.  `Tri b m rets D`: running `m` on `b` extends every accepted
vector exactly by the behaviours described by `D` (relation between the old vector and the values of the returned variables).
-/
set_option linter.unusedSectionVars false
set_option linter.unusedSimpArgs false
namespace Verif.Frontend
open Verif.IR

variable {F : Type} [Field F] [DecidableEq F]

/-- Value vectors accepted by the circuit under construction. -/
def Acc {adv : Bool} (E : Env F) (get : Nat → Option (Circuit (srcM adv E))) (b : Builder F) (ins vs : List F) : Prop :=
  ins.length = b.numInputs ∧ Run (L := srcM adv E) get b.instructions (0 :: ins) vs true ∧
    ∀ k ∈ b.constraints, ∃ x, vs[k.2]? = some x ∧ k.1.verify x = true

theorem checkCons_iff {E : Env F} {vs : List F} : ∀ {l : List (Source.Con × Nat)},
    checkCons (L := srcM adv E) vs (l.map fun k => ⟨k.1, k.2⟩) = some true ↔ ∀ k ∈ l, ∃ x, vs[k.2]? = some x ∧ k.1.verify x = true := by
  intro l
  induction l with
  | nil => simp [checkCons]
  | cons k l ih =>
    simp only [List.map_cons, checkCons, List.forall_mem_cons, ← ih]
    cases h1 : vs[k.2]? with
    | none => simp
    | some x =>
      cases h2 : checkCons (L := srcM adv E) vs (l.map fun k => ⟨k.1, k.2⟩) with
      | none => simp
      | some c => simp

/-- Accepted vectors are exactly the successful evaluations of the built circuit. -/
theorem acc_evalSub {adv : Bool} {E : Env F} {get : Nat → Option (Circuit (srcM adv E))} {b : Builder F} {outs : List Nat} {ins os : List F} :
    (ins.length = b.numInputs ∧ EvalSub get (b.build E outs) ins os true) ↔ ∃ vs, Acc E get b ins vs ∧ readAll vs outs = some os := by
  constructor
  · rintro ⟨hl, vs, sb, cb, h1, h2, h3, h4⟩
    have h5 : sb = true ∧ cb = true := by simpa using h4.symm
    obtain ⟨rfl, rfl⟩ := h5
    exact ⟨vs, ⟨hl, h1, checkCons_iff.1 h2⟩, h3⟩
  · rintro ⟨vs, ⟨hl, h1, h2⟩, h3⟩
    exact ⟨hl, vs, true, true, h1, checkCons_iff.2 h2, h3, rfl⟩

variable {adv : Bool} (E : Env F) (get : Nat → Option (Circuit (srcM adv E))) (npi : Option Nat)

structure Inv (b : Builder F) : Prop where
  insns : InsnsOk (srcM adv E) npi b.numInputs b.instructions
  len : b.varConstId.length = numVars (L := srcM adv E) b.numInputs b.instructions + 1
  cons : ∀ k ∈ b.constraints, k.2 ≠ 0 ∧ k.2 < b.varConstId.length
  vlen : ∀ ins vs, ins.length = b.numInputs → Run (L := srcM adv E) get b.instructions (0 :: ins) vs true → vs.length = b.varConstId.length
  pos : 0 < b.constValues.length
  const : ∀ v t : Nat, b.varConstId[v]? = some (t + 1) → ∃ c, b.constValues[t + 1]? = some c ∧ ∀ ins vs, Acc E get b ins vs → vs[v]? = some c

structure Ext (b b' : Builder F) (rets : List Nat) (D : List F → List F → Prop) : Prop where
  inv : Inv E get npi b'
  mono : b.varConstId.length ≤ b'.varConstId.length
  inputs : b'.numInputs = b.numInputs
  range : ∀ r ∈ rets, r ≠ 0 ∧ r < b'.varConstId.length
  sound : ∀ ins vs', Acc E get b' ins vs' → ∃ vs extra outs, vs' = vs ++ extra ∧ Acc E get b ins vs ∧ readAll vs' rets = some outs ∧ D vs outs
  complete : adv = false → ∀ ins vs outs, Acc E get b ins vs → D vs outs → ∃ extra, Acc E get b' ins (vs ++ extra) ∧ readAll (vs ++ extra) rets = some outs

/-- `m` implements `D`; and it panics only when `D` allows nothing. -/
structure Tri {α : Type} (b : Builder F) (m : M F α) (rets : α → List Nat) (D : List F → List F → Prop) : Prop where
  ext : ∀ a b', m b = some (a, b') → Ext E get npi b b' (rets a) D
  panics : adv = false → m b = none → ∀ ins vs outs, Acc E get b ins vs → ¬ D vs outs

variable {E get npi}

theorem inv_new (n : Nat) : Inv E get npi (Builder.new n) where
  insns := trivial
  len := by simp [Builder.new, numVars]
  cons := by intro k hk; simp [Builder.new] at hk
  vlen := by
    rintro ins vs h1 h2
    have h3 := (run_nil_iff.1 h2).1
    simp only [Builder.new] at h1 ⊢
    simp [h3, h1]
  pos := by simp [Builder.new]
  const := by
    intro v t h
    exfalso
    simp only [Builder.new] at h
    rw [List.getElem?_replicate] at h
    split at h <;> simp at h

theorem acc_new {n : Nat} {ins vs : List F} : Acc E get (Builder.new n) ins vs ↔ ins.length = n ∧ vs = 0 :: ins := by
  constructor
  · rintro ⟨h1, h2, _⟩
    exact ⟨h1, (run_nil_iff.1 h2).1⟩
  · rintro ⟨h1, h2⟩
    exact ⟨h1, run_nil_iff.2 ⟨h2, rfl⟩, by simp [Builder.new]⟩

theorem Ext.of_eq {b : Builder F} (hb : Inv E get npi b) {rets : List Nat} {D : List F → List F → Prop} (hr : ∀ r ∈ rets, r ≠ 0 ∧ r < b.varConstId.length)
    (h : ∀ ins vs, Acc E get b ins vs → ∃ outs, readAll vs rets = some outs ∧ ∀ o, D vs o ↔ o = outs) : Ext E get npi b b rets D where
  inv := hb
  mono := le_refl _
  inputs := rfl
  range := hr
  sound := by
    intro ins vs' ha
    obtain ⟨outs, h1, h2⟩ := h ins vs' ha
    exact ⟨vs', [], outs, by simp, ha, h1, (h2 outs).2 rfl⟩
  complete := by
    intro _ ins vs outs ha hD
    obtain ⟨outs', h1, h2⟩ := h ins vs ha
    rw [h2] at hD
    subst hD
    exact ⟨[], by simpa using ha, by simpa using h1⟩

theorem Ext.congr {b b' : Builder F} {rets : List Nat} {D D' : List F → List F → Prop} (h : Ext E get npi b b' rets D)
    (hD : ∀ ins vs, Acc E get b ins vs → ∀ o, D vs o ↔ D' vs o) : Ext E get npi b b' rets D' := by
  refine ⟨h.inv, h.mono, h.inputs, h.range, ?_, ?_⟩
  · intro ins vs' ha
    obtain ⟨vs, extra, outs, h1, h2, h3, h4⟩ := h.sound ins vs' ha
    exact ⟨vs, extra, outs, h1, h2, h3, (hD ins vs h2 outs).1 h4⟩
  · intro hf ins vs outs ha hd
    exact h.complete hf ins vs outs ha ((hD ins vs ha outs).2 hd)

theorem Tri.congr {α : Type} {b : Builder F} {m : M F α} {rets : α → List Nat} {D D' : List F → List F → Prop} (h : Tri E get npi b m rets D)
    (hD : ∀ ins vs, Acc E get b ins vs → ∀ o, D vs o ↔ D' vs o) : Tri E get npi b m rets D' :=
  ⟨fun a b' hm => (h.ext a b' hm).congr hD, fun hf hm ins vs outs ha hd => h.panics hf hm ins vs outs ha ((hD ins vs ha outs).2 hd)⟩

/-- Adversarially, only soundness is claimed: the description may be weakened. -/
theorem Tri.weaken {α : Type} {b : Builder F} {m : M F α} {rets : α → List Nat} {D D' : List F → List F → Prop} (h : Tri E get npi b m rets D) (hadv : adv = true)
    (hD : ∀ ins vs, Acc E get b ins vs → ∀ o, D vs o → D' vs o) : Tri E get npi b m rets D' := by
  refine ⟨fun a b' hm => ?_, fun hf => by rw [hf] at hadv; simp at hadv⟩
  have e := h.ext a b' hm
  refine ⟨e.inv, e.mono, e.inputs, e.range, ?_, fun hf => by rw [hf] at hadv; simp at hadv⟩
  intro ins vs' ha
  obtain ⟨vs, extra, outs, h1, h2, h3, h4⟩ := e.sound ins vs' ha
  exact ⟨vs, extra, outs, h1, h2, h3, hD ins vs h2 outs h4⟩

/-- Sequencing. -/
theorem Tri.bind {α β : Type} {b : Builder F} {m : M F α} {k : α → M F β} {r1 : α → List Nat} {r2 : β → List Nat} {D1 : List F → List F → Prop}
    {D2 : α → List F → List F → Prop} {D : List F → List F → List F → Prop} (hb : Inv E get npi b) (h1 : Tri E get npi b m r1 D1)
    (h2 : ∀ a b1, Ext E get npi b b1 (r1 a) D1 → Tri E get npi b1 (k a) r2 (D2 a))
    (hD : ∀ a ins vs extra o1 outs, Acc E get b ins vs → readAll (vs ++ extra) (r1 a) = some o1 → D1 vs o1 →
      (D2 a (vs ++ extra) outs ↔ D vs o1 outs)) :
    Tri E get npi b (m.andThen k) r2 (fun vs outs => ∃ o1, D1 vs o1 ∧ D vs o1 outs) := by
  constructor
  · intro c b2 hm
    simp only [M.andThen] at hm
    cases hmb : m b with
    | none => rw [hmb] at hm; simp at hm
    | some p =>
      obtain ⟨a, b1⟩ := p
      rw [hmb] at hm
      have e1 := h1.ext a b1 hmb
      have e2 := (h2 a b1 e1).ext c b2 hm
      refine ⟨e2.inv, le_trans e1.mono e2.mono, e2.inputs.trans e1.inputs, e2.range, ?_, ?_⟩
      · intro ins vs2 ha
        obtain ⟨vs1, x2, outs, rfl, ha1, hr, hd⟩ := e2.sound ins vs2 ha
        obtain ⟨vs, x1, o1, rfl, ha0, hr1, hd1⟩ := e1.sound ins vs1 ha1
        exact ⟨vs, x1 ++ x2, outs, by rw [List.append_assoc], ha0, hr, o1, hd1, (hD a ins vs x1 o1 outs ha0 hr1 hd1).1 hd⟩
      · rintro hf ins vs outs ha ⟨o1, hd1, hd⟩
        obtain ⟨x1, ha1, hr1⟩ := e1.complete hf ins vs o1 ha hd1
        obtain ⟨x2, ha2, hr2⟩ := e2.complete hf ins _ outs ha1 ((hD a ins vs x1 o1 outs ha hr1 hd1).2 hd)
        exact ⟨x1 ++ x2, by rw [← List.append_assoc]; exact ha2, by rw [← List.append_assoc]; exact hr2⟩
  · intro hf hm ins vs outs ha
    rintro ⟨o1, hd1, hd⟩
    simp only [M.andThen] at hm
    cases hmb : m b with
    | none => exact h1.panics hf hmb ins vs o1 ha hd1
    | some p =>
      obtain ⟨a, b1⟩ := p
      rw [hmb] at hm
      have e1 := h1.ext a b1 hmb
      obtain ⟨x1, ha1, hr1⟩ := e1.complete hf ins vs o1 ha hd1
      exact (h2 a b1 e1).panics hf hm ins _ outs ha1 ((hD a ins vs x1 o1 outs ha hr1 hd1).2 hd)

/-- Pure post-processing. -/
theorem Tri.map {α β : Type} {b : Builder F} {m : M F α} {f : α → β} {r1 : α → List Nat} {r2 : β → List Nat} {D : List F → List F → Prop}
    (h : Tri E get npi b m r1 D) (hr : ∀ a, r2 (f a) = r1 a) : Tri E get npi b (m.andThen fun a => M.ret (f a)) r2 D := by
  constructor
  · intro c b' hm
    simp only [M.andThen] at hm
    cases hmb : m b with
    | none => rw [hmb] at hm; simp at hm
    | some p =>
      obtain ⟨a, b1⟩ := p
      rw [hmb] at hm
      simp only [M.ret, Option.some.injEq, Prod.mk.injEq] at hm
      obtain ⟨rfl, rfl⟩ := hm
      rw [hr]
      exact h.ext a b1 hmb
  · intro hf hm
    simp only [M.andThen] at hm
    cases hmb : m b with
    | none => exact h.panics hf hmb
    | some p => rw [hmb] at hm; simp [M.ret] at hm

/-! ### Primitives -/

/-- Reading a block of fresh variables. -/
theorem readAll_block (vs extra : List F) : readAll (vs ++ extra) ((List.range extra.length).map (vs.length + ·)) = some extra := by
  rw [readAll_eq_some_iff]
  refine ⟨by simp, ?_⟩
  intro j v hj
  rw [List.getElem?_map] at hj
  cases hr : (List.range extra.length)[j]? with
  | none => rw [hr] at hj; simp at hj
  | some t =>
    rw [hr] at hj
    have hlt := (List.getElem?_eq_some_iff.1 hr).1
    have ht : t = j := by
      have := (List.getElem?_eq_some_iff.1 hr).2
      simpa using this.symm
    simp only [Option.map_some, Option.some.injEq] at hj
    subst ht hj
    simp only [List.length_range] at hlt
    rw [List.getElem?_append_right (by omega)]
    have e : vs.length + t - vs.length = t := by omega
    rw [e]
    simp [hlt]

/-- The behaviour of appending one instruction. -/
def Step {adv : Bool} (E : Env F) (get : Nat → Option (Circuit (srcM adv E))) (i : Source.Insn F) (vs outs : List F) : Prop :=
  Run (L := srcM adv E) get [i] vs (vs ++ outs) true

theorem step_prim {i : Source.Insn F} (hc : i.asCall = none) {vs outs : List F} :
    Step E get i vs outs ↔ (srcM adv E).prim i (fun v => vs[v]?) outs := by
  unfold Step
  rw [run_prim_iff (L := srcM adv E) hc]
  constructor
  · rintro ⟨o, h1, h2⟩
    have := (run_nil_iff.1 h2).1
    rw [List.append_cancel_left_eq] at this
    rw [this]; exact h1
  · intro h
    exact ⟨outs, h, run_nil_iff.2 ⟨rfl, rfl⟩⟩

/-- Appending an instruction whose outputs all have the declared number. -/
theorem acc_append {b b' : Builder F} {i : Source.Insn F} (hi : b'.instructions = b.instructions ++ [i]) (hc : b'.constraints = b.constraints)
    (hn : b'.numInputs = b.numInputs) {ins vs' : List F} (hcons : ∀ k ∈ b.constraints, k.2 < b.varConstId.length)
    (hvlen : ∀ ins vs, ins.length = b.numInputs → Run (L := srcM adv E) get b.instructions (0 :: ins) vs true → vs.length = b.varConstId.length) :
    Acc E get b' ins vs' ↔ ∃ vs outs, vs' = vs ++ outs ∧ Acc E get b ins vs ∧ Step E get i vs outs := by
  simp only [Acc, hi, hc, hn]
  constructor
  · rintro ⟨h1, h0, h5⟩
    obtain ⟨ws, b1, b2, h2, h3, h4⟩ := (run_append_iff (L := srcM adv E)).1 h0
    obtain ⟨rfl, rfl⟩ : b1 = true ∧ b2 = true := by simpa using h4.symm
    obtain ⟨t, rfl⟩ := h3.prefix
    refine ⟨ws, t, rfl, ⟨h1, h2, ?_⟩, h3⟩
    intro k hk
    obtain ⟨x, hx, hv⟩ := h5 k hk
    refine ⟨x, ?_, hv⟩
    have := hvlen ins ws h1 h2
    rwa [List.getElem?_append_left (by rw [this]; exact hcons k hk)] at hx
  · rintro ⟨vs, outs, rfl, ⟨h1, h2, h3⟩, h4⟩
    refine ⟨h1, (run_append_iff (L := srcM adv E)).2 ⟨vs, true, true, h2, h4, rfl⟩, ?_⟩
    intro k hk
    obtain ⟨x, hx, hv⟩ := h3 k hk
    exact ⟨x, HintExport.getElem?_app_some hx, hv⟩

end Verif.Frontend
