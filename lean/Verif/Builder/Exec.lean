import Verif.Builder.ExpandProof

/-!
# Executing a list of requests
-/

set_option linter.unusedSectionVars false
set_option linter.unusedSimpArgs false
set_option linter.unusedVariables false

namespace Verif.Builder

open Verif.IR Verif.Hints Verif.IR.HintExport

variable {F : Type} [Field F] [DecidableEq F]

/-- The requests refer to existing variables (there are `n` of them, including variable 0) and push valid instructions. -/
def EvsOk (npi : Nat) : Nat → List (Ev F) → Prop
  | _, [] => True
  | n, .push i :: es => (∀ x ∈ i.inputs, x ≠ 0 ∧ x < n) ∧ i.valid npi = true ∧ EvsOk npi (n + i.numOutputs) es
  | n, .assert v :: es => v ≠ 0 ∧ v < n ∧ EvsOk npi n es
  | n, .mark v :: es => v ≠ 0 ∧ v < n ∧ EvsOk npi n es

/-- How many variables the requests create. -/
def outN : List (Ev F) → Nat
  | [] => 0
  | .push i :: es => i.numOutputs + outN es
  | .assert _ :: es => outN es
  | .mark _ :: es => outN es

theorem outN_append (a b : List (Ev F)) : outN (a ++ b) = outN a + outN b := by
  induction a with
  | nil => simp [outN]
  | cons e a ih => cases e <;> simp [outN, ih] <;> omega

theorem evsOk_append {npi : Nat} : ∀ {a b : List (Ev F)} {n : Nat}, EvsOk npi n (a ++ b) ↔ EvsOk npi n a ∧ EvsOk npi (n + outN a) b := by
  intro a
  induction a with
  | nil => intro b n; simp [EvsOk, outN]
  | cons e a ih =>
    intro b n
    cases e with
    | push i => simp only [List.cons_append, EvsOk, ih, outN, and_assoc, Nat.add_assoc]
    | assert v => simp only [List.cons_append, EvsOk, ih, outN, and_assoc]
    | mark v => simp only [List.cons_append, EvsOk, ih, outN, and_assoc]

/-- The keys of the constraint table are distinct and belong to variables. -/
structure ConsOk (st : St F) : Prop where
  nodup : (st.cons.map (·.1)).Nodup
  var : ∀ e s, (e, s) ∈ st.cons → ∃ v, v ≠ 0 ∧ st.exprs[v]? = some e

/-- What executing requests does. -/
structure Execd (npi : Nat) (st : St F) (es : List (Ev F)) (st' : St F) (js : List (HintNorm.Insn F)) : Prop where
  wf : Wf st'.exprs.length st'
  full : EtoFull st'
  cok : ConsOk st'
  pre : st.exprs <+: st'.exprs
  len : st'.exprs.length = st.exprs.length + outN es
  insns : st'.insns = st.insns ++ js
  insnsOk : ∀ E : Env F, InsnsOk (hintNorm E) (some npi) (st.exprs.length - 1) js
  nvars : ∀ (E : Env F) n, numVars (L := hintNorm E) n js = n + outN es
  calls : ∀ j ∈ js, ∀ t, j.asCall = some t → j ∈ pushes es
  run : ∀ (E : Env F) (get : Nat → Option (Circuit (hintNorm E))) ws, E.HintLen → (∃ ρ, Sem E ρ st ws) →
    (∀ c xs k, HintNorm.Insn.call c xs k ∈ pushes es → ∀ circ, get c = some circ → circ.outputs.length = k) →
    ∀ ws' b, (Run get (pushes es) ws ws' b ↔ Run get js ws ws' b) ∧ (Run get js ws ws' b → ∃ ρ', Sem E ρ' st' ws')
  over : st'.overwrote = false → st.overwrote = false
  persTrue : ∀ e, st.cons.lookup e = some true → st'.cons.lookup e = some true ∨ (st'.cons.lookup e = some false ∧ st'.overwrote = true)
  persFalse : ∀ e, st.cons.lookup e = some false → st'.cons.lookup e = some false
  origin : ∀ e s, st'.cons.lookup e = some s → st.cons.lookup e = some s ∨
    (s = true ∧ ∃ v ∈ asserts es, v ≠ 0 ∧ st'.exprs[v]? = some e) ∨ (s = false ∧ ∃ v ∈ marks es, v ≠ 0 ∧ st'.exprs[v]? = some e)
  asserted : marks es = [] → ∀ v ∈ asserts es, ∀ e, st'.exprs[v]? = some e → st'.cons.lookup e = some true ∨ st.cons.lookup e = some false
  inRange : ∀ v, v ∈ asserts es ∨ v ∈ marks es → v < st'.exprs.length

theorem prefix_get {α : Type} {a b : List α} (h : a <+: b) {n : Nat} {x : α} (hx : a[n]? = some x) : b[n]? = some x := by
  obtain ⟨t, rfl⟩ := h
  rw [List.getElem?_append_left (List.getElem?_eq_some_iff.1 hx).1]; exact hx

theorem Execd.nil {npi : Nat} {st : St F} (hw : Wf st.exprs.length st) (hf : EtoFull st) (hc : ConsOk st) : Execd npi st [] st [] where
  wf := hw
  full := hf
  cok := hc
  pre := List.prefix_refl _
  len := by simp [outN]
  insns := by simp
  insnsOk := fun _ => trivial
  nvars := fun _ _ => rfl
  calls := by simp
  run := fun E get ws _ hs _ ws' b => ⟨Iff.rfl, fun hr => by obtain ⟨rfl, _⟩ := run_nil_iff.1 hr; exact hs⟩
  over := fun h => h
  persTrue := fun e h => .inl h
  persFalse := fun e h => h
  origin := fun e s h => .inl h
  asserted := by simp [asserts]
  inRange := by simp [asserts, marks]

theorem insnsOk_app {L : Lang F} {npi : Option Nat} : ∀ {is js : List L.Insn} {n : Nat}, InsnsOk L npi n is → InsnsOk L npi (numVars n is) js → InsnsOk L npi n (is ++ js) := by
  intro is
  induction is with
  | nil => intro js n _ h; exact h
  | cons i is ih =>
    intro js n h1 h2
    exact ⟨h1.1, h1.2.1, h1.2.2.1, ih h1.2.2.2 h2⟩

theorem Execd.trans {npi : Nat} {st st1 st2 : St F} {a b : List (Ev F)} {j1 j2 : List (HintNorm.Insn F)} (hpos : 0 < st.exprs.length)
    (h1 : Execd npi st a st1 j1) (h2 : Execd npi st1 b st2 j2) : Execd npi st (a ++ b) st2 (j1 ++ j2) where
  wf := h2.wf
  full := h2.full
  cok := h2.cok
  pre := h1.pre.trans h2.pre
  len := by rw [h2.len, h1.len, outN_append]; omega
  insns := by rw [h2.insns, h1.insns, List.append_assoc]
  insnsOk := by
    intro E
    refine insnsOk_app (h1.insnsOk E) ?_
    rw [h1.nvars]
    have := h2.insnsOk E
    rw [h1.len] at this
    have e : st.exprs.length - 1 + outN a = st.exprs.length + outN a - 1 := by omega
    rw [e]; exact this
  nvars := by
    intro E n
    rw [numVars_append, h1.nvars, h2.nvars, outN_append]; omega
  calls := by
    intro j hj t ht
    rw [pushes_append]
    rcases List.mem_append.1 hj with hj | hj
    · exact List.mem_append_left _ (h1.calls j hj t ht)
    · exact List.mem_append_right _ (h2.calls j hj t ht)
  run := by
    intro E get ws hE hs hcall ws' bb
    rw [pushes_append] at hcall ⊢
    have k1 := h1.run E get ws hE hs (fun c xs k hm => hcall c xs k (List.mem_append_left _ hm))
    have k2 : ∀ w, (∃ ρ, Sem E ρ st1 w) → _ := fun w hw => h2.run E get w hE hw (fun c xs k hm => hcall c xs k (List.mem_append_right _ hm))
    constructor
    · constructor
      · intro hr
        obtain ⟨w, b1, b2, r1, r2, rfl⟩ := run_append_iff.1 hr
        have q1 := ((k1 w b1).1).1 r1
        exact run_append_iff.2 ⟨w, b1, b2, q1, ((k2 w ((k1 w b1).2 q1) ws' b2).1).1 r2, rfl⟩
      · intro hr
        obtain ⟨w, b1, b2, r1, r2, rfl⟩ := run_append_iff.1 hr
        exact run_append_iff.2 ⟨w, b1, b2, ((k1 w b1).1).2 r1, ((k2 w ((k1 w b1).2 r1) ws' b2).1).2 r2, rfl⟩
    · intro hr
      obtain ⟨w, b1, b2, r1, r2, rfl⟩ := run_append_iff.1 hr
      exact (k2 w ((k1 w b1).2 r1) ws' b2).2 r2
  over := fun h => h1.over (h2.over h)
  persTrue := by
    intro e he
    rcases h1.persTrue e he with h | ⟨h, ho⟩
    · exact h2.persTrue e h
    · right
      refine ⟨h2.persFalse e h, ?_⟩
      cases hov : st2.overwrote with
      | true => rfl
      | false => rw [h2.over hov] at ho; cases ho
  persFalse := fun e he => h2.persFalse e (h1.persFalse e he)
  origin := by
    intro e s he
    rw [asserts_append, marks_append]
    rcases h2.origin e s he with h | ⟨rfl, v, hv, hn, hx⟩ | ⟨rfl, v, hv, hn, hx⟩
    · rcases h1.origin e s h with h | ⟨rfl, v, hv, hn, hx⟩ | ⟨rfl, v, hv, hn, hx⟩
      · exact .inl h
      · exact .inr (.inl ⟨rfl, v, List.mem_append_left _ hv, hn, prefix_get h2.pre hx⟩)
      · exact .inr (.inr ⟨rfl, v, List.mem_append_left _ hv, hn, prefix_get h2.pre hx⟩)
    · exact .inr (.inl ⟨rfl, v, List.mem_append_right _ hv, hn, hx⟩)
    · exact .inr (.inr ⟨rfl, v, List.mem_append_right _ hv, hn, hx⟩)
  asserted := by
    intro hm v hv e he
    rw [marks_append, List.append_eq_nil_iff] at hm
    rw [asserts_append] at hv
    rcases List.mem_append.1 hv with hv | hv
    · have hr := h1.inRange v (.inl hv)
      have hx : st1.exprs[v]? = some e := by
        obtain ⟨t, ht⟩ := h2.pre
        rw [← ht, List.getElem?_append_left hr] at he; exact he
      rcases h1.asserted hm.1 v hv e hx with h | h
      · rcases h2.persTrue e h with h3 | ⟨h3, ho⟩
        · exact .inl h3
        · exfalso
          rcases h2.origin e false h3 with h' | ⟨h', _⟩ | ⟨_, u, hu, _⟩
          · rw [h] at h'; cases h'
          · cases h'
          · rw [hm.2] at hu; simp at hu
      · exact .inr h
    · rcases h2.asserted hm.2 v hv e he with h | h
      · exact .inl h
      · rcases h1.origin e false h with h' | ⟨h', _⟩ | ⟨_, u, hu, _⟩
        · exact .inr h'
        · cases h'
        · rw [hm.1] at hu; simp at hu
  inRange := by
    intro v hv
    rw [asserts_append, marks_append, List.mem_append, List.mem_append] at hv
    have := h2.pre.length_le
    rcases hv with (h | h) | (h | h)
    · have := h1.inRange v (.inl h); omega
    · exact h2.inRange v (.inl h)
    · have := h1.inRange v (.inr h); omega
    · exact h2.inRange v (.inr h)

theorem Execd.push {npi : Nat} {st st' : St F} {i j : HintNorm.Insn F} (hpos : 0 < st.exprs.length) (hc : ConsOk st) (hv : i.valid npi = true)
    (h : Pushed st i st' j) : Execd npi st [.push i] st' [j] where
  wf := h.wf
  full := h.full
  cok := ⟨by rw [h.cons]; exact hc.nodup, by
    rw [h.cons]
    intro e s hm
    obtain ⟨v, h1, h2⟩ := hc.var e s hm
    exact ⟨v, h1, prefix_get h.pre h2⟩⟩
  pre := h.pre
  len := by rw [h.len]; simp [outN]
  insns := h.insns
  insnsOk := by
    intro E
    refine ⟨fun t ht => ?_, h.valid npi hv, .inl rfl, trivial⟩
    have := h.inputs t ht
    exact ⟨by omega, this.1⟩
  nvars := by
    intro E n
    simp only [numVars_cons, outN, Nat.add_zero]
    show numVars (L := hintNorm E) (n + j.numOutputs) [] = _
    rw [h.numOutputs]; rfl
  calls := by
    intro k hk t ht
    simp only [List.mem_singleton] at hk
    subst hk
    simp only [pushes, List.mem_singleton]
    cases hi : i.asCall with
    | some t' => exact h.call t' hi
    | none => rw [h.notcall hi] at ht; cases ht
  run := by
    intro E get ws hE hs hcall ws' b
    simp only [pushes] at hcall ⊢
    cases hi : i.asCall with
    | none =>
      have hj := h.notcall hi
      have e1 := run_prim_iff (get := get) (L := hintNorm E) (i := i) (is := []) (vs := ws) (vs' := ws') (b := b) hi
      have e2 := run_prim_iff (get := get) (L := hintNorm E) (i := j) (is := []) (vs := ws) (vs' := ws') (b := b) hj
      constructor
      · rw [e1, e2]
        exact exists_congr (fun outs => and_congr_left (fun _ => h.prim E ws hs hi outs))
      · intro hr
        obtain ⟨outs, hp, hr⟩ := e2.1 hr
        obtain ⟨rfl, _⟩ := run_nil_iff.1 hr
        have hp' := (h.prim E ws hs hi outs).2 hp
        exact h.next E ws hs outs (fun _ => hp') ((hintNorm_lawful E hE).prim_length _ _ _ hi hp')
    | some t =>
      obtain ⟨c, xs, k⟩ := t
      have hj := h.call _ hi
      subst hj
      refine ⟨Iff.rfl, fun hr => ?_⟩
      obtain ⟨circ, args, res, sb, b', g1, g2, g3, g4, _⟩ := (run_call_iff (L := hintNorm E) hi).1 hr
      obtain ⟨rfl, _⟩ := run_nil_iff.1 g4
      refine h.next E ws hs res (fun hn => ?_) ?_
      · rw [hi] at hn; cases hn
      · cases j with
        | call c' xs' k' =>
          simp only [HintNorm.Insn.asCall, Option.some.injEq, Prod.mk.injEq] at hi
          obtain ⟨rfl, rfl, rfl⟩ := hi
          rw [g3.length, hcall c' xs' k' (by simp) circ g1]; rfl
        | _ => simp [HintNorm.Insn.asCall] at hi
  over := fun ho => by rw [← h.over]; exact ho
  persTrue := fun e he => by rw [h.cons]; exact .inl he
  persFalse := fun e he => by rw [h.cons]; exact he
  origin := fun e s he => by rw [h.cons] at he; exact .inl he
  asserted := by simp [asserts]
  inRange := by simp [asserts, marks]

theorem lookup_of_mem {α β : Type} [BEq α] [LawfulBEq α] : ∀ {l : List (α × β)} {a : α} {b : β}, (l.map (·.1)).Nodup → (a, b) ∈ l → l.lookup a = some b := by
  intro l
  induction l with
  | nil => intro a b _ h; simp at h
  | cons x l ih =>
    intro a b hn hm
    obtain ⟨a', b'⟩ := x
    rw [List.map_cons, List.nodup_cons] at hn
    rw [List.lookup_cons]
    rcases List.mem_cons.1 hm with hm' | hm'
    · cases hm'; simp
    · have : a ≠ a' := by
        rintro rfl
        exact hn.1 (List.mem_map.2 ⟨_, hm', rfl⟩)
      have hb : (a == a') = false := by simpa using this
      rw [hb]; exact ih hn.2 hm'

theorem lookup_filter_ne {α β : Type} [BEq α] [LawfulBEq α] [DecidableEq α] {a e : α} (hne : a ≠ e) : ∀ {l : List (α × β)},
    (l.filter (fun t => decide (t.1 ≠ e))).lookup a = l.lookup a := by
  intro l
  induction l with
  | nil => rfl
  | cons x l ih =>
    obtain ⟨a', b'⟩ := x
    by_cases h : a' = e
    · subst h
      rw [List.filter_cons_of_neg (by simp), ih, List.lookup_cons]
      have : (a == a') = false := by simpa using hne
      rw [this]
    · rw [List.filter_cons_of_pos (by simp [h]), List.lookup_cons, List.lookup_cons, ih]

/-- A request that does not push leaves everything but the constraint table alone. -/
theorem execd_same {npi : Nat} {st : St F} (hw : Wf st.exprs.length st) (hf : EtoFull st) {cons : List (Expr F × Bool)} {ov : Bool}
    (E : Env F) (get : Nat → Option (Circuit (hintNorm E))) (ws : List F) (hs : ∃ ρ, Sem E ρ st ws) (ws' : List F) (b : Bool) :
    (Run get [] ws ws' b → ∃ ρ', Sem E ρ' { st with cons := cons, overwrote := ov } ws') := by
  intro hr
  obtain ⟨rfl, _⟩ := run_nil_iff.1 hr
  obtain ⟨ρ, h⟩ := hs
  exact ⟨ρ, h.pool, h.len, h.val⟩

theorem Execd.assert {npi : Nat} {st : St F} (hw : Wf st.exprs.length st) (hf : EtoFull st) (hc : ConsOk st) {v : Nat} (h0 : v ≠ 0)
    (hv : v < st.exprs.length) : ∃ st', assertVar st v = some st' ∧ Execd npi st [.assert v] st' [] := by
  obtain ⟨e, he⟩ : ∃ e, st.exprs[v]? = some e := ⟨_, List.getElem?_eq_getElem hv⟩
  simp only [assertVar, he]
  cases hl : st.cons.lookup e with
  | some s =>
    refine ⟨st, rfl, ?_⟩
    have k := Execd.nil (npi := npi) hw hf hc
    refine { k with asserted := ?_, origin := fun e s h => .inl h, inRange := ?_ }
    · intro _ u hu d hd
      simp only [asserts, List.mem_singleton] at hu
      subst hu
      rw [he] at hd
      cases hd
      cases s with
      | true => exact .inl hl
      | false => exact .inr hl
    · intro u hu
      simp only [asserts, marks, List.mem_singleton, List.not_mem_nil, or_false] at hu
      subst hu; exact hv
  | none =>
    refine ⟨_, rfl, ?_⟩
    have hlk : ∀ d, ((e, true) :: st.cons).lookup d = if d = e then some true else st.cons.lookup d := by
      intro d
      rw [List.lookup_cons]
      by_cases hd : d = e
      · subst hd; simp
      · have : (d == e) = false := by simpa using hd
        rw [this, if_neg hd]
    exact {
      wf := ⟨hw.pool, hw.head, hw.exprs, hw.mto, hw.eto, hw.bd⟩
      full := hf
      cok := ⟨by
        simp only [List.map_cons, List.nodup_cons]
        refine ⟨fun hm => ?_, hc.nodup⟩
        obtain ⟨⟨a, s⟩, hm', rfl⟩ := List.mem_map.1 hm
        exact (lookup_none_iff.1 hl) s hm', by
        intro d s hm
        rcases List.mem_cons.1 hm with hm | hm
        · cases hm; exact ⟨v, h0, he⟩
        · exact hc.var d s hm⟩
      pre := List.prefix_refl _
      len := by simp [outN]
      insns := by simp
      insnsOk := fun _ => trivial
      nvars := fun _ _ => rfl
      calls := by simp
      run := fun E get ws _ hs _ ws' b => ⟨Iff.rfl, execd_same (npi := npi) hw hf E get ws hs ws' b⟩
      over := fun h => h
      persTrue := fun d hd => .inl (by rw [hlk]; split; rfl; exact hd)
      persFalse := fun d hd => by
        rw [hlk]
        split
        · rename_i h; subst h; rw [hl] at hd; cases hd
        · exact hd
      origin := fun d s hd => by
        rw [hlk] at hd
        split at hd
        · rename_i h; subst h; cases hd
          exact .inr (.inl ⟨rfl, v, by simp [asserts], h0, he⟩)
        · exact .inl hd
      asserted := fun _ u hu d hd => by
        simp only [asserts, List.mem_singleton] at hu
        subst hu
        rw [he] at hd
        cases hd
        left; rw [hlk, if_pos rfl]
      inRange := fun u hu => by
        simp only [asserts, marks, List.mem_singleton, List.not_mem_nil, or_false] at hu
        subst hu; exact hv }

theorem Execd.mark {npi : Nat} {st : St F} (hw : Wf st.exprs.length st) (hf : EtoFull st) (hc : ConsOk st) {v : Nat} (h0 : v ≠ 0)
    (hv : v < st.exprs.length) : ∃ st', markVar st v = some st' ∧ Execd npi st [.mark v] st' [] := by
  obtain ⟨e, he⟩ : ∃ e, st.exprs[v]? = some e := ⟨_, List.getElem?_eq_getElem hv⟩
  simp only [markVar, he]
  refine ⟨_, rfl, ?_⟩
  have hlk : ∀ d, ((e, false) :: st.cons.filter (fun t => decide (t.1 ≠ e))).lookup d = if d = e then some false else st.cons.lookup d := by
    intro d
    rw [List.lookup_cons]
    by_cases hd : d = e
    · subst hd; simp
    · have : (d == e) = false := by simpa using hd
      rw [this, if_neg hd, lookup_filter_ne hd]
  exact {
    wf := ⟨hw.pool, hw.head, hw.exprs, hw.mto, hw.eto, hw.bd⟩
    full := hf
    cok := ⟨by
      simp only [List.map_cons, List.nodup_cons]
      refine ⟨fun hm => ?_, hc.nodup.sublist (List.Sublist.map _ List.filter_sublist)⟩
      obtain ⟨⟨a, s⟩, hm, rfl⟩ := List.mem_map.1 hm
      simp at hm, by
      intro d s hm
      rcases List.mem_cons.1 hm with hm | hm
      · cases hm; exact ⟨v, h0, he⟩
      · exact hc.var d s (List.mem_filter.1 hm).1⟩
    pre := List.prefix_refl _
    len := by simp [outN]
    insns := by simp
    insnsOk := fun _ => trivial
    nvars := fun _ _ => rfl
    calls := by simp
    run := fun E get ws _ hs _ ws' b => ⟨Iff.rfl, execd_same (npi := npi) hw hf E get ws hs ws' b⟩
    over := fun h => by simp only [Bool.or_eq_false_iff] at h; exact h.1
    persTrue := fun d hd => by
      rw [hlk]
      split
      · rename_i h
        subst h
        right
        refine ⟨rfl, ?_⟩
        simp [hd]
      · exact .inl hd
    persFalse := fun d hd => by
      rw [hlk]; split
      · rfl
      · exact hd
    origin := fun d s hd => by
      rw [hlk] at hd
      split at hd
      · rename_i h; subst h; cases hd
        exact .inr (.inr ⟨rfl, v, by simp [marks], h0, he⟩)
      · exact .inl hd
    asserted := by simp [asserts]
    inRange := fun u hu => by
      simp only [asserts, marks, List.mem_singleton, List.not_mem_nil, false_or] at hu
      subst hu; exact hv }

variable {srt : List (Expr F) → List (Expr F)}

theorem exec_spec (hsrt : ∀ l, (srt l).Perm l) {npi : Nat} : ∀ (es : List (Ev F)) {st : St F}, Wf st.exprs.length st → EtoFull st → ConsOk st →
    EvsOk npi st.exprs.length es → ∃ st' js, exec srt st es = some st' ∧ Execd npi st es st' js := by
  intro es
  induction es with
  | nil => intro st hw hf hc _; exact ⟨st, [], rfl, .nil hw hf hc⟩
  | cons e es ih =>
    intro st hw hf hc ho
    have hpos := hw.pos
    have go : ∀ {st1 : St F} {j1}, exec1 srt st e = some st1 → Execd npi st [e] st1 j1 → EvsOk npi st1.exprs.length es →
        ∃ st' js, exec srt st (e :: es) = some st' ∧ Execd npi st (e :: es) st' js := by
      intro st1 j1 h1 h2 h3
      obtain ⟨st2, j2, h4, h5⟩ := ih h2.wf h2.full h2.cok h3
      exact ⟨st2, j1 ++ j2, by rw [exec, h1]; exact h4, h2.trans hpos h5⟩
    cases e with
    | push i =>
      obtain ⟨g1, g2, g3⟩ := ho
      obtain ⟨st1, j, h1, h2⟩ := push_spec hsrt hw hf g1 (by
        intro xs hx
        subst hx
        simpa [HintNorm.Insn.valid] using g2)
      exact go h1 (.push hpos hc g2 h2) (by rw [h2.len]; exact g3)
    | assert v =>
      obtain ⟨g1, g2, g3⟩ := ho
      obtain ⟨st1, h1, h2⟩ := Execd.assert (npi := npi) hw hf hc g1 g2
      exact go h1 h2 (by rw [h2.len]; simpa [outN] using g3)
    | mark v =>
      obtain ⟨g1, g2, g3⟩ := ho
      obtain ⟨st1, h1, h2⟩ := Execd.mark (npi := npi) hw hf hc g1 g2
      exact go h1 h2 (by rw [h2.len]; simpa [outN] using g3)

end Verif.Builder
