import Verif.FinalBuild.Insn
import Verif.IR.MapCircuits

/-!
# `final_build_opt.rs`: a whole circuit
-/

set_option linter.unusedSectionVars false
set_option linter.unusedSimpArgs false

namespace Verif.FinalBuild

open Verif.IR Verif.Builder

variable {F : Type} [Field F] [DecidableEq F]

/-- The effect of processing a list of instructions. -/
structure Steps (E : Env F) (npi : Option Nat) (n : Nat) (st st' : St F) (is : List (HintLess.Insn F)) (js : List (Dest.Insn F)) : Prop where
  ok : StOk n st'
  emits : emitted n st'.mids st'.outs = emitted n st.mids st.outs ++ js
  cnt : st'.exprs.length = numVars (L := hintLess E) st.exprs.length is
  insns : InsnsOk (dest E true) npi (st.mids.length - 1) js
  nv : numVars (L := dest E true) (st.mids.length - 1) js = st'.mids.length - 1
  calls : ∀ d m k, (∃ j ∈ js, ∃ a, j.asCall = some (d, a, m) ∧ a.length = k) ↔ ∃ i ∈ is, ∃ a, i.asCall = some (d, a, m) ∧ a.length = k
  sim : ∀ (get : Nat → Option (Circuit (hintLess E))) (get' : Nat → Option (Circuit (dest E true))), (∀ i ∈ is, CallSpec get get' i) →
    ∀ vs ws, Rel E st.mids st.exprs vs ws →
      (∀ vs' b, Run (L := hintLess E) get is vs vs' b → ∃ ws', Run (L := dest E true) get' js ws ws' b ∧ Rel E st'.mids st'.exprs vs' ws') ∧
      (∀ ws' b, Run (L := dest E true) get' js ws ws' b → ∃ vs', Run (L := hintLess E) get is vs vs' b ∧ Rel E st'.mids st'.exprs vs' ws')
  norand : ∀ e, (.internal e : Dest.Insn F) ∈ js → Expr.NoRandom e ∧ e ≠ []
  rnd : (.constantLike .random : Dest.Insn F) ∈ js → (.constantLike .random : HintLess.Insn F) ∈ is
  rel : ∀ (get : Nat → Option (Circuit (hintLess E))), CallsOk (L := hintLess E) get is → ∀ vs ws, Rel E st.mids st.exprs vs ws →
    ∀ vs' b, Run (L := hintLess E) get is vs vs' b → ∃ ws', Rel E st'.mids st'.exprs vs' ws'

theorem procInsns_spec {E : Env F} {cs : Costs} (hcs : CostOk cs) (ltE : Expr F → Expr F → Bool) (ref : Nat → Ref) (ol : Nat → Option Nat) {npi n : Nat} :
    ∀ (is : List (HintLess.Insn F)) {st : St F} {cur : Nat}, StOk n st → st.exprs.length = cur + 1 → InsnsOk (hintLess E) (some npi) cur is →
    (∀ i ∈ is, ∀ d a m, i.asCall = some (d, a, m) → (ol d).isSome) →
    ∃ st' js, procInsns cs ltE ref ol st is = some st' ∧ Steps E (some npi) n st st' is js := by
  intro is
  induction is with
  | nil =>
    intro st cur hst hl _ _
    refine ⟨st, [], rfl, hst, by simp, rfl, trivial, rfl, by simp, ?_, by simp, by simp, ?_⟩
    · intro get get' _ vs ws hr
      constructor
      · intro vs' b h
        obtain ⟨rfl, rfl⟩ := (run_nil_iff (L := hintLess E)).1 h
        exact ⟨ws, Run.nil _, hr⟩
      · intro vs' b h
        obtain ⟨rfl, rfl⟩ := (run_nil_iff (L := dest E true)).1 h
        exact ⟨vs, Run.nil _, hr⟩
    · intro get _ vs ws hr vs' b h
      obtain ⟨rfl, rfl⟩ := (run_nil_iff (L := hintLess E)).1 h
      exact ⟨ws, hr⟩
  | cons i is ih =>
    intro st cur hst hl hok hol
    obtain ⟨o1, o2, _, o4⟩ := hok
    obtain ⟨st1, j1, s1, S1⟩ := procInsn_spec (E := E) (npi := npi) hcs ltE ref ol (i := i) hst
      ⟨fun t ht => by have := (o1 t ht).1; omega, o2, hol i (by simp)⟩
    have hl1 : st1.exprs.length = cur + i.numOutputs + 1 := by rw [S1.cnt, hl]; omega
    obtain ⟨st2, j2, s2, S2⟩ := ih S1.ok hl1 o4 (fun i' hi' => hol i' (by simp [hi']))
    refine ⟨st2, j1 ++ j2, by simp only [procInsns, s1]; exact s2, S2.ok, ?_, ?_, ?_, ?_, ?_, ?_, ?_, ?_, ?_⟩
    · rw [S2.emits, S1.emits, List.append_assoc]
    · rw [S2.cnt, numVars_cons (L := hintLess E), S1.cnt]
    · refine (Chains.insnsOk_append (L := dest E true) _ _ _).2 ⟨S1.insns, ?_⟩
      rw [S1.nv]; exact S2.insns
    · rw [numVars_append (L := dest E true), S1.nv, S2.nv]
    · intro d m k
      constructor
      · rintro ⟨j, hj, h⟩
        rcases List.mem_append.1 hj with hj | hj
        · exact ⟨i, by simp, (S1.calls d m k).1 ⟨j, hj, h⟩⟩
        · obtain ⟨i', hi', h'⟩ := (S2.calls d m k).1 ⟨j, hj, h⟩
          exact ⟨i', by simp [hi'], h'⟩
      · rintro ⟨i', hi', h⟩
        rcases List.mem_cons.1 hi' with rfl | hi'
        · obtain ⟨j, hj, h'⟩ := (S1.calls d m k).2 h
          exact ⟨j, by simp [hj], h'⟩
        · obtain ⟨j, hj, h'⟩ := (S2.calls d m k).2 ⟨i', hi', h⟩
          exact ⟨j, by simp [hj], h'⟩
    · intro get get' hc vs ws hr
      obtain ⟨a1, a2⟩ := S1.sim get get' (hc i (by simp)) vs ws hr
      constructor
      · intro vs' b h
        have h' : Run (L := hintLess E) get ([i] ++ is) vs vs' b := h
        obtain ⟨v1, b1, b2, r1, r2, rfl⟩ := (run_append_iff (L := hintLess E)).1 h'
        obtain ⟨w1, q1, q2⟩ := a1 _ _ r1
        obtain ⟨w2, q3, q4⟩ := (S2.sim get get' (fun i' hi' => hc i' (by simp [hi'])) _ _ q2).1 _ _ r2
        exact ⟨w2, (run_append_iff (L := dest E true)).2 ⟨w1, b1, b2, q1, q3, rfl⟩, q4⟩
      · intro ws' b h
        obtain ⟨w1, b1, b2, r1, r2, rfl⟩ := (run_append_iff (L := dest E true)).1 h
        obtain ⟨v1, q1, q2⟩ := a2 _ _ r1
        obtain ⟨v2, q3, q4⟩ := (S2.sim get get' (fun i' hi' => hc i' (by simp [hi'])) _ _ q2).2 _ _ r2
        have : Run (L := hintLess E) get ([i] ++ is) vs v2 (b1 && b2) := (run_append_iff (L := hintLess E)).2 ⟨v1, b1, b2, q1, q3, rfl⟩
        exact ⟨v2, this, q4⟩
    · intro e h
      rcases List.mem_append.1 h with h | h
      · exact S1.norand e h
      · exact S2.norand e h
    · intro h
      rcases List.mem_append.1 h with h | h
      · rw [S1.rnd h]; simp
      · exact List.mem_cons_of_mem _ (S2.rnd h)
    · intro get hc vs ws hr vs' b h
      have h' : Run (L := hintLess E) get ([i] ++ is) vs vs' b := h
      obtain ⟨v1, b1, b2, r1, r2, rfl⟩ := (run_append_iff (L := hintLess E)).1 h'
      obtain ⟨w1, q2⟩ := S1.rel get (fun j hj => hc j (by rw [List.mem_singleton.1 hj]; simp)) vs ws hr _ _ r1
      exact S2.rel get (fun j hj => hc j (by simp [hj])) _ _ q2 _ _ r2

theorem procCons_spec {exprs : List (Expr F)} : ∀ (l : List Nat) {p : Mids F}, MidsWF p → (∀ e ∈ exprs, GOk p.length e) → (∀ c ∈ l, c < exprs.length) →
    (procCons exprs p l = .userError ∧ ∃ c ∈ l, ∃ e v, exprs[c]? = some e ∧ v ≠ 0 ∧ ∀ (E : Env F) ρ, value E ρ e = v) ∨
    ∃ p' ks, procCons exprs p l = .ok (p', ks) ∧ Ext p p' ∧ (∀ k ∈ ks, k ≠ 0 ∧ k < p'.length) ∧
      ∀ E vs ws, Rel E p' exprs vs ws → ((∀ c ∈ l, vs[c]? = some 0) ↔ ∀ k ∈ ks, ws[k]? = some 0) := by
  intro l
  induction l with
  | nil => intro p hp _ _; right; exact ⟨p, [], rfl, Ext.refl p, by simp, fun _ _ _ _ => by simp⟩
  | cons c l ih =>
    intro p hp hx hl
    have hlt := hl c (by simp)
    have hg : exprs[c]? = some exprs[c] := List.getElem?_eq_getElem hlt
    have hge := hx exprs[c] (List.getElem_mem _)
    cases hcv : constValue exprs[c] with
    | some v =>
      by_cases hv : v = 0
      · subst hv
        simp only [procCons, hg, hcv, if_true]
        rcases ih hp hx (fun c' hc' => hl c' (by simp [hc'])) with ⟨h1, c', hc', h2⟩ | ⟨p', ks, h1, h2, h3, h4⟩
        · left; exact ⟨h1, c', by simp [hc'], h2⟩
        · right
          refine ⟨p', ks, h1, h2, h3, fun E vs ws hr => ?_⟩
          have h0 : vs[c]? = some 0 := by rw [hr.val c _ hg, value_constValue E _ hcv]
          rw [← h4 E vs ws hr]
          simp [h0]
      · left
        simp only [procCons, hg, hcv, if_neg hv]
        exact ⟨trivial, c, by simp, _, v, hg, hv, fun E ρ => value_constValue E ρ hcv⟩
    | none =>
      obtain ⟨p1, i, a1, a2, a3, a4, a5⟩ := makeReallySingle_spec hp hge
      simp only [procCons, hg, hcv, a1]
      rcases ih (a2.wf hp) (fun e he => (hx e he).mono a2.len) (fun c' hc' => hl c' (by simp [hc'])) with ⟨h1, c', hc', h2⟩ | ⟨p', ks, h1, h2, h3, h4⟩
      · left; rw [h1]; exact ⟨rfl, c', by simp [hc'], h2⟩
      · right
        rw [h1]
        refine ⟨p', i :: ks, rfl, a2.trans h2, ?_, fun E vs ws hr => ?_⟩
        · intro k hk
          rcases List.mem_cons.1 hk with rfl | hk
          · exact ⟨a3, lt_of_lt_of_le a4 h2.len⟩
          · exact h3 k hk
        · have hi : ws[i]? = vs[c]? := by
            rw [get_asg (by rw [hr.len]; exact lt_of_lt_of_le a4 h2.len), a5 E (asg ws) (hr.mids.prefix h2.pre), hr.val c _ hg]
          have := h4 E vs ws hr
          simp only [List.mem_cons, forall_eq_or_imp, this, hi]

/-- What `process_circuit` guarantees. -/
structure Image {E : Env F} (npi : Option Nat) (circ : Circuit (hintLess E)) (c' : Circuit (dest E true)) : Prop where
  inputs : c'.numInputs = circ.numInputs
  outputs : c'.outputs.length = circ.outputs.length
  calls : MapCircuits.SameCalls circ.instructions c'.instructions
  ok : CircOk npi c'
  norand : ∀ e, (.internal e : Dest.Insn F) ∈ (c'.instructions : List (Dest.Insn F)) → Expr.NoRandom e ∧ e ≠ []
  rnd : (.constantLike .random : Dest.Insn F) ∈ (c'.instructions : List (Dest.Insn F)) → (.constantLike .random : HintLess.Insn F) ∈ (circ.instructions : List (HintLess.Insn F))
  spec : ∀ (get : Nat → Option (Circuit (hintLess E))) (get' : Nat → Option (Circuit (dest E true))), (∀ i ∈ circ.instructions, CallSpec get get' i) →
    ∀ ins : List F, ins.length = circ.numInputs → ∀ outs b, EvalSub get circ ins outs b ↔ EvalSub get' c' ins outs b

theorem new_rel (E : Env F) : Rel E (St.new : St F).mids (St.new : St F).exprs [0] [0] := by
  refine ⟨rfl, ?_, rfl, ?_⟩
  · intro i m hi h0
    have := (List.getElem?_eq_some_iff.1 hi).1
    simp [St.new] at this
    omega
  · intro v e he
    have := (List.getElem?_eq_some_iff.1 he).1
    simp [St.new] at this
    subst this
    simp [St.new] at he
    subst he
    simp [value, Expr.lin, Term.zero]

theorem checkCons_raw {L : Lang F} (hver : ∀ k x, L.verify k x = decide (x = 0)) {vs : List F} {cs : List (Constraint L)} (h : ∀ k ∈ cs, k.var < vs.length) :
    ∃ b, checkCons vs cs = some b ∧ (b = true ↔ ∀ k ∈ cs, vs[k.var]? = some 0) := by
  refine ⟨_, SolveDup.checkCons_all hver h, ?_⟩
  simp [List.all_eq_true]

theorem procCircuit_spec {E : Env F} {cs : Costs} (hcs : CostOk cs) (ltE : Expr F → Expr F → Bool) (ol : Nat → Option Nat) {npi : Nat} {circ : Circuit (hintLess E)}
    (hc : CircOk (some npi) circ) (hol : ∀ i ∈ circ.instructions, ∀ d a m, HintLess.Insn.asCall i = some (d, a, m) → (ol d).isSome) :
    (procCircuit cs ltE E ol circ = .userError ∧ ∀ get : Nat → Option (Circuit (hintLess E)), CallsOk get circ.instructions →
      ∀ ins outs b, ins.length = circ.numInputs → EvalSub get circ ins outs b → b = false) ∨
    ∃ c' l, procCircuit cs ltE E ol circ = .ok (c', l) ∧ Image (some npi) circ c' := by
  have hw0 : MidsWF (St.new : St F).mids := by
    refine ⟨⟨_, rfl, rfl⟩, fun i m hm hi => ?_⟩
    have := (List.getElem?_eq_some_iff.1 hm).1
    simp [St.new] at this
    omega
  have hx0 : ∀ e ∈ (St.new : St F).exprs, GOk (St.new : St F).mids.length e := by
    intro e he
    simp [St.new] at he
    subst he; exact gok_zero _
  obtain ⟨st0, a1, a2, a3, a4, a5, a6, a7, a8, _, a10⟩ := addInVars_spec (E := E) (m := circ.numInputs) 0 circ.numInputs St.new hw0 hx0
  have hm0 : st0.mids.length = circ.numInputs + 1 := by rw [a3]; simp [St.new]; omega
  have he0 : st0.exprs.length = circ.numInputs + 1 := by rw [a4]; simp [St.new]; omega
  have ho0 : st0.outs = [] := a7
  have hst0 : StOk circ.numInputs st0 := ⟨a2, a8, by rw [ho0]; exact ⟨by omega, List.Pairwise.nil, by simp⟩⟩
  have hemit0 : emitted circ.numInputs st0.mids st0.outs = [] := by
    rw [ho0, emitted, List.drop_of_length_le (by omega)]; rfl
  have hrel0 : ∀ ins : List F, ins.length = circ.numInputs → Rel E st0.mids st0.exprs (0 :: ins) (0 :: ins) := by
    intro ins hl
    exact a10 [0] [0] ins (new_rel E) hl
  obtain ⟨st, js, s1, S⟩ := procInsns_spec (E := E) (npi := npi) hcs ltE (refOf circ.instructions circ.outputs (circ.constraints.map (·.var))) ol circ.instructions hst0 he0
    hc.insns hol
  have hvar : st.exprs.length = numVars (L := hintLess E) circ.numInputs circ.instructions + 1 := by
    rw [S.cnt, he0, numVars_add]
  have hcons : ∀ c ∈ (circ.constraints.map (·.var)).insertionSort (· ≤ ·), c < st.exprs.length := by
    intro c hcm
    rw [List.mem_insertionSort] at hcm
    obtain ⟨k, hk, rfl⟩ := List.mem_map.1 hcm
    have := (hc.cons k hk).1
    omega
  have hcheck : ∀ vs : List F, vs.length = st.exprs.length → ∃ b, checkCons vs circ.constraints = some b ∧
      (b = true ↔ ∀ c ∈ (circ.constraints.map (·.var)).insertionSort (· ≤ ·), vs[c]? = some 0) := by
    intro vs hl
    obtain ⟨b, b1, b2⟩ := checkCons_raw (L := hintLess E) (fun _ _ => rfl) (vs := vs) (cs := circ.constraints) (fun k hk => by have := (hc.cons k hk).1; omega)
    refine ⟨b, b1, b2.trans ?_⟩
    constructor
    · intro h c hcm
      rw [List.mem_insertionSort] at hcm
      obtain ⟨k, hk, rfl⟩ := List.mem_map.1 hcm
      exact h k hk
    · intro h k hk
      exact h k.var (by rw [List.mem_insertionSort]; exact List.mem_map_of_mem hk)
  unfold procCircuit
  simp only [a1, s1]
  rcases procCons_spec _ S.ok.wf S.ok.exprs hcons with ⟨h1, c, hcm, e, v, he, hv, hval⟩ | ⟨p', ks, h1, h2, h3, h4⟩
  · left
    rw [h1]
    refine ⟨rfl, ?_⟩
    rintro get hcalls ins outs b hl ⟨vs, sb, cb, r1, r2, r3, rfl⟩
    obtain ⟨ws, hr⟩ := S.rel get hcalls _ _ (hrel0 ins hl) _ _ r1
    obtain ⟨b', b1, b2⟩ := hcheck vs hr.vlen
    rw [r2] at b1; cases b1
    have : cb = false := by
      cases cb with
      | false => rfl
      | true =>
        have h0 := b2.1 rfl c hcm
        rw [hr.val c e he, hval] at h0
        exact absurd (Option.some.inj h0) hv
    rw [this, Bool.and_false]
  · right
    rw [h1]
    have hoin : ∀ o ∈ circ.outputs, o < st.exprs.length := fun o ho => by have := (hc.outs o ho).1; omega
    have hx' : ∀ e ∈ st.exprs, GOk p'.length e := fun e he => (S.ok.exprs e he).mono h2.len
    obtain ⟨es, l1, l2, l3, l4⟩ := args_spec hx' circ.outputs hoin
    obtain ⟨p'', os, m1, m2, m3, m4, m5⟩ := singles_spec es (h2.wf S.ok.wf) l2
    simp only [l1, m1]
    have hext := h2.trans m2
    obtain ⟨i1, i2⟩ := internals_insns (E := E) (npi := some npi) S.ok.wf.pos hext
    have hinsns : emit (circ.numInputs + 1) (p''.drop (circ.numInputs + 1)) st.outs = js ++ internals st.mids p'' := by
      have := emitted_ext S.ok.outs hext
      rw [S.emits, hemit0, List.nil_append] at this
      exact this
    rw [hinsns]
    have hnv : numVars (L := dest E true) circ.numInputs (js ++ internals st.mids p'') = p''.length - 1 := by
      have h := S.nv
      rw [hm0] at h
      rw [numVars_append (L := dest E true)]
      simp only [Nat.add_sub_cancel] at h
      rw [h, i2]
    have hpos : 0 < p''.length := lt_of_lt_of_le S.ok.wf.pos hext.len
    refine ⟨_, _, rfl, rfl, by simp only; rw [m4, l3], ?_, ⟨?_, ?_, Or.inl rfl, ?_, Or.inl rfl⟩, ?_, ?_, ?_⟩
    · intro d m k
      refine Iff.trans ?_ (S.calls d m k)
      constructor
      · rintro ⟨j, hj, h⟩
        rcases List.mem_append.1 hj with hj | hj
        · exact ⟨j, hj, h⟩
        · obtain ⟨a, ha, _⟩ := h
          have := internals_asCall j hj
          have ha : j.asCall = some (d, a, m) := ha
          rw [this] at ha; cases ha
      · rintro ⟨j, hj, h⟩
        exact ⟨j, List.mem_append.2 (Or.inl hj), h⟩
    · refine (Chains.insnsOk_append (L := dest E true) _ _ _).2 ⟨?_, ?_⟩
      · have := S.insns
        rw [hm0] at this
        exact this
      · have h := S.nv
        rw [hm0] at h
        simp only [Nat.add_sub_cancel] at h
        simp only
        rw [h]; exact i1
    · intro k hk
      obtain ⟨x, hx, rfl⟩ := List.mem_map.1 hk
      simp only
      rw [hnv]
      have := h3 x hx
      have := m2.len
      exact ⟨by omega, by omega⟩
    · intro o ho
      simp only at ho ⊢
      rw [hnv]
      have := m3 o ho
      exact ⟨by omega, by omega⟩
    · intro e h
      rcases List.mem_append.1 h with h | h
      · exact S.norand e h
      · exact internals_norand hext e h
    · intro h
      rcases List.mem_append.1 h with h | h
      · exact S.rnd h
      · exact absurd h (internals_rnd _ _)
    · intro get get' hcs' ins hl outs b
      obtain ⟨f1, f2⟩ := S.sim get get' hcs' _ _ (hrel0 ins hl)
      -- the common final part
      have fin : ∀ (vs ws : List F) (sb : Bool), Rel E st.mids st.exprs vs ws → ∀ (ws' : List F) (b' : Bool), Run (L := dest E true) get' (internals st.mids p'') ws ws' b' →
          b' = true ∧ ∃ cb, checkCons vs circ.constraints = some cb ∧ checkCons (L := dest E true) ws' (ks.map (fun k => ⟨(), k⟩)) = some cb ∧
            readAll vs circ.outputs = readAll ws' os ∧ sb = sb := by
        intro vs ws sb hr ws' b' hrun
        obtain ⟨rfl, ⟨t, rfl⟩, hl', hm'⟩ := (ext_run (get := get') S.ok.wf hext hr.len hr.mids).2 _ _ hrun
        have hr2 := hr.ext S.ok.exprs hl' hm'
        refine ⟨rfl, ?_⟩
        obtain ⟨cb, c1, c2⟩ := hcheck vs hr.vlen
        obtain ⟨cb', d1, d2⟩ := checkCons_raw (L := dest E true) (fun _ _ => rfl) (vs := ws ++ t) (cs := ks.map (fun k => ⟨(), k⟩)) (by
          intro k hk
          obtain ⟨x, hx, rfl⟩ := List.mem_map.1 hk
          rw [hl']
          exact lt_of_lt_of_le (h3 x hx).2 m2.len)
        have hkk : (∀ c ∈ (circ.constraints.map (·.var)).insertionSort (· ≤ ·), vs[c]? = some 0) ↔ ∀ k ∈ ks, (ws ++ t)[k]? = some 0 := by
          -- restrict to the middle variables present when the constraints were processed
          have hw1 : p'.length ≤ (ws ++ t).length := by rw [hl']; exact m2.len
          have hr3 : Rel E p' st.exprs vs ((ws ++ t).take p'.length) := by
            have hasg : ∀ v, v < p'.length → asg ((ws ++ t).take p'.length) v = asg (ws ++ t) v := by
              intro v hv; simp [asg, List.getD, List.getElem?_take, hv]
            refine ⟨by simp [List.length_take]; simpa using hw1, ?_, hr.vlen, ?_⟩
            · intro i m hi h0
              have hlt := (List.getElem?_eq_some_iff.1 hi).1
              have := hm'.prefix m2.pre i m hi h0
              rw [hasg i hlt, this]
              rcases (h2.wf S.ok.wf).ok i m hi h0 with hin | ho
              · rw [value_congr E (asg ((ws ++ t).take p'.length)) (asg (ws ++ t)) m.expr (fun v hv => hasg v (lt_trans (hin.1.vars v hv) hlt))]
              · rw [ho.1, Builder.value_linear, Builder.value_linear, hasg i hlt]
            · intro v e he
              rw [hr2.val v e he, value_congr E (asg ((ws ++ t).take p'.length)) (asg (ws ++ t)) e (fun x hx => hasg x ((hx' e (List.mem_of_getElem? he)).vars x hx))]
          rw [h4 E vs _ hr3]
          constructor
          · intro h k hk
            have := h k hk
            rw [List.getElem?_take, if_pos (h3 k hk).2] at this
            exact this
          · intro h k hk
            rw [List.getElem?_take, if_pos (h3 k hk).2]
            exact h k hk
        have hcb : cb' = cb := by
          rw [Bool.eq_iff_iff, c2, d2, hkk]
          simp
        refine ⟨cb, c1, by rw [d1, hcb], ?_, rfl⟩
        rw [readAll_mapOpt vs, l4 E p'' vs _ hr2, readAll_asg (fun i hi => by rw [hl']; exact (m3 i hi).2), m5 E _ hm']
      constructor
      · rintro ⟨vs, sb, cb, r1, r2, r3, rfl⟩
        obtain ⟨ws, q1, q2⟩ := f1 _ _ r1
        obtain ⟨⟨ws', hrun⟩, _⟩ := ext_run (get := get') S.ok.wf hext q2.len q2.mids
        obtain ⟨_, cb', k1, k2, k3, _⟩ := fin vs ws sb q2 ws' true hrun
        rw [r2] at k1; cases k1
        refine ⟨ws', sb, cb, (run_append_iff (L := dest E true)).2 ⟨ws, sb, true, q1, hrun, by simp⟩, k2, by rw [← k3]; exact r3, rfl⟩
      · rintro ⟨ws', sb, cb, r1, r2, r3, rfl⟩
        obtain ⟨ws, b1, b2, q1, q2, rfl⟩ := (run_append_iff (L := dest E true)).1 r1
        obtain ⟨vs, p1, p2⟩ := f2 _ _ q1
        obtain ⟨rfl, cb', k1, k2, k3, _⟩ := fin vs ws b1 p2 ws' b2 q2
        have r2 : checkCons (L := dest E true) ws' (ks.map (fun k => ⟨(), k⟩)) = some cb := r2
        rw [k2] at r2; cases r2
        exact ⟨vs, b1, cb, p1, k1, by rw [k3]; exact r3, by simp⟩

end Verif.FinalBuild
