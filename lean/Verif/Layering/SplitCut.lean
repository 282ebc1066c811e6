import Verif.Layering.SplitStep

/-!
# Cutting a circuit into segments (for `ir_split.rs`)
-/

set_option linter.unusedSectionVars false
set_option linter.unusedSimpArgs false

namespace Verif.Layering.Split

open Verif.IR (Expr Coef Env dest Circuit RootCircuit WFGet CallsOk Calls CircOk InsnsOk numVars Run EvalSub readAll checkCons Constraint Term VarSpec)
open Verif.Layering

variable {F : Type} [Field F] [DecidableEq F]

theorem NoUnk.left {a b : List Seg} (h : NoUnk (a ++ b)) : NoUnk a := fun s hs => h s (by simp [hs])

section
variable {n cvm npi : Nat} {is : List (Verif.IR.Dest.Insn F)} {mn mx : List Nat}

theorem segLoop_spec (hlay : LayOk mn is (n + 1)) (hv : ∀ i ∈ is, Verif.IR.Dest.Insn.valid npi i = true) : ∀ (l : List Nat) (st st' : SegSt) (pool pool' : List (Prog F)) (iv : List Nat)
    (done : List (Nat × Nat)), segLoop n cvm is mn mx (pairs l) st pool = some (st', pool') → l.Pairwise (· < ·) → (∀ q ∈ done, q.1 < q.2 ∧ ∀ a, l.head? = some a → q.2 ≤ a) →
    Inv n pool st iv → PoolOk npi pool → CallsIn pool pool.length is →
    ∃ iv', Inv n pool' st' iv' ∧ PoolOk npi pool' ∧ pool <+: pool' ∧ (∃ t, st'.segs = st.segs ++ t) ∧
      ∀ (E : Env F) S PF, pool' <+: PF → SubSem E S PF → NoUnk st'.segs → Mean E S PF n mn is st iv done → Mean E S PF n mn is st' iv' (done ++ pairs l) := by
  intro l
  induction l with
  | nil =>
    intro st st' pool pool' iv done h _ _ hi hp _
    simp only [pairs, List.zip_nil_left, segLoop, Option.some.injEq, Prod.mk.injEq] at h
    obtain ⟨rfl, rfl⟩ := h
    exact ⟨iv, hi, hp, List.prefix_refl _, ⟨[], by simp⟩, fun _ _ _ _ _ _ h => by simpa [pairs] using h⟩
  | cons a l ih =>
    intro st st' pool pool' iv done h hsort hd hi hp hc
    cases l with
    | nil =>
      simp only [pairs, List.tail_cons, List.zip_nil_right, segLoop, Option.some.injEq, Prod.mk.injEq] at h
      obtain ⟨rfl, rfl⟩ := h
      exact ⟨iv, hi, hp, List.prefix_refl _, ⟨[], by simp⟩, fun _ _ _ _ _ _ h => by simpa [pairs] using h⟩
    | cons b l =>
      have hpairs : pairs (a :: b :: l) = (a, b) :: pairs (b :: l) := rfl
      rw [hpairs] at h ⊢
      simp only [segLoop] at h
      cases hs : segStep n cvm is mn mx a b st pool with
      | none => rw [hs] at h; cases h
      | some r =>
        obtain ⟨st1, pool1⟩ := r
        rw [hs] at h
        dsimp only at h
        obtain ⟨en, sis, lv, js, rfl, g1, rfl, rfl, rfl⟩ := segStep_some hs
        obtain ⟨new, g2⟩ := segInsns_spec _ _ _ _ _ g1
        have hab : a < b := (List.pairwise_cons.1 hsort).1 b (by simp)
        have hcirc := circ_in (js := segJs cvm mn mx b st lv) g2 hv hc js_mem
        obtain ⟨a1, a2, a3, a4⟩ := poolAdd_spec hp hcirc
        have hinv := next_inv (start := a) (stop := b) (js := segJs cvm mn mx b st lv) hi a1 a3 a4 (mid := segMid (segIns n cvm mn mx a) st)
          (by simp [segMid, segCirc]) (by simp [segCirc]) (mid_input hi) (mid_internal hi)
        obtain ⟨iv', i1, i2, i3, ⟨t, i4⟩, i5⟩ := ih _ st' _ pool' _ (done ++ [(a, b)]) h (List.pairwise_cons.1 hsort).2 (by
          intro q hq
          rcases List.mem_append.1 hq with hq | hq
          · refine ⟨(hd q hq).1, fun x hx => ?_⟩
            simp only [List.head?_cons, Option.some.injEq] at hx
            have := (hd q hq).2 a rfl
            omega
          · simp only [List.mem_singleton] at hq
            subst hq
            refine ⟨hab, fun x hx => ?_⟩
            simp only [List.head?_cons, Option.some.injEq] at hx
            exact le_of_eq hx) hinv a2 (hc.mono a1 (a1.length_le))
        refine ⟨iv', i1, i2, a1.trans i3, ⟨_, by rw [i4]; simp only [segNext]; rw [List.append_assoc]⟩, ?_⟩
        intro E S PF hPF hsub hnu hm
        have hnu1 : NoUnk (segNext a b (poolAdd pool (segCirc ((segIns n cvm mn mx a).1 ++ (segIns n cvm mn mx a).2) lv (segJs cvm mn mx b st lv) sis)).1 (segMid (segIns n cvm mn mx a) st) (segJs cvm mn mx b st lv) st).segs := by
          rw [i4] at hnu; exact hnu.left
        have := i5 E S PF hPF hsub hnu (next_mean hlay hab (fun q hq => ⟨(hd q hq).1, (hd q hq).2 a rfl⟩) hi hm (a1.trans (i3.trans hPF)) hsub g2 js_mem a3
          (prefix_get (i3.trans hPF) a4) (hnu1 ⟨a, b, _, segMid (segIns n cvm mn mx a) st⟩ (List.mem_append.2 (Or.inr (List.mem_singleton.2 rfl)))))
        rwa [List.append_assoc] at this

end

theorem placed_inj : ∀ (is : List (Verif.IR.Dest.Insn F)) (cur : Nat) (p p' : Verif.IR.Dest.Insn F × Nat) (v : Nat), p ∈ placed is cur → p' ∈ placed is cur → p.2 ≤ v → v < p.2 + nOut p.1 →
    p'.2 ≤ v → v < p'.2 + nOut p'.1 → p = p'
  | [], _, _, _, _, h, _, _, _, _, _ => by cases h
  | i :: is, cur, p, p', v, h, h', h1, h2, h3, h4 => by
    rcases List.mem_cons.1 h with rfl | h
    · rcases List.mem_cons.1 h' with rfl | h'
      · rfl
      · have := placed_ge is _ p' h'; simp only at h2; omega
    · rcases List.mem_cons.1 h' with rfl | h'
      · have := placed_ge is _ p h; simp only at h4; omega
      · exact placed_inj is _ p p' v h h' h1 h2 h3 h4

/-- What `cut` guarantees. -/
structure CutOk (npi n : Nat) (is : List (Verif.IR.Dest.Insn F)) (outs : List Nat) (spl : Spl) (pool pool' : List (Prog F)) : Prop where
  pre : pool <+: pool'
  pool : PoolOk npi pool'
  total : ∃ k, SegsOk pool' n spl.segs 0 k ∧ ∀ r ∈ spl.outs, (∃ i, r = .input i ∧ i < n) ∨ ∃ i, r = .internal i ∧ i < k
  len : spl.outs.length = outs.length
  sem : ∀ (E : Env F) S PF, pool' <+: PF → PoolOk npi PF → SubSem E S PF → NoUnk spl.segs → ∀ (ins ys : List F), ins.length = n →
    ((∃ V, SegsHold S PF ins V spl.segs 0 ∧ ys = spl.outs.map (rv ins V)) ↔ ∃ W, InputsAre W ins ∧ HoldsAll E S W is (n + 1) ∧ ys = outs.map W)

theorem cut_spec {npi n : Nat} {fl : Flat F} {splitAt : List Nat} {pool pool' : List (Prog F)} {spl : Spl} (h : cut n fl splitAt pool = some (spl, pool')) (hs : splitAt.Pairwise (· < ·))
    (hlay : LayOk fl.ls fl.insns (n + 1)) (hv : ∀ i ∈ fl.insns, Verif.IR.Dest.Insn.valid npi i = true) (ha : ArgsOk fl.insns (n + 1)) (hp : PoolOk npi pool) (hc : CallsIn pool pool.length fl.insns) :
    CutOk npi n fl.insns (fl.outs ++ fl.adds) spl pool pool' := by
  unfold cut at h
  dsimp only at h
  split at h
  · rename_i hcond
    generalize hmx : maxPass fl.ls fl.insns (n + 1) fl.scl fl.ls = mx at h
    generalize hcv : fl.ls.length - 1 = cvm at h
    cases hl : segLoop n cvm fl.insns fl.ls mx (pairs splitAt) (SegSt.init n (fl.outs ++ fl.adds)) pool with
    | none => rw [hl] at h; cases h
    | some r =>
      obtain ⟨st, pool1⟩ := r
      rw [hl] at h
      dsimp only at h
      cases hf : mapOpt st.fin (fl.outs ++ fl.adds) with
      | none => rw [hf] at h; cases h
      | some refs =>
        rw [hf] at h
        simp only [Option.some.injEq, Prod.mk.injEq] at h
        obtain ⟨rfl, rfl⟩ := h
        have hinit : Inv n pool (SegSt.init n (fl.outs ++ fl.adds)) [] := by
          refine ⟨rfl, ?_, ?_, ?_, rfl⟩
          · intro j i hji; simp only [SegSt.init] at hji; split at hji <;> cases hji
          · intro j i hji
            simp only [SegSt.init] at hji
            split at hji
            · cases hji; omega
            · cases hji
          · intro j r hr
            simp only [SegSt.init] at hr
            split at hr
            · cases hr; exact Or.inl ⟨_, rfl, by omega, by omega⟩
            · cases hr
        obtain ⟨iv, i1, i2, i3, -, i5⟩ := segLoop_spec (npi := npi) hlay hv splitAt _ _ _ _ [] [] hl hs (by simp) hinit hp hc
        have hrefs : ∀ (k : Nat) (r : Ref), refs[k]? = some r → ∃ o, (fl.outs ++ fl.adds)[k]? = some o ∧ st.fin o = some r := by
          intro k r hk
          have hlen := mapOpt_length hf
          have hk' := (List.getElem?_eq_some_iff.1 hk).1
          obtain ⟨o, ho⟩ : ∃ o, (fl.outs ++ fl.adds)[k]? = some o := ⟨_, List.getElem?_eq_getElem (by omega)⟩
          exact ⟨o, ho, by rw [mapOpt_getElem? hf k o ho, hk]⟩
        have hlen := mapOpt_length hf
        refine ⟨i3, i2, ⟨iv.length, i1.segs, ?_⟩, hlen, ?_⟩
        · intro r hr
          obtain ⟨k, hk⟩ := List.getElem?_of_mem hr
          obtain ⟨o, -, ho⟩ := hrefs k r hk
          rcases i1.fin o r ho with ⟨i, h1, h2, h3⟩ | ⟨i, h1, h2⟩
          · exact Or.inl ⟨i, h1, h3⟩
          · exact Or.inr ⟨i, h1, (List.getElem?_eq_some_iff.1 h2).1⟩
        · intro E S PF hPF hPo hsub hnu ins ys hins
          have hm0 : Mean E S PF n fl.ls fl.insns (SegSt.init n (fl.outs ++ fl.adds)) [] [] := by
            refine ⟨by simp, by simp, fun _ _ _ _ _ _ _ => trivial, fun ins V hl _ => ⟨fun v => ins.getD (v - 1) 0, ?_, by simp, by simp⟩⟩
            intro i v hi
            simp only [Nat.add_sub_cancel]; rw [List.getD_eq_getElem?_getD, hi]; rfl
          have hm := i5 E S PF hPF hsub hnu hm0
          rw [List.nil_append] at hm
          -- values of the outputs
          have hvals : ∀ W V : Nat → F, InputsAre W ins → (∀ (i v : Nat), iv[i]? = some v → V i = W v) → refs.map (rv ins V) = (fl.outs ++ fl.adds).map W := by
            intro W V hW hV
            apply List.ext_getElem?
            intro k
            rw [List.getElem?_map, List.getElem?_map]
            cases hk : refs[k]? with
            | none => rw [List.getElem?_eq_none (by rw [← hlen]; exact List.getElem?_eq_none_iff.1 hk)]; rfl
            | some r =>
              obtain ⟨o, h1, h2⟩ := hrefs k r hk
              rw [h1]
              refine congrArg some ?_
              rcases i1.fin o r h2 with ⟨i, rfl, rfl, h3⟩ | ⟨i, rfl, h3⟩
              · show ins.getD i 0 = W (i + 1)
                rw [List.getD_eq_getElem?_getD, List.getElem?_eq_getElem (by omega)]
                exact (hW i _ (List.getElem?_eq_getElem (by omega))).symm
              · exact hV i o h3
          constructor
          · rintro ⟨V, h1, rfl⟩
            obtain ⟨P, p1, p2, p3⟩ := hm.bwd ins V hins h1
            obtain ⟨W, w1, w2⟩ := extend (E := E) (S := S) (A := Asg n fl.ls fl.insns (pairs splitAt)) fl.insns (n + 1) P (calls_total hPo hsub (hc.mono (i3.trans hPF) (le_refl _))) ha (by
              intro p hp
              by_cases hin : ∃ q ∈ pairs splitAt, incl fl.ls q.1 q.2 p.1 p.2 = true
              · obtain ⟨q, q1, q2⟩ := hin
                exact Or.inl ⟨fun v h1 h2 => Or.inr ⟨q, q1, p, hp, q2, h1, h2⟩, hm.args q q1 p hp q2, p2 q q1 p hp q2⟩
              · refine Or.inr fun v h1 h2 hA => ?_
                rcases hA with hA | ⟨q, q1, p', q2, q3, q4, q5⟩
                · have := placed_ge _ _ p hp; omega
                · cases placed_inj _ _ p p' v hp q2 h1 h2 q4 q5
                  exact hin ⟨q, q1, q3⟩)
            have hW : InputsAre W ins := by
              intro i v hi
              have := (List.getElem?_eq_some_iff.1 hi).1
              rw [w1 _ (Or.inl (by omega))]; exact p1 i v hi
            refine ⟨W, hW, w2, hvals W V hW ?_⟩
            intro i v hi
            rw [p3 i v hi, w1 v (Or.inr (hm.asg v (List.mem_of_getElem? hi)))]
          · rintro ⟨W, w1, w2, rfl⟩
            have hV : ∀ (i v : Nat), iv[i]? = some v → (fun i => W (iv.getD i 0)) i = W v := by
              intro i v hi
              simp only; rw [List.getD_eq_getElem?_getD, hi]; rfl
            exact ⟨_, hm.fwd ins W _ hins w1 w2 hV, (hvals W _ w1 hV).symm⟩
  · cases h

end Verif.Layering.Split
