import Verif.Layering.Transition

/-!
# `connect` produces wired circuits
-/

set_option linter.unusedSectionVars false
set_option linter.unusedSimpArgs false

namespace Verif.Layering

open Verif.IR (Expr Coef Term VarSpec Env)
open Verif.Layered (Segment Gate Input Alloc)

variable {F : Type} [Field F] [DecidableEq F]
variable {tab : Nat → Option (Ctx F)}

theorem Wired.mono {segs : List (Segment F)} {id : Nat} {layouts : List Layout} {ids : List Nat} (h : Wired tab segs id layouts ids) (ext : List (Segment F)) :
    Wired tab (segs ++ ext) id layouts ids := by
  induction h with
  | mk lv hrec hlt hg hseg ih =>
    refine .mk lv ih hlt hg ?_
    intro i hi
    obtain ⟨a, h1, h2⟩ := hseg i hi
    refine ⟨a, h1, ?_⟩
    rw [List.getElem?_append_left (List.getElem?_eq_some_iff.1 h2).1, h2]

theorem mapOpt_get {α β : Type} {f : α → Option β} {l : List α} {r : List β} (h : mapOpt f l = some r) {i : Nat} {a : α} (ha : l[i]? = some a) :
    ∃ y, f a = some y ∧ r[i]? = some y := by
  have h1 := mapOpt_getElem? h i a ha
  have hi : i < r.length := by rw [mapOpt_length h]; exact (List.getElem?_eq_some_iff.1 ha).1
  rw [List.getElem?_eq_getElem hi] at h1 ⊢
  exact ⟨_, h1, rfl⟩

theorem connAll_spec {rec : List Layout → List (Segment F) → Option (List Nat × List (Segment F))} {P : List Layout → Prop}
    {Q : List (Segment F) → List Layout → List Nat → Prop} (hmono : ∀ s l i ext, Q s l i → Q (s ++ ext) l i)
    (hrec : ∀ l sg ids sg', P l → rec l sg = some (ids, sg') → (∃ ext, sg' = sg ++ ext) ∧ (∀ b ∈ ids, b < sg'.length) ∧ Q sg' l ids) :
    ∀ (ls : List (List Layout)) (sg : List (Segment F)) (r : List (List Nat)) (sg' : List (Segment F)), (∀ l ∈ ls, P l) → connAll rec ls sg = some (r, sg') →
      (∃ ext, sg' = sg ++ ext) ∧ r.length = ls.length ∧ ∀ (k : Nat) (l : List Layout), ls[k]? = some l → (∀ b ∈ r.getD k [], b < sg'.length) ∧ Q sg' l (r.getD k []) := by
  intro ls
  induction ls with
  | nil => intro sg r sg' _ h; simp [connAll] at h; obtain ⟨rfl, rfl⟩ := h; exact ⟨⟨[], by simp⟩, rfl, by simp⟩
  | cons l ls ih =>
    intro sg r sg' hP h
    unfold connAll at h
    cases h1 : rec l sg with
    | none => rw [h1] at h; cases h
    | some x =>
      obtain ⟨ids, sg1⟩ := x
      rw [h1] at h
      simp only at h
      cases h2 : connAll rec ls sg1 with
      | none => rw [h2] at h; cases h
      | some y =>
        obtain ⟨r2, sg2⟩ := y
        rw [h2] at h
        simp only [Option.some.injEq, Prod.mk.injEq] at h
        obtain ⟨rfl, rfl⟩ := h
        obtain ⟨⟨e1, rfl⟩, a2, a3⟩ := hrec l sg ids sg1 (hP l (by simp)) h1
        obtain ⟨⟨e2, rfl⟩, b2, b3⟩ := ih _ _ _ (fun l hl => hP l (by simp [hl])) h2
        refine ⟨⟨e1 ++ e2, by simp⟩, by simp [b2], ?_⟩
        intro k l' hl'
        cases k with
        | zero =>
          simp at hl'; subst hl'
          simp only [List.getD_cons_zero]
          refine ⟨fun b hb => ?_, hmono _ _ _ _ a3⟩
          have := a2 b hb
          rw [List.length_append]; omega
        | succ k =>
          simp at hl'
          simp only [List.getD_cons_succ]
          exact b3 k l' hl'

theorem connect_spec (htab : ∀ id c, tab id = some c → CtxOk tab c) : ∀ (fuel : Nat) (layouts : List Layout) (segs : List (Segment F)) (ids : List Nat) (segs' : List (Segment F)),
    (∀ L ∈ layouts, LayoutOk tab L) → connect tab fuel layouts segs = some (ids, segs') →
    (∃ ext, segs' = segs ++ ext) ∧ (∀ b ∈ ids, b < segs'.length) ∧ ∀ l0, layouts.head? = some l0 → Wired tab segs' l0.circ layouts ids := by
  intro fuel
  induction fuel with
  | zero => intro layouts segs ids segs' _ h; cases h
  | succ f ih =>
    intro layouts segs ids segs' hok h
    unfold connect at h
    cases layouts with
    | nil => cases h
    | cons l0 rest =>
      simp only at h
      generalize hls : l0 :: rest = layouts at *
      cases hc : tab l0.circ with
      | none => rw [hc] at h; cases h
      | some c =>
        rw [hc] at h
        simp only at h
        split at h
        · cases h
        · rename_i hchk
          rw [Decidable.not_not] at hchk
          obtain ⟨hlen, hlay⟩ := hchk
          cases hqs : mapOpt (fun i => ((layouts[i]?).map (layoutQuery (c.vars.getD i []))).getD none) (List.range (c.outL + 1)) with
          | none => rw [hqs] at h; cases h
          | some qs =>
            rw [hqs] at h
            simp only at h
            split at h
            · cases h
            · rename_i hfull
              rw [Decidable.not_not] at hfull
              cases hsl : mapOpt (callLayouts tab c layouts qs) (List.range c.prog.calls.length) with
              | none => rw [hsl] at h; cases h
              | some subls =>
                rw [hsl] at h
                simp only at h
                cases hca : connAll (connect tab f) (subls.map fun l => l.map (·.2)) segs with
                | none => rw [hca] at h; cases h
                | some x =>
                  obtain ⟨cids, segs1⟩ := x
                  rw [hca] at h
                  simp only at h
                  cases hgs : mapOpt (layerGates tab c qs (fun k j => (subls.getD k [])[j]?)) (List.range c.outL) with
                  | none => rw [hgs] at h; cases h
                  | some gss =>
                    rw [hgs] at h
                    simp only [Option.some.injEq, Prod.mk.injEq] at h
                    obtain ⟨rfl, rfl⟩ := h
                    have ok := htab _ c hc
                    have lv : Level tab l0.circ c layouts qs subls := by
                      refine ⟨hc, hlen, ?_, ?_, ?_, ?_⟩
                      · intro i L hL
                        have hi : i < layouts.length := (List.getElem?_eq_some_iff.1 hL).1
                        have := List.all_eq_true.1 hlay i (List.mem_range.2 hi)
                        rw [hL] at this
                        simpa using this
                      · intro i L hL
                        have hi : i < layouts.length := (List.getElem?_eq_some_iff.1 hL).1
                        have h1 := mapOpt_get hqs (show (List.range (c.outL + 1))[i]? = some i from List.getElem?_range (by omega))
                        obtain ⟨y, hy, hy'⟩ := h1
                        rw [hL] at hy
                        simp only [Option.map_some, Option.getD_some] at hy
                        rw [List.getD_eq_getElem?_getD, hy']
                        exact hy
                      · intro i hi x hx
                        have := List.all_eq_true.1 hfull i (List.mem_range.2 hi)
                        exact List.all_eq_true.1 this x hx
                      · intro k q s hq hs
                        have hk : k < c.prog.calls.length := (List.getElem?_eq_some_iff.1 hq).1
                        obtain ⟨y, hy, hy'⟩ := mapOpt_get hsl (show (List.range c.prog.calls.length)[k]? = some k from List.getElem?_range hk)
                        unfold callLayouts at hy
                        rw [hq] at hy
                        simp only [hs] at hy
                        rw [List.getD_eq_getElem?_getD, hy', Option.getD_some]
                        have hylen := mapOpt_length hy
                        rw [List.length_range] at hylen
                        refine ⟨hylen, ?_⟩
                        intro j sl hj
                        have hjl : j < s.outL + 1 := by rw [← hylen]; exact (List.getElem?_eq_some_iff.1 hj).1
                        obtain ⟨z, hz, hz'⟩ := mapOpt_get hy (show (List.range (s.outL + 1))[j]? = some j from List.getElem?_range hjl)
                        rw [hj] at hz'; cases hz'
                        exact hz
                    have hslen : subls.length = c.prog.calls.length := by
                      have := mapOpt_length hsl
                      simpa using this
                    have hsubok : ∀ l ∈ subls.map fun l => l.map (·.2), ∀ L ∈ l, LayoutOk tab L := by
                      intro l hl L hL
                      obtain ⟨sl, h1, rfl⟩ := List.mem_map.1 hl
                      obtain ⟨⟨off, S⟩, h2, rfl⟩ := List.mem_map.1 hL
                      obtain ⟨k, hk⟩ := List.getElem?_of_mem h1
                      have hklt : k < c.prog.calls.length := by rw [← hslen]; exact (List.getElem?_eq_some_iff.1 hk).1
                      obtain ⟨q, hq⟩ := calls_lt hklt
                      obtain ⟨s, hs⟩ := ok.sub k q hq
                      obtain ⟨j, hj⟩ := List.getElem?_of_mem h2
                      have : (subls.getD k [])[j]? = some (off, S) := by
                        rw [List.getD_eq_getElem?_getD, hk]; exact hj
                      exact (lv.sub_ok hok hq hs (htab _ s hs).outPos this (ok.callEnd k q s hq hs)).1
                    obtain ⟨⟨ext1, hext1⟩, hrl, hall⟩ := connAll_spec (P := fun l => ∀ L ∈ l, LayoutOk tab L)
                      (Q := fun sg l ids => ∀ l0, l.head? = some l0 → Wired tab sg l0.circ l ids)
                      (fun s l i ext hq l0 h0 => (hq l0 h0).mono ext) (fun l sg ids sg' hp hr => ih l sg ids sg' hp hr) _ _ _ _ hsubok hca
                    refine ⟨⟨_, by rw [hext1, List.append_assoc]⟩, ?_, ?_⟩
                    · intro b hb
                      obtain ⟨i, hi, rfl⟩ := List.mem_map.1 hb
                      rw [List.mem_range] at hi
                      simp; omega
                    · intro l0' hl0'
                      rw [← hls] at hl0'
                      simp at hl0'; subst hl0'
                      refine .mk (cids := cids) (gss := gss) lv ?_ ?_ ?_ ?_
                      · intro k q hq
                        have hk : k < c.prog.calls.length := (List.getElem?_eq_some_iff.1 hq).1
                        obtain ⟨s, hs⟩ := ok.sub k q hq
                        have oks := htab _ s hs
                        obtain ⟨hsl1, _⟩ := lv.sub k q s hq hs
                        have hget : (subls.map fun l => l.map (·.2))[k]? = some ((subls.getD k []).map (·.2)) := by
                          rw [List.getElem?_map, List.getElem?_eq_getElem (by omega), List.getD_eq_getElem?_getD, List.getElem?_eq_getElem (by omega)]
                          rfl
                        obtain ⟨_, hQ⟩ := hall k _ hget
                        have h0 : (subls.getD k [])[0]? = some ((subls.getD k [])[0]'(by omega)) := List.getElem?_eq_getElem (by omega)
                        generalize ((subls.getD k [])[0]'(by omega)) = sl0 at h0
                        obtain ⟨L, _, _, hcase⟩ := lv.sub_cases hok hq hs oks.outPos h0 (ok.callEnd k q s hq hs)
                        have hcirc : sl0.2.circ = q.sub := by
                          rcases hcase with ⟨h, _⟩ | ⟨h, _⟩ | ⟨_, _, h⟩
                          · omega
                          · have := oks.outPos; omega
                          · rw [h]
                            unfold query
                            split
                            · rfl
                            · rfl
                        have := hQ sl0.2 (by rw [List.head?_eq_getElem?, List.getElem?_map, h0]; rfl)
                        rw [hcirc] at this
                        exact this.mono _
                      · intro i k a b hi ha hb
                        rw [List.getElem?_map, List.getElem?_range hi] at ha
                        simp at ha
                        by_cases hk : k < c.prog.calls.length
                        · have hget : (subls.map fun l => l.map (·.2))[k]? = some ((subls.getD k []).map (·.2)) := by
                            rw [List.getElem?_map, List.getElem?_eq_getElem (by omega), List.getD_eq_getElem?_getD, List.getElem?_eq_getElem (by omega)]
                            rfl
                          have := (hall k _ hget).1 b hb
                          omega
                        · rw [List.getD_eq_getElem?_getD, List.getElem?_eq_none (by simp at hrl; omega)] at hb
                          cases hb
                      · intro i hi
                        obtain ⟨y, hy, hy'⟩ := mapOpt_get hgs (show (List.range c.outL)[i]? = some i from List.getElem?_range hi)
                        rw [hy, List.getD_eq_getElem?_getD, hy']; rfl
                      · intro i hi
                        refine ⟨segs1.length + i, ?_, ?_⟩
                        · rw [List.getElem?_map, List.getElem?_range hi]; rfl
                        · rw [List.getElem?_append_right (by omega), Nat.add_sub_cancel_left, List.getElem?_map, List.getElem?_range hi]
                          rfl

end Verif.Layering
