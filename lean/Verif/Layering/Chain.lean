import Verif.Layering.SolveOk

/-!
# All layers of the root circuit

The contents of the last layer are exactly those of the traces that satisfy the equations of all layers.
-/

set_option linter.unusedSectionVars false
set_option linter.unusedSimpArgs false

namespace Verif.Layering

open Verif.IR (Expr Coef Term VarSpec Env)
open Verif.Layered (Segment Gate Input Alloc LEnv den layersSet CoefVal addVec)

variable {F : Type} [Field F] [DecidableEq F]
variable {tab : Nat → Option (Ctx F)} {E : Env F} {V : LEnv F F} {segs : List (Segment F)}

theorem varsOf_cases {c : Ctx F} (ok : CtxOk tab c) {j x : Nat} (hj : j ≤ c.outL) (hx : x ∈ c.varsOf j) :
    (1 ≤ x ∧ x < c.prog.nv ∧ c.lay x ≤ j) ∨ ∃ cc, c.cc.getD j none = some cc ∧ x = cc.id := by
  by_cases h : x < c.prog.nv
  · have h1 := ok.mem_vars_lt hj hx h
    exact .inl ⟨(ok.occRange x j h1).1, h, ok.lay_le h1⟩
  · exact .inr (ok.mem_vars_ge hj hx (by omega))

theorem layoutQuery_range {vars : List Nat} {L : Layout} {q : List (Nat × Nat)} (h : layoutQuery vars L = some q) :
    ∀ p idx, (p, idx) ∈ L.slots → ∃ x, vars[idx]? = some x := by
  intro p idx hm
  unfold layoutQuery at h
  split at h
  · cases h
  · rename_i q' hq
    obtain ⟨i, hi⟩ := List.getElem?_of_mem hm
    obtain ⟨y, h1, _⟩ := mapOpt_get hq hi
    obtain ⟨v, hv, _⟩ := Option.map_eq_some_iff.1 h1
    exact ⟨v, hv⟩

/-- Buffers keep agreeing with the trace when later values change. -/
theorem agrees_same (htab : ∀ id c, tab id = some c → CtxOk tab c) {id : Nat} {layouts : List Layout} {ids : List Nat} (hw : Wired tab segs id layouts ids) :
    (∀ L ∈ layouts, LayoutOk tab L) → ∀ {i j : Nat} {T T' : Trace F} {L : Layout} {b : List F},
      layouts[j]? = some L → j ≤ i → Same tab id i T T' → Agrees tab L T b → Agrees tab L T' b := by
  induction hw with
  | @mk id layouts ids c qs subls cids gss lv hrec hlt hg hseg ih =>
    intro hok i j T T' L b hL hji hsame hag
    have ok := htab _ _ lv.hc
    have hj : j ≤ c.outL := by
      have h1 := (List.getElem?_eq_some_iff.1 hL).1
      have h2 := lv.len
      omega
    obtain ⟨hlay, hcirc⟩ := lv.lay j L hL
    cases hsame with
    | @mk _ _ _ _ c' hc' sv scc ssub =>
      rw [lv.hc] at hc'; cases hc'
      cases hag with
      | mk hl hs hr hsub =>
        refine .mk hl ?_ hr ?_
        · intro p idx hm
          rw [hs p idx hm, lv.lvars_eq hL]
          obtain ⟨x, hx⟩ := layoutQuery_range (lv.hquery j L hL) p idx hm
          rw [List.getD_eq_getElem?_getD, hx, Option.getD_some]
          rcases varsOf_cases ok hj (List.mem_of_getElem? hx) with ⟨h1, h2, h3⟩ | ⟨cc, h1, rfl⟩
          · rw [sv x h1 h2 (by omega)]
          · rw [scc j cc hji h1]
        · intro k off S hm
          have hLok := hok L (List.mem_of_getElem? hL)
          cases hLok with
          | mk c' hc' hp hs' hn hk hsub' hr' hd hdd hmm =>
            obtain ⟨q, s, e1, e2, e3, e4, e5, e6⟩ := hmm k off S hm
            rw [hcirc, lv.hc] at hc'; cases hc'
            rw [hlay] at e4 e5 e6
            obtain ⟨hsl, hsub2⟩ := lv.sub k q s e1 e2
            have hjj : (subls.getD k [])[j - c.start k]? = some ((subls.getD k [])[j - c.start k]'(by omega)) := List.getElem?_eq_getElem (by omega)
            have hval := hsub2 _ _ hjj
            unfold subLayout at hval
            have hst : c.starts.getD k 0 = c.start k := rfl
            simp only [hst, show c.start k + (j - c.start k) = j by omega, hL, Option.map_some, Option.getD_some, lookup_of_mem hk hm, Option.some.injEq] at hval
            rw [← hval] at hjj
            have hlok : ∀ M ∈ (subls.getD k []).map (·.2), LayoutOk tab M := by
              intro M hM
              obtain ⟨⟨o, M'⟩, h2, rfl⟩ := List.mem_map.1 hM
              obtain ⟨jj, hjj⟩ := List.getElem?_of_mem h2
              exact (lv.sub_ok hok e1 e2 (htab _ s e2).outPos hjj (ok.callEnd k q s e1 e2)).1
            exact ih k q e1 hlok (by rw [List.getElem?_map, hjj]; rfl) (by omega) (ssub k q e1 (by omega)) (hsub k off S hm)

/-- The layers up to `i`, newest first. -/
def histOf (bufs : Nat → List F) (i : Nat) : List (List F) := (List.range (i + 1)).map fun l => bufs (i - l)

theorem histOf_succ (bufs : Nat → List F) (i : Nat) : histOf bufs (i + 1) = bufs (i + 1) :: histOf bufs i := by
  rw [histOf, List.range_succ_eq_map, List.map_cons, List.map_map]
  congr 1
  apply List.map_congr_left
  intro l _
  show bufs (i + 1 - (l + 1)) = _
  congr 1; omega

theorem histOf_congr {bufs bufs' : Nat → List F} {i : Nat} (h : ∀ j ≤ i, bufs j = bufs' j) : histOf bufs i = histOf bufs' i := by
  apply List.map_congr_left
  intro l hl
  exact h _ (by omega)

theorem histOf_window (c : Ctx F) (bufs : Nat → List F) (i : Nat) : (histOf bufs i).take (i + 1 - c.mu.getD (i + 1) 0) = window c bufs i := by
  rw [histOf, window, ← List.map_take, List.take_range]
  congr 2
  omega

/-- What `connect` guarantees, at the root. -/
structure RootWired (E : Env F) (V : LEnv F F) (segs : List (Segment F)) (tab : Nat → Option (Ctx F)) (id : Nat) (c : Ctx F) (layouts : List Layout) (ids : List Nat) : Prop where
  hV : EnvOk E V
  htab : ∀ id c, tab id = some c → CtxOk tab c
  hco : ∀ id c, tab id = some c → ∀ x a, c.prog.defn x = some (.const a) → ∀ y, CoefVal V a y ↔ a.Sem E y
  hc : tab id = some c
  wired : Wired tab segs id layouts ids
  ok : ∀ L ∈ layouts, LayoutOk tab L
  lt : ∀ b ∈ ids, b < segs.length
  len : ids.length = c.outL

theorem RootWired.seg {id : Nat} {c : Ctx F} {layouts : List Layout} {ids : List Nat} (r : RootWired E V segs tab id c layouts ids) {i : Nat} (hi : i < c.outL) :
    ∃ a seg L, ids[i]? = some a ∧ segs[a]? = some seg ∧ layouts[i + 1]? = some L ∧ L.layer = i + 1 ∧ seg.numInputs.length = i + 1 - c.mu.getD (i + 1) 0 ∧ seg.numOutputs = L.size := by
  cases r.wired with
  | @mk _ _ _ c' qs subls cids gss lv hrec hlt hg hseg =>
    have := r.hc
    rw [lv.hc] at this; cases this
    obtain ⟨a, h1, h2⟩ := hseg i hi
    obtain ⟨L, hL⟩ := lv.get (i := i + 1) (by omega)
    refine ⟨a, _, L, h1, h2, hL, (lv.lay _ L hL).1, ?_, mkSegment_numOutputs hL⟩
    rw [mkSegment_numInputs]; simp

theorem chain_sound {id : Nat} {c : Ctx F} {layouts : List Layout} {ids : List Nat} (r : RootWired E V segs tab id c layouts ids) :
    ∀ (n i : Nat), i + n = c.outL → ∀ (T : Trace F) (bufs : Nat → List F) (ws : List (List F)), (∀ j ≤ i, EqAt E tab id j T) →
      (∀ (j : Nat) (L : Layout), j ≤ i → layouts[j]? = some L → Agrees tab L T (bufs j)) → ws ∈ layersSet V segs (ids.drop i) (histOf bufs i) →
      ∃ T' : Trace F, Same tab id i T T' ∧ (∀ j ≤ c.outL, EqAt E tab id j T') ∧
        ∃ b, ws.head? = some b ∧ ∀ L, layouts[c.outL]? = some L → Agrees tab L T' b := by
  intro n
  induction n with
  | zero =>
    intro i hi T bufs ws hT hb hws
    have : i = c.outL := by omega
    subst this
    rw [List.drop_of_length_le (by rw [r.len]), layersSet, Set.mem_singleton_iff] at hws
    subst hws
    refine ⟨T, Same.refl r.wired.tree _ _, hT, bufs c.outL, ?_, fun L hL => hb _ L (le_refl _) hL⟩
    simp [histOf, List.range_succ_eq_map]
  | succ n ih =>
    intro i hi T bufs ws hT hb hws
    obtain ⟨a, seg, L, h1, h2, hL, hlay, hni, hno⟩ := r.seg (i := i) (by omega)
    rw [List.drop_eq_getElem_cons (by rw [r.len]; omega)] at hws
    have ha : ids[i]'(by rw [r.len]; omega) = a := by
      rw [List.getElem?_eq_getElem (by rw [r.len]; omega)] at h1; exact Option.some.inj h1
    rw [ha] at hws
    obtain ⟨seg', t, h2', _, ht, hws⟩ := hws
    rw [h2] at h2'; cases h2'
    have hmu : c.mu.getD (i + 1) 0 ≤ i := (r.htab _ _ r.hc).mu1 i (by omega)
    rw [hni, histOf_window, transition r.hV r.htab r.hco r.wired c r.hc i (by omega) T bufs (segs.length + 1) a seg r.ok hT
      (fun j L h h' hL => hb j L h' hL) h1 h2 (by have := r.lt a (List.mem_of_getElem? h1); omega)] at ht
    obtain ⟨T1, hs1, he1, hf⟩ := ht
    have hf := hf L hL
    subst hf
    rw [hno, addVec_replicate] at hws
    have hh : vecOf L.size (fill tab L T1) :: histOf bufs i = histOf (fun j => if j = i + 1 then vecOf L.size (fill tab L T1) else bufs j) (i + 1) := by
      rw [histOf_succ, if_pos rfl]
      congr 1
      exact histOf_congr (fun j hj => by rw [if_neg (by omega)])
    rw [hh] at hws
    obtain ⟨T', g1, g2, g3⟩ := ih (i + 1) (by omega) T1 _ ws (by
        intro j hj
        by_cases e : j = i + 1
        · subst e; exact he1
        · exact EqAt.of_same r.htab (hT j (by omega)) (by omega : j ≤ i) hs1) (by
        intro j M hj hM
        by_cases e : j = i + 1
        · subst e; rw [hL] at hM; cases hM; rw [if_pos rfl]; exact agrees_fill (r.ok L (List.mem_of_getElem? hL)) T1
        · rw [if_neg e]; exact agrees_same r.htab r.wired r.ok hM (by omega) hs1 (hb j M (by omega) hM)) hws
    exact ⟨T', hs1.trans (by omega) g1, g2, g3⟩

theorem chain_complete {id : Nat} {c : Ctx F} {layouts : List Layout} {ids : List Nat} (r : RootWired E V segs tab id c layouts ids) :
    ∀ (n i : Nat), i + n = c.outL → ∀ (T : Trace F) (bufs : Nat → List F), (∀ j ≤ c.outL, EqAt E tab id j T) →
      (∀ (j : Nat) (L : Layout), j ≤ i → layouts[j]? = some L → Agrees tab L T (bufs j)) →
      ∃ ws b, ws ∈ layersSet V segs (ids.drop i) (histOf bufs i) ∧ ws.head? = some b ∧ ∀ L, layouts[c.outL]? = some L → Agrees tab L T b := by
  intro n
  induction n with
  | zero =>
    intro i hi T bufs hT hb
    have : i = c.outL := by omega
    subst this
    rw [List.drop_of_length_le (by rw [r.len]), layersSet]
    refine ⟨_, bufs c.outL, Set.mem_singleton _, ?_, fun L hL => hb _ L (le_refl _) hL⟩
    simp [histOf, List.range_succ_eq_map]
  | succ n ih =>
    intro i hi T bufs hT hb
    obtain ⟨a, seg, L, h1, h2, hL, hlay, hni, hno⟩ := r.seg (i := i) (by omega)
    rw [List.drop_eq_getElem_cons (by rw [r.len]; omega)]
    have ha : ids[i]'(by rw [r.len]; omega) = a := by
      rw [List.getElem?_eq_getElem (by rw [r.len]; omega)] at h1; exact Option.some.inj h1
    rw [ha]
    have hh : vecOf L.size (fill tab L T) :: histOf bufs i = histOf (fun j => if j = i + 1 then vecOf L.size (fill tab L T) else bufs j) (i + 1) := by
      rw [histOf_succ, if_pos rfl]
      congr 1
      exact histOf_congr (fun j hj => by rw [if_neg (by omega)])
    obtain ⟨ws, b, g1, g2, g3⟩ := ih (i + 1) (by omega) T (fun j => if j = i + 1 then vecOf L.size (fill tab L T) else bufs j) hT (by
        intro j M hj hM
        by_cases e : j = i + 1
        · subst e; rw [hL] at hM; cases hM; simp only [if_true]; exact agrees_fill (r.ok L (List.mem_of_getElem? hL)) T
        · simp only [e, if_false]; exact hb j M (by omega) hM)
    refine ⟨ws, b, ⟨seg, fill tab L T, h2, ?_, ?_, ?_⟩, g2, g3⟩
    · rw [hni]; simp [histOf]
    · rw [hni, histOf_window, transition r.hV r.htab r.hco r.wired c r.hc i (by omega) T bufs (segs.length + 1) a seg r.ok (fun j hj => hT j (by omega))
        (fun j L h h' hL => hb j L h' hL) h1 h2 (by have := r.lt a (List.mem_of_getElem? h1); omega)]
      exact ⟨T, Same.refl r.wired.tree _ _, hT _ (by omega), fun M hM => by rw [hL] at hM; cases hM; rfl⟩
    · rw [hno, addVec_replicate, hh]; exact g1

end Verif.Layering
