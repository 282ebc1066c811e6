import Verif.Layering.Gates

/-!
# One circuit and the layouts of its layers

`Level` is what `connect` has checked about the layouts of a circuit; from it follow the properties of the layouts of the called circuits.
-/

set_option linter.unusedSectionVars false
set_option linter.unusedSimpArgs false

namespace Verif.Layering

open Verif.IR (Expr Coef Term VarSpec Env)
open Verif.Layered (Segment Gate Input Alloc LEnv den opSet opsSet shiftOut Op specOps readInput childIn CoefVal gateVal)
open scoped Pointwise

variable {F : Type} [Field F] [DecidableEq F]

/-- The layouts of all layers of a circuit, and of the circuits it calls. -/
structure Level (tab : Nat → Option (Ctx F)) (id : Nat) (c : Ctx F) (layouts : List Layout) (qs : List (List (Nat × Nat)))
    (subls : List (List (Nat × Layout))) : Prop where
  hc : tab id = some c
  len : layouts.length = c.outL + 1
  lay : ∀ (i : Nat) (L : Layout), layouts[i]? = some L → L.layer = i ∧ L.circ = id
  hquery : ∀ (i : Nat) (L : Layout), layouts[i]? = some L → layoutQuery (c.varsOf i) L = some (qs.getD i [])
  full : ∀ i < c.outL, ∀ x ∈ c.varsOf i, ((qs.getD i []).lookup x).isSome
  sub : ∀ (k : Nat) (q : Call) (s : Ctx F), c.prog.calls[k]? = some q → tab q.sub = some s →
    (subls.getD k []).length = s.outL + 1 ∧ ∀ (j : Nat) (sl : Nat × Layout), (subls.getD k [])[j]? = some sl → subLayout c s q layouts qs k j = some sl

theorem mapOpt_mem {α β : Type} {f : α → Option β} : ∀ {l : List α} {r : List β}, mapOpt f l = some r → ∀ b ∈ r, ∃ a ∈ l, f a = some b := by
  intro l
  induction l with
  | nil => intro r h b hb; simp [mapOpt] at h; subst h; cases hb
  | cons a l ih =>
    intro r h b hb
    obtain ⟨y, ys, h1, h2, rfl⟩ := mapOpt_cons.1 h
    rcases List.mem_cons.1 hb with e | e
    · subst e; exact ⟨a, by simp, h1⟩
    · obtain ⟨a', h3, h4⟩ := ih h2 b e; exact ⟨a', by simp [h3], h4⟩

theorem layoutQuery_spec {vars : List Nat} {L : Layout} {q : List (Nat × Nat)} (h : layoutQuery vars L = some q) :
    (q.map (·.1)).Nodup ∧ (∀ x p, (x, p) ∈ q → ∃ idx, (p, idx) ∈ L.slots ∧ vars[idx]? = some x) ∧
    ∀ T : Trace F, ownFill vars L.slots T = (q.map fun e => single e.2 (T [] e.1)).sum := by
  unfold layoutQuery at h
  split at h
  · cases h
  · rename_i q' hq
    split at h
    · rename_i hn
      cases h
      refine ⟨hn, ?_, ?_⟩
      · intro x p hm
        obtain ⟨⟨p', idx⟩, h1, h2⟩ := mapOpt_mem hq _ hm
        obtain ⟨v, hv, e⟩ := Option.map_eq_some_iff.1 h2
        cases e
        exact ⟨idx, h1, hv⟩
      · intro T
        unfold ownFill
        congr 1
        clear hn
        revert hq
        generalize L.slots = sl
        intro hq
        induction sl generalizing q with
        | nil => simp [mapOpt] at hq; subst hq; rfl
        | cons a sl ih =>
          obtain ⟨y, ys, h1, h2, rfl⟩ := mapOpt_cons.1 hq
          obtain ⟨v, hv, rfl⟩ := Option.map_eq_some_iff.1 h1
          rw [List.map_cons, List.map_cons, ih h2]
          simp [List.getD_eq_getElem?_getD, hv]
    · cases h

namespace Level

variable {tab : Nat → Option (Ctx F)} {id : Nat} {c : Ctx F} {layouts : List Layout} {qs : List (List (Nat × Nat))} {subls : List (List (Nat × Layout))}

theorem get (lv : Level tab id c layouts qs subls) {i : Nat} (hi : i ≤ c.outL) : ∃ L, layouts[i]? = some L := by
  have := lv.len
  exact ⟨_, List.getElem?_eq_getElem (show i < layouts.length by omega)⟩

theorem lvars_eq (lv : Level tab id c layouts qs subls) {i : Nat} {L : Layout} (hL : layouts[i]? = some L) : lvars tab L = c.varsOf i := by
  obtain ⟨h1, h2⟩ := lv.lay i L hL
  rw [lvars, h2, lv.hc, h1]; rfl

theorem lookup_slot (lv : Level tab id c layouts qs subls) {i : Nat} {L : Layout} (hL : layouts[i]? = some L) {x p : Nat}
    (h : (qs.getD i []).lookup x = some p) : ∃ idx, (p, idx) ∈ L.slots ∧ (c.varsOf i)[idx]? = some x :=
  (layoutQuery_spec (F := F) (lv.hquery i L hL)).2.1 x p (lookup_mem h)

theorem lookup_lt (lv : Level tab id c layouts qs subls) {i : Nat} {L : Layout} (hL : layouts[i]? = some L) (hok : LayoutOk tab L) {x p : Nat}
    (h : (qs.getD i []).lookup x = some p) : p < L.size := by
  obtain ⟨idx, h1, _⟩ := lv.lookup_slot hL h
  cases hok with
  | mk c hc hp hs => exact hs p idx h1

theorem lookup_inj (lv : Level tab id c layouts qs subls) {i : Nat} {L : Layout} (hL : layouts[i]? = some L) (hok : LayoutOk tab L) {x x' p : Nat}
    (h : (qs.getD i []).lookup x = some p) (h' : (qs.getD i []).lookup x' = some p) : x = x' := by
  obtain ⟨idx, h1, h2⟩ := lv.lookup_slot hL h
  obtain ⟨idx', h1', h2'⟩ := lv.lookup_slot hL h'
  cases hok with
  | mk c hc hp hs hn =>
    have := List.inj_on_of_nodup_map hn h1 h1' rfl
    cases this
    rw [h2] at h2'; cases h2'; rfl

theorem lookup_vars (lv : Level tab id c layouts qs subls) {i : Nat} {L : Layout} (hL : layouts[i]? = some L) {x p : Nat}
    (h : (qs.getD i []).lookup x = some p) : x ∈ c.varsOf i := by
  obtain ⟨idx, h1, h2⟩ := lv.lookup_slot hL h
  exact List.mem_of_getElem? h2

/-- Buffers that agree with the layouts give the right values. -/
theorem reads (lv : Level tab id c layouts qs subls) {i : Nat} {bufs : Nat → List F} {T : Trace F} (hi : i < c.outL)
    (hb : ∀ (j : Nat) (L : Layout), c.mu.getD (i + 1) 0 ≤ j → j ≤ i → layouts[j]? = some L → Agrees tab L T (bufs j)) : ReadsOk c qs bufs T i := by
  intro j h1 h2 x p hp
  obtain ⟨L, hL⟩ := lv.get (i := j) (by omega)
  obtain ⟨idx, hs, hv⟩ := lv.lookup_slot hL hp
  have hA := hb j L h1 h2 hL
  have hlv := lv.lvars_eq hL
  cases hA with
  | mk hl hs' =>
    rw [hs' p idx hs, hlv]
    simp [List.getD_eq_getElem?_getD, hv]

/-- Where the layout of a called circuit comes from. -/
theorem sub_cases (lv : Level tab id c layouts qs subls) (hok : ∀ L ∈ layouts, LayoutOk tab L) {k : Nat} {q : Call} {s : Ctx F}
    (hq : c.prog.calls[k]? = some q) (hs : tab q.sub = some s) (hpos : 1 ≤ s.outL) {j : Nat} {sl : Nat × Layout} (hsl : (subls.getD k [])[j]? = some sl)
    (hend : c.start k + s.outL ≤ c.outL) :
    ∃ L, layouts[c.start k + j]? = some L ∧ j ≤ s.outL ∧
      ((0 < j ∧ j < s.outL ∧ L.subs.lookup k = some sl) ∨
       (j = s.outL ∧ L.subs.lookup k = none ∧ q.outputs.length ≤ s.prog.outs.length ∧ sl = query (qs.getD (c.start k + j) []) q.outputs s.prog.outs (s.varsOf j) q.sub j) ∨
       (j = 0 ∧ L.subs.lookup k = none ∧ sl = query (qs.getD (c.start k) []) q.inputs ((List.range q.inputs.length).map (· + 1)) (s.varsOf 0) q.sub 0)) := by
  obtain ⟨h1, h2⟩ := lv.sub k q s hq hs
  have hj : j < s.outL + 1 := by rw [← h1]; exact (List.getElem?_eq_some_iff.1 hsl).1
  obtain ⟨L, hL⟩ := lv.get (i := c.start k + j) (by omega)
  refine ⟨L, hL, by omega, ?_⟩
  have h3 := h2 j sl hsl
  unfold subLayout at h3
  have hst : c.starts.getD k 0 = c.start k := rfl
  simp only [hst, hL, Option.map_some, Option.getD_some] at h3
  have hLok := hok L (List.mem_of_getElem? hL)
  obtain ⟨hlay, hcirc⟩ := lv.lay _ L hL
  cases hl : L.subs.lookup k with
  | some x =>
    rw [hl] at h3
    simp only [Option.some.injEq] at h3
    subst h3
    obtain ⟨off, S⟩ := x
    cases hLok with
    | mk c' hc' hp hs' hn hk hsub hr hd hdd hm =>
      obtain ⟨q', s', e1, e2, _, e3, e4, _⟩ := hm k off S (lookup_mem hl)
      rw [hcirc, lv.hc] at hc'; cases hc'
      rw [hq] at e1; cases e1
      rw [hs] at e2; cases e2
      rw [hlay] at e3 e4
      exact .inl ⟨by omega, by omega, rfl⟩
  | none =>
    rw [hl] at h3
    simp only at h3
    split at h3
    · rename_i e
      split at h3
      · rename_i e2
        cases h3
        exact .inr (.inl ⟨e, rfl, e2, rfl⟩)
      · cases h3
    · split at h3
      · rename_i e
        cases h3
        exact .inr (.inr ⟨e, rfl, rfl⟩)
      · cases h3

/-- The layouts of a called circuit are usable and lie inside the caller's layers. -/
theorem sub_ok (lv : Level tab id c layouts qs subls) (hok : ∀ L ∈ layouts, LayoutOk tab L) {k : Nat} {q : Call} {s : Ctx F}
    (hq : c.prog.calls[k]? = some q) (hs : tab q.sub = some s) (hpos : 1 ≤ s.outL) {j : Nat} {sl : Nat × Layout} (hsl : (subls.getD k [])[j]? = some sl)
    (hend : c.start k + s.outL ≤ c.outL) :
    LayoutOk tab sl.2 ∧ ∃ L, layouts[c.start k + j]? = some L ∧ sl.1 + sl.2.size ≤ L.size := by
  obtain ⟨L, hL, hj, h⟩ := lv.sub_cases hok hq hs hpos hsl hend
  have hLok := hok L (List.mem_of_getElem? hL)
  have hLok' := hLok
  cases hLok with
  | mk c' hc' hp hs' hn hk hsub hr hd hdd hm =>
    obtain ⟨N, hN⟩ := hp
    have hps : ∀ x p, (qs.getD (c.start k + j) []).lookup x = some p → p < 2 ^ N := fun x p hx => hN ▸ lv.lookup_lt hL hLok' hx
    rcases h with ⟨_, _, h⟩ | ⟨rfl, _, _, rfl⟩ | ⟨rfl, _, rfl⟩
    · obtain ⟨off, S⟩ := sl
      exact ⟨hsub k off S (lookup_mem h), L, hL, hr k off S (lookup_mem h)⟩
    · obtain ⟨pl, h1, h2, h3, _⟩ := query_spec hps q.outputs s.prog.outs (s.varsOf s.outL) q.sub s.outL
      refine ⟨by rw [h1]; exact query_ok hs h2, L, hL, ?_⟩
      rw [hN]
      have : (query (qs.getD (c.start k + s.outL) []) q.outputs s.prog.outs (s.varsOf s.outL) q.sub s.outL).2.size = pl.length := by rw [h1]; rfl
      rw [this]; exact h3
    · obtain ⟨pl, h1, h2, h3, _⟩ := query_spec (pos := qs.getD (c.start k) []) (by simpa using hps) q.inputs ((List.range q.inputs.length).map (· + 1)) (s.varsOf 0) q.sub 0
      refine ⟨by rw [h1]; exact query_ok hs h2, L, hL, ?_⟩
      rw [hN]
      have : (query (qs.getD (c.start k) []) q.inputs ((List.range q.inputs.length).map (· + 1)) (s.varsOf 0) q.sub 0).2.size = pl.length := by rw [h1]; rfl
      rw [this]; exact h3

/-- Buffers of the caller, restricted to the called circuit, agree with its layouts (except the last). -/
theorem sub_agrees (lv : Level tab id c layouts qs subls) (ok : CtxOk tab c) (hok : ∀ L ∈ layouts, LayoutOk tab L) {k : Nat} {q : Call} {s : Ctx F} {E : Env F}
    (hq : c.prog.calls[k]? = some q) (hs : tab q.sub = some s) (hpos : 1 ≤ s.outL) {j : Nat} {sl : Nat × Layout} (hsl : (subls.getD k [])[j]? = some sl)
    (hj : j < s.outL) {T : Trace F} {b : List F} (hb : ∀ L, layouts[c.start k + j]? = some L → Agrees tab L T b) (he : j = 0 → EqAt E tab id (c.start k) T) :
    Agrees tab sl.2 (T.sub k) ((b.drop sl.1).take sl.2.size) := by
  obtain ⟨L, hL, _, h⟩ := lv.sub_cases hok hq hs hpos hsl (ok.callEnd k q s hq hs)
  have hA := hb L hL
  have hLok := hok L (List.mem_of_getElem? hL)
  rcases h with ⟨_, _, h⟩ | ⟨rfl, _⟩ | ⟨rfl, _, rfl⟩
  · obtain ⟨off, S⟩ := sl
    cases hA with
    | mk _ _ _ hsub => exact hsub k off S (lookup_mem h)
  · omega
  · have hLok' := hLok
    cases hLok with
    | mk c' hc' hp hs' hn hk hsub hr hd hdd hm =>
      obtain ⟨N, hN⟩ := hp
      have hps : ∀ x p, (qs.getD (c.start k) []).lookup x = some p → p < 2 ^ N := fun x p hx => hN ▸ lv.lookup_lt (i := c.start k) (by simpa using hL) hLok' hx
      obtain ⟨pl, h1, h2, h3, h4, _⟩ := query_spec hps q.inputs ((List.range q.inputs.length).map (· + 1)) (s.varsOf 0) q.sub 0
      generalize query (qs.getD (c.start k) []) q.inputs ((List.range q.inputs.length).map (· + 1)) (s.varsOf 0) q.sub 0 = sl at h1 h3 h4
      obtain ⟨off, S⟩ := sl
      simp only at h1 h3 h4
      obtain rfl : S = .dense q.sub 0 pl := by cases h1; rfl
      cases hA with
      | mk hl hsA _ _ =>
        have hbl : b.length = 2 ^ N := by rw [hl, hN]
        refine .mk ?_ ?_ (by simp [Layout.subs]) (by simp [Layout.subs])
        · simp only [Layout.size, List.length_take, List.length_drop]; omega
        · intro p idx hm'
          have hpp := dense_slots.1 hm'
          have hplt : p < pl.length := (List.getElem?_eq_some_iff.1 hpp).1
          obtain ⟨jj, x, v, e1, e2, e3, e4⟩ := h4 p idx hpp
          have hL' : layouts[c.start k]? = some L := by simpa using hL
          obtain ⟨idx', f1, f2⟩ := lv.lookup_slot hL' e3
          have hread := hsA _ _ f1
          rw [lv.lvars_eq hL', List.getD_eq_getElem?_getD, f2, Option.getD_some] at hread
          rw [List.getElem?_take, if_pos (by simpa [Layout.size] using hplt), List.getElem?_drop, hread]
          have hv : v = jj + 1 := by
            rw [List.getElem?_map] at e2
            obtain ⟨a, ha, rfl⟩ := Option.map_eq_some_iff.1 e2
            have := List.getElem?_range (i := jj) (n := q.inputs.length) (by
              have := (List.getElem?_eq_some_iff.1 ha).1; simpa using this)
            rw [this] at ha; cases ha; rfl
          have hvv := posOf_spec e4
          have hlv : lvars tab (Layout.dense q.sub 0 pl) = s.varsOf 0 := by
            show ((tab q.sub).map fun c => c.varsOf 0).getD [] = _
            rw [hs]; rfl
          rw [hlv, List.getD_eq_getElem?_getD, hvv, Option.getD_some, hv]
          cases he rfl with
          | @mk _ _ _ c' hc'' _ _ hin _ =>
            rw [lv.hc] at hc''; cases hc''
            rw [← hin k q hq rfl jj x e1]; rfl

end Level

end Verif.Layering
