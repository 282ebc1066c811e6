import Verif.Layering.Level

/-!
# The contents of a layer, split by where they come from

Every stored variable is computed by gates, relayed, the combined constraint, or an output of a call that ends at this layer; calls in the
middle of their execution fill their own part.
-/

set_option linter.unusedSectionVars false
set_option linter.unusedSimpArgs false

namespace Verif.Layering

open Verif.IR (Expr Coef Term VarSpec Env)
open Verif.Layered (Segment Gate Input Alloc LEnv den opSet opsSet shiftOut Op specOps readInput childIn CoefVal gateVal)

variable {F : Type} [Field F] [DecidableEq F]

theorem sum_range_mem {M : Type} [AddCommMonoid M] (g : Nat → M) {n : Nat} {l : List Nat} (hn : l.Nodup) (hl : ∀ x ∈ l, x < n) :
    (∑ x ∈ Finset.range n, if x ∈ l then g x else 0) = (l.map g).sum := by
  rw [← Finset.sum_filter]
  have : (Finset.range n).filter (fun x => x ∈ l) = l.toFinset := by
    ext x; simp only [Finset.mem_filter, Finset.mem_range, List.mem_toFinset]
    exact ⟨fun h => h.2, fun h => ⟨hl x h, h⟩⟩
  rw [this, List.sum_toFinset _ hn]

variable {tab : Nat → Option (Ctx F)} {id : Nat} {c : Ctx F} {layouts : List Layout} {qs : List (List (Nat × Nat))} {subls : List (List (Nat × Layout))}

/-- Does call `k` take part in the transition from layer `i` to layer `i + 1`? -/
def Act (tab : Nat → Option (Ctx F)) (c : Ctx F) (i k : Nat) : Prop := c.start k ≤ i ∧ i < c.start k + depOf tab c k

instance actDecidable (i k : Nat) : Decidable (Act tab c i k) := inferInstanceAs (Decidable (_ ∧ _))

/-- A variable computed by gates. -/
def firstPart (c : Ctx F) (qs : List (List (Nat × Nat))) (T' : Trace F) (i x : Nat) : Nat → F :=
  if c.lay x = i + 1 ∧ isCE c x = true then (((qs.getD (i + 1) []).lookup x).map fun p => single p (T' [] x)).getD 0 else 0

/-- The combined constraint. -/
def ccPart (c : Ctx F) (qs : List (List (Nat × Nat))) (T' : Trace F) (i : Nat) : Nat → F :=
  match c.cc.getD (i + 1) none with
  | some cc => (((qs.getD (i + 1) []).lookup cc.id).map fun p => single p (T' [] cc.id)).getD 0
  | none => 0

/-- Offset and layout of an active call at the next layer. -/
def nextSub (c : Ctx F) (subls : List (List (Nat × Layout))) (i k : Nat) : Nat × Layout :=
  ((subls.getD k [])[i + 1 - c.start k]?).getD (0, .dense 0 0 [])

/-- The contribution of a call. -/
def childPart (tab : Nat → Option (Ctx F)) (c : Ctx F) (subls : List (List (Nat × Layout))) (T' : Trace F) (i k : Nat) : Nat → F :=
  if Act tab c i k then shiftOut (nextSub c subls i k).1 (nextSub c subls i k).2.size (fill tab (nextSub c subls i k).2 (T'.sub k)) else 0

theorem calls_lt {k : Nat} (hk : k < c.prog.calls.length) : ∃ q, c.prog.calls[k]? = some q := ⟨_, List.getElem?_eq_getElem hk⟩

/-- The contribution of one call in terms of stored outputs and sub-layouts. -/
theorem child_eq (lv : Level tab id c layouts qs subls) (htab : ∀ id c, tab id = some c → CtxOk tab c) (hok : ∀ L ∈ layouts, LayoutOk tab L) {i : Nat} (hi : i < c.outL)
    {L : Layout} (hL : layouts[i + 1]? = some L) {T' : Trace F}
    (hO : ∀ (k : Nat) (q : Call) (s : Ctx F) (j x y : Nat), c.prog.calls[k]? = some q → tab q.sub = some s → c.start k + s.outL = i + 1 → q.outputs[j]? = some x →
      s.prog.outs[j]? = some y → T' [] x = T' [k] y)
    {k : Nat} {q : Call} (hq : c.prog.calls[k]? = some q) :
    childPart tab c subls T' i k = ((L.subs.lookup k).map fun e => shiftOut e.1 e.2.size (fill tab e.2 (T'.sub k))).getD 0 +
      if c.start k + depOf tab c k = i + 1 then (q.outputs.map fun x => (((qs.getD (i + 1) []).lookup x).map fun p => single p (T' [] x)).getD 0).sum else 0 := by
  have ok := htab id c lv.hc
  obtain ⟨s, hs⟩ := ok.sub k q hq
  have oks := htab _ s hs
  have hpos := oks.outPos
  have hend := ok.callEnd k q s hq hs
  have hdep := depOf_of hq hs
  obtain ⟨hlay, hcirc⟩ := lv.lay _ L hL
  have hLok := hok L (List.mem_of_getElem? hL)
  have hmid : ∀ e, L.subs.lookup k = some e → c.start k < i + 1 ∧ i + 1 < c.start k + s.outL := by
    intro e he
    obtain ⟨off, S⟩ := e
    cases hLok with
    | mk c' hc' hp hs' hn hk hsub hr hd hdd hm =>
      obtain ⟨q', s', e1, e2, _, e3, e4, _⟩ := hm k off S (lookup_mem he)
      rw [hcirc, lv.hc] at hc'; cases hc'
      rw [hq] at e1; cases e1
      rw [hs] at e2; cases e2
      rw [hlay] at e3 e4
      exact ⟨e3, e4⟩
  by_cases ha : Act tab c i k
  · unfold childPart
    rw [if_pos ha]
    unfold Act at ha
    rw [hdep] at ha ⊢
    obtain ⟨hlen, _⟩ := lv.sub k q s hq hs
    have hjlt : i + 1 - c.start k < (subls.getD k []).length := by omega
    have hsl : (subls.getD k [])[i + 1 - c.start k]? = some (nextSub c subls i k) := by
      rw [nextSub, List.getElem?_eq_getElem hjlt]; rfl
    obtain ⟨L', hL', hj, hcase⟩ := lv.sub_cases hok hq hs hpos hsl hend
    have e0 : c.start k + (i + 1 - c.start k) = i + 1 := by omega
    rw [e0, hL] at hL'; cases hL'
    rcases hcase with ⟨h1, h2, h3⟩ | ⟨h1, h2, h3, h4⟩ | ⟨h1, _⟩
    · rw [h3, if_neg (by omega), add_zero]; rfl
    · rw [h2, if_pos (by omega)]
      simp only [Option.map_none, Option.getD_none, zero_add]
      have hLok' := hLok
      cases hLok with
      | mk c' hc' hp hs' hn hk hsub hr hd hdd hm =>
        obtain ⟨N, hN⟩ := hp
        rw [e0] at h4
        have hps : ∀ x p, (qs.getD (i + 1) []).lookup x = some p → p < 2 ^ N := fun x p hx => hN ▸ lv.lookup_lt hL hLok' hx
        obtain ⟨pl, g1, _⟩ := query_spec hps q.outputs s.prog.outs (s.varsOf (i + 1 - c.start k)) q.sub (i + 1 - c.start k)
        have hinj : ∀ x x' p, (qs.getD (i + 1) []).lookup x = some p → (qs.getD (i + 1) []).lookup x' = some p → x = x' :=
          fun x x' p a b => lv.lookup_inj hL hLok' a b
        have htv : ∀ v ∈ s.prog.outs, v ∈ s.varsOf (i + 1 - c.start k) := by
          intro v hv
          rw [h1]
          exact (oks.mem_vars (le_refl _)).2 (.inr (.inl ⟨rfl, hv⟩))
        have hf := query_fill hps hinj (ok.outNodup k q hq) htv q.sub (i + 1 - c.start k) g1 (T'.sub k)
        rw [h4]
        generalize query (qs.getD (i + 1) []) q.outputs s.prog.outs (s.varsOf (i + 1 - c.start k)) q.sub (i + 1 - c.start k) = sl at g1 hf
        obtain ⟨off, S⟩ := sl
        obtain rfl : S = .dense q.sub (i + 1 - c.start k) pl := by cases g1; rfl
        have hfill : fill tab (Layout.dense q.sub (i + 1 - c.start k) pl) (T'.sub k) =
            ownFill (s.varsOf (i + 1 - c.start k)) (Layout.dense q.sub (i + 1 - c.start k) pl).slots (T'.sub k) := by
          have hlv : lvars tab (Layout.dense q.sub (i + 1 - c.start k) pl) = s.varsOf (i + 1 - c.start k) := by
            show ((tab q.sub).map fun c' => c'.varsOf (i + 1 - c.start k)).getD [] = _
            rw [hs]; rfl
          rw [fill, hlv]
        show shiftOut off pl.length _ = _
        rw [hfill, hf]
        congr 1
        have hlen' := ok.outLen k q s hq hs
        apply List.ext_getElem?
        intro j
        rw [List.getElem?_map, List.getElem?_map]
        cases hx : q.outputs[j]? with
        | none =>
          have hge := List.getElem?_eq_none_iff.1 hx
          rw [List.getElem?_eq_none (by rw [List.length_zip]; omega)]; rfl
        | some x =>
          have hlt := (List.getElem?_eq_some_iff.1 hx).1
          have hy : s.prog.outs[j]? = some (s.prog.outs[j]'(by omega)) := List.getElem?_eq_getElem (by omega)
          have hz : (q.outputs.zip s.prog.outs)[j]? = some (x, s.prog.outs[j]'(by omega)) := by
            rw [List.getElem?_zip_eq_some]; exact ⟨hx, hy⟩
          rw [hz, Option.map_some, Option.map_some]
          have := hO k q s j x _ hq hs (by omega) hx hy
          rw [this]; rfl
    · omega
  · unfold childPart
    rw [if_neg ha]
    unfold Act at ha
    rw [hdep] at ha ⊢
    have hnone : L.subs.lookup k = none := by
      cases hl : L.subs.lookup k with
      | none => rfl
      | some e => have := hmid e hl; omega
    rw [hnone, if_neg (by omega)]; simp

/-- The contents of a layer. -/
theorem fill_decomp (lv : Level tab id c layouts qs subls) (htab : ∀ id c, tab id = some c → CtxOk tab c) (hok : ∀ L ∈ layouts, LayoutOk tab L) {i : Nat} (hi : i < c.outL)
    {L : Layout} (hL : layouts[i + 1]? = some L) {T T' : Trace F} (hT : ∀ x, 1 ≤ x → x < c.prog.nv → c.lay x ≤ i → T' [] x = T [] x)
    (hO : ∀ (k : Nat) (q : Call) (s : Ctx F) (j x y : Nat), c.prog.calls[k]? = some q → tab q.sub = some s → c.start k + s.outL = i + 1 → q.outputs[j]? = some x →
      s.prog.outs[j]? = some y → T' [] x = T' [k] y) :
    fill tab L T' = (∑ x ∈ Finset.range c.prog.nv, (firstPart c qs T' i x + relayPart c qs T i x)) + ccPart c qs T' i +
      ∑ k ∈ Finset.range c.prog.calls.length, childPart tab c subls T' i k := by
  have ok := htab id c lv.hc
  have hLok := hok L (List.mem_of_getElem? hL)
  obtain ⟨hlay, hcirc⟩ := lv.lay _ L hL
  obtain ⟨hq1, hq2, hq3⟩ := layoutQuery_spec (F := F) (lv.hquery (i + 1) L hL)
  have hi1 : i + 1 ≤ c.outL := by omega
  -- abbreviations
  have hg : ∃ g : Nat → Nat → F, g = fun x => (((qs.getD (i + 1) []).lookup x).map fun p => single p (T' [] x)).getD 0 := ⟨_, rfl⟩
  obtain ⟨g, hg⟩ := hg
  have hgx : ∀ x, (((qs.getD (i + 1) []).lookup x).map fun p => single p (T' [] x)).getD 0 = g x := fun x => by rw [hg]
  -- own part
  have hown : ownFill (lvars tab L) L.slots T' = (∑ x ∈ Finset.range c.prog.nv, g x) + ccPart c qs T' i := by
    rw [lv.lvars_eq hL, hq3 T']
    have hkeys : ∀ x ∈ (qs.getD (i + 1) []).map (·.1), x ∈ c.varsOf (i + 1) := by
      intro x hx
      obtain ⟨⟨x', p⟩, h1, rfl⟩ := List.mem_map.1 hx
      obtain ⟨idx, _, h⟩ := hq2 x' p h1
      exact List.mem_of_getElem? h
    cases hcc : c.cc.getD (i + 1) none with
    | none =>
      have := assoc_sum (fun x p => single p (T' [] x)) (qs.getD (i + 1) []) (List.range c.prog.nv) hq1 List.nodup_range (by
        intro x hx
        rw [List.mem_range]
        by_contra hge
        obtain ⟨cc, h1, _⟩ := ok.mem_vars_ge hi1 (hkeys x hx) (by omega)
        rw [hcc] at h1; cases h1)
      rw [this, list_range_sum]
      unfold ccPart
      rw [hcc, add_zero]
      exact Finset.sum_congr rfl fun x _ => hgx x
    | some cc =>
      have hid := ok.ccId _ cc hcc
      have := assoc_sum (fun x p => single p (T' [] x)) (qs.getD (i + 1) []) (List.range c.prog.nv ++ [cc.id]) hq1 (by
          rw [List.nodup_append]
          refine ⟨List.nodup_range, by simp, ?_⟩
          intro a ha b hb
          rw [List.mem_range] at ha
          simp at hb
          omega) (by
        intro x hx
        rw [List.mem_append, List.mem_range]
        by_cases hge : x < c.prog.nv
        · exact .inl hge
        · obtain ⟨cc', h1, h2⟩ := ok.mem_vars_ge hi1 (hkeys x hx) (by omega)
          rw [hcc] at h1; cases h1
          exact .inr (by simp [h2]))
      rw [this, List.map_append, List.sum_append, list_range_sum]
      unfold ccPart
      rw [hcc]
      simp only [List.map_cons, List.map_nil, List.sum_cons, List.sum_nil, add_zero]
      congr 1
      exact Finset.sum_congr rfl fun x _ => hgx x
  -- sub-layouts
  have hsubs : (L.subs.map fun s => shiftOut s.2.1 s.2.2.size (fill tab s.2.2 (T'.sub s.1))).sum =
      ∑ k ∈ Finset.range c.prog.calls.length, ((L.subs.lookup k).map fun e => shiftOut e.1 e.2.size (fill tab e.2 (T'.sub k))).getD 0 := by
    cases hLok with
    | mk c' hc' hp hs' hn hk hsub hr hd hdd hm =>
      rw [hcirc, lv.hc] at hc'; cases hc'
      have := assoc_sum (fun k (e : Nat × Layout) => shiftOut e.1 e.2.size (fill tab e.2 (T'.sub k))) L.subs (List.range c.prog.calls.length) hk List.nodup_range (by
        intro k hk'
        obtain ⟨⟨k', off, S⟩, h1, rfl⟩ := List.mem_map.1 hk'
        obtain ⟨q', s', e1, _⟩ := hm k' off S h1
        rw [List.mem_range]
        exact (List.getElem?_eq_some_iff.1 e1).1)
      rw [this, list_range_sum]
  -- variables
  have hvar : ∀ x ∈ Finset.range c.prog.nv, g x = firstPart c qs T' i x + relayPart c qs T i x +
      ∑ k ∈ Finset.range c.prog.calls.length, if c.start k + depOf tab c k = i + 1 ∧ x ∈ (c.prog.calls.getD k ⟨0, [], []⟩).outputs then g x else 0 := by
    intro x hx
    have hx' := Finset.mem_range.1 hx
    cases hl : (qs.getD (i + 1) []).lookup x with
    | none =>
      have h0 : g x = 0 := by rw [← hgx, hl]; rfl
      have h1 : firstPart c qs T' i x = 0 := by unfold firstPart; rw [hl]; simp
      have h2 : relayPart c qs T i x = 0 := by unfold relayPart; rw [hl]; simp
      rw [h0, h1, h2]; simp
    | some p =>
      have hocc := ok.mem_vars_lt hi1 (lv.lookup_vars hL hl) hx'
      obtain ⟨hx1, _⟩ := ok.occRange x _ hocc
      have hle := ok.lay_le hocc
      have hgp : g x = single p (T' [] x) := by rw [← hgx, hl]; rfl
      by_cases hl1 : c.lay x ≤ i
      · have h1 : firstPart c qs T' i x = 0 := by unfold firstPart; rw [if_neg (by omega)]
        have h2 : relayPart c qs T i x = g x := by
          unfold relayPart; rw [if_pos hl1, hl, hgp, hT x hx1 hx' hl1]; rfl
        rw [h1, h2, Finset.sum_eq_zero, zero_add, add_zero]
        intro k hk
        rw [if_neg]
        rintro ⟨e1, e2⟩
        obtain ⟨q, hq⟩ := calls_lt (Finset.mem_range.1 hk)
        rw [List.getD_eq_getElem?_getD, hq, Option.getD_some] at e2
        obtain ⟨s, hs⟩ := ok.sub k q hq
        rw [depOf_of hq hs] at e1
        have := ok.outLay k q s x hq hs e2
        omega
      · have hl2 : c.lay x = i + 1 := by omega
        have h2 : relayPart c qs T i x = 0 := by unfold relayPart; rw [if_neg hl1]
        rw [h2, add_zero]
        have hout : ∀ k ∈ Finset.range c.prog.calls.length, (x ∈ (c.prog.calls.getD k ⟨0, [], []⟩).outputs) → ∃ j, c.prog.defn x = some (.out k j) := by
          intro k hk hm
          obtain ⟨q, hq⟩ := calls_lt (Finset.mem_range.1 hk)
          rw [List.getD_eq_getElem?_getD, hq, Option.getD_some] at hm
          obtain ⟨j, hj⟩ := List.getElem?_of_mem hm
          exact ⟨j, (ok.defOut x k j).2 ⟨q, hq, hj⟩⟩
        cases hd : c.prog.defn x with
        | none =>
          have := ok.layIn x hx1 hx' hd
          have := (ok.lay0 x this).2
          omega
        | some d =>
          have hce : ∀ (h : isCE c x = true), g x = firstPart c qs T' i x + ∑ k ∈ Finset.range c.prog.calls.length,
              if c.start k + depOf tab c k = i + 1 ∧ x ∈ (c.prog.calls.getD k ⟨0, [], []⟩).outputs then g x else 0 := by
            intro h
            have h1 : firstPart c qs T' i x = g x := by
              unfold firstPart; rw [if_pos ⟨hl2, h⟩, hl, hgp]; rfl
            rw [h1, Finset.sum_eq_zero, add_zero]
            intro k hk
            rw [if_neg]
            rintro ⟨_, e2⟩
            obtain ⟨j, hj⟩ := hout k hk e2
            rw [isCE, hj] at h
            cases h
          cases d with
          | expr e => exact hce (by rw [isCE, hd])
          | const a => exact hce (by rw [isCE, hd])
          | out k j =>
            have h1 : firstPart c qs T' i x = 0 := by
              unfold firstPart; rw [if_neg]; rintro ⟨_, h⟩; rw [isCE, hd] at h; cases h
            obtain ⟨q, hq, ho⟩ := (ok.defOut x k j).1 hd
            obtain ⟨s, hs⟩ := ok.sub k q hq
            have hlt : k < c.prog.calls.length := (List.getElem?_eq_some_iff.1 hq).1
            have hll := ok.outLay k q s x hq hs (List.mem_of_getElem? ho)
            rw [h1, zero_add, Finset.sum_eq_single k, if_pos]
            · refine ⟨by rw [depOf_of hq hs]; omega, ?_⟩
              rw [List.getD_eq_getElem?_getD, hq]; exact List.mem_of_getElem? ho
            · intro k' hk' hne
              rw [if_neg]
              rintro ⟨_, e2⟩
              obtain ⟨j', hj'⟩ := hout k' hk' e2
              rw [hd] at hj'; cases hj'
              exact hne rfl
            · intro h; exact absurd (Finset.mem_range.2 hlt) h
  rw [fill_eq, hown, hsubs, Finset.sum_congr rfl hvar, Finset.sum_add_distrib, Finset.sum_comm]
  have hch : ∀ k ∈ Finset.range c.prog.calls.length, childPart tab c subls T' i k =
      ((L.subs.lookup k).map fun e => shiftOut e.1 e.2.size (fill tab e.2 (T'.sub k))).getD 0 +
      ∑ x ∈ Finset.range c.prog.nv, if c.start k + depOf tab c k = i + 1 ∧ x ∈ (c.prog.calls.getD k ⟨0, [], []⟩).outputs then g x else 0 := by
    intro k hk
    obtain ⟨q, hq⟩ := calls_lt (Finset.mem_range.1 hk)
    rw [child_eq lv htab hok hi hL hO hq]
    congr 1
    have hgd : c.prog.calls.getD k ⟨0, [], []⟩ = q := by rw [List.getD_eq_getElem?_getD, hq]; rfl
    rw [hgd]
    by_cases e : c.start k + depOf tab c k = i + 1
    · rw [if_pos e]
      simp only [e, true_and]
      rw [sum_range_mem g (ok.outNodup k q hq)]
      · rw [hg]
      · intro x hx
        obtain ⟨j, hj⟩ := List.getElem?_of_mem hx
        exact (ok.defLt x _ ((ok.defOut x k j).2 ⟨q, hq, hj⟩)).2
    · rw [if_neg e]; simp [e]
  rw [Finset.sum_congr rfl hch]
  simp only [Finset.sum_add_distrib]
  abel

end Verif.Layering
