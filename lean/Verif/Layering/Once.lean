import Verif.Layering.ValidRoot
import Verif.Layered.PubCommon

/-!
# The layered circuit writes at most one public input to each wire
-/

set_option linter.unusedSectionVars false
set_option linter.unusedSimpArgs false

namespace Verif.Layering

open Verif.IR (Expr Coef Term VarSpec Env Circuit WFGet dest)
open Verif.Layered (Segment Gate Input Alloc pubAt pubCount childPub chSum pubAt_append pubAt_none pubAt_flatMap pubAt_cons pubAt_nil shiftN)

variable {F : Type} [Field F] [DecidableEq F]
variable {tab : Nat → Option (Ctx F)}

theorem sum_le_one {A : Type} (w : A → Nat) : ∀ (l : List A), l.Nodup → (∀ a ∈ l, w a ≤ 1) → (∀ a ∈ l, ∀ b ∈ l, 0 < w a → 0 < w b → a = b) → (l.map w).sum ≤ 1 := by
  intro l
  induction l with
  | nil => intros; simp
  | cons a l ih =>
    intro hn h1 h2
    obtain ⟨n1, n2⟩ := List.nodup_cons.1 hn
    have := ih n2 (fun b hb => h1 b (by simp [hb])) (fun b hb c hc => h2 b (by simp [hb]) c (by simp [hc]))
    have ha := h1 a (by simp)
    rw [List.map_cons, List.sum_cons]
    by_cases hz : w a = 0
    · omega
    · have : (l.map w).sum = 0 := by
        rw [List.sum_eq_zero_iff]
        intro y hy
        obtain ⟨b, hb, rfl⟩ := List.mem_map.1 hy
        by_contra hne
        have := h2 a (by simp) b (by simp [hb]) (by omega) (by omega)
        subst this
        exact n1 hb
      omega

theorem sum_pos_mem {A : Type} (w : A → Nat) {l : List A} (h : 0 < (l.map w).sum) : ∃ a ∈ l, 0 < w a := by
  by_contra hc
  have : (l.map w).sum = 0 := by
    rw [List.sum_eq_zero_iff]
    intro y hy
    obtain ⟨b, hb, rfl⟩ := List.mem_map.1 hy
    by_contra hne
    exact hc ⟨b, hb, by omega⟩
  omega

theorem pubSum_apply {A : Type} (f : A → Nat → Nat) (l : List A) (o : Nat) : (l.map f).sum o = (l.map fun a => f a o).sum := by
  induction l with
  | nil => rfl
  | cons a l ih => simp only [List.map_cons, List.sum_cons, Pi.add_apply, ih]

/-! ## Gates -/

theorem termGate_pub {aq : Nat → Option Nat} {pos : Nat} {t : Term F} {g : Gate F} (h : termGate aq pos t = some g) : g.isPub = false := by
  unfold termGate at h
  split at h
  · cases h; rfl
  · obtain ⟨a, ha, rfl⟩ := Option.map_eq_some_iff.1 h; rfl
  · split at h
    · cases h; rfl
    · cases h
  · obtain ⟨as, ha, rfl⟩ := Option.map_eq_some_iff.1 h; rfl
  · obtain ⟨a, ha, rfl⟩ := Option.map_eq_some_iff.1 h; rfl

theorem relayGates_pub {c : Ctx F} {qs : List (List (Nat × Nat))} {i x : Nat} {gs : List (Gate F)} (h : relayGates c qs i x = some gs) : pubAt gs = 0 := by
  refine pubAt_none fun g hg => ?_
  unfold relayGates at h
  obtain ⟨p, _, hm⟩ := mapOpt_mem h g hg
  split at hm
  · cases hm; rfl
  · cases hm

theorem ccGates_pub {c : Ctx F} {qs : List (List (Nat × Nat))} {subl : Nat → Nat → Option (Nat × Layout)} {i : Nat} {gs : List (Gate F)} (h : ccGates tab c qs subl i = some gs) :
    pubAt gs = 0 := by
  refine pubAt_none fun g hg => ?_
  unfold ccGates at h
  split at h
  · cases h; cases hg
  · split at h
    · cases h
    · split at h
      · rename_i g1 g2 hg1 hg2
        cases h
        rcases List.mem_append.1 hg with hg | hg
        · obtain ⟨v, _, hv⟩ := mapOpt_mem hg1 g hg
          obtain ⟨a, _, rfl⟩ := Option.map_eq_some_iff.1 hv
          unfold Gate.isPub
          dsimp only
          by_cases hh : c.prog.nv ≤ v
          · rw [if_pos hh]
          · rw [if_neg hh]
        · obtain ⟨v, _, hv⟩ := mapOpt_mem hg2 g hg
          split at hv
          · obtain ⟨a, _, rfl⟩ := Option.map_eq_some_iff.1 hv
            rfl
          · cases hv
      · cases h

theorem firstGates_pub {c : Ctx F} {qs : List (List (Nat × Nat))} {i x : Nat} {gs : List (Gate F)} (h : firstGates c qs i x = some gs) (o : Nat) :
    pubAt gs o ≤ 1 ∧ (0 < pubAt gs o → (qs.getD (i + 1) []).lookup x = some o ∧ ∃ v, c.prog.defn x = some (.const v)) := by
  have hnil : pubAt ([] : List (Gate F)) o = 0 := rfl
  unfold firstGates at h
  split at h
  · cases h; simp [hnil]
  · split at h
    · split at h
      · cases h; simp [hnil]
      · cases h
    · rename_i pos hpos
      split at h
      · rename_i v hv
        cases h
        refine ⟨by simp only [pubAt, List.countP_cons, List.countP_nil]; split <;> omega, ?_⟩
        intro hp
        simp only [pubAt, List.countP_cons, List.countP_nil] at hp
        split at hp
        · rename_i hb
          simp only [Bool.and_eq_true, beq_iff_eq] at hb
          rw [← hb.2]
          exact ⟨hpos, v, hv⟩
        · omega
      · have : pubAt gs = 0 := pubAt_none fun g hg => by
          obtain ⟨t, _, ht⟩ := mapOpt_mem h g hg
          exact termGate_pub ht
        rw [this]; simp
      · cases h; simp [hnil]

/-- The gates of a segment are among the gates of the transition, each in one list. -/
theorem pubAt_mkSegment (c : Ctx F) (layouts : List Layout) (i : Nat) (ch : List (Nat × Alloc)) : ∀ (gs : List (Gate F)) (o : Nat), pubAt (mkSegment c layouts i ch gs).allGates o ≤ pubAt gs o := by
  intro gs o
  simp only [Segment.allGates, mkSegment, pubAt_append, Pi.add_apply]
  induction gs with
  | nil => simp [pubAt_nil]
  | cons g gs ih =>
    rw [pubAt_cons g gs]
    simp only [Pi.add_apply, List.filter_cons]
    cases ht : g.typ with
    | some t =>
      simp only [Option.isNone_some, Bool.false_and, Bool.false_eq_true, if_false, Option.isSome_some, if_true]
      rw [pubAt_cons g (List.filter _ gs)]
      simp only [Pi.add_apply]
      omega
    | none =>
      simp only [Option.isNone_none, Bool.true_and, Option.isSome_none, Bool.false_eq_true, if_false, beq_iff_eq]
      by_cases e2 : g.inputs.length = 2
      · simp only [e2, if_true, OfNat.ofNat_ne_one, OfNat.ofNat_ne_zero, if_false]
        rw [pubAt_cons g (List.filter _ gs)]
        simp only [Pi.add_apply]
        omega
      · by_cases e1 : g.inputs.length = 1
        · simp only [e1, if_true, OfNat.one_ne_ofNat, one_ne_zero, if_false]
          rw [pubAt_cons g (List.filter _ gs)]
          simp only [Pi.add_apply]
          omega
        · by_cases e0 : g.inputs.length = 0
          · simp only [e0, if_true, OfNat.zero_ne_ofNat, zero_ne_one, if_false]
            rw [pubAt_cons g (List.filter _ gs)]
            simp only [Pi.add_apply]
            omega
          · simp only [e2, e1, e0, if_false]
            omega

theorem layerGates_pub {c : Ctx F} {qs : List (List (Nat × Nat))} {subl : Nat → Nat → Option (Nat × Layout)} {i : Nat} {gs : List (Gate F)} (h : layerGates tab c qs subl i = some gs) (o : Nat) :
    pubAt gs o = ((List.range c.prog.nv).map fun x => pubAt ((firstGates c qs i x).getD []) o).sum := by
  obtain ⟨gss, gc, h1, h2, h3, rfl⟩ := layerGates_split h
  rw [pubAt_append, ccGates_pub h3, add_zero]
  have e : gss = (List.range c.prog.nv).map fun x => (gss[x]?).getD [] := by
    apply List.ext_getElem?
    intro x
    by_cases hx : x < c.prog.nv
    · rw [List.getElem?_map, List.getElem?_range hx]
      obtain ⟨a, b, _, _, e⟩ := h1 x hx
      simp [e]
    · rw [List.getElem?_eq_none (by omega), List.getElem?_eq_none (by simp; omega)]
  rw [e, ← List.flatMap_def, pubAt_flatMap, pubSum_apply]
  congr 1
  apply List.map_congr_left
  intro x hx
  obtain ⟨a, b, ha, hb, e⟩ := h1 x (List.mem_range.1 hx)
  rw [e, ha]
  simp only [Option.getD_some, pubAt_append, relayGates_pub hb, add_zero]

/-! ## Children -/

theorem addChild_chSum {M : Type} [AddCommMonoid M] (w : Nat → Alloc → M) : ∀ (cs : List (Nat × List Alloc)) (p : Nat × Alloc), chSum w (addChild cs p) = chSum w cs + w p.1 p.2 := by
  intro cs p
  induction cs with
  | nil => simp [addChild, chSum]
  | cons e cs ih =>
    unfold addChild
    split
    · rename_i he
      simp only [Layered.chSum_cons, List.map_append, List.sum_append, List.map_cons, List.map_nil, List.sum_cons, List.sum_nil, add_zero, he]
      exact add_right_comm _ _ _
    · rw [Layered.chSum_cons, ih, Layered.chSum_cons, add_assoc]

theorem addChild_foldl_sum {M : Type} [AddCommMonoid M] (w : Nat → Alloc → M) : ∀ (ps : List (Nat × Alloc)) (cs : List (Nat × List Alloc)),
    chSum w (ps.foldl addChild cs) = chSum w cs + (ps.map fun p => w p.1 p.2).sum := by
  intro ps
  induction ps with
  | nil => intro cs; simp
  | cons p ps ih => intro cs; rw [List.foldl_cons, ih, addChild_chSum, List.map_cons, List.sum_cons, add_assoc]

theorem filterMap_sum {A B : Type} {M : Type} [AddCommMonoid M] (f : A → Option B) (w : B → M) (l : List A) :
    ((l.filterMap f).map w).sum = (l.map fun a => ((f a).map w).getD 0).sum := by
  induction l with
  | nil => rfl
  | cons a l ih =>
    rw [List.filterMap_cons, List.map_cons, List.sum_cons]
    cases h : f a with
    | none => simp [ih]
    | some b => simp [ih]

/-- No entry without allocations. -/
theorem addChild_ne : ∀ (cs : List (Nat × List Alloc)) (p : Nat × Alloc), (∀ ch ∈ cs, ch.2 ≠ []) → ∀ ch ∈ addChild cs p, ch.2 ≠ [] := by
  intro cs p
  induction cs with
  | nil => intro _ ch hch; simp only [addChild, List.mem_singleton] at hch; subst hch; simp
  | cons e cs ih =>
    intro h ch hch
    unfold addChild at hch
    split at hch
    · rcases List.mem_cons.1 hch with rfl | hch
      · simp
      · exact h ch (by simp [hch])
    · rcases List.mem_cons.1 hch with rfl | hch
      · exact h _ (by simp)
      · exact ih (fun ch hch => h ch (by simp [hch])) ch hch

theorem foldl_addChild_ne : ∀ (ps : List (Nat × Alloc)) (cs : List (Nat × List Alloc)), (∀ ch ∈ cs, ch.2 ≠ []) → ∀ ch ∈ ps.foldl addChild cs, ch.2 ≠ [] := by
  intro ps
  induction ps with
  | nil => intro cs h; exact h
  | cons p ps ih => intro cs h; exact ih _ (addChild_ne cs p h)

/-! ## Owners of a position -/

/-- The variable (left) or the call (right) a position of a layer belongs to. -/
inductive Owner (c : Ctx F) (L : Layout) (lk : Nat → Option Nat) (p : Nat) : Nat ⊕ Nat → Prop
  | own {x : Nat} {v : Coef F} : lk x = some p → c.prog.defn x = some (.const v) → Owner c L lk p (.inl x)
  | blk {k off : Nat} {S : Layout} : (k, off, S) ∈ L.subs → off ≤ p → p < off + S.size → Owner c L lk p (.inr k)
  | out {x k j : Nat} : lk x = some p → c.prog.defn x = some (.out k j) → Owner c L lk p (.inr k)

theorem owner_unique {id : Nat} {c : Ctx F} {layouts : List Layout} {qs : List (List (Nat × Nat))} {subls : List (List (Nat × Layout))} (lv : Level tab id c layouts qs subls)
    {i : Nat} {L : Layout} (hL : layouts[i]? = some L) (hok : LayoutOk tab L) {p : Nat} {a b : Nat ⊕ Nat}
    (ha : Owner c L (fun x => (qs.getD i []).lookup x) p a) (hb : Owner c L (fun x => (qs.getD i []).lookup x) p b) : a = b := by
  have hok' := hok
  cases hok with
  | mk c' hc hp hs hn hk hsub hr hd hdd hm =>
    have hslot : ∀ x k off S, (qs.getD i []).lookup x = some p → (k, off, S) ∈ L.subs → off ≤ p → p < off + S.size → False := by
      intro x k off S hx h1 h2 h3
      obtain ⟨idx, h4, _⟩ := lv.lookup_slot hL hx
      rcases hd k off S h1 p idx h4 <;> omega
    cases ha with
    | own h1 h2 =>
      cases hb with
      | own h3 h4 => rw [lv.lookup_inj hL hok' h1 h3]
      | blk h3 h4 h5 => exact (hslot _ _ _ _ h1 h3 h4 h5).elim
      | out h3 h4 =>
        rw [lv.lookup_inj hL hok' h1 h3] at h2
        rw [h2] at h4; cases h4
    | blk h1 h2 h2' =>
      cases hb with
      | own h3 h4 => exact (hslot _ _ _ _ h3 h1 h2 h2').elim
      | blk h3 h4 h5 =>
        congr 1
        by_contra hne
        obtain ⟨m, hm1⟩ := List.getElem?_of_mem h1
        obtain ⟨n, hn1⟩ := List.getElem?_of_mem h3
        obtain ⟨hml, hm2⟩ := List.getElem?_eq_some_iff.1 hm1
        obtain ⟨hnl, hn2⟩ := List.getElem?_eq_some_iff.1 hn1
        have hpw := List.pairwise_iff_getElem.1 hdd
        rcases Nat.lt_trichotomy m n with h | h | h
        · have := hpw m n hml hnl h
          rw [hm2, hn2] at this
          dsimp only at this
          omega
        · subst h
          rw [hm1] at hn1
          simp only [Option.some.injEq, Prod.mk.injEq] at hn1
          exact hne hn1.1
        · have := hpw n m hnl hml h
          rw [hm2, hn2] at this
          dsimp only at this
          omega
      | out h3 h4 => exact (hslot _ _ _ _ h3 h1 h2 h2').elim
    | out h1 h2 =>
      cases hb with
      | own h3 h4 =>
        rw [lv.lookup_inj hL hok' h1 h3] at h2
        rw [h2] at h4; cases h4
      | blk h3 h4 h5 => exact (hslot _ _ _ _ h1 h3 h4 h5).elim
      | out h3 h4 =>
        rw [lv.lookup_inj hL hok' h1 h3, h4] at h2
        cases h2; rfl

/-- A position of a called circuit that ends inside the caller's layer belongs to that call. -/
theorem owner_of_call (htab : ∀ id c, tab id = some c → CtxOk tab c) {id : Nat} {c : Ctx F} {layouts : List Layout} {qs : List (List (Nat × Nat))} {subls : List (List (Nat × Layout))}
    (lv : Level tab id c layouts qs subls) (hok : ∀ L ∈ layouts, LayoutOk tab L) {k : Nat} {q : Call} {s : Ctx F} (hq : c.prog.calls[k]? = some q) (hs : tab q.sub = some s)
    {j : Nat} (hj : 0 < j) {sl : Nat × Layout} (hsl : (subls.getD k [])[j]? = some sl) {L : Layout} (hL : layouts[c.start k + j]? = some L) {p : Nat} (ho : Occ sl.2 p) :
    Owner c L (fun x => (qs.getD (c.start k + j) []).lookup x) (sl.1 + p) (.inr k) := by
  have ok := htab id c lv.hc
  have oks := htab _ s hs
  have hend := ok.callEnd k q s hq hs
  have hsOk := (lv.sub_ok hok hq hs oks.outPos hsl hend).1
  have hlt := ho.lt hsOk
  obtain ⟨L', g1, hj', hcase⟩ := lv.sub_cases hok hq hs oks.outPos hsl hend
  rw [hL] at g1; cases g1
  have hLok := hok L (List.mem_of_getElem? hL)
  rcases hcase with ⟨_, _, h⟩ | ⟨rfl, _, hle, hqe⟩ | ⟨h, _⟩
  · exact .blk (lookup_mem h) (by omega) (by omega)
  · have hLok' := hLok
    cases hLok with
    | mk c2 hc2 hp hs2 =>
      obtain ⟨N, hN⟩ := hp
      have hps : ∀ x p, (qs.getD (c.start k + s.outL) []).lookup x = some p → p < 2 ^ N := fun x p hx => hN ▸ lv.lookup_lt hL hLok' hx
      obtain ⟨pl, h1, h2, h3, h4, _⟩ := query_spec hps q.outputs s.prog.outs (s.varsOf s.outL) q.sub s.outL
      rw [← hqe] at h1 h3 h4
      have : sl.2 = .dense q.sub s.outL pl := by rw [h1]
      rw [this] at ho
      cases ho with
      | slot hm' =>
        obtain ⟨jj, x, v, a1, a2, e, _⟩ := h4 _ _ (dense_slots.1 hm')
        exact .out e ((ok.defOut x k jj).2 ⟨q, hq, a1⟩)
      | sub hm' => simp [Layout.subs] at hm'
  · omega

theorem owner_occ {id : Nat} {c : Ctx F} {layouts : List Layout} {qs : List (List (Nat × Nat))} {subls : List (List (Nat × Layout))} (lv : Level tab id c layouts qs subls)
    {i : Nat} {L : Layout} (hL : layouts[i]? = some L) {x p : Nat} (h : (qs.getD i []).lookup x = some p) : Occ L p := by
  obtain ⟨idx, h1, _⟩ := lv.lookup_slot hL h
  exact .slot h1

/-! ## The count -/

theorem wired_pub (htab : ∀ id c, tab id = some c → CtxOk tab c) {segs : List (Segment F)} {id : Nat} {layouts : List Layout} {ids : List Nat} (hw : Wired tab segs id layouts ids) :
    ∀ (c : Ctx F), tab id = some c → (∀ L ∈ layouts, LayoutOk tab L) → ∀ (i a : Nat) (L : Layout) (seg : Segment F), i < c.outL → ids[i]? = some a → layouts[i + 1]? = some L →
      segs[a]? = some seg → ∀ f, a < f → ∀ p, pubCount segs f seg p ≤ 1 ∧ (0 < pubCount segs f seg p → Occ L p) := by
  induction hw with
  | @mk id layouts ids c qs subls cids gss lv hrec hlt hg hsg ih =>
    intro c0 hc hok i a L seg hi hia hL hseg f hf p
    have e := lv.hc
    rw [hc] at e; cases e
    have ok := htab id _ hc
    obtain ⟨a', e1, e2⟩ := hsg i hi
    rw [hia] at e1; cases e1
    rw [hseg] at e2; cases e2
    have hLok := hok L (List.mem_of_getElem? hL)
    obtain ⟨f, rfl⟩ : ∃ g, f = g + 1 := ⟨f - 1, by omega⟩
    -- contributions
    let cw : Nat → Nat := fun k => match subCtx tab c k with
      | none => 0
      | some s =>
        if c.start k ≤ i ∧ i < c.start k + s.outL then
          childPub segs (pubCount segs f) ((cids.getD k []).getD (i - c.start k) 0)
            (allocOf s (fun j => (((subls.getD k [])[j]?).map (·.1)).getD 0) (i - c.start k)) p
        else 0
    let w : Nat ⊕ Nat → Nat := fun z => match z with
      | .inl x => pubAt ((firstGates c qs i x).getD []) p
      | .inr k => cw k
    have hcalls : chSum (childPub segs (pubCount segs f)) (mkSegment c layouts i (childrenAt tab c subls cids i) (gss.getD i [])).childSegs p =
        ((List.range c.prog.calls.length).map cw).sum := by
      have e3 : (mkSegment c layouts i (childrenAt tab c subls cids i) (gss.getD i [])).childSegs = (childrenAt tab c subls cids i).foldl addChild [] := rfl
      rw [e3, addChild_foldl_sum, Layered.chSum_nil, zero_add, pubSum_apply]
      unfold childrenAt
      rw [filterMap_sum]
      congr 1
      apply List.map_congr_left
      intro k _
      have hst : c.starts.getD k 0 = c.start k := rfl
      simp only [hst, cw]
      cases subCtx tab c k with
      | none => rfl
      | some s =>
        dsimp only
        split <;> rfl
    have htot : pubCount segs (f + 1) (mkSegment c layouts i (childrenAt tab c subls cids i) (gss.getD i [])) p ≤
        (((List.range c.prog.nv).map Sum.inl ++ (List.range c.prog.calls.length).map Sum.inr).map w).sum := by
      simp only [pubCount, Pi.add_apply, hcalls]
      rw [List.map_append, List.sum_append, List.map_map, List.map_map]
      have h1 := pubAt_mkSegment c layouts i (childrenAt tab c subls cids i) (gss.getD i []) p
      rw [layerGates_pub (hg i hi) p] at h1
      exact Nat.add_le_add_right h1 _
    have hown : ∀ x, w (.inl x) ≤ 1 ∧ (0 < w (.inl x) → Owner c L (fun x => (qs.getD (i + 1) []).lookup x) p (.inl x)) := by
      intro x
      cases hfg : firstGates c qs i x with
      | none => simp [w, hfg, pubAt_nil]
      | some gs =>
        obtain ⟨h1, h2⟩ := firstGates_pub hfg p
        simp only [w, hfg, Option.getD_some]
        exact ⟨h1, fun h => by obtain ⟨q1, v, q2⟩ := h2 h; exact .own q1 q2⟩
    have hcall : ∀ k, w (.inr k) ≤ 1 ∧ (0 < w (.inr k) → Owner c L (fun x => (qs.getD (i + 1) []).lookup x) p (.inr k) ∧ Occ L p) := by
      intro k
      simp only [w, cw]
      cases hsc : subCtx tab c k with
      | none => simp
      | some s =>
        dsimp only
        obtain ⟨q, hq, hs⟩ := subCtx_some hsc
        split
        swap
        · simp
        rename_i hact
        obtain ⟨h1, h2⟩ := hact
        obtain ⟨SL, sub, hco⟩ := child_of_call htab lv hrec hq hs h1 h2
        have oks := htab _ s hs
        have hend := ok.callEnd k q s hq hs
        generalize hb : (cids.getD k []).getD (i - c.start k) 0 = b at hco
        generalize hal : allocOf s (fun j => (((subls.getD k [])[j]?).map (·.1)).getD 0) (i - c.start k) = al at hco
        have hblt : b < a := hlt i k a b hi hia (List.mem_of_getElem? hco.hid)
        simp only [childPub, hco.hseg, shiftN, hco.out]
        split
        swap
        · simp
        rename_i hoff
        have hsub : ∀ L ∈ (subls.getD k []).map (·.2), LayoutOk tab L := by
          intro L hL
          obtain ⟨sl, g1, rfl⟩ := List.mem_map.1 hL
          obtain ⟨j', hj'⟩ := List.getElem?_of_mem g1
          exact (lv.sub_ok hok hq hs oks.outPos hj' hend).1
        have hslj := hco.sl (i + 1 - c.start k) (by omega)
        have e3 : i - c.start k + 1 = i + 1 - c.start k := by omega
        have hget : ((subls.getD k []).map (·.2))[i - c.start k + 1]? = some (SL (i + 1 - c.start k)).2 := by
          rw [List.getElem?_map, e3, hslj]; rfl
        obtain ⟨r1, r2⟩ := ih k q hq s hs hsub (i - c.start k) b (SL (i + 1 - c.start k)).2 sub (by omega) hco.hid hget hco.hseg f (by omega) (p - (SL (i + 1 - c.start k)).1)
        refine ⟨r1, fun hp => ?_⟩
        have hocc := r2 hp
        have e4 : c.start k + (i + 1 - c.start k) = i + 1 := by omega
        have e5 : (SL (i + 1 - c.start k)).1 + (p - (SL (i + 1 - c.start k)).1) = p := by omega
        have hw' := owner_of_call htab lv hok hq hs (j := i + 1 - c.start k) (by omega) hslj (L := L) (by rw [e4]; exact hL) hocc
        rw [e4, e5] at hw'
        obtain ⟨L', g1, g2⟩ := lv.sub_occ hok hq hs oks.outPos hslj hend hocc
        rw [e4, hL] at g1; cases g1
        rw [e5] at g2
        exact ⟨hw', g2⟩
    have hall : ∀ z, w z ≤ 1 ∧ (0 < w z → Owner c L (fun x => (qs.getD (i + 1) []).lookup x) p z ∧ Occ L p) := by
      intro z
      cases z with
      | inl x =>
        refine ⟨(hown x).1, fun h => ?_⟩
        have ho := (hown x).2 h
        refine ⟨ho, ?_⟩
        cases ho with
        | own h1 h2 => exact owner_occ lv hL h1
      | inr k => exact hcall k
    constructor
    · refine le_trans htot (sum_le_one w _ ?_ (fun z _ => (hall z).1) (fun z _ z' _ h h' => owner_unique lv hL hLok ((hall z).2 h).1 ((hall z').2 h').1))
      rw [List.nodup_append]
      refine ⟨List.nodup_range.map Sum.inl_injective, List.nodup_range.map Sum.inr_injective, ?_⟩
      rintro z hz z' hz' rfl
      obtain ⟨x, _, rfl⟩ := List.mem_map.1 hz
      obtain ⟨k, _, h⟩ := List.mem_map.1 hz'
      cases h
    · intro hpos
      obtain ⟨z, _, hz⟩ := sum_pos_mem w (lt_of_lt_of_le hpos htot)
      exact ((hall z).2 hz).2

section root

variable {E : Env F} {get : Nat → Option (Circuit (dest E false))} {npi k fuel : Nat} {cross reorder : Bool}

/-- `layering::compile` writes at most one public input to each wire, and lists no child without allocations. -/
theorem compile_once (hw : WFGet (some npi) get) {lc : Layered.Circuit F} {l0 : Nat} {order : List (Option Nat)}
    (h : compile cross reorder (progGet get) fuel npi k = some (lc, l0, order)) : lc.PubOnce ∧ lc.NoEmptyAllocs := by
  obtain ⟨c, layouts, ids, segs, hc, hl, hcn, _, hlc, _⟩ := compile_split h
  have ht := tabOk (cross := cross) (fuel := fuel) hw
  have htab := ht.ctx
  have hgood : Good (ctxOf cross (progGet get) fuel) layouts := by
    intro L hL
    obtain ⟨i, _, hi⟩ := mapOpt_mem hl L hL
    exact ⟨(solve_ok reorder _ _ _ _ hi).1, solve_aligned reorder _ _ _ _ hi⟩
  have hcirc : ∀ L ∈ layouts, L.circ = 0 := by
    intro L hL
    obtain ⟨i, _, hi⟩ := mapOpt_mem hl L hL
    exact (solve_ok reorder _ _ _ _ hi).2.1
  obtain ⟨L0, h0⟩ : ∃ L0, layouts.head? = some L0 := by
    cases hlay : layouts with
    | nil =>
      have := Verif.mapOpt_length hl
      rw [hlay] at this
      simp at this
    | cons L rest => exact ⟨L, rfl⟩
  have hm0 : L0 ∈ layouts := List.mem_of_mem_head? h0
  have hall := (connect_all htab c.outL fuel layouts [] ids segs hgood (by
    intro l1 c1 hl1 hc1
    rw [h0] at hl1; cases hl1
    rw [hcirc _ hm0, hc] at hc1; cases hc1
    exact le_refl _) hcn).2
  subst hlc
  constructor
  · intro a s hs o
    dsimp only at hs ⊢
    obtain ⟨id, c', layouts', ids', i, hwd, hc', hi, hia, _, hg'⟩ := hall a (Nat.zero_le _) (List.getElem?_eq_some_iff.1 hs).1
    have hlen : ∃ L, layouts'[i + 1]? = some L := by
      cases hwd with
      | @mk _ _ _ c'' qs subls cids gss lv hrec hlt hg hsg =>
        have e := lv.hc
        rw [hc'] at e; cases e
        exact lv.get (by omega)
    obtain ⟨L, hL⟩ := hlen
    exact (wired_pub htab hwd c' hc' (fun L hL => (hg' L hL).1) i a L s hi hia hL hs (a + 1) (by omega) o).1
  · intro s hsm
    dsimp only at hsm
    obtain ⟨a, hs⟩ := List.getElem?_of_mem hsm
    obtain ⟨id, c', layouts', ids', i, hwd, hc', hi, hia, _, hg'⟩ := hall a (Nat.zero_le _) (List.getElem?_eq_some_iff.1 hs).1
    cases hwd with
    | @mk _ _ _ c'' qs subls cids gss lv hrec hlt hg hsg =>
      have e := lv.hc
      rw [hc'] at e; cases e
      obtain ⟨a', e1, e2⟩ := hsg i hi
      rw [hia] at e1; cases e1
      rw [hs] at e2; cases e2
      exact foldl_addChild_ne _ [] (by simp)

end root

end Verif.Layering
