import Verif.Layering.SplitTotalCut
import Verif.Layering.SplitRoot

/-!
# Splitting never fails (for `ir_split.rs`)

`SplitTotalCut` shows that cutting a flattened circuit succeeds if the layers are consistent; here: the expansion of calls keeps the layers
consistent, so `split_circuit` and `split_to_single_layer` reach none of their panics.
-/

set_option linter.unusedSectionVars false
set_option linter.unusedSimpArgs false

namespace Verif.Layering.Split

open Verif.IR (Expr Coef Env dest Circuit RootCircuit WFGet CallsOk Calls CircOk InsnsOk numVars Run EvalSub readAll checkCons Constraint Term VarSpec)
open Verif.Layering

variable {F : Type} [Field F] [DecidableEq F]

theorem placedS_append : ∀ (is js : List (Verif.IR.Dest.Insn F)) (cur : Nat) (a b : List Nat), ncalls is = a.length →
    placedS (is ++ js) cur (a ++ b) = placedS is cur a ++ placedS js (endOf is cur) b
  | [], js, cur, a, b, h => by
    have : a = [] := List.length_eq_zero_iff.1 (by simpa [ncalls] using h.symm)
    subst this; rfl
  | .call d xs n :: is, js, cur, a, b, h => by
    cases a with
    | nil => simp [ncalls] at h
    | cons s a =>
      simp only [ncalls, List.length_cons, Nat.add_right_cancel_iff] at h
      simp only [List.cons_append, placedS, List.headD_cons, List.tail_cons, placedS_append is js (cur + n) a b h]; rfl
  | .internal e :: is, js, cur, a, b, h => by
    simp only [ncalls] at h
    simp only [List.cons_append, placedS, placedS_append is js (cur + 1) a b h]; rfl
  | .constantLike e :: is, js, cur, a, b, h => by
    simp only [ncalls] at h
    simp only [List.cons_append, placedS, placedS_append is js (cur + 1) a b h]; rfl

theorem placedS_placed : ∀ {is : List (Verif.IR.Dest.Insn F)} {cur : Nat} {scl : List Nat} {q : Verif.IR.Dest.Insn F × Nat × Nat}, q ∈ placedS is cur scl → (q.1, q.2.1) ∈ placed is cur
  | [], cur, scl, q, h => by cases h
  | .call d xs n :: is, cur, scl, q, h => by
    rcases List.mem_cons.1 h with rfl | h
    · exact List.mem_cons_self
    · exact List.mem_cons_of_mem _ (placedS_placed h)
  | .internal e :: is, cur, scl, q, h => by
    rcases List.mem_cons.1 h with rfl | h
    · exact List.mem_cons_self
    · exact List.mem_cons_of_mem _ (placedS_placed h)
  | .constantLike e :: is, cur, scl, q, h => by
    rcases List.mem_cons.1 h with rfl | h
    · exact List.mem_cons_self
    · exact List.mem_cons_of_mem _ (placedS_placed h)

theorem LayIn.ext {ls t sp : List Nat} {q : Verif.IR.Dest.Insn F × Nat × Nat} (h : LayIn ls sp q) (ha : ∀ x ∈ argsOf q.1, x < ls.length) (hb : q.2.1 + nOut q.1 ≤ ls.length) :
    LayIn (ls ++ t) sp q := by
  obtain ⟨i, cur, sc⟩ := q
  cases i with
  | constantLike v => trivial
  | internal e =>
    intro x hx
    simp only [nOut] at hb
    rw [layAt_append_left (ha x hx), layAt_append_left (by omega)]; exact h x hx
  | call d xs n =>
    intro hn
    simp only [nOut] at hb
    rw [layAt_append_left (v := cur) (by omega)]
    obtain ⟨h1, h2⟩ := h hn
    exact ⟨fun x hx => by rw [layAt_append_left (ha x hx)]; exact h1 x hx, h2⟩

/-- What the layers of the expansion satisfy. -/
structure LayInv (sp : List Nat) (n : Nat) (st : Exp F) : Prop where
  lays : ∀ q ∈ placedS st.insns (n + 1) st.scl, LayIn st.ls sp q
  ncl : ncalls st.insns = st.scl.length
  pos : ∀ x, n < x → x < st.ls.length → 1 ≤ layAt st.ls x

theorem layIn_exts {is : List (Verif.IR.Dest.Insn F)} {ls t sp scl : List Nat} {n : Nat} (ha : ArgsOk is n) (he : endOf is n = ls.length) (h : ∀ q ∈ placedS is n scl, LayIn ls sp q) :
    ∀ q ∈ placedS is n scl, LayIn (ls ++ t) sp q := by
  intro q hq
  have hp := placedS_placed hq
  have hb := placed_bound _ _ _ hp
  refine (h q hq).ext (fun x hx => ?_) (by rw [← he]; exact hb)
  have := argsOk_placed ha _ hp x hx
  simp only at this hb; omega

theorem LayInv.push {npi n : Nat} {pool : List (Prog F)} {st : Exp F} {sp : List Nat} (hi : ExpInv npi n pool st) (h : LayInv sp n st) {i : Verif.IR.Dest.Insn F} {l : Nat} {scs : List Nat}
    (hn : ncalls [i] = scs.length) (hl : 1 ≤ l) (hq : ∀ q ∈ placedS [i] (st.vmax + 1) scs, LayIn (st.ls ++ List.replicate (nOut i) l) sp q) :
    LayInv sp n ⟨st.vm, st.vmax + nOut i, st.insns ++ [i], st.scc, st.ls ++ List.replicate (nOut i) l, st.scl ++ scs⟩ where
  lays := by
    intro q hq'
    dsimp only at hq' ⊢
    rw [placedS_append _ _ _ _ _ h.ncl, hi.fin] at hq'
    rcases List.mem_append.1 hq' with hq' | hq'
    · exact layIn_exts hi.args (by rw [hi.fin, hi.lsLen]) h.lays q hq'
    · exact hq q hq'
  ncl := by simp only [ncalls_append, h.ncl, hn, List.length_append]
  pos := by
    intro x hx hx'
    dsimp only at hx' ⊢
    by_cases hxl : x < st.ls.length
    · rw [layAt_append_left hxl]; exact h.pos x hx hxl
    · rw [layAt_replicate (by omega) (by simpa using hx')]; exact hl

theorem layAt_get {ls : List Nat} {x y : Nat} (h : ls[x]? = some y) : layAt ls x = y := by
  simp only [layAt, List.getD_eq_getElem?_getD, h]; rfl

theorem expandSegs_total {npi n n' : Nat} {pool : List (Prog F)} {inputs base sp spS : List Nat} {pre : Nat} (hb : base.length = pre + 1) (hsp : ∀ t ∈ sp, t ∈ spS)
    (hi : ∀ x ∈ inputs, 1 ≤ x ∧ x ≤ pre) (hn : n' = inputs.length) : ∀ (segs : List Seg) (l l' : List Nat) (k' : Nat) (st : Exp F),
    SegsLay pool (0 :: inputs.map (layAt base)) n' spS segs l l' → SegsOk pool n' segs l.length k' → st.vmax = pre + l.length → st.ls = base ++ l → ExpInv npi n pool st → LayInv sp n st →
    ∃ st', expandSegs pool inputs pre segs st = some st' ∧ LayInv sp n st' ∧ st'.ls = base ++ l' := by
  intro segs
  induction segs with
  | nil =>
    intro l l' k' st h hs hv hls hinv hlay
    cases h
    exact ⟨st, rfl, hlay, hls⟩
  | cons s segs ih =>
    intro l l' k' st h hs hv hls hinv hlay
    obtain ⟨c, hc, hmid, ⟨hss, hcut⟩, hrest⟩ := h
    obtain ⟨c', hc', hid, hlen, hin, hint, hrest'⟩ := hs
    rw [hc] at hc'
    cases hc'
    -- the inputs
    have href : ∀ r ∈ s.mid, ∃ x, refVar inputs pre r = some x ∧ x < st.ls.length ∧ layAt st.ls x ≤ s.start := by
      intro r hr
      rcases hmid r hr with ⟨i, rfl, hi', hle⟩ | ⟨i, y, rfl, hy, hle⟩
      · have hx : i < inputs.length := by omega
        have hg := List.getElem?_eq_getElem hx
        have h1 := hi _ (List.mem_of_getElem? hg)
        refine ⟨inputs[i], hg, by rw [hls, List.length_append]; omega, ?_⟩
        rw [hls, layAt_append_left (by omega)]
        have : layAt (0 :: inputs.map (layAt base)) (i + 1) = layAt base inputs[i] := layAt_get (by simp [hg])
        rw [← this]; exact hle
      · have hyl := (List.getElem?_eq_some_iff.1 hy).1
        refine ⟨pre + i + 1, rfl, by rw [hls, List.length_append]; omega, ?_⟩
        rw [hls, layAt_get (y := y) (by rw [List.getElem?_append_right (by omega), hb, ← hy]; congr 1; omega)]; exact hle
    obtain ⟨ins, hm⟩ := Verif.mapOpt_isSome (f := refVar inputs pre) (l := s.mid) fun r hr => by
      obtain ⟨x, hx, -⟩ := href r hr
      rw [hx]; rfl
    have hins : ∀ x ∈ ins, x < st.ls.length ∧ layAt st.ls x ≤ s.start := by
      intro x hx
      obtain ⟨r, hr, e⟩ := mapOpt_mem hm x hx
      obtain ⟨y, hy, hy'⟩ := href r hr
      rw [e] at hy; cases hy; exact hy'
    have hallx : ins.all (fun x => decide (x < (st.ls ++ List.replicate c.outs.length s.stop).length ∧ layAt (st.ls ++ List.replicate c.outs.length s.stop) x ≤ s.start)) = true := by
      rw [List.all_eq_true]
      intro x hx
      obtain ⟨h1, h2⟩ := hins x hx
      rw [decide_eq_true_iff, layAt_append_left h1, List.length_append]
      exact ⟨by omega, h2⟩
    -- the new state
    have hone : expandSegs pool inputs pre [s] st = some ⟨st.vm, st.vmax + c.outs.length, st.insns ++ [.call s.id ins c.outs.length], st.scc, st.ls ++ List.replicate c.outs.length s.stop,
        st.scl ++ [s.start]⟩ := by
      simp only [expandSegs, hc, hm, hallx, if_true]
    obtain ⟨g1, -⟩ := expandSegs_spec hi [s] l.length (l.length + c.outs.length) st _ hone ⟨c, hc, hid, hlen, hin, hint, rfl⟩ hv hinv
    have g2 := LayInv.push hinv hlay (i := .call s.id ins c.outs.length) (l := s.stop) (scs := [s.start]) rfl (by omega) (by
      intro q hq
      simp only [placedS, List.headD_cons, List.mem_singleton] at hq
      subst hq
      intro hpos
      have e : layAt (st.ls ++ List.replicate c.outs.length s.stop) (st.vmax + 1) = s.stop := layAt_replicate (by rw [hinv.lsLen]) (by rw [hinv.lsLen]; omega)
      simp only [nOut]
      rw [e]
      refine ⟨fun x hx => ?_, hss, fun t ht hts => ?_⟩
      · obtain ⟨h1, h2⟩ := hins x hx
        rw [layAt_append_left h1]; exact h2
      · rcases hcut t (hsp t ht) with h | h <;> omega)
    obtain ⟨st', h1, h2, h3⟩ := ih (l ++ List.replicate c.outs.length s.stop) l' k' _ hrest (by rw [List.length_append, List.length_replicate]; exact hrest')
      (by simp only [List.length_append, List.length_replicate]; omega) (by simp only [hls, List.append_assoc]) g1 g2
    refine ⟨st', ?_, h2, h3⟩
    simp only [expandSegs, hc, hm, hallx, if_true]
    exact h1

/-! ### One instruction -/

/-- A reference stands for a value of layer `y`. -/
def RefAt (ils l : List Nat) (y : Nat) (r : Ref) : Prop := (∃ i, r = .input i ∧ ils[i]? = some y) ∨ ∃ i, r = .internal i ∧ l[i]? = some y

/-- The recursive calls succeed for the circuits in `D`. -/
def RecTot (get : Nat → Option (Prog F)) (npi : Nat) (sp : List Nat) (layers : Nat → List Nat → Option (List Nat × List Nat))
    (rec : Nat → List Nat → List (Prog F) → Option (Spl × List (Prog F))) (D : Nat → Prop) : Prop :=
  ∀ d p ils pool, D d → get d = some p → ils.length = p.numInputs → PoolOk npi pool → ∃ spl pool' o cc spS l, rec d ils pool = some (spl, pool') ∧ layers d ils = some (o, cc) ∧
    o.length = p.outs.length ∧ (∀ t ∈ sp, t ∈ spS) ∧ SegsLay pool' (0 :: ils) p.numInputs spS spl.segs [] l ∧
    (∀ k y : Nat, o[k]? = some y → ∃ r, spl.outs[k]? = some r ∧ RefAt ils l y r) ∧
    ∀ (k : Nat) (r : Ref), p.outs.length ≤ k → spl.outs[k]? = some r → ∃ i y : Nat, r = .internal i ∧ l[i]? = some y ∧ y ∈ cc

/-- What the layers satisfy during the expansion, compared with the layers `lsO` of the original variables and the layers `cc` of constraints. -/
structure ExpLay (sp : List Nat) (n : Nat) (lsO cc : List Nat) (st : Exp F) : Prop where
  lay : LayInv sp n st
  len : lsO.length = st.vm.length
  var : ∀ x y : Nat, st.vm[x]? = some y → layAt st.ls y = layAt lsO x
  scc : ∀ x ∈ st.scc, layAt st.ls x + 1 ∈ cc

theorem ExpLay.arg {n : Nat} {st : Exp F} {sp lsO cc : List Nat} (h : ExpLay sp n lsO cc st) {x : Nat} (h2 : x < st.vm.length) :
    layAt st.ls (st.vm.getD x 0) = layAt lsO x := by
  have e := List.getElem?_eq_getElem h2
  rw [getD_of e]; exact h.var x _ e

theorem ExpInv.vmLe {npi n : Nat} {pool : List (Prog F)} {st : Exp F} (h : ExpInv npi n pool st) {x y : Nat} (hy : st.vm[x]? = some y) : y ≤ st.vmax := by
  cases x with
  | zero => rw [h.vmIn 0 (by omega)] at hy; cases hy; omega
  | succ x => exact (h.vmR _ y (by omega) hy).2

section
variable {random : Bool} {get : Nat → Option (Prog F)} {npi n : Nat} {E : Env F} {SB : Nat → List F → List F → Bool → Prop}

theorem expLay_simple {pool : List (Prog F)} {st : Exp F} {sp lsO cc : List Nat} (hi : ExpInv npi n pool st) (h : ExpLay sp n lsO cc st) {i : Verif.IR.Dest.Insn F} {l : Nat}
    (hn : nOut i = 1) (hc : ncalls [i] = 0) (hl : 1 ≤ l) (hq : ∀ q ∈ placedS [i] (st.vmax + 1) [], LayIn (st.ls ++ [l]) sp q) :
    ExpLay sp n (lsO ++ [l]) cc ⟨st.vm ++ [st.vmax + 1], st.vmax + 1, st.insns ++ [i], st.scc, st.ls ++ [l], st.scl⟩ where
  lay := by
    have := LayInv.push hi h.lay (i := i) (l := l) (scs := []) hc hl (by rw [hn]; exact hq)
    rw [hn, List.append_nil] at this
    exact ⟨this.lays, this.ncl, this.pos⟩
  len := by simp [h.len]
  var := by
    intro x y hy
    dsimp only at hy ⊢
    have hls := hi.lsLen
    by_cases hxl : x < st.vm.length
    · rw [List.getElem?_append_left hxl] at hy
      have := hi.vmLe hy
      rw [layAt_append_left (by omega), layAt_append_left (by rw [h.len]; exact hxl)]; exact h.var x y hy
    · have hxe : x = st.vm.length := by
        have := (List.getElem?_eq_some_iff.1 hy).1
        simp only [List.length_append, List.length_singleton] at this; omega
      subst hxe
      rw [List.getElem?_append_right (le_refl _)] at hy
      simp only [Nat.sub_self, List.getElem?_cons_zero, Option.some.injEq] at hy
      subst hy
      rw [layAt_get (y := l) (by rw [← hls]; simp), layAt_get (y := l) (by rw [← h.len]; simp)]
  scc := by
    intro x hx
    dsimp only at hx ⊢
    have := hi.sccR x hx
    rw [layAt_append_left (by rw [hi.lsLen]; omega)]; exact h.scc x hx

theorem expandStep_total {layers : Nat → List Nat → Option (List Nat × List Nat)} {rec : Nat → List Nat → List (Prog F) → Option (Spl × List (Prog F))} {D : Nat → Prop} {sp lsO cc : List Nat}
    (hrec : RecOk random get npi E SB rec) (htot : RecTot get npi sp layers rec D) {i : Verif.IR.Dest.Insn F} {st : Exp F} {pool : List (Prog F)} (hi : ExpInv npi n pool st)
    (hl : ExpLay sp n lsO cc st) (hp : PoolOk npi pool) (ha : ∀ v ∈ argsOf i, 1 ≤ v ∧ v < st.vm.length) (hin : InsnsIn get npi [i]) (hD : ∀ d xs m, i = .call d xs m → D d) :
    ∃ st' pool' lsO' cc', expandStep layers rec i st pool = some (st', pool') ∧ layerPass layers [i] lsO cc = some (lsO', cc') ∧ ExpLay sp n lsO' cc' st' := by
  cases i with
  | constantLike c =>
    refine ⟨_, _, _, _, rfl, rfl, expLay_simple hi hl rfl rfl (le_refl _) ?_⟩
    intro q hq
    simp only [placedS, List.mem_singleton] at hq
    subst hq; trivial
  | internal e =>
    have hm : (Expr.getVars (Expr.replaceVars e fun x => st.vm.getD x 0)).map (layAt st.ls) = (Expr.getVars e).map (layAt lsO) := by
      rw [Verif.IR.Expr.getVars_replace, List.map_map]
      exact map_congr_mem fun x hx => hl.arg (ha x hx).2
    refine ⟨_, _, _, _, rfl, rfl, ?_⟩
    rw [← hm]
    refine expLay_simple hi hl rfl rfl (by omega) ?_
    intro q hq
    simp only [placedS, List.mem_singleton] at hq
    subst hq
    intro x hx
    have hx' := hx
    rw [Verif.IR.Expr.getVars_replace] at hx'
    obtain ⟨v, hv, rfl⟩ := List.mem_map.1 hx'
    have hr := hi.args_range (ha v hv).1 (ha v hv).2
    rw [layAt_append_left (v := st.vm.getD v 0) (by rw [hi.lsLen]; omega), layAt_get (x := st.vmax + 1) (y := maxOf ((Expr.getVars (Expr.replaceVars e fun x => st.vm.getD x 0)).map (layAt st.ls)) + 1)
      (by rw [← hi.lsLen]; simp)]
    exact Nat.lt_succ_of_le (le_maxOf (List.mem_map.2 ⟨_, hx, rfl⟩))
  | call d xs m =>
    obtain ⟨p, hg, hxl, rfl⟩ := hin.calls d xs m (by simp)
    have hir : ∀ x ∈ xs.map (fun x => st.vm.getD x 0), 1 ≤ x ∧ x ≤ st.vmax := by
      intro y hy
      obtain ⟨x, hx', rfl⟩ := List.mem_map.1 hy
      exact hi.args_range (ha x hx').1 (ha x hx').2
    have hils : (xs.map fun x => st.vm.getD x 0).map (layAt st.ls) = xs.map (layAt lsO) := by
      rw [List.map_map]
      exact map_congr_mem fun x hx => hl.arg (ha x hx).2
    obtain ⟨spl, pool', o, c, spS, l, h1, h2, h3, h4, h5, h6, h7⟩ := htot d p ((xs.map fun x => st.vm.getD x 0).map (layAt st.ls)) pool (hD d xs _ rfl) hg (by simp [hxl]) hp
    have hspl := hrec d _ pool spl pool' p hg (by simp [hxl]) hp h1
    obtain ⟨k, hk, hrefs⟩ := hspl.total
    have hi' := hi.mono hspl.pre
    obtain ⟨st1, e1, e2, e3⟩ := expandSegs_total (npi := npi) hi.lsLen h4 hir (by simp [hxl]) spl.segs [] l k st h5 hk (by simp) (by simp) hi' hl.lay
    obtain ⟨g1, g2, g3, g4, -⟩ := expandSegs_spec hir spl.segs 0 k st st1 e1 hk (by simp) hi'
    have hlk : l.length = k := by
      have := g1.lsLen
      rw [e3, List.length_append, hi.lsLen, g2] at this; omega
    -- the outputs
    have hlen := hspl.len
    have hat : ∀ (k y : Nat) (r : Ref), o[k]? = some y → spl.outs[k]? = some r → ∃ x, refVar (xs.map fun x => st.vm.getD x 0) st.vmax r = some x ∧ x < st1.ls.length ∧ layAt st1.ls x = y := by
      intro k y r hy hr
      obtain ⟨r', hr', hrat⟩ := h6 k y hy
      rw [hr] at hr'
      cases hr'
      rcases hrat with ⟨i, rfl, hiy⟩ | ⟨i, rfl, hiy⟩
      · rw [List.getElem?_map, Option.map_eq_some_iff] at hiy
        obtain ⟨x, hx, rfl⟩ := hiy
        have hxr := hir x (List.mem_of_getElem? hx)
        exact ⟨x, hx, by rw [e3, List.length_append, hi.lsLen]; omega, by rw [e3, layAt_append_left (by rw [hi.lsLen]; omega)]⟩
      · have hil := (List.getElem?_eq_some_iff.1 hiy).1
        refine ⟨st.vmax + i + 1, rfl, by rw [e3, List.length_append, hi.lsLen]; omega, ?_⟩
        rw [e3]
        exact layAt_get (by rw [List.getElem?_append_right (by rw [hi.lsLen]; omega), hi.lsLen, ← hiy]; congr 1; omega)
    obtain ⟨ts, hts⟩ := Verif.mapOpt_isSome (f := refVar (xs.map fun x => st.vm.getD x 0) st.vmax) (l := spl.outs.take p.outs.length) fun r hr => by
      obtain ⟨j, hj, rfl⟩ := List.getElem_of_mem hr
      rw [List.length_take] at hj
      have hjo : j < o.length := by omega
      obtain ⟨x, hx, -⟩ := hat j o[j] ((spl.outs.take p.outs.length)[j]) (List.getElem?_eq_getElem hjo) (by rw [List.getElem_take]; exact List.getElem?_eq_getElem (by omega))
      rw [hx]; rfl
    obtain ⟨cs, hcs⟩ := Verif.mapOpt_isSome (f := sccVar st.vmax) (l := spl.outs.drop p.outs.length) fun r hr => by
      obtain ⟨j, hj⟩ := List.getElem?_of_mem hr
      rw [List.getElem?_drop] at hj
      obtain ⟨i, y, rfl, -⟩ := h7 _ r (by omega) hj
      rfl
    have htl : ts.length = p.outs.length := by rw [Verif.mapOpt_length hts, List.length_take]; omega
    have htat : ∀ (j t : Nat), ts[j]? = some t → ∃ y, o[j]? = some y ∧ t < st1.ls.length ∧ layAt st1.ls t = y := by
      intro j t ht
      have hj := (List.getElem?_eq_some_iff.1 ht).1
      have hjo : j < o.length := by omega
      have hjs : j < spl.outs.length := by omega
      have hr : (spl.outs.take p.outs.length)[j]? = some spl.outs[j] := by rw [List.getElem?_take_of_lt (by omega)]; exact List.getElem?_eq_getElem hjs
      have e := Verif.mapOpt_getElem? hts j _ hr
      obtain ⟨x, hx, hx'⟩ := hat j o[j] spl.outs[j] (List.getElem?_eq_getElem hjo) (List.getElem?_eq_getElem hjs)
      rw [ht, hx] at e
      cases e
      exact ⟨o[j], List.getElem?_eq_getElem hjo, hx'⟩
    have hcheck : (ts.zip o).all (fun p => decide (p.1 < st1.ls.length ∧ layAt st1.ls p.1 = p.2)) = true ∧ o.length = ts.length := by
      refine ⟨?_, by rw [htl, h3]⟩
      rw [List.all_eq_true]
      rintro ⟨t, y⟩ hty
      obtain ⟨j, hj⟩ := List.getElem?_of_mem hty
      rw [List.getElem?_zip_eq_some] at hj
      obtain ⟨y', hy', hl'⟩ := htat j t hj.1
      rw [hj.2] at hy'
      cases hy'
      rw [decide_eq_true_iff]; exact hl'
    refine ⟨{ st1 with vm := st1.vm ++ ts, scc := st1.scc ++ cs }, pool', lsO ++ o, cc ++ c.map (· + 1), ?_, ?_, ?_⟩
    · simp only [expandStep, h1, h2, e1, hts, hcs]
      rw [if_pos hcheck]
    · simp only [layerPass]
      rw [← hils, h2]
      simp only [h3, if_true]
    · have hle : st.ls.length ≤ st1.ls.length := by rw [e3, List.length_append]; omega
      refine ⟨⟨e2.lays, e2.ncl, e2.pos⟩, by simp only [List.length_append, hl.len, g3, htl, h3], ?_, ?_⟩
      · intro x y hy
        dsimp only at hy ⊢
        rw [g3] at hy
        by_cases hxl' : x < st.vm.length
        · rw [List.getElem?_append_left hxl'] at hy
          have := hi.vmLe hy
          rw [e3, layAt_append_left (by rw [hi.lsLen]; omega), layAt_append_left (by rw [hl.len]; exact hxl')]; exact hl.var x y hy
        · rw [List.getElem?_append_right (by omega)] at hy
          obtain ⟨z, hz, hz', hz''⟩ := htat _ _ hy
          rw [hz'']
          exact (layAt_get (by rw [List.getElem?_append_right (by rw [hl.len]; omega), hl.len, hz])).symm
      · intro x hx
        dsimp only at hx ⊢
        rw [g4] at hx
        rcases List.mem_append.1 hx with hx | hx
        · have := hi.sccR x hx
          rw [e3, layAt_append_left (by rw [hi.lsLen]; omega)]
          exact List.mem_append_left _ (hl.scc x hx)
        · obtain ⟨r, hr, hrx⟩ := mapOpt_mem hcs x hx
          obtain ⟨j, hj⟩ := List.getElem?_of_mem hr
          rw [List.getElem?_drop] at hj
          obtain ⟨i, y, rfl, hiy, hyc⟩ := h7 _ r (by omega) hj
          simp only [sccVar, Option.some.injEq] at hrx
          subst hrx
          refine List.mem_append_right _ (List.mem_map.2 ⟨y, hyc, ?_⟩)
          rw [e3, layAt_get (by rw [List.getElem?_append_right (by rw [hi.lsLen]; omega), hi.lsLen, show st.vmax + i + 1 - (st.vmax + 1) = i by omega, hiy])]

theorem layerPass_cons {rec : Nat → List Nat → Option (List Nat × List Nat)} {i : Verif.IR.Dest.Insn F} {is : List (Verif.IR.Dest.Insn F)} {ls cc ls' cc' : List Nat}
    (h : layerPass rec [i] ls cc = some (ls', cc')) : layerPass rec (i :: is) ls cc = layerPass rec is ls' cc' := by
  cases i with
  | constantLike v => simp only [layerPass, Option.some.injEq, Prod.mk.injEq] at h ⊢; rw [h.1, h.2]
  | internal e => simp only [layerPass, Option.some.injEq, Prod.mk.injEq] at h ⊢; rw [h.1, h.2]
  | call d xs m =>
    simp only [layerPass] at h ⊢
    cases hr : rec d (xs.map (layAt ls)) with
    | none => rw [hr] at h; cases h
    | some r =>
      obtain ⟨o, c⟩ := r
      rw [hr] at h
      dsimp only at h ⊢
      by_cases ho : o.length = m
      · rw [if_pos ho] at h ⊢
        simp only [Option.some.injEq, Prod.mk.injEq] at h
        rw [h.1, h.2]
      · rw [if_neg ho] at h; cases h

theorem expand_total {layers : Nat → List Nat → Option (List Nat × List Nat)} {rec : Nat → List Nat → List (Prog F) → Option (Spl × List (Prog F))} {D : Nat → Prop} {sp : List Nat}
    (hrec : RecOk random get npi E SB rec) (htot : RecTot get npi sp layers rec D) : ∀ (is : List (Verif.IR.Dest.Insn F)) (st : Exp F) (pool : List (Prog F)) (lsO cc : List Nat), ExpInv npi n pool st →
    ExpLay sp n lsO cc st → PoolOk npi pool → ArgsOk is st.vm.length → InsnsIn get npi is → (∀ d xs m, Verif.IR.Dest.Insn.call d xs m ∈ is → D d) →
    ∃ st' pool' lsO' cc', expand layers rec is st pool = some (st', pool') ∧ layerPass layers is lsO cc = some (lsO', cc') ∧ ExpLay sp n lsO' cc' st' := by
  intro is
  induction is with
  | nil => intro st pool lsO cc _ hl _ _ _ _; exact ⟨st, pool, lsO, cc, rfl, rfl, hl⟩
  | cons i is ih =>
    intro st pool lsO cc hi hl hp ha hin hD
    rw [argsOk_cons] at ha
    have hin1 : InsnsIn get npi [i] := ⟨fun j hj => hin.valid j (by simp at hj; simp [hj]), fun d xs m hm => hin.calls d xs m (by simp at hm; simp [hm])⟩
    obtain ⟨st1, pool1, lsO1, cc1, h1, h2, h3⟩ := expandStep_total hrec htot hi hl hp ha.1 hin1 fun d xs m e => hD d xs m (by simp [e])
    obtain ⟨ts, cs, new, h4⟩ := expandStep_spec hrec hi hp ha.1 hin1 h1
    obtain ⟨st', pool', lsO', cc', g1, g2, g3⟩ := ih st1 pool1 lsO1 cc1 h4.inv h3 h4.poolOk (by rw [h4.len]; exact ha.2)
      ⟨fun j hj => hin.valid j (by simp [hj]), fun d xs m hm => hin.calls d xs m (by simp [hm])⟩ fun d xs m hm => hD d xs m (by simp [hm])
    refine ⟨st', pool', lsO', cc', ?_, ?_, g3⟩
    · simp only [expand, h1]; exact g1
    · rw [layerPass_cons h2]; exact g2

/-! ### Layers -/

theorem layerPass_prefix {rec : Nat → List Nat → Option (List Nat × List Nat)} : ∀ {is : List (Verif.IR.Dest.Insn F)} {ls cc ls' cc' : List Nat}, layerPass rec is ls cc = some (ls', cc') → ls <+: ls'
  | [], ls, cc, ls', cc', h => by simp only [layerPass, Option.some.injEq, Prod.mk.injEq] at h; rw [h.1]
  | .constantLike v :: is, ls, cc, ls', cc', h => (List.prefix_append ls [1]).trans (layerPass_prefix (is := is) h)
  | .internal e :: is, ls, cc, ls', cc', h => (List.prefix_append ls _).trans (layerPass_prefix (is := is) h)
  | .call d xs m :: is, ls, cc, ls', cc', h => by
    simp only [layerPass] at h
    cases hr : rec d (xs.map (layAt ls)) with
    | none => rw [hr] at h; cases h
    | some r =>
      obtain ⟨o, c⟩ := r
      rw [hr] at h
      dsimp only at h
      by_cases ho : o.length = m
      · rw [if_pos ho] at h
        exact (List.prefix_append ls o).trans (layerPass_prefix (is := is) h)
      · rw [if_neg ho] at h; cases h

/-- More fuel does not change the layers. -/
theorem layerPass_mono {rec rec' : Nat → List Nat → Option (List Nat × List Nat)} (hm : ∀ d ils r, rec d ils = some r → rec' d ils = some r) : ∀ {is : List (Verif.IR.Dest.Insn F)} {ls cc : List Nat}
    {r : List Nat × List Nat}, layerPass rec is ls cc = some r → layerPass rec' is ls cc = some r
  | [], ls, cc, r, h => h
  | .constantLike v :: is, ls, cc, r, h => layerPass_mono hm (is := is) h
  | .internal e :: is, ls, cc, r, h => layerPass_mono hm (is := is) h
  | .call d xs m :: is, ls, cc, r, h => by
    simp only [layerPass] at h ⊢
    cases hr : rec d (xs.map (layAt ls)) with
    | none => rw [hr] at h; cases h
    | some r' =>
      obtain ⟨o, c⟩ := r'
      rw [hr] at h
      rw [hm _ _ _ hr]
      dsimp only at h ⊢
      by_cases ho : o.length = m
      · rw [if_pos ho] at h ⊢
        exact layerPass_mono hm (is := is) h
      · rw [if_neg ho] at h; cases h

theorem layersOf_succ : ∀ {f d : Nat} {ils : List Nat} {r : List Nat × List Nat}, layersOf get f d ils = some r → layersOf get (f + 1) d ils = some r
  | 0, d, ils, r, h => by cases h
  | f + 1, d, ils, r, h => by
    rw [layersOf] at h ⊢
    cases hg : get d with
    | none => rw [hg] at h; cases h
    | some p =>
      rw [hg] at h
      dsimp only at h ⊢
      cases hl : layerPass (layersOf get f) p.insns (0 :: ils) [] with
      | none => rw [hl] at h; cases h
      | some r' =>
        rw [hl] at h
        rw [layerPass_mono (fun d ils r h => layersOf_succ h) hl]
        exact h

/-- What `layersOf` computes, with the same fuel inside. -/
theorem layersOf_eq {f d : Nat} {ils : List Nat} {p : Prog F} {o cc : List Nat} (hg : get d = some p) (h : layersOf get f d ils = some (o, cc)) :
    ∃ lsO cc0, layerPass (layersOf get f) p.insns (0 :: ils) [] = some (lsO, cc0) ∧ o = p.outs.map (layAt lsO) ∧ cc = sortDedup (cc0 ++ p.cons.map fun x => layAt lsO x + 1) := by
  cases f with
  | zero => cases h
  | succ f =>
    have h' := h
    rw [layersOf, hg] at h
    dsimp only at h
    cases hl : layerPass (layersOf get f) p.insns (0 :: ils) [] with
    | none => rw [hl] at h; cases h
    | some r =>
      obtain ⟨lsO, cc0⟩ := r
      rw [hl] at h
      simp only [Option.some.injEq, Prod.mk.injEq] at h
      exact ⟨lsO, cc0, layerPass_mono (fun d ils r h => layersOf_succ h) hl, h.1.symm, h.2.symm⟩

theorem layerPass_total {rec : Nat → List Nat → Option (List Nat × List Nat)} : ∀ {is : List (Verif.IR.Dest.Insn F)} (ls cc : List Nat), (∀ d xs m, Verif.IR.Dest.Insn.call d xs m ∈ is → ∀ ils : List Nat,
    ils.length = xs.length → ∃ o c, rec d ils = some (o, c) ∧ o.length = m) → ∃ ls' cc', layerPass rec is ls cc = some (ls', cc')
  | [], ls, cc, _ => ⟨ls, cc, rfl⟩
  | .constantLike v :: is, ls, cc, h => layerPass_total (is := is) (ls ++ [1]) cc fun d xs m hm => h d xs m (List.mem_cons_of_mem _ hm)
  | .internal e :: is, ls, cc, h => layerPass_total (is := is) _ cc fun d xs m hm => h d xs m (List.mem_cons_of_mem _ hm)
  | .call d xs m :: is, ls, cc, h => by
    obtain ⟨o, c, h1, h2⟩ := h d xs m List.mem_cons_self (xs.map (layAt ls)) (by simp)
    obtain ⟨ls', cc', h3⟩ := layerPass_total (is := is) (ls ++ o) (cc ++ c.map (· + 1)) fun d xs m hm => h d xs m (List.mem_cons_of_mem _ hm)
    refine ⟨ls', cc', ?_⟩
    simp only [layerPass, h1, h2, if_true, h3]

/-- A rank that decreases along calls. -/
def Ranked (get : Nat → Option (Prog F)) (r : Nat → Nat) : Prop := ∀ d p d' xs m, get d = some p → Verif.IR.Dest.Insn.call d' xs m ∈ p.insns → r d' < r d

theorem layersOf_total {rk : Nat → Nat} (hrk : Ranked get rk) (hall : ∀ d p, get d = some p → ProgIn random get npi p) : ∀ (f d : Nat) (p : Prog F) (ils : List Nat), rk d < f → get d = some p →
    ∃ o cc, layersOf get f d ils = some (o, cc) ∧ o.length = p.outs.length := by
  intro f
  induction f with
  | zero => intro d p ils h; omega
  | succ f ih =>
    intro d p ils h hg
    obtain ⟨ls', cc', hl⟩ := layerPass_total (rec := layersOf get f) (is := p.insns) (0 :: ils) [] fun d' xs m hm ils' hil => by
      obtain ⟨p', h1, h2, rfl⟩ := (hall d p hg).insns.calls d' xs m hm
      exact ih d' p' ils' (by have := hrk d p d' xs _ hg hm; omega) h1
    refine ⟨_, _, by rw [layersOf, hg]; dsimp only; rw [hl], by simp⟩

/-! ### Flattening -/

theorem placedS_cc {sp : List Nat} : ∀ (en : List (Nat × List (Term F))) (ls : List Nat) (cur : Nat), cur = ls.length → (∀ e ∈ en, ∀ x ∈ Expr.getVars (Expr.fromTerms e.2), x < ls.length ∧ layAt ls x ≤ e.1) →
    ∀ q ∈ placedS (ccInsns en) cur [], LayIn (ls ++ en.map (·.1 + 1)) sp q
  | [], ls, cur, _, _, q, hq => by cases hq
  | e :: en, ls, cur, hc, h, q, hq => by
    have hq : q ∈ (.internal (Expr.fromTerms e.2), cur, 0) :: placedS (ccInsns en) (cur + 1) [] := hq
    rcases List.mem_cons.1 hq with rfl | hq
    · intro x hx
      obtain ⟨h1, h2⟩ := h e (by simp) x hx
      rw [layAt_append_left h1, layAt_get (x := cur) (y := e.1 + 1) (by rw [hc]; simp)]
      omega
    · have := placedS_cc (sp := sp) en (ls ++ [e.1 + 1]) (cur + 1) (by simp [hc]) (fun e' he' x hx => by
        obtain ⟨h1, h2⟩ := h e' (by simp [he']) x hx
        rw [layAt_append_left h1, List.length_append]
        exact ⟨by omega, h2⟩) q hq
      rwa [List.append_assoc] at this

theorem flatten_total {layers : Nat → List Nat → Option (List Nat × List Nat)} {rec : Nat → List Nat → List (Prog F) → Option (Spl × List (Prog F))} {D : Nat → Prop} {sp : List Nat}
    (hrec : RecOk random get npi E SB rec) (htot : RecTot get npi sp layers rec D) {p : Prog F} (hpi : ProgIn random get npi p) {ils : List Nat} (hil : ils.length = p.numInputs)
    {pool : List (Prog F)} (hp : PoolOk npi pool) (hD : ∀ d xs m, Verif.IR.Dest.Insn.call d xs m ∈ p.insns → D d) {lsO cc : List Nat}
    (hlp : layerPass layers p.insns (0 :: ils) [] = some (lsO, cc)) :
    ∃ fl pool', flatten random false layers rec p ils pool = some (fl, pool') ∧ endOf fl.insns (p.numInputs + 1) = fl.ls.length ∧ (∀ x, x ≤ p.numInputs → layAt fl.ls x = layAt (0 :: ils) x) ∧
      (∀ x, p.numInputs < x → x < fl.ls.length → 1 ≤ layAt fl.ls x) ∧ (∀ q ∈ placedS fl.insns (p.numInputs + 1) fl.scl, LayIn fl.ls sp q) ∧
      fl.outs.map (layAt fl.ls) = p.outs.map (layAt lsO) ∧ (∀ x ∈ fl.adds, p.numInputs < x ∧ layAt fl.ls x ∈ cc ++ p.cons.map fun x => layAt lsO x + 1) := by
  have hvml : (Exp.init (F := F) p.numInputs ils).vm.length = p.numInputs + 1 := by simp [Exp.init]
  have hinit : ExpLay sp p.numInputs (0 :: ils) [] (Exp.init (F := F) p.numInputs ils) := by
    refine ⟨⟨fun q hq => (by cases hq), rfl, fun x hx hx' => ?_⟩, by simp [Exp.init, hil], ?_, fun x hx => (by cases hx)⟩
    · simp only [Exp.init, List.length_cons] at hx'; omega
    · intro x y hy
      simp only [Exp.init] at hy ⊢
      have := (List.getElem?_eq_some_iff.1 hy).1
      simp only [List.length_range] at this
      rw [List.getElem?_range (by omega)] at hy
      cases hy; rfl
  obtain ⟨st, pool1, lsO', cc', hex, hlp', hl⟩ := expand_total hrec htot p.insns (Exp.init p.numInputs ils) pool (0 :: ils) [] (init_inv hil) hinit hp (by rw [hvml]; exact hpi.prog.args) hpi.insns hD
  rw [hlp] at hlp'
  cases hlp'
  obtain ⟨ts, cs, new, hst⟩ := expand_spec hrec p.insns _ _ _ _ (init_inv hil) hp (by rw [hvml]; exact hpi.prog.args) hpi.insns hex
  have hlen : st.vm.length = endOf p.insns (p.numInputs + 1) := by rw [hst.len, hvml]
  have hn : p.numInputs ≤ st.vmax := by
    have h1 := hst.inv.fin
    have h2 := le_endOf st.insns (p.numInputs + 1)
    omega
  have hlsl := hst.inv.lsLen
  have hvmR : ∀ x, 1 ≤ x → x < endOf p.insns (p.numInputs + 1) → 1 ≤ st.vm.getD x 0 ∧ st.vm.getD x 0 < st.vmax + 1 ∧ layAt st.ls (st.vm.getD x 0) = layAt lsO x := by
    intro x h1 h2
    have := hst.inv.args_range h1 (by rw [hlen]; exact h2)
    exact ⟨this.1, by omega, hl.arg (by rw [hlen]; exact h2)⟩
  have hconsR : ∀ x ∈ p.cons.map (fun x => st.vm.getD x 0), 1 ≤ x ∧ x < st.vmax + 1 := by
    intro y hy
    obtain ⟨x, hx, rfl⟩ := List.mem_map.1 hy
    have := hvmR x (hpi.prog.cons x hx).1 (hpi.prog.cons x hx).2
    exact ⟨this.1, this.2.1⟩
  have hsccR : ∀ x ∈ st.scc, 1 ≤ x ∧ x < st.vmax + 1 := by
    intro x hx
    have := hst.inv.sccR x hx
    omega
  have hconsL : ∀ x ∈ p.cons.map (fun x => st.vm.getD x 0), layAt st.ls x + 1 ∈ p.cons.map fun x => layAt lsO x + 1 := by
    intro y hy
    obtain ⟨x, hx, rfl⟩ := List.mem_map.1 hy
    rw [(hvmR x (hpi.prog.cons x hx).1 (hpi.prog.cons x hx).2).2.2]
    exact List.mem_map.2 ⟨x, hx, rfl⟩
  unfold flatten
  rw [hex]
  dsimp only
  generalize hcons : p.cons.map (fun x => st.vm.getD x 0) = cons at hconsR hconsL
  generalize hen : (if random = true then ccLoop false st.scc cons (layAt st.ls) (List.range (maxOf st.ls + 10)) (st.vmax + 1) none else ([] : List (Nat × List (Term F)))) = en
  have henv : ∀ e ∈ en, (∀ x ∈ Expr.getVars (Expr.fromTerms e.2), x < st.ls.length ∧ layAt st.ls x ≤ e.1) ∧ e.1 + 1 ∈ cc ++ p.cons.map fun x => layAt lsO x + 1 := by
    cases random with
    | false => simp only [Bool.false_eq_true, if_false] at hen; subst hen; intro e he; cases he
    | true =>
      simp only [if_true] at hen
      rw [ccLoop_sub hsccR hconsR _ _ _ (le_refl _) (lastOk_none _ _)] at hen
      subst hen
      intro e he
      obtain ⟨i, hi, rfl⟩ := List.mem_map.1 he
      refine ⟨fun x hx => ?_, ?_⟩
      · have := Expr.fromTerms_vars _ x hx
        rw [getVars_mk] at this
        rcases List.mem_append.1 this with h | h
        · obtain ⟨h1, h2⟩ := sel_mem.1 h
          exact ⟨by rw [hlsl]; exact (hsccR x h1).2, by rw [h2]⟩
        · obtain ⟨h1, h2⟩ := sel_mem.1 h
          exact ⟨by rw [hlsl]; exact (hconsR x h1).2, by rw [h2]⟩
      · rw [ccLayers, List.mem_filter] at hi
        have hne : ¬ ((mk (F := F) (sel (layAt st.ls) st.scc i) (sel (layAt st.ls) cons i)).isEmpty = true) := by
          have := hi.2
          rw [Bool.not_eq_true'] at this
          rw [this]; simp
        rw [mk_isEmpty] at hne
        have hx : ∃ x ∈ st.scc ++ cons, layAt st.ls x = i := by
          by_cases h1 : sel (layAt st.ls) st.scc i = []
          · have h2 : sel (layAt st.ls) cons i ≠ [] := fun h2 => hne ⟨h1, h2⟩
            obtain ⟨x, hx⟩ := List.exists_mem_of_ne_nil _ h2
            exact ⟨x, List.mem_append_right _ (sel_mem.1 hx).1, (sel_mem.1 hx).2⟩
          · obtain ⟨x, hx⟩ := List.exists_mem_of_ne_nil _ h1
            exact ⟨x, List.mem_append_left _ (sel_mem.1 hx).1, (sel_mem.1 hx).2⟩
        obtain ⟨x, hx, rfl⟩ := hx
        rcases List.mem_append.1 hx with hx | hx
        · exact List.mem_append_left _ (hl.scc x hx)
        · exact List.mem_append_right _ (hconsL x hx)
  refine ⟨_, _, rfl, ?_, ?_, ?_, ?_, ?_, ?_⟩
  · show endOf (st.insns ++ ccInsns en) (p.numInputs + 1) = _
    rw [endOf_append, hst.inv.fin, endOf_ccInsns]
    simp only [List.length_append, List.length_map, hlsl]
  · intro x hx
    dsimp only
    rw [layAt_append_left (by rw [hlsl]; omega), hl.var x x (hst.inv.vmIn x hx)]
    obtain ⟨t, ht⟩ := layerPass_prefix hlp
    rw [← ht, layAt_append_left (by simp [hil]; omega)]
  · intro x hx hx'
    dsimp only at hx' ⊢
    by_cases hxl : x < st.ls.length
    · rw [layAt_append_left hxl]; exact hl.lay.pos x hx hxl
    · rw [List.length_append, List.length_map] at hx'
      have hg : en[x - st.ls.length]? = some en[x - st.ls.length] := List.getElem?_eq_getElem (by omega)
      rw [layAt_get (y := en[x - st.ls.length].1 + 1) (by rw [List.getElem?_append_right (by omega), List.getElem?_map, hg]; rfl)]
      omega
  · intro q hq
    dsimp only at hq ⊢
    have hq : q ∈ placedS (st.insns ++ ccInsns en) (p.numInputs + 1) (st.scl ++ []) := by rw [List.append_nil]; exact hq
    rw [placedS_append _ _ _ _ _ hl.lay.ncl, hst.inv.fin] at hq
    rcases List.mem_append.1 hq with hq | hq
    · exact layIn_exts hst.inv.args (by rw [hst.inv.fin, hlsl]) hl.lay.lays q hq
    · exact placedS_cc en st.ls _ hlsl.symm (fun e he => (henv e he).1) q hq
  · dsimp only
    rw [List.map_map]
    refine map_congr_mem fun x hx => ?_
    obtain ⟨h1, h2, h3⟩ := hvmR x (hpi.prog.outs x hx).1 (hpi.prog.outs x hx).2
    show layAt _ (st.vm.getD x 0) = _
    rw [layAt_append_left (by omega)]; exact h3
  · intro x hx
    dsimp only at hx ⊢
    simp only [Bool.false_eq_true, if_false] at hx
    have hx := List.mem_range'_1.1 hx
    have hg : en[x - st.ls.length]? = some en[x - st.ls.length] := List.getElem?_eq_getElem (by omega)
    refine ⟨by omega, ?_⟩
    rw [layAt_get (y := en[x - st.ls.length].1 + 1) (by rw [List.getElem?_append_right (by omega), List.getElem?_map, hg]; rfl)]
    exact (henv _ (List.mem_of_getElem? hg)).2

/-! ### All circuits -/

theorem SegsLay.congr {pool : List (Prog F)} {mn mn' sp : List Nat} {n : Nat} (h : ∀ x, x ≤ n → layAt mn x = layAt mn' x) : ∀ {ss : List Seg} {k k' : List Nat}, SegsLay pool mn n sp ss k k' →
    SegsLay pool mn' n sp ss k k'
  | [], _, _, g => g
  | a :: ss, k, k', g => by
    obtain ⟨c, h1, h2, h3, h4⟩ := g
    refine ⟨c, h1, fun r hr => ?_, h3, h4.congr h⟩
    rcases h2 r hr with ⟨i, e1, e2, e3⟩ | h'
    · exact Or.inl ⟨i, e1, e2, by rw [← h _ (by omega)]; exact e3⟩
    · exact Or.inr h'

theorem split_total {rk : Nat → Nat} (hrk : Ranked get rk) (hall : ∀ d p, get d = some p → ProgIn random get npi p) (hold : OldSem get E SB) (fuel : Nat) : ∀ (f : Nat) (sp : List Nat), 0 ∈ sp →
    RecTot get npi sp (layersOf get fuel) (split random get fuel f sp) fun d => rk d < rk 0 ∧ rk d < f ∧ rk d < fuel := by
  intro f
  induction f with
  | zero => intro sp _ d p ils pool h; omega
  | succ f ih =>
    intro sp h0 d p ils pool ⟨hd0, hdf, hdF⟩ hg hil hp
    obtain ⟨o, cc, hlay, hol⟩ := layersOf_total hrk hall fuel d p ils hdF hg
    obtain ⟨lsO, cc0, hlp, rfl, rfl⟩ := layersOf_eq hg hlay
    generalize hcc : sortDedup (cc0 ++ p.cons.map fun x => layAt lsO x + 1) = cc at hlay
    have hccm : ∀ y, y ∈ cc0 ++ p.cons.map (fun x => layAt lsO x + 1) → y ∈ cc := fun y hy => by rw [← hcc]; exact sortDedup_mem.2 hy
    generalize hsp : sortDedup (sp ++ (ils ++ (p.outs.map (layAt lsO) ++ cc))) = splitAt
    have hspm : ∀ y, y ∈ splitAt ↔ y ∈ sp ∨ y ∈ ils ∨ y ∈ p.outs.map (layAt lsO) ∨ y ∈ cc := fun y => by rw [← hsp, sortDedup_mem]; simp only [List.mem_append]
    have h0' : 0 ∈ splitAt := (hspm 0).2 (Or.inl h0)
    have hpi := hall d p hg
    have hrec := split_spec hall hold fuel f splitAt
    obtain ⟨fl, pool1, hfl, f1, f2, f3, f4, f5, f6⟩ := flatten_total hrec (ih splitAt h0') hpi hil hp (fun d' xs m hm => by have := hrk d p d' xs m hg hm; omega) hlp
    have hf := flatten_spec hrec hpi hil hp hfl
    have hsorted : splitAt.Pairwise (· < ·) := by rw [← hsp]; exact sortDedup_sorted _
    have hhead : splitAt.head? = some 0 := by
      cases splitAt with
      | nil => cases h0'
      | cons a t =>
        rcases List.mem_cons.1 h0' with h | h
        · rw [← h]; rfl
        · have := (List.pairwise_cons.1 hsorted).1 0 h; omega
    have houtL : ∀ (k x : Nat), fl.outs[k]? = some x → (p.outs.map (layAt lsO))[k]? = some (layAt fl.ls x) := fun k x hx => by rw [← f5, List.getElem?_map, hx]; rfl
    obtain ⟨spl, pool2, hcut, hcl⟩ := cut_total hsorted hhead hf.lay hf.valid hf.args hf.poolOk hf.calls f1 (by rw [f2 0 (by omega)]; rfl)
      (fun x hx => by
        rw [f2 x hx]
        cases x with
        | zero => exact h0'
        | succ x =>
          refine (hspm _).2 (Or.inr (Or.inl ?_))
          have hx' : x < ils.length := by omega
          have : layAt (0 :: ils) (x + 1) = ils[x] := layAt_get (by simp [hx'])
          rw [this]; exact List.getElem_mem _) f3
      (fun x hx => by
        have hr := hf.outsR x (by rcases List.mem_append.1 hx with h | h <;> simp [h])
        refine ⟨hr.1, by rw [← f1]; exact hr.2, ?_⟩
        rcases List.mem_append.1 hx with h | h
        · obtain ⟨k, hk⟩ := List.getElem?_of_mem h
          exact (hspm _).2 (Or.inr (Or.inr (Or.inl (List.mem_of_getElem? (houtL k x hk)))))
        · exact (hspm _).2 (Or.inr (Or.inr (Or.inr (hccm _ (f6 x h).2))))) f4
    obtain ⟨l, hl1, hl2⟩ := hcl.segs
    refine ⟨spl, pool2, p.outs.map (layAt lsO), cc, splitAt, l, ?_, hlay, hol, fun t ht => (hspm t).2 (Or.inl ht), hl1.congr f2, ?_, ?_⟩
    · rw [split, if_neg (by rintro rfl; omega), hg, hlay]
      dsimp only
      rw [hsp, hfl]
      exact hcut
    · intro k y hy
      have hk : k < fl.outs.length := by
        have := (List.getElem?_eq_some_iff.1 hy).1
        rw [hf.lenOuts]; simpa using this
      have hko := List.getElem?_eq_getElem hk
      have e := houtL k _ hko
      rw [hy] at e
      cases e
      rcases hl2 k fl.outs[k] (by rw [List.getElem?_append_left hk]; exact hko) with ⟨h1, h2, h3⟩ | ⟨h1, i, h2, h3⟩
      · refine ⟨_, h3, Or.inl ⟨_, rfl, ?_⟩⟩
        rw [f2 _ h2]
        have hx' : fl.outs[k] - 1 < ils.length := by omega
        generalize fl.outs[k] = v at h1 hx'
        obtain ⟨w, rfl⟩ : ∃ w, v = w + 1 := ⟨v - 1, by omega⟩
        have hx' : w < ils.length := hx'
        have : layAt (0 :: ils) (w + 1) = ils[w] := layAt_get (by simp [hx'])
        rw [this]; exact List.getElem?_eq_getElem hx'
      · exact ⟨_, h2, Or.inr ⟨i, rfl, h3⟩⟩
    · intro k r hk hr
      have hlen : spl.outs.length = (fl.outs ++ fl.adds).length := (cut_spec hcut hsorted hf.lay hf.valid hf.args hf.poolOk hf.calls).len
      have hk1 : k < (fl.outs ++ fl.adds).length := by rw [← hlen]; exact (List.getElem?_eq_some_iff.1 hr).1
      have hko := List.getElem?_eq_getElem hk1
      have hmem : (fl.outs ++ fl.adds)[k] ∈ fl.adds := by
        have := hko
        rw [List.getElem?_append_right (by rw [hf.lenOuts]; exact hk)] at this
        exact List.mem_of_getElem? this
      obtain ⟨a1, a2⟩ := f6 _ hmem
      rcases hl2 k _ hko with ⟨h1, h2, h3⟩ | ⟨h1, i, h2, h3⟩
      · omega
      · rw [hr] at h2
        cases h2
        exact ⟨i, _, rfl, h3, hccm _ a2⟩

theorem splitRoot_total {rk : Nat → Nat} (hrk : Ranked get rk) (hall : ∀ d p, get d = some p → ProgIn random get npi p) (hold : OldSem get E SB) {fuel : Nat} (hf : rk 0 < fuel) {p : Prog F}
    (hg : get 0 = some p) (k : Nat) : (splitRoot random get fuel k).isSome = true := by
  have hpi := hall 0 p hg
  obtain ⟨o, cc, hlay, -⟩ := layersOf_total hrk hall fuel 0 p (List.replicate p.numInputs 0) hf hg
  obtain ⟨lsO, cc0, hlp, -, -⟩ := layersOf_eq hg hlay
  have hrec := split_spec hall hold fuel fuel (sortDedup ([0] ++ (List.replicate p.numInputs 0 ++ (o ++ cc))))
  have htot := split_total hrk hall hold fuel fuel (sortDedup ([0] ++ (List.replicate p.numInputs 0 ++ (o ++ cc)))) (sortDedup_mem.2 (by simp))
  have hil : (List.replicate p.numInputs 0).length = p.numInputs := by simp
  have hp0 : PoolOk (F := F) npi [] := by intro i c hc; simp at hc
  obtain ⟨fl, pool1, hfl, -⟩ := flatten_total hrec htot hpi hil hp0 (fun d' xs m hm => by have := hrk 0 p d' xs m hg hm; omega) hlp
  unfold splitRoot
  rw [hg]
  dsimp only
  rw [hlay]
  dsimp only
  unfold flatten at hfl ⊢
  cases hex : expand (layersOf get fuel) (split random get fuel fuel (sortDedup ([0] ++ (List.replicate p.numInputs 0 ++ (o ++ cc))))) p.insns (Exp.init p.numInputs (List.replicate p.numInputs 0)) [] with
  | none => rw [hex] at hfl; cases hfl
  | some r =>
    dsimp only
    rw [if_pos]
    · rfl
    · cases random with
      | true => rfl
      | false => simp [hpi.none rfl]

end

/-- `split_to_single_layer` succeeds on every validated circuit. -/
theorem splitRoot_some {E : Env F} {relaxed random : Bool} {rc : RootCircuit (dest E relaxed)} (hw : Verif.IR.WF rc)
    (hchar : random = true → ∀ d circ, rc.get d = some circ → ∀ k : Nat, 0 < k → k ≤ circ.constraints.length → (k : F) ≠ 0)
    (hnone : random = false → ∀ d circ, rc.get d = some circ → circ.constraints = []) :
    ∃ N, ∀ fuel, N ≤ fuel → (splitRoot random (progGet rc.get) fuel rc.expectedNumOutputZeroes).isSome = true := by
  obtain ⟨rk, hrk⟩ := hw.wf.dag
  obtain ⟨root, hroot, -⟩ := hw.root
  refine ⟨rk 0 + 1, fun fuel hf => splitRoot_total (rk := rk) ?_ (old_progIn hw.wf hchar hnone) (old_sem hw.wf) (by omega) (p := progOf root) (by rw [progGet, hroot]; rfl) _⟩
  intro d p d' xs m hg hm
  obtain ⟨circ, h1, rfl⟩ := progGet_eq hg
  exact hrk d d' ⟨circ, h1, _, hm, xs, m, rfl⟩

end Verif.Layering.Split
