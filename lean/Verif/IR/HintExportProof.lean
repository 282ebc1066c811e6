import Verif.IR.HintExport

/-!
# Correctness of hint removal and hint export
-/

set_option linter.unusedSectionVars false
set_option linter.unusedSimpArgs false

namespace Verif.IR

open Verif.Utils

variable {F : Type} [Field F] [DecidableEq F]

namespace HintExport

/-! ### Runs with a trace of the hint answers -/

/-- An evaluation together with the hint answers used: `own` are the answers to the hints of this instruction list in order,
`sub` the answers used inside the circuits called, in call order, where each call contributes its own hints followed by those of
its callees. -/
inductive HRun (E : Env F) (get : Nat → Option (Circuit (hintNorm E))) :
    List (HintNorm.Insn F) → List F → List F → Bool → List F → List F → Prop
  | nil (vs : List F) : HRun E get [] vs vs true [] []
  | hint {i : HintNorm.Insn F} {is vs outs vs' b own sub} {h xs n} (hv : view i = .hint h xs n)
      (hp : (hintNorm E).prim i (fun v => vs[v]?) outs) (hl : outs.length = n)
      (hr : HRun E get is (vs ++ outs) vs' b own sub) : HRun E get (i :: is) vs vs' b (outs ++ own) sub
  | other {i : HintNorm.Insn F} {is vs outs vs' b own sub} {j} (hv : view i = .other j)
      (hp : (hintNorm E).prim i (fun v => vs[v]?) outs)
      (hr : HRun E get is (vs ++ outs) vs' b own sub) : HRun E get (i :: is) vs vs' b own sub
  | call {i : HintNorm.Insn F} {is vs args svs res vs' b sb cb c a n} {circ : Circuit (hintNorm E)} {so ss own sub}
      (hv : view i = .call c a n) (hg : get c = some circ) (ha : readAll vs a = some args)
      (hs : HRun E get circ.instructions (0 :: args) svs sb so ss)
      (hk : checkCons svs circ.constraints = some cb) (ho : readAll svs circ.outputs = some res)
      (hr : HRun E get is (vs ++ res) vs' b own sub) :
      HRun E get (i :: is) vs vs' ((sb && cb) && b) own ((so ++ ss) ++ sub)

theorem view_hint {i : HintNorm.Insn F} {h xs n} : view i = .hint h xs n → i = .hint h xs n := by
  cases i <;> simp [view]
theorem view_call {i : HintNorm.Insn F} {c xs n} : view i = .call c xs n → i = .call c xs n := by
  cases i <;> simp [view]

theorem view_other {i : HintNorm.Insn F} {j : HintLess.Insn F} (h : view i = .other j) :
    i.asCall = none ∧ j.asCall = none ∧ i.numOutputs = 1 ∧ j.numOutputs = 1 ∧ j.inputs = i.inputs ∧
    (∀ npi, i.valid npi = true → j.valid npi = true) ∧ (∀ f, ∃ j', view (i.replaceVars f) = .other j') := by
  cases i <;> simp only [view, View.other.injEq, reduceCtorEq] at h <;> subst h <;>
    simp [HintNorm.Insn.asCall, HintLess.Insn.asCall, HintNorm.Insn.numOutputs, HintLess.Insn.numOutputs,
      HintNorm.Insn.inputs, HintLess.Insn.inputs, HintNorm.Insn.valid, HintLess.Insn.valid, HintNorm.Insn.replaceVars, view]

theorem view_other_prim {i : HintNorm.Insn F} {j : HintLess.Insn F} (h : view i = .other j) {E E' : Env F}
    (hpub : E'.pub = E.pub) (hcu : E'.custom = E.custom) (val : Nat → Option F) (outs : List F) :
    (hintLess E).prim j val outs ↔ (hintNorm E').prim i val outs := by
  have hsem : ∀ (c : Coef F) y, c.Sem E' y ↔ c.Sem E y := by intro c y; cases c <;> simp [Coef.Sem, hpub]
  cases i <;> simp only [view, View.other.injEq, reduceCtorEq] at h <;> subst h <;>
    simp only [readPrim, HintNorm.Insn.inputs, HintLess.Insn.inputs, HintNorm.Insn.sem, HintLess.Insn.sem, hcu, hsem]

theorem view_asCall {i : HintNorm.Insn F} {t} (h : i.asCall = some t) : view i = .call t.1 t.2.1 t.2.2 := by
  cases i <;> simp [HintNorm.Insn.asCall] at h
  subst h; rfl

variable {E : Env F} {get : Nat → Option (Circuit (hintNorm E))}

theorem HRun.run {is vs vs' b own sub} (h : HRun E get is vs vs' b own sub) : Run get is vs vs' b := by
  induction h with
  | nil vs => exact .nil vs
  | hint hv hp hl hr ih => exact .prim (by rw [view_hint hv]; rfl) hp ih
  | other hv hp hr ih => exact .prim (view_other hv).1 hp ih
  | call hv hg ha hs hk ho hr ih1 ih2 => exact .call (by rw [view_call hv]; rfl) hg ha ih1 hk ho ih2

theorem hrun_of_run (hE : E.HintLen) {is vs vs' b} (h : Run get is vs vs' b) : ∃ own sub, HRun E get is vs vs' b own sub := by
  induction h with
  | nil vs => exact ⟨[], [], .nil vs⟩
  | prim hc hp hr ih =>
    obtain ⟨own, sub, ih⟩ := ih
    rename_i i _ _ _ _ _
    cases hv : view i with
    | hint h xs n =>
      refine ⟨_, _, .hint hv hp ?_ ih⟩
      have := (hintNorm_lawful E hE).prim_length _ _ _ hc hp
      rw [view_hint hv] at this; exact this
    | other j => exact ⟨_, _, .other hv hp ih⟩
    | call c xs n => rw [view_call hv] at hc; cases hc
  | call hc hg ha hs hk ho hr ih1 ih2 =>
    obtain ⟨so, ss, ih1⟩ := ih1
    obtain ⟨own, sub, ih2⟩ := ih2
    exact ⟨_, _, .call (view_asCall hc) hg ha ih1 hk ho ih2⟩

/-- The table of hint sizes is a solution of the recursive equation. -/
def SizesOk (hs : Nat → Nat × Nat) (get : Nat → Option (Circuit (hintNorm E))) : Prop :=
  ∀ c circ, get c = some circ → hs c = computeHintSizes hs circ.instructions

variable {hs : Nat → Nat × Nat}

theorem HRun.lengths (hsz : SizesOk hs get) {is vs vs' b own sub} (h : HRun E get is vs vs' b own sub) :
    own.length = (sizes hs is).2 ∧ sub.length = (sizes hs is).1 := by
  induction h with
  | nil vs => exact ⟨rfl, rfl⟩
  | hint hv hp hl hr ih => simp [sizes, hv, ih, hl]; omega
  | other hv hp hr ih => simp [sizes, hv, ih]
  | call hv hg ha hs hk ho hr ih1 ih2 =>
    simp [sizes, hv, ih1, ih2, hsz _ _ hg, computeHintSizes]; omega

/-! ### Slots -/

/-- The values `l` occupy the variables `p+1, ..., p+l.length`. -/
def At (ws : List F) (p : Nat) (l : List F) : Prop := ∀ j, j < l.length → ws[p + 1 + j]? = l[j]?

theorem At.append_left {ws : List F} {p : Nat} {l m : List F} (h : At ws p (l ++ m)) : At ws p l := by
  intro j hj
  rw [h j (by simp; omega), List.getElem?_append_left hj]

theorem At.append_right {ws : List F} {p : Nat} {l m : List F} (h : At ws p (l ++ m)) : At ws (p + l.length) m := by
  intro j hj
  have := h (l.length + j) (by simp; omega)
  rw [List.getElem?_append_right (by omega)] at this
  rw [show p + l.length + 1 + j = p + 1 + (l.length + j) by omega, this]
  congr 1; omega

theorem getElem?_app_some {ws t : List F} {v : Nat} {x : F} (h : ws[v]? = some x) : (ws ++ t)[v]? = some x := by
  rw [List.getElem?_append_left ((List.getElem?_eq_some_iff.1 h).1)]; exact h

theorem At.extend {ws t : List F} {p : Nat} {l : List F} (h : At ws p l) : At (ws ++ t) p l := by
  intro j hj
  have := h j hj
  rw [List.getElem?_eq_getElem hj] at this ⊢
  exact getElem?_app_some this

theorem At.read {ws : List F} : ∀ {l : List F} {p : Nat}, At ws p l → readAll ws (List.range' (p + 1) l.length) = some l := by
  intro l
  induction l with
  | nil => intro p _; rfl
  | cons x l ih =>
    intro p h
    have h0 := h 0 (by simp)
    simp at h0
    have h1 : At ws (p + 1) l := by
      have := At.append_right (l := [x]) (m := l) h
      simpa using this
    simp only [List.length_cons, List.range'_succ, readAll, h0, ih h1]

theorem readAll_app {vs : List F} : ∀ {is : List Nat} {js : List Nat} , readAll vs (is ++ js) =
    match readAll vs is, readAll vs js with
    | some a, some b => some (a ++ b)
    | _, _ => none := by
  intro is
  induction is with
  | nil => intro js; cases h : readAll vs js <;> simp [readAll, h]
  | cons i is ih =>
    intro js
    simp only [List.cons_append, readAll, ih]
    cases vs[i]? <;> cases readAll vs is <;> cases readAll vs js <;> simp

theorem readAll_extend {vs t : List F} : ∀ {is : List Nat} {xs}, readAll vs is = some xs → readAll (vs ++ t) is = some xs := by
  intro is
  induction is with
  | nil => intro xs h; exact h
  | cons i is ih =>
    intro xs h
    simp only [readAll] at h ⊢
    split at h
    · rename_i x r h1 h2
      rw [getElem?_app_some h1, ih h2]; exact h
    · cases h

/-- `vm` sends the variables of `vs` to variables of `ws` with the same values. -/
structure Rel (vm : List Nat) (vs ws : List F) : Prop where
  len : vm.length = vs.length
  val : ∀ v, v < vs.length → ws[vmGet vm v]? = vs[v]?

theorem Rel.init (xs ys : List F) : Rel (List.range (xs.length + 1)) (0 :: xs) (0 :: (xs ++ ys)) := by
  refine ⟨by simp, ?_⟩
  intro v hv
  have hv' : v < xs.length + 1 := by simpa using hv
  have : vmGet (List.range (xs.length + 1)) v = v := by
    simp [vmGet, hv']
  rw [this]
  cases v with
  | zero => rfl
  | succ v => simp; rw [List.getElem?_append_left (by omega)]

theorem vmGet_append_left {a b : List Nat} {v : Nat} (h : v < a.length) : vmGet (a ++ b) v = vmGet a v := by
  simp only [vmGet]; rw [List.getElem?_append_left h]

theorem Rel.extend {vm : List Nat} {vs ws t : List F} (h : Rel vm vs ws) : Rel vm vs (ws ++ t) := by
  refine ⟨h.len, fun v hv => ?_⟩
  have := h.val v hv
  rw [List.getElem?_eq_getElem hv] at this ⊢
  exact getElem?_app_some this

/-- Adding variables whose values sit at `p+1, ...`. -/
theorem Rel.push {vm : List Nat} {vs ws outs : List F} {p : Nat} (h : Rel vm vs ws) (ha : At ws p outs) :
    Rel (vm ++ List.range' (p + 1) outs.length) (vs ++ outs) ws := by
  refine ⟨by simp [h.len], ?_⟩
  intro v hv
  by_cases hlt : v < vs.length
  · rw [vmGet_append_left (by rw [h.len]; exact hlt), h.val v hlt, List.getElem?_append_left hlt]
  · have hj : v - vs.length < outs.length := by simp at hv; omega
    rw [List.getElem?_append_right (by omega), ← ha _ hj]
    simp only [vmGet]
    rw [List.getElem?_append_right (by rw [h.len]; omega), h.len]
    simp [hj]

theorem at_end (ws l : List F) {p : Nat} (h : ws.length = p + 1) : At (ws ++ l) p l := by
  intro j hj
  rw [List.getElem?_append_right (by omega)]
  congr 1; omega

theorem Rel.step {vm : List Nat} {vs ws outs : List F} {p : Nat} (h : Rel vm vs ws) (hl : ws.length = p + 1) :
    Rel (vm ++ List.range' (p + 1) outs.length) (vs ++ outs) (ws ++ outs) :=
  h.extend.push (at_end ws outs hl)

theorem Rel.reads {vm : List Nat} {vs ws : List F} (h : Rel vm vs ws) {is : List Nat} (hi : ∀ v ∈ is, v < vs.length) :
    readAll ws (is.map (vmGet vm)) = readAll vs is :=
  readAll_map_congr (fun v hv => h.val v (hi v hv))

theorem Rel.cons {L L' : Lang F} {vm : List Nat} {vs ws : List F} (h : Rel vm vs ws) {cs : List (Constraint L)}
    (g : Constraint L → Constraint L') (hvar : ∀ k, (g k).var = vmGet vm k.var)
    (hver : ∀ k x, L'.verify (g k).typ x = L.verify k.typ x)
    (hi : ∀ k ∈ cs, k.var < vs.length) : checkCons ws (cs.map g) = checkCons vs cs := by
  induction cs with
  | nil => rfl
  | cons c cs ih =>
    simp only [List.map_cons, checkCons, hvar, hver, h.val _ (hi c (by simp)), ih (fun k hk => hi k (by simp [hk]))]

/-! ### Arbitrary hint answers -/

/-- The environment in which every list of the declared length is an acceptable answer to a hint: what a malicious prover may
supply. -/
def _root_.Verif.IR.Env.anyHint (E : Env F) : Env F := ⟨E.pub, E.custom, fun _ _ n outs => outs.length = n, E.canon⟩

theorem anyHint_len (E : Env F) : E.anyHint.HintLen := fun _ _ _ _ h => h

/-- The same circuit read in the environment with arbitrary hints. -/
def castC (circ : Circuit (hintNorm E)) : Circuit (hintNorm E.anyHint) :=
  ⟨circ.instructions, circ.constraints.map (fun k => ⟨k.typ, k.var⟩), circ.outputs, circ.numInputs⟩

/-- The same family. -/
def castGet (get : Nat → Option (Circuit (hintNorm E))) : Nat → Option (Circuit (hintNorm E.anyHint)) :=
  fun c => (get c).map castC

theorem checkCons_castC (vs : List F) (cs : List (Constraint (hintNorm E))) :
    checkCons vs (L := hintNorm E.anyHint) (cs.map (fun k => ⟨k.typ, k.var⟩)) = checkCons vs cs := by
  induction cs with
  | nil => rfl
  | cons c cs ih => simp only [List.map_cons, checkCons, ih]

theorem HRun.any (hE : E.HintLen) {is vs vs' b own sub} (h : HRun E get is vs vs' b own sub) :
    HRun E.anyHint (castGet get) is vs vs' b own sub := by
  induction h with
  | nil vs => exact .nil vs
  | hint hv hp hl hr ih =>
    obtain ⟨args, ha, hp⟩ := hp
    refine .hint hv ⟨args, ha, ?_⟩ hl ih
    rw [view_hint hv]; exact hl
  | other hv hp hr ih =>
    refine .other hv ?_ ih
    exact (view_other_prim hv (E := E) (E' := E.anyHint) rfl rfl _ _).1 ((view_other_prim hv (E := E) (E' := E) rfl rfl _ _).2 hp)
  | call hv hg ha hs hk ho hr ih1 ih2 =>
    rename_i circ _ _ _ _
    refine .call hv (circ := castC circ) (by simp [castGet, hg]) ha ih1 ?_ ho ih2
    rw [← hk]; exact checkCons_castC _ _

theorem castSizes (hsz : SizesOk hs get) : SizesOk (E := E.anyHint) hs (castGet get) := by
  intro c circ hg
  simp only [castGet, Option.map_eq_some_iff] at hg
  obtain ⟨c0, hg, rfl⟩ := hg
  exact hsz c c0 hg

/-! ### Hint removal -/

/-- The family of hint-less circuits. -/
def removedGet (hs : Nat → Nat × Nat) (get : Nat → Option (Circuit (hintNorm E))) : Nat → Option (Circuit (hintLess E)) :=
  fun c => (get c).map (removeCore E hs c)

theorem insns_lt {npi} {L : Lang F} {cur n : Nat} {i : L.Insn} {is : List L.Insn} (h : InsnsOk L npi cur (i :: is)) (hn : n = cur + 1) :
    (∀ v ∈ L.inputs i, v < n) ∧ InsnsOk L npi (cur + L.numOutputs i) is := by
  obtain ⟨h1, _, _, h2⟩ := h
  exact ⟨fun v hv => by have := h1 v hv; omega, h2⟩

variable {npi : Option Nat}

theorem remove_sim (hE : E.HintLen) (hw : WFGet npi get) (hsz : SizesOk hs get) {is vs vs' b own sub}
    (h : HRun E.anyHint (castGet get) is vs vs' b own sub) : ∀ cur vm ownP subP mx ws, vs.length = cur + 1 → InsnsOk (hintNorm E) npi cur is →
      CallsOk get is → Rel vm vs ws → ws.length = mx + 1 → At ws ownP own → At ws subP sub →
      ∃ ws', Run (removedGet hs get) (removeInsns hs is vm ownP subP mx).1 ws ws' b ∧
        Rel (removeInsns hs is vm ownP subP mx).2.1 vs' ws' := by
  induction h with
  | nil vs =>
    intro cur vm ownP subP mx ws _ _ _ hr _ _ _
    exact ⟨ws, .nil _, hr⟩
  | hint hv hp hl hr ih =>
    intro cur vm ownP subP mx ws hcur hok hco hrel hws ho hsb
    rename_i i _ _ outs _ _ _ _ h xs n
    obtain ⟨_, hok'⟩ := insns_lt hok rfl
    have hi : i = .hint h xs n := view_hint hv
    subst hi
    rw [show (hintNorm E).numOutputs (.hint h xs n) = n from rfl] at hok'
    simp only [removeInsns, hv]
    subst hl
    exact ih _ _ _ _ _ _ (by simp [hcur]; omega) hok' (fun i hi => hco i (by simp [hi])) (hrel.push ho.append_left) hws ho.append_right hsb
  | other hv hp hr ih =>
    intro cur vm ownP subP mx ws hcur hok hco hrel hws ho hsb
    rename_i i is' vs0 outs _ _ _ _ j
    obtain ⟨hin, hok'⟩ := insns_lt hok hcur
    obtain ⟨v1, v2, v3, v4, v5, v6, v7⟩ := view_other hv
    have hlen : outs.length = 1 := by
      have := (hintNorm_lawful E.anyHint (anyHint_len E)).prim_length _ _ _ v1 hp; rw [this]; exact v3
    rw [show (hintNorm E).numOutputs i = 1 from v3] at hok'
    simp only [removeInsns, hv]
    have hrel' := hrel.step (outs := outs) hws
    rw [hlen] at hrel'
    obtain ⟨ws', h1, h2⟩ := ih _ (vm ++ [mx + 1]) ownP subP (mx + 1) (ws ++ outs) (by simp [hcur, hlen]) hok' (fun i hi => hco i (by simp [hi]))
      hrel' (by simp [hws, hlen]) ho.extend hsb.extend
    refine ⟨ws', .prim ?_ ?_ h1, h2⟩
    · have := (hintLess_lawful E).asCall_replace j (vmGet vm)
      simp only [v2, Option.map_none] at this; exact this
    · rw [(hintLess_lawful E).prim_replace j _ _ _ v2, view_other_prim hv (E := E) (E' := E.anyHint) rfl rfl]
      refine (hintNorm_lawful E.anyHint (anyHint_len E)).prim_local _ _ _ _ v1 ?_ hp
      intro v hv'
      exact (hrel.val v (hin v hv')).symm
  | call hv hg ha hs' hk hout hr ih1 ih2 =>
    intro cur vm ownP subP mx ws hcur hok hco hrel hws ho hsb
    rename_i i is' vs0 args svs res vs1 b0 sb cb c a n circ so ss own0 sub0
    simp only [castGet, Option.map_eq_some_iff] at hg
    obtain ⟨circ, hg, rfl⟩ := hg
    have hi : i = .call c a n := view_call hv
    subst hi
    obtain ⟨hin, hok'⟩ := insns_lt hok hcur
    obtain ⟨circ', hg', hal, hnl⟩ := hco (.call c a n) (List.mem_cons_self ..) c a n rfl
    rw [hg] at hg'; cases hg'
    have hci := hw.circ c circ hg
    have hargs : args.length = circ.numInputs := by rw [readAll_length ha, hal]
    obtain ⟨hso, hss⟩ := hs'.lengths (castSizes hsz)
    rw [show (castC circ).instructions = circ.instructions from rfl] at hso hss
    have hsc := hsz c circ hg
    have hlen : (so ++ ss).length = (hs c).1 := by rw [hsc, List.length_append, hso, hss]; simp only [computeHintSizes]; omega
    -- the callee
    obtain ⟨sws, r1, r2⟩ := ih1 circ.numInputs (List.range (circ.numInputs + 1)) circ.numInputs (circ.numInputs + (hs c).2)
      (circ.numInputs + (hs c).1) (0 :: (args ++ (so ++ ss))) (by simp [hargs]) hci.insns (hw.calls c circ hg)
      (by have := Rel.init args (so ++ ss); rwa [hargs] at this)
      (by rw [← hlen]; simp [hargs])
      (by
        have := at_end (0 :: args) (so ++ ss) (p := circ.numInputs) (by simp [hargs])
        exact this.append_left)
      (by
        have := at_end (0 :: args) (so ++ ss) (p := circ.numInputs) (by simp [hargs])
        have := this.append_right
        rw [hso] at this
        rw [hsc]
        exact this)
    have hsv : svs.length = numVars circ.numInputs circ.instructions + 1 := by
      have := hs'.run.length (hintNorm_lawful _ (anyHint_len E)) (by
          intro i hi d a n hc
          obtain ⟨sub, g1, g2, g3⟩ := hw.calls c circ hg i hi d a n hc
          exact ⟨castC sub, by simp [castGet, g1], g2, g3⟩) (circ.numInputs + 1) (by simp [hargs])
      rw [this, numVars_add]; rfl
    have hres : res.length = n := by rw [readAll_length hout, hnl]; rfl
    rw [show (hintNorm E).numOutputs (.call c a n) = n from rfl] at hok'
    simp only [removeInsns, hv]
    have hrel' := hrel.step (outs := res) hws
    rw [hres] at hrel'
    have hsb2 := hsb.append_right
    rw [hlen] at hsb2
    obtain ⟨ws', h1, h2⟩ := ih2 _ (vm ++ List.range' (mx + 1) n) ownP (subP + (hs c).1) (mx + n) (ws ++ res) (by simp [hcur, hres]; omega) hok' (fun i hi => hco i (by simp [hi]))
      hrel' (by simp [hws, hres]; omega) ho.extend hsb2.extend
    refine ⟨ws', (run_call_iff rfl).2 ⟨removeCore E hs c circ, args ++ (so ++ ss), res, sb && cb, b0, by simp [removedGet, hg], ?_, ?_, h1, rfl⟩, h2⟩
    · rw [readAll_app, hrel.reads (is := a) (fun v hv' => hin v hv'), ha, ← hlen, hsb.append_left.read]
    · refine ⟨sws, sb, cb, r1, ?_, ?_, rfl⟩
      · show checkCons sws (circ.constraints.map _) = _
        rw [show (castC circ).constraints = circ.constraints.map (fun k => ⟨k.typ, k.var⟩) from rfl, checkCons_castC] at hk
        rw [← hk]
        refine r2.cons _ (fun k => rfl) (fun k x => rfl) (fun k hk' => ?_)
        have := hci.cons k hk'; omega
      · show readAll sws (circ.outputs.map _) = _
        rw [← hout]
        refine r2.reads (fun v hv' => ?_)
        have := hci.outs v hv'; omega

/-! ### Hint removal: the converse -/

theorem at_drop {ws l : List F} {p n m : Nat} (h : At ws p l) (hn : l.length = n + m) :
    ∃ a b, l = a ++ b ∧ a.length = n ∧ b.length = m := 
  ⟨l.take n, l.drop n, (List.take_append_drop n l).symm, by simp; omega, by simp; omega⟩

theorem at_of_read {ws : List F} : ∀ {l : List F} {p : Nat}, readAll ws (List.range' (p + 1) l.length) = some l → At ws p l := by
  intro l p h
  obtain ⟨h1, h2⟩ := readAll_eq_some_iff.1 h
  intro j hj
  have := (h2 j (p + 1 + j) (by simp [hj])).2
  exact this.symm

theorem remove_inv (hE : E.HintLen) (hw : WFGet npi get) (hsz : SizesOk hs get) :
    ∀ c circ, get c = some circ → ∀ is, is = circ.instructions → ∀ cur vm ownP subP mx vs ws ws' b own sub,
      vs.length = cur + 1 → InsnsOk (hintNorm E) npi cur is → CallsOk get is → Rel vm vs ws → ws.length = mx + 1 →
      At ws ownP own → At ws subP sub → own.length = (sizes hs is).2 → sub.length = (sizes hs is).1 →
      Run (removedGet hs get) (removeInsns hs is vm ownP subP mx).1 ws ws' b →
      ∃ vs', HRun E.anyHint (castGet get) is vs vs' b own sub ∧ Rel (removeInsns hs is vm ownP subP mx).2.1 vs' ws' := by
  refine call_induction hw.dag ?_
  intro c0 circ0 hg0 ihc is his
  have hsub : ∀ i ∈ is, i ∈ circ0.instructions := fun i hi => his ▸ hi
  clear his
  induction is with
  | nil =>
    intro cur vm ownP subP mx vs ws ws' b own sub _ _ _ hr _ _ _ ho hs' hrun
    obtain ⟨rfl, rfl⟩ := run_nil_iff.1 hrun
    simp [sizes] at ho hs'
    subst ho; subst hs'
    exact ⟨vs, .nil _, hr⟩
  | cons i is ih =>
    intro cur vm ownP subP mx vs ws ws' b own sub hcur hok hco hrel hws ho hsb hol hsl hrun
    have ih := ih (fun i hi => hsub i (by simp [hi]))
    have hco' : CallsOk get is := fun i hi => hco i (by simp [hi])
    cases hv : view i with
    | hint h xs n =>
      have hi : i = .hint h xs n := view_hint hv
      subst hi
      obtain ⟨hin, hok'⟩ := insns_lt hok hcur
      simp only [sizes, hv] at hol hsl
      obtain ⟨o1, o2, rfl, h1, h2⟩ := at_drop ho (n := n) (m := (sizes hs is).2) (by omega)
      simp only [removeInsns, hv] at hrun ⊢
      have hp := hrel.push ho.append_left
      have ho2 := ho.append_right
      rw [h1] at hp ho2
      obtain ⟨vs', r1, r2⟩ := ih (cur + n) _ _ _ _ _ _ _ _ _ _ (by simp [hcur, h1]; omega) hok' hco' hp hws ho2 hsb h2 hsl hrun
      refine ⟨vs', .hint hv ?_ h1 r1, r2⟩
      obtain ⟨args, ha⟩ := mapOpt_isSome (f := fun v => vs[v]?) (l := xs)
        (fun v hv' => by simp [List.getElem?_eq_getElem (hin v hv')])
      exact ⟨args, ha, h1⟩
    | other j =>
      obtain ⟨hin, hok'⟩ := insns_lt hok hcur
      obtain ⟨v1, v2, v3, v4, v5, v6, v7⟩ := view_other hv
      rw [show (hintNorm E).numOutputs i = 1 from v3] at hok'
      simp only [sizes, hv] at hol hsl
      simp only [removeInsns, hv] at hrun ⊢
      have hac : (hintLess E).asCall (j.replaceVars (vmGet vm)) = none := by
        have := (hintLess_lawful E).asCall_replace j (vmGet vm)
        simp only [v2, Option.map_none] at this; exact this
      obtain ⟨outs, hp, hr⟩ := (run_prim_iff hac).1 hrun
      have hlen : outs.length = 1 := by
        have := (hintLess_lawful E).prim_length _ _ _ hac hp
        rw [this, (hintLess_lawful E).numOutputs_replace]; exact v4
      rw [(hintLess_lawful E).prim_replace j _ _ _ v2, view_other_prim hv (E := E) (E' := E.anyHint) rfl rfl] at hp
      have hrel' := hrel.step (outs := outs) hws
      rw [hlen] at hrel'
      obtain ⟨vs', r1, r2⟩ := ih (cur + 1) _ _ _ _ (vs ++ outs) _ _ _ _ _ (by simp [hcur, hlen]) hok' hco' hrel' (by simp [hws, hlen])
        ho.extend hsb.extend hol hsl hr
      refine ⟨vs', .other hv ?_ r1, r2⟩
      refine (hintNorm_lawful E.anyHint (anyHint_len E)).prim_local _ _ _ _ v1 ?_ hp
      intro v hv'
      exact hrel.val v (hin v hv')
    | call c a n =>
      have hi : i = .call c a n := view_call hv
      subst hi
      obtain ⟨hin, hok'⟩ := insns_lt hok hcur
      rw [show (hintNorm E).numOutputs (.call c a n) = n from rfl] at hok'
      obtain ⟨circ, hg, hal, hnl⟩ := hco (.call c a n) (List.mem_cons_self ..) c a n rfl
      have hci := hw.circ c circ hg
      have hsc := hsz c circ hg
      simp only [sizes, hv] at hol hsl
      simp only [removeInsns, hv] at hrun ⊢
      obtain ⟨rcirc, rargs, res, sb0, b', hg', ha, ⟨sws, sb, cb, hs1, hk, hout, rfl⟩, hr, rfl⟩ := (run_call_iff rfl).1 hrun
      simp [removedGet, hg] at hg'
      subst hg'
      -- the arguments
      obtain ⟨s1, sub2, rfl, h1, h2⟩ := at_drop hsb (n := (hs c).1) (m := (sizes hs is).1) (by omega)
      rw [hsc] at h1
      obtain ⟨so, ss, rfl, hso, hss⟩ := at_drop (l := s1) hsb.append_left (n := (sizes hs circ.instructions).2) (m := (sizes hs circ.instructions).1)
        (by rw [h1]; simp only [computeHintSizes]; omega)
      rw [← hsc] at h1
      rw [readAll_app, hrel.reads (is := a) (fun v hv' => hin v hv'), ← h1, hsb.append_left.read] at ha
      cases hargs0 : readAll vs a with
      | none => rw [hargs0] at ha; simp at ha
      | some args =>
      rw [hargs0] at ha
      simp only [Option.some.injEq] at ha
      subst ha
      have hargs : args.length = circ.numInputs := by rw [readAll_length hargs0, hal]
      have hres : res.length = n := by
        rw [readAll_length hout, hnl]; simp [removeCore]
      -- the callee
      have hcall : Calls get c0 c := ⟨circ0, hg0, .call c a n, hsub _ (List.mem_cons_self ..), a, n, rfl⟩
      obtain ⟨svs, q1, q2⟩ := ihc c circ hcall hg _ rfl circ.numInputs (List.range (circ.numInputs + 1)) circ.numInputs
        (circ.numInputs + (hs c).2) (circ.numInputs + (hs c).1) (0 :: args) (0 :: (args ++ (so ++ ss))) sws sb so ss
        (by simp [hargs]) hci.insns (hw.calls c circ hg)
        (by have := Rel.init args (so ++ ss); rwa [hargs] at this)
        (by rw [← h1]; simp [hargs])
        (by
          have := at_end (0 :: args) (so ++ ss) (p := circ.numInputs) (by simp [hargs])
          exact this.append_left)
        (by
          have := at_end (0 :: args) (so ++ ss) (p := circ.numInputs) (by simp [hargs])
          have := this.append_right
          rw [hso] at this
          rw [hsc]
          exact this) hso hss hs1
      have hsv : svs.length = numVars circ.numInputs circ.instructions + 1 := by
        have := q1.run.length (hintNorm_lawful _ (anyHint_len E)) (by
          intro i hi d a n hc
          obtain ⟨sub, g1, g2, g3⟩ := hw.calls c circ hg i hi d a n hc
          exact ⟨castC sub, by simp [castGet, g1], g2, g3⟩) (circ.numInputs + 1) (by simp [hargs])
        rw [this, numVars_add]; rfl
      have hrel' := hrel.step (outs := res) hws
      rw [hres] at hrel'
      have hsb2 := hsb.append_right
      rw [h1] at hsb2
      obtain ⟨vs', r1, r2⟩ := ih (cur + n) _ _ _ _ (vs ++ res) _ _ _ _ sub2 (by simp [hcur, hres]; omega) hok' hco' hrel' (by simp [hws, hres]; omega)
        ho.extend hsb2.extend hol h2 hr
      refine ⟨vs', .call hv (circ := castC circ) (by simp [castGet, hg]) hargs0 q1 ?_ ?_ r1, r2⟩
      · rw [show (castC circ).constraints = circ.constraints.map (fun k => ⟨k.typ, k.var⟩) from rfl, checkCons_castC, ← hk]
        symm
        refine q2.cons _ (fun k => rfl) (fun k x => rfl) (fun k hk' => ?_)
        have := hci.cons k hk'; omega
      · rw [← hout]
        symm
        refine q2.reads (fun v hv' => ?_)
        have := hci.outs v hv'; omega

/-! ### Hint export -/

/-- The family of hint-exporting circuits. -/
def exportedGet (hs : Nat → Nat × Nat) (get : Nat → Option (Circuit (hintNorm E))) : Nat → Option (Circuit (hintNorm E)) :=
  fun c => (get c).map (exportHints E hs (c == 0))

/-- The circuits satisfying `S` call only circuits satisfying `S`, and never the root. -/
def NoRootCall (get : Nat → Option (Circuit (hintNorm E))) (S : Nat → Prop) : Prop := ∀ c d, S c → Calls get c d → S d ∧ d ≠ 0

theorem noRootCall_reach (hw : WFGet npi get) : NoRootCall get (Relation.ReflTransGen (Calls get) 0) := by
  intro c d hc hd
  refine ⟨hc.tail hd, ?_⟩
  rintro rfl
  obtain ⟨r, hr⟩ := hw.dag
  have key : ∀ x, Relation.ReflTransGen (Calls get) 0 x → r x ≤ r 0 := by
    intro x hx
    induction hx with
    | refl => exact Nat.le_refl _
    | tail _ h ih => have := hr _ _ h; omega
  have h1 := key c hc
  have h2 := hr c 0 hd
  omega

theorem export_sim (hE : E.HintLen) (hw : WFGet npi get) (hsz : SizesOk hs get) {S : Nat → Prop} (hnr : NoRootCall get S) {is vs vs' b own sub}
    (h : HRun E get is vs vs' b own sub) : ∀ cur vm mx ws, vs.length = cur + 1 → InsnsOk (hintNorm E) npi cur is →
      CallsOk get is → (∀ i ∈ is, ∀ d a n, (hintNorm E).asCall i = some (d, a, n) → S d ∧ d ≠ 0) → Rel vm vs ws → ws.length = mx + 1 →
      ∃ ws', Run (exportedGet hs get) (exportInsns hs is vm mx).1 ws ws' true ∧
        Rel (exportInsns hs is vm mx).2.1 vs' ws' ∧ readAll ws' (exportInsns hs is vm mx).2.2.1 = some own ∧
        readAll ws' (exportInsns hs is vm mx).2.2.2 = some sub := by
  induction h with
  | nil vs =>
    intro cur vm mx ws _ _ _ _ hr _
    exact ⟨ws, .nil _, hr, rfl, rfl⟩
  | hint hv hp hl hr ih =>
    intro cur vm mx ws hcur hok hco hz hrel hws
    rename_i i _ _ outs _ _ _ _ h xs n
    have hi : i = .hint h xs n := view_hint hv
    subst hi
    obtain ⟨hin, hok'⟩ := insns_lt hok hcur
    rw [show (hintNorm E).numOutputs (.hint h xs n) = n from rfl] at hok'
    simp only [exportInsns, hv]
    have hrel' := hrel.step (outs := outs) hws
    rw [hl] at hrel'
    obtain ⟨ws', h1, h2, h3, h4⟩ := ih (cur + n) _ (mx + n) (ws ++ outs) (by simp [hcur, hl]; omega) hok'
      (fun i hi => hco i (by simp [hi])) (fun i hi => hz i (by simp [hi])) hrel' (by simp [hws, hl]; omega)
    refine ⟨ws', .prim rfl ?_ h1, h2, ?_, h4⟩
    · obtain ⟨args, ha, hs'⟩ := hp
      refine ⟨args, ?_, hs'⟩
      rw [← ha]
      show mapOpt _ (xs.map _) = mapOpt _ xs
      rw [mapOpt_map]
      refine mapOpt_congr (fun v hv' => ?_)
      have hv2 := hin v hv'
      rw [vmGet_append_left (by rw [hrel.len]; exact hv2)]
      exact hrel.val v hv2
    · obtain ⟨t, ht⟩ := h1.prefix
      rw [readAll_app, h3, ← hl, ht, ((at_end _ outs hws).extend).read]
  | other hv hp hr ih =>
    intro cur vm mx ws hcur hok hco hz hrel hws
    rename_i i is' vs0 outs _ _ _ _ j
    obtain ⟨hin, hok'⟩ := insns_lt hok hcur
    obtain ⟨v1, v2, v3, v4, v5, v6, v7⟩ := view_other hv
    have hlen : outs.length = 1 := by
      have := (hintNorm_lawful E hE).prim_length _ _ _ v1 hp; rw [this]; exact v3
    rw [show (hintNorm E).numOutputs i = 1 from v3] at hok'
    simp only [exportInsns, hv]
    have hrel' := hrel.step (outs := outs) hws
    rw [hlen] at hrel'
    obtain ⟨ws', h1, h2, h3, h4⟩ := ih _ (vm ++ [mx + 1]) (mx + 1) (ws ++ outs) (by simp [hcur, hlen]) hok' (fun i hi => hco i (by simp [hi]))
      (fun i hi => hz i (by simp [hi])) hrel' (by simp [hws, hlen])
    refine ⟨ws', .prim ?_ ?_ h1, h2, h3, h4⟩
    · have := (hintNorm_lawful E hE).asCall_replace i (vmGet (vm ++ [mx + 1]))
      simp only [v1, Option.map_none] at this; exact this
    · refine ((hintNorm_lawful E hE).prim_replace i (vmGet (vm ++ [mx + 1])) _ _ v1).2 ?_
      refine (hintNorm_lawful E hE).prim_local _ _ _ _ v1 ?_ hp
      intro v hv'
      rw [vmGet_append_left (by rw [hrel.len]; exact hin v hv')]
      exact (hrel.val v (hin v hv')).symm
  | call hv hg ha hs' hk hout hr ih1 ih2 =>
    intro cur vm mx ws hcur hok hco hz hrel hws
    rename_i i is' vs0 args svs res vs1 b0 sb cb c a n circ so ss own0 sub0
    have hi : i = .call c a n := view_call hv
    subst hi
    obtain ⟨hin, hok'⟩ := insns_lt hok hcur
    obtain ⟨circ', hg', hal, hnl⟩ := hco (.call c a n) (List.mem_cons_self ..) c a n rfl
    rw [hg] at hg'; cases hg'
    have hci := hw.circ c circ hg
    have hc0 := hz (.call c a n) (List.mem_cons_self ..) c a n rfl
    have hargs : args.length = circ.numInputs := by rw [readAll_length ha, hal]
    obtain ⟨hso, hss⟩ := hs'.lengths hsz
    have hsc := hsz c circ hg
    have hlen : (so ++ ss).length = (hs c).1 := by rw [hsc, List.length_append, hso, hss]; simp only [computeHintSizes]; omega
    obtain ⟨sws, r1, r2, r3, r4⟩ := ih1 circ.numInputs (List.range (circ.numInputs + 1)) circ.numInputs
      (0 :: args) (by simp [hargs]) hci.insns (hw.calls c circ hg)
      (fun i hi d a n hc => hnr c d hc0.1 ⟨circ, hg, i, hi, a, n, hc⟩)
      (by have := Rel.init args []; rw [hargs, List.append_nil] at this; exact this)
      (by simp [hargs])
    have hsv : svs.length = numVars circ.numInputs circ.instructions + 1 := by
      have := hs'.run.length (hintNorm_lawful E hE) (hw.calls c circ hg) (circ.numInputs + 1) (by simp [hargs])
      rw [this, numVars_add]
    have hres : res.length = n := by rw [readAll_length hout, hnl]
    rw [show (hintNorm E).numOutputs (.call c a n) = n from rfl] at hok'
    simp only [exportInsns, hv]
    have hrel' := (hrel.step (outs := res) hws).extend (t := so ++ ss)
    rw [hres] at hrel'
    rw [List.append_assoc] at hrel'
    obtain ⟨ws', h1, h2, h3, h4⟩ := ih2 _ (vm ++ List.range' (mx + 1) n) (mx + n + (hs c).1) (ws ++ (res ++ (so ++ ss))) (by simp [hcur, hres]; omega) hok' (fun i hi => hco i (by simp [hi]))
      (fun i hi => hz i (by simp [hi])) hrel' (by rw [← hlen]; simp [hws, hres]; omega)
    refine ⟨ws', (run_call_iff rfl).2 ⟨exportHints E hs (c == 0) circ, args, res ++ (so ++ ss), true, true, by simp [exportedGet, hg], ?_, ?_, h1, rfl⟩, h2, h3, ?_⟩
    · rw [← ha]
      refine readAll_map_congr (fun v hv' => ?_)
      have hv2 := hin v hv'
      rw [vmGet_append_left (by rw [hrel.len]; exact hv2)]
      exact hrel.val v hv2
    · have hb : (c == 0) = false := by simpa using hc0.2
      refine ⟨sws, true, true, r1, ?_, ?_, rfl⟩
      · simp only [exportHints, hb]; rfl
      · simp only [exportHints, hb]
        rw [readAll_app, readAll_app, r3, r4]
        have : readAll sws (circ.outputs.map (vmGet (exportInsns hs circ.instructions (List.range (circ.numInputs + 1)) circ.numInputs).2.1)) = some res := by
          rw [← hout]
          refine r2.reads (fun v hv' => ?_)
          have := hci.outs v hv'; omega
        simp only [Bool.false_eq_true, if_false, this, List.append_assoc]
    · obtain ⟨t, ht⟩ := h1.prefix
      have hat : At ((ws ++ res) ++ (so ++ ss)) (mx + n) (so ++ ss) := at_end _ _ (by simp [hws, hres]; omega)
      rw [readAll_app, h4, ← hlen, ht]
      have := (hat.extend (t := t)).read
      rw [List.append_assoc ws] at this
      rw [this]

theorem export_inv (hE : E.HintLen) (hw : WFGet npi get) (hsz : SizesOk hs get) {S : Nat → Prop} (hnr : NoRootCall get S) :
    ∀ c circ, get c = some circ → S c → ∀ is, is = circ.instructions → ∀ cur vm mx vs ws ws' b,
      vs.length = cur + 1 → InsnsOk (hintNorm E) npi cur is → CallsOk get is → Rel vm vs ws → ws.length = mx + 1 →
      Run (exportedGet hs get) (exportInsns hs is vm mx).1 ws ws' b →
      ∃ vs' b' own sub, HRun E get is vs vs' b' own sub ∧ Rel (exportInsns hs is vm mx).2.1 vs' ws' ∧
        readAll ws' (exportInsns hs is vm mx).2.2.1 = some own ∧ readAll ws' (exportInsns hs is vm mx).2.2.2 = some sub := by
  refine call_induction hw.dag ?_
  intro c0 circ0 hg0 ihc hS0 is his
  have hsub : ∀ i ∈ is, i ∈ circ0.instructions := fun i hi => his ▸ hi
  clear his
  induction is with
  | nil =>
    intro cur vm mx vs ws ws' b _ _ _ hr _ hrun
    obtain ⟨rfl, rfl⟩ := run_nil_iff.1 hrun
    exact ⟨vs, true, [], [], .nil _, hr, rfl, rfl⟩
  | cons i is ih =>
    intro cur vm mx vs ws ws' b hcur hok hco hrel hws hrun
    have ih := ih (fun i hi => hsub i (by simp [hi]))
    have hco' : CallsOk get is := fun i hi => hco i (by simp [hi])
    cases hv : view i with
    | hint h xs n =>
      have hi : i = .hint h xs n := view_hint hv
      subst hi
      obtain ⟨hin, hok'⟩ := insns_lt hok hcur
      simp only [exportInsns, hv] at hrun ⊢
      obtain ⟨outs, ⟨args, ha, hp⟩, hr⟩ := (run_prim_iff rfl).1 hrun
      have hl : outs.length = n := hE _ _ _ _ hp
      have hrel' := hrel.step (outs := outs) hws
      rw [hl] at hrel'
      obtain ⟨vs', b', own, sub, r1, r2, r3, r4⟩ := ih (cur + n) _ _ _ _ _ _ (by simp [hcur, hl]; omega) hok' hco' hrel' (by simp [hws, hl]; omega) hr
      refine ⟨vs', b', _, _, .hint hv ⟨args, ?_, hp⟩ hl r1, r2, ?_, r4⟩
      · rw [← ha]
        show mapOpt _ xs = mapOpt _ (xs.map _)
        rw [mapOpt_map]
        refine mapOpt_congr (fun v hv' => ?_)
        have hv2 := hin v hv'
        rw [vmGet_append_left (by rw [hrel.len]; exact hv2)]
        exact (hrel.val v hv2).symm
      · obtain ⟨t, ht⟩ := hr.prefix
        rw [readAll_app, r3, ← hl, ht, ((at_end _ outs hws).extend).read]
    | other j =>
      obtain ⟨hin, hok'⟩ := insns_lt hok hcur
      obtain ⟨v1, v2, v3, v4, v5, v6, v7⟩ := view_other hv
      rw [show (hintNorm E).numOutputs i = 1 from v3] at hok'
      simp only [exportInsns, hv] at hrun ⊢
      have hac : (hintNorm E).asCall (i.replaceVars (vmGet (vm ++ [mx + 1]))) = none := by
        have := (hintNorm_lawful E hE).asCall_replace i (vmGet (vm ++ [mx + 1]))
        rw [show (hintNorm E).asCall i = none from v1] at this; exact this
      obtain ⟨outs, hp, hr⟩ := (run_prim_iff hac).1 hrun
      have hlen : outs.length = 1 := by
        have := (hintNorm_lawful E hE).prim_length _ _ _ hac hp
        rw [this]
        have := (hintNorm_lawful E hE).numOutputs_replace i (vmGet (vm ++ [mx + 1]))
        exact this.trans v3
      have hp := ((hintNorm_lawful E hE).prim_replace i (vmGet (vm ++ [mx + 1])) _ _ v1).1 hp
      have hrel' := hrel.step (outs := outs) hws
      rw [hlen] at hrel'
      obtain ⟨vs', b', own, sub, r1, r2, r3, r4⟩ := ih (cur + 1) _ _ (vs ++ outs) _ _ _ (by simp [hcur, hlen]) hok' hco' hrel' (by simp [hws, hlen]) hr
      refine ⟨vs', b', own, sub, .other hv ?_ r1, r2, r3, r4⟩
      refine (hintNorm_lawful E hE).prim_local _ _ _ _ v1 ?_ hp
      intro v hv'
      rw [vmGet_append_left (by rw [hrel.len]; exact hin v hv')]
      exact hrel.val v (hin v hv')
    | call c a n =>
      have hi : i = .call c a n := view_call hv
      subst hi
      obtain ⟨hin, hok'⟩ := insns_lt hok hcur
      rw [show (hintNorm E).numOutputs (.call c a n) = n from rfl] at hok'
      obtain ⟨circ, hg, hal, hnl⟩ := hco (.call c a n) (List.mem_cons_self ..) c a n rfl
      have hci := hw.circ c circ hg
      have hsc := hsz c circ hg
      simp only [exportInsns, hv] at hrun ⊢
      obtain ⟨rcirc, args, rres, sb0, b', hg', ha, ⟨sws, sb, cb, hs1, hk, hout, rfl⟩, hr, rfl⟩ := (run_call_iff rfl).1 hrun
      simp [exportedGet, hg] at hg'
      subst hg'
      have hcall : Calls get c0 c := ⟨circ0, hg0, .call c a n, hsub _ (List.mem_cons_self ..), a, n, rfl⟩
      have hb : (c == 0) = false := by
        simpa using (hnr _ _ hS0 hcall).2
      have hargs0 : readAll vs a = some args := by
        rw [← ha]
        symm
        refine readAll_map_congr (fun v hv' => ?_)
        have hv2 := hin v hv'
        rw [vmGet_append_left (by rw [hrel.len]; exact hv2)]
        exact hrel.val v hv2
      have hargs : args.length = circ.numInputs := by rw [readAll_length hargs0, hal]
      obtain ⟨svs, sb', so, ss, q1, q2, q3, q4⟩ := ihc c circ hcall hg (hnr _ _ hS0 hcall).1 _ rfl circ.numInputs (List.range (circ.numInputs + 1)) circ.numInputs
        (0 :: args) (0 :: args) sws sb (by simp [hargs]) hci.insns (hw.calls c circ hg)
        (by have := Rel.init args []; rw [hargs, List.append_nil] at this; exact this) (by simp [hargs]) hs1
      have hsv : svs.length = numVars circ.numInputs circ.instructions + 1 := by
        have := q1.run.length (hintNorm_lawful E hE) (hw.calls c circ hg) (circ.numInputs + 1) (by simp [hargs])
        rw [this, numVars_add]
      obtain ⟨hso, hss⟩ := q1.lengths hsz
      have hlen : (so ++ ss).length = (hs c).1 := by rw [hsc, List.length_append, hso, hss]; simp only [computeHintSizes]; omega
      obtain ⟨cb', hcb⟩ := checkCons_isSome (vs := svs) (cs := circ.constraints) (fun k hk' => by have := hci.cons k hk'; omega)
      obtain ⟨res, hres0⟩ := readAll_isSome (vs := svs) (is := circ.outputs) (fun k hk' => by have := hci.outs k hk'; omega)
      have hres : res.length = n := by rw [readAll_length hres0, hnl]
      have hrr : rres = res ++ (so ++ ss) := by
        simp only [exportHints, hb, Bool.false_eq_true, if_false] at hout
        rw [readAll_app, readAll_app, q3, q4] at hout
        rw [q2.reads (is := circ.outputs) (fun v hv' => by have := hci.outs v hv'; omega), hres0] at hout
        simpa using hout.symm
      subst hrr
      have hrel' := (hrel.step (outs := res) hws).extend (t := so ++ ss)
      rw [hres, List.append_assoc] at hrel'
      obtain ⟨vs', b2, own, sub, r1, r2, r3, r4⟩ := ih (cur + n) _ _ (vs ++ res) _ _ _ (by simp [hcur, hres]; omega) hok' hco' hrel' (by rw [← hlen]; simp [hws, hres]; omega) hr
      refine ⟨vs', _, _, _, .call hv hg hargs0 q1 hcb hres0 r1, r2, r3, ?_⟩
      obtain ⟨t, ht⟩ := hr.prefix
      have hat : At ((ws ++ res) ++ (so ++ ss)) (mx + n) (so ++ ss) := at_end _ _ (by simp [hws, hres]; omega)
      rw [readAll_app, r4, ← hlen, ht]
      have := (hat.extend (t := t)).read
      rw [List.append_assoc ws] at this
      rw [this]

end HintExport

end Verif.IR
