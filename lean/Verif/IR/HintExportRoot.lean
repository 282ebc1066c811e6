import Verif.IR.HintExportProof

/-!
# `remove_and_export_hints` on whole circuits
-/

set_option linter.unusedSectionVars false
set_option linter.unusedSimpArgs false

namespace Verif.IR

open Verif.Utils

variable {F : Type} [Field F] [DecidableEq F]

namespace HintExport

variable {E : Env F} {get : Nat → Option (Circuit (hintNorm E))} {hs : Nat → Nat × Nat} {npi : Option Nat}

theorem sizes_congr {hs hs' : Nat → Nat × Nat} : ∀ {is : List (HintNorm.Insn F)},
    (∀ i ∈ is, ∀ d a n, i.asCall = some (d, a, n) → hs d = hs' d) → sizes hs is = sizes hs' is := by
  intro is
  induction is with
  | nil => intro _; rfl
  | cons i is ih =>
    intro h
    have ih := ih (fun i hi => h i (by simp [hi]))
    simp only [sizes, ih]
    cases hv : view i with
    | hint _ _ _ => rfl
    | other _ => rfl
    | call c xs n =>
      simp only
      rw [h i (by simp) c xs n (by rw [view_call hv]; rfl)]

/-- The final `assert_eq!` of `remove_hints`. -/
theorem removeInsns_ptr : ∀ (is : List (HintNorm.Insn F)) vm ownP subP mx,
    (removeInsns hs is vm ownP subP mx).2.2 = subP + (sizes hs is).1 := by
  intro is
  induction is with
  | nil => intro vm ownP subP mx; rfl
  | cons i is ih =>
    intro vm ownP subP mx
    simp only [removeInsns, sizes]
    cases view i <;> simp only [ih]
    omega

theorem removeHints_some (hsz : SizesOk hs get) {c : Nat} {circ : Circuit (hintNorm E)} (hg : get c = some circ) :
    removeHints E hs c circ = some (removeCore E hs c circ) := by
  unfold removeHints
  rw [if_pos]
  rw [removeInsns_ptr, hsz c circ hg]
  simp only [computeHintSizes]; omega

/-- Bounds on the renumbering. -/
def VmOk (vm : List Nat) (cur mx : Nat) : Prop :=
  vm.length = cur + 1 ∧ ∀ v, v ≠ 0 → v ≤ cur → vmGet vm v ≠ 0 ∧ vmGet vm v ≤ mx

theorem VmOk.push {vm : List Nat} {cur mx mx' p n : Nat} (h : VmOk vm cur mx) (hm : mx ≤ mx') (hp : p + n ≤ mx') :
    VmOk (vm ++ List.range' (p + 1) n) (cur + n) mx' := by
  refine ⟨by simp [h.1]; omega, ?_⟩
  intro v h0 hv
  by_cases hlt : v < vm.length
  · rw [vmGet_append_left hlt]
    have := h.2 v h0 (by have := h.1; omega)
    exact ⟨this.1, by omega⟩
  · have hl := h.1
    have hj : v - vm.length < n := by omega
    have : vmGet (vm ++ List.range' (p + 1) n) v = p + 1 + (v - vm.length) := by
      simp only [vmGet]
      rw [List.getElem?_append_right (by omega)]
      simp [hj]
    rw [this]
    exact ⟨by omega, by omega⟩

theorem vmOk_init (n k : Nat) : VmOk (List.range (n + 1)) n (n + k) := by
  refine ⟨by simp, ?_⟩
  intro v h0 hv
  have : vmGet (List.range (n + 1)) v = v := by simp [vmGet, Nat.lt_succ_of_le hv]
  rw [this]; exact ⟨h0, by omega⟩

theorem remove_ok : ∀ (is : List (HintNorm.Insn F)) (cur : Nat) vm ownP subP mx, InsnsOk (hintNorm E) npi cur is →
    VmOk vm cur mx → ownP + (sizes hs is).2 ≤ mx → subP + (sizes hs is).1 ≤ mx →
    InsnsOk (hintLess E) npi mx (removeInsns hs is vm ownP subP mx).1 ∧
    VmOk (removeInsns hs is vm ownP subP mx).2.1 (numVars (L := hintNorm E) cur is)
      (numVars (L := hintLess E) mx (removeInsns hs is vm ownP subP mx).1) := by
  intro is
  induction is with
  | nil => intro cur vm ownP subP mx _ hv _ _; exact ⟨trivial, hv⟩
  | cons i is ih =>
    intro cur vm ownP subP mx hok hvm ho hs'
    obtain ⟨hin, hval, _, hok'⟩ := hok
    simp only [sizes] at ho hs'
    have hargs : ∀ xs : List Nat, (∀ t ∈ xs, t ≤ cur ∧ t ≠ 0) → ∀ t ∈ xs.map (vmGet vm), t ≤ mx ∧ t ≠ 0 := by
      intro xs hx t ht
      obtain ⟨v, hv, rfl⟩ := List.mem_map.1 ht
      have := hvm.2 v (hx v hv).2 (hx v hv).1
      exact ⟨this.2, this.1⟩
    cases hv : view i with
    | hint h xs n =>
      have hi : i = .hint h xs n := view_hint hv
      subst hi
      simp only [hv] at ho hs'
      simp only [removeInsns, hv, numVars_cons]
      exact ih (cur + n) _ _ _ _ hok' (hvm.push (Nat.le_refl _) (by omega)) (by omega) hs'
    | other j =>
      obtain ⟨v1, v2, v3, v4, v5, v6, v7⟩ := view_other hv
      simp only [hv] at ho hs'
      rw [show (hintNorm E).numOutputs i = 1 from v3] at hok'
      have hno : (hintLess E).numOutputs (j.replaceVars (vmGet vm)) = 1 := ((hintLess_lawful E).numOutputs_replace j _).trans v4
      simp only [removeInsns, hv]
      rw [numVars_cons (L := hintNorm E), numVars_cons (L := hintLess E), show (hintNorm E).numOutputs i = 1 from v3, hno]
      have hp := hvm.push (p := mx) (n := 1) (mx' := mx + 1) (by omega) (by omega)
      obtain ⟨h1, h2⟩ := ih (cur + 1) _ _ _ _ hok' hp (by omega : ownP + _ ≤ mx + 1) (by omega : subP + _ ≤ mx + 1)
      refine ⟨⟨?_, ?_, Or.inl rfl, by rw [hno]; exact h1⟩, h2⟩
      · rw [(hintLess_lawful E).inputs_replace]
        exact hargs _ (by rw [show (hintLess E).inputs j = i.inputs from v5]; exact hin)
      · rw [(hintLess_lawful E).validAt_replace]
        cases npi with
        | none => rfl
        | some k => exact v6 k hval
    | call c a n =>
      have hi : i = .call c a n := view_call hv
      subst hi
      simp only [hv] at ho hs'
      simp only [removeInsns, hv, numVars_cons]
      have hp := hvm.push (p := mx) (n := n) (mx' := mx + n) (by omega) (by omega)
      obtain ⟨h1, h2⟩ := ih (cur + n) _ ownP (subP + (hs c).1) _ hok' hp (by omega : ownP + _ ≤ mx + n) (by omega : subP + (hs c).1 + _ ≤ mx + n)
      refine ⟨⟨?_, (hintLess_lawful E).validAt_call npi _ _ _, Or.inl rfl, h1⟩, h2⟩
      intro t ht
      rcases List.mem_append.1 ht with ht | ht
      · exact hargs a hin t ht
      · simp at ht; omega

theorem removeCore_ok (hsz : SizesOk hs get) {c : Nat} {circ : Circuit (hintNorm E)} (hg : get c = some circ)
    (hc : CircOk npi circ) : CircOk npi (removeCore E hs c circ) := by
  have hsc := hsz c circ hg
  obtain ⟨h1, h2⟩ := remove_ok (E := E) (hs := hs) (npi := npi) circ.instructions circ.numInputs (List.range (circ.numInputs + 1)) circ.numInputs
    (circ.numInputs + (hs c).2) (circ.numInputs + (hs c).1) hc.insns (vmOk_init _ _)
    (by rw [hsc]; simp only [computeHintSizes]; omega) (by rw [hsc]; simp only [computeHintSizes]; omega)
  refine ⟨h1, ?_, Or.inl rfl, ?_, Or.inl rfl⟩
  · intro k hk
    obtain ⟨k0, hk0, rfl⟩ := List.mem_map.1 hk
    have := hc.cons k0 hk0
    have := h2.2 k0.var this.2 this.1
    exact ⟨this.2, this.1⟩
  · intro o ho
    obtain ⟨o0, ho0, rfl⟩ := List.mem_map.1 ho
    have := hc.outs o0 ho0
    have := h2.2 o0 this.2 this.1
    exact ⟨this.2, this.1⟩

theorem hl_replace_none {j : HintLess.Insn F} (f : Nat → Nat) (h : j.asCall = none) : (j.replaceVars f).asCall = none := by
  cases j <;> simp_all [HintLess.Insn.asCall, HintLess.Insn.replaceVars]

theorem removeInsns_calls : ∀ (is : List (HintNorm.Insn F)) vm ownP subP mx d,
    (∃ j ∈ (removeInsns hs is vm ownP subP mx).1, ∃ a n, j.asCall = some (d, a, n)) ↔
    (∃ i ∈ is, ∃ a n, i.asCall = some (d, a, n)) := by
  intro is
  induction is with
  | nil => intro vm ownP subP mx d; simp [removeInsns]
  | cons i is ih =>
    intro vm ownP subP mx d
    simp only [removeInsns]
    cases hv : view i with
    | hint h xs n =>
      simp only [ih]
      simp [view_hint hv, HintNorm.Insn.asCall]
    | other j =>
      obtain ⟨v1, v2, -⟩ := view_other hv
      have : (j.replaceVars (vmGet vm)).asCall = none := hl_replace_none _ v2
      simp only [List.mem_cons, exists_eq_or_imp, ih, this, v1]
    | call c a n =>
      have e1 : ∀ xs, (HintLess.Insn.call c xs n : HintLess.Insn F).asCall = some (c, xs, n) := fun _ => rfl
      have e2 : i.asCall = some (c, a, n) := by rw [view_call hv]; rfl
      simp only [List.mem_cons, exists_eq_or_imp, ih, e1, e2]
      simp

theorem removeInsns_callArity (hw : CallsOk get is) : ∀ vm ownP subP mx, CallsOk (removedGet hs get) (removeInsns hs is vm ownP subP mx).1 := by
  induction is with
  | nil => intro vm ownP subP mx i hi; simp [removeInsns] at hi
  | cons i is ih =>
    intro vm ownP subP mx
    have ih := ih (fun i hi => hw i (by simp [hi]))
    simp only [removeInsns]
    cases hv : view i with
    | hint h xs n => exact ih _ _ _ _
    | other j =>
      obtain ⟨v1, v2, -⟩ := view_other hv
      have hno : (j.replaceVars (vmGet vm)).asCall = none := by
        have := (hintLess_lawful E).asCall_replace j (vmGet vm)
        simp only [v2, Option.map_none] at this; exact this
      intro k hk d a n hc
      rcases List.mem_cons.1 hk with rfl | hk
      · rw [show (hintLess E).asCall _ = none from hno] at hc; cases hc
      · exact ih _ _ _ _ k hk d a n hc
    | call c a n =>
      intro k hk d b m hc
      rcases List.mem_cons.1 hk with rfl | hk
      · cases hc
        obtain ⟨sub, h1, h2, h3⟩ := hw i (by simp) c a n (by rw [view_call hv]; rfl)
        exact ⟨removeCore E hs c sub, by simp [removedGet, h1], by simp [removeCore, h2], by simp [removeCore, h3]⟩
      · exact ih _ _ _ _ k hk d b m hc

theorem calls_removed (c d : Nat) : Calls (removedGet hs get) c d ↔ Calls get c d := by
  unfold Calls
  constructor
  · rintro ⟨circ, hg, h⟩
    simp only [removedGet, Option.map_eq_some_iff] at hg
    obtain ⟨c0, hg, rfl⟩ := hg
    exact ⟨c0, hg, (removeInsns_calls _ _ _ _ _ d).1 h⟩
  · rintro ⟨circ, hg, h⟩
    exact ⟨removeCore E hs c circ, by simp [removedGet, hg], (removeInsns_calls _ _ _ _ _ d).2 h⟩

theorem removed_wf (hsz : SizesOk hs get) (hw : WFGet npi get) : WFGet npi (removedGet hs get) := by
  refine ⟨?_, ?_, ?_⟩
  · intro c circ hg
    simp only [removedGet, Option.map_eq_some_iff] at hg
    obtain ⟨c0, hg, rfl⟩ := hg
    exact removeCore_ok hsz hg (hw.circ c c0 hg)
  · intro c circ hg
    simp only [removedGet, Option.map_eq_some_iff] at hg
    obtain ⟨c0, hg, rfl⟩ := hg
    exact removeInsns_callArity (hw.calls c c0 hg) _ _ _ _
  · obtain ⟨r, hr⟩ := hw.dag
    exact ⟨r, fun c d h => hr c d ((calls_removed c d).1 h)⟩

/-! ### Evaluation of whole circuits -/

/-- The same circuit, read with arbitrary (adversarial) hint answers. -/
def castRc (rc : RootCircuit (hintNorm E)) : RootCircuit (hintNorm E.anyHint) :=
  ⟨rc.numPublicInputs, rc.expectedNumOutputZeroes, rc.circuits.map (fun p => (p.1, castC p.2))⟩

theorem castRc_get (rc : RootCircuit (hintNorm E)) : (castRc rc).get = castGet rc.get := by
  funext c
  exact lookup_map_snd castC rc.circuits c

theorem mapOpt_eq_map {α β : Type} {f : α → Option β} {g : α → β} : ∀ {l : List α}, (∀ a ∈ l, f a = some (g a)) →
    mapOpt f l = some (l.map g) := by
  intro l h
  rw [mapOpt_congr h, mapOpt_some]

theorem lookup_map_key {γ δ : Type} (g : Nat → γ → δ) : ∀ (l : List (Nat × γ)) (c : Nat),
    (l.map (fun p => (p.1, g p.1 p.2))).lookup c = (l.lookup c).map (g c) := by
  intro l
  induction l with
  | nil => intro c; rfl
  | cons p l ih =>
    intro c
    obtain ⟨a, b⟩ := p
    simp only [List.map_cons, List.lookup_cons, ih]
    by_cases h : c = a
    · subst h; simp
    · have : (c == a) = false := by simpa using h
      simp [this]

/-- What the pass returns. -/
theorem removeAndExport_eq (rc : RootCircuit (hintNorm E)) (hk : rc.vertices.Nodup) (hw : WFGet npi rc.get) :
    ∃ hs, SizesOk hs rc.get ∧ removeAndExport E rc = some
      (⟨rc.numPublicInputs, rc.expectedNumOutputZeroes, rc.circuits.map (fun p => (p.1, removeCore E hs p.1 p.2))⟩,
       ⟨rc.numPublicInputs, 0, rc.circuits.map (fun p => (p.1, exportHints E hs (p.1 == 0) p.2))⟩) := by
  obtain ⟨q, hq, hn, hm, hord⟩ := topo_of_wf rc hk hw
  refine ⟨hsGet (fun d => (bottomUp rc.get (fun t _ (circ : Circuit (hintNorm E)) => computeHintSizes (hsGet t) circ.instructions) q).lookup d), ?_, ?_⟩
  · intro c circ hg
    have := bottomUp_spec (get := rc.get) (f := fun t _ (circ : Circuit (hintNorm E)) => computeHintSizes (hsGet t) circ.instructions)
      (dep := Calls rc.get) hn hord (by
        intro g g' c a hg hd
        simp only [computeHintSizes]
        rw [sizes_congr (hs := hsGet g) (hs' := hsGet g')]
        intro i hi d a' n hc
        simp only [hsGet, hd d ⟨a, hg, i, hi, a', n, hc⟩]) ((hm c).2 ⟨circ, hg⟩) hg
    generalize bottomUp rc.get (fun t _ (circ : Circuit (hintNorm E)) => computeHintSizes (hsGet t) circ.instructions) q = tab at *
    conv => lhs; rw [hsGet, this]
    rfl
  · rename_i hsz'
    unfold removeAndExport hintSizes
    simp only [hq]
    rw [mapOpt_eq_map (g := fun p => (p.1, removeCore E _ p.1 p.2))]
    intro p hp
    have hg := get_of_mem hk hp
    rw [removeHints_some (get := rc.get) ?_ hg]; rfl
    intro c circ hg
    have := bottomUp_spec (get := rc.get) (f := fun t _ (circ : Circuit (hintNorm E)) => computeHintSizes (hsGet t) circ.instructions)
      (dep := Calls rc.get) hn hord (by
        intro g g' c a hg hd
        simp only [computeHintSizes]
        rw [sizes_congr (hs := hsGet g) (hs' := hsGet g')]
        intro i hi d a' n hc
        simp only [hsGet, hd d ⟨a, hg, i, hi, a', n, hc⟩]) ((hm c).2 ⟨circ, hg⟩) hg
    generalize bottomUp rc.get (fun t _ (circ : Circuit (hintNorm E)) => computeHintSizes (hsGet t) circ.instructions) q = tab at *
    conv => lhs; rw [hsGet, this]
    rfl

/-- A run of the root circuit, with its hint answers, gives an evaluation of the hint-less circuit on the inputs extended with
these answers. -/
theorem removed_eval (hE : E.HintLen) (rc : RootCircuit (hintNorm E)) (hl : RootCircuit (hintLess E)) (hw : WFGet npi rc.get)
    (hsz : SizesOk hs rc.get) (hget : hl.get = removedGet hs rc.get) (hz : hl.expectedNumOutputZeroes = rc.expectedNumOutputZeroes)
    {root : Circuit (hintNorm E)} (hg : rc.get 0 = some root) {ins vs all own sub : List F} {sb cb b : Bool} (hlen : ins.length = root.numInputs)
    (hr : HRun E.anyHint (castGet rc.get) root.instructions (0 :: ins) vs sb own sub)
    (hk : checkCons vs root.constraints = some cb) (ho : readAll vs root.outputs = some all)
    (hzl : rc.expectedNumOutputZeroes ≤ all.length)
    (hb : b = ((sb && cb) && (all.take rc.expectedNumOutputZeroes).all (fun x => decide (x = 0)))) :
    Eval hl (ins ++ (own ++ sub)) (all.drop rc.expectedNumOutputZeroes) b := by
  have hci := hw.circ 0 root hg
  obtain ⟨hso, hss⟩ := hr.lengths (castSizes hsz)
  have hsc := hsz 0 root hg
  have hl2 : (own ++ sub).length = (hs 0).1 := by rw [hsc, List.length_append, hso, hss]; simp only [computeHintSizes]; omega
  obtain ⟨ws, r1, r2⟩ := remove_sim hE hw hsz hr root.numInputs (List.range (root.numInputs + 1)) root.numInputs
    (root.numInputs + (hs 0).2) (root.numInputs + (hs 0).1) (0 :: (ins ++ (own ++ sub))) (by simp [hlen]) hci.insns (hw.calls 0 root hg)
    (by have := Rel.init ins (own ++ sub); rwa [hlen] at this) (by rw [← hl2]; simp [hlen])
    (by
      have := at_end (0 :: ins) (own ++ sub) (p := root.numInputs) (by simp [hlen])
      exact this.append_left)
    (by
      have := at_end (0 :: ins) (own ++ sub) (p := root.numInputs) (by simp [hlen])
      have := this.append_right
      rw [hso] at this
      rw [hsc]
      exact this)
  have hsv : vs.length = numVars root.numInputs root.instructions + 1 := by
    have := hr.run.length (hintNorm_lawful _ (anyHint_len E)) (by
      intro i hi d a n hc
      obtain ⟨sub, g1, g2, g3⟩ := hw.calls 0 root hg i hi d a n hc
      exact ⟨castC sub, by simp [castGet, g1], g2, g3⟩) (root.numInputs + 1) (by simp [hlen])
    rw [this, numVars_add]; rfl
  refine ⟨removeCore E hs 0 root, all, sb && cb, by rw [hget]; simp [removedGet, hg], ?_, ⟨ws, sb, cb, by rw [hget]; exact r1, ?_, ?_, rfl⟩, by rw [hz]; exact hzl, by rw [hz], by rw [hz]; exact hb⟩
  · show (ins ++ (own ++ sub)).length = root.numInputs + (hs 0).1
    rw [← hl2, List.length_append, hlen]
  · rw [← hk]
    refine r2.cons _ (fun k => rfl) (fun k x => rfl) (fun k hk' => ?_)
    have := hci.cons k hk'; omega
  · rw [← ho]
    refine r2.reads (fun v hv' => ?_)
    have := hci.outs v hv'; omega

/-- Conversely, an evaluation of the hint-less circuit is a run of the original with the extra inputs as hint answers. -/
theorem removed_eval_inv (hE : E.HintLen) (rc : RootCircuit (hintNorm E)) (hl : RootCircuit (hintLess E)) (hw : WFGet npi rc.get)
    (hsz : SizesOk hs rc.get) (hget : hl.get = removedGet hs rc.get) (hz : hl.expectedNumOutputZeroes = rc.expectedNumOutputZeroes)
    {root : Circuit (hintNorm E)} (hg : rc.get 0 = some root) {ins hints outs : List F} {b : Bool} (hlen : ins.length = root.numInputs)
    (he : Eval hl (ins ++ hints) outs b) : ∃ vs sb cb all own sub, hints = own ++ sub ∧
      HRun E.anyHint (castGet rc.get) root.instructions (0 :: ins) vs sb own sub ∧ checkCons vs root.constraints = some cb ∧
      readAll vs root.outputs = some all ∧ rc.expectedNumOutputZeroes ≤ all.length ∧ outs = all.drop rc.expectedNumOutputZeroes ∧
      b = ((sb && cb) && (all.take rc.expectedNumOutputZeroes).all (fun x => decide (x = 0))) := by
  have hci := hw.circ 0 root hg
  have hsc := hsz 0 root hg
  obtain ⟨root', all, b0, hg', hlen', ⟨ws, sb, cb, hr, hk, ho, rfl⟩, hzl, rfl, rfl⟩ := he
  rw [hget] at hg' hr
  simp [removedGet, hg] at hg'
  subst hg'
  have hl2 : hints.length = (hs 0).1 := by
    have : (ins ++ hints).length = root.numInputs + (hs 0).1 := hlen'
    rw [List.length_append, hlen] at this; omega
  obtain ⟨own, sub, rfl, hso, hss⟩ : ∃ own sub, hints = own ++ sub ∧ own.length = (sizes hs root.instructions).2 ∧
      sub.length = (sizes hs root.instructions).1 := by
    rw [hsc] at hl2
    simp only [computeHintSizes] at hl2
    exact ⟨hints.take (sizes hs root.instructions).2, hints.drop _, (List.take_append_drop _ hints).symm, by simp; omega, by simp; omega⟩
  obtain ⟨vs, q1, q2⟩ := remove_inv hE hw hsz 0 root hg _ rfl root.numInputs (List.range (root.numInputs + 1)) root.numInputs
    (root.numInputs + (hs 0).2) (root.numInputs + (hs 0).1) (0 :: ins) (0 :: (ins ++ (own ++ sub))) ws sb own sub (by simp [hlen]) hci.insns (hw.calls 0 root hg)
    (by have := Rel.init ins (own ++ sub); rwa [hlen] at this) (by rw [← hl2]; simp [hlen])
    (by
      have := at_end (0 :: ins) (own ++ sub) (p := root.numInputs) (by simp [hlen])
      exact this.append_left)
    (by
      have := at_end (0 :: ins) (own ++ sub) (p := root.numInputs) (by simp [hlen])
      have := this.append_right
      rw [hso] at this
      rw [hsc]
      exact this) hso hss hr
  have hsv : vs.length = numVars root.numInputs root.instructions + 1 := by
    have := q1.run.length (hintNorm_lawful _ (anyHint_len E)) (by
      intro i hi d a n hc
      obtain ⟨sub, g1, g2, g3⟩ := hw.calls 0 root hg i hi d a n hc
      exact ⟨castC sub, by simp [castGet, g1], g2, g3⟩) (root.numInputs + 1) (by simp [hlen])
    rw [this, numVars_add]; rfl
  refine ⟨vs, sb, cb, all, own, sub, rfl, q1, ?_, ?_, by rw [← hz]; exact hzl, by rw [hz], by rw [hz]⟩
  · rw [← hk]
    symm
    refine q2.cons _ (fun k => rfl) (fun k x => rfl) (fun k hk' => ?_)
    have := hci.cons k hk'; omega
  · rw [← ho]
    symm
    refine q2.reads (fun v hv' => ?_)
    have := hci.outs v hv'; omega

theorem readAll_inputs (ins : List F) (t : List F) : readAll ((0 :: ins) ++ t) (List.range' 1 ins.length) = some ins := by
  have := (at_end [0] ins (p := 0) rfl).extend (t := t)
  have := this.read
  simpa using this

/-- The hint-exporting circuit has a first variable if the original circuit has one. -/
theorem exported_long (hE : E.HintLen) (rc ex : RootCircuit (hintNorm E)) (hw : WFGet npi rc.get)
    (hsz : SizesOk hs rc.get) (hget : ex.get = exportedGet hs rc.get)
    {root : Circuit (hintNorm E)} (hg : rc.get 0 = some root) (hn : numVars root.numInputs root.instructions ≠ 0)
    {ins : List F} (hlen : ins.length = root.numInputs) {ws : List F} {sb : Bool}
    (r1 : Run ex.get (exportHints E hs true root).instructions (0 :: ins) ws sb) : 1 < ws.length := by
  have hnr := noRootCall_reach hw
  rw [hget] at r1
  obtain ⟨t, ht⟩ := r1.prefix
  by_contra hcon
  have hw1 : ws.length = 1 := by
    rw [ht] at hcon ⊢; simp at hcon ⊢; omega
  have hi0 : ins.length = 0 ∧ t.length = 0 := by rw [ht] at hw1; simp at hw1; simp [hw1]
  have hpos : 0 < numVars (L := hintNorm E) 0 root.instructions := by
    rw [hlen] at hi0; rw [hi0.1] at hn; omega
  -- the exporting circuit has at least as many variables
  have hmono : ∀ (is : List (HintNorm.Insn F)) vm mx, numVars (L := hintNorm E) mx is ≤ numVars (L := hintNorm E) mx (exportInsns hs is vm mx).1 := by
    intro is
    induction is with
    | nil => intro vm mx; exact Nat.le_refl _
    | cons i is ih =>
      intro vm mx
      simp only [exportInsns]
      cases hv : view i with
      | hint h xs n =>
        rw [view_hint hv]; simp only [numVars_cons]; exact ih _ _
      | other j =>
        simp only
        rw [numVars_cons (L := hintNorm E), numVars_cons (L := hintNorm E)]
        have e1 : (hintNorm E).numOutputs i = 1 := (view_other hv).2.2.1
        have e2 : (hintNorm E).numOutputs (i.replaceVars (vmGet (vm ++ [mx + 1]))) = 1 :=
          ((hintNorm_lawful E hE).numOutputs_replace i _).trans e1
        rw [e1, e2]; exact ih _ _
      | call c a n =>
        rw [view_call hv]; simp only
        rw [numVars_cons (L := hintNorm E), numVars_cons (L := hintNorm E)]
        show numVars (L := hintNorm E) (mx + n) is ≤ numVars (L := hintNorm E) (mx + (n + (hs c).1)) _
        have := ih (vm ++ List.range' (mx + 1) n) (mx + n + (hs c).1)
        rw [numVars_add] at this
        rw [← Nat.add_assoc]
        omega
  have hcalls : CallsOk (exportedGet hs rc.get) (exportInsns hs root.instructions (List.range (root.numInputs + 1)) root.numInputs).1 := by
    have key : ∀ (is : List (HintNorm.Insn F)) vm mx, (∀ i ∈ is, i ∈ root.instructions) → CallsOk (exportedGet hs rc.get) (exportInsns hs is vm mx).1 := by
      intro is
      induction is with
      | nil => intro vm mx _ i hi; simp [exportInsns] at hi
      | cons i is ih =>
        intro vm mx hsub
        have ih := fun vm mx => ih vm mx (fun i hi => hsub i (by simp [hi]))
        simp only [exportInsns]
        cases hv : view i with
        | hint h xs n =>
          intro k hk d a m hc
          rcases List.mem_cons.1 hk with rfl | hk
          · cases hc
          · exact ih _ _ k hk d a m hc
        | other j =>
          intro k hk d a m hc
          rcases List.mem_cons.1 hk with rfl | hk
          · have := (hintNorm_lawful E hE).asCall_replace i (vmGet (vm ++ [mx + 1]))
            rw [show (hintNorm E).asCall i = none from (view_other hv).1] at this
            have hc' := this.symm.trans hc
            cases hc'
          · exact ih _ _ k hk d a m hc
        | call c a n =>
          intro k hk d a' m hc
          rcases List.mem_cons.1 hk with rfl | hk
          · cases hc
            obtain ⟨s, g1, g2, g3⟩ := hw.calls 0 root hg i (hsub i (by simp)) c a n (by rw [view_call hv]; rfl)
            have hc0 : (c == 0) = false := by
              have := (hnr 0 c .refl ⟨root, hg, i, hsub i (by simp), a, n, by rw [view_call hv]; rfl⟩).2
              simpa using this
            refine ⟨exportHints E hs (c == 0) s, by simp [exportedGet, g1], by simp [exportHints, g2], ?_⟩
            have hel : ∀ (is : List (HintNorm.Insn F)) vm mx, (exportInsns hs is vm mx).2.2.1.length = (sizes hs is).2 ∧
                (exportInsns hs is vm mx).2.2.2.length = (sizes hs is).1 := by
              intro is
              induction is with
              | nil => intro vm mx; exact ⟨rfl, rfl⟩
              | cons i is ih =>
                intro vm mx
                simp only [exportInsns, sizes]
                cases hv : view i <;> simp [ih] <;> omega
            simp only [exportHints, hc0, Bool.false_eq_true, if_false, List.length_append, List.length_map, hel, g3]
            rw [hsz c s g1]; simp only [computeHintSizes]; omega
          · exact ih _ _ k hk d a' m hc
    exact key _ _ _ (fun i hi => hi)
  have hwl := r1.length (hintNorm_lawful E hE) hcalls (root.numInputs + 1) (by simp [hlen])
  rw [numVars_add] at hwl
  have := hmono root.instructions (List.range (root.numInputs + 1)) root.numInputs
  rw [hlen] at hi0
  rw [hi0.1] at this hwl
  omega

/-- The constraint of the hint-exporting circuit can be read: the original circuit has a variable, or the exporting circuit was validated. -/
theorem exported_first (hE : E.HintLen) (rc ex : RootCircuit (hintNorm E)) (hw : WFGet npi rc.get)
    (hsz : SizesOk hs rc.get) (hget : ex.get = exportedGet hs rc.get)
    {root : Circuit (hintNorm E)} (hg : rc.get 0 = some root) (hn : numVars root.numInputs root.instructions ≠ 0 ∨ WF ex)
    {ins : List F} (hlen : ins.length = root.numInputs) {ws : List F} {sb : Bool}
    (r1 : Run ex.get (exportHints E hs true root).instructions (0 :: ins) ws sb) : 1 < ws.length := by
  rcases hn with hn | hn
  · exact exported_long hE rc ex hw hsz hget hg hn hlen r1
  · have h0 : ex.get 0 = some (exportHints E hs true root) := by rw [hget]; simp [exportedGet, hg]
    have hc := (hn.wf.circ 0 _ h0).cons ⟨(), 1⟩ (by simp [exportHints])
    have hl := r1.length (hintNorm_lawful E hE) (hn.wf.calls 0 _ h0) (root.numInputs + 1) (by simp [hlen])
    rw [numVars_add] at hl
    have : (exportHints E hs true root).numInputs = root.numInputs := rfl
    rw [this] at hc
    have h1 := hc.2
    dsimp only at h1
    omega

/-- The hint-exporting circuit returns its inputs followed by the hint answers of some run. -/
theorem exported_eval_iff (hE : E.HintLen) (rc ex : RootCircuit (hintNorm E)) (hw : WFGet npi rc.get)
    (hsz : SizesOk hs rc.get) (hget : ex.get = exportedGet hs rc.get) (hz : ex.expectedNumOutputZeroes = 0)
    {root : Circuit (hintNorm E)} (hg : rc.get 0 = some root)
    {ins full : List F} (hlen : ins.length = root.numInputs) (hvl : ∀ ws sb, Run ex.get (exportHints E hs true root).instructions (0 :: ins) ws sb → 1 < ws.length) :
    (∃ b, Eval ex ins full b) ↔ ∃ vs b own sub, HRun E rc.get root.instructions (0 :: ins) vs b own sub ∧ full = ins ++ (own ++ sub) := by
  have hci := hw.circ 0 root hg
  have hnr := noRootCall_reach hw
  have hrel : Rel (List.range (root.numInputs + 1)) (0 :: ins) (0 :: ins) := by
    have := Rel.init ins []; rw [hlen, List.append_nil] at this; exact this
  have hexp : ∀ ws t own sub, ws = (0 :: ins) ++ t →
      readAll ws (exportInsns hs root.instructions (List.range (root.numInputs + 1)) root.numInputs).2.2.1 = some own →
      readAll ws (exportInsns hs root.instructions (List.range (root.numInputs + 1)) root.numInputs).2.2.2 = some sub →
      readAll ws (exportHints E hs true root).outputs = some (ins ++ (own ++ sub)) := by
    intro ws t own sub hws h1 h2
    simp only [exportHints, if_true]
    rw [readAll_app, readAll_app, h1, h2, hws, ← hlen, readAll_inputs]
    simp
  have hex0 : ex.get 0 = some (exportHints E hs true root) := by rw [hget]; simp [exportedGet, hg]
  constructor
  · rintro ⟨b, root', all, b0, hg', hlen', ⟨ws, sb, cb, hr, hk, ho, rfl⟩, hzl, rfl, rfl⟩
    rw [hex0] at hg'; cases hg'
    rw [hget] at hr
    obtain ⟨vs', b', own, sub, q1, q2, q3, q4⟩ := export_inv hE hw hsz hnr 0 root hg .refl _ rfl root.numInputs (List.range (root.numInputs + 1)) root.numInputs
      (0 :: ins) (0 :: ins) ws sb (by simp [hlen]) hci.insns (hw.calls 0 root hg) hrel (by simp [hlen]) hr
    obtain ⟨t, ht⟩ := hr.prefix
    rw [hexp ws t own sub ht q3 q4] at ho
    cases ho
    exact ⟨vs', b', own, sub, q1, by rw [hz]; rfl⟩
  · rintro ⟨vs, b, own, sub, h, rfl⟩
    obtain ⟨ws, r1, r2, r3, r4⟩ := export_sim hE hw hsz hnr h root.numInputs (List.range (root.numInputs + 1)) root.numInputs (0 :: ins)
      (by simp [hlen]) hci.insns (hw.calls 0 root hg) (fun i hi d a n hc => hnr 0 d .refl ⟨root, hg, i, hi, a, n, hc⟩) hrel (by simp [hlen])
    obtain ⟨t, ht⟩ := r1.prefix
    have hvl := hvl ws true (by rw [hget]; exact r1)
    refine ⟨_, exportHints E hs true root, ins ++ (own ++ sub), _, hex0, hlen, ⟨ws, true, decide (ws[1] = 0), by rw [hget]; exact r1, ?_, hexp ws t own sub ht r3 r4, rfl⟩, by rw [hz]; exact Nat.zero_le _, by rw [hz]; rfl, rfl⟩
    simp only [exportHints, if_true, checkCons]
    rw [List.getElem?_eq_getElem hvl]
    simp [rawVerify]

/-! ### Determinism without random constants -/

/-- No instruction draws a random value. -/
def NoRandom (rc : RootCircuit (hintNorm E)) : Prop :=
  ∀ c circ, rc.get c = some circ → ∀ i ∈ circ.instructions, i ≠ .constantLike .random

theorem other_det {i : HintNorm.Insn F} {j : HintLess.Insn F} (hv : view i = .other j) (hr : i ≠ .constantLike .random)
    {E : Env F} {val : Nat → Option F} {o o' : List F} (h : (hintNorm E).prim i val o) (h' : (hintNorm E).prim i val o') : o = o' := by
  obtain ⟨a, h1, h2⟩ := h
  obtain ⟨a', h1', h2'⟩ := h'
  rw [h1] at h1'; cases h1'
  cases i with
  | linComb lc => simp only [HintNorm.Insn.sem] at h2 h2'; rw [h2, h2']
  | mul xs => simp only [HintNorm.Insn.sem] at h2 h2'; rw [h2, h2']
  | hint _ _ _ => cases hv
  | call _ _ _ => cases hv
  | customGate g xs => simp only [HintNorm.Insn.sem] at h2 h2'; rw [h2, h2']
  | constantLike c =>
    obtain ⟨y, hy, rfl⟩ := h2
    obtain ⟨y', hy', rfl⟩ := h2'
    cases c with
    | const c => simp only [Coef.Sem] at hy hy'; rw [hy, hy']
    | random => exact absurd rfl hr
    | pub i => simp only [Coef.Sem] at hy hy'; rw [hy, hy']

/-- With the same hint answers the run is the same. -/
theorem HRun.det (hsz : SizesOk hs get) (hnr : ∀ c circ, get c = some circ → ∀ i ∈ circ.instructions, i ≠ .constantLike .random)
    {is vs vs1 b1 own sub} (h : HRun E get is vs vs1 b1 own sub) : ∀ {vs2 b2 own' sub'}, (∀ i ∈ is, i ≠ .constantLike .random) →
    HRun E get is vs vs2 b2 own' sub' → own = own' → sub = sub' → vs1 = vs2 ∧ b1 = b2 := by
  induction h with
  | nil vs => intro vs2 b2 own' sub' _ h' _ _; cases h'; exact ⟨rfl, rfl⟩
  | hint hv hp hl hr ih =>
    intro vs2 b2 own' sub' hn h' ho hs'
    cases h' with
    | hint hv' hp' hl' hr' =>
      rw [hv] at hv'; cases hv'
      obtain ⟨e1, e2⟩ := List.append_inj ho (by rw [hl, hl'])
      subst e1
      exact ih (fun i hi => hn i (by simp [hi])) hr' e2 hs'
    | other hv' => rw [hv] at hv'; cases hv'
    | call hv' => rw [hv] at hv'; cases hv'
  | other hv hp hr ih =>
    intro vs2 b2 own' sub' hn h' ho hs'
    cases h' with
    | hint hv' => rw [hv] at hv'; cases hv'
    | call hv' => rw [hv] at hv'; cases hv'
    | other hv' hp' hr' =>
      have := other_det hv (hn _ (by simp)) hp hp'
      subst this
      exact ih (fun i hi => hn i (by simp [hi])) hr' ho hs'
  | call hv hg ha hs1 hk hout hr ih1 ih2 =>
    intro vs2 b2 own' sub' hn h' ho hs'
    cases h' with
    | hint hv' => rw [hv] at hv'; cases hv'
    | other hv' => rw [hv] at hv'; cases hv'
    | call hv' hg' ha' hs1' hk' hout' hr' =>
      rw [hv] at hv'; cases hv'
      rw [hg] at hg'; cases hg'
      rw [ha] at ha'; cases ha'
      obtain ⟨l1, l2⟩ := hs1.lengths hsz
      obtain ⟨l1', l2'⟩ := hs1'.lengths hsz
      obtain ⟨e1, e2⟩ := List.append_inj hs' (by simp [l1, l2, l1', l2'])
      obtain ⟨e3, e4⟩ := List.append_inj e1 (by simp [l1, l1'])
      obtain ⟨r1, r2⟩ := ih1 (hnr _ _ hg) hs1' e3 e4
      subst r1; subst r2
      rw [hk] at hk'; cases hk'
      rw [hout] at hout'; cases hout'
      obtain ⟨r1, r2⟩ := ih2 (fun i hi => hn i (by simp [hi])) hr' ho e2
      exact ⟨r1, by rw [r2]⟩

/-- Everything about the pass on a validated circuit. -/
theorem removeAndExport_correct (hE : E.HintLen) (rc : RootCircuit (hintNorm E)) (hk : rc.vertices.Nodup) (hw : WF rc) :
    ∃ hl ex, removeAndExport E rc = some (hl, ex) ∧ hl.vertices = rc.vertices ∧ ex.vertices = rc.vertices ∧ WF hl ∧
      hl.numPublicInputs = rc.numPublicInputs ∧
      (∀ root, rc.get 0 = some root → (numVars root.numInputs root.instructions ≠ 0 ∨ WF ex) → ∀ ins, ins.length = root.numInputs →
        (∀ outs b, Eval rc ins outs b → ∃ hints be, Eval ex ins (ins ++ hints) be ∧ Eval hl (ins ++ hints) outs b) ∧
        (∀ full be, Eval ex ins full be → ∃ hints, full = ins ++ hints ∧ ∃ outs b, Eval rc ins outs b ∧ Eval hl full outs b) ∧
        (NoRandom rc → ∀ hints be outs b, Eval ex ins (ins ++ hints) be → Eval hl (ins ++ hints) outs b → Eval rc ins outs b)) ∧
      (∀ root, rc.get 0 = some root → ∀ ins, ins.length = root.numInputs →
        ∀ outs b, Eval (castRc rc) ins outs b ↔ ∃ hints, Eval hl (ins ++ hints) outs b) := by
  obtain ⟨hs, hsz, heq⟩ := removeAndExport_eq rc hk hw.wf
  refine ⟨_, _, heq, ?_, ?_, ?_, rfl, ?_, ?_⟩
  · simp [RootCircuit.vertices, List.map_map, Function.comp_def]
  · simp [RootCircuit.vertices, List.map_map, Function.comp_def]
  · have hget : (⟨rc.numPublicInputs, rc.expectedNumOutputZeroes, rc.circuits.map (fun p => (p.1, removeCore E hs p.1 p.2))⟩ : RootCircuit (hintLess E)).get = removedGet hs rc.get := by
      funext c; exact lookup_map_key (fun c x => removeCore E hs c x) rc.circuits c
    refine ⟨?_, ?_⟩
    · rw [hget]; exact removed_wf hsz hw.wf
    · obtain ⟨root, hg, hz, hne⟩ := hw.root
      rw [hget]
      refine ⟨removeCore E hs 0 root, by simp [removedGet, hg], by simpa [removeCore] using hz, ?_⟩
      intro ho
      have : root.outputs = [] := by simpa [removeCore] using ho
      obtain ⟨d, circ, h1, h2, h3⟩ := hne this
      refine ⟨d, removeCore E hs d circ, ?_, by simp [removedGet, h2], by simpa [removeCore] using h3⟩
      exact Relation.ReflTransGen.mono (fun a b h => (calls_removed a b).2 h) _ _ h1
  · intro root hg hnv ins hlen
    have hget : (⟨rc.numPublicInputs, rc.expectedNumOutputZeroes, rc.circuits.map (fun p => (p.1, removeCore E hs p.1 p.2))⟩ : RootCircuit (hintLess E)).get = removedGet hs rc.get := by
      funext c; exact lookup_map_key (fun c x => removeCore E hs c x) rc.circuits c
    have hget2 : (⟨rc.numPublicInputs, 0, rc.circuits.map (fun p => (p.1, exportHints E hs (p.1 == 0) p.2))⟩ : RootCircuit (hintNorm E)).get = exportedGet hs rc.get := by
      funext c; exact lookup_map_key (fun c x => exportHints E hs (c == 0) x) rc.circuits c
    have hwf := hw.wf
    have hci := hwf.circ 0 root hg
    have hlong := fun ws sb => exported_first hE rc _ hwf hsz hget2 hg hnv hlen (ws := ws) (sb := sb)
    refine ⟨?_, ?_, ?_⟩
    · rintro outs b ⟨root', all, b0, hg', _, ⟨vs, sb, cb, hr, hkk, ho, rfl⟩, hzl, rfl, rfl⟩
      rw [hg] at hg'; cases hg'
      obtain ⟨own, sub, hh⟩ := hrun_of_run hE hr
      obtain ⟨be, hbe⟩ := (exported_eval_iff hE rc _ hwf hsz hget2 rfl hg hlen hlong).2 ⟨vs, sb, own, sub, hh, rfl⟩
      exact ⟨own ++ sub, be, hbe, removed_eval hE rc _ hwf hsz hget rfl hg hlen (hh.any hE) hkk ho hzl rfl⟩
    · intro full be he
      obtain ⟨vs, b, own, sub, hh, rfl⟩ := (exported_eval_iff hE rc _ hwf hsz hget2 rfl hg hlen hlong).1 ⟨be, he⟩
      have hsv : vs.length = numVars root.numInputs root.instructions + 1 := by
        have := hh.run.length (hintNorm_lawful E hE) (hwf.calls 0 root hg) (root.numInputs + 1) (by simp [hlen])
        rw [this, numVars_add]
      obtain ⟨cb, hcb⟩ := checkCons_isSome (vs := vs) (cs := root.constraints) (fun k hk' => by have := hci.cons k hk'; omega)
      obtain ⟨all, hall⟩ := readAll_isSome (vs := vs) (is := root.outputs) (fun k hk' => by have := hci.outs k hk'; omega)
      have hzl : rc.expectedNumOutputZeroes ≤ all.length := by
        obtain ⟨root', hg', hz, _⟩ := hw.root
        rw [hg] at hg'; cases hg'
        rw [readAll_length hall]; exact hz
      exact ⟨own ++ sub, rfl, _, _, ⟨root, all, _, hg, hlen, ⟨vs, b, cb, hh.run, hcb, hall, rfl⟩, hzl, rfl, rfl⟩,
        removed_eval hE rc _ hwf hsz hget rfl hg hlen (hh.any hE) hcb hall hzl rfl⟩
    · intro hnr hints be outs b he hl
      obtain ⟨vs, b1, own, sub, hh, e⟩ := (exported_eval_iff hE rc _ hwf hsz hget2 rfl hg hlen hlong).1 ⟨be, he⟩
      obtain ⟨vs2, sb, cb, all, own2, sub2, e2, hh2, hkk, ho, hzl, rfl, rfl⟩ := removed_eval_inv hE rc _ hwf hsz hget rfl hg hlen hl
      have e3 : own ++ sub = own2 ++ sub2 := by rw [← e2]; exact (List.append_cancel_left e).symm
      obtain ⟨l1, _⟩ := hh.lengths hsz
      obtain ⟨l2, _⟩ := hh2.lengths (castSizes hsz)
      obtain ⟨e4, e5⟩ := List.append_inj e3 (by rw [l1, l2])
      obtain ⟨r1, r2⟩ := (hh.any hE).det (castSizes hsz) (by
        intro c circ hg
        simp only [castGet, Option.map_eq_some_iff] at hg
        obtain ⟨c0, hg, rfl⟩ := hg
        exact hnr c c0 hg) (hnr 0 root hg) hh2 e4 e5
      subst r1; subst r2
      exact ⟨root, all, _, hg, hlen, ⟨vs, b1, cb, hh.run, hkk, ho, rfl⟩, hzl, rfl, rfl⟩
  · intro root hg ins hlen
    have hget : (⟨rc.numPublicInputs, rc.expectedNumOutputZeroes, rc.circuits.map (fun p => (p.1, removeCore E hs p.1 p.2))⟩ : RootCircuit (hintLess E)).get = removedGet hs rc.get := by
      funext c; exact lookup_map_key (fun c x => removeCore E hs c x) rc.circuits c
    have hwf := hw.wf
    intro outs b
    constructor
    · rintro ⟨root', all, b0, hg', _, ⟨vs, sb, cb, hr, hkk, ho, rfl⟩, hzl, rfl, rfl⟩
      rw [castRc_get] at hg' hr
      simp only [castGet, hg, Option.map_some, Option.some.injEq] at hg'
      subst hg'
      obtain ⟨own, sub, hh⟩ := hrun_of_run (anyHint_len E) hr
      rw [show (castC root).constraints = root.constraints.map (fun k => ⟨k.typ, k.var⟩) from rfl, checkCons_castC] at hkk
      exact ⟨own ++ sub, removed_eval hE rc _ hwf hsz hget rfl hg hlen hh hkk ho hzl rfl⟩
    · rintro ⟨hints, he⟩
      obtain ⟨vs2, sb, cb, all, own2, sub2, e2, hh2, hkk, ho, hzl, rfl, rfl⟩ := removed_eval_inv hE rc _ hwf hsz hget rfl hg hlen he
      refine ⟨castC root, all, _, by rw [castRc_get]; simp [castGet, hg], hlen, ⟨vs2, sb, cb, by rw [castRc_get]; exact hh2.run, ?_, ho, rfl⟩, hzl, rfl, rfl⟩
      rw [show (castC root).constraints = root.constraints.map (fun k => ⟨k.typ, k.var⟩) from rfl, checkCons_castC]; exact hkk

end HintExport

end Verif.IR
