import Verif.InputPlaced
import Verif.Layering.RootOk

/-!
# The input layer and the output layer of the root circuit
-/

set_option linter.unusedSectionVars false
set_option linter.unusedSimpArgs false

namespace Verif.Layering

open Verif.IR (Expr Coef Term VarSpec Env Circuit RootCircuit dest)
open Verif.Layered (Segment Gate Input Alloc LEnv)

variable {F : Type} [Field F] [DecidableEq F]
variable {tab : Nat → Option (Ctx F)} {E : Env F} {V : LEnv F F} {segs : List (Segment F)}

theorem lookup_reverse {q : List (Nat × Nat)} (hn : (q.map (·.1)).Nodup) (x : Nat) : q.reverse.lookup x = q.lookup x := by
  have hn' : (q.reverse.map (·.1)).Nodup := by rw [List.map_reverse]; exact List.nodup_reverse.2 hn
  cases h : q.lookup x with
  | some p => exact lookup_of_mem hn' (List.mem_reverse.2 (lookup_mem h))
  | none =>
    cases h' : q.reverse.lookup x with
    | none => rfl
    | some p => rw [lookup_of_mem hn (List.mem_reverse.1 (lookup_mem h'))] at h; cases h

/-- The buffer made from the inputs holds their values. -/
theorem input_ok {c : Ctx F} {layouts : List Layout} {ids : List Nat} (r : RootWired E V segs tab 0 c layouts ids) {order : List (Option Nat)}
    (ho : (layouts[0]?).bind (inputOrder c) = some order) {l0 : Nat}
    (hi : ((ids.head?).bind fun i => (segs[i]?).bind fun s => s.numInputs.head?) = some l0) {ins : List F} (hlen : ins.length = c.prog.numInputs) :
    InputMapping.InRange ⟨l0, order⟩ ∧ InputMapping.Injective ⟨l0, order⟩ ∧ order.length = c.prog.numInputs ∧
      ∀ buf : List F, InputMapping.Placed ⟨l0, order⟩ ins buf →
      ∀ T : Trace F, (∀ (j : Nat) (v : F), ins[j]? = some v → T [] (j + 1) = v) → ∀ L, layouts[0]? = some L → Agrees tab L T buf := by
  cases r.wired with
  | @mk _ _ _ c' qs subls cids gss lv hrec hlt hg hseg =>
    have := r.hc
    rw [lv.hc] at this; cases this
    have ok := r.htab _ _ r.hc
    obtain ⟨L, hL⟩ := lv.get (i := 0) (Nat.zero_le _)
    rw [hL, Option.bind_some] at ho
    -- size of the first layer
    have hsz : l0 = L.size := by
      obtain ⟨a, h1, h2⟩ := hseg 0 ok.outPos
      have hh : ids.head? = some a := by rw [List.head?_eq_getElem?]; exact h1
      rw [hh, Option.bind_some, h2, Option.bind_some] at hi
      have hmu := ok.mu1 0 ok.outPos
      simp only [mkSegment, show 0 + 1 - c.mu.getD (0 + 1) 0 = 1 by omega, List.range_one, List.map_cons, List.map_nil, List.head?_cons, Option.some.injEq] at hi
      rw [← hi, show (0 - 0 : Nat) = 0 from rfl, hL]; rfl
    have hq := lv.hquery 0 L hL
    have hsp := layoutQuery_spec (F := F) hq
    have hLok := r.ok L (List.mem_of_getElem? hL)
    -- the order is given by the positions
    have hord : order = (List.range' 1 c.prog.numInputs).map fun x => (qs.getD 0 []).lookup x := by
      cases L with
      | sparse a b s o ss => simp [inputOrder] at ho
      | dense a b pl =>
        unfold layoutQuery at hq
        unfold inputOrder at ho
        dsimp only at ho
        have hs : (Layout.dense a b pl).slots = (Layout.dense 0 0 pl).slots := rfl
        rw [hs] at hq
        have hv : c.varsOf 0 = c.vars.getD 0 [] := rfl
        rw [hv] at hq
        cases hm : mapOpt (fun s : Nat × Nat => ((c.vars.getD 0 [])[s.2]?).map fun v => (v, s.1)) (Layout.dense 0 0 pl).slots with
        | none => rw [hm] at ho; cases ho
        | some v =>
          rw [hm] at ho hq
          simp only [Option.some.injEq] at ho
          simp only at hq
          split at hq
          · rename_i hn
            simp only [Option.some.injEq] at hq
            rw [← ho, ← hq]
            exact List.map_congr_left fun x _ => lookup_reverse hn x
          · cases hq
    have hget : ∀ i : Nat, i < c.prog.numInputs → order[i]? = some ((qs.getD 0 []).lookup (i + 1)) := by
      intro i hi
      rw [hord, List.getElem?_map, range'_get hi, Option.map_some, Nat.add_comm]
    have holen : order.length = c.prog.numInputs := by rw [hord]; simp
    have hget' : ∀ i p : Nat, order[i]? = some (some p) → (qs.getD 0 []).lookup (i + 1) = some p := by
      intro i p h
      have : i < c.prog.numInputs := by rw [← holen]; exact (List.getElem?_eq_some_iff.1 h).1
      rw [hget i this] at h
      exact Option.some.inj h
    refine ⟨?_, ?_, holen, ?_⟩
    · intro p hp
      obtain ⟨i, hi⟩ := List.getElem?_of_mem hp
      have := lv.lookup_lt hL hLok (hget' i p hi)
      show p < l0
      omega
    · intro i1 i2 p h1 h2
      have := lv.lookup_inj hL hLok (hget' i1 p h1) (hget' i2 p h2)
      omega
    intro buf hbuf
    have hb2 : buf.length = l0 := hbuf.next
    intro T hT L' hL'
    rw [hL] at hL'; cases hL'
    have hsubs : L.subs = [] := by
      cases L with
      | sparse a b s o ss => simp [inputOrder] at ho
      | dense a b pl => rfl
    refine .mk (by rw [← hsz]; exact hb2) ?_ (by rw [hsubs]; intro _ _ _ h; cases h) (by rw [hsubs]; intro _ _ _ h; cases h)
    intro p idx hm
    have hp : p < l0 := by
      rw [hsz]
      cases hLok with
      | mk _ _ _ hs _ _ _ _ _ _ _ => exact hs p idx hm
    rw [lv.lvars_eq hL]
    obtain ⟨x, hx⟩ := layoutQuery_range hq p idx hm
    rw [List.getD_eq_getElem?_getD, hx, Option.getD_some]
    have hxin : 1 ≤ x ∧ x ≤ c.prog.numInputs := by
      rcases varsOf_cases ok (Nat.zero_le _) (List.mem_of_getElem? hx) with ⟨h1, h2, h3⟩ | ⟨cc, h1, -⟩
      · refine ⟨h1, ok.layIn x h1 h2 ?_⟩
        cases hd : c.prog.defn x with
        | none => rfl
        | some d => have := ok.layPos x d hd; omega
      · rw [ok.cc0] at h1; cases h1
    have hlk : (qs.getD 0 []).lookup x = some p := by
      -- the slot appears in the query
      have : (x, p) ∈ qs.getD 0 [] := by
        have hq' := hq
        unfold layoutQuery at hq'
        split at hq'
        · cases hq'
        · rename_i q' hq1
          split at hq'
          · simp only [Option.some.injEq] at hq'
            rw [← hq']
            obtain ⟨i, hi⟩ := List.getElem?_of_mem hm
            obtain ⟨y, g1, g2⟩ := mapOpt_get hq1 hi
            simp only [hx, Option.map_some, Option.some.injEq] at g1
            subst g1
            exact List.mem_of_getElem? g2
          · cases hq'
      exact lookup_of_mem hsp.1 this
    have hin : ins[x - 1]? = some (ins[x - 1]'(by omega)) := List.getElem?_eq_getElem (by omega)
    rw [hbuf.val (x - 1) p (by show order[x - 1]? = _; rw [hget (x - 1) (by omega), show x - 1 + 1 = x by omega, hlk]), hin]
    congr 1
    have := hT (x - 1) _ hin
    rw [show x - 1 + 1 = x by omega] at this
    exact this.symm

/-! ### The output layer -/

theorem addSlot_full (l : List Nat) (x : Nat) : addSlot (l.map some) x = (l ++ [x]).map some := by
  unfold addSlot
  have : (l.map some).findIdx Option.isNone = (l.map (some : Nat → Option Nat)).length := by
    rw [List.findIdx_eq_length]
    intro y hy
    obtain ⟨a, _, rfl⟩ := List.mem_map.1 hy
    rfl
  simp only [this, lt_irrefl, if_false, List.map_append, List.map_cons, List.map_nil]

theorem foldl_addSlot (l : List Nat) : ∀ acc : List Nat, l.foldl addSlot (acc.map some) = (acc ++ l).map some := by
  induction l with
  | nil => intro acc; simp
  | cons x l ih => intro acc; rw [List.foldl_cons, addSlot_full, ih]; simp

theorem solveFixed_spec {c : Ctx F} {id layer : Nat} {L : Layout} (h : solveFixed c id layer = some L) :
    ∃ m, L = .dense id layer ((List.range (c.varsOf layer).length).map some ++ List.replicate m none) := by
  unfold solveFixed at h
  obtain ⟨pl, h1, rfl⟩ := Option.map_eq_some_iff.1 h
  unfold mergeLayouts at h1
  have := foldl_addSlot (List.range (c.varsOf layer).length) []
  simp only [List.map_nil, List.nil_append] at this
  have hr : c.vars.getD layer [] = c.varsOf layer := rfl
  rw [hr] at h1
  simp only [List.all_nil, not_true_eq_false, if_false, List.length_nil, List.range_zero, List.insertionSort_nil, List.foldl_nil, Option.some.injEq] at h1
  rw [this] at h1
  exact ⟨_, by rw [← h1]⟩

theorem addNew_fold : ∀ (l : List Nat) (acc : List Nat), l.Nodup → (∀ x ∈ l, x ∉ acc) → l.foldl addNew acc = acc ++ l := by
  intro l
  induction l with
  | nil => intro acc _ _; simp
  | cons a l ih =>
    intro acc hn hd
    rw [List.nodup_cons] at hn
    rw [List.foldl_cons, addNew, if_neg (hd a (by simp)), ih _ hn.2, List.append_assoc]; rfl
    intro x hx
    simp only [List.mem_append, List.mem_cons, List.not_mem_nil, or_false, not_or]
    exact ⟨hd x (by simp [hx]), fun e => hn.1 (e ▸ hx)⟩

theorem addNew_prefix : ∀ (l acc : List Nat), ∃ r, l.foldl addNew acc = acc ++ r := by
  intro l
  induction l with
  | nil => intro acc; exact ⟨[], by simp⟩
  | cons a l ih =>
    intro acc
    rw [List.foldl_cons]
    obtain ⟨r, hr⟩ := ih (addNew acc a)
    rw [hr]
    unfold addNew
    split
    · exact ⟨r, rfl⟩
    · exact ⟨a :: r, by simp⟩

/-- The combined constraint of a layer, as a list. -/
def ccList (c : Ctx F) (j : Nat) : List Nat := match c.cc.getD j none with
  | some cc => [cc.id]
  | none => []

/-- The output layer starts with the combined constraint and the outputs. -/
theorem varsOut {c : Ctx F} (ok : CtxOk tab c) (hn : c.prog.outs.Nodup) : ∃ r, c.varsOf c.outL = ccList c c.outL ++ c.prog.outs ++ r := by
  rw [ok.vars _ (le_refl _), varsAt, if_pos rfl]
  have hcc : (ccList c c.outL ++ c.prog.outs).Nodup := by
    rw [List.nodup_append]
    refine ⟨?_, hn, ?_⟩
    · unfold ccList; cases c.cc.getD c.outL none <;> simp
    · intro a ha b hb e
      subst e
      unfold ccList at ha
      cases h : c.cc.getD c.outL none with
      | none => rw [h] at ha; cases ha
      | some cc =>
        rw [h] at ha
        simp only [List.mem_cons, List.not_mem_nil, or_false] at ha
        have := ok.ccId _ _ h
        have := (ok.occRange _ _ (ok.outsOcc a hb)).2
        omega
  have hfold := addNew_fold _ [] hcc (by simp)
  show ∃ r, (ccList c c.outL ++ (c.prog.outs ++ (List.range c.prog.nv).filter fun x => decide (c.outL ∈ c.occ.getD x []))).foldl addNew [] = _
  rw [← List.append_assoc, List.foldl_append, hfold]
  exact addNew_prefix _ _

/-- The last layer starts with the values of the combined constraint and of the outputs. -/
theorem output_ok {reorder : Bool} {fuel : Nat} {c : Ctx F} (hc : tab 0 = some c) (ok : CtxOk tab c) (hn : c.prog.outs.Nodup) {L : Layout}
    (hs : solve reorder tab fuel 0 c.outL = some L) {T : Trace F} {b : List F} (ha : Agrees tab L T b) :
    b.take (ccList c c.outL ++ c.prog.outs).length = (ccList c c.outL ++ c.prog.outs).map (T []) ∧ (ccList c c.outL ++ c.prog.outs).length ≤ b.length := by
  cases fuel with
  | zero => cases hs
  | succ f =>
    unfold solve at hs
    rw [hc] at hs
    simp only [true_and, or_true, if_true] at hs
    obtain ⟨m, rfl⟩ := solveFixed_spec hs
    obtain ⟨r, hr⟩ := varsOut ok hn
    have hlv : lvars tab (.dense 0 c.outL ((List.range (c.varsOf c.outL).length).map some ++ List.replicate m none)) = c.varsOf c.outL := by
      simp [lvars, Layout.circ, Layout.layer, hc]
    cases ha with
    | mk hl hs' _ _ =>
      rw [hlv] at hs'
      have hlen : (ccList c c.outL ++ c.prog.outs).length ≤ (c.varsOf c.outL).length := by rw [hr]; simp
      have hbl : (c.varsOf c.outL).length ≤ b.length := by rw [hl]; simp [Layout.size]
      refine ⟨?_, by omega⟩
      apply List.ext_getElem?
      intro p
      by_cases hp : p < (ccList c c.outL ++ c.prog.outs).length
      · rw [List.getElem?_take_of_lt hp, hs' p p (dense_slots.2 (by
          rw [List.getElem?_append_left (by simp; omega), List.getElem?_map, List.getElem?_range (by omega)]; rfl)), List.getElem?_map,
          List.getElem?_eq_getElem hp]
        simp only [Option.map_some, Option.some.injEq]
        congr 1
        rw [List.getD_eq_getElem?_getD, hr, List.getElem?_append_left hp, List.getElem?_eq_getElem hp]; rfl
      · rw [List.getElem?_eq_none (by rw [List.length_take]; omega), List.getElem?_eq_none (by rw [List.length_map]; omega)]

end Verif.Layering
