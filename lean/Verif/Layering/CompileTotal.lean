import Verif.Layering.ConnectTotal
import Verif.Layering.CtxTotal
import Verif.Layering.Table

/-!
# `layering::compile` returns on every validated circuit
-/

set_option linter.unusedSectionVars false
set_option linter.unusedSimpArgs false

namespace Verif.Layering

open Verif.IR
open Verif.Layered (Segment Gate Input Alloc)

variable {F : Type} [Field F] [DecidableEq F]
variable {E : Env F} {npi : Option Nat} {get : Nat → Option (Circuit (dest E false))} {cross : Bool}

theorem insnsOk_nodup : ∀ (is : List (Verif.IR.Dest.Insn F)) (cur : Nat), InsnsOk (dest E false) npi cur is →
    ∀ d a n, Verif.IR.Dest.Insn.call d a n ∈ is → a.Nodup := by
  intro is
  induction is with
  | nil => intro cur _ d a n h; cases h
  | cons i is ih =>
    intro cur h d a n hm
    obtain ⟨_, _, h3, h4⟩ := h
    rcases List.mem_cons.1 hm with rfl | hm
    · rcases h3 with h3 | h3
      · cases h3
      · exact h3 d a n rfl
    · exact ih _ h4 d a n hm

/-- The contexts of all circuits that can be reached are computed. -/
theorem ctxOf_total (hw : WFGet npi get) {r : Nat → Nat} (hr : ∀ c d, Calls get c d → r d < r c)
    (hin : ∀ d circ, Relation.TransGen (Calls get) 0 d → get d = some circ → circ.numInputs ≠ 0) :
    ∀ (f id : Nat) (circ : Circuit (dest E false)), r id < f → Relation.ReflTransGen (Calls get) 0 id → get id = some circ →
      ∃ c, ctxOf cross (progGet get) f id = some c := by
  intro f
  induction f with
  | zero => intro id circ h; omega
  | succ f ih =>
    intro id circ hf hreach hget
    have hcall : ∀ q ∈ (progOf circ).calls, Calls get id q.sub ∧ ∃ sub, get q.sub = some sub ∧ q.inputs.length = sub.numInputs ∧ q.outputs.length = sub.outputs.length := by
      intro q hq
      obtain ⟨k, hk⟩ := List.getElem?_of_mem hq
      obtain ⟨n, h2, h3⟩ := calls_mem _ _ q hq
      obtain ⟨sub, h4, h5, h6⟩ := hw.calls id circ hget _ h2 q.sub q.inputs n rfl
      exact ⟨calls_of hget hk, sub, h4, h5, by omega⟩
    unfold ctxOf
    rw [progGet, hget, Option.map_some]
    simp only
    obtain ⟨subs, hsubs⟩ := mapOpt_isSome (f := fun c : Call => ctxOf cross (progGet get) f c.sub) (l := (progOf circ).calls) (by
      intro q hq
      obtain ⟨h1, sub, h2, _⟩ := hcall q hq
      obtain ⟨c, hc⟩ := ih q.sub sub (by have := hr _ _ h1; omega) (hreach.tail h1) h2
      rw [hc]; rfl)
    rw [hsubs]
    have hle : ∀ d, Relation.ReflTransGen (Calls get) 0 d → r d ≤ r 0 := by
      intro d hd
      induction hd with
      | refl => exact le_refl _
      | tail _ hs ih => have := hr _ _ hs; omega
    refine computeCtx_total (tab := ctxOf cross (progGet get) f) (progOk_of (hw.circ id circ hget)) ⟨?_⟩ ?_ ?_
    · intro k q hq
      obtain ⟨s, h1, h2⟩ := mapOpt_get hsubs hq
      obtain ⟨_, sub, h4, h5, h6⟩ := hcall q (List.mem_of_getElem? hq)
      have ok := table_ok hw (fuel := f) f q.sub s (le_refl _) h1
      obtain ⟨circ', _, e1, _, _, e4, _⟩ := table_step hw (fuel := f) (le_refl _) h1
      rw [h4] at e1; cases e1
      exact ⟨s, h2, h1, by rw [e4]; exact h6, by rw [e4]; exact h5, ok.outPos⟩
    · intro q hq e
      obtain ⟨h1, sub, h4, h5, h6⟩ := hcall q hq
      have := hin q.sub sub (Relation.TransGen.tail' hreach h1) h4
      rw [e] at h5
      exact this h5.symm
    · intro k s hk j cc hcc
      have hlen := mapOpt_length hsubs
      have hkl : k < (progOf circ).calls.length := by rw [← hlen]; exact (List.getElem?_eq_some_iff.1 hk).1
      have hq := List.getElem?_eq_getElem hkl
      generalize (progOf circ).calls[k] = q at hq
      obtain ⟨s', h1, h2⟩ := mapOpt_get hsubs hq
      rw [hk] at h2; cases h2
      obtain ⟨hc1, _⟩ := hcall q (List.mem_of_getElem? hq)
      have hne : (q.sub == 0) = false := by
        rw [beq_eq_false_iff_ne]
        intro e0
        have := hr _ _ hc1
        rw [e0] at this
        have := hle id hreach
        omega
      have ht := table_cc hw (fuel := f) f q.sub s (le_refl _) (hreach.tail hc1) h1
      rw [hne] at ht
      cases ht with
      | mk hc ok _ => rw [h1] at hc; cases hc; exact ok.nonRoot rfl j cc hcc

theorem rankOk (hw : WFGet npi get) {r : Nat → Nat} (hr : ∀ c d, Calls get c d → r d < r c) (fuel : Nat) :
    RankOk (ctxOf cross (progGet get) fuel) r := by
  refine ⟨fun id c h => table_ok hw fuel id c (le_refl _) h, ?_, ?_, ?_⟩
  · intro id c h
    obtain ⟨circ, subs, h1, h2, h3, h4, h5⟩ := table_step hw (fuel := fuel) (le_refl _) h
    rw [h4]; exact h2.outsNodup
  · intro id c k q h hq
    obtain ⟨circ, subs, h1, h2, h3, h4, h5⟩ := table_step hw (fuel := fuel) (le_refl _) h
    rw [h4] at hq
    obtain ⟨n, g1, _⟩ := calls_mem _ _ q (List.mem_of_getElem? hq)
    exact insnsOk_nodup _ _ (hw.circ id circ h1).insns _ _ _ g1
  · intro id c k q h hq
    obtain ⟨circ, subs, h1, h2, h3, h4, h5⟩ := table_step hw (fuel := fuel) (le_refl _) h
    rw [h4] at hq
    exact hr _ _ (calls_of h1 hq)

/-- `layering::compile` never reaches a panic on a validated circuit all of whose called circuits have inputs. -/
theorem compile_total (hw : WFGet npi get) {circ : Circuit (dest E false)} (h0 : get 0 = some circ)
    (hin : ∀ d circ, Relation.TransGen (Calls get) 0 d → get d = some circ → circ.numInputs ≠ 0) (cross reorder : Bool) (np k : Nat) :
    ∃ N, ∀ fuel, N ≤ fuel → ∃ r, compile cross reorder (progGet get) fuel np k = some r := by
  obtain ⟨r, hr⟩ := hw.dag
  refine ⟨r 0 + 1, fun fuel hfuel => ?_⟩
  obtain ⟨c, hc⟩ := ctxOf_total (cross := cross) hw hr hin fuel 0 circ (by omega) .refl h0
  have htab := rankOk (cross := cross) hw hr fuel
  have ok := htab.ctx _ _ hc
  unfold compile
  simp only
  rw [hc]
  simp only
  obtain ⟨layouts, hl⟩ := mapOpt_isSome (f := solve reorder (ctxOf cross (progGet get) fuel) fuel 0) (l := List.range (c.outL + 1)) (by
    intro i hi
    have hi := List.mem_range.1 hi
    obtain ⟨L, h1, _⟩ := solve_total htab reorder fuel 0 c i (by omega) hc (by omega)
    rw [h1]; rfl)
  rw [hl]
  simp only
  have hlen : layouts.length = c.outL + 1 := by
    have := mapOpt_length hl
    simpa using this
  have hsolve : ∀ (i : Nat) (L : Layout), layouts[i]? = some L → solve reorder (ctxOf cross (progGet get) fuel) fuel 0 i = some L := by
    intro i L hL
    have hi : i < layouts.length := (List.getElem?_eq_some_iff.1 hL).1
    obtain ⟨y, hy, hy'⟩ := mapOpt_get hl (show (List.range (c.outL + 1))[i]? = some i from List.getElem?_range (by omega))
    rw [hL] at hy'; cases hy'
    exact hy
  have hfit : ∀ (i : Nat) (L : Layout), layouts[i]? = some L → Fit (ctxOf cross (progGet get) fuel) 0 c i L := by
    intro i L hL
    have hi : i < layouts.length := (List.getElem?_eq_some_iff.1 hL).1
    have hs := hsolve i L hL
    obtain ⟨L', h1, h2, h3, h4, _⟩ := solve_total htab reorder fuel 0 c i (by omega) hc (by omega)
    rw [hs] at h1; cases h1
    exact Fit.of_full hc (solve_ok reorder fuel 0 i L hs).1 h2 h3 h4
  obtain ⟨⟨ids, segs⟩, hcon⟩ := connect_total htab (R := Relation.ReflTransGen (Calls get) 0) (by
    intro id c k q s hR hid hq hs
    obtain ⟨circ, subs, h1, h2, h3, h4, h5⟩ := table_step hw (fuel := fuel) (le_refl _) hid
    have ht := table_cc hw (fuel := fuel) fuel id c (le_refl _) hR hid
    cases ht with
    | mk hc' _ hsub =>
      rw [hid] at hc'; cases hc'
      have := hsub k q hq
      cases this with
      | mk hc2 ok2 _ =>
        rw [hs] at hc2; cases hc2
        rw [h4] at hq
        exact ⟨hR.tail (calls_of h1 hq), ok2.nonRoot rfl⟩) fuel 0 c layouts [] (by omega) hc .refl hlen hfit
  rw [hcon]
  simp only
  have hord : ∃ o, (layouts[0]?).bind (inputOrder c) = some o := by
    have hL : layouts[0]? = some (layouts[0]'(by omega)) := List.getElem?_eq_getElem (by omega)
    generalize layouts[0]'(by omega) = L at hL
    have hf := hfit 0 L hL
    have hs := hsolve 0 L hL
    obtain ⟨L', h1, h2, h3, h4, _, h6⟩ := solve_total htab reorder fuel 0 c 0 (by omega) hc (by omega)
    rw [hs] at h1; cases h1
    obtain ⟨pl, rfl⟩ := h6 (.inl rfl)
    rw [hL, Option.bind_some]
    unfold inputOrder
    obtain ⟨v, hv⟩ := mapOpt_isSome (f := fun s : Nat × Nat => ((c.vars.getD 0 [])[s.2]?).map fun v => (v, s.1)) (l := (Layout.dense 0 0 pl).slots) (by
      rintro ⟨p, idx⟩ hp
      have := hf.lt p idx (dense_slots.2 (dense_slots.1 hp))
      change idx < (c.vars.getD 0 []).length at this
      rw [Option.isSome_map, List.getElem?_eq_getElem this]; rfl)
    dsimp only
    rw [hv]
    exact ⟨_, rfl⟩
  obtain ⟨o, ho⟩ := hord
  obtain ⟨⟨ext, he⟩, hlt, hwired⟩ := connect_spec htab.ctx fuel layouts [] ids segs (by
    intro L hL
    obtain ⟨i, hi⟩ := List.getElem?_of_mem hL
    exact (hfit i L hi).ok) hcon
  have hhead : ∃ n, ((ids.head?).bind fun i => (segs[i]?).bind fun s => s.numInputs.head?) = some n := by
    have hL : layouts[0]? = some (layouts[0]'(by omega)) := List.getElem?_eq_getElem (by omega)
    generalize layouts[0]'(by omega) = L at hL
    have := hwired L (by rw [List.head?_eq_getElem?]; exact hL)
    rw [(hfit 0 L hL).circ] at this
    cases this with
    | mk lv hrec hlt' hg hseg =>
      have e := lv.hc
      rw [hc] at e; cases e
      obtain ⟨a, h1, h2⟩ := hseg 0 ok.outPos
      rw [List.head?_eq_getElem?, h1, Option.bind_some, h2, Option.bind_some, mkSegment_numInputs]
      have hmu := ok.mu1 0 ok.outPos
      have : 0 + 1 - c.mu.getD (0 + 1) 0 = 1 := by omega
      rw [this]
      exact ⟨_, rfl⟩
  obtain ⟨n, hn⟩ := hhead
  rw [ho, hn]
  exact ⟨_, rfl⟩

end Verif.Layering
