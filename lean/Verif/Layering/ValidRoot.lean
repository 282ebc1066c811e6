import Verif.Layering.ValidSeg
import Verif.Layering.RootOk
import Verif.Layered.ValidateIff

/-!
# `layering::compile` returns a circuit `validate` accepts
-/

set_option linter.unusedSectionVars false
set_option linter.unusedSimpArgs false

namespace Verif.Layering

open Verif.IR (Expr Coef Term VarSpec Env Circuit WFGet dest)
open Verif.Layered (Segment Gate Input Alloc Reads Writes segChk)

variable {F : Type} [Field F] [DecidableEq F]

theorem defs_expr : ∀ (is : List (Verif.IR.Dest.Insn F)) (k i : Nat) (a : Expr F), (defsOf is k)[i]? = some (.expr a) → .internal a ∈ is := by
  intro is
  induction is with
  | nil => intro k i a h; simp [defsOf] at h
  | cons x is ih =>
    intro k i a h
    cases x with
    | constantLike e =>
      cases i with
      | zero => simp [defsOf] at h
      | succ i => exact List.mem_cons_of_mem _ (ih k i a (by simpa [defsOf] using h))
    | call c xs n =>
      simp only [defsOf] at h
      by_cases hi : i < n
      · rw [List.getElem?_append_left (by simpa using hi)] at h
        simp [List.getElem?_range hi] at h
      · rw [List.getElem?_append_right (by simp; omega)] at h
        exact List.mem_cons_of_mem _ (ih _ _ a h)
    | internal c =>
      cases i with
      | zero => simp [defsOf] at h; subst h; simp
      | succ i => exact List.mem_cons_of_mem _ (ih k i a (by simpa [defsOf] using h))

section root

variable {E : Env F} {get : Nat → Option (Circuit (dest E false))} {npi k fuel : Nat} {cross reorder : Bool}

/-- No internal variable is defined by an expression without terms. -/
def NoEmpty (get : Nat → Option (Circuit (dest E false))) : Prop := ∀ id circ, get id = some circ → ∀ e, Verif.IR.Dest.Insn.internal e ∈ circ.instructions → e ≠ []

theorem compile_valid (hw : WFGet (some npi) get) (hne : NoEmpty get) {lc : Layered.Circuit F} {l0 : Nat} {order : List (Option Nat)}
    (h : compile cross reorder (progGet get) fuel npi k = some (lc, l0, order)) : lc.validate = some true := by
  obtain ⟨c, layouts, ids, segs, hc, hl, hcn, _, hlc, _⟩ := compile_split h
  have ht := tabOk (cross := cross) (fuel := fuel) hw
  have htab := ht.ctx
  have hgood : Good (ctxOf cross (progGet get) fuel) layouts := by
    intro L hL
    obtain ⟨i, _, hi⟩ := mapOpt_mem hl L hL
    exact ⟨(solve_ok reorder _ _ _ _ hi).1, solve_aligned reorder _ _ _ _ hi⟩
  have hcirc : ∀ L ∈ layouts, L.circ = 0 := by
    intro L hL
    obtain ⟨i, _, hi⟩ := mapOpt_mem hl L hL
    exact (solve_ok reorder _ _ _ _ hi).2.1
  have hok : ∀ L ∈ layouts, LayoutOk (ctxOf cross (progGet get) fuel) L := fun L hL => (hgood L hL).1
  obtain ⟨L0, h0⟩ : ∃ L0, layouts.head? = some L0 := by
    cases hlay : layouts with
    | nil =>
      have := Verif.mapOpt_length hl
      rw [hlay] at this
      simp at this
    | cons L rest => exact ⟨L, rfl⟩
  have hm0 : L0 ∈ layouts := List.mem_of_mem_head? h0
  obtain ⟨-, hlt, hwd⟩ := connect_spec htab fuel layouts [] ids segs hok hcn
  have hwd := hwd L0 h0
  rw [hcirc L0 hm0] at hwd
  have hlen := connect_len hcn h0 (by rw [hcirc L0 hm0]; exact hc)
  have hall := (connect_all htab c.outL fuel layouts [] ids segs hgood (by
    intro l1 c1 hl1 hc1
    rw [h0] at hl1; cases hl1
    rw [hcirc _ hm0, hc] at hc1; cases hc1
    exact le_refl _) hcn).2
  have ok := htab 0 c hc
  have hpos := ok.outPos
  have hseg : ∀ i, i < c.outL → ∃ a s, ids[i]? = some a ∧ segs[a]? = some s ∧ s.numInputs = (List.range (i + 1 - c.mu.getD (i + 1) 0)).map (fun l => ((layouts[i - l]?).map Layout.size).getD 0) ∧
      s.numOutputs = ((layouts[i + 1]?).map Layout.size).getD 0 := by
    intro i hi
    cases hwd with
    | @mk _ _ _ c' qs subls cids gss lv hrec hlt hg hsg =>
      have e := lv.hc
      rw [hc] at e; cases e
      obtain ⟨a, e1, e2⟩ := hsg i hi
      exact ⟨a, _, e1, e2, rfl, rfl⟩
  have hlayn : layouts.length = c.outL + 1 := by
    have := Verif.mapOpt_length hl
    simpa using this
  subst hlc
  have hin : (⟨npi, c.prog.outs.length + (if c.cc.any Option.isSome then 1 else 0), k + (if c.cc.any Option.isSome then 1 else 0), segs, ids⟩ : Layered.Circuit F).inputSize =
      some (((layouts[0]?).map Layout.size).getD 0) := by
    obtain ⟨a, s, h1, h2, h3, h4⟩ := hseg 0 hpos
    have hmu := ok.mu1 0 hpos
    have e : ids.head? = some a := by rw [List.head?_eq_getElem?]; exact h1
    unfold Layered.Circuit.inputSize
    dsimp only
    rw [e, Option.bind_some, h2, Option.bind_some, h3]
    have : 0 + 1 - c.mu.getD (0 + 1) 0 = 1 := by omega
    rw [this]; rfl
  refine Layered.validate_intro ?_ ?_ ?_ ?_ ?_ ?_
  · intro a s hs
    exact piece_chk htab (by dsimp only; omega) (hall a (Nat.zero_le _) (List.getElem?_eq_some_iff.1 hs).1) hs
  · exact hlt
  · intro e
    dsimp only at e
    rw [e] at hlen
    simp at hlen
    omega
  · rw [hin]; rfl
  · intro i id s hi hs
    dsimp only at hi hs ⊢
    have hil := (List.getElem?_eq_some_iff.1 hi).1
    obtain ⟨a, s', h1, h2, h3, h4⟩ := hseg i (by omega)
    rw [hi] at h1; cases h1
    rw [hs] at h2; cases h2
    refine ⟨by rw [h3]; simp, ?_⟩
    intro j x hx
    rw [h3] at hx
    have hj : j < i + 1 - c.mu.getD (i + 1) 0 := by
      have := (List.getElem?_eq_some_iff.1 hx).1
      simpa using this
    rw [List.getElem?_map, List.getElem?_range hj, Option.map_some] at hx
    by_cases hji : j = i
    · refine .inl ⟨hji, ?_⟩
      subst hji
      rw [hin, ← hx]; simp
    · refine .inr ⟨by omega, ?_⟩
      obtain ⟨a', s', g1, g2, g3, g4⟩ := hseg (i - 1 - j) (by omega)
      refine ⟨a', s', g1, g2, ?_⟩
      have e : i - 1 - j + 1 = i - j := by omega
      rw [e] at g4
      rw [g4]; exact Option.some.inj hx
  · intro i id l j n kk s hi hs hn hl' hj hr hk
    dsimp only at hi hs hr hk ⊢
    have hil := (List.getElem?_eq_some_iff.1 hi).1
    obtain ⟨_, L, hL, ho⟩ := reads_occ htab hwd c hc hok i id l j (by omega) hi hr
    have e : i - l = i - 1 - l + 1 := by omega
    rw [e] at hL
    refine occ_writes htab ?_ ?_ hwd c hc hok (i - 1 - l) kk j L (by omega) hk hL ho
    · intro id c hc x e hd
      obtain ⟨circ, subs, h1, h2, h3, h4, -⟩ := table_step hw (le_refl fuel) hc
      rw [h4] at hd
      unfold Prog.defn at hd
      split at hd
      · cases hd
      · exact hne id circ h1 e (defs_expr _ _ _ e hd)
    · intro id c hc j cc hcc
      obtain ⟨circ, subs, h1, h2, h3, h4, -⟩ := table_step hw (le_refl fuel) hc
      rw [(parts_of h3).cc, pCC_some] at hcc
      obtain ⟨x, _, hx, rfl⟩ := hcc
      simp only [nonEmpty, Bool.not_eq_true', Bool.and_eq_false_iff, List.isEmpty_eq_false_iff] at hx
      exact hx

end root

end Verif.Layering
