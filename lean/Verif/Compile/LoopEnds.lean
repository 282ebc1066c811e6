import Verif.Compile.LoopTotal
import Verif.Layered.LoopCommon
import Verif.Layered.DedupFix
import Mathlib.Data.Prod.Lex
import Mathlib.Order.WellFounded

/-!
# The loop of `compile_step_3` ends

Every round that changes the circuit makes a measure smaller: first the number of segments that were not made by
`find_common_parts`, then the number of gates and calls met when the circuit runs, and so on (`Layered.Smaller`). The choice of
the sampled groups may differ from round to round.
-/

set_option linter.unusedSectionVars false
set_option linter.unusedSimpArgs false

namespace Verif.Compile

open Verif.IR Verif.IR.HintExport

section

open Verif.Layered

variable {F : Type} [CommRing F] [DecidableEq F]

/-- The measure as one value of a well-founded order. -/
def loopMeasure (d : Nat) (c : Layered.Circuit F) (ext : Nat → Bool) : Nat ×ₗ Nat ×ₗ Nat ×ₗ Nat ×ₗ Nat ×ₗ Nat :=
  toLex (c.mO ext, toLex (c.mT, toLex (c.mT - c.mQ ext, toLex (c.mS ext, toLex (c.segments.length, d)))))

theorem Smaller.lt {d' d : Nat} {c' c : Layered.Circuit F} {ext' ext : Nat → Bool} (h : Smaller d' c' ext' d c ext) : loopMeasure d' c' ext' < loopMeasure d c ext := by
  have q' := mQ_le c' ext'
  have q := mQ_le c ext
  unfold loopMeasure
  simp only [Prod.Lex.toLex_lt_toLex]
  rcases h with h | ⟨h0, h | ⟨h1, h | ⟨h2, h⟩⟩⟩
  · exact .inl h
  · exact .inr ⟨h0, .inl h⟩
  · exact .inr ⟨h0, .inr ⟨h1, .inl (by omega)⟩⟩
  · refine .inr ⟨h0, .inr ⟨h1, .inr ⟨by omega, ?_⟩⟩⟩
    exact h

/-- Is the circuit merged already? -/
def unmerged (srt : List (Gate F) → List (Gate F)) (c : Layered.Circuit F) : Nat := if c.dedup srt = c then 0 else 1

theorem findCommon_step {srt : List (Gate F) → List (Gate F)} (hS : Layered.Sorts srt) (hst : Layered.Stays srt)
    {srtE : List (Nat × Nat × Nat) → List (Nat × Nat × Nat)} (hsE : ∀ l, (srtE l).Perm l) (sample : List (Segment F) → List (List (UniGate F)))
    {c : Layered.Circuit F} (ht : c.Tidy) (hu : ∀ j < c.segments.length, 0 < c.usedCount j) {ext : Nat → Bool} (hm : c.Marks ext)
    {c' : Layered.Circuit F} (h : c.findCommon srt srtE sample = some c') :
    c' = c ∨ ∃ ext', c'.Marks ext' ∧ Smaller (unmerged srt c') c' ext' (unmerged srt c) c ext := by
  have hs : ∀ l, (srt l).Perm l := fun l => (hS l).1
  obtain ⟨st, r, rank, h1, h2⟩ := grouping_inv (segs := c.segments) (edges := srtE (commonEdges c.segments (sample c.segments)))
    (fun e he => commonEdges_lt _ _ e ((hsE _).mem_iff.1 he))
  simp only [Circuit.findCommon, h1, Option.some.injEq] at h
  have hctx := cctx_of_inv h2 (commonReps c.segments.length st.uf st.groups)
  have hr : RepsOk c st.uf st.groups (commonReps c.segments.length st.uf st.groups) := by
    refine ⟨hctx, ?_, ?_, List.nodup_range.filter _⟩ <;>
    · intro q hq
      simp only [commonReps, List.mem_filter, List.mem_range, Bool.and_eq_true, beq_iff_eq, decide_eq_true_eq] at hq
      omega
  generalize commonReps c.segments.length st.uf st.groups = reps at *
  have e : c' = c.com srt st.uf st.groups reps := h.symm
  clear h
  subst e
  have hb : ∀ (i : Nat) s, c.segments[i]? = some s → ∀ ch ∈ s.childSegs, ch.1 < i := fun i s hi ch hch => ((ht.ok.seg i s hi).child ch hch).1
  have hb' : ∀ (i : Nat) s, (c.com srt st.uf st.groups reps).segments[i]? = some s → ∀ ch ∈ s.childSegs, ch.1 < i :=
    fun i s hi ch hch => ((newSegs_ok hs hctx ht.ok.seg ht.pow2 i s hi).child ch hch).1
  have hm' := com_marks (srt := srt) hr hb hb' hu hm
  by_cases hn : reps = []
  · subst hn
    have hc : c.com srt st.uf st.groups [] = c.dedup srt := by
      unfold Circuit.com Circuit.dedup newSegs
      have e1 : c.layerIds.map (([] : List Nat).length + ·) = c.layerIds := by
        conv_rhs => rw [← List.map_id c.layerIds]
        exact List.map_congr_left fun x _ => by simp
      have e2 : c.segments.zipIdx.map (fun q => commonSeg srt st.uf st.groups [] q.1 q.2) = c.segments.map (Segment.dedup srt) := by
        have : ∀ q : Segment F × Nat, commonSeg srt st.uf st.groups [] q.1 q.2 = Segment.dedup srt q.1 := by
          intro q
          unfold commonSeg
          simp [Segment.renum]
        rw [List.map_congr_left (fun q _ => this q)]
        conv_rhs => rw [← List.zipIdx_map_fst 0 c.segments, List.map_map]
        rfl
      rw [e1, e2]
      rfl
    by_cases hd : c.dedup srt = c
    · exact .inl (hc.trans hd)
    · refine .inr ⟨_, hm', com_smaller hr hb hb' hu hs _ _ (.inr ?_)⟩
      have ed : (c.dedup srt).dedup srt = c.dedup srt := by
        unfold Circuit.dedup
        dsimp only
        rw [List.map_map]
        congr 1
        exact List.map_congr_left fun s _ => dedup_twice hS hst s
      unfold unmerged
      rw [hc, if_pos ed, if_neg hd]
      omega
  · exact .inr ⟨_, hm', com_smaller hr hb hb' hu hs _ _ (.inl hn)⟩

theorem expandSmall_step {srt : List (Gate F) → List (Gate F)} (hs : ∀ l, (srt l).Perm l) {srtA : List Alloc → List Alloc} (hsA : ∀ l, (srtA l).Perm l)
    {ordH : List (Nat × List Alloc) → List (Nat × List Alloc)} (hoH : ∀ l, (ordH l).Perm l) {c : Layered.Circuit F} (ht : c.Tidy)
    {ext : Nat → Bool} (hm : c.Marks ext) : (∀ j < (c.expandSmall srt srtA ordH).segments.length, 0 < (c.expandSmall srt srtA ordH).usedCount j) ∧
    (c.expandSmall srt srtA ordH = c ∨ ∃ ext', (c.expandSmall srt srtA ordH).Marks ext' ∧
      Smaller (unmerged srt (c.expandSmall srt srtA ordH)) (c.expandSmall srt srtA ordH) ext' (unmerged srt c) c ext) := by
  by_cases ho : c.optimized = true
  · have e : c.expandSmall srt srtA ordH = c.exp srt srtA ordH := by
      unfold Circuit.expandSmall
      rw [if_pos ho]
      rfl
    rw [e]
    exact ⟨fun j hj => exp_used j hj ht.ok ht.noEmpty hs hsA hoH, .inr ⟨c.expMarks ext, exp_marks ht.ok ht.noEmpty hs hsA hoH hm,
      exp_smaller ht.ok ht.noEmpty hs hsA hoH hm ho _ _⟩⟩
  · have e : c.expandSmall srt srtA ordH = c := by
      unfold Circuit.expandSmall
      rw [if_neg ho]
    rw [e]
    refine ⟨fun j hj => ?_, .inl rfl⟩
    rcases Nat.eq_zero_or_pos (c.usedCount j) with h0 | h0
    · refine absurd ?_ ho
      unfold Circuit.optimized
      rw [List.any_eq_true]
      exact ⟨j, List.mem_range.2 hj, by simp [h0]⟩
    · exact h0

end

variable {F : Type} [Field F] [DecidableEq F]

/-- One round of the loop leaves the circuit as it is or makes the measure smaller. -/
theorem shrink_step {P : Params F} (hP : P.LayeredOk) (hst : Layered.Stays P.srtG) {c c' : Layered.Circuit F} (ht : c.Tidy) {ext : Nat → Bool} (hm : c.Marks ext)
    (h : shrink P c = some c') : c' = c ∨ ∃ ext', c'.Marks ext' ∧ loopMeasure (unmerged P.srtG c') c' ext' < loopMeasure (unmerged P.srtG c) c ext := by
  obtain ⟨hu, h1⟩ := expandSmall_step hP.srtG hP.srtA hP.ordH ht hm
  have t1 := Layered.expandSmall_tidy hP.srtG hP.sorts.grouped hP.srtA hP.ordH ht
  unfold shrink at h
  dsimp only at h
  by_cases hl : (c.expandSmall P.srtG P.srtA P.ordH).segments.length ≤ 100
  · rw [if_pos hl] at h
    rcases h1 with e1 | ⟨ext1, m1, h1⟩
    · rw [e1] at h t1 hu
      exact (findCommon_step hP.sorts hst hP.srtE P.sample t1 hu hm h).imp id fun ⟨ext2, m2, h2⟩ => ⟨ext2, m2, Smaller.lt h2⟩
    · rcases findCommon_step hP.sorts hst hP.srtE P.sample t1 hu m1 h with rfl | ⟨ext2, m2, h2⟩
      · exact .inr ⟨ext1, m1, Smaller.lt h1⟩
      · exact .inr ⟨ext2, m2, (Smaller.lt h2).trans (Smaller.lt h1)⟩
  · rw [if_neg hl] at h
    cases h
    exact h1.imp id fun ⟨ext1, m1, h1⟩ => ⟨ext1, m1, Smaller.lt h1⟩

/-- The round made with another choice of sampled groups. -/
def Params.withSample (P : Params F) (sample : List (Layered.Segment F) → List (List (Layered.UniGate F))) : Params F :=
  ⟨P.fuel, P.srt, P.costs, P.ltE, P.ord, P.srtG, P.srtA, P.ordH, P.srtE, sample, P.srtC⟩

theorem Params.withSample_ok {P : Params F} (hP : P.LayeredOk) (sample : List (Layered.Segment F) → List (List (Layered.UniGate F))) : (P.withSample sample).LayeredOk :=
  ⟨hP.sorts, hP.srtA, hP.ordH, hP.srtE, hP.srtC⟩

/-- The loop of `compile_step_3` with a choice of samples for every round. -/
def sampledLoop (P : Params F) (smp : Nat → List (Layered.Segment F) → List (List (Layered.UniGate F))) : Nat → Nat → Layered.Circuit F → Option (Layered.Circuit F)
  | 0, _, _ => none
  | n + 1, k, lc =>
    match shrink (P.withSample (smp k)) lc with
    | none => none
    | some lc2 => if lc2 = lc then some lc else sampledLoop P smp n (k + 1) lc2

theorem sampledLoop_aux {P : Params F} (hP : P.LayeredOk) (hst : Layered.Stays P.srtG) (smp : Nat → List (Layered.Segment F) → List (List (Layered.UniGate F)))
    (m : Nat ×ₗ Nat ×ₗ Nat ×ₗ Nat ×ₗ Nat ×ₗ Nat) : ∀ (c : Layered.Circuit F) (ext : Nat → Bool), loopMeasure (unmerged P.srtG c) c ext = m →
    c.validate = some true → c.Tidy → c.Marks ext → ∀ k, ∃ N c', c'.validate = some true ∧ ∀ n, N ≤ n → sampledLoop P smp n k c = some c' := by
  induction m using WellFoundedLT.induction with
  | ind m ih =>
    intro c ext hm hv ht hk k
    obtain ⟨c2, e, v2, t2⟩ := shrink_total (Params.withSample_ok hP (smp k)) hv ht
    by_cases he : c2 = c
    · refine ⟨1, c, hv, fun n hn => ?_⟩
      obtain ⟨n, rfl⟩ : ∃ n', n = n' + 1 := ⟨n - 1, by omega⟩
      unfold sampledLoop
      rw [e]
      dsimp only
      rw [if_pos he]
    · obtain ⟨ext2, m2, h2⟩ := (shrink_step (Params.withSample_ok hP (smp k)) hst ht hk e).resolve_left he
      obtain ⟨N, c', v', hN⟩ := ih _ (hm ▸ h2) c2 ext2 rfl v2 t2 m2 (k + 1)
      refine ⟨N + 1, c', v', fun n hn => ?_⟩
      obtain ⟨n, rfl⟩ : ∃ n', n = n' + 1 := ⟨n - 1, by omega⟩
      unfold sampledLoop
      rw [e]
      dsimp only
      rw [if_neg he]
      exact hN n (by omega)

/-- The loop ends, whatever is sampled in each round, with a valid circuit. -/
theorem sampledLoop_ends {P : Params F} (hP : P.LayeredOk) (hst : Layered.Stays P.srtG) (smp : Nat → List (Layered.Segment F) → List (List (Layered.UniGate F)))
    {c : Layered.Circuit F} (hv : c.validate = some true) (ht : c.Tidy) (k : Nat) :
    ∃ N c', c'.validate = some true ∧ ∀ n, N ≤ n → sampledLoop P smp n k c = some c' :=
  sampledLoop_aux hP hst smp _ c (fun _ => false) rfl hv ht (fun _ _ h => by cases h) k

theorem sampledLoop_same (P : Params F) : ∀ (n k : Nat) (c : Layered.Circuit F), sampledLoop P (fun _ => P.sample) n k c = shrinkLoop P n c := by
  intro n
  induction n with
  | zero => exact fun _ _ => rfl
  | succ n ih =>
    intro k c
    have e : P.withSample P.sample = P := rfl
    unfold sampledLoop shrinkLoop
    rw [e]
    cases shrink P c with
    | none => rfl
    | some c2 =>
      dsimp only
      rw [ih]

/-- The loop of `compile_step_3` ends with a valid circuit. -/
theorem shrinkLoop_ends {P : Params F} (hP : P.LayeredOk) (hst : Layered.Stays P.srtG) {c : Layered.Circuit F} (hv : c.validate = some true) (ht : c.Tidy) :
    ∃ N c', c'.validate = some true ∧ ∀ n, N ≤ n → shrinkLoop P n c = some c' := by
  obtain ⟨N, c', v, h⟩ := sampledLoop_ends hP hst (fun _ => P.sample) hv ht 0
  exact ⟨N, c', v, fun n hn => (sampledLoop_same P n 0 c).symm.trans (h n hn)⟩

/-- `compile_step_3` on a circuit as layering returns it: for all large bounds the same valid circuit. -/
theorem step3_ends {P : Params F} (hP : P.LayeredOk) (hst : Layered.Stays P.srtG) {o : Options} (h1 : 1 ≤ o.optLevel) {lc0 : Layered.Circuit F} (h : lc0.validate = some true)
    (hp : lc0.PubOnce) (hne : lc0.NoEmptyAllocs) : ∃ lc, lc.validate = some true ∧ Settles (fun n => step3 (P.at n) o lc0) lc := by
  have hd := Layered.dedup_valid hP.srtG h
  by_cases h3 : 3 ≤ o.optLevel
  · obtain ⟨N, c', v, hN⟩ := shrinkLoop_ends hP hst hd (tidy_dedup hP.sorts h hp hne)
    refine ⟨_, Layered.sortAll_valid hP.srtG hP.srtC v, N, fun n hn => ?_⟩
    have e : shrinkLoop (P.at n) n (lc0.dedup P.srtG) = some c' := by
      have : ∀ k (c : Layered.Circuit F), shrinkLoop (P.at n) k c = shrinkLoop P k c := by
        intro k
        induction k with
        | zero => exact fun _ => rfl
        | succ k ih =>
          intro c
          unfold shrinkLoop
          have es : shrink (P.at n) c = shrink P c := rfl
          rw [es]
          cases shrink P c with
          | none => rfl
          | some c2 =>
            dsimp only
            rw [ih]
      rw [this]
      exact hN n hn
    show step3 (P.at n) o lc0 = _
    unfold step3
    rw [if_pos h]
    dsimp only
    rw [if_pos h1, if_pos h3]
    have e' : shrinkLoop (P.at n) (P.at n).fuel (lc0.dedup (P.at n).srtG) = some c' := e
    rw [e']
    dsimp only
    rw [if_pos v]
    rfl
  · refine ⟨_, Layered.sortAll_valid hP.srtG hP.srtC hd, 0, fun n _ => ?_⟩
    show step3 (P.at n) o lc0 = _
    unfold step3
    rw [if_pos h]
    dsimp only
    rw [if_pos h1, if_neg h3]
    dsimp only
    have hd' : (lc0.dedup (P.at n).srtG).validate = some true := hd
    rw [if_pos hd']
    rfl

end Verif.Compile
