import Verif.Layered.Hom
import Verif.Witness.Pack
import Mathlib.Algebra.Ring.Pi

/-!
# Running a layered circuit on a witness (circuit/layered/witness.rs:78-80, 197-240; mod.rs:818-916)
-/

set_option linter.unusedSectionVars false
set_option linter.unusedSimpArgs false

namespace Verif.Layered

open Verif.Witness

variable {F : Type} [Field F] [DecidableEq F]

/-- `eval_with_public_inputs` (mod.rs:732-767). -/
def Circuit.evalPub (custom : Nat → List F → F) (c : Circuit F) (inputs pubs : List F) (tape : Nat → F) : Option (List F × Bool) :=
  c.eval (LEnv.withPublic custom pubs) inputs tape

/-- `eval_with_public_inputs_simd` (mod.rs:818-855): one verdict per lane. -/
def Circuit.evalSimd {P : Nat} (custom : Nat → List F → F) (c : Circuit F) (inputs pubs : List (Simd P F)) (tape : Nat → Simd P F) :
    Option (List (Simd P F) × (Fin P → Bool)) :=
  (c.evalRaw (LEnv.simd P custom pubs) inputs tape).map fun r => (r.1, fun l => r.2.all fun x => decide (x l = 0))

/-- `run_with_output` / `run_inner` (witness.rs:197-240).  The `j`-th evaluation draws its random numbers from tape `j`.  `none` = panic. -/
def Circuit.runWithOutput {P : Nat} (custom : Nat → List F → F) (c : Circuit F) (w : Witness P F) (tapes : Nat → Nat → F)
    (tapesS : Nat → Nat → Simd P F) : Option (List Bool × List (List F)) :=
  if w.num = 0 then none
  else if w.num > 1 ∧ P > 1 then
    match iterSimd w with
    | none => none
    | some blocks =>
      match mapOpt (fun p => c.evalSimd custom p.1.1 p.1.2 (tapesS p.2)) blocks.zipIdx with
      | none => none
      | some rs => some ((rs.flatMap fun r => List.ofFn r.2).take w.num, (rs.flatMap fun r => List.ofFn fun l => lane l r.1).take w.num)
  else
    match iterScalar w with
    | none => none
    | some rows =>
      match mapOpt (fun p => c.evalPub custom p.1.1 p.1.2 (tapes p.2)) rows.zipIdx with
      | none => none
      | some rs => some (rs.map (·.2), rs.map (·.1))

/-- Taking lane `l`. -/
def laneHom (P : Nat) (l : Fin P) : Simd P F →+* F := Pi.evalRingHom (fun _ => F) l

theorem lane_envHom {P : Nat} (custom : Nat → List F → F) (pubs : List (Simd P F)) (l : Fin P) :
    EnvHom (laneHom P l) (LEnv.simd P custom pubs) (LEnv.withPublic custom (lane l pubs)) where
  const _ := rfl
  pub i := by simp [LEnv.withPublic, LEnv.simd, lane, laneHom]; rfl
  custom _ _ := rfl

/-- Lane `l` of a SIMD evaluation is the scalar evaluation of lane `l`. -/
theorem evalSimd_lane {P : Nat} (custom : Nat → List F → F) (c : Circuit F) (inputs pubs : List (Simd P F)) (tape : Nat → Simd P F) (l : Fin P) :
    c.evalPub custom (lane l inputs) (lane l pubs) (fun i => tape i l) = (c.evalSimd custom inputs pubs tape).map fun r => (lane l r.1, r.2 l) := by
  have := evalRaw_map (lane_envHom custom pubs l) c inputs tape
  simp only [Circuit.evalPub, Circuit.eval, Circuit.evalSimd]
  have e1 : lane l inputs = inputs.map (laneHom P l) := rfl
  have e2 : (fun i => tape i l) = fun i => laneHom P l (tape i) := rfl
  rw [e1, e2, this, Option.map_map, Option.map_map]
  congr 1
  funext r
  simp only [Function.comp, Prod.mk.injEq]
  refine ⟨rfl, ?_⟩
  rw [List.all_map]
  rfl

theorem flatMap_ofFn_getElem? {α β : Type} {P : Nat} (hP : 0 < P) (g : α → Fin P → β) : ∀ (rs : List α) (k : Nat),
    (rs.flatMap fun r => List.ofFn (g r))[k]? = (rs[k / P]?).map fun r => g r ⟨k % P, Nat.mod_lt k hP⟩ := by
  intro rs
  induction rs with
  | nil => intro k; simp
  | cons r rs ih =>
    intro k
    rw [List.flatMap_cons]
    by_cases hk : k < P
    · rw [List.getElem?_append_left (by simpa using hk), Nat.div_eq_of_lt hk]
      simp [List.getElem?_ofFn, hk, Nat.mod_eq_of_lt hk]
    · rw [List.getElem?_append_right (by simpa using hk)]
      have h1 : k / P = (k - P) / P + 1 := by
        rw [Nat.div_eq_sub_div hP (by omega)]
      have h2 : (k - P) % P = k % P := by
        rw [← Nat.mod_eq_sub_mod (by omega)]
      rw [List.length_ofFn, ih, h1, List.getElem?_cons_succ]
      congr 1
      funext r
      congr 1
      exact Fin.ext h2

/-- A witness holding the given rows, in either representation. -/
def Holds {P : Nat} (w : Witness P F) (rows : List (List F × List F)) : Prop :=
  IsScalar w rows ∨ ∃ blocks, IsSimd w rows blocks

/-- Which random numbers evaluation number `k` uses. -/
def tapeOf {P : Nat} (hP : 0 < P) (w : Witness P F) (tapes : Nat → Nat → F) (tapesS : Nat → Nat → Simd P F) (k : Nat) : Nat → F :=
  if w.num > 1 ∧ P > 1 then fun i => tapesS (k / P) i ⟨k % P, Nat.mod_lt k hP⟩ else tapes k

theorem Holds.num {P : Nat} {w : Witness P F} {rows : List (List F × List F)} (h : Holds w rows) : w.num = rows.length := by
  rcases h with h | ⟨_, h⟩
  · exact h.1
  · exact h.1

theorem Holds.scalar {P : Nat} (hP : 0 < P) {w : Witness P F} {rows : List (List F × List F)} (h : Holds w rows) : iterScalar w = some rows := by
  rcases h with h | ⟨blocks, h⟩
  · exact iterScalar_scalar w rows h
  · exact iterScalar_simd hP w rows blocks h

theorem Holds.simd {P : Nat} (hP : 0 < P) {w : Witness P F} {rows : List (List F × List F)} (h : Holds w rows) (hab : w.a + w.b ≠ 0) :
    ∃ blocks, iterSimd w = some blocks ∧ Packed rows blocks := by
  rcases h with h | ⟨blocks, h⟩
  · obtain ⟨b, h1, h2, -⟩ := iterSimd_scalar hP w rows h hab
    exact ⟨b, h1, h2⟩
  · exact ⟨blocks, iterSimd_simd hP w rows blocks h, h.2.2.2⟩

theorem zipIdx_getElem? {α : Type} (l : List α) (k : Nat) : l.zipIdx[k]? = (l[k]?).map fun a => (a, k) := by
  rw [List.getElem?_zipIdx]; simp

theorem packed_block {P : Nat} (hP : 0 < P) {rows : List (List F × List F)} {blocks} (hp : Packed (P := P) rows blocks) {k : Nat} {row}
    (hr : rows[k]? = some row) : ∃ blk, blocks[k / P]? = some blk ∧
      row = (lane ⟨k % P, Nat.mod_lt k hP⟩ blk.1, lane ⟨k % P, Nat.mod_lt k hP⟩ blk.2) := by
  have hk := (List.getElem?_eq_some_iff.1 hr).1
  have hlt : k / P < blocks.length := by
    rw [hp.1, numBlocks_lt hP]
    have := Nat.div_mul_le_self k P
    omega
  refine ⟨blocks[k / P], List.getElem?_eq_getElem hlt, ?_⟩
  have := hp.2 (k / P) _ (List.getElem?_eq_getElem hlt) ⟨k % P, Nat.mod_lt k hP⟩
  have he : min (k / P * P + k % P) (rows.length - 1) = k := by
    rw [Nat.div_add_mod']; omega
  simp only [he] at this
  rw [hr] at this
  exact Option.some.inj this

/-- Verdict and outputs number `k` are those of running row `k` alone with the same random numbers. -/
theorem run_rows {P : Nat} (hP : 0 < P) (custom : Nat → List F → F) (c : Circuit F) (w : Witness P F) (rows : List (List F × List F))
    (hw : Holds w rows) (hab : w.a + w.b ≠ 0) (tapes tapesS) (vs : List Bool) (outs : List (List F))
    (h : c.runWithOutput custom w tapes tapesS = some (vs, outs)) :
    vs.length = rows.length ∧ outs.length = rows.length ∧ ∀ (k : Nat) row, rows[k]? = some row → ∃ o v, outs[k]? = some o ∧ vs[k]? = some v ∧
      c.evalPub custom row.1 row.2 (tapeOf hP w tapes tapesS k) = some (o, v) := by
  unfold Circuit.runWithOutput at h
  split at h
  · cases h
  · split at h
    · rename_i hn hs
      obtain ⟨blocks, hb, hp⟩ := hw.simd hP hab
      rw [hb] at h
      dsimp only at h
      split at h
      · cases h
      · rename_i rs hrs
        cases h
        have main : ∀ (k : Nat) row, rows[k]? = some row → ∃ o v, ((rs.flatMap fun r => List.ofFn fun l => lane l r.1).take w.num)[k]? = some o ∧
            ((rs.flatMap fun r => List.ofFn r.2).take w.num)[k]? = some v ∧
            c.evalPub custom row.1 row.2 (tapeOf hP w tapes tapesS k) = some (o, v) := by
          intro k row hr
          have hk := (List.getElem?_eq_some_iff.1 hr).1
          obtain ⟨blk, hblk, rfl⟩ := packed_block hP hp hr
          have h1 := mapOpt_getElem? hrs (k / P) (blk, k / P) (by rw [zipIdx_getElem?, hblk]; rfl)
          have hlt : k / P < rs.length := by
            rw [mapOpt_length hrs]; simpa using (List.getElem?_eq_some_iff.1 hblk).1
          rw [List.getElem?_eq_getElem hlt] at h1
          rw [List.getElem?_take, if_pos (by rw [hw.num]; exact hk), List.getElem?_take, if_pos (by rw [hw.num]; exact hk)]
          rw [flatMap_ofFn_getElem? hP (fun (r : List (Simd P F) × (Fin P → Bool)) l => lane l r.1), flatMap_ofFn_getElem? hP (fun (r : List (Simd P F) × (Fin P → Bool)) => r.2), List.getElem?_eq_getElem hlt]
          refine ⟨_, _, rfl, rfl, ?_⟩
          have h2 := evalSimd_lane custom c blk.1 blk.2 (tapesS (k / P)) ⟨k % P, Nat.mod_lt k hP⟩
          rw [h1] at h2
          simp only [tapeOf, hs, and_self, if_true]
          exact h2
        have hlen : ∀ {β : Type} (l : List β), (∀ k, k < rows.length → ∃ x, (l.take w.num)[k]? = some x) → (l.take w.num).length = rows.length := by
          intro β l hl
          have h1 : (l.take w.num).length ≤ rows.length := by rw [List.length_take, hw.num]; omega
          rcases Nat.lt_or_ge (l.take w.num).length rows.length with h2 | h2
          · obtain ⟨x, hx⟩ := hl _ h2
            rw [List.getElem?_eq_none (Nat.le_refl _)] at hx
            cases hx
          · omega
        refine ⟨hlen _ fun k hk => ?_, hlen _ fun k hk => ?_, main⟩
        · obtain ⟨o, v, _, h2, _⟩ := main k _ (List.getElem?_eq_getElem hk); exact ⟨v, h2⟩
        · obtain ⟨o, v, h1, _, _⟩ := main k _ (List.getElem?_eq_getElem hk); exact ⟨o, h1⟩
    · rename_i hn hs
      rw [hw.scalar hP] at h
      dsimp only at h
      split at h
      · cases h
      · rename_i rs hrs
        cases h
        have hl : rs.length = rows.length := by rw [mapOpt_length hrs]; simp
        refine ⟨by simp [hl], by simp [hl], fun k row hr => ?_⟩
        have h1 := mapOpt_getElem? hrs k (row, k) (by rw [zipIdx_getElem?, hr]; rfl)
        have hlt : k < rs.length := by rw [hl]; exact (List.getElem?_eq_some_iff.1 hr).1
        rw [List.getElem?_eq_getElem hlt] at h1
        refine ⟨(rs[k]).1, (rs[k]).2, by simp [hlt], by simp [hlt], ?_⟩
        simp only [tapeOf, hs, if_false]
        exact h1

/-- If every row can be evaluated alone, the run does not panic. -/
theorem run_isSome {P : Nat} (hP : 0 < P) (custom : Nat → List F → F) (c : Circuit F) (w : Witness P F) (rows : List (List F × List F))
    (hw : Holds w rows) (hab : w.a + w.b ≠ 0) (hne : rows ≠ []) (h : ∀ row ∈ rows, ∀ tape, (c.evalPub custom row.1 row.2 tape).isSome) (tapes tapesS) :
    (c.runWithOutput custom w tapes tapesS).isSome := by
  have hn : w.num ≠ 0 := by
    rw [hw.num]; intro h0; exact hne (List.length_eq_zero_iff.1 h0)
  unfold Circuit.runWithOutput
  rw [if_neg hn]
  split
  · obtain ⟨blocks, hb, hp⟩ := hw.simd hP hab
    rw [hb]
    obtain ⟨rs, hrs⟩ := mapOpt_isSome (f := fun p : (List (Simd P F) × List (Simd P F)) × Nat => c.evalSimd custom p.1.1 p.1.2 (tapesS p.2))
      (l := blocks.zipIdx) (by
        rintro ⟨blk, j⟩ hm
        rw [List.mem_zipIdx_iff_getElem?] at hm
        have hm' : blocks[j]? = some blk := by simpa using hm
        have hrow := hp.2 j blk hm' ⟨0, hP⟩
        have h1 := h _ (List.mem_of_getElem? hrow) (fun i => tapesS j i ⟨0, hP⟩)
        rw [evalSimd_lane] at h1
        simpa using h1)
    simp [hrs]
  · rw [hw.scalar hP]
    obtain ⟨rs, hrs⟩ := mapOpt_isSome (f := fun p : (List F × List F) × Nat => c.evalPub custom p.1.1 p.1.2 (tapes p.2)) (l := rows.zipIdx) (by
        rintro ⟨row, j⟩ hm
        rw [List.mem_zipIdx_iff_getElem?] at hm
        exact h row (List.mem_of_getElem? (by simpa using hm)) _)
    simp [hrs]

end Verif.Layered
