import Verif.Witness.Solver
import Mathlib.Algebra.Order.Group.Nat
import Mathlib.Tactic.Ring

/-!
# Witnesses, their iterators and SIMD packing (circuit/layered/witness.rs:10-190)
-/

set_option linter.unusedSectionVars false
set_option linter.unusedSimpArgs false

namespace Verif.Witness

variable {F : Type} [Field F] [DecidableEq F]

/-- `enum WitnessValues` (witness.rs:10-14); a SIMD value has `P` lanes. -/
inductive Values (P : Nat) (F : Type)
  | scalar (vs : List F)
  | simd (vs : List (Simd P F))

/-- `struct Witness` (witness.rs:16-22). -/
structure Witness (P : Nat) (F : Type) where
  num : Nat
  a : Nat
  b : Nat
  values : Values P F

/-- `values[i..i + n]`; `none` is the panic of a slice out of range. -/
def slice {α : Type} (xs : List α) (i n : Nat) : Option (List α) := if i + n ≤ xs.length then some ((xs.drop i).take n) else none

/-- `unpack_block` (witness.rs:24-47). -/
def unpackBlock {P : Nat} (s : List (Simd P F)) (a b : Nat) : List (List F × List F) :=
  (List.finRange P).map (fun j => ((s.take a).map (fun x => x j), ((s.drop a).take b).map (fun x => x j)))

/-- `pack_block` (witness.rs:49-80); division by zero, underflow and an index out of range are panics. -/
def packBlock (P : Nat) (s : List F) (a b : Nat) : Option (List (Simd P F) × List (Simd P F)) :=
  if a + b = 0 then none
  else
    let sz := min (s.length / (a + b)) P
    if sz = 0 then none
    else
      let col := fun (i : Nat) (j : Fin P) => (s[(if j.val < sz then j.val else sz - 1) * (a + b) + i]?).getD 0
      some ((List.range a).map col, (List.range' a b).map col)

/-- Collecting an iterator (`next` may panic: outer `none`).  `fuel` bounds the number of items. -/
def collect {S R : Type} (next : S → Option (Option (R × S))) : Nat → S → Option (List R)
  | 0, _ => none
  | k + 1, s => match next s with
    | none => none
    | some none => some []
    | some (some (r, s')) => (collect next k s').map (r :: ·)

/-- `WitnessIteratorScalar::next` (witness.rs:94-124); the state is `index` and `buf_unpacked`; `mem::take` leaves empty vectors. -/
def nextScalar {P : Nat} (w : Witness P F) (st : Nat × List (List F × List F)) :
    Option (Option ((List F × List F) × (Nat × List (List F × List F)))) :=
  if w.num ≤ st.1 then some none
  else match w.values with
    | .scalar vs => match slice vs (st.1 * (w.a + w.b)) w.a, slice vs (st.1 * (w.a + w.b) + w.a) w.b with
      | some x, some y => some (some ((x, y), (st.1 + 1, st.2)))
      | _, _ => none
    | .simd vs =>
      if P = 0 ∨ vs.length < (st.1 / P) * (w.a + w.b) then none
      else
        let buf := if st.1 % P = 0 then unpackBlock (vs.drop ((st.1 / P) * (w.a + w.b))) w.a w.b else st.2
        match buf[st.1 % P]? with
        | none => none
        | some r => some (some (r, (st.1 + 1, buf.set (st.1 % P) ([], []))))

/-- `WitnessIteratorSimd::next` (witness.rs:131-157). -/
def nextSimd {P : Nat} (w : Witness P F) (idx : Nat) : Option (Option ((List (Simd P F) × List (Simd P F)) × Nat)) :=
  if w.num ≤ idx * P then some none
  else match w.values with
    | .scalar vs =>
      if vs.length < idx * P * (w.a + w.b) then none
      else match packBlock P (vs.drop (idx * P * (w.a + w.b))) w.a w.b with
        | none => none
        | some r => some (some (r, idx + 1))
    | .simd vs => match slice vs (idx * (w.a + w.b)) w.a, slice vs (idx * (w.a + w.b) + w.a) w.b with
      | some x, some y => some (some ((x, y), idx + 1))
      | _, _ => none

/-- `iter_scalar().collect()` (witness.rs:160-167). -/
def iterScalar {P : Nat} (w : Witness P F) : Option (List (List F × List F)) := collect (nextScalar w) (w.num + 1) (0, [])

/-- `iter_simd().collect()` (witness.rs:169-174). -/
def iterSimd {P : Nat} (w : Witness P F) : Option (List (List (Simd P F) × List (Simd P F))) := collect (nextSimd w) (w.num + 1) 0

/-- `convert_to_simd` (witness.rs:176-193). -/
def convertToSimd {P : Nat} (w : Witness P F) : Option (Witness P F) :=
  match w.values with
  | .simd _ => some w
  | .scalar vs =>
    match mapOpt (fun i => if vs.length < i * P * (w.a + w.b) then none else
        (packBlock P (vs.drop (i * P * (w.a + w.b))) (w.a + w.b) 0).map (·.1)) (List.range ((w.num + P - 1) / P)) with
    | none => none
    | some bs => some ⟨w.num, w.a, w.b, .simd bs.flatten⟩

/-! ### Specification -/

/-- All rows have the declared lengths. -/
def RowsOk {α : Type} (a b : Nat) (rows : List (List α × List α)) : Prop := ∀ r ∈ rows, r.1.length = a ∧ r.2.length = b

/-- The rows one after the other. -/
def flat {α : Type} (rows : List (List α × List α)) : List α := rows.flatMap (fun r => r.1 ++ r.2)

/-- Lane `l` of block `j` is row `j * P + l`; lanes beyond the last row repeat the last row. -/
def Packed {P : Nat} (rows : List (List F × List F)) (blocks : List (List (Simd P F) × List (Simd P F))) : Prop :=
  blocks.length = (rows.length + P - 1) / P ∧
  ∀ (j : Nat) blk, blocks[j]? = some blk → ∀ l : Fin P,
    rows[min (j * P + l.val) (rows.length - 1)]? = some (lane l blk.1, lane l blk.2)

/-- A witness that stores the given rows as field elements. -/
def IsScalar {P : Nat} (w : Witness P F) (rows : List (List F × List F)) : Prop :=
  w.num = rows.length ∧ RowsOk w.a w.b rows ∧ w.values = .scalar (flat rows)

/-- A witness that stores the given rows packed. -/
def IsSimd {P : Nat} (w : Witness P F) (rows : List (List F × List F)) (blocks : List (List (Simd P F) × List (Simd P F))) : Prop :=
  w.num = rows.length ∧ RowsOk w.a w.b blocks ∧ w.values = .simd (flat blocks) ∧ Packed rows blocks

/-! ### Lemmas -/

theorem flat_length {α : Type} {a b : Nat} : ∀ (rows : List (List α × List α)), RowsOk a b rows → (flat rows).length = rows.length * (a + b) := by
  intro rows
  induction rows with
  | nil => intro _; simp [flat]
  | cons r rs ih =>
    intro h
    have h1 := ih (fun x hx => h x (by simp [hx]))
    have h2 := h r (by simp)
    simp only [flat, List.flatMap_cons, List.length_append, List.length_cons] at h1 ⊢
    rw [h1, h2.1, h2.2]; ring

theorem flat_drop {α : Type} {a b : Nat} : ∀ (i : Nat) (rows : List (List α × List α)), RowsOk a b rows →
    (flat rows).drop (i * (a + b)) = flat (rows.drop i) := by
  intro i
  induction i with
  | zero => intro rows _; simp
  | succ i ih =>
    intro rows h
    cases rows with
    | nil => simp [flat]
    | cons r rs =>
      have h2 := h r (by simp)
      have : flat (r :: rs) = (r.1 ++ r.2) ++ flat rs := by simp [flat]
      rw [this, List.drop_succ_cons, ← ih rs (fun x hx => h x (by simp [hx])), List.drop_append]
      rw [List.drop_eq_nil_of_le (by simp [h2.1, h2.2]; exact Nat.le_mul_of_pos_left _ (by omega))]
      simp only [List.nil_append, List.length_append, h2.1, h2.2]
      congr 1
      have : (i + 1) * (a + b) = i * (a + b) + (a + b) := by ring
      omega

theorem flat_row {α : Type} {a b : Nat} {rows : List (List α × List α)} (h : RowsOk a b rows) {i : Nat} {r : List α × List α}
    (hr : rows[i]? = some r) :
    slice (flat rows) (i * (a + b)) a = some r.1 ∧ slice (flat rows) (i * (a + b) + a) b = some r.2 ∧
    ((flat rows).drop (i * (a + b))).take a = r.1 ∧ (((flat rows).drop (i * (a + b))).drop a).take b = r.2 := by
  have hlt : i < rows.length := by
    by_contra hc; rw [List.getElem?_eq_none (by omega)] at hr; cases hr
  have hm : r ∈ rows := List.mem_of_getElem? hr
  have h2 := h r hm
  have hd : rows.drop i = r :: rows.drop (i + 1) := by
    rw [List.drop_eq_getElem_cons hlt]; congr 1
    rw [List.getElem?_eq_getElem hlt] at hr; simpa using hr
  have hf : (flat rows).drop (i * (a + b)) = r.1 ++ (r.2 ++ flat (rows.drop (i + 1))) := by
    rw [flat_drop i rows h, hd]; simp [flat]
  have hlen := flat_length rows h
  have hle : (i + 1) * (a + b) ≤ rows.length * (a + b) := Nat.mul_le_mul_right _ hlt
  have he : (i + 1) * (a + b) = i * (a + b) + (a + b) := by ring
  have t1 : ((flat rows).drop (i * (a + b))).take a = r.1 := by rw [hf, ← h2.1]; simp
  have t2 : (((flat rows).drop (i * (a + b))).drop a).take b = r.2 := by
    rw [hf, ← h2.1, ← h2.2]; simp
  refine ⟨?_, ?_, t1, t2⟩
  · rw [slice, if_pos (by omega), t1]
  · rw [slice, if_pos (by omega), ← List.drop_drop, t2]

theorem flat_getElem? {α : Type} {a b : Nat} {rows : List (List α × List α)} (h : RowsOk a b rows) {i k : Nat} {r : List α × List α}
    (hr : rows[i]? = some r) (hk : k < a + b) : (flat rows)[i * (a + b) + k]? = (r.1 ++ r.2)[k]? := by
  obtain ⟨_, _, t1, t2⟩ := flat_row h hr
  have h2 := h r (List.mem_of_getElem? hr)
  rw [← List.getElem?_drop]
  by_cases hka : k < a
  · rw [List.getElem?_append_left (by omega), ← t1, List.getElem?_take, if_pos hka]
  · rw [List.getElem?_append_right (by omega), ← t2, List.getElem?_take, if_pos (by omega)]
    simp only [List.getElem?_drop]
    congr 1; omega

theorem collect_spec {S R : Type} {next : S → Option (Option (R × S))} (n : Nat) (items : List R) (hn : items.length = n) (Inv : Nat → S → Prop)
    (hstep : ∀ i s r, Inv i s → items[i]? = some r → ∃ s', next s = some (some (r, s')) ∧ Inv (i + 1) s')
    (hend : ∀ s, Inv n s → next s = some none) :
    ∀ k i s, Inv i s → i ≤ n → n - i < k → collect next k s = some (items.drop i) := by
  intro k
  induction k with
  | zero => intro i s _ _ h; omega
  | succ k ih =>
    intro i s hi hle hk
    unfold collect
    by_cases he : i = n
    · subst he
      rw [hend s hi, List.drop_eq_nil_of_le (by omega)]
    · have hlt : i < items.length := by omega
      obtain ⟨s', h1, h2⟩ := hstep i s items[i] hi (List.getElem?_eq_getElem hlt)
      rw [h1]
      simp only
      rw [ih (i + 1) s' h2 (by omega) (by omega), List.drop_eq_getElem_cons hlt]; rfl

theorem collect_spec0 {S R : Type} {next : S → Option (Option (R × S))} (items : List R) (Inv : Nat → S → Prop) (s0 : S) (k : Nat)
    (hk : items.length < k) (h0 : Inv 0 s0)
    (hstep : ∀ i s r, Inv i s → items[i]? = some r → ∃ s', next s = some (some (r, s')) ∧ Inv (i + 1) s')
    (hend : ∀ s, Inv items.length s → next s = some none) : collect next k s0 = some items := by
  have := collect_spec items.length items rfl Inv hstep hend k 0 s0 h0 (by omega) (by omega)
  simpa using this

theorem lt_of_getElem? {α : Type} {xs : List α} {i : Nat} {x : α} (h : xs[i]? = some x) : i < xs.length := by
  by_contra hc; rw [List.getElem?_eq_none (by omega)] at h; cases h

/-- Scalar iteration over a scalar witness. -/
theorem iterScalar_scalar {P : Nat} (w : Witness P F) (rows : List (List F × List F)) (h : IsScalar w rows) : iterScalar w = some rows := by
  obtain ⟨hn, hr, hv⟩ := h
  refine collect_spec0 rows (fun i s => s.1 = i) (0, []) _ (by omega) rfl ?_ ?_
  · rintro i ⟨i', buf⟩ r hi hget
    simp only at hi; subst hi
    have := lt_of_getElem? hget
    obtain ⟨h1, h2, _⟩ := flat_row hr hget
    refine ⟨(i' + 1, buf), ?_, rfl⟩
    simp only [nextScalar]
    rw [if_neg (by omega), hv]; simp only [h1, h2]
  · rintro ⟨i, buf⟩ hi
    simp only at hi
    simp only [nextScalar]
    rw [if_pos (by omega)]

theorem numBlocks_lt {n P j : Nat} (hP : 0 < P) : j < (n + P - 1) / P ↔ j * P < n := by
  rw [Nat.lt_div_iff_mul_lt hP]; omega

/-- Scalar iteration over a packed witness gives back the rows. -/
theorem iterScalar_simd {P : Nat} (hP : 0 < P) (w : Witness P F) (rows : List (List F × List F)) (blocks) (h : IsSimd w rows blocks) :
    iterScalar w = some rows := by
  obtain ⟨hn, hr, hv, hb, hp⟩ := h
  have hblk : ∀ i, i < rows.length → ∃ blk, blocks[i / P]? = some blk := by
    intro i hi
    have : i / P < blocks.length := by
      rw [hb, numBlocks_lt hP]; have := Nat.div_mul_le_self i P; omega
    exact ⟨_, List.getElem?_eq_getElem this⟩
  refine collect_spec0 rows (fun i s => s.1 = i ∧ (i % P ≠ 0 → ∀ blk, blocks[i / P]? = some blk → ∀ l : Fin P, i % P ≤ l.val →
    s.2[l.val]? = some (lane l blk.1, lane l blk.2))) (0, []) _ (by omega) ⟨rfl, by simp⟩ ?_ ?_
  · rintro i ⟨i', buf⟩ r ⟨hi, hbuf⟩ hget
    simp only at hi hbuf; subst hi
    have hlt := lt_of_getElem? hget
    obtain ⟨blk, hblk⟩ := hblk i' hlt
    obtain ⟨_, _, h1, h2⟩ := flat_row hr hblk
    have hlen : ((flat blocks).length < i' / P * (w.a + w.b)) = False := by
      rw [flat_length blocks hr]
      have := Nat.mul_le_mul_right (w.a + w.b) (Nat.le_of_lt (lt_of_getElem? hblk))
      simp; exact this
    have hml : i' % P < P := Nat.mod_lt _ hP
    have hdm : i' / P * P + i' % P = i' := by rw [Nat.mul_comm]; exact Nat.div_add_mod i' P
    have hrow := hp _ blk hblk ⟨i' % P, hml⟩
    simp only [hdm] at hrow
    rw [Nat.min_eq_left (by omega), hget] at hrow
    -- the buffer in use
    obtain ⟨nb, hnbd⟩ : ∃ nb, nb = if i' % P = 0 then unpackBlock ((flat blocks).drop (i' / P * (w.a + w.b))) w.a w.b else buf := ⟨_, rfl⟩
    have hnb : ∀ l : Fin P, i' % P ≤ l.val → nb[l.val]? = some (lane l blk.1, lane l blk.2) := by
      intro l hl
      rw [hnbd]
      split
      · simp only [unpackBlock, h1, h2, lane, List.getElem?_map]
        rw [List.getElem?_eq_getElem (by simp)]
        simp
      · exact hbuf (by assumption) blk hblk l hl
    refine ⟨(i' + 1, nb.set (i' % P) ([], [])), ?_, rfl, ?_⟩
    · simp only [nextScalar]
      rw [if_neg (by omega), hv]
      simp only [hlen, or_false, hP.ne', if_false, ← hnbd]
      rw [hnb ⟨i' % P, hml⟩ (le_refl _)]
      simp only
      rw [Option.some.inj hrow]
    · intro hne blk' hblk' l hl
      have hm : (i' + 1) % P = i' % P + 1 := by
        rw [Nat.add_mod]
        by_cases h1P : P = 1
        · subst h1P; exact absurd (Nat.mod_one _) hne
        · rw [Nat.mod_eq_of_lt (show 1 < P by omega)]
          apply Nat.mod_eq_of_lt
          by_contra hc
          have : i' % P + 1 = P := by omega
          apply hne
          rw [Nat.add_mod, Nat.mod_eq_of_lt (show 1 < P by omega), this, Nat.mod_self]
      have hd : (i' + 1) / P = i' / P := by
        rw [Nat.succ_div, if_neg]
        · rfl
        · intro hdv; exact hne (Nat.mod_eq_zero_of_dvd hdv)
      rw [hd, hblk] at hblk'; cases hblk'
      simp only
      rw [List.getElem?_set_ne (by omega)]
      exact hnb l (by omega)
  · rintro ⟨i, buf⟩ ⟨hi, _⟩
    simp only at hi
    simp only [nextScalar]
    rw [if_pos (by omega)]

/-- SIMD iteration over a packed witness gives the blocks. -/
theorem iterSimd_simd {P : Nat} (hP : 0 < P) (w : Witness P F) (rows : List (List F × List F)) (blocks) (h : IsSimd w rows blocks) :
    iterSimd w = some blocks := by
  obtain ⟨hn, hr, hv, hb, hp⟩ := h
  have hbl : blocks.length ≤ rows.length := by
    by_contra hc
    have h1 : rows.length < (rows.length + P - 1) / P := by omega
    rw [numBlocks_lt hP] at h1
    have := Nat.le_mul_of_pos_right rows.length hP
    omega
  refine collect_spec0 blocks (fun i s => s = i) 0 _ (by omega) rfl ?_ ?_
  · rintro i s r hi hget
    subst hi
    have hlt := lt_of_getElem? hget
    rw [hb, numBlocks_lt hP] at hlt
    obtain ⟨h1, h2, _⟩ := flat_row hr hget
    refine ⟨s + 1, ?_, rfl⟩
    simp only [nextSimd]
    rw [if_neg (by omega), hv]; simp only [h1, h2]
  · rintro s hi
    subst hi
    simp only [nextSimd]
    rw [if_pos]
    by_contra hc
    have : blocks.length < (rows.length + P - 1) / P := by rw [numBlocks_lt hP]; omega
    omega

/-- Packing a non-empty list of rows. -/
theorem packBlock_rows {P : Nat} (hP : 0 < P) {a b : Nat} (hab : a + b ≠ 0) (rows : List (List F × List F)) (hr : RowsOk a b rows) (hne : rows ≠ [])
    (a' b' : Nat) (hab' : a' + b' = a + b) :
    ∃ x y, packBlock P (flat rows) a' b' = some (x, y) ∧ x.length = a' ∧ y.length = b' ∧
      ∀ l : Fin P, ∀ r, rows[min l.val (rows.length - 1)]? = some r → lane l x ++ lane l y = r.1 ++ r.2 := by
  have hl0 : 0 < rows.length := List.length_pos_iff.2 hne
  have hsz : min ((flat rows).length / (a' + b')) P = min rows.length P := by
    rw [flat_length rows hr, hab', Nat.mul_div_cancel _ (by omega)]
  unfold packBlock
  rw [if_neg (by omega)]
  simp only [hsz]
  rw [if_neg (by omega)]
  refine ⟨_, _, rfl, by simp, by simp, ?_⟩
  intro l r hrr
  have hlr := hr r (List.mem_of_getElem? hrr)
  have hidx : (if l.val < min rows.length P then l.val else min rows.length P - 1) = min l.val (rows.length - 1) := by
    have := l.isLt
    split <;> omega
  simp only [lane, hidx, ← List.map_append, List.map_map]
  have hcat : List.range a' ++ List.range' a' b' = List.range (a + b) := by
    rw [List.range_eq_range', List.range_eq_range', ← hab']
    rw [← List.range'_append_1 (s := 0) (m := a') (n := b')]
    simp
  rw [hcat]
  apply List.ext_getElem?
  intro k
  by_cases hk : k < a + b
  · rw [List.getElem?_map, List.getElem?_range hk]
    simp only [Option.map_some, Function.comp_apply, hab']
    rw [hidx, flat_getElem? hr hrr hk, List.getElem?_eq_getElem (by simp [hlr.1, hlr.2]; omega)]
    rfl
  · rw [List.getElem?_eq_none (by simp; omega), List.getElem?_eq_none (by simp [hlr.1, hlr.2]; omega)]

/-- SIMD iteration over a scalar witness packs the rows. -/
theorem iterSimd_scalar {P : Nat} (hP : 0 < P) (w : Witness P F) (rows : List (List F × List F)) (h : IsScalar w rows) (hab : w.a + w.b ≠ 0) :
    ∃ blocks, iterSimd w = some blocks ∧ Packed rows blocks ∧ RowsOk w.a w.b blocks := by
  obtain ⟨hn, hr, hv⟩ := h
  have hblk : ∀ j, j * P < rows.length → ∃ blk, packBlock P (flat (rows.drop (j * P))) w.a w.b = some blk ∧ blk.1.length = w.a ∧ blk.2.length = w.b ∧
      ∀ l : Fin P, rows[min (j * P + l.val) (rows.length - 1)]? = some (lane l blk.1, lane l blk.2) := by
    intro j hj
    have hr' : RowsOk w.a w.b (rows.drop (j * P)) := fun r hr' => hr r (List.mem_of_mem_drop hr')
    obtain ⟨x, y, h1, h2, h3, h4⟩ := packBlock_rows hP hab (rows.drop (j * P)) hr' (by simp; omega) w.a w.b rfl
    refine ⟨(x, y), h1, h2, h3, ?_⟩
    intro l
    have hlt : min (j * P + l.val) (rows.length - 1) < rows.length := by omega
    obtain ⟨r, hrr⟩ : ∃ r, rows[min (j * P + l.val) (rows.length - 1)]? = some r := ⟨_, List.getElem?_eq_getElem hlt⟩
    have := h4 l r (by
      rw [List.getElem?_drop, List.length_drop, ← hrr]
      congr 1; omega)
    have hrl := hr r (List.mem_of_getElem? hrr)
    obtain ⟨e1, e2⟩ := List.append_inj this (by simp [lane, h2, hrl.1])
    rw [hrr]
    simp [e1, e2]
  choose f hf using hblk
  let blocks : List (List (Simd P F) × List (Simd P F)) :=
    (List.range ((rows.length + P - 1) / P)).map (fun j => if hj : j * P < rows.length then f j hj else ([], []))
  have hget : ∀ j blk, blocks[j]? = some blk → ∃ hj : j * P < rows.length, blk = f j hj := by
    intro j blk hb
    have hlt := lt_of_getElem? hb
    simp only [blocks, List.length_map, List.length_range] at hlt
    rw [numBlocks_lt hP] at hlt
    refine ⟨hlt, ?_⟩
    have h2 : j < (rows.length + P - 1) / P := (numBlocks_lt hP).2 hlt
    simp only [blocks, List.getElem?_map, List.getElem?_range h2, Option.map_some] at hb
    rw [dif_pos hlt] at hb
    exact (Option.some.inj hb).symm
  have hbl : blocks.length = (rows.length + P - 1) / P := by simp [blocks]
  have hble : blocks.length ≤ rows.length := by
    by_contra hc
    have h1 : rows.length < (rows.length + P - 1) / P := by omega
    rw [numBlocks_lt hP] at h1
    have := Nat.le_mul_of_pos_right rows.length hP
    omega
  refine ⟨blocks, ?_, ⟨hbl, ?_⟩, ?_⟩
  · refine collect_spec0 blocks (fun i s => s = i) 0 _ (by omega) rfl ?_ ?_
    · rintro i s r hi hgr
      subst hi
      obtain ⟨hj, rfl⟩ := hget s r hgr
      obtain ⟨h1, _⟩ := hf s hj
      refine ⟨s + 1, ?_, rfl⟩
      simp only [nextSimd]
      rw [if_neg (by omega), hv]
      simp only
      rw [flat_drop _ _ hr, h1, if_neg]
      rw [flat_length rows hr]
      have := Nat.mul_le_mul_right (w.a + w.b) (Nat.le_of_lt hj)
      omega
    · rintro s hi
      subst hi
      simp only [nextSimd]
      rw [if_pos]
      by_contra hc
      have : blocks.length < (rows.length + P - 1) / P := by rw [numBlocks_lt hP]; omega
      omega
  · intro j blk hb l
    obtain ⟨hj, rfl⟩ := hget j blk hb
    exact (hf j hj).2.2.2 l
  · intro r hm
    obtain ⟨j, hlt, hj⟩ := List.getElem_of_mem hm
    obtain ⟨hj', rfl⟩ := hget j r (by rw [List.getElem?_eq_getElem hlt, hj])
    exact ⟨(hf j hj').2.1, (hf j hj').2.2.1⟩

/-- Conversion of a scalar witness. -/
theorem convertToSimd_scalar {P : Nat} (hP : 0 < P) (w : Witness P F) (rows : List (List F × List F)) (h : IsScalar w rows) (hab : w.a + w.b ≠ 0) :
    ∃ w' blocks, convertToSimd w = some w' ∧ w'.a = w.a ∧ w'.b = w.b ∧ IsSimd w' rows blocks := by
  obtain ⟨hn, hr, hv⟩ := h
  have hblk : ∀ j, j * P < rows.length → ∃ x, packBlock P (flat (rows.drop (j * P))) (w.a + w.b) 0 = some (x, []) ∧ x.length = w.a + w.b ∧
      ∀ l : Fin P, rows[min (j * P + l.val) (rows.length - 1)]? = some (lane l (x.take w.a), lane l (x.drop w.a)) := by
    intro j hj
    have hr' : RowsOk w.a w.b (rows.drop (j * P)) := fun r hr' => hr r (List.mem_of_mem_drop hr')
    obtain ⟨x, y, h1, h2, h3, h4⟩ := packBlock_rows hP hab (rows.drop (j * P)) hr' (by simp; omega) (w.a + w.b) 0 rfl
    have hy : y = [] := List.eq_nil_of_length_eq_zero h3
    subst hy
    refine ⟨x, h1, h2, ?_⟩
    intro l
    have hlt : min (j * P + l.val) (rows.length - 1) < rows.length := by omega
    obtain ⟨r, hrr⟩ : ∃ r, rows[min (j * P + l.val) (rows.length - 1)]? = some r := ⟨_, List.getElem?_eq_getElem hlt⟩
    have := h4 l r (by
      rw [List.getElem?_drop, List.length_drop, ← hrr]
      congr 1; omega)
    have hrl := hr r (List.mem_of_getElem? hrr)
    simp only [lane, List.map_nil, List.append_nil] at this
    rw [hrr]
    simp only [lane, List.map_take, List.map_drop, this]
    rw [← hrl.1]; simp
  choose f hf using hblk
  let g : Nat → List (Simd P F) := fun j => if hj : j * P < rows.length then f j hj else []
  have hg : mapOpt (fun i => if (flat rows).length < i * P * (w.a + w.b) then none else
      (packBlock P ((flat rows).drop (i * P * (w.a + w.b))) (w.a + w.b) 0).map (·.1)) (List.range ((rows.length + P - 1) / P)) =
      some ((List.range ((rows.length + P - 1) / P)).map g) := by
    rw [← mapOpt_some]
    apply mapOpt_congr
    intro i hi
    have hi' : i * P < rows.length := (numBlocks_lt hP).1 (List.mem_range.1 hi)
    rw [if_neg, flat_drop _ _ hr, (hf i hi').1]
    · simp [g, hi']
    · rw [flat_length rows hr]
      have := Nat.mul_le_mul_right (w.a + w.b) (Nat.le_of_lt hi')
      omega
  let blocks := (List.range ((rows.length + P - 1) / P)).map (fun j => ((g j).take w.a, (g j).drop w.a))
  have hgl : ∀ j, j < (rows.length + P - 1) / P → (g j).length = w.a + w.b ∧ ∀ l : Fin P,
      rows[min (j * P + l.val) (rows.length - 1)]? = some (lane l ((g j).take w.a), lane l ((g j).drop w.a)) := by
    intro j hj
    have hj' := (numBlocks_lt hP).1 hj
    simp only [g, hj', dif_pos]
    exact (hf j hj').2
  refine ⟨⟨w.num, w.a, w.b, .simd ((List.range ((rows.length + P - 1) / P)).map g).flatten⟩, blocks, ?_, rfl, rfl, hn, ?_, ?_, ?_, ?_⟩
  · unfold convertToSimd
    rw [hv]
    simp only [hn, hg]
  · intro r hm
    obtain ⟨j, hj, rfl⟩ := List.mem_map.1 hm
    have := (hgl j (List.mem_range.1 hj)).1
    simp [this]
  · simp [blocks, flat, List.flatMap_def, List.map_map, Function.comp_def]
  · simp [blocks]
  · intro j blk hb l
    have hlt := lt_of_getElem? hb
    simp only [blocks, List.length_map, List.length_range] at hlt
    simp only [blocks, List.getElem?_map, List.getElem?_range hlt, Option.map_some, Option.some.injEq] at hb
    subst hb
    exact (hgl j hlt).2 l

end Verif.Witness
