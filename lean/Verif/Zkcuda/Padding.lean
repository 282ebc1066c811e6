import Verif.Zkcuda.Shape

/-!
# Padding to powers of two (zkcuda/shape.rs:146-148, 206-284)
-/

set_option linter.unusedSectionVars false
set_option linter.unusedSimpArgs false

namespace Verif.Zkcuda

/-- `shape_vec_padded_len` (shape.rs:146-148). -/
def paddedLen (sh : List Nat) : Nat := (sh.map Pow2.next).prod

/-- The loop of `shape_padded_mapping` (shape.rs:207-217), last dimension first: `cur` and `step`. -/
def padGrid : List Nat → List Nat × Nat
  | [] => ([0], 1)
  | n :: sh => (gridStep n (padGrid sh).2 (padGrid sh).1, (padGrid sh).2 * Pow2.next n)

/-- `shape_padded_mapping` (shape.rs:206-218). -/
def paddedMapping (sh : List Nat) : InputMapping := ⟨(padGrid sh).2, (padGrid sh).1.map some⟩

variable {T : Type}

/-- `chunks_exact(k)` of a slice with `m * k` elements. -/
def chunks (k : Nat) : Nat → List T → List (List T)
  | 0, _ => []
  | m + 1, l => l.take k :: chunks k m (l.drop k)

/-- One padded row (shape.rs:228-235, 247-255): the row and copies of its last element up to `m`; `none` is the underflow of `len - 1`. -/
def padRow (m : Nat) (row : List T) : Option (List T) := match row.getLast? with
  | none => none
  | some x => some (row ++ List.replicate (m - row.length) x)

/-- The rows followed by copies of the last one, up to `m` rows (shape.rs:256-264, 272-281). -/
def padRows (m : Nat) (rows : List (List T)) : Option (List T) := match rows.getLast? with
  | none => none
  | some x => some (rows ++ List.replicate (m - rows.length) x).flatten

/-- `multi_dimension_data_padding` (shape.rs:220-284): the three paths of the code.  The code of the first two writes into a vector of
the final size; here the parts are concatenated. -/
def padData : List Nat → List T → Option (List T)
  | [], data => if data.length = 1 then some data else none
  | [n], data => if data.length = n then padRow (Pow2.next n) data else none
  | [n, k], data => if data.length = n * k then
      match mapOpt (padRow (Pow2.next k)) (chunks k n data) with
      | none => none
      | some rows => padRows (Pow2.next n) rows
    else none
  | n :: sh, data => if n = 0 ∨ data.length % n ≠ 0 ∨ data.length / n = 0 then none else
      match mapOpt (padData sh) (chunks (data.length / n) n data) with
      | none => none
      | some rows => padRows (Pow2.next n) rows

/-! ### Specification -/

/-- The multi-index from which a padded position is copied: coordinates beyond the end read the last one. -/
def clamp (sh idx : List Nat) : List Nat := List.zipWith (fun n i => min i (n - 1)) sh idx

/-! ### Proofs -/

theorem padGrid_step : ∀ sh : List Nat, (padGrid sh).2 = paddedLen sh
  | [] => rfl
  | n :: sh => by
    have := padGrid_step sh
    simp only [padGrid, paddedLen, List.map_cons, List.prod_cons] at this ⊢
    rw [this, Nat.mul_comm]

/-- Dimension lengths with the strides of the padded array. -/
def padDims : List Nat → List (Nat × Nat)
  | [] => []
  | n :: sh => (n, paddedLen sh) :: padDims sh

theorem padGrid_grid : ∀ sh : List Nat, (padGrid sh).1 = grid (padDims sh)
  | [] => rfl
  | n :: sh => by simp only [padGrid, padDims, grid, padGrid_grid sh, padGrid_step sh]

theorem padDims_fst : ∀ sh : List Nat, (padDims sh).map Prod.fst = sh
  | [] => rfl
  | n :: sh => by simp [padDims, padDims_fst sh]

theorem padDims_ne : ∀ sh : List Nat, (∀ n ∈ sh, n ≠ 0) → ∀ x ∈ padDims sh, x.1 ≠ 0
  | [], _ => by simp [padDims]
  | n :: sh, h => by
    intro x hx
    simp only [padDims] at hx
    rcases List.mem_cons.1 hx with rfl | hx
    · exact h _ (by simp)
    · exact padDims_ne sh (fun m hm => h m (by simp [hm])) x hx

theorem dot_padDims : ∀ (sh idx : List Nat), Valid sh idx → dot (padDims sh) idx = ravel (sh.map Pow2.next) idx
  | [], [], _ => rfl
  | n :: sh, i :: idx, h => by simp only [padDims, dot, List.map_cons, ravel, dot_padDims sh idx h.2, paddedLen]

theorem next_ge (x : Nat) : x ≤ Pow2.next x := (Pow2.next_spec x).2.1

theorem next_pos (x : Nat) : 0 < Pow2.next x := by
  obtain ⟨k, hk⟩ := (Pow2.next_spec x).1
  rw [hk]; exact Nat.two_pow_pos k

theorem valid_padded : ∀ {sh idx : List Nat}, Valid sh idx → Valid (sh.map Pow2.next) idx
  | [], [], _ => trivial
  | n :: _, _ :: _, h => ⟨Nat.lt_of_lt_of_le h.1 (next_ge n), valid_padded h.2⟩

theorem clamp_valid : ∀ {sh idx : List Nat}, Valid sh idx → clamp sh idx = idx
  | [], [], _ => rfl
  | n :: sh, i :: idx, h => by
    have ih := clamp_valid h.2
    simp only [clamp, List.zipWith_cons_cons] at ih ⊢
    rw [ih, Nat.min_eq_left (by have := h.1; omega)]

/-- The mapping sends the element with multi-index `idx` to the position of `idx` in the padded array. -/
theorem paddedMapping_spec (sh : List Nat) (h0 : ∀ n ∈ sh, n ≠ 0) : (paddedMapping sh).nextSize = paddedLen sh ∧
    (paddedMapping sh).mapping.length = sh.prod ∧
    ∀ idx, Valid sh idx → (paddedMapping sh).mapping[ravel sh idx]? = some (some (ravel (sh.map Pow2.next) idx)) := by
  refine ⟨padGrid_step sh, ?_, ?_⟩
  · simp only [paddedMapping, List.length_map, padGrid_grid, grid_length _ (padDims_ne sh h0), padDims_fst]
  · intro idx hv
    have := grid_get (padDims sh) idx (padDims_ne sh h0) (by rw [padDims_fst]; exact hv)
    rw [padDims_fst] at this
    simp only [paddedMapping, List.getElem?_map, padGrid_grid, this, dot_padDims sh idx hv, Option.map_some]

theorem chunks_length (k : Nat) : ∀ (m : Nat) (l : List T), (chunks k m l).length = m
  | 0, _ => rfl
  | m + 1, l => by simp [chunks, chunks_length k m]

theorem chunks_get (k : Nat) : ∀ (m : Nat) (l : List T) (i : Nat), i < m → (chunks k m l)[i]? = some ((l.drop (i * k)).take k)
  | m + 1, l, 0, _ => by simp [chunks]
  | m + 1, l, i + 1, h => by
    simp only [chunks, List.getElem?_cons_succ]
    rw [chunks_get k m _ i (by omega), List.drop_drop, Nat.succ_mul, Nat.add_comm]

theorem flatten_get {k : Nat} : ∀ (rows : List (List T)), (∀ r ∈ rows, r.length = k) → ∀ (i p : Nat) (r : List T), rows[i]? = some r → p < k →
    rows.flatten[i * k + p]? = r[p]?
  | r0 :: rows, hk, 0, p, r, hr, hp => by
    simp only [List.getElem?_cons_zero] at hr
    cases hr
    have := hk r0 (by simp)
    rw [List.flatten_cons, Nat.zero_mul, Nat.zero_add, List.getElem?_append_left (by omega)]
  | r0 :: rows, hk, i + 1, p, r, hr, hp => by
    have h0 := hk r0 (by simp)
    rw [List.flatten_cons, List.getElem?_append_right (by rw [h0, Nat.succ_mul]; omega), h0, Nat.succ_mul]
    have e : i * k + k + p - k = i * k + p := by omega
    rw [e]
    exact flatten_get rows (fun r hr => hk r (by simp [hr])) i p r (by simpa using hr) hp

theorem length_flatten {k : Nat} : ∀ (rows : List (List T)), (∀ r ∈ rows, r.length = k) → rows.flatten.length = rows.length * k
  | [], _ => by simp
  | r :: rows, h => by
    rw [List.flatten_cons, List.length_append, h r (by simp), length_flatten rows (fun r hr => h r (by simp [hr])), List.length_cons, Nat.succ_mul, Nat.add_comm]

/-- What padding the rows does. -/
theorem padRows_spec {k m : Nat} (rows : List (List T)) (hne : rows ≠ []) (hm : rows.length ≤ m) (hk : ∀ r ∈ rows, r.length = k) :
    ∃ out, padRows m rows = some out ∧ out.length = m * k ∧ ∀ i p, i < m → p < k → ∀ r, rows[min i (rows.length - 1)]? = some r → out[i * k + p]? = r[p]? := by
  obtain ⟨x, hx⟩ : ∃ x, rows.getLast? = some x := by
    cases h : rows.getLast? with
    | none => exact absurd (List.getLast?_eq_none_iff.1 h) hne
    | some x => exact ⟨x, rfl⟩
  have hxm : x ∈ rows := List.mem_of_getLast? hx
  refine ⟨(rows ++ List.replicate (m - rows.length) x).flatten, by simp only [padRows, hx], ?_, ?_⟩
  · rw [length_flatten (k := k)]
    · rw [List.length_append, List.length_replicate]; congr 1; omega
    · intro r hr
      rcases List.mem_append.1 hr with h | h
      · exact hk r h
      · rw [(List.mem_replicate.1 h).2]; exact hk x hxm
  · intro i p hi hp r hr
    apply flatten_get _ _ i p r _ hp
    · intro r hr
      rcases List.mem_append.1 hr with h | h
      · exact hk r h
      · rw [(List.mem_replicate.1 h).2]; exact hk x hxm
    · by_cases hlt : i < rows.length
      · rw [List.getElem?_append_left hlt]
        rw [Nat.min_eq_left (by omega)] at hr
        exact hr
      · rw [Nat.min_eq_right (by omega)] at hr
        rw [List.getLast?_eq_getElem?, hr] at hx
        cases hx
        rw [List.getElem?_append_right (by omega), List.getElem?_replicate, if_pos (by omega)]

/-- The contract of padding for a shape. -/
def PadOk (sh : List Nat) (f : List T → Option (List T)) : Prop :=
  ∀ data : List T, data.length = sh.prod → ∃ out, f data = some out ∧ out.length = paddedLen sh ∧
    ∀ idx, Valid (sh.map Pow2.next) idx → out[ravel (sh.map Pow2.next) idx]? = data[ravel sh (clamp sh idx)]?

theorem padOk_cons {n : Nat} {sh : List Nat} (hn : n ≠ 0) (h0 : sh.prod ≠ 0) {f : List T → Option (List T)} (hf : PadOk sh f) (data : List T)
    (hd : data.length = n * sh.prod) : ∃ rows out, mapOpt f (chunks sh.prod n data) = some rows ∧ padRows (Pow2.next n) rows = some out ∧
      out.length = paddedLen (n :: sh) ∧
      ∀ idx, Valid ((n :: sh).map Pow2.next) idx → out[ravel ((n :: sh).map Pow2.next) idx]? = data[ravel (n :: sh) (clamp (n :: sh) idx)]? := by
  have hch : ∀ i, i < n → ((data.drop (i * sh.prod)).take sh.prod).length = sh.prod := by
    intro i hi
    have : (i + 1) * sh.prod ≤ n * sh.prod := Nat.mul_le_mul_right _ hi
    rw [Nat.succ_mul] at this
    simp; omega
  obtain ⟨rows, hr⟩ := mapOpt_isSome (f := f) (l := chunks sh.prod n data) (by
    intro c hc
    obtain ⟨i, hi, rfl⟩ := List.mem_iff_getElem.1 hc
    have hi' : i < n := by rw [chunks_length] at hi; exact hi
    have e := chunks_get sh.prod n data i hi'
    rw [List.getElem?_eq_getElem hi] at e
    rw [Option.some.inj e]
    obtain ⟨out, ho, _⟩ := hf _ (hch i hi')
    simp [ho])
  have hrl : rows.length = n := by rw [mapOpt_length hr, chunks_length]
  have hrow : ∀ i, i < n → ∃ r, rows[i]? = some r ∧ r.length = paddedLen sh ∧
      ∀ idx, Valid (sh.map Pow2.next) idx → r[ravel (sh.map Pow2.next) idx]? = data[i * sh.prod + ravel sh (clamp sh idx)]? := by
    intro i hi
    have := mapOpt_getElem? hr i _ (chunks_get sh.prod n data i hi)
    obtain ⟨out, h1, h2, h3⟩ := hf _ (hch i hi)
    rw [h1] at this
    refine ⟨out, this.symm, h2, ?_⟩
    intro idx hv
    have hcl : Valid sh (clamp sh idx) := by
      have : ∀ (sh idx : List Nat), (∀ n ∈ sh, n ≠ 0) → Valid (sh.map Pow2.next) idx → Valid sh (clamp sh idx) := by
        intro sh
        induction sh with
        | nil => intro idx _ hv; cases idx with
          | nil => trivial
          | cons => exact hv.elim
        | cons n sh ih =>
          intro idx h0 hv
          cases idx with
          | nil => exact hv.elim
          | cons i idx =>
            have := h0 n (by simp)
            refine ⟨?_, ih idx (fun m hm => h0 m (by simp [hm])) hv.2⟩
            show min i (n - 1) < n
            have : min i (n - 1) ≤ n - 1 := Nat.min_le_right _ _
            omega
      apply this _ _ _ hv
      intro m hm h00
      subst h00
      exact h0 (prod_zero_of_mem hm)
    rw [h3 idx hv, List.getElem?_take_of_lt (ravel_lt hcl), List.getElem?_drop]
  obtain ⟨out, o1, o2, o3⟩ := padRows_spec (k := paddedLen sh) (m := Pow2.next n) rows (by intro h; rw [h] at hrl; simp at hrl; omega)
    (by rw [hrl]; exact next_ge n) (by
      intro r hr'
      obtain ⟨i, hi, rfl⟩ := List.mem_iff_getElem.1 hr'
      obtain ⟨r, e1, e2, _⟩ := hrow i (by omega)
      rw [List.getElem?_eq_getElem hi] at e1
      rw [Option.some.inj e1]; exact e2)
  refine ⟨rows, out, hr, o1, by rw [o2]; rfl, ?_⟩
  intro idx hv
  cases idx with
  | nil => exact hv.elim
  | cons i idx =>
    have hv' : i < Pow2.next n ∧ Valid (sh.map Pow2.next) idx := hv
    obtain ⟨r, e1, e2, e3⟩ := hrow (min i (n - 1)) (by have : min i (n - 1) ≤ n - 1 := Nat.min_le_right _ _
                                                       omega)
    have := o3 i _ hv'.1 (by rw [← show (sh.map Pow2.next).prod = paddedLen sh from rfl]; exact ravel_lt hv'.2) r (by rw [hrl]; exact e1)
    simp only [List.map_cons, ravel]
    rw [show (sh.map Pow2.next).prod = paddedLen sh from rfl, this, e3 idx hv'.2]
    rfl

theorem chunks_one : ∀ (l : List T), (chunks 1 l.length l).flatten = l ∧ ∀ x, (chunks 1 l.length l).getLast? = some x → ∃ y, l.getLast? = some y ∧ x = [y]
  | [] => by simp [chunks]
  | a :: l => by
    obtain ⟨h1, h2⟩ := chunks_one l
    simp only [List.length_cons, chunks, List.take_succ_cons, List.take_zero, List.drop_succ_cons, List.drop_zero]
    refine ⟨by simp [h1], ?_⟩
    intro x hx
    cases l with
    | nil => simp [chunks] at hx; exact ⟨a, rfl, hx.symm⟩
    | cons b l =>
      rw [List.getLast?_cons] at hx
      cases hc : (chunks 1 (b :: l).length (b :: l)).getLast? with
      | none =>
        rw [List.getLast?_eq_none_iff] at hc
        have := chunks_length 1 (b :: l).length (b :: l)
        rw [hc] at this; simp at this
      | some z =>
        rw [hc] at hx
        obtain ⟨y, e1, e2⟩ := h2 z hc
        simp at hx; subst hx
        exact ⟨y, by rw [List.getLast?_cons, e1]; rfl, e2⟩

/-- The one-dimensional path is padding of rows of one element. -/
theorem padRow_eq (m : Nat) (l : List T) (hm : l.length ≤ m) (hne : l ≠ []) : padRow m l = padRows m (chunks 1 l.length l) := by
  obtain ⟨h1, h2⟩ := chunks_one l
  have hcl := chunks_length 1 l.length l
  unfold padRow padRows
  cases hc : (chunks 1 l.length l).getLast? with
  | none =>
    rw [List.getLast?_eq_none_iff] at hc
    rw [hc] at hcl
    exact absurd (List.eq_nil_of_length_eq_zero hcl.symm) hne
  | some x =>
    obtain ⟨y, e1, e2⟩ := h2 x hc
    rw [e1, e2]
    simp only [List.flatten_append, h1, hcl]
    congr 2
    generalize m - l.length = k
    induction k with
    | zero => rfl
    | succ k ih => rw [List.replicate_succ, List.replicate_succ, List.flatten_cons, ih]; rfl

theorem mapOpt_pad_nil (l : List T) : mapOpt (padData ([] : List Nat)) (chunks 1 l.length l) = some (chunks 1 l.length l) := by
  have : ∀ l : List (List T), (∀ r ∈ l, r.length = 1) → mapOpt (padData ([] : List Nat)) l = some l := by
    intro l
    induction l with
    | nil => intro _; rfl
    | cons r l ih =>
      intro h
      have e : padData [] r = some r := by simp only [padData, h r (by simp), if_true]
      simp only [mapOpt, e, ih (fun s hs => h s (by simp [hs]))]
  apply this
  intro r hr
  obtain ⟨i, hi, rfl⟩ := List.mem_iff_getElem.1 hr
  have hi' := hi
  rw [chunks_length] at hi'
  have := chunks_get 1 l.length l i hi'
  rw [List.getElem?_eq_getElem hi] at this
  rw [Option.some.inj this]
  simp; omega

theorem padOk_nil : PadOk ([] : List Nat) (padData (T := T) []) := by
  intro data hd
  refine ⟨data, by simp only [padData]; rw [if_pos (by simpa using hd)], by simpa [paddedLen] using hd, ?_⟩
  intro idx hv
  cases idx with
  | nil => rfl
  | cons => exact hv.elim

theorem padOk_one {n : Nat} (hn : n ≠ 0) : PadOk [n] (padData (T := T) [n]) := by
  intro data hd
  have hdn : data.length = n := by simpa using hd
  obtain ⟨rows, out, h1, h2, h3, h4⟩ := padOk_cons (n := n) hn (sh := []) (by simp) padOk_nil data (by simpa using hd)
  refine ⟨out, ?_, h3, h4⟩
  have e := mapOpt_pad_nil data
  rw [hdn] at e
  rw [show ([] : List Nat).prod = 1 from rfl, e] at h1
  cases h1
  simp only [padData]
  rw [if_pos hdn, padRow_eq _ _ (by rw [hdn]; exact next_ge n) (by intro h; rw [h] at hdn; simp at hdn; omega), hdn]
  exact h2

theorem padData_ok : ∀ (sh : List Nat), (∀ n ∈ sh, n ≠ 0) → PadOk sh (padData (T := T) sh) := by
  intro sh
  induction sh with
  | nil => intro _; exact padOk_nil
  | cons n sh ih =>
    intro h0 data hd
    have hn := h0 n (by simp)
    have hp : sh.prod ≠ 0 := by
      have : ∀ l : List Nat, (∀ n ∈ l, n ≠ 0) → l.prod ≠ 0 := by
        intro l
        induction l with
        | nil => intro _; simp
        | cons a l ih => intro h; rw [List.prod_cons]; exact Nat.mul_ne_zero (h a (by simp)) (ih fun n hn => h n (by simp [hn]))
      exact this sh fun m hm => h0 m (by simp [hm])
    cases sh with
    | nil => exact padOk_one hn data hd
    | cons k sh =>
      have hdl : data.length = n * (k :: sh).prod := by simpa using hd
      obtain ⟨rows, out, h1, h2, h3, h4⟩ := padOk_cons hn hp (ih fun m hm => h0 m (by simp [hm])) data hdl
      refine ⟨out, ?_, h3, h4⟩
      cases sh with
      | nil =>
        have e : mapOpt (padRow (Pow2.next k)) (chunks k n data) = some rows := by
          rw [show ([k] : List Nat).prod = k by simp] at h1
          rw [← h1]
          apply mapOpt_congr
          intro c hc
          obtain ⟨i, hi, rfl⟩ := List.mem_iff_getElem.1 hc
          have hi' := hi
          rw [chunks_length] at hi'
          have e := chunks_get k n data i hi'
          rw [List.getElem?_eq_getElem hi] at e
          rw [Option.some.inj e]
          simp only [padData]
          rw [if_pos]
          have hd' : data.length = n * k := by simpa using hd
          have : (i + 1) * k ≤ n * k := Nat.mul_le_mul_right _ hi'
          rw [Nat.succ_mul] at this
          simp; omega
        simp only [padData]
        rw [if_pos (by simpa using hd), e]
        exact h2
      | cons j sh =>
        have hdiv : data.length / n = (k :: j :: sh).prod := by rw [hdl]; exact Nat.mul_div_cancel_left _ (by omega)
        simp only [padData]
        rw [if_neg, hdiv, h1]
        · exact h2
        · rw [hdiv, hdl]
          simp only [not_or, not_not, Nat.mul_mod_right, true_and]
          exact ⟨hn, hp⟩

end Verif.Zkcuda
