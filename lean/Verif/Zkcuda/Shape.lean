import Verif.Base
import Verif.InputMapping
import Verif.Utils.Pow2
import Mathlib.Data.List.Basic
import Mathlib.Data.List.Perm.Basic
import Mathlib.Algebra.BigOperators.Group.List.Basic
import Mathlib.Algebra.Order.Ring.Nat
import Mathlib.Tactic.Ring

/-!
# Shapes (zkcuda/shape.rs)

Panics are `none`.  `usize` is `Nat`.
-/

set_option linter.unusedSectionVars false
set_option linter.unusedSimpArgs false

namespace Verif.Zkcuda

/-! ### Specification: row-major arrays -/

/-- `idx` is a multi-index into an array of shape `sh`. -/
def Valid : List Nat → List Nat → Prop
  | [], [] => True
  | n :: sh, i :: idx => i < n ∧ Valid sh idx
  | _, _ => False

/-- Row-major position of a multi-index. -/
def ravel : List Nat → List Nat → Nat
  | n :: sh, i :: idx => let _ := n; i * sh.prod + ravel sh idx
  | _, _ => 0

/-- `data'` is `data` (of shape `sh`) with the axes permuted: axis `k` of the result is axis `axes[k]` of the argument. -/
def IsTranspose {T : Type} (sh axes : List Nat) (data data' : List T) : Prop :=
  data'.length = data.length ∧
    ∀ idx, Valid sh idx → data'[ravel (axes.map fun a => sh.getD a 0) (axes.map fun a => idx.getD a 0)]? = data[ravel sh idx]?

/-- User operations on a handle. -/
inductive ShapeOp
  | reshape (shape : List Nat)
  | transpose (axes : List Nat)

/-- Mathematical meaning of a sequence of operations: shape and data before, shape and data after. -/
inductive Means {T : Type} : List ShapeOp → List Nat → List T → List Nat → List T → Prop
  | nil {sh data} : Means [] sh data sh data
  | reshape {sh' ops sh data sh'' data''} : sh'.prod = sh.prod → Means ops sh' data sh'' data'' →
      Means (.reshape sh' :: ops) sh data sh'' data''
  | transpose {axes ops sh data data' sh'' data''} : axes.Perm (List.range sh.length) → IsTranspose sh axes data data' →
      Means ops (axes.map fun a => sh.getD a 0) data' sh'' data'' → Means (.transpose axes :: ops) sh data sh'' data''

/-! ### Model -/

/-- `Entry` (shape.rs:28-32). -/
structure Entry where
  shape : List Nat
  axes : Option (List Nat)

/-- `ShapeHistory` (shape.rs:22-26). -/
structure History where
  vecLen : Nat
  entries : List Entry

/-- `ShapeHistory::new` (shape.rs:293-302). -/
def History.new (sh : List Nat) : History := ⟨sh.prod, [⟨sh, none⟩]⟩

/-- `Reshape for ShapeHistory` (shape.rs:415-432). -/
def History.reshape (h : History) (sh : List Nat) : Option History :=
  if sh.prod ≠ h.vecLen then none else
    match h.entries.getLast? with
    | none => none
    | some e => match e.axes with
      | none => some ⟨h.vecLen, h.entries.dropLast ++ [⟨sh, none⟩]⟩
      | some _ => some ⟨h.vecLen, h.entries ++ [⟨sh, none⟩]⟩

/-- `Transpose for ShapeHistory` (shape.rs:434-456); `cur_axes[a]` out of range is `none`. -/
def History.transpose (h : History) (axes : List Nat) : Option History :=
  match h.entries.getLast? with
  | none => none
  | some e =>
    if axes.length ≠ e.shape.length then none else
      match e.axes with
      | none => some ⟨h.vecLen, h.entries.dropLast ++ [⟨e.shape, some axes⟩]⟩
      | some cur => (mapOpt (fun a => cur[a]?) axes).map fun n => ⟨h.vecLen, h.entries.dropLast ++ [⟨e.shape, some n⟩]⟩

/-- `shape` (shape.rs:364-370). -/
def History.shape (h : History) : Option (List Nat) :=
  match h.entries.getLast? with
  | none => none
  | some e => match e.axes with
    | none => some e.shape
    | some axes => mapOpt (fun a => e.shape[a]?) axes

/-- `prefix_products` (shape.rs:150-159). -/
def prefixProducts : Nat → List Nat → List Nat
  | p, [] => [p]
  | p, n :: sh => p :: prefixProducts (p * n) sh

/-- One level of the index loops (shape.rs:391-395, 215-219): `new = cur`, then `cur + i * step` for `1 ≤ i < len`. -/
def gridStep (len step : Nat) (cur : List Nat) : List Nat :=
  cur ++ (List.range' 1 (len - 1)).flatMap fun i => cur.map fun y => y + i * step

/-- The loop over the axes, last first (shape.rs:388-397). -/
def permLoop (ts mul : List Nat) : List Nat → List Nat → Option (List Nat)
  | [], cur => some cur
  | x :: xs, cur =>
    if x < ts.length then
      match ts[ts.length - x - 1]?, mul[ts.length - x - 1]? with
      | some len, some step => permLoop ts mul xs (gridStep len step cur)
      | _, _ => none
    else none

/-- The index vector of an entry (shape.rs:384-397). -/
def entryIdx (sh axes : List Nat) : Option (List Nat) := permLoop sh.reverse (prefixProducts 1 sh.reverse) axes.reverse [0]

/-- The loop over the entries (shape.rs:380-405). -/
def permuteLoop : List Entry → Option (List Nat) → Option (Option (List Nat))
  | [], idx => some idx
  | e :: es, idx => match e.axes with
    | none => some idx
    | some axes => match entryIdx e.shape axes with
      | none => none
      | some cur => match idx with
        | none => permuteLoop es (some cur)
        | some t => if t.length ≠ cur.length then none else
          match mapOpt (fun x => t[x]?) cur with
          | none => none
          | some r => permuteLoop es (some r)

/-- `permute_vec` (shape.rs:378-411). -/
def History.permuteVec {T : Type} (h : History) (s : List T) : Option (List T) :=
  match permuteLoop h.entries none with
  | none => none
  | some none => some s
  | some (some idx) => mapOpt (fun x => s[x]?) idx

/-- Applying a sequence of user operations. -/
def History.run (h : History) : List ShapeOp → Option History
  | [] => some h
  | .reshape sh :: ops => match h.reshape sh with
    | none => none
    | some h => h.run ops
  | .transpose axes :: ops => match h.transpose axes with
    | none => none
    | some h => h.run ops

/-! ### Multi-indices -/

theorem Valid.length : ∀ {sh idx : List Nat}, Valid sh idx → idx.length = sh.length
  | [], [], _ => rfl
  | _ :: _, _ :: _, h => by simp [Valid.length h.2]

theorem ravel_lt : ∀ {sh idx : List Nat}, Valid sh idx → ravel sh idx < sh.prod
  | [], [], _ => by simp [ravel]
  | n :: sh, i :: idx, h => by
    have := ravel_lt h.2
    simp only [ravel, List.prod_cons]
    have h1 : (i + 1) * sh.prod ≤ n * sh.prod := Nat.mul_le_mul_right _ h.1
    rw [Nat.succ_mul] at h1
    omega

/-- Every position is the position of a multi-index. -/
theorem ravel_surj : ∀ (sh : List Nat) (p : Nat), p < sh.prod → ∃ idx, Valid sh idx ∧ ravel sh idx = p
  | [], p, h => ⟨[], trivial, by simp at h; simp [ravel, h]⟩
  | n :: sh, p, h => by
    simp only [List.prod_cons] at h
    have hpos : 0 < sh.prod := by
      rcases Nat.eq_zero_or_pos sh.prod with h0 | h0
      · rw [h0] at h; simp at h
      · exact h0
    obtain ⟨idx, h1, h2⟩ := ravel_surj sh (p % sh.prod) (Nat.mod_lt _ hpos)
    refine ⟨p / sh.prod :: idx, ⟨(Nat.div_lt_iff_lt_mul hpos).2 h, h1⟩, ?_⟩
    simp only [ravel, h2]
    rw [Nat.mul_comm]
    exact Nat.div_add_mod p sh.prod

/-- A list of positions enumerated by nested loops: dimension lengths and strides, outermost first. -/
def dot : List (Nat × Nat) → List Nat → Nat
  | (_, s) :: l, i :: idx => i * s + dot l idx
  | _, _ => 0

/-- The nested loops. -/
def grid : List (Nat × Nat) → List Nat
  | [] => [0]
  | (n, s) :: l => gridStep n s (grid l)

theorem gridStep_eq {n s : Nat} (hn : n ≠ 0) (cur : List Nat) : gridStep n s cur = (List.range n).flatMap fun i => cur.map fun y => y + i * s := by
  obtain ⟨m, rfl⟩ := Nat.exists_eq_succ_of_ne_zero hn
  unfold gridStep
  rw [List.range_eq_range', List.range'_succ]
  simp

theorem flatMap_get {α : Type} (g : Nat → List α) (k : Nat) : ∀ (n s : Nat), (∀ i, (g i).length = k) → ∀ i p, i < n → p < k →
    ((List.range' s n).flatMap g)[i * k + p]? = (g (s + i))[p]? := by
  intro n
  induction n with
  | zero => intro s _ i p hi; omega
  | succ n ih =>
    intro s hg i p hi hp
    rw [List.range'_succ, List.flatMap_cons]
    cases i with
    | zero =>
      rw [Nat.zero_mul, Nat.zero_add, List.getElem?_append_left (by rw [hg]; exact hp)]
      rfl
    | succ i =>
      rw [List.getElem?_append_right (by rw [hg, Nat.succ_mul]; omega), hg, Nat.succ_mul]
      have e : i * k + k + p - k = i * k + p := by omega
      rw [e, ih (s + 1) hg i p (by omega) hp]
      congr 2
      omega

theorem grid_length : ∀ (l : List (Nat × Nat)), (∀ x ∈ l, x.1 ≠ 0) → (grid l).length = (l.map Prod.fst).prod
  | [], _ => rfl
  | (n, s) :: l, h => by
    have ih := grid_length l (fun x hx => h x (by simp [hx]))
    simp only [grid, gridStep_eq (h (n, s) (by simp)), List.length_flatMap, List.length_map, List.map_const', List.sum_replicate_nat,
      List.length_range, ih, List.map_cons, List.prod_cons]

theorem grid_get : ∀ (l : List (Nat × Nat)) (idx : List Nat), (∀ x ∈ l, x.1 ≠ 0) → Valid (l.map Prod.fst) idx →
    (grid l)[ravel (l.map Prod.fst) idx]? = some (dot l idx)
  | [], [], _, _ => rfl
  | (n, s) :: l, i :: idx, h, hv => by
    have hv' : i < n ∧ Valid (l.map Prod.fst) idx := hv
    have ih := grid_get l idx (fun x hx => h x (by simp [hx])) hv'.2
    have hl := grid_length l (fun x hx => h x (by simp [hx]))
    simp only [grid, gridStep_eq (h (n, s) (by simp)), List.map_cons, ravel, dot]
    rw [List.range_eq_range', flatMap_get (k := (l.map Prod.fst).prod) _ n 0 (by simp [hl]) i _ hv'.1 (ravel_lt hv'.2)]
    rw [List.getElem?_map, ih]
    simp only [Option.map_some, Nat.zero_add]
    congr 1
    omega

/-! ### The index vector of a transposition -/

theorem prefixProducts_get : ∀ (l : List Nat) (p k : Nat), k ≤ l.length → (prefixProducts p l)[k]? = some (p * (l.take k).prod) := by
  intro l
  induction l with
  | nil => intro p k hk; have : k = 0 := by simpa using hk
           subst this; simp [prefixProducts]
  | cons n l ih =>
    intro p k hk
    cases k with
    | zero => simp [prefixProducts]
    | succ k =>
      simp only [prefixProducts, List.getElem?_cons_succ, List.take_succ_cons, List.prod_cons]
      rw [ih _ _ (by simpa using hk), Nat.mul_assoc]

/-- Length and row-major stride of an axis. -/
def axisDim (sh : List Nat) (a : Nat) : Nat × Nat := (sh.getD a 0, (sh.drop (a + 1)).prod)

theorem permLoop_eq (sh : List Nat) : ∀ (xs cur : List Nat), (∀ x ∈ xs, x < sh.length) →
    permLoop sh.reverse (prefixProducts 1 sh.reverse) xs cur = some (xs.foldl (fun cur x => gridStep (axisDim sh x).1 (axisDim sh x).2 cur) cur) := by
  intro xs
  induction xs with
  | nil => intro cur _; rfl
  | cons x xs ih =>
    intro cur h
    have hx := h x (by simp)
    have e1 : sh.reverse[sh.reverse.length - x - 1]? = some (sh.getD x 0) := by
      rw [List.length_reverse, List.getElem?_reverse (by omega)]
      have : sh.length - 1 - (sh.length - x - 1) = x := by omega
      rw [this, List.getD, List.getElem?_eq_getElem hx]
      rfl
    have e2 : (prefixProducts 1 sh.reverse)[sh.reverse.length - x - 1]? = some (sh.drop (x + 1)).prod := by
      rw [prefixProducts_get _ _ _ (by omega), Nat.one_mul, List.length_reverse, List.take_reverse, List.prod_reverse]
      congr 3
      omega
    simp only [permLoop, List.length_reverse, hx, if_true]
    rw [List.length_reverse] at e1 e2
    rw [e1, e2]
    exact ih _ (fun y hy => h y (by simp [hy]))

theorem grid_foldr (sh : List Nat) : ∀ axes : List Nat, grid (axes.map (axisDim sh)) = axes.foldr (fun x cur => gridStep (axisDim sh x).1 (axisDim sh x).2 cur) [0]
  | [] => rfl
  | a :: axes => by simp only [List.map_cons, grid, List.foldr_cons, ← grid_foldr sh axes]

theorem entryIdx_eq {sh axes : List Nat} (h : ∀ a ∈ axes, a < sh.length) : entryIdx sh axes = some (grid (axes.map (axisDim sh))) := by
  unfold entryIdx
  rw [permLoop_eq _ _ _ (by simpa using h), List.foldl_reverse, grid_foldr]

theorem ravel_sum : ∀ (sh idx : List Nat), idx.length = sh.length →
    ravel sh idx = ((List.range sh.length).map fun a => idx.getD a 0 * (sh.drop (a + 1)).prod).sum
  | [], [], _ => rfl
  | n :: sh, i :: idx, h => by
    have ih := ravel_sum sh idx (by simpa using h)
    simp only [ravel, List.length_cons, List.range_succ_eq_map, List.map_cons, List.sum_cons, List.map_map]
    rw [ih]
    rfl

theorem dot_axes (sh idx : List Nat) : ∀ axes : List Nat, dot (axes.map (axisDim sh)) (axes.map fun a => idx.getD a 0) =
    (axes.map fun a => idx.getD a 0 * (sh.drop (a + 1)).prod).sum
  | [] => rfl
  | a :: axes => by simp only [List.map_cons, axisDim, dot, List.sum_cons]; rw [← dot_axes sh idx axes]

theorem valid_getD : ∀ {sh idx : List Nat}, Valid sh idx → ∀ a, a < sh.length → idx.getD a 0 < sh.getD a 0
  | n :: sh, i :: idx, h, 0, _ => by simpa using h.1
  | n :: sh, i :: idx, h, a + 1, ha => by
    have := valid_getD h.2 a (by simpa using ha)
    simpa using this

theorem valid_map (f g : Nat → Nat) : ∀ axes : List Nat, (∀ a ∈ axes, f a < g a) → Valid (axes.map g) (axes.map f)
  | [], _ => trivial
  | a :: axes, h => ⟨h a (by simp), valid_map f g axes fun b hb => h b (by simp [hb])⟩

theorem valid_of_getD : ∀ (sh idx : List Nat), idx.length = sh.length → (∀ a, a < sh.length → idx.getD a 0 < sh.getD a 0) → Valid sh idx
  | [], [], _, _ => trivial
  | n :: sh, i :: idx, h, hl => ⟨by simpa using hl 0 (by simp), valid_of_getD sh idx (by simpa using h) fun a ha => by
      simpa using hl (a + 1) (by simpa using ha)⟩

theorem axes_lt {sh axes : List Nat} (h : axes.Perm (List.range sh.length)) : ∀ a ∈ axes, a < sh.length :=
  fun a ha => List.mem_range.1 (h.mem_iff.1 ha)

theorem valid_axes {sh idx axes : List Nat} (h : axes.Perm (List.range sh.length)) (hv : Valid sh idx) :
    Valid (axes.map fun a => sh.getD a 0) (axes.map fun a => idx.getD a 0) :=
  valid_map _ _ axes fun a ha => valid_getD hv a (axes_lt h a ha)

theorem prod_axes {sh axes : List Nat} (h : axes.Perm (List.range sh.length)) : (axes.map fun a => sh.getD a 0).prod = sh.prod := by
  rw [(h.map _).prod_eq]
  congr 1
  apply List.ext_getElem?
  intro i
  rw [List.getElem?_map]
  by_cases hi : i < sh.length
  · rw [List.getElem?_range hi]; simp [List.getD, hi]
  · rw [List.getElem?_eq_none (by simpa using hi), List.getElem?_eq_none (by simpa using hi)]; rfl

theorem map_axisDim (sh axes : List Nat) : (axes.map (axisDim sh)).map Prod.fst = axes.map fun a => sh.getD a 0 := by
  rw [List.map_map]; rfl

theorem prod_zero_of_mem : ∀ {l : List Nat}, 0 ∈ l → l.prod = 0
  | a :: l, h => by
    rcases List.mem_cons.1 h with h | h
    · simp [← h]
    · simp [prod_zero_of_mem h]

theorem axisDim_ne {sh axes : List Nat} (h : axes.Perm (List.range sh.length)) (hp : sh.prod ≠ 0) : ∀ x ∈ axes.map (axisDim sh), x.1 ≠ 0 := by
  intro x hx h0
  obtain ⟨a, ha, rfl⟩ := List.mem_map.1 hx
  have hlt := axes_lt h a ha
  simp only [axisDim] at h0
  apply hp
  apply prod_zero_of_mem
  rw [← h0, List.getD, List.getElem?_eq_getElem hlt]
  exact List.getElem_mem hlt

/-- The index vector reads, at the position of the permuted multi-index, the position of the multi-index. -/
theorem entryIdx_spec {sh axes : List Nat} (h : axes.Perm (List.range sh.length)) (hp : sh.prod ≠ 0) : ∃ cur, entryIdx sh axes = some cur ∧
    cur.length = sh.prod ∧ ∀ idx, Valid sh idx →
      cur[ravel (axes.map fun a => sh.getD a 0) (axes.map fun a => idx.getD a 0)]? = some (ravel sh idx) := by
  refine ⟨_, entryIdx_eq (axes_lt h), ?_, ?_⟩
  · rw [grid_length _ (axisDim_ne h hp), map_axisDim, prod_axes h]
  · intro idx hv
    have hv' := valid_axes h hv
    rw [← map_axisDim] at hv'
    have := grid_get _ _ (axisDim_ne h hp) hv'
    rw [map_axisDim] at this
    rw [this, dot_axes, ravel_sum sh idx hv.length]
    rw [(h.map _).sum_eq]

/-- Every multi-index of the transposed shape comes from one of the original shape. -/
theorem axes_surj {sh axes : List Nat} (h : axes.Perm (List.range sh.length)) (p : Nat) (hp : p < sh.prod) :
    ∃ idx, Valid sh idx ∧ ravel (axes.map fun a => sh.getD a 0) (axes.map fun a => idx.getD a 0) = p := by
  rw [← prod_axes h] at hp
  obtain ⟨idx', h1, h2⟩ := ravel_surj _ p hp
  have hl := h1.length
  rw [List.length_map] at hl
  have hnd : axes.Nodup := h.symm.nodup List.nodup_range
  let idx := (List.range sh.length).map fun x => idx'.getD (axes.idxOf x) 0
  have hidx : ∀ a, a < sh.length → idx.getD a 0 = idx'.getD (axes.idxOf a) 0 := by
    intro a ha
    simp only [idx, List.getD, List.getElem?_map, List.getElem?_range ha, Option.map_some, Option.getD_some]
  have hmap : (axes.map fun a => idx.getD a 0) = idx' := by
    apply List.ext_getElem?
    intro i
    rw [List.getElem?_map]
    by_cases hi : i < axes.length
    · rw [List.getElem?_eq_getElem hi, Option.map_some, hidx _ (axes_lt h _ (List.getElem_mem hi)), hnd.idxOf_getElem i hi, List.getD,
        List.getElem?_eq_getElem (by omega)]
      rfl
    · rw [List.getElem?_eq_none (by omega), List.getElem?_eq_none (by omega)]; rfl
  refine ⟨idx, ?_, by rw [hmap]; exact h2⟩
  apply valid_of_getD
  · simp [idx]
  · intro a ha
    rw [hidx a ha]
    have hm : a ∈ axes := h.mem_iff.2 (List.mem_range.2 ha)
    have hi := List.idxOf_lt_length_of_mem hm
    have := valid_getD h1 (axes.idxOf a) (by simpa using hi)
    simp only [List.getD, List.getElem?_map, List.getElem?_eq_getElem hi, List.getElem_idxOf, Option.map_some, Option.getD_some] at this ⊢
    exact this

theorem transpose_unique {T : Type} {sh axes : List Nat} (h : axes.Perm (List.range sh.length)) {d d1 d2 : List T} (hd : d.length = sh.prod)
    (h1 : IsTranspose sh axes d d1) (h2 : IsTranspose sh axes d d2) : d1 = d2 := by
  apply List.ext_getElem?
  intro p
  by_cases hp : p < sh.prod
  · obtain ⟨idx, hv, rfl⟩ := axes_surj h p hp
    rw [h1.2 idx hv, h2.2 idx hv]
  · rw [List.getElem?_eq_none (by have := h1.1; omega), List.getElem?_eq_none (by have := h2.1; omega)]

/-- Reading through the index vector transposes the data. -/
theorem read_transpose {T : Type} {sh axes : List Nat} (h : axes.Perm (List.range sh.length)) (hp : sh.prod ≠ 0) {d : List T} (hd : d.length = sh.prod)
    {cur : List Nat} (hc : entryIdx sh axes = some cur) : ∃ d', mapOpt (fun x => d[x]?) cur = some d' ∧ IsTranspose sh axes d d' := by
  obtain ⟨cur', h1, h2, h3⟩ := entryIdx_spec h hp
  rw [hc] at h1; cases h1
  have hlt : ∀ x ∈ cur, x < d.length := by
    intro x hx
    obtain ⟨p, hp', rfl⟩ := List.mem_iff_getElem.1 hx
    obtain ⟨idx, hv, e⟩ := axes_surj h p (by omega)
    have := h3 idx hv
    rw [e, List.getElem?_eq_getElem hp'] at this
    rw [Option.some.inj this, hd]
    exact ravel_lt hv
  obtain ⟨d', hd'⟩ := mapOpt_isSome (f := fun x => d[x]?) (l := cur) (by
    intro x hx
    rw [List.getElem?_eq_getElem (hlt x hx)]; rfl)
  refine ⟨d', hd', by rw [mapOpt_length hd', h2, hd], ?_⟩
  intro idx hv
  exact (mapOpt_getElem? hd' _ _ (h3 idx hv)).symm

/-! ### Histories -/

/-- The data denoted by the running index vector. -/
def idxData {T : Type} (s : List T) : Option (List Nat) → Option (List T)
  | none => some s
  | some l => mapOpt (fun x => s[x]?) l

theorem mapOpt_comp {T : Type} {s D : List T} {t r cur : List Nat} (h1 : mapOpt (fun x => s[x]?) t = some D) (h2 : mapOpt (fun x => t[x]?) cur = some r) :
    mapOpt (fun x => s[x]?) r = mapOpt (fun x => D[x]?) cur := by
  induction cur generalizing r with
  | nil => simp [mapOpt] at h2; subst h2; rfl
  | cons x cur ih =>
    obtain ⟨b, r', hb, hr, rfl⟩ := mapOpt_cons.1 h2
    simp only [mapOpt]
    rw [ih hr, mapOpt_getElem? h1 x b hb]

/-- The entries before the last one take the data `s` to `D`. -/
structure Closed {T : Type} (n : Nat) (es : List Entry) (s D : List T) (idx : Option (List Nat)) : Prop where
  loop : ∀ rest, permuteLoop (es ++ rest) none = permuteLoop rest idx
  data : idxData s idx = some D
  len : D.length = n

theorem Closed.nil {T : Type} (s : List T) : Closed s.length [] s s none := ⟨fun _ => rfl, rfl, rfl⟩

theorem Closed.push {T : Type} {n : Nat} {es : List Entry} {s D D' : List T} {idx : Option (List Nat)} (hc : Closed n es s D idx) {sh axes : List Nat}
    (h : axes.Perm (List.range sh.length)) (hp : sh.prod = n) (hn : n ≠ 0) (ht : IsTranspose sh axes D D') :
    ∃ idx', Closed n (es ++ [⟨sh, some axes⟩]) s D' idx' := by
  have hp0 : sh.prod ≠ 0 := by omega
  obtain ⟨cur, c1, c2, _⟩ := entryIdx_spec h hp0
  obtain ⟨d', e1, e2⟩ := read_transpose h hp0 (d := D) (by rw [hc.len, hp]) c1
  have hD : d' = D' := transpose_unique h (by rw [hc.len, hp]) e2 ht
  subst hD
  have hlen : d'.length = n := by rw [ht.1, hc.len]
  cases idx with
  | none =>
    have hs : s = D := by have := hc.data; simpa [idxData] using this
    subst hs
    refine ⟨some cur, ⟨?_, e1, hlen⟩⟩
    intro rest
    rw [List.append_assoc, hc.loop]
    simp [permuteLoop, c1]
  | some t =>
    have hd : mapOpt (fun x => s[x]?) t = some D := hc.data
    have htl : t.length = n := by rw [← hc.len, mapOpt_length hd]
    obtain ⟨r, hr⟩ := mapOpt_isSome (f := fun x => t[x]?) (l := cur) (by
      intro x hx
      obtain ⟨p, hp', rfl⟩ := List.mem_iff_getElem.1 hx
      have hg := mapOpt_getElem? e1 p _ (List.getElem?_eq_getElem hp')
      have hlt : p < d'.length := by rw [hlen]; omega
      rw [List.getElem?_eq_getElem hlt] at hg
      have : cur[p] < D.length := by
        by_contra hh
        rw [List.getElem?_eq_none (by omega)] at hg
        cases hg
      rw [List.getElem?_eq_getElem (by rw [htl, ← hc.len]; exact this)]
      rfl)
    refine ⟨some r, ⟨?_, by rw [idxData, mapOpt_comp hd hr, e1], hlen⟩⟩
    intro rest
    rw [List.append_assoc, hc.loop]
    simp only [List.singleton_append, permuteLoop, c1]
    rw [if_neg (by rw [htl, c2, hp]; simp), hr]

/-- The state of a history that denotes an array of shape `sh` with contents `data`. -/
def Denotes {T : Type} (h : History) (s : List T) (sh : List Nat) (data : List T) : Prop :=
  ∃ es e D idx, h.entries = es ++ [e] ∧ Closed h.vecLen es s D idx ∧ e.shape.prod = h.vecLen ∧ h.vecLen ≠ 0 ∧
    match e.axes with
    | none => sh = e.shape ∧ data = D
    | some axes => axes.Perm (List.range e.shape.length) ∧ (sh = axes.map fun a => e.shape.getD a 0) ∧ IsTranspose e.shape axes D data

theorem Denotes.prod {T : Type} {h : History} {s : List T} {sh : List Nat} {data : List T} (hd : Denotes h s sh data) : sh.prod = h.vecLen ∧ data.length = h.vecLen := by
  obtain ⟨es, ⟨esh, eax⟩, D, idx, _, h2, h3, _, h5⟩ := hd
  cases eax with
  | none => simp only at h5; obtain ⟨rfl, rfl⟩ := h5; exact ⟨h3, h2.len⟩
  | some axes =>
    simp only at h5
    obtain ⟨a, rfl, c⟩ := h5
    exact ⟨by rw [prod_axes a]; exact h3, by rw [c.1, h2.len]⟩

theorem denotes_new {T : Type} (s : List T) (sh : List Nat) (hs : s.length = sh.prod) (h0 : sh.prod ≠ 0) : Denotes (History.new sh) s sh s := by
  refine ⟨[], ⟨sh, none⟩, s, none, rfl, ?_, rfl, h0, rfl, rfl⟩
  have := Closed.nil s
  rw [hs] at this
  exact this

theorem denotes_reshape {T : Type} {h : History} {s : List T} {sh : List Nat} {data : List T} (hd : Denotes h s sh data) {sh' : List Nat}
    (hp : sh'.prod = sh.prod) : ∃ h', h.reshape sh' = some h' ∧ Denotes h' s sh' data := by
  have hpr := hd.prod
  obtain ⟨es, ⟨esh, eax⟩, D, idx, h1, h2, h3, h4, h5⟩ := hd
  unfold History.reshape
  rw [if_neg (by rw [hp, hpr.1]; simp), h1]
  simp only [List.getLast?_append, List.getLast?_singleton, Option.some_or]
  cases eax with
  | none =>
    simp only at h5 ⊢
    obtain ⟨rfl, rfl⟩ := h5
    exact ⟨_, rfl, es, ⟨sh', none⟩, data, idx, by simp, h2, by rw [hp, hpr.1], h4, rfl, rfl⟩
  | some axes =>
    simp only at h5 ⊢
    obtain ⟨a, b, c⟩ := h5
    obtain ⟨idx', hc⟩ := h2.push a h3 h4 c
    exact ⟨_, rfl, es ++ [⟨esh, some axes⟩], ⟨sh', none⟩, data, idx', rfl, hc, by rw [hp, hpr.1], h4, rfl, rfl⟩

theorem denotes_transpose {T : Type} {h : History} {s : List T} {sh : List Nat} {data data' : List T} (hd : Denotes h s sh data) {axes : List Nat}
    (ha : axes.Perm (List.range sh.length)) (ht : IsTranspose sh axes data data') :
    ∃ h', h.transpose axes = some h' ∧ Denotes h' s (axes.map fun a => sh.getD a 0) data' := by
  obtain ⟨es, ⟨esh, eax⟩, D, idx, h1, h2, h3, h4, h5⟩ := hd
  have hal : axes.length = sh.length := by rw [ha.length_eq, List.length_range]
  unfold History.transpose
  rw [h1]
  simp only [List.getLast?_append, List.getLast?_singleton, Option.some_or]
  cases eax with
  | none =>
    simp only at h5 ⊢
    obtain ⟨rfl, rfl⟩ := h5
    rw [if_neg (by rw [hal]; simp)]
    exact ⟨_, rfl, es, ⟨sh, some axes⟩, data, idx, by simp, h2, h3, h4, ha, rfl, ht⟩
  | some cur =>
    simp only at h5 ⊢
    obtain ⟨a, rfl, c⟩ := h5
    have hcl : cur.length = esh.length := by rw [a.length_eq, List.length_range]
    rw [if_neg (by rw [hal, List.length_map, hcl]; simp)]
    rw [List.length_map] at ha
    have halt : ∀ x ∈ axes, x < cur.length := fun x hx => List.mem_range.1 (ha.mem_iff.1 hx)
    have hn : mapOpt (fun a => cur[a]?) axes = some (axes.map fun a => cur.getD a 0) := by
      have : ∀ l : List Nat, (∀ x ∈ l, x < cur.length) → mapOpt (fun a => cur[a]?) l = some (l.map fun a => cur.getD a 0) := by
        intro l
        induction l with
        | nil => intro _; rfl
        | cons x l ih =>
          intro hl
          simp only [mapOpt, List.getElem?_eq_getElem (hl x (by simp)), ih (fun y hy => hl y (by simp [hy])), List.map_cons, List.getD, Option.getD_some]
      exact this axes halt
    rw [hn]
    have hperm : (axes.map fun a => cur.getD a 0).Perm (List.range esh.length) := by
      refine (ha.map _).trans ?_
      have : (List.range cur.length).map (fun a => cur.getD a 0) = cur := by
        apply List.ext_getElem?
        intro i
        rw [List.getElem?_map]
        by_cases hi : i < cur.length
        · rw [List.getElem?_range hi]; simp [List.getD, hi]
        · rw [List.getElem?_eq_none (by simpa using hi), List.getElem?_eq_none (by simpa using hi)]; rfl
      rw [this]
      exact a
    have hcomp : ∀ l : List Nat, ((axes.map fun a => cur.getD a 0).map fun a => l.getD a 0) = axes.map fun a => (cur.map fun a => l.getD a 0).getD a 0 := by
      intro l
      rw [List.map_map]
      apply List.map_congr_left
      intro x hx
      simp [List.getD, halt x hx]
    refine ⟨_, rfl, es, ⟨esh, some (axes.map fun a => cur.getD a 0)⟩, D, idx, by simp, h2, h3, h4, hperm, (hcomp esh).symm, ?_⟩
    refine ⟨by rw [ht.1, c.1], ?_⟩
    intro ix hv
    rw [hcomp, hcomp, ht.2 _ (valid_axes a hv), c.2 ix hv]

theorem denotes_shape {T : Type} {h : History} {s : List T} {sh : List Nat} {data : List T} (hd : Denotes h s sh data) : h.shape = some sh := by
  obtain ⟨es, ⟨esh, eax⟩, D, idx, h1, h2, h3, h4, h5⟩ := hd
  unfold History.shape
  rw [h1]
  simp only [List.getLast?_append, List.getLast?_singleton, Option.some_or]
  cases eax with
  | none => simp only at h5 ⊢; rw [h5.1]
  | some axes =>
    simp only at h5 ⊢
    obtain ⟨a, rfl, _⟩ := h5
    have : ∀ l : List Nat, (∀ x ∈ l, x < esh.length) → mapOpt (fun a => esh[a]?) l = some (l.map fun a => esh.getD a 0) := by
      intro l
      induction l with
      | nil => intro _; rfl
      | cons x l ih =>
        intro hl
        simp only [mapOpt, List.getElem?_eq_getElem (hl x (by simp)), ih (fun y hy => hl y (by simp [hy])), List.map_cons, List.getD, Option.getD_some]
    exact this axes (axes_lt a)

theorem denotes_permute {T : Type} {h : History} {s : List T} {sh : List Nat} {data : List T} (hd : Denotes h s sh data) : h.permuteVec s = some data := by
  obtain ⟨es, ⟨esh, eax⟩, D, idx, h1, h2, h3, h4, h5⟩ := hd
  unfold History.permuteVec
  rw [h1]
  cases eax with
  | none =>
    simp only at h5
    obtain ⟨_, rfl⟩ := h5
    rw [h2.loop]
    simp only [permuteLoop]
    have := h2.data
    cases idx with
    | none => exact this
    | some l => exact this
  | some axes =>
    simp only at h5
    obtain ⟨a, _, c⟩ := h5
    obtain ⟨idx', hc⟩ := h2.push a h3 h4 c
    have hl := hc.loop []
    rw [List.append_nil] at hl
    rw [hl]
    simp only [permuteLoop]
    have := hc.data
    cases idx' with
    | none => exact this
    | some l => exact this

theorem run_denotes {T : Type} {s : List T} : ∀ {ops : List ShapeOp} {h : History} {sh sh' : List Nat} {data data' : List T}, Denotes h s sh data →
    Means ops sh data sh' data' → ∃ h', h.run ops = some h' ∧ Denotes h' s sh' data' := by
  intro ops h sh sh' data data' hd hm
  induction hm generalizing h with
  | nil => exact ⟨h, rfl, hd⟩
  | reshape hp _ ih =>
    obtain ⟨h1, e1, d1⟩ := denotes_reshape hd hp
    obtain ⟨h2, e2, d2⟩ := ih d1
    exact ⟨h2, by simp only [History.run, e1, e2], d2⟩
  | transpose ha ht _ ih =>
    obtain ⟨h1, e1, d1⟩ := denotes_transpose hd ha ht
    obtain ⟨h2, e2, d2⟩ := ih d1
    exact ⟨h2, by simp only [History.run, e1, e2], d2⟩

/-- Operations that are legal for the shape they meet. -/
def OpsOk : List ShapeOp → List Nat → Prop
  | [], _ => True
  | .reshape sh' :: ops, sh => sh'.prod = sh.prod ∧ OpsOk ops sh'
  | .transpose axes :: ops, sh => axes.Perm (List.range sh.length) ∧ OpsOk ops (axes.map fun a => sh.getD a 0)

/-- The mathematical meaning exists for every legal sequence. -/
theorem means_total {T : Type} : ∀ (ops : List ShapeOp) (sh : List Nat) (data : List T), data.length = sh.prod → sh.prod ≠ 0 → OpsOk ops sh →
    ∃ sh' data', Means ops sh data sh' data' := by
  intro ops
  induction ops with
  | nil => intro sh data _ _ _; exact ⟨sh, data, .nil⟩
  | cons o ops ih =>
    intro sh data hl h0 ho
    cases o with
    | reshape sh1 =>
      obtain ⟨a, b⟩ := ho
      obtain ⟨sh', data', hm⟩ := ih sh1 data (by rw [hl, a]) (by rw [a]; exact h0) b
      exact ⟨sh', data', .reshape a hm⟩
    | transpose axes =>
      obtain ⟨a, b⟩ := ho
      obtain ⟨cur, c1, _, _⟩ := entryIdx_spec a h0
      obtain ⟨d', _, e2⟩ := read_transpose a h0 hl c1
      obtain ⟨sh', data', hm⟩ := ih _ d' (by rw [e2.1, hl, prod_axes a]) (by rw [prod_axes a]; exact h0) b
      exact ⟨sh', data', .transpose a e2 hm⟩

end Verif.Zkcuda
