import Verif.Layering.SplitTerms
import Verif.Layering.SplitPool
import Mathlib.Algebra.BigOperators.Group.List.Basic

/-!
# Combined constraints (for `ir_split.rs`)
-/

set_option linter.unusedSectionVars false
set_option linter.unusedSimpArgs false

namespace Verif.Layering.Split

open Verif.IR (Expr Env Term VarSpec)
open Verif.Layering

variable {F : Type} [Field F] [DecidableEq F]

/-- Values of a combination. -/
def Val (W : Nat → F) (l r : List Nat) (y : F) : Prop := ∃ ρ : Nat → F, y = (l.map W).sum + (r.map fun x => W x * ρ x).sum

theorem Val.sem (E : Env F) {W : Nat → F} {l r : List Nat} {y : F} (h : Val W l r y) : Expr.Sem E (fun x => some (W x)) (Expr.fromTerms (mk l r)) y := by
  obtain ⟨ρ, rfl⟩ := h; exact sem_mk E W ρ l r

theorem val_sum (W : Nat → F) (l r : List Nat) : Val W l r (l.map W).sum := ⟨fun _ => 0, by simp⟩

theorem val_any {W : Nat → F} {l r : List Nat} {v : Nat} (hv : v ∈ r) (hW : W v ≠ 0) (hc : ∀ k, 0 < k → k ≤ r.length → (k : F) ≠ 0) (y : F) : Val W l r y := by
  have hk : (r.count v : F) ≠ 0 := hc _ (List.count_pos_iff.2 hv) List.count_le_length
  refine ⟨fun x => if x = v then (y - (l.map W).sum) * ((r.count v : F) * W v)⁻¹ else 0, ?_⟩
  rw [sum_ite]
  field_simp; ring

theorem Val.add {W : Nat → F} {l r : List Nat} {y : F} (h : Val W l r y) (x : Nat) : Val W (l ++ [x]) r (W x + y) := by
  obtain ⟨ρ, rfl⟩ := h
  exact ⟨ρ, by simp; ring⟩

theorem Val.congr {W W' : Nat → F} {l r : List Nat} {y : F} (h : Val W l r y) (hl : ∀ x ∈ l, W x = W' x) (hr : ∀ x ∈ r, W x = W' x) : Val W' l r y := by
  obtain ⟨ρ, rfl⟩ := h
  refine ⟨ρ, ?_⟩
  rw [map_congr_mem hl, map_congr_mem (f := fun x => W x * ρ x) (g := fun x => W' x * ρ x) (fun x hx => by simp only [hr x hx])]

/-- Exactly one value is nonzero. -/
def One (ys : List F) : Prop := ∃ a y b, ys = a ++ y :: b ∧ y ≠ 0 ∧ (∀ x ∈ a, x = 0) ∧ (∀ x ∈ b, x = 0)

theorem One.left {a b : List F} (h : One a) (hb : ∀ x ∈ b, x = 0) : One (a ++ b) := by
  obtain ⟨c, y, d, rfl, h1, h2, h3⟩ := h
  refine ⟨c, y, d ++ b, by simp, h1, h2, ?_⟩
  intro x hx
  rcases List.mem_append.1 hx with hx | hx
  · exact h3 x hx
  · exact hb x hx

theorem One.right {a b : List F} (h : One b) (ha : ∀ x ∈ a, x = 0) : One (a ++ b) := by
  obtain ⟨c, y, d, rfl, h1, h2, h3⟩ := h
  refine ⟨a ++ c, y, d, by simp, h1, ?_, h3⟩
  intro x hx
  rcases List.mem_append.1 hx with hx | hx
  · exact ha x hx
  · exact h2 x hx

/-- Variables on a layer. -/
def sel (lay : Nat → Nat) (l : List Nat) (i : Nat) : List Nat := l.filter fun x => lay x == i

theorem sel_mem {lay : Nat → Nat} {l : List Nat} {i x : Nat} : x ∈ sel lay l i ↔ x ∈ l ∧ lay x = i := by simp [sel]

theorem sum_zero_of {W : Nat → F} {l : List Nat} (h : ∀ x ∈ l, W x = 0) : (l.map W).sum = 0 := by
  apply List.sum_eq_zero
  intro y hy
  obtain ⟨x, hx, rfl⟩ := List.mem_map.1 hy
  exact h x hx

/-- If one value is nonzero, the sum on one layer is nonzero. -/
theorem sum_one {W : Nat → F} {scc : List Nat} (lay : Nat → Nat) (h : One (scc.map W)) : ∃ x ∈ scc, W x ≠ 0 ∧ ∀ i, ((sel lay scc i).map W).sum = if i = lay x then W x else 0 := by
  obtain ⟨a, y, b, e, h1, h2, h3⟩ := h
  obtain ⟨l1, l2, rfl, e1, e2⟩ := List.map_eq_append_iff.1 e
  obtain ⟨x, l3, rfl, rfl, e4⟩ := List.map_eq_cons_iff.1 e2
  refine ⟨x, by simp, h1, ?_⟩
  intro i
  have z1 : ((sel lay l1 i).map W).sum = 0 := sum_zero_of fun v hv => h2 _ (by rw [← e1]; exact List.mem_map.2 ⟨v, (sel_mem.1 hv).1, rfl⟩)
  have z2 : ((sel lay l3 i).map W).sum = 0 := sum_zero_of fun v hv => h3 _ (by rw [← e4]; exact List.mem_map.2 ⟨v, (sel_mem.1 hv).1, rfl⟩)
  have : sel lay (l1 ++ x :: l3) i = sel lay l1 i ++ ((if lay x = i then [x] else []) ++ sel lay l3 i) := by
    simp only [sel, List.filter_append, List.filter_cons]
    by_cases hx : lay x = i
    · simp [hx]
    · simp [hx]
  rw [this, List.map_append, List.map_append, List.sum_append, List.sum_append, z1, z2]
  by_cases hx : lay x = i
  · simp [hx]
  · simp [hx, Ne.symm hx]

/-- Values for the layers when nothing fails. -/
theorem vals_zero {W : Nat → F} {scc cons : List Nat} (lay : Nat → Nat) (h : ∀ x ∈ scc, W x = 0) (i : Nat) : Val W (sel lay scc i) (sel lay cons i) 0 := by
  have := val_sum W (sel lay scc i) (sel lay cons i)
  rwa [sum_zero_of fun v hv => h v (sel_mem.1 hv).1] at this

/-- Values for the layers when something fails. -/
theorem vals_one {W : Nat → F} {scc cons : List Nat} (lay : Nat → Nat) (hc : ∀ k, 0 < k → k ≤ cons.length → (k : F) ≠ 0)
    (h : One (scc.map W) ∨ ((∀ x ∈ scc, W x = 0) ∧ ∃ v ∈ cons, W v ≠ 0)) :
    ∃ x ∈ scc ++ cons, ∃ c : F, c ≠ 0 ∧ ∀ i, Val W (sel lay scc i) (sel lay cons i) (if i = lay x then c else 0) := by
  rcases h with h | ⟨h, v, hv, hW⟩
  · obtain ⟨x, hx, hWx, hs⟩ := sum_one lay h
    refine ⟨x, by simp [hx], W x, hWx, fun i => ?_⟩
    rw [← hs i]; exact val_sum W _ _
  · refine ⟨v, by simp [hv], 1, one_ne_zero, fun i => ?_⟩
    by_cases hi : i = lay v
    · rw [if_pos hi]
      exact val_any (sel_mem.2 ⟨hv, hi.symm⟩) hW (fun k h1 h2 => hc k h1 (h2.trans (List.length_filter_le _ _))) 1
    · rw [if_neg hi]; exact vals_zero lay h i

/-- Instructions of combinations. -/
def ccInsns (en : List (Nat × List (Term F))) : List (Verif.IR.Dest.Insn F) := en.map (fun e => .internal (Expr.fromTerms e.2))

theorem endOf_ccInsns : ∀ (en : List (Nat × List (Term F))) (cur : Nat), endOf (ccInsns en) cur = cur + en.length
  | [], _ => rfl
  | e :: en, cur => by
    show endOf (ccInsns en) (cur + 1) = _
    rw [endOf_ccInsns en, List.length_cons]; omega

theorem ccTerms_eq (root : Bool) (scc cons : List Nat) (lay : Nat → Nat) (last : Option (Nat × List (Term F))) (i : Nat) :
    ccTerms root scc cons lay last i = mk (sel lay scc i ++ if root then (last.map (·.1)).toList else []) (sel lay cons i) := by
  cases root with
  | false => simp [ccTerms, mk, sel]
  | true => cases last <;> simp [ccTerms, mk, sel, List.append_assoc]

theorem mk_isEmpty (l r : List Nat) : (mk (F := F) l r).isEmpty = true ↔ l = [] ∧ r = [] := by
  simp [mk]

/-- What is known about the previous combination. -/
def LastOk (base nv : Nat) (last : Option (Nat × List (Term F))) : Prop :=
  ∀ y lt, last = some (y, lt) → base ≤ y ∧ y < nv ∧ ∃ l r, lt = mk l r ∧ ∀ x ∈ l ++ r, 1 ≤ x ∧ x < y

theorem ccReuse_cases {base nv : Nat} {last : Option (Nat × List (Term F))} (hl : LastOk base nv last) {l r : List Nat} (hlt : ∀ x ∈ l, x < base ∨ ∃ lt, last = some (x, lt)) :
    (ccReuse last (mk l r) = mk l r) ∨ ∃ y lt, last = some (y, lt) ∧ l = [y] ∧ r = [] ∧ ccReuse last (mk l r) = lt := by
  cases last with
  | none =>
    left
    unfold ccReuse
    split
    · rename_i h; cases h
    · rfl
  | some p =>
    obtain ⟨y, lt⟩ := p
    by_cases h : l = [y] ∧ r = []
    · obtain ⟨rfl, rfl⟩ := h
      right
      exact ⟨y, lt, rfl, rfl, rfl, by simp [ccReuse, mk]⟩
    · left
      unfold ccReuse
      split
      · rename_i c x y' lt' e1 e2
        cases e2
        split
        · rename_i hx
          exfalso; apply h
          cases l with
          | nil =>
            cases r with
            | nil => simp [mk] at e1
            | cons b r => simp [mk] at e1
          | cons a l =>
            cases l with
            | nil =>
              cases r with
              | nil => simp [mk] at e1; obtain ⟨rfl, rfl⟩ := e1; exact ⟨by rw [hx.2], rfl⟩
              | cons b r => simp [mk] at e1
            | cons b l => simp [mk] at e1
        · exact rfl
      · rfl

section
variable {root : Bool} {scc cons : List Nat} {lay : Nat → Nat} {base : Nat}

theorem lins_mem {last : Option (Nat × List (Term F))} {i x : Nat} (hs : ∀ x ∈ scc, 1 ≤ x ∧ x < base)
    (h : x ∈ sel lay scc i ++ if root then (last.map (·.1)).toList else []) : (1 ≤ x ∧ x < base) ∨ ∃ lt, last = some (x, lt) := by
  rcases List.mem_append.1 h with h | h
  · exact Or.inl (hs x (sel_mem.1 h).1)
  · cases root with
    | false => simp at h
    | true =>
      cases last with
      | none => simp at h
      | some p => simp at h; subst h; exact Or.inr ⟨p.2, rfl⟩

/-- The step of the loop. -/
theorem ccLoop_cons (i : Nat) (is : List Nat) (nv : Nat) (last : Option (Nat × List (Term F))) :
    ccLoop root scc cons lay (i :: is) nv last = (if (ccTerms root scc cons lay last i).isEmpty then ccLoop root scc cons lay is nv last
      else (i, ccReuse last (ccTerms root scc cons lay last i)) :: ccLoop root scc cons lay is (nv + 1) (some (nv, ccReuse last (ccTerms root scc cons lay last i)))) := rfl

theorem next_lastOk {nv : Nat} {last : Option (Nat × List (Term F))} (hb : base ≤ nv) (hb1 : 1 ≤ base) (hs : ∀ x ∈ scc, 1 ≤ x ∧ x < base) (hc : ∀ x ∈ cons, 1 ≤ x ∧ x < base) (hl : LastOk base nv last) (i : Nat) :
    ∃ l r, ccReuse last (ccTerms root scc cons lay last i) = mk l r ∧ (∀ x ∈ l ++ r, 1 ≤ x ∧ x < nv) := by
  rw [ccTerms_eq]
  have hlin : ∀ x ∈ sel lay scc i ++ (if root then (last.map (·.1)).toList else []), x < base ∨ ∃ lt, last = some (x, lt) :=
    fun x hx => (lins_mem hs hx).imp (·.2) id
  rcases ccReuse_cases hl (r := sel lay cons i) hlin with h | ⟨y, lt, h1, -, -, h4⟩
  · refine ⟨_, _, h, ?_⟩
    intro x hx
    rcases List.mem_append.1 hx with hx | hx
    · rcases lins_mem hs hx with h | ⟨lt, h⟩
      · omega
      · have := hl x lt h; omega
    · have := hc x (sel_mem.1 hx).1; omega
  · obtain ⟨g1, g2, l, r, g3, g4⟩ := hl y lt h1
    exact ⟨l, r, by rw [h4, g3], fun x hx => by have := g4 x hx; omega⟩

theorem cc_args (hb1 : 1 ≤ base) (hs : ∀ x ∈ scc, 1 ≤ x ∧ x < base) (hc : ∀ x ∈ cons, 1 ≤ x ∧ x < base) : ∀ (is : List Nat) (nv : Nat) (last : Option (Nat × List (Term F))), base ≤ nv → LastOk base nv last →
    ArgsOk (ccInsns (ccLoop root scc cons lay is nv last)) nv := by
  intro is
  induction is with
  | nil => intro nv last _ _; trivial
  | cons i is ih =>
    intro nv last hb hl
    rw [ccLoop_cons]
    split
    · exact ih nv last hb hl
    · obtain ⟨l, r, h1, h2⟩ := next_lastOk (root := root) (lay := lay) hb hb1 hs hc hl i
      rw [h1]
      refine ⟨?_, ih (nv + 1) _ (by omega) ?_⟩
      · intro v hv
        have := Expr.fromTerms_vars _ v hv
        rw [getVars_mk] at this
        exact h2 v this
      · intro y lt e
        cases e
        exact ⟨hb, by omega, l, r, rfl, h2⟩

/-! ### Circuits other than the root -/

/-- Layers with something to combine. -/
def ccLayers (scc cons : List Nat) (lay : Nat → Nat) (is : List Nat) : List Nat := is.filter fun i => !(mk (F := F) (sel lay scc i) (sel lay cons i)).isEmpty

theorem ccLoop_sub (hs : ∀ x ∈ scc, 1 ≤ x ∧ x < base) (hc : ∀ x ∈ cons, 1 ≤ x ∧ x < base) : ∀ (is : List Nat) (nv : Nat) (last : Option (Nat × List (Term F))), base ≤ nv → LastOk base nv last →
    ccLoop false scc cons lay is nv last = (ccLayers (F := F) scc cons lay is).map fun i => (i, mk (sel lay scc i) (sel lay cons i)) := by
  intro is
  induction is with
  | nil => intro nv last _ _; rfl
  | cons i is ih =>
    intro nv last hb hl
    have e : ccTerms false scc cons lay last i = mk (sel lay scc i) (sel lay cons i) := by rw [ccTerms_eq]; simp
    have e2 : ccReuse last (mk (F := F) (sel lay scc i) (sel lay cons i)) = mk (sel lay scc i) (sel lay cons i) := by
      rcases ccReuse_cases hl (l := sel lay scc i) (r := sel lay cons i) (fun x hx => Or.inl (hs x (sel_mem.1 hx).1).2) with h | ⟨y, lt, h1, h2, -⟩
      · exact h
      · have := hl y lt h1
        have := hs y (sel_mem.1 (show y ∈ sel lay scc i by rw [h2]; simp)).1
        omega
    rw [ccLoop_cons, e, e2]
    by_cases hemp : (mk (F := F) (sel lay scc i) (sel lay cons i)).isEmpty = true
    · rw [if_pos hemp, ih nv last hb hl, ccLayers, ccLayers, List.filter_cons, hemp]; rfl
    · have hcl : ccLayers (F := F) scc cons lay (i :: is) = i :: ccLayers (F := F) scc cons lay is := by
        rw [ccLayers, List.filter_cons, if_pos (by simpa using hemp)]; rfl
      rw [if_neg hemp, hcl, List.map_cons]
      rw [show ccLoop false scc cons lay is (nv + 1) (some (nv, mk (F := F) (sel lay scc i) (sel lay cons i))) = (ccLayers (F := F) scc cons lay is).map fun i => (i, mk (sel lay scc i) (sel lay cons i)) from ?_]
      · refine ih (nv + 1) _ (by omega) ?_
        intro y lt e
        cases e
        refine ⟨hb, by omega, _, _, rfl, ?_⟩
        intro x hx
        rcases List.mem_append.1 hx with hx | hx
        · have := hs x (sel_mem.1 hx).1; omega
        · have := hc x (sel_mem.1 hx).1; omega

theorem holds_cc {E : Env F} {S : Nat → List F → List F → Prop} {W : Nat → F} : ∀ {en : List (Nat × List (Term F))} {cur : Nat}, HoldsAll E S W (ccInsns en) cur ↔
    ∀ (k : Nat) (e : Nat × List (Term F)), en[k]? = some e → Expr.Sem E (fun x => some (W x)) (Expr.fromTerms e.2) (W (cur + k))
  | [], cur => by simp [ccInsns, HoldsAll]
  | e :: en, cur => by
    show Expr.Sem E _ (Expr.fromTerms e.2) (W cur) ∧ HoldsAll E S W (ccInsns en) (cur + 1) ↔ _
    rw [holds_cc]
    constructor
    · rintro ⟨h1, h2⟩ k e' hk
      cases k with
      | zero => simp at hk; subst hk; exact h1
      | succ k => rw [show cur + (k + 1) = cur + 1 + k by omega]; exact h2 k e' (by simpa using hk)
    · intro h
      refine ⟨h 0 e rfl, fun k e' hk => ?_⟩
      rw [show cur + 1 + k = cur + (k + 1) by omega]; exact h (k + 1) e' (by simpa using hk)

theorem sub_fwd {E : Env F} {S : Nat → List F → List F → Prop} {W : Nat → F} {f : Nat → F} (hs : ∀ x ∈ scc, 1 ≤ x ∧ x < base) (hc : ∀ x ∈ cons, 1 ≤ x ∧ x < base)
    (hv : ∀ i, Val W (sel lay scc i) (sel lay cons i) (f i)) (L : List Nat) :
    HoldsAll E S (put W base (L.map f)) (ccInsns (L.map fun i => (i, mk (sel lay scc i) (sel lay cons i)))) base := by
  rw [holds_cc]
  intro k e hk
  rw [List.getElem?_map] at hk
  obtain ⟨i, hi, rfl⟩ := Option.map_eq_some_iff.1 hk
  have hkl := (List.getElem?_eq_some_iff.1 hi).1
  have e1 : put W base (L.map f) (base + k) = f i := by
    rw [put, if_pos (by simp; omega), Nat.add_sub_cancel_left, List.getD_eq_getElem?_getD, List.getElem?_map, hi]; rfl
  rw [e1]
  refine ((hv i).congr ?_ ?_).sem E
  · intro x hx; exact (put_out (Or.inl (hs x (sel_mem.1 hx).1).2)).symm
  · intro x hx; exact (put_out (Or.inl (hc x (sel_mem.1 hx).1).2)).symm

theorem sub_bwd {E : Env F} {S : Nat → List F → List F → Prop} {W : Nat → F} (hs : ∀ x ∈ scc, W x = 0) (hc : ∀ x ∈ cons, W x = 0) {L : List Nat}
    (h : HoldsAll E S W (ccInsns (L.map fun i => (i, mk (sel lay scc i) (sel lay cons i)))) base) : ∀ k, k < L.length → W (base + k) = 0 := by
  intro k hk
  have := holds_cc.1 h k _ (by rw [List.getElem?_map, List.getElem?_eq_getElem hk]; rfl)
  exact sem_zero E (fun x hx => hs x (sel_mem.1 hx).1) (fun x hx => hc x (sel_mem.1 hx).1) this

theorem one_layers {L : List Nat} (hn : L.Nodup) {i0 : Nat} (hi : i0 ∈ L) {c : F} (hc : c ≠ 0) : One (L.map fun i => if i = i0 then c else 0) := by
  obtain ⟨a, b, rfl⟩ := List.append_of_mem hi
  have hnd := List.nodup_append.1 hn
  refine ⟨a.map fun i => if i = i0 then c else 0, c, b.map fun i => if i = i0 then c else 0, by simp, hc, ?_, ?_⟩
  · intro x hx
    obtain ⟨i, hi, rfl⟩ := List.mem_map.1 hx
    rw [if_neg (hnd.2.2 i hi i0 (by simp))]
  · intro x hx
    obtain ⟨i, hib, rfl⟩ := List.mem_map.1 hx
    rw [if_neg]
    rintro rfl
    exact (List.nodup_cons.1 hnd.2.1).1 hib

theorem mem_ccLayers {is : List Nat} {x : Nat} (h : x ∈ scc ++ cons) (hl : lay x ∈ is) : lay x ∈ ccLayers (F := F) scc cons lay is := by
  rw [ccLayers, List.mem_filter]
  refine ⟨hl, ?_⟩
  rw [Bool.not_eq_true', ← Bool.not_eq_true, mk_isEmpty]
  rintro ⟨h1, h2⟩
  rcases List.mem_append.1 h with h | h
  · have : x ∈ sel lay scc (lay x) := sel_mem.2 ⟨h, rfl⟩
    rw [h1] at this; cases this
  · have : x ∈ sel lay cons (lay x) := sel_mem.2 ⟨h, rfl⟩
    rw [h2] at this; cases this

/-! ### The root -/

/-- The value of the previous combination. -/
def lastVal (W : Nat → F) (last : Option (Nat × List (Term F))) : F :=
  match last with
  | some p => W p.1
  | none => 0

theorem root_fwd {E : Env F} {S : Nat → List F → List F → Prop} {f : Nat → F} (hb1 : 1 ≤ base) (hs : ∀ x ∈ scc, 1 ≤ x ∧ x < base) (hc : ∀ x ∈ cons, 1 ≤ x ∧ x < base) :
    ∀ (is : List Nat) (nv : Nat) (last : Option (Nat × List (Term F))) (W : Nat → F), base ≤ nv → LastOk base nv last →
    (∀ y lt, last = some (y, lt) → ∃ l r, lt = mk l r ∧ Val W l r (W y)) → (∀ i, Val W (sel lay scc i) (sel lay cons i) (f i)) →
    ∃ W', (∀ x, x < nv → W' x = W x) ∧ HoldsAll E S W' (ccInsns (ccLoop true scc cons lay is nv last)) nv ∧
      (∀ k, (ccLoop true scc cons lay is nv last).length = k + 1 → W' (nv + k) = lastVal W last + (is.map f).sum) := by
  intro is
  induction is with
  | nil => intro nv last W _ _ _ _; exact ⟨W, fun _ _ => rfl, trivial, by simp [ccLoop]⟩
  | cons i is ih =>
    intro nv last W hb hl hlv hf
    rw [ccLoop_cons]
    by_cases hemp : (ccTerms true scc cons lay last i).isEmpty = true
    · rw [if_pos hemp]
      have he : ccTerms true scc cons lay last i = _ := ccTerms_eq true scc cons lay last i
      rw [he, mk_isEmpty] at hemp
      have h0 : f i = 0 := by
        obtain ⟨ρ, e⟩ := hf i
        rw [(List.append_eq_nil_iff.1 hemp.1).1, hemp.2] at e
        simpa using e
      obtain ⟨W', w1, w2, w3⟩ := ih nv last W hb hl hlv hf
      refine ⟨W', w1, w2, fun k hk => ?_⟩
      rw [w3 k hk, List.map_cons, List.sum_cons, h0, zero_add]
    · rw [if_neg hemp]
      obtain ⟨l, r, h1, h2⟩ := next_lastOk (root := true) (lay := lay) hb hb1 hs hc hl i
      have hval : Val W l r (lastVal W last + f i) := by
        have he : ccTerms true scc cons lay last i = _ := ccTerms_eq true scc cons lay last i
        have hlin : ∀ x ∈ sel lay scc i ++ (if true = true then (last.map (·.1)).toList else []), x < base ∨ ∃ lt, last = some (x, lt) :=
          fun x hx => (lins_mem (root := true) hs hx).imp (·.2) id
        have inj : ∀ {l l' r r' : List Nat}, mk (F := F) l r = mk l' r' → l = l' ∧ r = r' := by
          intro l
          induction l with
          | nil =>
            intro l' r r' e
            cases l' with
            | nil =>
              refine ⟨rfl, ?_⟩
              have := congrArg Expr.getVars e
              rw [getVars_mk, getVars_mk] at this
              simpa using this
            | cons a l' => cases r <;> simp [mk] at e
          | cons a l ih =>
            intro l' r r' e
            cases l' with
            | nil => cases r' <;> simp [mk] at e
            | cons b l' =>
              simp only [mk, List.map_cons, List.cons_append, List.cons.injEq, Term.mk.injEq, VarSpec.linear.injEq, true_and] at e
              obtain ⟨rfl, e⟩ := e
              obtain ⟨rfl, rfl⟩ := ih e
              exact ⟨rfl, rfl⟩
        rw [he] at h1
        rcases ccReuse_cases hl (r := sel lay cons i) hlin with h | ⟨y, lt, g1, g2, g3, g4⟩
        · rw [h] at h1
          obtain ⟨rfl, rfl⟩ := inj h1
          cases last with
          | none => simpa [lastVal] using hf i
          | some p =>
            obtain ⟨y, lt⟩ := p
            have := (hf i).add y
            simpa [lastVal] using this
        · rw [g4] at h1
          obtain ⟨l', r', g5, g6⟩ := hlv y lt g1
          rw [h1] at g5
          obtain ⟨rfl, rfl⟩ := inj g5
          have h0 : f i = 0 := by
            have e1 : sel lay scc i = [] := by
              cases hsel : sel lay scc i with
              | nil => rfl
              | cons a t =>
                rw [hsel] at g2
                rw [g1] at g2
                simp at g2
            obtain ⟨ρ, e⟩ := hf i
            rw [e1, g3] at e
            simpa using e
          rw [h0, add_zero, g1]
          exact g6
      rw [h1]
      have hagree : ∀ x, x < nv → put W nv [lastVal W last + f i] x = W x := fun x hx => put_out (Or.inl hx)
      obtain ⟨W', w1, w2, w3⟩ := ih (nv + 1) (some (nv, mk l r)) (put W nv [lastVal W last + f i]) (by omega)
        (by intro y lt e; cases e; exact ⟨hb, by omega, l, r, rfl, h2⟩)
        (by
          intro y lt e; cases e
          refine ⟨l, r, rfl, ?_⟩
          rw [put_one]
          exact hval.congr (fun x hx => (hagree x (h2 x (by simp [hx])).2).symm) (fun x hx => (hagree x (h2 x (by simp [hx])).2).symm))
        (by
          intro i
          exact (hf i).congr (fun x hx => (hagree x (by have := hs x (sel_mem.1 hx).1; omega)).symm) (fun x hx => (hagree x (by have := hc x (sel_mem.1 hx).1; omega)).symm))
      have wn : W' nv = lastVal W last + f i := by rw [w1 nv (by omega), put_one]
      refine ⟨W', fun x hx => by rw [w1 x (by omega), hagree x hx], ⟨?_, w2⟩, ?_⟩
      · show Expr.Sem E _ (Expr.fromTerms (mk l r)) (W' nv)
        rw [wn]
        have hW : ∀ x ∈ l ++ r, W x = W' x := fun x hx => by rw [w1 x (by have := h2 x hx; omega), hagree x (h2 x hx).2]
        exact (hval.congr (fun x hx => hW x (by simp [hx])) (fun x hx => hW x (by simp [hx]))).sem E
      · intro k hk
        rw [List.map_cons, List.sum_cons, ← add_assoc]
        cases k with
        | zero =>
          simp only [List.length_cons, Nat.zero_add, Nat.add_eq_right] at hk
          have hnil : ∀ (is : List Nat) (nv : Nat) (p : Nat × List (Term F)), ccLoop true scc cons lay is nv (some p) = [] → is = [] := by
            intro is nv p e
            cases is with
            | nil => rfl
            | cons j is =>
              rw [ccLoop_cons] at e
              have : ¬ (ccTerms true scc cons lay (some p) j).isEmpty = true := by
                rw [ccTerms_eq, mk_isEmpty]; simp
              rw [if_neg this] at e
              cases e
          rw [hnil _ _ _ (List.length_eq_zero_iff.1 hk)]
          simp [wn]
        | succ k =>
          rw [show nv + (k + 1) = nv + 1 + k by omega, w3 k (by simpa using hk)]
          simp only [lastVal, put_one]

/-- At the root every combination is zero when all constraints hold. -/
theorem root_bwd {E : Env F} {S : Nat → List F → List F → Prop} {W : Nat → F} (hs0 : ∀ x ∈ scc, W x = 0) (hc0 : ∀ x ∈ cons, W x = 0) :
    ∀ (is : List Nat) (nv : Nat) (last : Option (Nat × List (Term F))), (∀ y lt, last = some (y, lt) → W y = 0 ∧ ∃ l r, lt = mk l r ∧ ∀ x ∈ l ++ r, W x = 0) →
    HoldsAll E S W (ccInsns (ccLoop true scc cons lay is nv last)) nv → ∀ k, k < (ccLoop true scc cons lay is nv last).length → W (nv + k) = 0 := by
  intro is
  induction is with
  | nil => intro nv last _ _ k hk; simp [ccLoop] at hk
  | cons i is ih =>
    intro nv last hl
    rw [ccLoop_cons]
    split
    · exact ih nv last hl
    · intro h k hk
      have hex : ∃ l r, ccReuse last (ccTerms true scc cons lay last i) = mk l r ∧ ∀ x ∈ l ++ r, W x = 0 := by
        rw [ccTerms_eq]
        have hz : ∀ x ∈ (sel lay scc i ++ if true = true then (last.map (·.1)).toList else []) ++ sel lay cons i, W x = 0 := by
          intro x hx
          rcases List.mem_append.1 hx with hx | hx
          · rcases List.mem_append.1 hx with hx | hx
            · exact hs0 x (sel_mem.1 hx).1
            · cases last with
              | none => simp at hx
              | some p => simp at hx; subst hx; exact (hl p.1 p.2 rfl).1
          · exact hc0 x (sel_mem.1 hx).1
        have hcase : ccReuse last (mk (F := F) (sel lay scc i ++ if true = true then (last.map (·.1)).toList else []) (sel lay cons i)) = mk (sel lay scc i ++ if true = true then (last.map (·.1)).toList else []) (sel lay cons i) ∨
            ∃ y lt, last = some (y, lt) ∧ ccReuse last (mk (F := F) (sel lay scc i ++ if true = true then (last.map (·.1)).toList else []) (sel lay cons i)) = lt := by
          generalize mk (F := F) (sel lay scc i ++ if true = true then (last.map (·.1)).toList else []) (sel lay cons i) = ts
          unfold ccReuse
          split
          · split
            · exact Or.inr ⟨_, _, rfl, rfl⟩
            · exact Or.inl rfl
          · exact Or.inl rfl
        rcases hcase with h | ⟨y, lt, h1, h2⟩
        · exact ⟨_, _, h, hz⟩
        · obtain ⟨-, l, r, g1, g2⟩ := hl y lt h1
          exact ⟨l, r, by rw [h2, g1], g2⟩
      obtain ⟨l, r, h1, h2⟩ := hex
      rw [h1] at h hk
      have hnv : W nv = 0 := sem_zero E (fun x hx => h2 x (by simp [hx])) (fun x hx => h2 x (by simp [hx])) h.1
      cases k with
      | zero => exact hnv
      | succ k =>
        rw [show nv + (k + 1) = nv + 1 + k by omega]
        exact ih (nv + 1) (some (nv, mk l r)) (by intro y lt e; cases e; exact ⟨hnv, l, r, rfl, h2⟩) h.2 k (by simpa using hk)

theorem root_nonempty {is : List Nat} {x : Nat} (h : x ∈ scc ++ cons) (hl : lay x ∈ is) : ∀ (nv : Nat) (last : Option (Nat × List (Term F))), ccLoop root scc cons lay is nv last ≠ [] := by
  induction is with
  | nil => cases hl
  | cons i is ih =>
    intro nv last
    rw [ccLoop_cons]
    split
    · rename_i hemp
      rcases List.mem_cons.1 hl with hi | hl
      · rw [ccTerms_eq, mk_isEmpty] at hemp
        exfalso
        rcases List.mem_append.1 h with h | h
        · have : x ∈ sel lay scc i := sel_mem.2 ⟨h, hi⟩
          rw [(List.append_eq_nil_iff.1 hemp.1).1] at this; cases this
        · have : x ∈ sel lay cons i := sel_mem.2 ⟨h, hi⟩
          rw [hemp.2] at this; cases this
      · exact ih hl nv last
    · simp

end

end Verif.Layering.Split
