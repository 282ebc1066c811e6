import Verif.Layering.Sem

/-!
# Contents of layers: the contents of a usable layout hold the values of the trace
-/

set_option linter.unusedSectionVars false
set_option linter.unusedSimpArgs false

namespace Verif.Layering

open Verif.Layered (shiftOut addVec)

variable {F : Type} [Field F] [DecidableEq F]

/-- The list of the first `n` entries. -/
def vecOf (n : Nat) (f : Nat → F) : List F := (List.range n).map f

@[simp] theorem vecOf_length (n : Nat) (f : Nat → F) : (vecOf n f).length = n := by simp [vecOf]

theorem vecOf_getElem? (n : Nat) (f : Nat → F) (i : Nat) (h : i < n) : (vecOf n f)[i]? = some (f i) := by
  simp [vecOf, List.getElem?_range h]

theorem addVec_replicate (n : Nat) (f : Nat → F) : addVec (List.replicate n 0) f = vecOf n f := by
  apply List.ext_getElem?
  intro i
  rw [Layered.addVec_getElem?]
  by_cases h : i < n
  · rw [vecOf_getElem? _ _ _ h, List.getElem?_replicate, if_pos h]; simp
  · rw [List.getElem?_eq_none (by simpa using h), List.getElem?_eq_none (by simpa using h)]; rfl

theorem vecOf_slice (n off len : Nat) (f : Nat → F) (h : off + len ≤ n) : ((vecOf n f).drop off).take len = vecOf len fun j => f (off + j) := by
  apply List.ext_getElem?
  intro i
  rw [List.getElem?_take]
  by_cases hi : i < len
  · rw [if_pos hi, List.getElem?_drop, vecOf_getElem? _ _ _ (by omega), vecOf_getElem? _ _ _ hi]
  · rw [if_neg hi, List.getElem?_eq_none (by simpa using hi)]

theorem vecOf_congr {n : Nat} {f g : Nat → F} (h : ∀ i < n, f i = g i) : vecOf n f = vecOf n g := by
  apply List.map_congr_left; intro i hi; exact h i (List.mem_range.1 hi)

theorem sum_apply (l : List (Nat → F)) (p : Nat) : l.sum p = (l.map (· p)).sum := by
  induction l with
  | nil => rfl
  | cons f l ih => simp [ih]

theorem ownFill_out (vars : List Nat) (T : Trace F) (slots : List (Nat × Nat)) (p : Nat) (h : p ∉ slots.map (·.1)) : ownFill vars slots T p = 0 := by
  rw [ownFill, sum_apply, List.map_map]
  apply List.sum_eq_zero
  intro y hy
  obtain ⟨s, hs, rfl⟩ := List.mem_map.1 hy
  have : p ≠ s.1 := fun e => h (List.mem_map.2 ⟨s, hs, e.symm⟩)
  simp [single, this]

theorem ownFill_at (vars : List Nat) (T : Trace F) : ∀ (slots : List (Nat × Nat)), (slots.map (·.1)).Nodup → ∀ p idx, (p, idx) ∈ slots →
    ownFill vars slots T p = T [] (vars.getD idx 0) := by
  intro slots
  induction slots with
  | nil => intro _ p idx h; cases h
  | cons s slots ih =>
    intro hn p idx h
    rw [List.map_cons, List.nodup_cons] at hn
    have e : ownFill vars (s :: slots) T p = single s.1 (T [] (vars.getD s.2 0)) p + ownFill vars slots T p := by simp [ownFill]
    rw [e]
    rcases List.mem_cons.1 h with h | h
    · subst h
      rw [ownFill_out vars T slots p hn.1]; simp [single]
    · have : p ≠ s.1 := fun e => hn.1 (e ▸ List.mem_map.2 ⟨(p, idx), h, rfl⟩)
      rw [ih hn.2 p idx h]; simp [single, this]

theorem shiftOut_out {off len : Nat} {u : Nat → F} {p : Nat} (h : p < off ∨ off + len ≤ p) : shiftOut off len u p = 0 := by
  rw [shiftOut, if_neg (by omega)]

theorem shiftOut_in {off len : Nat} {u : Nat → F} {j : Nat} (h : j < len) : shiftOut off len u (off + j) = u j := by
  rw [shiftOut, if_pos (by omega)]; congr 1; omega

theorem subs_at {tab : Nat → Option (Ctx F)} {T : Trace F} : ∀ {l : List (Nat × Nat × Layout)},
    (l.Pairwise fun a b => a.2.1 + a.2.2.size ≤ b.2.1 ∨ b.2.1 + b.2.2.size ≤ a.2.1) → ∀ {k off S}, (k, off, S) ∈ l → ∀ j < S.size,
      (l.map fun s => shiftOut s.2.1 s.2.2.size (fill tab s.2.2 (T.sub s.1)) (off + j)).sum = fill tab S (T.sub k) j := by
  intro l
  induction l with
  | nil => intro _ k off S h; cases h
  | cons s l ih =>
    intro hp k off S h j hj
    rw [List.pairwise_cons] at hp
    rw [List.map_cons, List.sum_cons]
    rcases List.mem_cons.1 h with h | h
    · subst h
      rw [shiftOut_in hj]
      have : (l.map fun s => shiftOut s.2.1 s.2.2.size (fill tab s.2.2 (T.sub s.1)) (off + j)).sum = 0 := by
        apply List.sum_eq_zero
        intro y hy
        obtain ⟨s, hs, rfl⟩ := List.mem_map.1 hy
        have := hp.1 s hs
        exact shiftOut_out (by simp only at this; omega)
      rw [this, add_zero]
    · rw [ih hp.2 h j hj]
      have := hp.1 _ h
      rw [shiftOut_out (by simp only at this; omega), zero_add]

/-- The contents of a usable layout hold the values of the trace. -/
theorem agrees_fill {tab : Nat → Option (Ctx F)} {L : Layout} (h : LayoutOk tab L) : ∀ T : Trace F, Agrees tab L T (vecOf L.size (fill tab L T)) := by
  induction h with
  | @mk L c hc hp hs hn hk hsub hr hd hdd hm ih =>
    intro T
    refine .mk (by simp) ?_ hr ?_
    · intro p idx hmem
      rw [vecOf_getElem? _ _ _ (hs p idx hmem), fill_eq, Pi.add_apply, ownFill_at _ _ _ hn p idx hmem, sum_apply, List.map_map]
      have : (L.subs.map ((· p) ∘ fun s => shiftOut s.2.1 s.2.2.size (fill tab s.2.2 (T.sub s.1)))).sum = 0 := by
        apply List.sum_eq_zero
        intro y hy
        obtain ⟨⟨k, off, S⟩, hs', rfl⟩ := List.mem_map.1 hy
        exact shiftOut_out (hd k off S hs' p idx hmem)
      rw [this, add_zero]
    · intro k off S hmem
      have hle := hr k off S hmem
      rw [vecOf_slice _ _ _ _ hle]
      have : vecOf S.size (fun j => fill tab L T (off + j)) = vecOf S.size (fill tab S (T.sub k)) := by
        apply vecOf_congr
        intro j hj
        rw [fill_eq, Pi.add_apply, sum_apply, List.map_map, ownFill_out, zero_add]
        · exact subs_at hdd hmem j hj
        · intro hc'
          obtain ⟨⟨p, idx⟩, h1, h2⟩ := List.mem_map.1 hc'
          have := hd k off S hmem p idx h1
          simp only at h2
          omega
      rw [this]
      exact ih k off S hmem _

end Verif.Layering
