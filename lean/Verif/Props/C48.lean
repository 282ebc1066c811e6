import Verif.Props.Examples
import Verif.Zkcuda.Reorder
import Verif.Props.C36

/-!
# C48 — Padding and reordering the inputs of a kernel circuit keeps its meaning

English: `reorder_ir_inputs` moves each input vector of a kernel circuit to a block of power-of-two length, aligned to its length; the
blocks do not overlap; and the new circuit, fed with a buffer that holds each vector at its padded positions (whatever the padding holds),
computes what the old circuit computes on the concatenated vectors.
-/

set_option linter.unusedSectionVars false

namespace Verif.Props

open Verif.IR Verif.IR.AddBack Zkcuda

variable {F : Type} [Field F] [DecidableEq F]

/-- The buffer holds each vector in its block: the element with multi-index `idx` of a vector of shape `sh` is at the position of `idx` in an
array whose sides are the next powers of two. -/
def HoldsPadded (shapes : List (List Nat)) (data : List (List F)) (blocks : List (Nat × Nat)) (buf : List F) : Prop :=
  ∀ (i : Nat) (sh : List Nat) (d : List F) (len off : Nat), shapes[i]? = some sh → data[i]? = some d → blocks[i]? = some (len, off) →
    ∀ idx, Valid sh idx → buf[off + ravel (sh.map Pow2.next) idx]? = d[ravel sh idx]?

/-- For every circuit without hints that validates and every list of shapes with nonzero sides whose sizes add up to its number of inputs:
the assertions inside hold; block `i` has the padded length of vector `i`, is aligned, lies inside the inputs of the new circuit, and blocks are disjoint;
and the results of the new circuit on any buffer holding the vectors are the results of the old one on the concatenated vectors. -/
theorem C48_reorder (E : Env F) (rc : RootCircuit (hintLess E)) (hk : rc.vertices.Nodup) (hv : rc.validate = true) (root) (hg : rc.get 0 = some root)
    (shapes : List (List Nat)) (h0 : ∀ sh ∈ shapes, ∀ n ∈ sh, n ≠ 0) (hsum : (shapes.map List.prod).sum = root.numInputs) :
    ∃ rc' blocks root', reorderInputs shapes rc = some (rc', blocks) ∧ rc'.get 0 = some root' ∧
      root'.numInputs = (shapes.map fun sh => (sh.map Pow2.next).prod).sum ∧ rc'.vertices = rc.vertices ∧ blocks.length = shapes.length ∧
      (∀ (i : Nat) (sh : List Nat), shapes[i]? = some sh → ∃ off, blocks[i]? = some ((sh.map Pow2.next).prod, off) ∧
        (sh.map Pow2.next).prod ∣ off ∧ off + (sh.map Pow2.next).prod ≤ root'.numInputs) ∧
      (∀ (i j : Nat) (n off m off' : Nat), i ≠ j → blocks[i]? = some (n, off) → blocks[j]? = some (m, off') → off + n ≤ off' ∨ off' + m ≤ off) ∧
      ∀ (data : List (List F)) (buf : List F), List.Forall₂ (fun sh d => d.length = List.prod sh) shapes data → buf.length = root'.numInputs →
        HoldsPadded shapes data blocks buf → ∀ outs b, Eval rc' buf outs b ↔ Eval rc data.flatten outs b := by
  have hL := hintLess_lawful E
  have hw := (validate_iff rc hk).1 hv
  obtain ⟨vm, lc, r1, r2, r3, r4, r5, r6, r7⟩ := reorderInputs_spec hL rc hw hg shapes h0 hsum
  have hroot : (renumRoot rc vm (shapes.map paddedLen).sum root).get 0 = some (renumCircuit vm (shapes.map paddedLen).sum root) := by rw [renumRoot_get hg]; rfl
  refine ⟨_, lc, _, r1, hroot, rfl, ?_, r2, r3, r4, ?_⟩
  · simp only [RootCircuit.vertices, renumRoot, List.map_map]
    apply List.map_congr_left
    intro p _
    simp only [Function.comp_apply]
    split
    · rename_i h; rw [h]
    · rfl
  · intro data buf hd hb hh outs b
    have hf := (flatten_prevOffset shapes data hd).1
    exact renumRoot_correct hL rc hw hg (by rw [hf, hsum]) hb (reorder_rel hsum r5 r6 r2 r7 hd hh) outs b

/-- If no circuit calls the root — which holds after unreachable circuits are removed — the new circuit validates. -/
theorem C48_valid (E : Env F) (rc : RootCircuit (hintLess E)) (hk : rc.vertices.Nodup) (hv : rc.validate = true) (root) (hg : rc.get 0 = some root)
    (hno : ∀ c, ¬ Calls rc.get c 0) (shapes : List (List Nat)) (h0 : ∀ sh ∈ shapes, ∀ n ∈ sh, n ≠ 0) (hsum : (shapes.map List.prod).sum = root.numInputs) (rc') (blocks)
    (h : reorderInputs shapes rc = some (rc', blocks)) : rc'.validate = true := by
  have hL := hintLess_lawful E
  have hw := (validate_iff rc hk).1 hv
  obtain ⟨_, _, _, q1, _, _, q4, _⟩ := C48_reorder E rc hk hv root hg shapes h0 hsum
  rw [h] at q1; cases q1
  obtain ⟨vm, lc, r1, r2, r3, r4, r5, r6, r7⟩ := reorderInputs_spec hL rc hw hg shapes h0 hsum
  rw [h] at r1; cases r1
  refine (validate_iff _ (by rw [q4]; exact hk)).2 ?_
  have hvm := reorder_vmOk hsum r5 (fun i sh hs => (r3 i sh hs).imp fun _ h => ⟨h.1, h.2.2⟩) r4 r7
  exact renum_wf hL hw hg hvm hno rfl (fun d => renumRoot_get hg vm _ d)

/-- The padded data, put into the blocks, is such a buffer. -/
theorem C48_padData (shapes : List (List Nat)) (h0 : ∀ sh ∈ shapes, ∀ n ∈ sh, n ≠ 0) (data : List (List F))
    (hd : List.Forall₂ (fun sh d => d.length = List.prod sh) shapes data) (blocks : List (Nat × Nat)) (buf : List F)
    (hb : ∀ (i : Nat) (sh : List Nat) (d : List F) (len off : Nat), shapes[i]? = some sh → data[i]? = some d → blocks[i]? = some (len, off) →
      ∃ out, padData sh d = some out ∧ (buf.drop off).take out.length = out) : HoldsPadded shapes data blocks buf := by
  intro i sh d len off hs hdi hbi idx hv
  obtain ⟨out, o1, o2⟩ := hb i sh d len off hs hdi hbi
  have hlen : d.length = sh.prod := by
    have hi := (List.getElem?_eq_some_iff.1 hs)
    have hi' := (List.getElem?_eq_some_iff.1 hdi)
    obtain ⟨a, ha⟩ := hi
    obtain ⟨a', ha'⟩ := hi'
    have := (List.forall₂_iff_get.1 hd).2 i a a'
    simp only [List.get_eq_getElem, ha, ha'] at this
    exact this
  have h0' := h0 sh (List.mem_of_getElem? hs)
  obtain ⟨out', p1, p2, p3⟩ := C36_padding sh h0' d hlen
  rw [o1] at p1; cases p1
  have hlt : ravel (sh.map Pow2.next) idx < out.length := by rw [p2]; exact ravel_lt (valid_padded hv)
  have h3 := p3 idx (valid_padded hv)
  have hc : List.zipWith (fun n i => min i (n - 1)) sh idx = idx := clamp_valid hv
  rw [hc] at h3
  rw [← h3]
  conv_rhs => rw [← o2]
  rw [List.getElem?_take, if_pos hlt, List.getElem?_drop]

/-- A circuit with a vector of shape `[3]` and one of shape `[2, 2]`: it constrains the product of the third element and the last one, and outputs their sum. -/
def kernRc : RootCircuit (hintLess Ex.env) :=
  ⟨0, 0, [(0, ⟨[.mul [3, 7], .linComb ⟨[(3, 1), (7, 1)], 2⟩], [⟨(), 8⟩], [9, 1], 7⟩)]⟩

example : kernRc.validate = true ∧ kernRc.vertices.Nodup := ⟨by decide +kernel, by decide⟩

/-- The blocks: both have length 4, the last vector comes first. -/
example : (reorderInputs [[3], [2, 2]] kernRc).map (·.2) = some [(4, 4), (4, 0)] ∧
    (reorderInputs [[3], [2, 2]] kernRc).map (fun r => r.1.circuits.map fun c => (c.2.instructions.map (hintLess Ex.env).inputs, c.2.outputs, c.2.numInputs)) =
      some [([[7, 4], [7, 4]], [10, 5], 8)] := ⟨by decide +kernel, by decide +kernel⟩

end Verif.Props
