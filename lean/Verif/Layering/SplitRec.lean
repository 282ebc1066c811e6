import Verif.Layering.SplitFlat

/-!
# Splitting circuits other than the root (for `ir_split.rs`)
-/

set_option linter.unusedSectionVars false
set_option linter.unusedSimpArgs false

namespace Verif.Layering.Split

open Verif.IR (Expr Coef Env dest Circuit RootCircuit WFGet CallsOk Calls CircOk InsnsOk numVars Run EvalSub readAll checkCons Constraint Term VarSpec)
open Verif.Layering

variable {F : Type} [Field F] [DecidableEq F] {random : Bool} {get : Nat → Option (Prog F)} {npi : Nat} {E : Env F} {SB : Nat → List F → List F → Bool → Prop}

/-- `SB` is what the original circuits do. -/
def OldSem (get : Nat → Option (Prog F)) (E : Env F) (SB : Nat → List F → List F → Bool → Prop) : Prop :=
  ∀ d p, get d = some p → ∀ ins ys b, ins.length = p.numInputs → (SB d ins ys b ↔ Old E SB p ins ys b)

theorem hasCons_of {d : Nat} {p : Prog F} (hg : get d = some p) (h : HasC get d) : HasCons get p := by
  cases h with
  | here h hc => rw [hg] at h; cases h; exact Or.inl hc
  | there h hm hc => rw [hg] at h; cases h; exact Or.inr ⟨_, _, _, hm, hc⟩

theorem take_drop_map {α β : Type} {l : List α} {f : α → β} {a b : List β} {m : Nat} (h : a ++ b = l.map f) (ha : a.length = m) : a = (l.take m).map f ∧ b = (l.drop m).map f := by
  subst ha
  rw [List.map_take, List.map_drop, ← h]
  simp

/-- Cutting a flattened circuit. -/
theorem spl_of_cut {id : Nat} {p : Prog F} (hg : get id = some p) (hold : OldSem get E SB) {fl : Flat F} {spl : Spl} {pool pool1 pool' : List (Prog F)}
    (hf : FlatOk random false get npi E SB p fl pool pool1) (hc : CutOk npi p.numInputs fl.insns (fl.outs ++ fl.adds) spl pool1 pool') :
    SplSpec random get npi E SB id p spl pool pool' := by
  have hlen : spl.outs.length = p.outs.length + fl.adds.length := by rw [hc.len, List.length_append, hf.lenOuts]
  obtain ⟨k, hk1, hk2⟩ := hc.total
  refine { pre := hf.pre.trans hc.pre, poolOk := hc.pool, total := ⟨k, hk1, hk2⟩, len := by omega, nonrandom := fun hr => by rw [hlen, hf.nonrandom hr]; rfl, nonempty := ?_, fwd0 := ?_, fwd1 := ?_, bwd := ?_ }
  · intro hr hh
    have := hf.nonempty hr (hasCons_of hg hh)
    have := List.length_pos_iff.2 this
    omega
  · intro S PF hPF hpo hs hu ins ys b hl h
    obtain ⟨W, w1, w2, rfl, w4⟩ := hf.fwd0 S PF (hc.pre.trans hPF) hpo hs ins ys b hl ((hold id p hg ins ys b hl).1 h)
    obtain ⟨V, v1, v2⟩ := (hc.sem E S PF hPF hpo hs hu ins _ hl).2 ⟨W, w1, w2, rfl⟩
    rw [List.map_append] at v2
    obtain ⟨e1, e2⟩ := take_drop_map v2 (m := p.outs.length) (by rw [List.length_map]; exact hf.lenOuts)
    refine ⟨V, v1, e1, ?_⟩
    intro r hr
    have : rv ins V r ∈ (spl.outs.drop p.outs.length).map (rv ins V) := List.mem_map.2 ⟨r, hr, rfl⟩
    rw [← e2] at this
    obtain ⟨x, hx, e⟩ := List.mem_map.1 this
    rw [← e]; exact w4 x hx
  · intro S PF hPF hpo hs hu ins ys hl h
    obtain ⟨W, w1, w2, rfl, w4⟩ := hf.fwd1 S PF (hc.pre.trans hPF) hpo hs ins ys hl ((hold id p hg ins ys false hl).1 h)
    obtain ⟨V, v1, v2⟩ := (hc.sem E S PF hPF hpo hs hu ins _ hl).2 ⟨W, w1, w2, rfl⟩
    rw [List.map_append] at v2
    obtain ⟨e1, e2⟩ := take_drop_map v2 (m := p.outs.length) (by rw [List.length_map]; exact hf.lenOuts)
    exact ⟨V, v1, e1, by rw [← e2]; exact w4⟩
  · intro S PF hPF hpo hs hu ins V hl h
    obtain ⟨W, w1, w2, w3⟩ := (hc.sem E S PF hPF hpo hs hu ins _ hl).1 ⟨V, h, rfl⟩
    rw [List.map_append] at w3
    obtain ⟨e1, e2⟩ := take_drop_map w3.symm (m := p.outs.length) (by rw [List.length_map]; exact hf.lenOuts)
    obtain ⟨b, b1, b2⟩ := hf.bwd S PF (hc.pre.trans hPF) hpo hs ins W hl w1 w2
    refine ⟨b, ?_, ?_⟩
    · rw [← e1]; exact (hold id p hg ins _ b hl).2 b1
    · intro hb r hr
      have : rv ins V r ∈ (spl.outs.drop p.outs.length).map (rv ins V) := List.mem_map.2 ⟨r, hr, rfl⟩
      rw [← e2] at this
      obtain ⟨x, hx, e⟩ := List.mem_map.1 this
      rw [← e]; exact b2 hb x hx

theorem split_spec (hall : ∀ d p, get d = some p → ProgIn random get npi p) (hold : OldSem get E SB) (fuel : Nat) : ∀ (f : Nat) (pre : List Nat), RecOk random get npi E SB (split random get fuel f pre) := by
  intro f
  induction f with
  | zero => intro pre d ils pool spl pool' p _ _ _ h; cases h
  | succ f ih =>
    intro pre d ils pool spl pool' p hg hil hp h
    simp only [split] at h
    split at h
    · cases h
    · rw [hg] at h
      cases hl : layersOf get fuel d ils with
      | none => rw [hl] at h; cases h
      | some r =>
        obtain ⟨o, cc⟩ := r
        rw [hl] at h
        dsimp only at h
        cases hfl : flatten random false (layersOf get fuel) (split random get fuel f (sortDedup (pre ++ (ils ++ (o ++ cc))))) p ils pool with
        | none => rw [hfl] at h; cases h
        | some r =>
          obtain ⟨fl, pool1⟩ := r
          rw [hfl] at h
          dsimp only at h
          have hf := flatten_spec (ih _) (hall d p hg) hil hp hfl
          exact spl_of_cut hg hold hf (cut_spec h (sortDedup_sorted _) hf.lay hf.valid hf.args hf.poolOk hf.calls)

end Verif.Layering.Split
