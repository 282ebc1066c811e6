import Verif.Layering.ScheduleAux

/-!
# The parts of a context

Names for the intermediate values of `computeCtx`, and what its success tells about them.
-/

set_option linter.unusedSectionVars false
set_option linter.unusedSimpArgs false

namespace Verif.Layering

variable {F : Type}

/-- Output layers of the called circuits. -/
def pDep (subs : List (Ctx F)) (k : Nat) : Nat := ((subs[k]?).map (·.outL)).getD 0

/-- Combined constraints of the called circuits. -/
def pSubCC (subs : List (Ctx F)) (k : Nat) : List (Option CC) := ((subs[k]?).map (·.cc)).getD []

/-- `min_layer` (compile.rs:299-303). -/
def pM (p : Prog F) (subs : List (Ctx F)) : List Nat :=
  minPass p.edges (advOf p (pDep subs)) p.queue ((List.range (p.nv + p.calls.length)).map (minInit p))

/-- `sub_circuit_start_layer` (compile.rs:305-310). -/
def pStarts (p : Prog F) (subs : List (Ctx F)) : List Nat :=
  (List.range p.calls.length).map fun k => (pM p subs).getD (p.nv + k) 0 - advOf p (pDep subs) (p.nv + k)

/-- `cc` before merging (compile.rs:326-345). -/
def pRaw (p : Prog F) (subs : List (Ctx F)) : List (List Nat × List Nat) :=
  (List.range (maxOf (pM p subs) + 3)).map (rawCC p (pM p subs) (pStarts p subs) (pSubCC subs))

/-- `cc` after merging (compile.rs:348-364). -/
def pMerged (root : Bool) (p : Prog F) (subs : List (Ctx F)) : List (List Nat × List Nat) :=
  if root then rootMerge (p.nv + p.calls.length) (maxOf (pM p subs) + 1) (pRaw p subs) else pRaw p subs

/-- `cc` after numbering (compile.rs:365-386). -/
def pCC0 (root : Bool) (p : Prog F) (subs : List (Ctx F)) : List (Option CC) := number (p.nv + p.calls.length) (pMerged root p subs)

/-- `output_layer` from variables and calls (compile.rs:312-337). -/
def pOut0 (p : Prog F) (subs : List (Ctx F)) : Nat :=
  max (maxOf (((List.range p.nv).map fun x => if x = 0 then 0 else (pM p subs).getD x 0)))
    (maxOf ((List.range p.calls.length).map fun k => (pStarts p subs).getD k 0 + pDep subs k))

/-- `output_layer` after the combined constraints (compile.rs:370-372). -/
def pOut1 (root : Bool) (p : Prog F) (subs : List (Ctx F)) : Nat := bumpOut root 0 (pCC0 root p subs) (pOut0 p subs)

/-- `combined_constraints` (compile.rs:387-396). -/
def pCC1 (root : Bool) (p : Prog F) (subs : List (Ctx F)) : List (Option CC) := (popRev (pOut1 root p subs) (pCC0 root p subs).reverse).reverse

/-- `output_layer` before the last increase (compile.rs:390-420). -/
def pOut3 (root : Bool) (p : Prog F) (subs : List (Ctx F)) : Nat := max (if root then (pCC1 root p subs).length - 1 else pOut1 root p subs) 1

/-- `output_layer` (compile.rs:424-450). -/
def pOutL (root : Bool) (p : Prog F) (subs : List (Ctx F)) : Nat :=
  if outBump p (pM p subs) (pOut3 root p subs) (fun k => (pSubCC subs k).any Option.isSome) then pOut3 root p subs + 1 else pOut3 root p subs

/-- Final `combined_constraints` (compile.rs:452-454). -/
def pCC (root : Bool) (p : Prog F) (subs : List (Ctx F)) : List (Option CC) :=
  if (pCC1 root p subs).length = pOutL root p subs then pCC1 root p subs ++ [none] else pCC1 root p subs

/-- Layers where a variable is consumed. -/
def pUses (root : Bool) (p : Prog F) (subs : List (Ctx F)) (x : Nat) : List Nat :=
  uses p.edges (advOf p (pDep subs)) (pM p subs) (pCC1 root p subs) x

/-- `max_layer` (compile.rs:398-406, 456-459). -/
def pMaxL (root : Bool) (p : Prog F) (subs : List (Ctx F)) (x : Nat) : Nat :=
  if x ∈ p.outs then pOutL root p subs else (pUses root p subs x).foldl max ((pM p subs).getD x 0)

/-- Final `min_layer` (compile.rs:461-472). -/
def pMinL (root : Bool) (p : Prog F) (subs : List (Ctx F)) (x : Nat) : Nat :=
  match p.defn x with
    | some (.const _) => if pMaxL root p subs x = pOutL root p subs then (pM p subs).getD x 0 else constLayer (pOutL root p subs) (pMaxL root p subs x) (pUses root p subs x)
    | _ => (pM p subs).getD x 0

/-- What success of `computeCtx` tells. -/
structure Parts (cross root : Bool) (p : Prog F) (subs : List (Ctx F)) (c : Ctx F) : Prop where
  advLe : ∀ k < p.calls.length, advOf p (pDep subs) (p.nv + k) ≤ (pM p subs).getD (p.nv + k) 0
  ccRange : ∀ k < p.calls.length, ∀ j cc, (pSubCC subs k).getD j none = some cc → j + (pStarts p subs).getD k 0 + 1 < maxOf (pM p subs) + 3
  rootLen : root = true → pOut1 root p subs < (pCC1 root p subs).length
  prog : c.prog = p
  minL : c.minL = (List.range p.nv).map (pMinL root p subs)
  occ : mapOpt (fun x => layersOf cross x (pMinL root p subs x) (pMaxL root p subs x) (pOutL root p subs) (decide (x ∈ p.outs)) (pUses root p subs x)) (List.range p.nv) = some c.occ
  outL : c.outL = pOutL root p subs
  starts : c.starts = pStarts p subs
  cc : c.cc = pCC root p subs
  mu : c.mu = (List.range (c.outL + 1)).map (muAt c.starts ((List.range p.calls.length).map (pDep subs)) (fun k => ((subs[k]?).map (·.mu)).getD []) c.occ)
  vars : c.vars = (List.range (c.outL + 1)).map (varsAt p c.occ c.outL c.cc)
  endLe : ∀ k < p.calls.length, c.starts.getD k 0 + pDep subs k ≤ c.outL
  occLe : ∀ l ∈ c.occ, ∀ j ∈ l, j ≤ c.outL
  ccLen : c.outL < c.cc.length

theorem computeCtx_eq (cross root : Bool) (p : Prog F) (subs : List (Ctx F)) : computeCtx cross root p subs =
    if ¬ (p.edges.all (fun e => decide (e.1 < p.nv + p.calls.length) && decide (e.2 < p.nv + p.calls.length)) ∧ p.cons.all (fun x => decide (x < p.nv + p.calls.length)) ∧
      p.outs.all (fun x => decide (x < p.nv + p.calls.length))) then none
    else if ¬ ((List.range p.calls.length).all fun k => decide (advOf p (pDep subs) (p.nv + k) ≤ (pM p subs).getD (p.nv + k) 0)) then none
    else if ¬ ((List.range p.calls.length).all fun k => (List.range (pSubCC subs k).length).all fun j =>
      (!((pSubCC subs k).getD j none).isSome) || decide (j + (pStarts p subs).getD k 0 + 1 < maxOf (pM p subs) + 3)) then none
    else if root && decide ((pCC1 root p subs).length ≤ pOut1 root p subs) then none
    else if ¬ ((List.range p.calls.length).all fun k => (pUses root p subs (p.nv + k)).all fun l => decide (l ≤ (pM p subs).getD (p.nv + k) 0)) then none
    else
      match mapOpt (fun x => layersOf cross x (pMinL root p subs x) (pMaxL root p subs x) (pOutL root p subs) (decide (x ∈ p.outs)) (pUses root p subs x)) (List.range p.nv) with
      | none => none
      | some occ =>
        if ¬ (((List.range p.calls.length).all fun k => decide ((pStarts p subs).getD k 0 + pDep subs k ≤ pOutL root p subs)) ∧
            (occ.all fun l => l.all fun j => decide (j ≤ pOutL root p subs)) ∧ pOutL root p subs < (pCC root p subs).length) then none
        else
          some ⟨p, (List.range p.nv).map (pMinL root p subs), occ, pOutL root p subs, pStarts p subs, pCC root p subs,
            (List.range (pOutL root p subs + 1)).map (muAt (pStarts p subs) ((List.range p.calls.length).map (pDep subs)) (fun k => ((subs[k]?).map (·.mu)).getD []) occ),
            (List.range (pOutL root p subs + 1)).map (varsAt p occ (pOutL root p subs) (pCC root p subs))⟩ := rfl

theorem parts_of {cross root : Bool} {p : Prog F} {subs : List (Ctx F)} {c : Ctx F} (h : computeCtx cross root p subs = some c) : Parts cross root p subs c := by
  rw [computeCtx_eq] at h
  split at h
  · cases h
  split at h
  · cases h
  rename_i h2
  split at h
  · cases h
  rename_i h3
  split at h
  · cases h
  rename_i h4
  split at h
  · cases h
  split at h
  · cases h
  rename_i occ hocc
  split at h
  · cases h
  rename_i h6
  rw [Decidable.not_not] at h2 h3 h6
  obtain ⟨h6, h7, h8⟩ := h6
  cases h
  refine ⟨?_, ?_, ?_, rfl, rfl, hocc, rfl, rfl, rfl, rfl, rfl, ?_, ?_, h8⟩
  · intro k hk
    have := List.all_eq_true.1 h2 k (List.mem_range.2 hk)
    exact of_decide_eq_true this
  · intro k hk j cc hcc
    have h9 := List.all_eq_true.1 h3 k (List.mem_range.2 hk)
    have hj : j < (pSubCC subs k).length := by
      by_contra hn
      rw [List.getD_eq_getElem?_getD, List.getElem?_eq_none (by omega)] at hcc
      cases hcc
    have h10 := List.all_eq_true.1 h9 j (List.mem_range.2 hj)
    change (!((pSubCC subs k).getD j none).isSome || decide (j + (pStarts p subs).getD k 0 + 1 < maxOf (pM p subs) + 3)) = true at h10
    rw [hcc] at h10
    simpa using h10
  · intro hr
    subst hr
    have : ¬ ((pCC1 true p subs).length ≤ pOut1 true p subs) := by
      intro hh
      exact h4 (by simpa using hh)
    omega
  · intro k hk
    exact of_decide_eq_true (List.all_eq_true.1 h6 k (List.mem_range.2 hk))
  · intro l hl j hj
    exact of_decide_eq_true (List.all_eq_true.1 (List.all_eq_true.1 h7 l hl) j hj)

end Verif.Layering
