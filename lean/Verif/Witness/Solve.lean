import Verif.Witness.Pack
import Verif.IR.HintExportRoot

/-!
# `solve_witness` / `solve_witnesses` (circuit/ir/hint_normalized/witness_solver.rs): the witnesses they return
-/

set_option linter.unusedSectionVars false
set_option linter.unusedSimpArgs false

namespace Verif.Witness

open Verif.IR Verif.IR.HintExport

variable {F : Type} [Field F] [DecidableEq F] {E : Env F}

/-- `solve_witness_from_raw_inputs` (witness_solver.rs:30-44). -/
def solveWitness (P : Nat) (cn : Canon F) (hc : Nat → List F → Nat → Option (List F)) (fuel : Nat) (rc : RootCircuit (hintNorm E))
    (vars pub : List F) : Option (Witness P F) :=
  (solveInner cn hc fuel rc vars pub).map (fun r => ⟨1, r.2, rc.numPublicInputs, .scalar r.1⟩)

/-- `solve_witnesses_from_raw_inputs` (witness_solver.rs:46-109); `num_inputs_per_witness` is set by every block. -/
def solveWitnesses (P : Nat) (cn : Canon F) (hc : Nat → List F → Nat → Option (List F)) (fuel : Nat) (rc : RootCircuit (hintNorm E))
    (asg : List (List F × List F)) : Option (Witness P F) :=
  (solveMany P cn hc fuel rc asg).map (fun bs =>
    ⟨asg.length, (bs.getLast?.map (fun b => b.1.length)).getD 0, rc.numPublicInputs, .simd (flat bs)⟩)

theorem lane_packRows {P : Nat} (rows : List (List F)) (width : Nat) (l : Fin P) (r : List F)
    (hr : rows[min l.val (rows.length - 1)]? = some r) (hw : r.length = width) : lane l (packRows P rows width) = r := by
  apply List.ext_getElem?
  intro k
  simp only [lane, packRows, List.map_map, List.getElem?_map, Function.comp_def]
  by_cases hk : k < width
  · rw [List.getElem?_range hk]
    simp only [Option.map_some, hr, Option.getD_some]
    rw [List.getElem?_eq_getElem (by omega)]; rfl
  · have e1 : (List.range width)[k]? = none := by simp; omega
    have e2 : r[k]? = none := by simp; omega
    rw [e1, e2]; rfl

theorem blk_row {α : Type} {P : Nat} (hP : 0 < P) (asg : List α) (j : Nat) (hj : j * P < asg.length) (l : Fin P) :
    ((asg.drop (j * P)).take P)[min l.val (((asg.drop (j * P)).take P).length - 1)]? = asg[min (j * P + l.val) (asg.length - 1)]? := by
  have := l.isLt
  rw [List.getElem?_take, List.getElem?_drop]
  simp only [List.length_take, List.length_drop]
  rw [if_pos (by omega)]
  congr 1; omega

/-- What a block contains. -/
structure BlockOk {P : Nat} (cn : Canon F) (hc : Nat → List F → Nat → Option (List F)) (fuel : Nat)
    (rc : RootCircuit (hintNorm E)) (root : Circuit (hintNorm E)) (asg : List (List F × List F)) (j : Nat)
    (blk : List (Simd P F) × List (Simd P F)) : Prop where
  lens : ∀ p ∈ (asg.drop (j * P)).take P, p.1.length = root.numInputs ∧ p.2.length = rc.numPublicInputs
  pubs : blk.2 = packRows P (((asg.drop (j * P)).take P).map (·.2)) rc.numPublicInputs
  eval : evalSafe (simdOps P cn hc blk.2) fuel rc (packRows P (((asg.drop (j * P)).take P).map (·.1)) root.numInputs) = some blk.1

theorem solveBlocks_spec {P : Nat} {cn : Canon F} {hc : Nat → List F → Nat → Option (List F)} {fuel : Nat}
    {rc : RootCircuit (hintNorm E)} {root : Circuit (hintNorm E)} {asg : List (List F × List F)} : ∀ n,
    (∀ bs, solveBlocks P cn hc fuel rc root asg n = some bs →
      bs.length = n ∧ ∀ (j : Nat) blk, bs[j]? = some blk → BlockOk cn hc fuel rc root asg j blk) ∧
    (solveBlocks P cn hc fuel rc root asg n = none → ∃ j, j < n ∧
      (¬ (∀ p ∈ (asg.drop (j * P)).take P, p.1.length = root.numInputs ∧ p.2.length = rc.numPublicInputs) ∨
        (∀ p ∈ (asg.drop (j * P)).take P, p.1.length = root.numInputs ∧ p.2.length = rc.numPublicInputs) ∧
        evalSafe (simdOps P cn hc (packRows P (((asg.drop (j * P)).take P).map (·.2)) rc.numPublicInputs)) fuel rc
          (packRows P (((asg.drop (j * P)).take P).map (·.1)) root.numInputs) = none)) := by
  intro n
  induction n with
  | zero =>
    refine ⟨fun bs h => ?_, fun h => by cases h⟩
    simp only [solveBlocks] at h
    cases h
    exact ⟨rfl, fun j blk h => by simp at h⟩
  | succ n ih =>
    obtain ⟨i1, i2⟩ := ih
    unfold solveBlocks
    cases hacc : solveBlocks P cn hc fuel rc root asg n with
    | none =>
      refine ⟨fun bs h => (by cases h), fun _ => ?_⟩
      obtain ⟨j, hj, h⟩ := i2 hacc
      exact ⟨j, by omega, h⟩
    | some acc =>
      obtain ⟨a1, a2⟩ := i1 acc hacc
      simp only
      by_cases hall : (((asg.drop (n * P)).take P).all (fun p => decide (p.1.length = root.numInputs ∧ p.2.length = rc.numPublicInputs))) = true
      · rw [if_pos hall]
        have hall' : ∀ p ∈ (asg.drop (n * P)).take P, p.1.length = root.numInputs ∧ p.2.length = rc.numPublicInputs := by
          simpa only [List.all_eq_true, decide_eq_true_eq] using hall
        cases hev : evalSafe (simdOps P cn hc (packRows P (((asg.drop (n * P)).take P).map (·.2)) rc.numPublicInputs)) fuel rc
          (packRows P (((asg.drop (n * P)).take P).map (·.1)) root.numInputs) with
        | none =>
          refine ⟨fun bs h => (by cases h), fun _ => ⟨n, by omega, Or.inr ⟨hall', hev⟩⟩⟩
        | some r =>
          refine ⟨fun bs h => ?_, fun h => by cases h⟩
          simp only [Option.some.injEq] at h
          subst h
          refine ⟨by simp [a1], ?_⟩
          intro j blk hb
          by_cases hj : j < acc.length
          · rw [List.getElem?_append_left hj] at hb
            exact a2 j blk hb
          · rw [List.getElem?_append_right (by omega)] at hb
            have hj0 : j - acc.length = 0 := by
              have := lt_of_getElem? hb; simp at this; omega
            rw [hj0] at hb
            simp only [List.getElem?_cons_zero, Option.some.injEq] at hb
            subst hb
            have : j = n := by omega
            subst this
            exact ⟨hall', rfl, hev⟩
      · rw [if_neg hall]
        refine ⟨fun bs h => (by cases h), fun _ => ⟨n, by omega, Or.inl ?_⟩⟩
        intro hcon
        apply hall
        simpa only [List.all_eq_true, decide_eq_true_eq] using hcon

theorem evalSafe_length {V : Type} [CommRing V] {O : Ops F V} {fuel : Nat} {rc : RootCircuit (hintNorm E)} {ins r : List V}
    {root : Circuit (hintNorm E)} (hg : rc.get 0 = some root) (h : evalSafe O fuel rc ins = some r) : r.length = root.outputs.length := by
  unfold evalSafe at h
  rw [hg] at h
  simp only at h
  split at h
  · split at h
    · cases h
    · exact mapOpt_length h
  · cases h

theorem solveInner_eq {cn : Canon F} {hc : Nat → List F → Nat → Option (List F)} {fuel : Nat}
    {rc : RootCircuit (hintNorm E)} {root : Circuit (hintNorm E)} (hg : rc.get 0 = some root) {vars pub : List F}
    (h1 : vars.length = root.numInputs) (h2 : pub.length = rc.numPublicInputs) :
    solveInner cn hc fuel rc vars pub = (evalSafe (scalarOps cn hc pub) fuel rc vars).map (fun a => (a ++ pub, a.length)) := by
  unfold solveInner
  rw [hg]
  simp only
  rw [if_pos ⟨h1, h2⟩]
  cases evalSafe (scalarOps cn hc pub) fuel rc vars <;> rfl

/-- Solving many witnesses: the packed witness holds exactly the scalar solutions, in order. -/
theorem solveMany_some {P : Nat} (hP : 0 < P) {cn : Canon F} {hc : Nat → List F → Nat → Option (List F)} {fuel : Nat}
    {rc : RootCircuit (hintNorm E)} (hl : ∀ c circ, rc.get c = some circ → HintsLen cn hc circ.instructions)
    {asg : List (List F × List F)} {w : Witness P F} (h : solveWitnesses P cn hc fuel rc asg = some w) :
    ∃ rows blocks, IsSimd w rows blocks ∧ rows.length = asg.length ∧
      ∀ (i : Nat) p, asg[i]? = some p → ∃ r, rows[i]? = some (r, p.2) ∧ solveInner cn hc fuel rc p.1 p.2 = some (r ++ p.2, r.length) := by
  unfold solveWitnesses at h
  simp only [Option.map_eq_some_iff] at h
  obtain ⟨bs, hbs, rfl⟩ := h
  unfold solveMany at hbs
  cases hg : rc.get 0 with
  | none => rw [hg] at hbs; cases hbs
  | some root =>
    rw [hg] at hbs
    simp only at hbs
    obtain ⟨s1, _⟩ := solveBlocks_spec (P := P) (cn := cn) (hc := hc) (fuel := fuel) (rc := rc) (root := root) (asg := asg) ((asg.length + P - 1) / P)
    obtain ⟨b1, b2⟩ := s1 bs hbs
    -- lanes
    have hlane : ∀ (j : Nat) blk, bs[j]? = some blk → ∀ l : Fin P, ∃ p, asg[min (j * P + l.val) (asg.length - 1)]? = some p ∧
        p.1.length = root.numInputs ∧ p.2.length = rc.numPublicInputs ∧ lane l blk.2 = p.2 ∧
        evalSafe (scalarOps cn hc p.2) fuel rc p.1 = some (lane l blk.1) := by
      intro j blk hb l
      have hj : j * P < asg.length := by
        rw [← numBlocks_lt hP, ← b1]; exact lt_of_getElem? hb
      obtain ⟨p, hp⟩ : ∃ p, asg[min (j * P + l.val) (asg.length - 1)]? = some p := ⟨_, List.getElem?_eq_getElem (by omega)⟩
      have ok := b2 j blk hb
      have hrow := blk_row hP asg j hj l
      rw [hp] at hrow
      obtain ⟨l1, l2⟩ := ok.lens p (List.mem_of_getElem? hrow)
      have hL2 : lane l (packRows P (((asg.drop (j * P)).take P).map (·.2)) rc.numPublicInputs) = p.2 := by
        apply lane_packRows _ _ _ _ _ l2
        rw [List.length_map, List.getElem?_map, hrow]; rfl
      have hL1 : lane l (packRows P (((asg.drop (j * P)).take P).map (·.1)) root.numInputs) = p.1 := by
        apply lane_packRows _ _ _ _ _ l1
        rw [List.length_map, List.getElem?_map, hrow]; rfl
      refine ⟨p, hp, l1, l2, by rw [ok.pubs, hL2], ?_⟩
      have := (evalSafe_simd hP rc hl fuel _).1 _ ok.eval l
      rw [hL1] at this
      rw [ok.pubs, hL2] at this
      exact this
    -- every assignment is solved
    have hsolved : ∀ (i : Nat) p, asg[i]? = some p → p.1.length = root.numInputs ∧ p.2.length = rc.numPublicInputs ∧
        ∃ r, evalSafe (scalarOps cn hc p.2) fuel rc p.1 = some r := by
      intro i p hp
      have hi := lt_of_getElem? hp
      have hdm : i / P * P + i % P = i := by rw [Nat.mul_comm]; exact Nat.div_add_mod i P
      have hj : i / P < bs.length := by rw [b1, numBlocks_lt hP]; omega
      obtain ⟨q, hq, l1, l2, _, he⟩ := hlane (i / P) _ (List.getElem?_eq_getElem hj) ⟨i % P, Nat.mod_lt _ hP⟩
      simp only [hdm] at hq
      rw [Nat.min_eq_left (by omega), hp] at hq
      cases hq
      exact ⟨l1, l2, _, he⟩
    have hsolve : ∀ p ∈ asg, ((evalSafe (scalarOps cn hc p.2) fuel rc p.1).map (fun r => (r, p.2))).isSome := by
      intro p hp
      obtain ⟨i, hi, rfl⟩ := List.getElem_of_mem hp
      obtain ⟨_, _, r, hr⟩ := hsolved i _ (List.getElem?_eq_getElem hi)
      rw [hr]; rfl
    obtain ⟨rows, hrows⟩ := mapOpt_isSome hsolve
    have hrl := mapOpt_length hrows
    have hrg : ∀ (i : Nat) p, asg[i]? = some p → ∃ r, rows[i]? = some (r, p.2) ∧ evalSafe (scalarOps cn hc p.2) fuel rc p.1 = some r := by
      intro i p hp
      obtain ⟨l1, l2, r, hr⟩ := hsolved i p hp
      have := mapOpt_getElem? hrows i p hp
      rw [hr] at this
      exact ⟨r, this.symm, hr⟩
    refine ⟨rows, bs, ⟨hrl.symm, ?_, rfl, ?_, ?_⟩, hrl, ?_⟩
    · -- widths
      have hall : ∀ blk ∈ bs, blk.1.length = root.outputs.length ∧ blk.2.length = rc.numPublicInputs := by
        intro blk hm
        obtain ⟨j, hj, rfl⟩ := List.getElem_of_mem hm
        have ok := b2 j _ (List.getElem?_eq_getElem hj)
        refine ⟨evalSafe_length hg ok.eval, ?_⟩
        rw [ok.pubs]; simp [packRows]
      intro blk hm
      obtain ⟨w1, w2⟩ := hall blk hm
      refine ⟨?_, w2⟩
      have hne : bs ≠ [] := by rintro rfl; cases hm
      simp only [List.getLast?_eq_getLast_of_ne_nil hne, Option.map_some, Option.getD_some]
      rw [w1, (hall _ (List.getLast_mem hne)).1]
    · rw [b1, hrl]
    · intro j blk hb l
      obtain ⟨p, hp, _, _, h2, he⟩ := hlane j blk hb l
      rw [← hrl] at hp
      obtain ⟨r, hr, he'⟩ := hrg _ p hp
      rw [he] at he'
      cases he'
      rw [hr, h2]
    · intro i p hp
      obtain ⟨r, hr, he⟩ := hrg i p hp
      obtain ⟨l1, l2, _⟩ := hsolved i p hp
      refine ⟨r, hr, ?_⟩
      rw [solveInner_eq hg l1 l2, he]; rfl

/-- If solving many witnesses fails, solving one of them fails. -/
theorem solveMany_none {P : Nat} (hP : 0 < P) {cn : Canon F} {hc : Nat → List F → Nat → Option (List F)} {fuel : Nat}
    {rc : RootCircuit (hintNorm E)} (hl : ∀ c circ, rc.get c = some circ → HintsLen cn hc circ.instructions)
    {asg : List (List F × List F)} {root} (hg : rc.get 0 = some root) (h : solveWitnesses P cn hc fuel rc asg = none) :
    ∃ p ∈ asg, solveInner cn hc fuel rc p.1 p.2 = none := by
  unfold solveWitnesses at h
  simp only [Option.map_eq_none_iff] at h
  unfold solveMany at h
  rw [hg] at h
  simp only at h
  obtain ⟨_, s2⟩ := solveBlocks_spec (P := P) (cn := cn) (hc := hc) (fuel := fuel) (rc := rc) (root := root) (asg := asg) ((asg.length + P - 1) / P)
  obtain ⟨j, hj, hcase⟩ := s2 h
  rw [numBlocks_lt hP] at hj
  rcases hcase with hbad | ⟨hlens, hev⟩
  · push Not at hbad
    obtain ⟨p, hp, hb⟩ := hbad
    refine ⟨p, List.mem_of_mem_drop (List.mem_of_mem_take hp), ?_⟩
    unfold solveInner
    rw [hg]
    simp only
    rw [if_neg]
    rintro ⟨h1, h2⟩
    exact hb h1 h2
  · obtain ⟨l, hl'⟩ := (evalSafe_simd hP rc hl fuel _).2 hev
    have hrow := blk_row hP asg j hj l
    obtain ⟨p, hp⟩ : ∃ p, asg[min (j * P + l.val) (asg.length - 1)]? = some p := ⟨_, List.getElem?_eq_getElem (by omega)⟩
    rw [hp] at hrow
    obtain ⟨l1, l2⟩ := hlens p (List.mem_of_getElem? hrow)
    refine ⟨p, List.mem_of_getElem? hp, ?_⟩
    have hL2 : lane l (packRows P (((asg.drop (j * P)).take P).map (·.2)) rc.numPublicInputs) = p.2 := by
      apply lane_packRows _ _ _ _ _ l2
      rw [List.length_map, List.getElem?_map, hrow]; rfl
    have hL1 : lane l (packRows P (((asg.drop (j * P)).take P).map (·.1)) root.numInputs) = p.1 := by
      apply lane_packRows _ _ _ _ _ l1
      rw [List.length_map, List.getElem?_map, hrow]; rfl
    rw [hL1, hL2] at hl'
    rw [solveInner_eq hg l1 l2, hl']; rfl

/-! ### Validated circuits: hints get answers of the right length, and the scalar solver computes the exporting circuit -/

theorem implBuiltin_length {cn : Canon F} {i : Hints.Id} {ins outs : List F} {n : Nat} (hv : Hints.validateBuiltin i ins.length n = true)
    (h : Hints.implBuiltin cn i ins n = some outs) : outs.length = n := by
  have htb : ∀ x, Hints.toBinary cn x n = some outs → outs.length = n := by
    intro x hx
    simp only [Hints.toBinary] at hx
    have hb : ∀ n x, (Hints.bitsRest n x).1.length = n := by
      intro n
      induction n with
      | zero => intro x; rfl
      | succ n ih => intro x; simp [Hints.bitsRest, ih]
    split at hx <;> simp_all
    rw [← hx]; simp [hb]
  match i, ins with
  | .identity, ins =>
    simp [Hints.validateBuiltin] at hv
    simp only [Hints.implBuiltin, Option.some.injEq] at h
    subst h
    simp [hv.1]
  | .select, c :: t :: f :: _ =>
    simp [Hints.validateBuiltin] at hv
    simp only [Hints.implBuiltin, Option.some.injEq] at h
    subst h; simp [hv.2]
  | .toBinary, x :: _ => simp only [Hints.implBuiltin] at h; exact htb x h
  | .select, [] | .select, [_] | .select, [_, _] => simp [Hints.implBuiltin] at h
  | .toBinary, [] => simp [Hints.implBuiltin] at h
  | .div, x :: y :: _ | .eq, x :: y :: _ | .notEq, x :: y :: _ | .boolOr, x :: y :: _ | .boolAnd, x :: y :: _ | .bitOr, x :: y :: _
  | .bitAnd, x :: y :: _ | .bitXor, x :: y :: _ | .pow, x :: y :: _ | .intDiv, x :: y :: _ | .mod, x :: y :: _ | .shiftL, x :: y :: _
  | .shiftR, x :: y :: _ | .lesserEq, x :: y :: _ | .greaterEq, x :: y :: _ | .lesser, x :: y :: _ | .greater, x :: y :: _ =>
    simp [Hints.validateBuiltin] at hv
    simp only [Hints.implBuiltin, Option.some.injEq] at h
    subst h; simp [hv.2]
  | .div, [] | .eq, [] | .notEq, [] | .boolOr, [] | .boolAnd, [] | .bitOr, [] | .bitAnd, [] | .bitXor, [] | .pow, [] | .intDiv, []
  | .mod, [] | .shiftL, [] | .shiftR, [] | .lesserEq, [] | .greaterEq, [] | .lesser, [] | .greater, []
  | .div, [_] | .eq, [_] | .notEq, [_] | .boolOr, [_] | .boolAnd, [_] | .bitOr, [_] | .bitAnd, [_] | .bitXor, [_] | .pow, [_] | .intDiv, [_]
  | .mod, [_] | .shiftL, [_] | .shiftR, [_] | .lesserEq, [_] | .greaterEq, [_] | .lesser, [_] | .greater, [_] => simp [Hints.implBuiltin] at h

theorem hintLenOf_valid {cn : Canon F} {hc : Nat → List F → Nat → Option (List F)} (hH : HcLen hc) {npi : Nat} {i : HintNorm.Insn F}
    (hv : i.valid npi = true) : HintLenOf cn hc i := by
  intro id xs n hi ins outs hlen h
  subst hi
  simp only [HintNorm.Insn.valid, Bool.and_eq_true] at hv
  have hv := hv.1
  unfold safeImpl at h
  unfold Hints.validateHint at hv
  rw [← hlen] at hv
  cases hid : Hints.Id.fromNat id with
  | none => rw [hid] at h; exact hH _ _ _ _ h
  | some b => rw [hid] at h hv; exact implBuiltin_length hv h

theorem insnsOk_valid {npi : Nat} : ∀ {cur : Nat} {is : List (HintNorm.Insn F)}, InsnsOk (hintNorm E) (some npi) cur is →
    ∀ i ∈ is, i.valid npi = true := by
  intro cur is
  induction is generalizing cur with
  | nil => intro _ i hi; cases hi
  | cons j is ih =>
    intro h i hi
    simp only [InsnsOk, validAt] at h
    rcases List.mem_cons.1 hi with rfl | hi
    · simp_all
    · exact ih (by tauto) i hi

theorem hintsLen_wf {cn : Canon F} {hc : Nat → List F → Nat → Option (List F)} (hH : HcLen hc) {rc : RootCircuit (hintNorm E)} (hw : WF rc) :
    ∀ c circ, rc.get c = some circ → HintsLen cn hc circ.instructions := by
  intro c circ hg i hi
  exact hintLenOf_valid hH (insnsOk_valid (hw.wf.circ c circ hg).insns i hi)

/-- The environment in which the solver evaluates: the given public inputs, built-in hints and the hint caller. -/
def solveEnv (cn : Canon F) (custom : Nat → List F → F) (hc : Nat → List F → Nat → Option (List F)) (pub : List F) : Env F :=
  ⟨fun k => (pub[k]?).getD 0, custom, fun id ins n outs => safeImpl cn hc id ins n = some outs ∧ outs.length = n, cn⟩

theorem solveEnv_len (cn : Canon F) (custom) (hc) (pub : List F) : (solveEnv cn custom hc pub).HintLen := fun _ _ _ _ h => h.2

theorem solveEnv_solver (cn : Canon F) (custom) (hc) (pub : List F) : solverEnv (solveEnv cn custom hc pub) hc pub :=
  ⟨fun k x h => by simp [solveEnv, h], fun _ _ _ _ => Iff.rfl⟩

/-- What the solver returns is the outputs of the circuit, followed by the public inputs. -/
theorem solveInner_sound {cn : Canon F} {custom} {hc : Nat → List F → Nat → Option (List F)} (hH : HcLen hc) {fuel : Nat} {vars pub : List F}
    {rc : RootCircuit (hintNorm (solveEnv cn custom hc pub))} (hw : WF rc) (hz : rc.expectedNumOutputZeroes = 0) {vals : List F} {n : Nat}
    (h : solveInner cn hc fuel rc vars pub = some (vals, n)) :
    ∃ full be, Eval rc vars full be ∧ vals = full ++ pub ∧ n = full.length := by
  unfold solveInner at h
  split at h
  · cases h
  rename_i root hg
  split at h
  · rename_i hl
    split at h
    · cases h
    · rename_i a ha
      simp only [Option.some.injEq, Prod.mk.injEq] at h
      obtain ⟨rfl, rfl⟩ := h
      unfold evalSafe at ha
      rw [hg] at ha
      simp only [hl.1, if_true] at ha
      split at ha
      · cases ha
      · rename_i vs hvs
        rw [readV_readAll] at ha
        have hE := solveEnv_len cn custom hc pub
        obtain ⟨b, hb⟩ := runSafe_sound hE (solveEnv_solver cn custom hc pub) hw.wf (hintsLen_wf hH hw) _ _ _ _ (hw.wf.calls 0 root hg)
          (hintsLen_wf hH hw 0 root hg) hvs
        have hsv : vs.length = numVars root.numInputs root.instructions + 1 := by
          have := hb.length (hintNorm_lawful _ hE) (hw.wf.calls 0 root hg) (root.numInputs + 1) (by simp [hl.1])
          rw [this, numVars_add]
        obtain ⟨cb, hcb⟩ := checkCons_isSome (vs := vs) (cs := root.constraints)
          (fun k hk => by have := (hw.wf.circ 0 root hg).cons k hk; omega)
        refine ⟨a, _, ⟨root, a, _, hg, hl.1, ⟨vs, b, cb, hb, hcb, ha, rfl⟩, by omega, by simp [hz], rfl⟩, rfl, rfl⟩
  · cases h

/-- If all instructions are supported (no random coefficient, no custom gate, public inputs in range), the solver finds every result. -/
theorem solveInner_complete {cn : Canon F} {custom} {hc : Nat → List F → Nat → Option (List F)} {vars pub : List F}
    {rc : RootCircuit (hintNorm (solveEnv cn custom hc pub))} (hz : rc.expectedNumOutputZeroes = 0) (hp : pub.length = rc.numPublicInputs)
    (hs : ∀ c circ, rc.get c = some circ → ∀ i ∈ circ.instructions, SafeInsn pub.length i) {full : List F} {be : Bool}
    (h : Eval rc vars full be) : ∃ fuel, solveInner cn hc fuel rc vars pub = some (full ++ pub, full.length) := by
  obtain ⟨root, all, b, hg, hl, ⟨vs, sb, cb, hr, hk, ho, rfl⟩, hzl, rfl, rfl⟩ := h
  obtain ⟨fuel, hf⟩ := runSafe_complete (solveEnv_solver cn custom hc pub) hs hr (hs 0 root hg)
  refine ⟨fuel, ?_⟩
  rw [solveInner_eq hg hl hp]
  unfold evalSafe
  rw [hg]
  simp only [hl, if_true]
  have : runSafe (L := hintNorm (solveEnv cn custom hc pub)) id (scalarOps cn hc pub) rc.get fuel root.instructions (0 :: vars) = some vs := hf
  simp only [this, readV_readAll, ho, hz, List.drop_zero, Option.map_some]

end Verif.Witness
