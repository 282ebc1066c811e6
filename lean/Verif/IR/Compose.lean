import Verif.IR.Total

/-!
# Compositional reasoning about `Run`, and induction along the call graph
-/

set_option linter.unusedSectionVars false

namespace Verif.IR

variable {F : Type} [Field F] {L : Lang F} {get : Nat → Option (Circuit L)}

theorem run_nil_iff {vs vs' : List F} {b : Bool} : Run get [] vs vs' b ↔ vs' = vs ∧ b = true := by
  constructor
  · intro h; cases h; exact ⟨rfl, rfl⟩
  · rintro ⟨rfl, rfl⟩; exact .nil _

theorem run_prim_iff {i : L.Insn} {is : List L.Insn} {vs vs' : List F} {b : Bool} (hc : L.asCall i = none) :
    Run get (i :: is) vs vs' b ↔ ∃ outs, L.prim i (fun v => vs[v]?) outs ∧ Run get is (vs ++ outs) vs' b := by
  constructor
  · intro h
    cases h with
    | prim _ hp hr => exact ⟨_, hp, hr⟩
    | call hc' => rw [hc] at hc'; cases hc'
  · rintro ⟨outs, hp, hr⟩; exact .prim hc hp hr

theorem run_call_iff {i : L.Insn} {is : List L.Insn} {vs vs' : List F} {b : Bool} {c : Nat} {a : List Nat} {n : Nat}
    (hc : L.asCall i = some (c, a, n)) :
    Run get (i :: is) vs vs' b ↔ ∃ circ args res sb b', get c = some circ ∧ readAll vs a = some args ∧
      EvalSub get circ args res sb ∧ Run get is (vs ++ res) vs' b' ∧ b = (sb && b') := by
  constructor
  · intro h
    cases h with
    | prim hc' => rw [hc] at hc'; cases hc'
    | call hc' hg ha hs hk ho hr =>
      rw [hc] at hc'; cases hc'
      exact ⟨_, _, _, _, _, hg, ha, ⟨_, _, _, hs, hk, ho, rfl⟩, hr, rfl⟩
  · rintro ⟨circ, args, res, sb, b', hg, ha, ⟨svs, s, cb, hs, hk, ho, rfl⟩, hr, rfl⟩
    exact .call hc hg ha hs hk ho hr

theorem run_append_iff {is js : List L.Insn} {vs vs' : List F} {b : Bool} :
    Run get (is ++ js) vs vs' b ↔ ∃ ws b1 b2, Run get is vs ws b1 ∧ Run get js ws vs' b2 ∧ b = (b1 && b2) := by
  induction is generalizing vs b with
  | nil =>
    simp only [List.nil_append]
    constructor
    · intro h; exact ⟨vs, true, b, .nil _, h, by simp⟩
    · rintro ⟨ws, b1, b2, h1, h2, rfl⟩
      obtain ⟨rfl, rfl⟩ := run_nil_iff.1 h1
      simpa using h2
  | cons i is ih =>
    rw [List.cons_append]
    cases hc : L.asCall i with
    | none =>
      rw [run_prim_iff hc]
      constructor
      · rintro ⟨outs, hp, hr⟩
        obtain ⟨ws, b1, b2, h1, h2, e⟩ := ih.1 hr
        exact ⟨ws, b1, b2, (run_prim_iff hc).2 ⟨outs, hp, h1⟩, h2, e⟩
      · rintro ⟨ws, b1, b2, h1, h2, e⟩
        obtain ⟨outs, hp, hr⟩ := (run_prim_iff hc).1 h1
        exact ⟨outs, hp, ih.2 ⟨ws, b1, b2, hr, h2, e⟩⟩
    | some t =>
      obtain ⟨c, a, n⟩ := t
      rw [run_call_iff hc]
      constructor
      · rintro ⟨circ, args, res, sb, b', hg, ha, hs, hr, rfl⟩
        obtain ⟨ws, b1, b2, h1, h2, rfl⟩ := ih.1 hr
        exact ⟨ws, sb && b1, b2, (run_call_iff hc).2 ⟨circ, args, res, sb, b1, hg, ha, hs, h1, rfl⟩, h2, by
          rw [Bool.and_assoc]⟩
      · rintro ⟨ws, b1, b2, h1, h2, rfl⟩
        obtain ⟨circ, args, res, sb, b', hg, ha, hs, hr, rfl⟩ := (run_call_iff hc).1 h1
        exact ⟨circ, args, res, sb, b' && b2, hg, ha, hs, ih.2 ⟨ws, b', b2, hr, h2, rfl⟩, by
          rw [Bool.and_assoc]⟩

/-- The value vector only grows. -/
theorem Run.prefix {is : List L.Insn} {vs vs' : List F} {b : Bool} (h : Run get is vs vs' b) : ∃ t, vs' = vs ++ t := by
  induction h with
  | nil vs => exact ⟨[], by simp⟩
  | prim _ _ _ ih => obtain ⟨t, rfl⟩ := ih; exact ⟨_, by rw [List.append_assoc]⟩
  | call _ _ _ _ _ _ _ _ ih => obtain ⟨t, rfl⟩ := ih; exact ⟨_, by rw [List.append_assoc]⟩

theorem EvalSub.length {circ : Circuit L} {ins outs : List F} {b : Bool} (h : EvalSub get circ ins outs b) :
    outs.length = circ.outputs.length := by
  obtain ⟨vs, sb, cb, _, _, ho, _⟩ := h
  exact readAll_length ho

/-- Induction along the call graph: to prove `P` for every circuit it suffices to prove it assuming it for the callees. -/
theorem call_induction {P : Nat → Circuit L → Prop} (hd : ∃ r : Nat → Nat, ∀ c d, Calls get c d → r d < r c)
    (step : ∀ c circ, get c = some circ → (∀ d sub, Calls get c d → get d = some sub → P d sub) → P c circ) :
    ∀ c circ, get c = some circ → P c circ := by
  obtain ⟨r, hr⟩ := hd
  have key : ∀ n c circ, r c < n → get c = some circ → P c circ := by
    intro n
    induction n with
    | zero => intro c circ h; omega
    | succ n ih =>
      intro c circ hlt hg
      refine step c circ hg (fun d sub hcd hs => ih d sub ?_ hs)
      have := hr c d hcd; omega
  intro c circ hg
  exact key _ c circ (Nat.lt_succ_self _) hg

theorem readAll_eq_some_iff {vs : List F} : ∀ {is : List Nat} {xs : List F}, readAll vs is = some xs ↔
    xs.length = is.length ∧ ∀ (j : Nat) (v : Nat), is[j]? = some v → (vs[v]?).isSome ∧ xs[j]? = vs[v]? := by
  intro is
  induction is with
  | nil =>
    intro xs
    simp only [readAll, Option.some.injEq, List.length_nil]
    constructor
    · rintro rfl; simp
    · rintro ⟨h, _⟩; exact (List.length_eq_zero_iff.1 h).symm
  | cons i is ih =>
    intro xs
    constructor
    · intro h
      simp only [readAll] at h
      split at h
      · rename_i x xs' h1 h2
        cases h
        obtain ⟨h3, h4⟩ := ih.1 h2
        refine ⟨by simp [h3], ?_⟩
        intro j v hj
        cases j with
        | zero => simp at hj; subst hj; simp [h1]
        | succ j => simpa using h4 j v (by simpa using hj)
      · cases h
    · rintro ⟨hl, h⟩
      cases xs with
      | nil => simp at hl
      | cons x xs =>
        obtain ⟨h1, h2⟩ := h 0 i (by simp)
        have h3 := ih.2 ⟨by simpa using hl, fun j v hj => by simpa using h (j + 1) v (by simpa using hj)⟩
        simp only [readAll, h3]
        simp at h2
        rw [← h2]

theorem readAll_map_congr {vs ws : List F} {f : Nat → Nat} : ∀ {is : List Nat}, (∀ v ∈ is, ws[f v]? = vs[v]?) →
    readAll ws (is.map f) = readAll vs is := by
  intro is
  induction is with
  | nil => intro _; rfl
  | cons i is ih =>
    intro h
    simp only [List.map_cons, readAll, h i (by simp), ih (fun v hv => h v (by simp [hv]))]

theorem checkCons_map_congr {vs ws : List F} {f : Nat → Nat} : ∀ {cs : List (Constraint L)}, (∀ c ∈ cs, ws[f c.var]? = vs[c.var]?) →
    checkCons ws (cs.map (fun k => k.replaceVar f)) = checkCons vs cs := by
  intro cs
  induction cs with
  | nil => intro _; rfl
  | cons c cs ih =>
    intro h
    simp only [List.map_cons, checkCons, Constraint.replaceVar, h c (by simp)]
    have := ih (fun v hv => h v (by simp [hv]))
    simp only [Constraint.replaceVar] at this
    rw [this]

end Verif.IR
