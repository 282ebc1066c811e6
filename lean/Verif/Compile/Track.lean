import Verif.Compile.Passes
import Verif.InputPlaced

/-!
# What the clean-up passes do to the text of a circuit

Facts that hold for every run of the passes, whether or not the circuit is well formed: the instructions of the result are renamed
instructions of the circuit with the same number, in the same order, possibly followed by copies of outputs.
-/

set_option linter.unusedSectionVars false
set_option linter.unusedSimpArgs false

namespace Verif.Compile

open Verif.IR

variable {F : Type} [Field F] [DecidableEq F] {L : Lang F}

/-- The second list consists of renamed instructions of the first one, in the same order, followed by copies. -/
inductive Derived (L : Lang F) : List L.Insn → List L.Insn → Prop
  | fresh {l : List L.Insn} (h : ∀ i ∈ l, ∃ x k b, i = L.fromKxPlusB x k b) : Derived L [] l
  | skip (i : L.Insn) {is js : List L.Insn} (h : Derived L is js) : Derived L (i :: is) js
  | prim (i : L.Insn) (f : Nat → Nat) {is js : List L.Insn} (hc : L.asCall i = none) (h : Derived L is js) :
      Derived L (i :: is) (L.replaceVars i f :: js)
  | call (i j : L.Insn) {d n n' : Nat} {a a' : List Nat} {is js : List L.Insn} (hi : L.asCall i = some (d, a, n)) (hj : L.asCall j = some (d, a', n'))
      (h : Derived L is js) : Derived L (i :: is) (j :: js)

/-- The same for circuits. -/
structure DerivedC (circ circ' : Circuit L) : Prop where
  insns : Derived L circ.instructions circ'.instructions
  cons : circ'.constraints.length = circ.constraints.length
  outs : circ'.outputs.length ≤ circ.outputs.length

/-- The same for families of circuits. -/
structure DerivedRc (rc rc' : RootCircuit L) : Prop where
  npi : rc'.numPublicInputs = rc.numPublicInputs
  expected : rc'.expectedNumOutputZeroes = rc.expectedNumOutputZeroes
  circ : ∀ d circ', rc'.get d = some circ' → ∃ circ, rc.get d = some circ ∧ DerivedC circ circ'

/-- The conditions of validation on the root circuit. -/
def RootOk (rc : RootCircuit L) : Prop := ∃ root, rc.get 0 = some root ∧ rc.expectedNumOutputZeroes ≤ root.outputs.length ∧
    (root.outputs = [] → ∃ d circ, Relation.ReflTransGen (Calls rc.get) 0 d ∧ rc.get d = some circ ∧ circ.constraints ≠ [])

theorem Derived.call_mem (hL : L.Lawful) {is js : List L.Insn} (h : Derived L is js) : ∀ {j : L.Insn}, j ∈ js → ∀ {d a n}, L.asCall j = some (d, a, n) →
    ∃ i ∈ is, ∃ a' n', L.asCall i = some (d, a', n') := by
  induction h with
  | fresh h =>
    intro j hj d a n hc
    obtain ⟨x, k, b, rfl⟩ := h j hj
    rw [hL.asCall_kx] at hc; cases hc
  | skip i h ih =>
    intro j hj d a n hc
    obtain ⟨i', hi', r⟩ := ih hj hc
    exact ⟨i', by simp [hi'], r⟩
  | prim i f hi h ih =>
    intro j hj d a n hc
    rcases List.mem_cons.1 hj with rfl | hj
    · rw [hL.asCall_replace, hi] at hc; cases hc
    · obtain ⟨i', hi', r⟩ := ih hj hc
      exact ⟨i', by simp [hi'], r⟩
  | call i j hi hj' h ih =>
    intro j2 hj d a n hc
    rcases List.mem_cons.1 hj with rfl | hj
    · rw [hj'] at hc; cases hc
      exact ⟨i, by simp, _, _, hi⟩
    · obtain ⟨i', hi', r⟩ := ih hj hc
      exact ⟨i', by simp [hi'], r⟩

theorem DerivedRc.calls (hL : L.Lawful) {rc rc' : RootCircuit L} (h : DerivedRc rc rc') {c d : Nat} (hc : Calls rc'.get c d) : Calls rc.get c d := by
  obtain ⟨circ', hg, j, hj, a, n, hcall⟩ := hc
  obtain ⟨circ, hg0, hd⟩ := h.circ _ _ hg
  obtain ⟨i, hi, a', n', hi'⟩ := hd.insns.call_mem hL hj hcall
  exact ⟨circ, hg0, i, hi, a', n', hi'⟩

/-- If the result of the pass meets the conditions on the root, so did its input. -/
theorem DerivedRc.rootOk (hL : L.Lawful) {rc rc' : RootCircuit L} (h : DerivedRc rc rc') (hr : RootOk rc') : RootOk rc := by
  obtain ⟨root', hg, hle, hne⟩ := hr
  obtain ⟨root, hg0, hd⟩ := h.circ _ _ hg
  refine ⟨root, hg0, ?_, fun he => ?_⟩
  · rw [← h.expected]; exact hle.trans hd.outs
  · have : root'.outputs = [] := by
      have := hd.outs
      rw [he] at this
      exact List.length_eq_zero_iff.1 (by simpa using this)
    obtain ⟨d, circ', hre, hg', hc⟩ := hne this
    obtain ⟨circ, hgd, hdd⟩ := h.circ _ _ hg'
    refine ⟨d, circ, ?_, hgd, fun e => hc ?_⟩
    · clear hg' hgd
      induction hre with
      | refl => exact .refl
      | tail _ hcd ih => exact ih.tail (h.calls hL hcd)
    · have := hdd.cons
      rw [e] at this
      exact List.length_eq_zero_iff.1 (by simpa using this)

theorem DerivedRc.refl_of {rc : RootCircuit L} (hL : L.Lawful) (hid : ∀ i : L.Insn, L.replaceVars i id = i) : DerivedRc rc rc := by
  refine ⟨rfl, rfl, fun d circ hg => ⟨circ, hg, ?_, rfl, Nat.le_refl _⟩⟩
  generalize circ.instructions = is
  induction is with
  | nil => exact .fresh (by simp)
  | cons i is ih =>
    cases hc : L.asCall i with
    | none => have := Derived.prim i id hc ih; rwa [hid] at this
    | some t => exact .call i i hc hc ih

/-! ### `remove_unreachable` -/

theorem derived_rebuild (hL : L.Lawful) (vis : Elem → Bool) (c : Nat) : ∀ (is : List L.Insn) (i : Nat) (s : List (Option Nat) × Nat),
    Derived L is (rebuildInsns L vis c i is s).1 := by
  intro is
  induction is with
  | nil => intro i s; exact .fresh (by simp [rebuildInsns])
  | cons insn is ih =>
    intro i s
    simp only [rebuildInsns]
    split
    · exact .skip _ (ih _ _)
    · cases hc : L.asCall insn with
      | none => exact .prim _ _ hc (ih _ _)
      | some t =>
        obtain ⟨d, a, n⟩ := t
        exact .call _ _ hc (hL.asCall_mkCall _ _ _) (ih _ _)

theorem derivedC_rebuild (hL : L.Lawful) (vis : Elem → Bool) (c : Nat) (circ : Circuit L) : DerivedC circ (rebuildCircuit vis c circ) := by
  refine ⟨derived_rebuild hL _ _ _ _ _, by simp [rebuildCircuit], ?_⟩
  simp only [rebuildCircuit, List.length_map]
  refine (List.length_filter_le _ _).trans ?_
  simp

theorem removeUnreachable_derived (hL : L.Lawful) {rc rc' : RootCircuit L} {im : InputMapping} (h : removeUnreachable rc = some (rc', im)) :
    DerivedRc rc rc' := by
  unfold removeUnreachable at h
  split at h
  · cases h
  simp only at h
  split at h
  · simp only [Option.some.injEq, Prod.mk.injEq] at h
    obtain ⟨rfl, _⟩ := h
    refine ⟨rfl, rfl, fun d circ' hg => ?_⟩
    rw [RootCircuit.get, lookup_filterMap (h := fun c circ => rebuildCircuit _ c circ)] at hg
    split at hg
    · obtain ⟨circ, hg', rfl⟩ := Option.map_eq_some_iff.1 hg
      exact ⟨circ, hg', derivedC_rebuild hL _ _ _⟩
    · cases hg
  · cases h

theorem inputMappingOf_surj (vis : Elem → Bool) : ∀ (is : List Nat) (n j : Nat), n ≤ j → j < (inputMappingOf vis is n).2 →
    ∃ i : Nat, (inputMappingOf vis is n).1[i]? = some (some j) := by
  intro is
  induction is with
  | nil => intro n j h1 h2; simp [inputMappingOf] at h2; omega
  | cons i is ih =>
    intro n j h1 h2
    cases hv : vis (eV 0 i) with
    | false =>
      simp only [inputMappingOf, hv, Bool.false_eq_true, if_false] at h2 ⊢
      obtain ⟨k, hk⟩ := ih n j h1 h2
      exact ⟨k + 1, by simpa using hk⟩
    | true =>
      simp only [inputMappingOf, hv, if_true] at h2 ⊢
      by_cases e : j = n
      · exact ⟨0, by simp [e]⟩
      · obtain ⟨k, hk⟩ := ih (n + 1) j (by omega) h2
        exact ⟨k + 1, by simpa using hk⟩

theorem removeUnreachable_surj {rc rc' : RootCircuit L} {im : InputMapping} (h : removeUnreachable rc = some (rc', im)) : im.Surjective := by
  unfold removeUnreachable at h
  split at h
  · cases h
  simp only at h
  split at h
  · simp only [Option.some.injEq, Prod.mk.injEq] at h
    obtain ⟨_, rfl⟩ := h
    exact fun j hj => inputMappingOf_surj _ _ _ j (by omega) hj
  · cases h

/-! ### `reassign_duplicate_sub_circuit_outputs` -/

theorem freshOutputs_kx (outs : List Nat) : ∀ (os : List Nat) (i vmax : Nat), ∀ j ∈ (freshOutputs L outs i vmax os).1, ∃ x k b, j = L.fromKxPlusB x k b := by
  intro os
  induction os with
  | nil => intro i vmax j hj; simp [freshOutputs] at hj
  | cons o os ih =>
    intro i vmax j hj
    simp only [freshOutputs] at hj
    split at hj
    · rcases List.mem_cons.1 hj with rfl | hj
      · exact ⟨_, _, _, rfl⟩
      · exact ih _ _ _ hj
    · exact ih _ _ _ hj

theorem freshOutputs_length (outs : List Nat) : ∀ (os : List Nat) (i vmax : Nat), (freshOutputs L outs i vmax os).2.length = os.length := by
  intro os
  induction os with
  | nil => intro i vmax; simp [freshOutputs]
  | cons o os ih =>
    intro i vmax
    simp only [freshOutputs]
    split <;> simp [ih]

theorem derived_reassign (hL : L.Lawful) (om : Nat → List Nat) {l : List L.Insn} (hl : ∀ i ∈ l, ∃ x k b, i = L.fromKxPlusB x k b) :
    ∀ (is : List L.Insn) (vm : List Nat), Derived L is ((reassignInsns L om is vm).1 ++ l) := by
  intro is
  induction is with
  | nil => intro vm; exact .fresh (by simpa [reassignInsns] using hl)
  | cons i is ih =>
    intro vm
    simp only [reassignInsns]
    rw [List.cons_append]
    cases hc : L.asCall i with
    | none => exact .prim _ _ hc (ih _)
    | some t =>
      obtain ⟨d, a, n⟩ := t
      exact .call _ _ hc (by rw [hL.asCall_replace, hc]; rfl) (ih _)

theorem derivedC_reassign (hL : L.Lawful) (om : Nat → List Nat) (fresh : Bool) (circ : Circuit L) :
    DerivedC circ (reassignCircuit om fresh circ).1 := by
  unfold reassignCircuit
  simp only
  split
  · exact ⟨derived_reassign hL om (freshOutputs_kx _ _ _ _) _ _, by simp, by simp [freshOutputs_length]⟩
  · refine ⟨?_, by simp, by simp⟩
    have := derived_reassign hL om (l := []) (by simp) circ.instructions (List.range (circ.numInputs + 1))
    rwa [List.append_nil] at this

theorem bottomUp_lookup {α β : Type} {get : Nat → Option α} {f : (Nat → Option β) → Nat → α → β} {P : Nat → α → β → Prop}
    (hP : ∀ t c a, P c a (f t c a)) : ∀ (l : List Nat) (d : Nat) (b : β), (bottomUp get f l).lookup d = some b → ∃ a, get d = some a ∧ P d a b := by
  intro l
  induction l with
  | nil => intro d b h; simp [bottomUp] at h
  | cons c l ih =>
    intro d b h
    simp only [bottomUp] at h
    cases hg : get c with
    | none => rw [hg] at h; exact ih d b h
    | some a =>
      rw [hg] at h
      simp only [List.lookup_cons] at h
      by_cases e : d = c
      · subst e
        simp at h
        exact ⟨a, hg, h ▸ hP _ _ _⟩
      · have : (d == c) = false := by simpa using e
        rw [this] at h
        exact ih d b h

theorem reassign_derived (hL : L.Lawful) {rc rc' : RootCircuit L} {force : Bool} (h : reassign rc force = some rc') : rc' = rc ∨ DerivedRc rc rc' := by
  unfold reassign at h
  split at h
  · right
    unfold mapBottomUp at h
    split at h
    · cases h
    · cases h
      refine ⟨rfl, rfl, fun d circ' hg => ?_⟩
      rw [RootCircuit.get, lookup_map_snd] at hg
      obtain ⟨p, hp, rfl⟩ := Option.map_eq_some_iff.1 hg
      exact bottomUp_lookup (P := fun _ a b => DerivedC a b.1) (fun t c a => derivedC_reassign hL _ _ _) _ d p hp
  · cases h; exact .inl rfl

/-! ### Facts that are carried along -/

/-- A property of circuits that the clean-up passes carry from the input to the output. -/
def Fwd (Q : RootCircuit L → Prop) : Prop := ∀ {x y : RootCircuit L}, DerivedRc x y → Q x → Q y

theorem cleanup_fwd (hL : L.Lawful) {Q : RootCircuit L → Prop} (hq : Fwd Q) {x y : RootCircuit L} {im : InputMapping} (h : cleanup x = some (y, im)) (hx : Q x) : Q y := by
  unfold cleanup at h
  split at h
  · cases h
  · rename_i r im' hr
    obtain ⟨r', hr', e⟩ := Option.map_eq_some_iff.1 h
    cases e
    have h1 := hq (removeUnreachable_derived hL hr) hx
    rcases reassign_derived hL hr' with rfl | h2
    · exact h1
    · exact hq h2 h1

theorem cleanup_rootOk (hL : L.Lawful) {x y : RootCircuit L} {im : InputMapping} (h : cleanup x = some (y, im)) (hy : RootOk y) : RootOk x := by
  unfold cleanup at h
  split at h
  · cases h
  · rename_i r im' hr
    obtain ⟨r', hr', e⟩ := Option.map_eq_some_iff.1 h
    cases e
    have h1 : RootOk r := by
      rcases reassign_derived hL hr' with rfl | h2
      · exact hy
      · exact h2.rootOk hL hy
    exact (removeUnreachable_derived hL hr).rootOk hL h1

theorem cleanup_surj {x y : RootCircuit L} {im : InputMapping} (h : cleanup x = some (y, im)) : im.Surjective := by
  unfold cleanup at h
  split at h
  · cases h
  · rename_i r im' hr
    obtain ⟨r', hr', e⟩ := Option.map_eq_some_iff.1 h
    cases e
    exact removeUnreachable_surj hr

section
variable {T : Type} {f : T → Option (T × InputMapping)} {eq : T → T → Bool}

theorem optLoop_fwd {Q : T → Prop} (hq : ∀ {x y im}, f x = some (y, im) → Q x → Q y) : ∀ (fuel : Nat) (x : T) (im0 : InputMapping) {y : T} {im : InputMapping},
    optLoop eq f fuel x im0 = .done (y, im) → Q x → Q y := by
  intro fuel
  induction fuel with
  | zero => intro x im0 y im h; simp [optLoop] at h
  | succ n ih =>
    intro x im0 y im h hx
    simp only [optLoop] at h
    cases hf : f x with
    | none => rw [hf] at h; cases h
    | some p =>
      obtain ⟨z, imz⟩ := p
      rw [hf] at h
      simp only at h
      split at h
      · cases h; exact hx
      · split at h
        · cases h
        · exact ih _ _ h (hq hf hx)

/-- A property that every round keeps holds of the result. -/
theorem optimize_fwd {Q : T → Prop} (hq : ∀ {x y im}, f x = some (y, im) → Q x → Q y) {fuel : Nat} {x : T} {im0 : InputMapping} {y : T} {im : InputMapping}
    (h : optimizeUntilFixedPoint eq f fuel x im0 = .done (y, im)) (hx : Q x) : Q y := by
  simp only [optimizeUntilFixedPoint] at h
  cases hf : f x with
  | none => rw [hf] at h; cases h
  | some p =>
    obtain ⟨z, imz⟩ := p
    rw [hf] at h
    simp only at h
    split at h
    · cases h; exact hq hf hx
    · split at h
      · cases h
      · exact optLoop_fwd hq _ _ _ h (hq hf hx)

/-- A property that every round can only lose held at the beginning if it holds of the result. -/
theorem optimize_back {Q : T → Prop} (hq : ∀ {x y im}, f x = some (y, im) → Q y → Q x) {fuel : Nat} {x : T} {im0 : InputMapping} {y : T} {im : InputMapping}
    (h : optimizeUntilFixedPoint eq f fuel x im0 = .done (y, im)) (hy : Q y) : Q x :=
  Classical.byContradiction fun hx => optimize_fwd (Q := fun z => ¬ Q z) (fun hf hx hy => hx (hq hf hy)) h hx hy

variable {α : Type} {d : α} {P : T → Prop} {sz : T → Nat} {rel : T → List α → T → List α → Prop}

theorem optLoop_surj (hf : PassOk d P sz rel f) (hs : ∀ {x y im}, f x = some (y, im) → im.Surjective) :
    ∀ (fuel : Nat) (x : T) (im0 : InputMapping) {y : T} {im : InputMapping}, P x → im0.nextSize = sz x → im0.InRange → im0.Surjective →
    optLoop eq f fuel x im0 = .done (y, im) → im.Surjective := by
  intro fuel
  induction fuel with
  | zero => intro x im0 y im _ _ _ _ h; simp [optLoop] at h
  | succ n ih =>
    intro x im0 y im hP hn hr hs0 h
    obtain ⟨z, imz, hfz, hz, h1, h2, h3, h4, _⟩ := hf x hP
    simp only [optLoop, hfz] at h
    split at h
    · cases h; exact hs0
    · have hsz : im0.nextSize = imz.curSize := by rw [hn, h1]
      obtain ⟨im', hc, hc1, hc2, _⟩ := InputMapping.compose_isSome im0 imz hr hsz
      have hc' : im0.composeInPlace imz = some im' := hc
      rw [hc'] at h
      exact ih z im' hz (hc1.trans h2) (InputMapping.compose_inRange hr hsz h3 hc) (InputMapping.compose_surjective hr hsz hc hs0 (hs hfz)) h

theorem optimize_surj (hf : PassOk d P sz rel f) (hs : ∀ {x y im}, f x = some (y, im) → im.Surjective) {fuel : Nat} {x : T} {im0 : InputMapping}
    {y : T} {im : InputMapping} (hP : P x) (hn : im0.nextSize = sz x) (hr : im0.InRange) (hs0 : im0.Surjective)
    (h : optimizeUntilFixedPoint eq f fuel x im0 = .done (y, im)) : im.Surjective := by
  obtain ⟨z, imz, hfz, hz, h1, h2, h3, h4, _⟩ := hf x hP
  simp only [optimizeUntilFixedPoint, hfz] at h
  split at h
  · cases h; exact hs0
  · have hsz : im0.nextSize = imz.curSize := by rw [hn, h1]
    obtain ⟨im', hc, hc1, hc2, _⟩ := InputMapping.compose_isSome im0 imz hr hsz
    have hc' : im0.composeInPlace imz = some im' := hc
    rw [hc'] at h
    exact optLoop_surj hf hs _ z im' hz (hc1.trans h2) (InputMapping.compose_inRange hr hsz h3 hc) (InputMapping.compose_surjective hr hsz hc hs0 (hs hfz)) h
end

end Verif.Compile
