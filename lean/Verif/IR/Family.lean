import Verif.IR.Compose

/-!
# Replacing the circuits of a family by equivalent ones
-/

set_option linter.unusedSectionVars false

namespace Verif.IR

variable {F : Type} [Field F] {L : Lang F}

/-- Running the same instructions in two families whose callees behave identically. -/
theorem run_congr_get {get get' : Nat → Option (Circuit L)} : ∀ (is : List L.Insn) (vs vs' : List F) (b : Bool),
    CallsOk get is →
    (∀ i ∈ is, ∀ d a n, L.asCall i = some (d, a, n) → ∃ sub sub', get d = some sub ∧ get' d = some sub' ∧
      ∀ args res sb, args.length = sub.numInputs → (EvalSub get sub args res sb ↔ EvalSub get' sub' args res sb)) →
    (Run get is vs vs' b ↔ Run get' is vs vs' b) := by
  intro is
  induction is with
  | nil => intro vs vs' b _ _; rw [run_nil_iff, run_nil_iff]
  | cons i is ih =>
    intro vs vs' b hc h
    have ih' := fun vs vs' b => ih vs vs' b (fun j hj => hc j (by simp [hj])) (fun j hj => h j (by simp [hj]))
    cases hi : L.asCall i with
    | none =>
      rw [run_prim_iff hi, run_prim_iff hi]
      simp only [ih']
    | some t =>
      obtain ⟨d, a, n⟩ := t
      rw [run_call_iff hi, run_call_iff hi]
      obtain ⟨sub, sub', hs, hs', he⟩ := h i (by simp) d a n hi
      obtain ⟨sub2, hs2, hal, _⟩ := hc i (by simp) d a n hi
      rw [hs] at hs2; cases hs2
      constructor
      · rintro ⟨circ, args, res, sb, b', hg, ha, hev, hr, rfl⟩
        rw [hs] at hg; cases hg
        exact ⟨sub', args, res, sb, b', hs', ha, (he args res sb (by rw [readAll_length ha, hal])).1 hev, (ih' _ _ _).1 hr, rfl⟩
      · rintro ⟨circ, args, res, sb, b', hg, ha, hev, hr, rfl⟩
        rw [hs'] at hg; cases hg
        exact ⟨sub, args, res, sb, b', hs, ha, (he args res sb (by rw [readAll_length ha, hal])).2 hev, (ih' _ _ _).2 hr, rfl⟩

/-- If every circuit is replaced by one that is equivalent in the old family and calls the same circuits, the new family is
equivalent to the old one. -/
theorem family_congr {npi : Option Nat} {get get' : Nat → Option (Circuit L)} (hw : WFGet npi get) (f : Nat → Circuit L → Circuit L)
    (hget : ∀ c, get' c = (get c).map (f c))
    (hcalls : ∀ c circ, get c = some circ → ∀ i ∈ (f c circ).instructions, ∀ d a n, L.asCall i = some (d, a, n) →
      Calls get c d ∧ ∃ sub, get d = some sub ∧ a.length = sub.numInputs ∧ n = sub.outputs.length)
    (hev : ∀ c circ, get c = some circ → ∀ ins outs b, ins.length = circ.numInputs →
      (EvalSub get circ ins outs b ↔ EvalSub get (f c circ) ins outs b)) :
    ∀ c circ, get c = some circ → ∀ ins outs b, ins.length = circ.numInputs →
      (EvalSub get circ ins outs b ↔ EvalSub get' (f c circ) ins outs b) := by
  refine call_induction hw.dag ?_
  intro c circ hg ih ins outs b hl
  rw [hev c circ hg ins outs b hl]
  unfold EvalSub
  have hrun : ∀ vs sb, Run get (f c circ).instructions (0 :: ins) vs sb ↔ Run get' (f c circ).instructions (0 :: ins) vs sb := by
    intro vs sb
    refine run_congr_get _ _ _ _ (fun i hi d a n hc => (hcalls c circ hg i hi d a n hc).2) ?_
    intro i hi d a n hc
    obtain ⟨hcd, sub, hs, _, _⟩ := hcalls c circ hg i hi d a n hc
    exact ⟨sub, f d sub, hs, by rw [hget, hs]; rfl, fun args res sb' hal => ih d sub hcd hs args res sb' hal⟩
  simp only [hrun]

/-- Instructions that do not mention variable `x` behave the same whatever the value of `x` is. -/
theorem run_local (hL : L.Lawful) {get : Nat → Option (Circuit L)} (x : Nat) : ∀ (is : List L.Insn) (vs ws t : List F) (b : Bool),
    (∀ i ∈ is, x ∉ L.inputs i) → vs.length = ws.length → (∀ v, v ≠ x → vs[v]? = ws[v]?) → x < vs.length →
    Run get is vs (vs ++ t) b → Run get is ws (ws ++ t) b := by
  intro is
  induction is with
  | nil =>
    intro vs ws t b _ _ _ _ h
    obtain ⟨h1, h2⟩ := run_nil_iff.1 h
    have : t = [] := by simpa using h1
    subst this; subst h2
    rw [List.append_nil]
    exact .nil _
  | cons i is ih =>
    intro vs ws t b hx hl he hxl h
    have hx' := hx i (by simp)
    have hext : ∀ o : List F, ∀ v, v ≠ x → (vs ++ o)[v]? = (ws ++ o)[v]? := by
      intro o v hv
      by_cases hlt : v < vs.length
      · rw [List.getElem?_append_left hlt, List.getElem?_append_left (by omega)]; exact he v hv
      · rw [List.getElem?_append_right (by omega), List.getElem?_append_right (by omega), hl]
    cases hi : L.asCall i with
    | none =>
      obtain ⟨o, hp, hr⟩ := (run_prim_iff hi).1 h
      obtain ⟨t', ht⟩ := hr.prefix
      rw [List.append_assoc, List.append_cancel_left_eq] at ht
      subst ht
      rw [← List.append_assoc] at hr
      refine (run_prim_iff hi).2 ⟨o, hL.prim_local i _ _ o hi (fun v hv => he v (fun h => hx' (h ▸ hv))) hp, ?_⟩
      rw [← List.append_assoc]
      exact ih _ _ _ _ (fun j hj => hx j (by simp [hj])) (by simp [hl]) (hext o) (by simp; omega) hr
    | some c =>
      obtain ⟨d, a, n⟩ := c
      obtain ⟨circ, args, res, sb, b', hg, ha, hev, hr, rfl⟩ := (run_call_iff hi).1 h
      obtain ⟨t', ht⟩ := hr.prefix
      rw [List.append_assoc, List.append_cancel_left_eq] at ht
      subst ht
      rw [← List.append_assoc] at hr
      refine (run_call_iff hi).2 ⟨circ, args, res, sb, b', hg, ?_, hev, ?_, rfl⟩
      · rw [← ha]
        rw [hL.call_inputs _ _ _ _ hi] at hx'
        have := readAll_map_congr (vs := vs) (ws := ws) (f := id) (is := a) (fun v hv => (he v (fun h => hx' (h ▸ hv))).symm)
        simpa using this
      · rw [← List.append_assoc]
        exact ih _ _ _ _ (fun j hj => hx j (by simp [hj])) (by simp [hl]) (hext res) (by simp; omega) hr

end Verif.IR
