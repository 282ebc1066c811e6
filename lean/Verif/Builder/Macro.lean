import Verif.Builder.Lower

/-!
# What the expansions compute
-/

set_option linter.unusedSectionVars false
set_option linter.unusedSimpArgs false
set_option linter.unusedVariables false

namespace Verif.Builder

open Verif.IR Verif.Hints Verif.IR.HintExport

variable {F : Type} [Field F] [DecidableEq F]

/-- The pushed instructions of a list of requests. -/
def pushes : List (Ev F) → List (HintNorm.Insn F)
  | [] => []
  | .push i :: es => i :: pushes es
  | .assert _ :: es => pushes es
  | .mark _ :: es => pushes es

/-- The asserted variables. -/
def asserts : List (Ev F) → List Nat
  | [] => []
  | .push _ :: es => asserts es
  | .assert v :: es => v :: asserts es
  | .mark _ :: es => asserts es

/-- The marked variables. -/
def marks : List (Ev F) → List Nat
  | [] => []
  | .push _ :: es => marks es
  | .assert _ :: es => marks es
  | .mark v :: es => v :: marks es

theorem pushes_append (a b : List (Ev F)) : pushes (a ++ b) = pushes a ++ pushes b := by
  induction a with
  | nil => rfl
  | cons e a ih => cases e <;> simp [pushes, ih]
theorem asserts_append (a b : List (Ev F)) : asserts (a ++ b) = asserts a ++ asserts b := by
  induction a with
  | nil => rfl
  | cons e a ih => cases e <;> simp [asserts, ih]
theorem marks_append (a b : List (Ev F)) : marks (a ++ b) = marks a ++ marks b := by
  induction a with
  | nil => rfl
  | cons e a ih => cases e <;> simp [marks, ih]

section Step
variable {E : Env F} {get : Nat → Option (Circuit (hintNorm E))}

theorem prim_const (c : F) (val : Nat → Option F) (outs : List F) : (hintNorm E).prim (constI c) val outs ↔ outs = [c] := by
  show readPrim _ _ _ _ _ ↔ _
  unfold readPrim
  simp [constI, HintNorm.Insn.inputs, mapOpt, HintNorm.Insn.sem, Coef.Sem]

theorem prim_lc2 (a b : Nat) (p q x y : F) (val : Nat → Option F) (ha : val a = some x) (hb : val b = some y) (outs : List F) :
    (hintNorm E).prim (lc2 a p b q) val outs ↔ outs = [x * p + y * q] := by
  show readPrim _ _ _ _ _ ↔ _
  unfold readPrim
  simp [lc2, HintNorm.Insn.inputs, LinComb.vars, mapOpt, ha, hb, HintNorm.Insn.sem, LinComb.evalArgs]

theorem prim_lc1 (a : Nat) (p x : F) (val : Nat → Option F) (ha : val a = some x) (outs : List F) :
    (hintNorm E).prim (.linComb ⟨[(a, p)], 0⟩) val outs ↔ outs = [x * p] := by
  show readPrim _ _ _ _ _ ↔ _
  unfold readPrim
  simp [HintNorm.Insn.inputs, LinComb.vars, mapOpt, ha, HintNorm.Insn.sem, LinComb.evalArgs]

theorem prim_mul (a b : Nat) (x y : F) (val : Nat → Option F) (ha : val a = some x) (hb : val b = some y) (outs : List F) :
    (hintNorm E).prim (mulI a b) val outs ↔ outs = [x * y] := by
  show readPrim _ _ _ _ _ ↔ _
  unfold readPrim
  simp [mulI, HintNorm.Insn.inputs, mapOpt, ha, hb, HintNorm.Insn.sem]

theorem prim_hint (h : Nat) (xs : List Nat) (n : Nat) (args : List F) (val : Nat → Option F) (ha : mapOpt val xs = some args) (outs : List F) :
    (hintNorm E).prim (.hint h xs n) val outs ↔ E.hint h args n outs := by
  show readPrim _ _ _ _ _ ↔ _
  unfold readPrim
  simp [HintNorm.Insn.inputs, ha, HintNorm.Insn.sem]

variable {is : List (HintNorm.Insn F)} {ws t ws' : List F} {b : Bool}

theorem old {a : Nat} {x : F} (h : ws[a]? = some x) : (ws ++ t)[a]? = some x := getElem?_app_some h

theorem new {n k : Nat} (hn : ws.length = n) : (ws ++ t)[n + k]? = t[k]? := by
  rw [List.getElem?_append_right (by omega)]; congr 1; omega

theorem new0 {n : Nat} (hn : ws.length = n) : (ws ++ t)[n]? = t[0]? := new (k := 0) hn

theorem step_det {i : HintNorm.Insn F} {v : F} (hc : i.asCall = none)
    (h : ∀ outs, (hintNorm E).prim i (fun v => (ws ++ t)[v]?) outs ↔ outs = [v]) :
    Run get (i :: is) (ws ++ t) ws' b ↔ Run get is (ws ++ (t ++ [v])) ws' b := by
  refine (run_prim_iff hc).trans ⟨?_, fun hr => ⟨[v], (h _).2 rfl, by rw [List.append_assoc]; exact hr⟩⟩
  rintro ⟨outs, hp, hr⟩
  rw [(h outs).1 hp, List.append_assoc] at hr
  exact hr

theorem step_const (c : F) : Run get (constI c :: is) (ws ++ t) ws' b ↔ Run get is (ws ++ (t ++ [c])) ws' b :=
  step_det rfl (fun outs => prim_const c _ outs)

theorem step_lc2 {a a' : Nat} {p q x y : F} (ha : (ws ++ t)[a]? = some x) (hb : (ws ++ t)[a']? = some y) :
    Run get (lc2 a p a' q :: is) (ws ++ t) ws' b ↔ Run get is (ws ++ (t ++ [x * p + y * q])) ws' b :=
  step_det rfl (fun outs => prim_lc2 a a' p q x y _ ha hb outs)

theorem step_lc1 {a : Nat} {p x : F} (ha : (ws ++ t)[a]? = some x) :
    Run get (HintNorm.Insn.linComb ⟨[(a, p)], 0⟩ :: is) (ws ++ t) ws' b ↔ Run get is (ws ++ (t ++ [x * p])) ws' b :=
  step_det rfl (fun outs => prim_lc1 a p x _ ha outs)

theorem step_sub {a a' : Nat} {x y : F} (ha : (ws ++ t)[a]? = some x) (hb : (ws ++ t)[a']? = some y) :
    Run get (subI a a' :: is) (ws ++ t) ws' b ↔ Run get is (ws ++ (t ++ [x - y])) ws' b := by
  rw [subI, step_lc2 ha hb]; simp [sub_eq_add_neg]

theorem step_add {a a' : Nat} {x y : F} (ha : (ws ++ t)[a]? = some x) (hb : (ws ++ t)[a']? = some y) :
    Run get (addI a a' :: is) (ws ++ t) ws' b ↔ Run get is (ws ++ (t ++ [x + y])) ws' b := by
  rw [addI, step_lc2 ha hb]; simp

theorem step_mul {a a' : Nat} {x y : F} (ha : (ws ++ t)[a]? = some x) (hb : (ws ++ t)[a']? = some y) :
    Run get (mulI a a' :: is) (ws ++ t) ws' b ↔ Run get is (ws ++ (t ++ [x * y])) ws' b :=
  step_det rfl (fun outs => prim_mul a a' x y _ ha hb outs)

theorem step_hint {h : Nat} {xs : List Nat} {n : Nat} {args : List F} (ha : mapOpt (fun v => (ws ++ t)[v]?) xs = some args) :
    Run get (HintNorm.Insn.hint h xs n :: is) (ws ++ t) ws' b ↔ ∃ outs, E.hint h args n outs ∧ Run get is (ws ++ (t ++ outs)) ws' b := by
  refine (run_prim_iff (L := hintNorm E) rfl).trans ⟨?_, ?_⟩
  · rintro ⟨outs, hp, hr⟩
    rw [List.append_assoc] at hr
    exact ⟨outs, (prim_hint h xs n args _ ha outs).1 hp, hr⟩
  · rintro ⟨outs, hp, hr⟩
    rw [← List.append_assoc] at hr
    exact ⟨outs, (prim_hint h xs n args _ ha outs).2 hp, hr⟩

theorem step_hint2 {i : Hints.Id} {a a' : Nat} {x y : F} (ha : (ws ++ t)[a]? = some x) (hb : (ws ++ t)[a']? = some y) :
    Run get (hintI i [a, a'] 1 :: is) (ws ++ t) ws' b ↔ ∃ outs, E.hint i.toNat [x, y] 1 outs ∧ Run get is (ws ++ (t ++ outs)) ws' b :=
  step_hint (by simp [mapOpt, ha, hb])

theorem old2 {a : Nat} {x : F} {s : List F} (h : (ws ++ t)[a]? = some x) : (ws ++ (t ++ s))[a]? = some x := by
  rw [← List.append_assoc]; exact getElem?_app_some h

theorem new2 {m k : Nat} {s : List F} (hn : ws.length + t.length = m) : (ws ++ (t ++ s))[m + k]? = s[k]? := by
  rw [← List.append_assoc]; exact new (by simpa using hn)

theorem step_bool {m a : Nat} {x : F} (hn : ws.length + t.length = m) (ha : (ws ++ t)[a]? = some x) :
    Run get (pushes (boolCond m a) ++ is) (ws ++ t) ws' b ↔ Run get is (ws ++ (t ++ [1, x - 1, x * (x - 1)])) ws' b := by
  simp only [boolCond, pushes, List.cons_append, List.nil_append]
  rw [step_const, step_sub (x := x) (y := 1), step_mul (x := x) (y := x - 1)]
  · simp
  · rw [List.append_assoc]; exact old2 ha
  · rw [List.append_assoc, new2 hn]; simp
  · exact old2 ha
  · exact (new2 (k := 0) hn).trans (by simp)

end Step

end Verif.Builder
