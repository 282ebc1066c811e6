import Verif.Builder.Macro

/-!
# Every gadget is complete and sound
-/

set_option linter.unusedSectionVars false
set_option linter.unusedSimpArgs false
set_option linter.unusedVariables false

namespace Verif.Builder

open Verif.IR Verif.Hints Verif.IR.HintExport

variable {F : Type} [Field F] [DecidableEq F]

/-- The value of a list of field elements as little-endian bits. -/
def bitsSum : List F → F
  | [] => 0
  | b :: bs => b + 2 * bitsSum bs

/-- The semantics of a source instruction when the results of unconstrained operations (hints, `unconstrained_*`, commitments)
are chosen by an adversary.  Everything that is constrained has its ordinary value.  The bits of `ToBinary` are bits and sum up to
the operand (which determines them when `2^n` does not exceed the modulus), and the unchecked quotient `0/0` is arbitrary. -/
def semAdv (E : Env F) : Source.Insn F → List F → List F → Prop
  | .div _ _ checked, [x, y], outs => if y = 0 then (x = 0 ∧ checked = false ∧ outs.length = 1) else outs = [x * y⁻¹]
  | .commit _, _, outs => outs.length = 1
  | .hint _ _ n, _, outs => outs.length = n
  | .unconstrainedBinOp _ _ _, [_, _], outs => outs.length = 1
  | .unconstrainedSelect _ _ _, [_, _, _], outs => outs.length = 1
  | .toBinary _ n, [x], outs => outs.length = n ∧ (∀ b ∈ outs, b = 0 ∨ b = 1) ∧ bitsSum outs = x
  | i, args, outs => i.sem E args outs

/-- The source language with adversarial unconstrained results. -/
@[reducible] def sourceAdv (E : Env F) : Lang F where
  Insn := Source.Insn F
  Con := Source.Con
  inputs := Source.Insn.inputs
  numOutputs := Source.Insn.numOutputs
  asCall := Source.Insn.asCall
  mkCall := Source.Insn.call
  replaceVars := Source.Insn.replaceVars
  fromKxPlusB := fun x k b => .linComb (LinComb.fromKxPlusB x k b)
  validInsn := Source.Insn.valid
  prim := readPrim Source.Insn.inputs (semAdv E)
  verify := Source.Con.verify
  allowDupInputs := true
  allowDupConstraints := true
  allowDupOutputs := true

/-- Built-in hints do what hints/builtin.rs computes. -/
def _root_.Verif.IR.Env.Builtin (E : Env F) : Prop :=
  ∀ i ins n outs, implBuiltin E.canon i ins n = some outs → outs.length = n → E.hint i.toNat ins n outs

/-! ## The runs of the expansions -/

section Runs
variable {E : Env F} {get : Nat → Option (Circuit (hintNorm E))} {is : List (HintNorm.Insn F)} {ws t ws' : List F} {b : Bool}

theorem step_hint21 (hE : E.HintLen) {i : Hints.Id} {a a' : Nat} {x y : F} (ha : (ws ++ t)[a]? = some x) (hb : (ws ++ t)[a']? = some y) :
    Run get (hintI i [a, a'] 1 :: is) (ws ++ t) ws' b ↔ ∃ d, E.hint i.toNat [x, y] 1 [d] ∧ Run get is (ws ++ (t ++ [d])) ws' b := by
  rw [step_hint2 ha hb]
  constructor
  · rintro ⟨outs, h1, h2⟩
    have := hE _ _ _ _ h1
    obtain ⟨d, rfl⟩ := List.length_eq_one_iff.1 this
    exact ⟨d, h1, h2⟩
  · rintro ⟨d, h⟩; exact ⟨_, h⟩

theorem app_nil_run : Run get is ws ws' b ↔ Run get is (ws ++ []) ws' b := by rw [List.append_nil]

theorem run_divChecked (hE : E.HintLen) {x y : Nat} {vx vy : F} (hx : ws[x]? = some vx) (hy : ws[y]? = some vy) :
    Run get (pushes [.push (constI 1), .push (hintI .div [ws.length, y] 1), .push (mulI y (ws.length + 1)),
        .push (subI (ws.length + 2) ws.length), .assert (ws.length + 3), .push (mulI x (ws.length + 1))]) ws ws' b ↔
      ∃ d, E.hint Id.div.toNat [1, vy] 1 [d] ∧ ws' = ws ++ [1, d, vy * d, vy * d - 1, vx * d] ∧ b = true := by
  simp only [pushes]
  rw [app_nil_run, step_const, step_hint21 hE (x := 1) (y := vy) (new0 rfl) (old hy)]
  refine exists_congr (fun d => and_congr_right (fun _ => ?_))
  rw [step_mul (x := vy) (y := d) (old hy) (new rfl), step_sub (x := vy * d) (y := 1) (new rfl) (new0 rfl),
    step_mul (x := vx) (y := d) (old hx) (new rfl), run_nil_iff]
  simp

theorem run_divUnchecked (hE : E.HintLen) {x y : Nat} {vx vy : F} (hx : ws[x]? = some vx) (hy : ws[y]? = some vy) :
    Run get (pushes [.push (hintI .div [x, y] 1), .push (mulI y ws.length), .push (subI (ws.length + 1) x), .assert (ws.length + 2)]) ws ws' b ↔
      ∃ d, E.hint Id.div.toNat [vx, vy] 1 [d] ∧ ws' = ws ++ [d, vy * d, vy * d - vx] ∧ b = true := by
  simp only [pushes]
  rw [app_nil_run, step_hint21 hE (x := vx) (y := vy) (old hx) (old hy)]
  refine exists_congr (fun d => and_congr_right (fun _ => ?_))
  rw [step_mul (x := vy) (y := d) (old hy) (new0 rfl), step_sub (x := vy * d) (y := vx) (new rfl) (old hx), run_nil_iff]
  simp

theorem run_isZero (hE : E.HintLen) {x : Nat} {vx : F} (hx : ws[x]? = some vx) :
    Run get (pushes ([.push (constI 1), .push (hintI .div [ws.length, x] 1), .push (mulI x (ws.length + 1)), .push (subI ws.length (ws.length + 2)),
        .push (mulI x (ws.length + 3)), .assert (ws.length + 4)] ++ markBool (ws.length + 5) (ws.length + 3))) ws ws' b ↔
      ∃ d, E.hint Id.div.toNat [1, vx] 1 [d] ∧
        ws' = ws ++ [1, d, vx * d, 1 - vx * d, vx * (1 - vx * d), 1, 1 - vx * d - 1, (1 - vx * d) * (1 - vx * d - 1)] ∧ b = true := by
  simp only [markBool, pushes_append, pushes, List.cons_append, List.nil_append, List.append_nil]
  rw [app_nil_run, step_const, step_hint21 hE (x := 1) (y := vx) (new0 rfl) (old hx)]
  refine exists_congr (fun d => and_congr_right (fun _ => ?_))
  rw [step_mul (x := vx) (y := d) (old hx) (new rfl), step_sub (x := 1) (y := vx * d) (new0 rfl) (new rfl),
    step_mul (x := vx) (y := 1 - vx * d) (old hx) (new rfl)]
  have := step_bool (get := get) (is := []) (ws := ws) (t := [] ++ [1] ++ [d] ++ [vx * d] ++ [1 - vx * d] ++ [vx * (1 - vx * d)]) (ws' := ws') (b := b)
    (m := ws.length + 5) (a := ws.length + 3) (x := 1 - vx * d) (by simp) (new rfl)
  rw [List.append_nil] at this
  rw [this, run_nil_iff]
  simp

theorem run_bool2 {x y : Nat} {vx vy : F} (hx : ws[x]? = some vx) (hy : ws[y]? = some vy) :
    Run get (pushes (assertBool ws.length x ++ assertBool (ws.length + 3) y) ++ is) ws ws' b ↔
      Run get is (ws ++ [1, vx - 1, vx * (vx - 1), 1, vy - 1, vy * (vy - 1)]) ws' b := by
  simp only [assertBool, pushes_append, pushes, List.append_nil, List.append_assoc, List.nil_append]
  rw [app_nil_run, step_bool (by simp) (old hx), step_bool (by simp) (old hy)]
  simp

theorem run_boolTail {x y : Nat} {vx vy : F} (hn : t.length = 6) (hx : ws[x]? = some vx) (hy : ws[y]? = some vy) (op : Source.BoolOp) :
    ∃ s r, (∀ ws' b, Run get (pushes (boolTail (ws.length + 6) x y op).1) (ws ++ t) ws' b ↔ ws' = ws ++ (t ++ s) ∧ b = true) ∧
      r = op.eval vx vy ∧ (∃ k, (boolTail (F := F) (ws.length + 6) x y op).2 = [ws.length + 6 + k] ∧ s[k]? = some r) ∧
      asserts (F := F) (boolTail (ws.length + 6) x y op).1 = [] ∧
      (∃ k, marks (F := F) (boolTail (ws.length + 6) x y op).1 = [ws.length + 6 + k] ∧ s[k]? = some (r * (r - 1))) := by
  have hl : ws.length + t.length = ws.length + 6 := by omega
  cases op with
  | and =>
    refine ⟨[vx + vy, vx * vy, 1, vx * vy - 1, vx * vy * (vx * vy - 1)], vx * vy, ?_, rfl, ⟨1, rfl, rfl⟩, rfl, ⟨4, rfl, rfl⟩⟩
    intro ws' b
    simp only [boolTail, markBool, pushes_append, pushes, List.cons_append, List.nil_append, List.append_nil]
    rw [step_add (x := vx) (y := vy) (old hx) (old hy), step_mul (x := vx) (y := vy) (old hx) (old hy)]
    have := step_bool (get := get) (is := []) (ws := ws) (t := t ++ [vx + vy] ++ [vx * vy]) (ws' := ws') (b := b)
      (m := ws.length + 6 + 2) (a := ws.length + 6 + 1) (x := vx * vy) (by simp; omega) (by rw [List.append_assoc]; exact (new2 hl).trans rfl)
    rw [List.append_nil] at this
    rw [this, run_nil_iff]
    simp
  | or =>
    have e : (Source.BoolOp.or).eval vx vy = vx + vy - vx * vy := rfl
    refine ⟨[vx + vy, vx * vy, vx + vy - vx * vy, 1, vx + vy - vx * vy - 1, (vx + vy - vx * vy) * (vx + vy - vx * vy - 1)], _, ?_, rfl, ⟨2, rfl, rfl⟩, rfl, ⟨5, rfl, rfl⟩⟩
    intro ws' b
    simp only [boolTail, markBool, pushes_append, pushes, List.cons_append, List.nil_append, List.append_nil]
    rw [step_add (x := vx) (y := vy) (old hx) (old hy), step_mul (x := vx) (y := vy) (old hx) (old hy),
      step_sub (x := vx + vy) (y := vx * vy) (by rw [List.append_assoc]; exact (new2 (k := 0) hl).trans rfl) (by rw [List.append_assoc]; exact (new2 hl).trans rfl)]
    have := step_bool (get := get) (is := []) (ws := ws) (t := t ++ [vx + vy] ++ [vx * vy] ++ [vx + vy - vx * vy]) (ws' := ws') (b := b)
      (m := ws.length + 6 + 3) (a := ws.length + 6 + 2) (x := vx + vy - vx * vy) (by simp; omega) (by rw [List.append_assoc, List.append_assoc]; exact (new2 hl).trans rfl)
    rw [List.append_nil] at this
    rw [this, run_nil_iff]
    simp
  | xor =>
    have e : (Source.BoolOp.xor).eval vx vy = (vx + vy) * 1 + vx * vy * -(1 + 1) := by simp only [Source.BoolOp.eval]; ring
    refine ⟨[vx + vy, vx * vy, (vx + vy) * 1 + vx * vy * -(1 + 1), 1, (vx + vy) * 1 + vx * vy * -(1 + 1) - 1,
      ((vx + vy) * 1 + vx * vy * -(1 + 1)) * ((vx + vy) * 1 + vx * vy * -(1 + 1) - 1)], _, ?_, e.symm, ⟨2, rfl, rfl⟩, rfl, ⟨5, rfl, rfl⟩⟩
    intro ws' b
    simp only [boolTail, markBool, pushes_append, pushes, List.cons_append, List.nil_append, List.append_nil]
    rw [step_add (x := vx) (y := vy) (old hx) (old hy), step_mul (x := vx) (y := vy) (old hx) (old hy),
      step_lc2 (x := vx + vy) (y := vx * vy) (by rw [List.append_assoc]; exact (new2 (k := 0) hl).trans rfl) (by rw [List.append_assoc]; exact (new2 hl).trans rfl)]
    generalize (vx + vy) * 1 + vx * vy * -(1 + 1) = z
    have := step_bool (get := get) (is := []) (ws := ws) (t := t ++ [vx + vy] ++ [vx * vy] ++ [z]) (ws' := ws') (b := b)
      (m := ws.length + 6 + 3) (a := ws.length + 6 + 2) (x := z) (by simp; omega) (by rw [List.append_assoc, List.append_assoc]; exact (new2 hl).trans rfl)
    rw [List.append_nil] at this
    rw [this, run_nil_iff]
    simp

theorem bitsLoop_spec : ∀ (bits : List Nat) (vals : List F) (sum : Nat) (coef s : F) (ws : List F), mapOpt (fun v => ws[v]?) bits = some vals →
    ws[sum]? = some s →
    ∃ t, (∀ ws' b, Run get (pushes (bitsLoop ws.length sum coef bits).1) ws ws' b ↔ ws' = ws ++ t ∧ b = true) ∧ t.length = 5 * bits.length ∧
      (ws ++ t)[(bitsLoop ws.length sum coef bits).2]? = some (s + coef * bitsSum vals) ∧
      ((∀ v ∈ asserts (bitsLoop ws.length sum coef bits).1, (ws ++ t)[v]? = some 0) ↔ ∀ v ∈ vals, v = 0 ∨ v = 1) ∧
      marks (bitsLoop ws.length sum coef bits).1 = [] := by
  intro bits
  induction bits with
  | nil =>
    intro vals sum coef s ws h hs
    simp [mapOpt] at h
    subst h
    exact ⟨[], fun ws' b => by simp only [bitsLoop, pushes, List.append_nil]; exact run_nil_iff, rfl, by simpa [bitsLoop, bitsSum] using hs, by simp [bitsLoop, asserts], rfl⟩
  | cons bit bits ih =>
    intro vals sum coef s ws h hs
    obtain ⟨v, vals', h1, h2, rfl⟩ := mapOpt_cons.1 h
    have hread : mapOpt (fun u => (ws ++ [1, v - 1, v * (v - 1), v * coef, s + v * coef])[u]?) bits = some vals' := by
      rw [← h2]
      refine mapOpt_congr (fun u hu => ?_)
      obtain ⟨y, hy⟩ : ∃ y, ws[u]? = some y := by
        by_contra hno
        have : ws[u]? = none := by
          cases hx : ws[u]? with
          | none => rfl
          | some y => exact absurd ⟨y, hx⟩ hno
        have hm : ∀ l : List Nat, u ∈ l → mapOpt (fun v => ws[v]?) l = none := by
          intro l
          induction l with
          | nil => simp
          | cons a l ih2 =>
            intro hu
            rcases List.mem_cons.1 hu with rfl | hu
            · simp [mapOpt, this]
            · have := ih2 hu
              simp only [mapOpt, this]
              cases ws[a]? <;> rfl
        rw [hm bits hu] at h2; cases h2
      rw [hy]; exact old hy
    obtain ⟨t, g1, g2, g3, g4, g5⟩ := ih vals' (ws.length + 4) (coef + coef) (s + v * coef)
      (ws ++ [1, v - 1, v * (v - 1), v * coef, s + v * coef]) hread ((new rfl).trans rfl)
    have hlen : (ws ++ [1, v - 1, v * (v - 1), v * coef, s + v * coef]).length = ws.length + 5 := by simp
    rw [hlen] at g1 g3 g4 g5
    refine ⟨[1, v - 1, v * (v - 1), v * coef, s + v * coef] ++ t, ?_, ?_, ?_, ?_, ?_⟩
    · intro ws' b
      simp only [bitsLoop, assertBool, pushes_append, pushes, List.cons_append, List.nil_append, List.append_nil, List.append_assoc]
      rw [app_nil_run, step_bool (by simp) (old h1), step_lc1 (x := v) (old h1), step_add (x := s) (y := v * coef) (old hs) ((new rfl).trans rfl)]
      have := g1 ws' b
      simp only [List.nil_append, List.cons_append, List.append_assoc] at this ⊢
      exact this
    · simp [g2]; omega
    · simp only [bitsLoop]
      rw [← List.append_assoc, g3, bitsSum]
      congr 1; ring
    · simp only [bitsLoop, assertBool, asserts_append, asserts, List.append_nil]
      rw [← List.append_assoc]
      have e : (ws ++ [1, v - 1, v * (v - 1), v * coef, s + v * coef] ++ t)[ws.length + 2]? = some (v * (v - 1)) := old ((new rfl).trans rfl)
      simp only [boolCond, asserts, List.nil_append, List.cons_append, List.mem_cons, forall_eq_or_imp]
      rw [g4, e]
      refine and_congr_left (fun _ => ?_)
      simp [sub_eq_zero]
    · simp only [bitsLoop, assertBool, marks_append, g5]
      rfl

/-- The expansion of a boolean operation. -/
theorem run_boolBin {x y : Nat} {vx vy : F} (hx : ws[x]? = some vx) (hy : ws[y]? = some vy) (op : Source.BoolOp) :
    ∃ s, (∀ ws' b, Run get (pushes (assertBool ws.length x ++ assertBool (ws.length + 3) y ++ (boolTail (ws.length + 6) x y op).1)) ws ws' b ↔
        ws' = ws ++ s ∧ b = true) ∧
      (∃ v, (boolTail (F := F) (ws.length + 6) x y op).2 = [v] ∧ (ws ++ s)[v]? = some (op.eval vx vy)) ∧
      ((∀ v ∈ asserts (F := F) (assertBool ws.length x ++ assertBool (ws.length + 3) y ++ (boolTail (ws.length + 6) x y op).1), (ws ++ s)[v]? = some 0) ↔
        vx * (vx - 1) = 0 ∧ vy * (vy - 1) = 0) ∧
      (∀ v ∈ marks (F := F) (assertBool ws.length x ++ assertBool (ws.length + 3) y ++ (boolTail (ws.length + 6) x y op).1),
        (ws ++ s)[v]? = some (op.eval vx vy * (op.eval vx vy - 1))) := by
  obtain ⟨s, r, h1, rfl, ⟨k, h3, h4⟩, h5, k', h6, h7⟩ := run_boolTail (get := get) (ws := ws)
    (t := [1, vx - 1, vx * (vx - 1), 1, vy - 1, vy * (vy - 1)]) rfl hx hy op
  have hl : ws.length + [1, vx - 1, vx * (vx - 1), 1, vy - 1, vy * (vy - 1)].length = ws.length + 6 := rfl
  refine ⟨[1, vx - 1, vx * (vx - 1), 1, vy - 1, vy * (vy - 1)] ++ s, ?_, ⟨_, h3, (new2 hl).trans h4⟩, ?_, ?_⟩
  · intro ws' b
    rw [pushes_append, run_bool2 hx hy, h1]
  · rw [asserts_append, h5]
    simp only [assertBool, boolCond, asserts_append, asserts, List.append_nil, List.nil_append, List.cons_append, List.mem_cons, List.not_mem_nil, or_false,
      forall_eq_or_imp, forall_eq]
    rw [new rfl, show ws.length + 3 + 2 = ws.length + 5 from rfl, new rfl]
    simp
  · rw [marks_append, h6]
    intro v hv
    have : v = ws.length + 6 + k' := by simpa [assertBool, boolCond, marks_append, marks] using hv
    rw [this, new2 hl, h7]

/-- The expansion of a bit decomposition, after its hint. -/
theorem run_toBin {x : Nat} {vx : F} (hx : ws[x]? = some vx) {outs : List F} (hnew : mapOpt (fun v => (ws ++ outs ++ [0])[v]?) (newIds ws.length outs.length) = some outs) :
    ∃ s, (∀ ws' b, Run get (constI 0 :: (pushes (bitsLoop (ws.length + outs.length + 1) (ws.length + outs.length) 1 (newIds ws.length outs.length)).1 ++
          [lc2 (bitsLoop (F := F) (ws.length + outs.length + 1) (ws.length + outs.length) 1 (newIds ws.length outs.length)).2 (-1) x 1])) (ws ++ outs) ws' b ↔
        ws' = ws ++ (outs ++ s) ∧ b = true) ∧
      (((∀ v ∈ asserts (F := F) (bitsLoop (ws.length + outs.length + 1) (ws.length + outs.length) 1 (newIds ws.length outs.length)).1,
          (ws ++ (outs ++ s))[v]? = some 0) ∧ (ws ++ (outs ++ s))[ws.length + outs.length + 1 + 5 * outs.length]? = some 0) ↔
        (∀ v ∈ outs, v = 0 ∨ v = 1) ∧ bitsSum outs = vx) ∧
      marks (F := F) (bitsLoop (ws.length + outs.length + 1) (ws.length + outs.length) 1 (newIds ws.length outs.length)).1 = [] := by
  have hl0 : (ws ++ outs).length = ws.length + outs.length := by simp
  have hl : (ws ++ outs ++ [0]).length = ws.length + outs.length + 1 := by simp; omega
  obtain ⟨t, h1, h2, h3, h4, h5⟩ := bitsLoop_spec (get := get) (newIds ws.length outs.length) outs (ws.length + outs.length) 1 0 (ws ++ outs ++ [0]) hnew
    ((new0 hl0).trans rfl)
  rw [hl] at h1 h3 h4 h5
  have hlt : (ws ++ outs ++ [0] ++ t).length = ws.length + outs.length + 1 + 5 * outs.length := by
    rw [List.length_append, hl, h2]; simp [newIds]
  have hxx : (ws ++ outs ++ [0] ++ t)[x]? = some vx := old (old (old hx))
  have e : ∀ z : F, ws ++ (outs ++ ([0] ++ t ++ [z])) = (ws ++ outs ++ [0] ++ t) ++ [z] := by intro z; simp
  have key : ((0 : F) + 1 * bitsSum outs) * -1 + vx * 1 = vx - bitsSum outs := by ring
  refine ⟨[0] ++ t ++ [vx - bitsSum outs], ?_, ?_, h5⟩
  · intro ws' b
    have q := step_const (get := get) (is := pushes (bitsLoop (F := F) (ws.length + outs.length + 1) (ws.length + outs.length) 1 (newIds ws.length outs.length)).1 ++
          [lc2 (bitsLoop (F := F) (ws.length + outs.length + 1) (ws.length + outs.length) 1 (newIds ws.length outs.length)).2 (-1) x 1])
          (ws := ws ++ outs) (t := []) (ws' := ws') (b := b) 0
    rw [List.append_nil, List.nil_append] at q
    rw [q, run_append_iff]
    constructor
    · rintro ⟨w, b1, b2, r1, r2, rfl⟩
      obtain ⟨rfl, rfl⟩ := (h1 w b1).1 r1
      rw [app_nil_run, step_lc2 (x := 0 + 1 * bitsSum outs) (y := vx) (by rw [List.append_nil]; exact h3) (by rw [List.append_nil]; exact hxx), key,
        run_nil_iff] at r2
      rw [r2.1, r2.2, e]; simp
    · rintro ⟨rfl, rfl⟩
      refine ⟨ws ++ outs ++ [0] ++ t, true, true, (h1 _ _).2 ⟨rfl, rfl⟩, ?_, rfl⟩
      rw [app_nil_run, step_lc2 (x := 0 + 1 * bitsSum outs) (y := vx) (by rw [List.append_nil]; exact h3) (by rw [List.append_nil]; exact hxx), key,
        run_nil_iff]
      exact ⟨by rw [e]; simp, rfl⟩
  · rw [e, new0 hlt, ← h4]
    have hget : ([vx - bitsSum outs] : List F)[0]? = some (vx - bitsSum outs) := rfl
    rw [hget]
    refine and_congr ?_ ?_
    · refine forall₂_congr (fun v hv => ?_)
      have hlt' : ∀ (bits : List Nat) (n sum : Nat) (coef : F), ∀ v ∈ asserts (bitsLoop n sum coef bits).1, v < n + 5 * bits.length := by
        intro bits
        induction bits with
        | nil => intro n sum coef v hv; simp [bitsLoop, asserts] at hv
        | cons a bits ih =>
          intro n sum coef v hv
          simp only [bitsLoop, assertBool, boolCond, asserts_append, asserts, List.append_nil, List.nil_append, List.cons_append, List.mem_cons] at hv
          rcases hv with rfl | hv
          · simp; omega
          · have := ih _ _ _ v hv; simp; omega
      have := hlt' _ _ _ _ v hv
      simp only [newIds, List.length_range'] at this
      rw [List.getElem?_append_left (by rw [hlt]; omega)]
    · simp only [Option.some.injEq, sub_eq_zero]
      exact eq_comm

/-! ## Agreement of the unconstrained operations with the built-in hints -/

theorem uop_hint (cn : Canon F) (op : Source.UOp) (x y z : F) (h : op.eval cn x y = some z) :
    implBuiltin cn (uopId op) [x, y] 1 = some [z] := by
  cases op <;> simp only [Source.UOp.eval] at h <;> simp only [uopId, implBuiltin, binop] <;>
    first
      | (simp only [Option.some.injEq] at h; rw [h])
      | (split at h
         · cases h
         · rename_i hy
           simp only [Option.some.injEq] at h
           simp only [hy, if_false, h])

theorem bool_iff (x : F) : x * (x - 1) = 0 ↔ x = 0 ∨ x = 1 := by
  rw [mul_eq_zero, sub_eq_zero]

theorem boolOp_bool (op : Source.BoolOp) {x y : F} (hx : x = 0 ∨ x = 1) (hy : y = 0 ∨ y = 1) : op.eval x y = 0 ∨ op.eval x y = 1 := by
  rcases hx with rfl | rfl <;> rcases hy with rfl | rfl <;> cases op <;> simp [Source.BoolOp.eval]
  left; ring

end Runs

end Verif.Builder
