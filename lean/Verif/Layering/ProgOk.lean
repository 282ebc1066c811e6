import Verif.Layering.Schedule
import Verif.IR.Validate

/-!
# Structure of a valid circuit, as used by layering
-/

set_option linter.unusedSectionVars false
set_option linter.unusedSimpArgs false

namespace Verif.Layering

open Verif.IR (Expr Coef Env)

variable {F : Type}

/-- Arguments of instructions are defined before they are used; call arguments are distinct.  `cur` is the next variable. -/
def ArgsOk : List (Verif.IR.Dest.Insn F) → Nat → Prop
  | [], _ => True
  | .internal e :: is, cur => (∀ v ∈ Expr.getVars e, 1 ≤ v ∧ v < cur) ∧ ArgsOk is (cur + 1)
  | .call _ xs n :: is, cur => (∀ v ∈ xs, 1 ≤ v ∧ v < cur) ∧ ArgsOk is (cur + n)
  | .constantLike _ :: is, cur => ArgsOk is (cur + 1)

/-- What validation guarantees about a circuit. -/
structure ProgOk (p : Prog F) : Prop where
  args : ArgsOk p.insns (p.numInputs + 1)
  cons : ∀ x ∈ p.cons, 1 ≤ x ∧ x < p.nv
  outs : ∀ x ∈ p.outs, 1 ≤ x ∧ x < p.nv
  outsNodup : p.outs.Nodup

theorem range'_get {cur n j : Nat} (h : j < n) : (List.range' cur n)[j]? = some (cur + j) := by
  rw [List.getElem?_range' h]; simp

theorem range'_get_iff {cur n j x : Nat} : (List.range' cur n)[j]? = some x ↔ j < n ∧ x = cur + j := by
  constructor
  · intro h
    have hj : j < n := by
      have := (List.getElem?_eq_some_iff.1 h).1
      simpa using this
    rw [range'_get hj] at h
    cases h
    exact ⟨hj, rfl⟩
  · rintro ⟨h, rfl⟩; exact range'_get h

/-- Outputs of calls and the definitions of variables. -/
theorem defsOf_out : ∀ (is : List (Verif.IR.Dest.Insn F)) (k cur i k' j : Nat), (defsOf is k)[i]? = some (.out k' j) ↔
    k ≤ k' ∧ ∃ q, (callsOf is cur)[k' - k]? = some q ∧ q.outputs[j]? = some (cur + i) := by
  intro is
  induction is with
  | nil => intro k cur i k' j; simp [defsOf, callsOf]
  | cons a is ih =>
    intro k cur i k' j
    have ge : ∀ (cur : Nat) (q : Call) (m : Nat), (callsOf is cur)[m]? = some q → ∀ y ∈ q.outputs, cur ≤ y := by
      clear ih
      induction is with
      | nil => intro cur q m h; simp [callsOf] at h
      | cons b is ih2 =>
        intro cur q m h y hy
        cases b with
        | internal e => have := ih2 (cur + 1) q m h y hy; omega
        | constantLike e => have := ih2 (cur + 1) q m h y hy; omega
        | call d xs n =>
          cases m with
          | zero =>
            simp only [callsOf, List.getElem?_cons_zero, Option.some.injEq] at h
            subst h
            have := List.mem_range'_1.1 hy
            omega
          | succ m =>
            have := ih2 (cur + n) q m h y hy; omega
    cases a with
    | internal e =>
      cases i with
      | zero =>
        simp only [defsOf, callsOf, List.getElem?_cons_zero]
        constructor
        · intro h; cases h
        · rintro ⟨h1, q, h2, h3⟩
          have := ge _ q _ h2 _ (List.mem_of_getElem? h3)
          omega
      | succ i =>
        simp only [defsOf, callsOf, List.getElem?_cons_succ]
        rw [ih k (cur + 1) i k' j, show cur + 1 + i = cur + (i + 1) by omega]
    | constantLike e =>
      cases i with
      | zero =>
        simp only [defsOf, callsOf, List.getElem?_cons_zero]
        constructor
        · intro h; cases h
        · rintro ⟨h1, q, h2, h3⟩
          have := ge _ q _ h2 _ (List.mem_of_getElem? h3)
          omega
      | succ i =>
        simp only [defsOf, callsOf, List.getElem?_cons_succ]
        rw [ih k (cur + 1) i k' j, show cur + 1 + i = cur + (i + 1) by omega]
    | call d xs n =>
      simp only [defsOf, callsOf]
      by_cases hi : i < n
      · rw [List.getElem?_append_left (by simpa using hi), List.getElem?_map, List.getElem?_range hi]
        simp only [Option.map_some, Option.some.injEq, Def.out.injEq]
        constructor
        · rintro ⟨rfl, rfl⟩
          exact ⟨le_refl _, ⟨d, xs, List.range' cur n⟩, by simp, range'_get hi⟩
        · rintro ⟨h1, q, h2, h3⟩
          cases hk : k' - k with
          | zero =>
            rw [hk] at h2
            simp only [List.getElem?_cons_zero, Option.some.injEq] at h2
            subst h2
            have := range'_get_iff.1 h3
            omega
          | succ m =>
            rw [hk] at h2
            simp only [List.getElem?_cons_succ] at h2
            have := ge _ q _ h2 _ (List.mem_of_getElem? h3)
            omega
      · rw [List.getElem?_append_right (by simpa using hi), List.length_map, List.length_range, ih (k + 1) (cur + n)]
        constructor
        · rintro ⟨h1, q, h2, h3⟩
          refine ⟨by omega, q, ?_, ?_⟩
          · rw [show k' - k = (k' - (k + 1)) + 1 by omega, List.getElem?_cons_succ]; exact h2
          · rw [h3]; congr 1; omega
        · rintro ⟨h1, q, h2, h3⟩
          cases hk : k' - k with
          | zero =>
            rw [hk] at h2
            simp only [List.getElem?_cons_zero, Option.some.injEq] at h2
            subst h2
            have := range'_get_iff.1 h3
            omega
          | succ m =>
            rw [hk] at h2
            simp only [List.getElem?_cons_succ] at h2
            refine ⟨by omega, q, ?_, ?_⟩
            · rw [show k' - (k + 1) = m by omega]; exact h2
            · rw [h3]; congr 1; omega

theorem defsOf_len (is : List (Verif.IR.Dest.Insn F)) : ∀ k k' : Nat, (defsOf is k).length = (defsOf is k').length := by
  induction is with
  | nil => intro k k'; rfl
  | cons a is ih =>
    intro k k'
    cases a with
    | internal e => simp [defsOf, ih k k']
    | constantLike e => simp [defsOf, ih k k']
    | call d xs n => simp [defsOf, ih (k + 1) (k' + 1)]

theorem callsOf_outputs : ∀ (is : List (Verif.IR.Dest.Insn F)) (cur : Nat) (q : Call), q ∈ callsOf is cur →
    q.outputs.Nodup ∧ ∀ y ∈ q.outputs, cur ≤ y ∧ y < cur + (defsOf is 0).length := by
  intro is
  induction is with
  | nil => intro cur q h; cases h
  | cons a is ih =>
    intro cur q h
    cases a with
    | internal e =>
      obtain ⟨h1, h2⟩ := ih _ _ h
      refine ⟨h1, fun y hy => ?_⟩
      have := h2 y hy
      simp only [defsOf, List.length_cons]; omega
    | constantLike e =>
      obtain ⟨h1, h2⟩ := ih _ _ h
      refine ⟨h1, fun y hy => ?_⟩
      have := h2 y hy
      simp only [defsOf, List.length_cons]; omega
    | call d xs n =>
      have hl : (defsOf (.call d xs n :: is) 0).length = n + (defsOf is 0).length := by
        simp [defsOf, defsOf_len is (0 + 1) 0]
      rw [hl]
      rcases List.mem_cons.1 h with e | e
      · subst e
        refine ⟨List.nodup_range', fun y hy => ?_⟩
        have := List.mem_range'_1.1 hy
        omega
      · obtain ⟨h1, h2⟩ := ih _ _ e
        refine ⟨h1, fun y hy => ?_⟩
        have := h2 y hy
        omega

theorem callsOf_inputs : ∀ (is : List (Verif.IR.Dest.Insn F)) (cur : Nat), ArgsOk is cur → ∀ q ∈ callsOf is cur,
    ∀ v ∈ q.inputs, 1 ≤ v ∧ v < cur + (defsOf is 0).length := by
  intro is
  induction is with
  | nil => intro cur _ q h; cases h
  | cons a is ih =>
    intro cur hok q h v hv
    cases a with
    | internal e =>
      have := ih _ hok.2 _ h v hv
      simp only [defsOf, List.length_cons]; omega
    | constantLike e =>
      have := ih _ hok _ h v hv
      simp only [defsOf, List.length_cons]; omega
    | call d xs n =>
      have hl : (defsOf (.call d xs n :: is) 0).length = n + (defsOf is 0).length := by
        simp [defsOf, defsOf_len is (0 + 1) 0]
      rw [hl]
      rcases List.mem_cons.1 h with e | e
      · subst e
        have := hok.1 v hv
        omega
      · have := ih _ hok.2 _ e v hv
        omega

theorem defsOf_expr : ∀ (is : List (Verif.IR.Dest.Insn F)) (cur k : Nat), ArgsOk is cur → ∀ (i : Nat) (e : Expr F), (defsOf is k)[i]? = some (.expr e) →
    ∀ v ∈ Expr.getVars e, 1 ≤ v ∧ v < cur + i := by
  intro is
  induction is with
  | nil => intro cur k _ i e h; simp [defsOf] at h
  | cons a is ih =>
    intro cur k hok i e h v hv
    cases a with
    | internal e' =>
      cases i with
      | zero => simp [defsOf] at h; subst h; have := hok.1 v hv; omega
      | succ i => simp only [defsOf, List.getElem?_cons_succ] at h; have := ih _ _ hok.2 i e h v hv; omega
    | constantLike e' =>
      cases i with
      | zero => simp [defsOf] at h
      | succ i => simp only [defsOf, List.getElem?_cons_succ] at h; have := ih _ _ hok i e h v hv; omega
    | call d xs n =>
      simp only [defsOf] at h
      by_cases hi : i < n
      · rw [List.getElem?_append_left (by simpa using hi), List.getElem?_map, List.getElem?_range hi] at h
        cases h
      · rw [List.getElem?_append_right (by simpa using hi), List.length_map, List.length_range] at h
        have := ih _ _ hok.2 _ e h v hv
        omega

theorem edgesOf_mem (nv : Nat) : ∀ (is : List (Verif.IR.Dest.Insn F)) (cur k x y : Nat), (x, y) ∈ edgesOf nv is cur k ↔
    (∃ i e, (defsOf is k)[i]? = some (.expr e) ∧ y = cur + i ∧ x ∈ Expr.getVars e) ∨
    ∃ (j : Nat) (q : Call), (callsOf is cur)[j]? = some q ∧ ((y = nv + (k + j) ∧ x ∈ q.inputs) ∨ (x = nv + (k + j) ∧ y ∈ q.outputs)) := by
  intro is
  induction is with
  | nil => intro cur k x y; simp [edgesOf, defsOf, callsOf]
  | cons a is ih =>
    intro cur k x y
    cases a with
    | internal e =>
      simp only [edgesOf, List.mem_append, List.mem_map, List.mem_dedup, Prod.mk.injEq, ih, defsOf, callsOf]
      constructor
      · rintro (⟨v, h1, rfl, rfl⟩ | ⟨i, e', h1, h2, h3⟩ | h)
        · exact .inl ⟨0, e, rfl, rfl, h1⟩
        · exact .inl ⟨i + 1, e', h1, by omega, h3⟩
        · exact .inr h
      · rintro (⟨i, e', h1, h2, h3⟩ | h)
        · cases i with
          | zero => simp at h1; subst h1; exact .inl ⟨x, h3, rfl, by omega⟩
          | succ i => exact .inr (.inl ⟨i, e', h1, by omega, h3⟩)
        · exact .inr (.inr h)
    | constantLike e =>
      simp only [edgesOf, ih, defsOf, callsOf]
      constructor
      · rintro (⟨i, e', h1, h2, h3⟩ | h)
        · exact .inl ⟨i + 1, e', h1, by omega, h3⟩
        · exact .inr h
      · rintro (⟨i, e', h1, h2, h3⟩ | h)
        · cases i with
          | zero => simp at h1
          | succ i => exact .inl ⟨i, e', h1, by omega, h3⟩
        · exact .inr h
    | call d xs n =>
      simp only [edgesOf, List.mem_append, List.mem_map, Prod.mk.injEq, ih, defsOf, callsOf]
      constructor
      · rintro (⟨v, h1, rfl, rfl⟩ | ⟨v, h1, rfl, rfl⟩ | ⟨i, e', h1, h2, h3⟩ | ⟨j, q, h1, h2⟩)
        · exact .inr ⟨0, _, rfl, .inl ⟨rfl, h1⟩⟩
        · exact .inr ⟨0, _, rfl, .inr ⟨rfl, h1⟩⟩
        · refine .inl ⟨n + i, e', ?_, by omega, h3⟩
          rw [List.getElem?_append_right (by simp)]
          simpa using h1
        · exact .inr ⟨j + 1, q, h1, by rw [show k + (j + 1) = k + 1 + j by omega]; exact h2⟩
      · rintro (⟨i, e', h1, h2, h3⟩ | ⟨j, q, h1, h2⟩)
        · by_cases hi : i < n
          · rw [List.getElem?_append_left (by simpa using hi), List.getElem?_map, List.getElem?_range hi] at h1
            cases h1
          · rw [List.getElem?_append_right (by simpa using hi), List.length_map, List.length_range] at h1
            exact .inr (.inr (.inl ⟨i - n, e', h1, by omega, h3⟩))
        · cases j with
          | zero =>
            simp only [List.getElem?_cons_zero, Option.some.injEq] at h1
            subst h1
            rcases h2 with ⟨h2, h3⟩ | ⟨h2, h3⟩
            · exact .inl ⟨x, h3, rfl, h2.symm⟩
            · exact .inr (.inl ⟨y, h3, h2.symm, rfl⟩)
          | succ j =>
            exact .inr (.inr (.inr ⟨j, q, h1, by rw [show k + 1 + j = k + (j + 1) by omega]; exact h2⟩))

theorem callsOf_length : ∀ (is : List (Verif.IR.Dest.Insn F)) (cur cur' : Nat), (callsOf is cur).length = (callsOf is cur').length := by
  intro is
  induction is with
  | nil => intro _ _; rfl
  | cons a is ih =>
    intro cur cur'
    cases a with
    | internal e => exact ih _ _
    | constantLike e => exact ih _ _
    | call d xs n => simp [callsOf, ih (cur + n) (cur' + n)]

theorem queueOf_mem (nv : Nat) : ∀ (is : List (Verif.IR.Dest.Insn F)) (cur k x : Nat), x ∈ queueOf nv is cur k →
    (cur ≤ x ∧ x < cur + (defsOf is 0).length) ∨ (nv + k ≤ x ∧ x < nv + k + (callsOf is cur).length) := by
  intro is
  induction is with
  | nil => intro cur k x h; cases h
  | cons a is ih =>
    intro cur k x h
    cases a with
    | internal e =>
      simp only [queueOf, List.mem_cons] at h
      simp only [defsOf, callsOf, List.length_cons]
      rcases h with rfl | h
      · left; omega
      · rcases ih _ _ _ h with h | h
        · left; omega
        · right; omega
    | constantLike e =>
      simp only [queueOf] at h
      simp only [defsOf, callsOf, List.length_cons]
      rcases ih _ _ _ h with h | h
      · left; omega
      · right; omega
    | call d xs n =>
      have hl : (defsOf (.call d xs n :: is) 0).length = n + (defsOf is 0).length := by
        simp [defsOf, defsOf_len is (0 + 1) 0]
      rw [hl]
      simp only [queueOf, List.mem_cons, List.mem_append, List.mem_range'_1] at h
      simp only [callsOf, List.length_cons]
      rcases h with rfl | h | h
      · right; omega
      · left; omega
      · rcases ih _ _ _ h with h | h
        · left; omega
        · right; omega

theorem queueOf_def (nv : Nat) : ∀ (is : List (Verif.IR.Dest.Insn F)) (cur k : Nat),
    (∀ (i : Nat) (d : Def F), (defsOf is k)[i]? = some d → cur + i ∈ constsOf is cur ∨ cur + i ∈ queueOf nv is cur k) ∧
    ∀ j < (callsOf is cur).length, nv + (k + j) ∈ queueOf nv is cur k := by
  intro is
  induction is with
  | nil => intro cur k; simp [defsOf, callsOf]
  | cons a is ih =>
    intro cur k
    cases a with
    | internal e =>
      obtain ⟨h1, h2⟩ := ih (cur + 1) k
      refine ⟨?_, ?_⟩
      · intro i d h
        cases i with
        | zero => right; simp [queueOf]
        | succ i =>
          simp only [defsOf, List.getElem?_cons_succ] at h
          rcases h1 i d h with h | h
          · left; rw [show cur + (i + 1) = cur + 1 + i by omega]; exact h
          · right; rw [show cur + (i + 1) = cur + 1 + i by omega]; exact List.mem_cons_of_mem _ h
      · intro j hj; exact List.mem_cons_of_mem _ (h2 j hj)
    | constantLike e =>
      obtain ⟨h1, h2⟩ := ih (cur + 1) k
      refine ⟨?_, ?_⟩
      · intro i d h
        cases i with
        | zero => left; simp [constsOf]
        | succ i =>
          simp only [defsOf, List.getElem?_cons_succ] at h
          rcases h1 i d h with h | h
          · left; rw [show cur + (i + 1) = cur + 1 + i by omega]; exact List.mem_cons_of_mem _ h
          · right; rw [show cur + (i + 1) = cur + 1 + i by omega]; exact h
      · intro j hj; exact h2 j hj
    | call d xs n =>
      obtain ⟨h1, h2⟩ := ih (cur + n) (k + 1)
      refine ⟨?_, ?_⟩
      · intro i d h
        simp only [defsOf] at h
        by_cases hi : i < n
        · right
          simp only [queueOf, List.mem_cons, List.mem_append, List.mem_range'_1]
          exact .inr (.inl (by omega))
        · rw [List.getElem?_append_right (by simpa using hi), List.length_map, List.length_range] at h
          rcases h1 _ d h with h | h
          · left; rw [show cur + i = cur + n + (i - n) by omega]; exact h
          · right
            rw [show cur + i = cur + n + (i - n) by omega]
            simp only [queueOf, List.mem_cons, List.mem_append]
            exact .inr (.inr h)
      · intro j hj
        simp only [queueOf, List.mem_cons, List.mem_append]
        cases j with
        | zero => left; rfl
        | succ j =>
          simp only [callsOf, List.length_cons] at hj
          refine .inr (.inr ?_)
          rw [show nv + (k + (j + 1)) = nv + (k + 1 + j) by omega]
          exact h2 j (by omega)

theorem constsOf_def : ∀ (is : List (Verif.IR.Dest.Insn F)) (cur k x : Nat), x ∈ constsOf is cur → ∃ i c, x = cur + i ∧ (defsOf is k)[i]? = some (.const c) := by
  intro is
  induction is with
  | nil => intro cur k x h; cases h
  | cons a is ih =>
    intro cur k x h
    cases a with
    | internal e =>
      obtain ⟨i, c, h1, h2⟩ := ih _ k _ h
      exact ⟨i + 1, c, by omega, h2⟩
    | constantLike e =>
      rcases List.mem_cons.1 h with rfl | h
      · exact ⟨0, e, rfl, rfl⟩
      · obtain ⟨i, c, h1, h2⟩ := ih _ k _ h
        exact ⟨i + 1, c, by omega, h2⟩
    | call d xs n =>
      obtain ⟨i, c, h1, h2⟩ := ih _ (k + 1) _ h
      refine ⟨n + i, c, by omega, ?_⟩
      simp only [defsOf]
      rw [List.getElem?_append_right (by simp)]
      simpa using h2

/-- No edge leads backwards in the queue. -/
theorem queueOf_topo (nv : Nat) : ∀ (is : List (Verif.IR.Dest.Insn F)) (cur k : Nat), ArgsOk is cur → cur + (defsOf is 0).length ≤ nv →
    (queueOf nv is cur k).Pairwise (fun a b => (b, a) ∉ edgesOf nv is cur k) ∧ ∀ a, (a, a) ∉ edgesOf nv is cur k := by
  intro is
  induction is with
  | nil => intro cur k _ _; simp [queueOf, edgesOf]
  | cons a is ih =>
    intro cur k hok hnv
    have tgt : ∀ (cur k : Nat), cur + (defsOf is 0).length ≤ nv → ∀ x y, (x, y) ∈ edgesOf nv is cur k → (cur ≤ y ∧ y < nv) ∨ nv + k ≤ y := by
      intro cur k hn x y h
      rw [edgesOf_mem] at h
      rcases h with ⟨i, e, h1, h2, _⟩ | ⟨j, q, h1, ⟨h2, _⟩ | ⟨_, h2⟩⟩
      · left
        have : i < (defsOf is 0).length := by rw [defsOf_len is 0 k]; exact (List.getElem?_eq_some_iff.1 h1).1
        omega
      · right; omega
      · left
        have := (callsOf_outputs is cur q (List.mem_of_getElem? h1)).2 y h2
        omega
    cases a with
    | internal e =>
      have hl : (defsOf (.internal e :: is) 0).length = 1 + (defsOf is 0).length := by simp [defsOf]; omega
      rw [hl] at hnv
      obtain ⟨h1, h2⟩ := ih (cur + 1) k hok.2 (by omega)
      have t := tgt (cur + 1) k (by omega)
      have hq := queueOf_mem nv is (cur + 1) k
      simp only [queueOf, edgesOf, List.mem_append, List.mem_map, List.mem_dedup, Prod.mk.injEq, List.pairwise_cons]
      refine ⟨⟨?_, ?_⟩, ?_⟩
      · rintro b hb (⟨v, g1, rfl, _⟩ | g)
        · have := hok.1 v g1
          rcases hq _ hb with h | h <;> omega
        · rcases t _ _ g with h | h <;> omega
      · refine List.Pairwise.imp_of_mem ?_ h1
        rintro a b ha hb hab (⟨v, g1, rfl, rfl⟩ | g)
        · rcases hq _ ha with h | h <;> omega
        · exact hab g
      · rintro a (⟨v, g1, rfl, e⟩ | g)
        · have := hok.1 v g1; omega
        · exact h2 a g
    | constantLike e =>
      have hl : (defsOf (.constantLike e :: is) 0).length = 1 + (defsOf is 0).length := by simp [defsOf]; omega
      rw [hl] at hnv
      exact ih (cur + 1) k hok (by omega)
    | call d xs n =>
      have hl : (defsOf (.call d xs n :: is) 0).length = n + (defsOf is 0).length := by
        simp [defsOf, defsOf_len is (0 + 1) 0]
      rw [hl] at hnv
      obtain ⟨h1, h2⟩ := ih (cur + n) (k + 1) hok.2 (by omega)
      have t := tgt (cur + n) (k + 1) (by omega)
      have hq := queueOf_mem nv is (cur + n) (k + 1)
      have hxs := hok.1
      simp only [queueOf, edgesOf, List.mem_append, List.mem_map, Prod.mk.injEq, List.pairwise_cons, List.pairwise_append, List.mem_range'_1]
      refine ⟨⟨?_, ?_, ?_, ?_⟩, ?_⟩
      · rintro b hb (⟨v, g1, rfl, _⟩ | ⟨v, g1, rfl, g2⟩ | g)
        · have := hxs v g1
          rcases hb with hb | hb
          · omega
          · rcases hq _ hb with h | h <;> omega
        · omega
        · rcases t _ _ g with h | h <;> omega
      · refine List.Pairwise.imp_of_mem ?_ (List.pairwise_of_forall (l := List.range' cur n) (R := fun _ _ => True) (fun _ _ => trivial))
        rintro a b ha hb _ (⟨v, g1, rfl, rfl⟩ | ⟨v, g1, rfl, rfl⟩ | g)
        · have := List.mem_range'_1.1 ha; omega
        · have := List.mem_range'_1.1 hb; omega
        · have := List.mem_range'_1.1 ha
          rcases t _ _ g with h | h <;> omega
      · refine List.Pairwise.imp_of_mem ?_ h1
        rintro a b ha hb hab (⟨v, g1, rfl, rfl⟩ | ⟨v, g1, rfl, rfl⟩ | g)
        · rcases hq _ ha with h | h <;> omega
        · rcases hq _ hb with h | h <;> omega
        · exact hab g
      · rintro a ha b hb (⟨v, g1, rfl, rfl⟩ | ⟨v, g1, rfl, rfl⟩ | g)
        · omega
        · rcases hq _ hb with h | h <;> omega
        · rcases t _ _ g with h | h <;> omega
      · rintro a (⟨v, g1, rfl, e⟩ | ⟨v, g1, rfl, e⟩ | g)
        · have := hxs v g1; omega
        · omega
        · exact h2 a g

end Verif.Layering
