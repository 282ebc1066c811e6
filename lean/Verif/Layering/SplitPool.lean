import Verif.Layering.SplitSem

/-!
# The pool of new circuits (for `ir_split.rs`)
-/

set_option linter.unusedSectionVars false
set_option linter.unusedSimpArgs false

namespace Verif.Layering.Split

open Verif.IR (Expr Coef Env dest Circuit RootCircuit WFGet CallsOk Calls CircOk InsnsOk numVars Run EvalSub readAll checkCons Constraint Term VarSpec)
open Verif.Layering

variable {F : Type} [Field F] [DecidableEq F]

/-- Calls go to the first `k` circuits of the pool, with the right numbers of inputs and outputs. -/
def CallsIn (pool : List (Prog F)) (k : Nat) (is : List (Verif.IR.Dest.Insn F)) : Prop :=
  ∀ d xs n, Verif.IR.Dest.Insn.call d xs n ∈ is → 1 ≤ d ∧ d ≤ k ∧ ∃ c, pool[d - 1]? = some c ∧ xs.length = c.numInputs ∧ n = c.outs.length

/-- The circuits of the pool are well-formed, without constraints, and call only earlier ones. -/
structure CircIn (npi : Nat) (pool : List (Prog F)) (k : Nat) (c : Prog F) : Prop where
  prog : RProgOk c
  cons : c.cons = []
  valid : ∀ i ∈ c.insns, Verif.IR.Dest.Insn.valid npi i = true
  calls : CallsIn pool k c.insns

def PoolOk (npi : Nat) (pool : List (Prog F)) : Prop := ∀ (i : Nat) (c : Prog F), pool[i]? = some c → CircIn npi pool i c

theorem prefix_get {α : Type} {l l' : List α} (h : l <+: l') {i : Nat} {a : α} (ha : l[i]? = some a) : l'[i]? = some a := by
  obtain ⟨t, rfl⟩ := h
  rw [List.getElem?_append_left (List.getElem?_eq_some_iff.1 ha).1]; exact ha

theorem CallsIn.mono {pool pool' : List (Prog F)} {k k' : Nat} {is : List (Verif.IR.Dest.Insn F)} (h : CallsIn pool k is) (hp : pool <+: pool') (hk : k ≤ k') : CallsIn pool' k' is := by
  intro d xs n hm
  obtain ⟨h1, h2, c, h3, h4, h5⟩ := h d xs n hm
  exact ⟨h1, by omega, c, prefix_get hp h3, h4, h5⟩

theorem CircIn.mono {npi : Nat} {pool pool' : List (Prog F)} {k k' : Nat} {c : Prog F} (h : CircIn npi pool k c) (hp : pool <+: pool') (hk : k ≤ k') : CircIn npi pool' k' c :=
  ⟨h.prog, h.cons, h.valid, h.calls.mono hp hk⟩

theorem poolAdd_spec {npi : Nat} {pool : List (Prog F)} {c : Prog F} (hp : PoolOk npi pool) (hc : CircIn npi pool pool.length c) :
    pool <+: (poolAdd pool c).2 ∧ PoolOk npi (poolAdd pool c).2 ∧ 1 ≤ (poolAdd pool c).1 ∧ (poolAdd pool c).2[(poolAdd pool c).1 - 1]? = some c := by
  unfold poolAdd
  by_cases h : c ∈ pool
  · rw [if_pos h]
    refine ⟨List.prefix_refl _, hp, by simp, ?_⟩
    simp only [Nat.add_sub_cancel]
    rw [List.getElem?_eq_getElem (List.idxOf_lt_length_iff.2 h)]
    simp
  · rw [if_neg h]
    have hpre : pool <+: pool ++ [c] := List.prefix_append _ _
    refine ⟨hpre, ?_, by simp, by simp⟩
    intro i c' hi
    by_cases hi' : i < pool.length
    · simp only [List.getElem?_append_left hi'] at hi
      exact (hp i c' hi).mono hpre (le_refl _)
    · have hl := (List.getElem?_eq_some_iff.1 hi).1
      simp only [List.length_append, List.length_singleton] at hl
      have : i = pool.length := by omega
      subst this
      simp at hi
      subst hi
      exact hc.mono hpre (le_refl _)

variable {E : Env F}

/-- What the circuits of the pool do. -/
def SubSem (E : Env F) (S : Nat → List F → List F → Prop) (pool : List (Prog F)) : Prop :=
  ∀ (i : Nat) (c : Prog F), pool[i]? = some c → ∀ ins outs, S (i + 1) ins outs ↔
    ins.length = c.numInputs ∧ ∃ W, InputsAre W ins ∧ HoldsAll E S W c.insns (c.numInputs + 1) ∧ outs = c.outs.map W

theorem SubSem.anti {S : Nat → List F → List F → Prop} {pool pool' : List (Prog F)} (h : SubSem E S pool') (hp : pool <+: pool') : SubSem E S pool :=
  fun i c hc => h i c (prefix_get hp hc)

/-- Calls always have a result. -/
def CallsTotal (S : Nat → List F → List F → Prop) (is : List (Verif.IR.Dest.Insn F)) : Prop :=
  ∀ d xs n, Verif.IR.Dest.Insn.call d xs n ∈ is → ∀ ins : List F, ins.length = xs.length → ∃ outs, S d ins outs ∧ outs.length = n

/-- Change the values of consecutive variables. -/
def put (P : Nat → F) (cur : Nat) (ys : List F) : Nat → F := fun x => if cur ≤ x ∧ x < cur + ys.length then ys.getD (x - cur) 0 else P x

theorem put_out {P : Nat → F} {cur : Nat} {ys : List F} {x : Nat} (h : x < cur ∨ cur + ys.length ≤ x) : put P cur ys x = P x := by
  rw [put, if_neg (by omega)]

theorem put_map (P : Nat → F) (cur : Nat) (ys : List F) : (List.range' cur ys.length).map (put P cur ys) = ys := by
  apply List.ext_getElem?
  intro j
  rw [List.getElem?_map]
  by_cases hj : j < ys.length
  · rw [range'_get hj]
    simp only [Option.map_some, put]
    rw [if_pos (by omega), Nat.add_sub_cancel_left, List.getD_eq_getElem?_getD, List.getElem?_eq_getElem hj]; rfl
  · rw [List.getElem?_eq_none (by simp; omega), List.getElem?_eq_none (by omega)]; rfl

theorem put_one (P : Nat → F) (cur : Nat) (y : F) : put P cur [y] cur = y := by
  rw [put, if_pos (by simp)]; simp

theorem coef_total (E : Env F) (c : Coef F) : ∃ y, c.Sem E y := by
  cases c with
  | const a => exact ⟨a, rfl⟩
  | random => exact ⟨0, trivial⟩
  | pub i => exact ⟨_, rfl⟩

/-- An instruction always has values. -/
theorem holds_total {S : Nat → List F → List F → Prop} {i : Verif.IR.Dest.Insn F} (ht : CallsTotal S [i]) (P : Nat → F) (cur : Nat) (ha : ∀ v ∈ argsOf i, v < cur) :
    ∃ ys : List F, ys.length = nOut i ∧ Holds E S (put P cur ys) i cur := by
  cases i with
  | internal e =>
    obtain ⟨y, hy⟩ := Verif.IR.Expr.sem_total E (fun v => some (P v)) e (fun _ _ => rfl)
    refine ⟨[y], rfl, ?_⟩
    simp only [Holds]; rw [put_one]
    exact expr_congr (fun v hv => (put_out (Or.inl (ha v hv))).symm) hy
  | constantLike c =>
    obtain ⟨y, hy⟩ := coef_total E c
    refine ⟨[y], rfl, ?_⟩
    simp only [Holds]; rw [put_one]; exact hy
  | call d xs n =>
    obtain ⟨ys, h1, h2⟩ := ht d xs n (by simp) (xs.map P) (by simp)
    refine ⟨ys, h2, ?_⟩
    simp only [Holds]
    rw [← h2, put_map, ← map_congr_mem (f := P) (g := put P cur ys) (l := xs) (fun v hv => (put_out (Or.inl (ha v hv))).symm)]
    exact h1

/-- Values of some of the variables extend to values of all of them. -/
theorem extend {S : Nat → List F → List F → Prop} {A : Nat → Prop} : ∀ (is : List (Verif.IR.Dest.Insn F)) (cur : Nat) (P : Nat → F), CallsTotal S is → ArgsOk is cur →
    (∀ p ∈ placed is cur, ((∀ v, p.2 ≤ v → v < p.2 + nOut p.1 → A v) ∧ (∀ v ∈ argsOf p.1, A v) ∧ Holds E S P p.1 p.2) ∨ (∀ v, p.2 ≤ v → v < p.2 + nOut p.1 → ¬ A v)) →
    ∃ W, (∀ x, x < cur ∨ A x → W x = P x) ∧ HoldsAll E S W is cur := by
  intro is
  induction is with
  | nil => intro cur P _ _ _; exact ⟨P, fun _ _ => rfl, trivial⟩
  | cons i is ih =>
    intro cur P ht ha hp
    have ht' : CallsTotal S is := fun d xs n hm => ht d xs n (by simp [hm])
    rw [argsOk_cons] at ha
    rcases hp (i, cur) (by simp [placed]) with ⟨h1, h2, h3⟩ | h1
    · obtain ⟨W, w1, w2⟩ := ih (cur + nOut i) P ht' ha.2 (fun p hm => hp p (by simp [placed, hm]))
      refine ⟨W, fun x hx => w1 x (hx.imp (fun h => by omega) id), h3.congr (fun v hv => (w1 v (Or.inr (h2 v hv))).symm) (fun v hv hv' => (w1 v (Or.inl hv')).symm), w2⟩
    · obtain ⟨ys, y1, y2⟩ := holds_total (E := E) (S := S) (i := i) (fun d xs n hm => ht d xs n (by simp at hm; simp [hm])) P cur (fun v hv => (ha.1 v hv).2)
      have hagree : ∀ x, x < cur ∨ A x → put P cur ys x = P x := by
        intro x hx
        refine put_out ?_
        by_contra hn
        have hx' : cur ≤ x ∧ x < cur + nOut i := by omega
        rcases hx with hx | hx
        · omega
        · exact h1 x hx'.1 hx'.2 hx
      obtain ⟨W, w1, w2⟩ := ih (cur + nOut i) (put P cur ys) ht' ha.2 (fun p hm => by
        rcases hp p (by simp [placed, hm]) with ⟨g1, g2, g3⟩ | g1
        · exact Or.inl ⟨g1, g2, g3.congr (fun v hv => (hagree v (Or.inr (g2 v hv))).symm) (fun v hv hv' => (hagree v (Or.inr (g1 v hv hv'))).symm)⟩
        · exact Or.inr g1)
      refine ⟨W, fun x hx => ?_, y2.congr (fun v hv => (w1 v (Or.inl (by have := (ha.1 v hv).2; omega))).symm) (fun v hv hv' => (w1 v (Or.inl hv')).symm), w2⟩
      rw [w1 x (hx.imp (fun h => by omega) id), hagree x hx]

/-- All circuits of the pool always have a result. -/
theorem sub_total {npi : Nat} {S : Nat → List F → List F → Prop} {pool : List (Prog F)} (hp : PoolOk npi pool) (hs : SubSem E S pool) : ∀ (i : Nat) (c : Prog F), pool[i]? = some c →
    ∀ ins : List F, ins.length = c.numInputs → ∃ outs, S (i + 1) ins outs ∧ outs.length = c.outs.length := by
  intro i
  induction i using Nat.strong_induction_on with
  | _ i ih =>
    intro c hc ins hins
    have h := hp i c hc
    have ht : CallsTotal S c.insns := by
      intro d xs n hm ins' hins'
      obtain ⟨h1, h2, c', h3, h4, h5⟩ := h.calls d xs n hm
      obtain ⟨outs, o1, o2⟩ := ih (d - 1) (by omega) c' h3 ins' (by omega)
      rw [Nat.sub_add_cancel h1] at o1
      exact ⟨outs, o1, by omega⟩
    obtain ⟨W, w1, w2⟩ := extend (E := E) (A := fun _ => False) c.insns (c.numInputs + 1) (fun x => ins.getD (x - 1) 0) ht h.prog.args (fun p _ => Or.inr fun _ _ _ => id)
    refine ⟨c.outs.map W, (hs i c hc _ _).2 ⟨hins, W, ?_, w2, rfl⟩, by simp⟩
    intro j v hj
    rw [w1 _ (Or.inl (by have := (List.getElem?_eq_some_iff.1 hj).1; omega)), Nat.add_sub_cancel, List.getD_eq_getElem?_getD, hj]; rfl

theorem calls_total {npi : Nat} {S : Nat → List F → List F → Prop} {pool : List (Prog F)} (hp : PoolOk npi pool) (hs : SubSem E S pool) {is : List (Verif.IR.Dest.Insn F)} {k : Nat}
    (h : CallsIn pool k is) : CallsTotal S is := by
  intro d xs n hm ins hins
  obtain ⟨h1, h2, c', h3, h4, h5⟩ := h d xs n hm
  obtain ⟨outs, o1, o2⟩ := sub_total hp hs (d - 1) c' h3 ins (by omega)
  rw [Nat.sub_add_cancel h1] at o1
  exact ⟨outs, o1, by omega⟩

end Verif.Layering.Split
