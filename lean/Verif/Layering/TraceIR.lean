import Verif.Layering.Table
import Verif.IR.Compose
import Verif.IR.SolveDup

/-!
# Evaluation of a circuit as a system of equations

A trace gives a value to every variable of every instance of a circuit.  Evaluating a circuit is the same as finding a trace that satisfies
the equation of every variable; the verdict tells whether all constraints of all instances hold.
-/

set_option linter.unusedSectionVars false
set_option linter.unusedSimpArgs false

namespace Verif.Layering

open Verif.IR (Expr Coef Env dest Circuit RootCircuit WFGet CallsOk Calls CircOk InsnsOk numVars Run EvalSub readAll checkCons Constraint)

variable {F : Type} [Field F] [DecidableEq F]

/-- All equations of a circuit and of the circuits it calls. -/
inductive Tr (E : Env F) (pg : Nat → Option (Prog F)) : Nat → Trace F → Prop
  | mk {id : Nat} {T : Trace F} {p : Prog F} (hp : pg id = some p)
      (he : ∀ x e, p.defn x = some (.expr e) → Expr.Sem E (fun v => some (T [] v)) e (T [] x))
      (ha : ∀ x a, p.defn x = some (.const a) → a.Sem E (T [] x))
      (hi : ∀ (k : Nat) (q : Call), p.calls[k]? = some q → ∀ (j y : Nat), q.inputs[j]? = some y → T [k] (j + 1) = T [] y)
      (ho : ∀ (k : Nat) (q : Call), p.calls[k]? = some q → ∀ (r : Prog F) (j x y : Nat), pg q.sub = some r → q.outputs[j]? = some x → r.outs[j]? = some y → T [] x = T [k] y)
      (hs : ∀ (k : Nat) (q : Call), p.calls[k]? = some q → Tr E pg q.sub (T.sub k)) : Tr E pg id T

/-- All constraints of a circuit and of the circuits it calls. -/
inductive Sat (pg : Nat → Option (Prog F)) : Nat → Trace F → Prop
  | mk {id : Nat} {T : Trace F} {p : Prog F} (hp : pg id = some p) (hc : ∀ v ∈ p.cons, T [] v = 0)
      (hs : ∀ (k : Nat) (q : Call), p.calls[k]? = some q → Sat pg q.sub (T.sub k)) : Sat pg id T

/-- What links a call to the caller. -/
structure CallEq (E : Env F) (pg : Nat → Option (Prog F)) (W : Nat → F) (q : Call) (t : Trace F) : Prop where
  ins : ∀ (j y : Nat), q.inputs[j]? = some y → t [] (j + 1) = W y
  outs : ∀ (r : Prog F) (j x y : Nat), pg q.sub = some r → q.outputs[j]? = some x → r.outs[j]? = some y → W x = t [] y
  tr : Tr E pg q.sub t

/-- The equations of a list of instructions; one trace for each call. -/
def InsnsEq (E : Env F) (pg : Nat → Option (Prog F)) (W : Nat → F) : List (Verif.IR.Dest.Insn F) → Nat → List (Trace F) → Prop
  | [], _, ts => ts = []
  | .internal e :: is, cur, ts => Expr.Sem E (fun v => some (W v)) e (W cur) ∧ InsnsEq E pg W is (cur + 1) ts
  | .constantLike a :: is, cur, ts => a.Sem E (W cur) ∧ InsnsEq E pg W is (cur + 1) ts
  | .call _ _ _ :: _, _, [] => False
  | .call d xs n :: is, cur, t :: ts => CallEq E pg W ⟨d, xs, List.range' cur n⟩ t ∧ InsnsEq E pg W is (cur + n) ts

variable {E : Env F} {pg : Nat → Option (Prog F)}

/-- The equations of the instructions, variable by variable. -/
theorem insnsEq_iff {W : Nat → F} : ∀ (is : List (Verif.IR.Dest.Insn F)) (cur k0 : Nat) (ts : List (Trace F)), InsnsEq E pg W is cur ts ↔
    ts.length = (callsOf is cur).length ∧ (∀ (i : Nat) (e : Expr F), (defsOf is k0)[i]? = some (Def.expr e) → Expr.Sem E (fun v => some (W v)) e (W (cur + i))) ∧
    (∀ (i : Nat) (a : Coef F), (defsOf is k0)[i]? = some (Def.const a) → a.Sem E (W (cur + i))) ∧
    ∀ (k : Nat) (q : Call) (t : Trace F), (callsOf is cur)[k]? = some q → ts[k]? = some t → CallEq E pg W q t := by
  intro is
  induction is with
  | nil => intro cur k0 ts; simp [InsnsEq, callsOf, defsOf]
  | cons a is ih =>
    intro cur k0 ts
    cases a with
    | internal e =>
      simp only [InsnsEq, callsOf, defsOf]
      rw [ih (cur + 1) k0 ts]
      constructor
      · rintro ⟨h0, h1, h2, h3, h4⟩
        refine ⟨h1, ?_, ?_, h4⟩
        · intro i e' hi
          cases i with
          | zero => simp at hi; subst hi; exact h0
          | succ i => rw [show cur + (i + 1) = cur + 1 + i by omega]; exact h2 i e' (by simpa using hi)
        · intro i a' hi
          cases i with
          | zero => simp at hi
          | succ i => rw [show cur + (i + 1) = cur + 1 + i by omega]; exact h3 i a' (by simpa using hi)
      · rintro ⟨h1, h2, h3, h4⟩
        refine ⟨h2 0 e rfl, h1, ?_, ?_, h4⟩
        · intro i e' hi; rw [show cur + 1 + i = cur + (i + 1) by omega]; exact h2 (i + 1) e' (by simpa using hi)
        · intro i e' hi; rw [show cur + 1 + i = cur + (i + 1) by omega]; exact h3 (i + 1) e' (by simpa using hi)
    | constantLike e =>
      simp only [InsnsEq, callsOf, defsOf]
      rw [ih (cur + 1) k0 ts]
      constructor
      · rintro ⟨h0, h1, h2, h3, h4⟩
        refine ⟨h1, ?_, ?_, h4⟩
        · intro i e' hi
          cases i with
          | zero => simp at hi
          | succ i => rw [show cur + (i + 1) = cur + 1 + i by omega]; exact h2 i e' (by simpa using hi)
        · intro i a' hi
          cases i with
          | zero => simp at hi; subst hi; exact h0
          | succ i => rw [show cur + (i + 1) = cur + 1 + i by omega]; exact h3 i a' (by simpa using hi)
      · rintro ⟨h1, h2, h3, h4⟩
        refine ⟨h3 0 e rfl, h1, ?_, ?_, h4⟩
        · intro i e' hi; rw [show cur + 1 + i = cur + (i + 1) by omega]; exact h2 (i + 1) e' (by simpa using hi)
        · intro i e' hi; rw [show cur + 1 + i = cur + (i + 1) by omega]; exact h3 (i + 1) e' (by simpa using hi)
    | call d xs n =>
      have hget : ∀ i, (defsOf (.call d xs n :: is) k0)[n + i]? = (defsOf is (k0 + 1))[i]? := by
        intro i
        simp only [defsOf]
        rw [List.getElem?_append_right (by simp)]
        simp
      have hlow : ∀ i dd, i < n → (defsOf (.call d xs n :: is) k0)[i]? = some dd → dd = .out k0 i := by
        intro i dd hi h
        simp only [defsOf] at h
        rw [List.getElem?_append_left (by simpa using hi), List.getElem?_map, List.getElem?_range hi] at h
        simpa using h.symm
      cases ts with
      | nil =>
        simp only [InsnsEq, callsOf]
        constructor
        · intro h; cases h
        · rintro ⟨h, -⟩; simp at h
      | cons t ts =>
        simp only [InsnsEq, callsOf]
        rw [ih (cur + n) (k0 + 1) ts]
        constructor
        · rintro ⟨h0, h1, h2, h3, h4⟩
          refine ⟨by simp [h1], ?_, ?_, ?_⟩
          · intro i e' hi
            by_cases hn : i < n
            · cases hlow i _ hn hi
            · obtain ⟨j, rfl⟩ : ∃ j, i = n + j := ⟨i - n, by omega⟩
              rw [hget] at hi
              rw [← Nat.add_assoc]; exact h2 j e' hi
          · intro i e' hi
            by_cases hn : i < n
            · cases hlow i _ hn hi
            · obtain ⟨j, rfl⟩ : ∃ j, i = n + j := ⟨i - n, by omega⟩
              rw [hget] at hi
              rw [← Nat.add_assoc]; exact h3 j e' hi
          · intro k q t' hq ht
            cases k with
            | zero => simp at hq ht; subst hq; subst ht; exact h0
            | succ k => exact h4 k q t' (by simpa using hq) (by simpa using ht)
        · rintro ⟨h1, h2, h3, h4⟩
          refine ⟨h4 0 _ t rfl rfl, by simpa using h1, ?_, ?_, ?_⟩
          · intro i e' hi; rw [Nat.add_assoc]; exact h2 (n + i) e' (by rw [hget]; exact hi)
          · intro i e' hi; rw [Nat.add_assoc]; exact h3 (n + i) e' (by rw [hget]; exact hi)
          · intro k q t' hq ht; exact h4 (k + 1) q t' (by simpa using hq) (by simpa using ht)

/-- Only the values of variables other than 0 matter. -/
theorem InsnsEq.congr {W W' : Nat → F} (hW : ∀ x, 1 ≤ x → W x = W' x) : ∀ {is : List (Verif.IR.Dest.Insn F)} {cur : Nat} {ts : List (Trace F)}, 1 ≤ cur → ArgsOk is cur →
    InsnsEq E pg W is cur ts → InsnsEq E pg W' is cur ts := by
  intro is
  induction is with
  | nil => intro cur ts _ _ h; exact h
  | cons a is ih =>
    intro cur ts hc hargs h
    cases a with
    | internal e =>
      obtain ⟨h1, h2⟩ := h
      refine ⟨?_, ih (by omega) hargs.2 h2⟩
      rw [← hW cur hc]
      exact expr_congr (fun v hv => hW v (hargs.1 v hv).1) h1
    | constantLike e =>
      obtain ⟨h1, h2⟩ := h
      refine ⟨?_, ih (by omega) hargs h2⟩
      rw [← hW cur hc]; exact h1
    | call d xs n =>
      cases ts with
      | nil => exact h.elim
      | cons t ts =>
        obtain ⟨h1, h2⟩ := h
        refine ⟨⟨?_, ?_, h1.tr⟩, ih (by omega) hargs.2 h2⟩
        · intro j y hy
          rw [← hW y (hargs.1 y (List.mem_of_getElem? hy)).1]
          exact h1.ins j y hy
        · intro r j x y hr hx hy
          have := List.mem_range'_1.1 (List.mem_of_getElem? hx)
          rw [← hW x (by omega)]
          exact h1.outs r j x y hr hx hy

section run
variable {relaxed : Bool} {get : Nat → Option (Circuit (dest E relaxed))}

/-- What the equations of a circuit mean. -/
def Means (get : Nat → Option (Circuit (dest E relaxed))) (id : Nat) (circ : Circuit (dest E relaxed)) : Prop :=
  ∀ (ins outs : List F) (b : Bool), ins.length = circ.numInputs → (EvalSub get circ ins outs b ↔
    ∃ T : Trace F, Tr E (progGet get) id T ∧ (∀ (j : Nat) (v : F), ins[j]? = some v → T [] (j + 1) = v) ∧ outs = circ.outputs.map (T []) ∧
      (b = true ↔ Sat (progGet get) id T))

theorem readAll_get {vs : List F} {is : List Nat} {xs : List F} (h : readAll vs is = some xs) : ∀ (j v : Nat), is[j]? = some v → xs[j]? = vs[v]? ∧ (vs[v]?).isSome :=
  fun j v hv => ⟨((Verif.IR.readAll_eq_some_iff.1 h).2 j v hv).2, ((Verif.IR.readAll_eq_some_iff.1 h).2 j v hv).1⟩

/-- A run of the instructions satisfies their equations. -/
theorem run_eq {W : Nat → F} {n0 : Nat} : ∀ {is : List (Verif.IR.Dest.Insn F)} {vs vs' : List F} {b : Bool}, ArgsOk is vs.length → CallsOk get is →
    (∀ d a n sub, Verif.IR.Dest.Insn.call d a n ∈ is → get d = some sub → Means get d sub) → Run get is vs vs' b → (∀ (i : Nat) (v : F), vs'[i]? = some v → W i = v) →
    ∃ ts, InsnsEq E (progGet get) W is vs.length ts ∧ (b = true ↔ ∀ (k : Nat) (q : Call) (t : Trace F), (callsOf is vs.length)[k]? = some q → ts[k]? = some t → Sat (progGet get) q.sub t) := by
  intro is
  induction is with
  | nil =>
    intro vs vs' b _ _ _ h _
    obtain ⟨rfl, rfl⟩ := (Verif.IR.run_nil_iff (L := dest E relaxed)).1 h
    exact ⟨[], rfl, by simp [callsOf]⟩
  | cons a is ih =>
    intro vs vs' b hargs hcalls hm h hW
    have hval : ∀ {ws : List F} {b' : Bool} {outs : List F}, Run get is (vs ++ outs) vs' b' → ∀ v, v < vs.length → vs[v]? = some (W v) := by
      intro ws b' outs hr v hv
      obtain ⟨t, rfl⟩ := Verif.IR.Run.prefix hr
      have := hW v vs[v] (by rw [List.append_assoc, List.getElem?_append_left hv]; exact List.getElem?_eq_getElem hv)
      rw [this]; exact List.getElem?_eq_getElem hv
    cases a with
    | internal e =>
      obtain ⟨outs, ⟨y, hy, rfl⟩, hr⟩ := (Verif.IR.run_prim_iff (L := dest E relaxed) rfl).1 h
      obtain ⟨ts, h1, h2⟩ := ih (by rw [List.length_append]; exact hargs.2) (fun i hi => hcalls i (by simp [hi])) (fun d a n sub hd => hm d a n sub (by simp [hd])) hr hW
      rw [List.length_append, List.length_singleton] at h1 h2
      refine ⟨ts, ⟨?_, h1⟩, h2⟩
      have e1 : W vs.length = y := by
        obtain ⟨t, rfl⟩ := Verif.IR.Run.prefix hr
        exact hW _ _ (by rw [List.append_assoc, List.getElem?_append_right (le_refl _)]; simp)
      rw [e1]
      refine Verif.IR.Expr.sem_local E e y ?_ hy
      intro v hv
      exact hval (ws := vs') hr v (hargs.1 v hv).2
    | constantLike e =>
      obtain ⟨outs, ⟨y, hy, rfl⟩, hr⟩ := (Verif.IR.run_prim_iff (L := dest E relaxed) rfl).1 h
      obtain ⟨ts, h1, h2⟩ := ih (by rw [List.length_append]; exact hargs) (fun i hi => hcalls i (by simp [hi])) (fun d a n sub hd => hm d a n sub (by simp [hd])) hr hW
      rw [List.length_append, List.length_singleton] at h1 h2
      refine ⟨ts, ⟨?_, h1⟩, h2⟩
      have e1 : W vs.length = y := by
        obtain ⟨t, rfl⟩ := Verif.IR.Run.prefix hr
        exact hW _ _ (by rw [List.append_assoc, List.getElem?_append_right (le_refl _)]; simp)
      rw [e1]; exact hy
    | call d xs n =>
      obtain ⟨sub, args, res, sb, b', hg, hread, hev, hr, rfl⟩ := (Verif.IR.run_call_iff (L := dest E relaxed) rfl).1 h
      obtain ⟨sub', hg', hlen, hn⟩ := hcalls (.call d xs n) (by simp) d xs n rfl
      rw [hg] at hg'; cases hg'
      have hres : res.length = n := by rw [hn]; exact Verif.IR.EvalSub.length hev
      obtain ⟨ts, h1, h2⟩ := ih (by rw [List.length_append, hres]; exact hargs.2) (fun i hi => hcalls i (by simp [hi])) (fun d a n sub hd => hm d a n sub (by simp [hd])) hr hW
      rw [List.length_append, hres] at h1 h2
      obtain ⟨t, t1, t2, t3, t4⟩ := (hm d xs n sub (by simp) hg args res sb (by rw [Verif.IR.readAll_length hread]; exact hlen)).1 hev
      refine ⟨t :: ts, ⟨⟨?_, ?_, t1⟩, h1⟩, ?_⟩
      · intro j y hy
        obtain ⟨r1, r2⟩ := readAll_get hread j y hy
        rw [hval (ws := vs') hr y (hargs.1 y (List.mem_of_getElem? hy)).2] at r1
        exact t2 j _ r1
      · intro r j x y hr' hx hy
        obtain ⟨hj, rfl⟩ := range'_get_iff.1 hx
        have : r = progOf sub := by
          have : progGet get d = some (progOf sub) := by rw [progGet, hg]; rfl
          rw [this] at hr'; cases hr'; rfl
        subst this
        obtain ⟨tt, htt⟩ := Verif.IR.Run.prefix hr
        refine hW _ _ ?_
        rw [htt, List.append_assoc, List.getElem?_append_right (by omega), Nat.add_sub_cancel_left, List.getElem?_append_left (by omega), t3, List.getElem?_map]
        rw [show sub.outputs[j]? = some y from hy]; rfl
      · rw [Bool.and_eq_true, t4, h2]
        constructor
        · rintro ⟨g1, g2⟩ k q t' hq ht
          cases k with
          | zero => simp [callsOf] at hq ht; subst hq; subst ht; exact g1
          | succ k => exact g2 k q t' (by simpa [callsOf] using hq) (by simpa using ht)
        · intro g
          exact ⟨g 0 _ t rfl rfl, fun k q t' hq ht => g (k + 1) q t' (by simpa [callsOf] using hq) (by simpa using ht)⟩

/-- The value vector of an assignment. -/
def vec (W : Nat → F) (n : Nat) : List F := (List.range n).map W

theorem vec_get {W : Nat → F} {n i : Nat} (h : i < n) : (vec W n)[i]? = some (W i) := by
  rw [vec, List.getElem?_map, List.getElem?_range h]; rfl

theorem vec_add (W : Nat → F) (n m : Nat) : vec W (n + m) = vec W n ++ (List.range' n m).map W := by
  rw [vec, vec, ← List.map_append, List.range_eq_range', List.range_eq_range', ← List.range'_append_1, Nat.zero_add]

theorem vec_length (W : Nat → F) (n : Nat) : (vec W n).length = n := by simp [vec]

/-- Values that satisfy the equations of the instructions form a run. -/
theorem eq_run {W : Nat → F} : ∀ {is : List (Verif.IR.Dest.Insn F)} {cur : Nat} {ts : List (Trace F)}, ArgsOk is cur → CallsOk get is →
    (∀ d a n sub, Verif.IR.Dest.Insn.call d a n ∈ is → get d = some sub → Means get d sub) → InsnsEq E (progGet get) W is cur ts →
    ∃ b, Run get is (vec W cur) (vec W (cur + (defsOf is 0).length)) b ∧
      (b = true ↔ ∀ (k : Nat) (q : Call) (t : Trace F), (callsOf is cur)[k]? = some q → ts[k]? = some t → Sat (progGet get) q.sub t) := by
  have hlen : ∀ (is : List (Verif.IR.Dest.Insn F)) (k k' : Nat), (defsOf is k).length = (defsOf is k').length := by
    intro is
    induction is with
    | nil => intro k k'; rfl
    | cons a is ih =>
      intro k k'
      cases a with
      | internal e => simp [defsOf, ih k k']
      | constantLike e => simp [defsOf, ih k k']
      | call d xs n => simp [defsOf, ih (k + 1) (k' + 1)]
  intro is
  induction is with
  | nil =>
    intro cur ts _ _ _ _
    exact ⟨true, .nil _, by simp [callsOf]⟩
  | cons a is ih =>
    intro cur ts hargs hcalls hm h
    cases a with
    | internal e =>
      obtain ⟨h1, h2⟩ := h
      obtain ⟨b, g1, g2⟩ := ih hargs.2 (fun i hi => hcalls i (by simp [hi])) (fun d a n sub hd => hm d a n sub (by simp [hd])) h2
      refine ⟨b, (Verif.IR.run_prim_iff (L := dest E relaxed) rfl).2 ⟨[W cur], ⟨W cur, ?_, rfl⟩, ?_⟩, g2⟩
      · refine Verif.IR.Expr.sem_local E e _ ?_ h1
        intro v hv
        exact (vec_get (hargs.1 v hv).2).symm
      · have : vec W cur ++ [W cur] = vec W (cur + 1) := by rw [vec_add]; rfl
        rw [this]
        simpa [defsOf, Nat.add_assoc, Nat.add_comm] using g1
    | constantLike e =>
      obtain ⟨h1, h2⟩ := h
      obtain ⟨b, g1, g2⟩ := ih hargs (fun i hi => hcalls i (by simp [hi])) (fun d a n sub hd => hm d a n sub (by simp [hd])) h2
      refine ⟨b, (Verif.IR.run_prim_iff (L := dest E relaxed) rfl).2 ⟨[W cur], ⟨W cur, h1, rfl⟩, ?_⟩, g2⟩
      have : vec W cur ++ [W cur] = vec W (cur + 1) := by rw [vec_add]; rfl
      rw [this]
      simpa [defsOf, Nat.add_assoc, Nat.add_comm] using g1
    | call d xs n =>
      cases ts with
      | nil => exact h.elim
      | cons t ts =>
        obtain ⟨h1, h2⟩ := h
        obtain ⟨b, g1, g2⟩ := ih hargs.2 (fun i hi => hcalls i (by simp [hi])) (fun d a n sub hd => hm d a n sub (by simp [hd])) h2
        obtain ⟨sub, hg, hlen1, hn⟩ := hcalls (.call d xs n) (by simp) d xs n rfl
        have hread : readAll (vec W cur) xs = some (xs.map W) := by
          rw [Verif.IR.readAll_eq_some_iff]
          refine ⟨by simp, fun j v hv => ?_⟩
          rw [vec_get (hargs.1 v (List.mem_of_getElem? hv)).2, List.getElem?_map, hv]
          exact ⟨rfl, rfl⟩
        have hpg : progGet get d = some (progOf sub) := by rw [progGet, hg]; rfl
        have hev : ∀ sb : Bool, (sb = true ↔ Sat (progGet get) d t) → EvalSub get sub (xs.map W) (sub.outputs.map (t [])) sb := by
          intro sb hsb
          refine (hm d xs n sub (by simp) hg _ _ sb (by simpa using hlen1)).2 ⟨t, h1.tr, ?_, rfl, hsb⟩
          intro j v hv
          rw [List.getElem?_map] at hv
          obtain ⟨y, hy, rfl⟩ := Option.map_eq_some_iff.1 hv
          exact h1.ins j y hy
        have houts : sub.outputs.map (t []) = (List.range' cur n).map W := by
          apply List.ext_getElem?
          intro j
          by_cases hj : j < n
          · rw [List.getElem?_map, List.getElem?_map, range'_get hj]
            have ho : sub.outputs[j]? = some _ := List.getElem?_eq_getElem (by omega)
            rw [ho]
            simp only [Option.map_some]
            rw [h1.outs _ j (cur + j) _ hpg (range'_get hj) ho]
          · rw [List.getElem?_eq_none (by simp; omega), List.getElem?_eq_none (by simp; omega)]
        classical
        refine ⟨decide (Sat (progGet get) d t) && b, (Verif.IR.run_call_iff (L := dest E relaxed) rfl).2
          ⟨sub, xs.map W, (List.range' cur n).map W, decide (Sat (progGet get) d t), b, hg, hread, ?_, ?_, rfl⟩, ?_⟩
        · rw [← houts]; exact hev _ (by simp)
        · rw [← vec_add]
          have e : (defsOf (.call d xs n :: is) 0).length = n + (defsOf is 0).length := by simp [defsOf, hlen is 1 0]
          rw [e, ← Nat.add_assoc]; exact g1
        · rw [Bool.and_eq_true, decide_eq_true_eq, g2]
          constructor
          · rintro ⟨a1, a2⟩ k q t' hq ht
            cases k with
            | zero => simp [callsOf] at hq ht; subst hq; subst ht; exact a1
            | succ k => exact a2 k q t' (by simpa [callsOf] using hq) (by simpa using ht)
          · intro g
            exact ⟨g 0 _ t rfl rfl, fun k q t' hq ht => g (k + 1) q t' (by simpa [callsOf] using hq) (by simpa using ht)⟩

end run

/-- The trace made of values for the circuit and traces for its calls. -/
def joinTrace (W : Nat → F) (ts : List (Trace F)) : Trace F := fun p v => match p with
  | [] => W v
  | k :: p => (ts.getD k (fun _ _ => 0)) p v

/-- Evaluation is solving the equations. -/
theorem means {relaxed : Bool} {get : Nat → Option (Circuit (dest E relaxed))} {npi : Option Nat} (hw : WFGet npi get) :
    ∀ id circ, get id = some circ → Means get id circ := by
  refine Verif.IR.call_induction hw.dag ?_
  intro id circ hg ih ins outs b hins
  have hargs : ArgsOk circ.instructions (circ.numInputs + 1) := argsOk_of _ _ (hw.circ id circ hg).insns
  have hcalls := hw.calls id circ hg
  have hm : ∀ d a n sub, Verif.IR.Dest.Insn.call d a n ∈ circ.instructions → get d = some sub → Means get d sub :=
    fun d a n sub hd hs => ih d sub ⟨circ, hg, _, hd, a, n, rfl⟩ hs
  have hpg : progGet get id = some (progOf circ) := by rw [progGet, hg]; rfl
  have hnv : ∀ x, x ≤ numVars circ.numInputs circ.instructions ↔ x < (progOf circ).nv := by
    intro x
    rw [numVars_defs circ.instructions circ.numInputs 0]
    simp only [Prog.nv, progOf]; omega
  have hdef : ∀ x d, (progOf circ).defn x = some d → ∃ i, x = circ.numInputs + 1 + i ∧ (defsOf circ.instructions 0)[i]? = some d := by
    intro x d h
    have hlt := defn_lt h
    unfold Prog.defn at h
    rw [if_neg (by omega)] at h
    exact ⟨x - (circ.numInputs + 1), by have : (progOf circ).numInputs = circ.numInputs := rfl; omega, h⟩
  have hdef' : ∀ i d, (defsOf circ.instructions 0)[i]? = some d → (progOf circ).defn (circ.numInputs + 1 + i) = some d := by
    intro i d h
    unfold Prog.defn
    have : (progOf circ).numInputs = circ.numInputs := rfl
    rw [if_neg (by omega), this, Nat.add_sub_cancel_left]; exact h
  constructor
  · rintro ⟨vs, sb, cb, hr, hk, ho, rfl⟩
    have hl : (0 :: ins).length = circ.numInputs + 1 := by simp [hins]
    obtain ⟨ts, h1, h2⟩ := run_eq (n0 := 0) (W := fun i => vs.getD i 0) (by rw [hl]; exact hargs) hcalls hm hr (fun i v hv => by simp [hv])
    rw [hl] at h1 h2
    obtain ⟨a1, a2, a3, a4⟩ := (insnsEq_iff circ.instructions _ 0 ts).1 h1
    have hts : ∀ (k : Nat) (q : Call), (progOf circ).calls[k]? = some q → ∃ t, ts[k]? = some t ∧ (joinTrace (fun i => vs.getD i 0) ts).sub k = t := by
      intro k q hq
      have hk : k < ts.length := by rw [a1]; exact (List.getElem?_eq_some_iff.1 hq).1
      refine ⟨ts[k], List.getElem?_eq_getElem hk, ?_⟩
      funext p v
      show (ts.getD k _) p v = _
      rw [List.getD_eq_getElem?_getD, List.getElem?_eq_getElem hk]; rfl
    have hvl : vs.length = numVars (circ.numInputs + 1) circ.instructions :=
      Verif.IR.Run.length (Verif.IR.dest_lawful E relaxed) hcalls hr _ hl
    have hvl' : vs.length = (progOf circ).nv := by
      rw [hvl, numVars_defs circ.instructions (circ.numInputs + 1) 0]; rfl
    refine ⟨joinTrace (fun i => vs.getD i 0) ts, .mk hpg ?_ ?_ ?_ ?_ ?_, ?_, ?_, ?_⟩
    · intro x e hx
      obtain ⟨i, rfl, hi⟩ := hdef x _ hx
      exact a2 i e hi
    · intro x e hx
      obtain ⟨i, rfl, hi⟩ := hdef x _ hx
      exact a3 i e hi
    · intro k q hq j y hy
      obtain ⟨t, ht1, ht2⟩ := hts k q hq
      have := (a4 k q t hq ht1).ins j y hy
      rw [← ht2] at this
      exact this
    · intro k q hq r j x y hr' hx hy
      obtain ⟨t, ht1, ht2⟩ := hts k q hq
      have := (a4 k q t hq ht1).outs r j x y hr' hx hy
      rw [← ht2] at this
      exact this
    · intro k q hq
      obtain ⟨t, ht1, ht2⟩ := hts k q hq
      rw [ht2]; exact (a4 k q t hq ht1).tr
    · intro j v hv
      obtain ⟨t, rfl⟩ := Verif.IR.Run.prefix hr
      have : ((0 :: ins) ++ t)[j + 1]? = some v := by
        rw [List.getElem?_append_left (by have := (List.getElem?_eq_some_iff.1 hv).1; simp; omega)]
        simpa using hv
      show ((0 :: ins) ++ t).getD (j + 1) 0 = v
      rw [List.getD_eq_getElem?_getD, this]; rfl
    · apply List.ext_getElem?
      intro j
      rw [List.getElem?_map]
      cases hj : circ.outputs[j]? with
      | none =>
        have := Verif.IR.readAll_length ho
        rw [List.getElem?_eq_none (by rw [this]; exact List.getElem?_eq_none_iff.1 hj)]; rfl
      | some y =>
        obtain ⟨r1, r2⟩ := readAll_get ho j y hj
        rw [r1]
        obtain ⟨z, hz⟩ := Option.isSome_iff_exists.1 r2
        rw [hz]
        show some z = some (vs.getD y 0)
        rw [List.getD_eq_getElem?_getD, hz]; rfl
    · have hcons : ∀ k ∈ circ.constraints, k.var < vs.length := by
        intro k hk
        have := (hw.circ id circ hg).cons k hk
        rw [hvl', ← hnv]; exact this.1
      rw [Verif.IR.SolveDup.checkCons_all (L := dest E relaxed) (fun _ _ => rfl) hcons] at hk
      cases hk
      rw [Bool.and_eq_true, h2, List.all_eq_true]
      constructor
      · rintro ⟨g1, g2⟩
        refine .mk hpg ?_ ?_
        · intro v hv
          obtain ⟨k, hk, rfl⟩ := List.mem_map.1 hv
          have := g2 k hk
          rw [decide_eq_true_eq] at this
          show vs.getD k.var 0 = 0
          rw [List.getD_eq_getElem?_getD, this]; rfl
        · intro k q hq
          obtain ⟨t, ht1, ht2⟩ := hts k q hq
          rw [ht2]; exact g1 k q t hq ht1
      · intro hsat
        cases hsat with
        | mk hp' hc hs =>
          rw [hpg] at hp'; cases hp'
          refine ⟨?_, ?_⟩
          · intro k q t hq ht
            obtain ⟨t', ht1, ht2⟩ := hts k q hq
            rw [ht] at ht1; cases ht1
            rw [← ht2]; exact hs k q hq
          · intro k hk
            rw [decide_eq_true_eq]
            have : vs.getD k.var 0 = 0 := hc k.var (List.mem_map.2 ⟨k, hk, rfl⟩)
            rw [List.getD_eq_getElem?_getD] at this
            rw [List.getElem?_eq_getElem (hcons k hk)] at this ⊢
            simpa using this
  · rintro ⟨T, hT, hi, rfl, hb⟩
    cases hT with
    | mk hp he ha hin hout hsub =>
      rw [hpg] at hp; cases hp
      have hW : ∀ x, 1 ≤ x → T [] x = (fun x => if x = 0 then 0 else T [] x) x := by
        intro x hx; dsimp only; rw [if_neg (by omega)]
      have hieq : InsnsEq E (progGet get) (T []) circ.instructions (circ.numInputs + 1) ((List.range (progOf circ).calls.length).map T.sub) := by
        rw [insnsEq_iff _ _ 0]
        refine ⟨by simp [Prog.calls, progOf], ?_, ?_, ?_⟩
        · intro i e h; exact he _ _ (hdef' i _ h)
        · intro i e h; exact ha _ _ (hdef' i _ h)
        · intro k q t hq ht
          have hk : k < (progOf circ).calls.length := (List.getElem?_eq_some_iff.1 hq).1
          rw [List.getElem?_map, List.getElem?_range hk] at ht
          simp at ht; subst ht
          exact ⟨hin k q hq, hout k q hq, hsub k q hq⟩
      obtain ⟨sb, g1, g2⟩ := eq_run (get := get) hargs hcalls hm (hieq.congr hW (by omega) hargs)
      have hv0 : vec (fun x => if x = 0 then 0 else T [] x) (circ.numInputs + 1) = 0 :: ins := by
        apply List.ext_getElem?
        intro i
        cases i with
        | zero => rw [vec_get (by omega)]; rfl
        | succ i =>
          by_cases hi' : i < circ.numInputs
          · rw [vec_get (by omega), if_neg (by omega), List.getElem?_cons_succ]
            have := List.getElem?_eq_getElem (l := ins) (i := i) (by omega)
            rw [this, hi i _ this]
          · rw [List.getElem?_eq_none (by rw [vec_length]; omega), List.getElem?_eq_none (by simp; omega)]
      rw [hv0] at g1
      have hnvv : circ.numInputs + 1 + (defsOf circ.instructions 0).length = (progOf circ).nv := rfl
      rw [hnvv] at g1
      have hcons : ∀ k ∈ circ.constraints, k.var < (vec (fun x => if x = 0 then 0 else T [] x) (progOf circ).nv).length := by
        intro k hk
        have := (hw.circ id circ hg).cons k hk
        rw [vec_length, ← hnv]; exact this.1
      refine ⟨_, sb, _, g1, Verif.IR.SolveDup.checkCons_all (L := dest E relaxed) (fun _ _ => rfl) hcons, ?_, ?_⟩
      · rw [Verif.IR.readAll_eq_some_iff]
        refine ⟨by simp, fun j v hv => ?_⟩
        have := (hw.circ id circ hg).outs v (List.mem_of_getElem? hv)
        rw [vec_get ((hnv v).1 this.1), List.getElem?_map, hv, if_neg this.2]
        exact ⟨rfl, rfl⟩
      · rw [Bool.eq_iff_iff, hb, Bool.and_eq_true, g2, List.all_eq_true]
        constructor
        · intro hsat
          cases hsat with
          | mk hp' hc hs =>
            rw [hpg] at hp'; cases hp'
            refine ⟨?_, ?_⟩
            · intro k q t hq ht
              have hk : k < (progOf circ).calls.length := (List.getElem?_eq_some_iff.1 hq).1
              rw [List.getElem?_map, List.getElem?_range hk] at ht
              simp at ht; subst ht
              exact hs k q hq
            · intro k hk
              have h1 := (hw.circ id circ hg).cons k hk
              rw [decide_eq_true_eq, vec_get ((hnv _).1 h1.1), if_neg h1.2, hc k.var (List.mem_map.2 ⟨k, hk, rfl⟩)]
        · rintro ⟨c1, c2⟩
          refine .mk hpg ?_ ?_
          · intro v hv
            obtain ⟨k, hk, rfl⟩ := List.mem_map.1 hv
            have h1 := (hw.circ id circ hg).cons k hk
            have := c2 k hk
            rw [decide_eq_true_eq, vec_get ((hnv _).1 h1.1), if_neg h1.2] at this
            simpa using this
          · intro k q hq
            refine c1 k q _ hq ?_
            have hk : k < (progOf circ).calls.length := (List.getElem?_eq_some_iff.1 hq).1
            rw [List.getElem?_map, List.getElem?_range hk]; rfl

end Verif.Layering
