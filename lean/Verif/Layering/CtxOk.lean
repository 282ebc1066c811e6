import Verif.Layering.Ops

/-!
# What the proofs use of a context

`CtxOk` collects the facts about the result of `computeCtx` that the correctness of the generated gates rests on; they are proved of
`computeCtx` in `Verif.Layering.ScheduleOk`.
-/

set_option linter.unusedSectionVars false
set_option linter.unusedSimpArgs false

namespace Verif.Layering

open Verif.IR (Expr Coef Term VarSpec Env)
open Verif.Layered (Segment Gate Input Alloc LEnv)

variable {F : Type} [Field F] [DecidableEq F]

/-- Facts about a context, relative to the table of contexts. -/
structure CtxOk (tab : Nat → Option (Ctx F)) (c : Ctx F) : Prop where
  sub : ∀ (k : Nat) (q : Call), c.prog.calls[k]? = some q → ∃ s, tab q.sub = some s
  outLen : ∀ (k : Nat) (q : Call) (s : Ctx F), c.prog.calls[k]? = some q → tab q.sub = some s → q.outputs.length = s.prog.outs.length
  inLen : ∀ (k : Nat) (q : Call) (s : Ctx F), c.prog.calls[k]? = some q → tab q.sub = some s → q.inputs.length = s.prog.numInputs
  defOut : ∀ (x k j : Nat), c.prog.defn x = some (.out k j) ↔ ∃ q, c.prog.calls[k]? = some q ∧ q.outputs[j]? = some x
  outNodup : ∀ (k : Nat) (q : Call), c.prog.calls[k]? = some q → q.outputs.Nodup
  defLt : ∀ x d, c.prog.defn x = some d → 1 ≤ x ∧ x < c.prog.nv
  layIn : ∀ x, 1 ≤ x → x < c.prog.nv → c.prog.defn x = none → x ≤ c.prog.numInputs
  inNv : c.prog.numInputs < c.prog.nv
  lay0 : ∀ x, x ≤ c.prog.numInputs → c.prog.defn x = none ∧ c.lay x = 0
  layBig : ∀ x, c.prog.nv ≤ x → c.lay x = 0
  layPos : ∀ x d, c.prog.defn x = some d → 1 ≤ c.lay x
  outLay : ∀ (k : Nat) (q : Call) (s : Ctx F) (y : Nat), c.prog.calls[k]? = some q → tab q.sub = some s → y ∈ q.outputs → c.lay y = c.start k + s.outL
  inUse : ∀ (k : Nat) (q : Call) (y : Nat), c.prog.calls[k]? = some q → y ∈ q.inputs → 1 ≤ y ∧ y < c.prog.nv ∧ c.start k ∈ c.occOf y
  exprUse : ∀ x e v, c.prog.defn x = some (.expr e) → v ∈ Expr.getVars e → 1 ≤ v ∧ v < c.prog.nv ∧ c.lay x - 1 ∈ c.occOf v
  occSorted : ∀ x, (c.occOf x).Pairwise (· < ·)
  occHead : ∀ x, 1 ≤ x → x < c.prog.nv → (c.occOf x).head? = some (c.lay x)
  occLe : ∀ x j, j ∈ c.occOf x → j ≤ c.outL
  occRange : ∀ x j, j ∈ c.occOf x → 1 ≤ x ∧ x < c.prog.nv
  outsOcc : ∀ y, y ∈ c.prog.outs → c.outL ∈ c.occOf y
  outPos : 1 ≤ c.outL
  callEnd : ∀ (k : Nat) (q : Call) (s : Ctx F), c.prog.calls[k]? = some q → tab q.sub = some s → c.start k + s.outL ≤ c.outL
  mu1 : ∀ i, i < c.outL → c.mu.getD (i + 1) 0 ≤ i
  muOcc : ∀ x u i, i < c.outL → (u, i + 1) ∈ pairs (c.occOf x) → c.mu.getD (i + 1) 0 ≤ u
  muSub : ∀ (k : Nat) (q : Call) (s : Ctx F) (i : Nat), c.prog.calls[k]? = some q → tab q.sub = some s → c.start k ≤ i → i < c.start k + s.outL →
    c.mu.getD (i + 1) 0 ≤ s.mu.getD (i + 1 - c.start k) 0 + c.start k
  vars : ∀ j, j ≤ c.outL → c.varsOf j = varsAt c.prog c.occ c.outL c.cc j
  cc0 : c.cc.getD 0 none = none
  ccLen : ∀ j, c.outL < j → c.cc.getD j none = none
  ccId : ∀ j cc, c.cc.getD j none = some cc → c.prog.nv ≤ cc.id
  ccInj : ∀ j j' cc cc', c.cc.getD j none = some cc → c.cc.getD j' none = some cc' → cc.id = cc'.id → j = j'
  ccVars : ∀ j cc v, c.cc.getD (j + 1) none = some cc → v ∈ cc.vars →
    (1 ≤ v ∧ v < c.prog.nv ∧ j ∈ c.occOf v) ∨ ∃ cc', c.cc.getD j none = some cc' ∧ v = cc'.id
  ccSubs : ∀ j cc k, c.cc.getD (j + 1) none = some cc → k ∈ cc.subs →
    ∃ q s cc', c.prog.calls[k]? = some q ∧ tab q.sub = some s ∧ c.start k ≤ j ∧ s.cc.getD (j - c.start k) none = some cc'

/-- The calls of a circuit form a finite tree. -/
inductive Tree (tab : Nat → Option (Ctx F)) : Nat → Prop
  | mk {id : Nat} {c : Ctx F} (hc : tab id = some c) (h : ∀ (k : Nat) (q : Call), c.prog.calls[k]? = some q → Tree tab q.sub) : Tree tab id

namespace CtxOk

variable {tab : Nat → Option (Ctx F)} {c : Ctx F}

/-- A variable is stored only from its first layer on. -/
theorem lay_le (h : CtxOk tab c) {x j : Nat} (hj : j ∈ c.occOf x) : c.lay x ≤ j := by
  obtain ⟨h1, h2⟩ := h.occRange x j hj
  have hh := h.occHead x h1 h2
  have hs := h.occSorted x
  cases ho : c.occOf x with
  | nil => rw [ho] at hj; cases hj
  | cons a l =>
    rw [ho] at hj hh hs
    simp at hh
    rw [List.pairwise_cons] at hs
    rcases List.mem_cons.1 hj with e | e
    · omega
    · have := hs.1 j e; omega

theorem mem_vars (h : CtxOk tab c) {j x : Nat} (hj : j ≤ c.outL) : x ∈ c.varsOf j ↔
    (∃ cc, c.cc.getD j none = some cc ∧ x = cc.id) ∨ (j = c.outL ∧ x ∈ c.prog.outs) ∨ j ∈ c.occOf x := by
  have hfold : ∀ (l acc : List Nat), x ∈ l.foldl addNew acc ↔ x ∈ acc ∨ x ∈ l := by
    intro l
    induction l with
    | nil => intro acc; simp
    | cons a l ih =>
      intro acc
      rw [List.foldl_cons, ih]
      unfold addNew
      split
      · rename_i hm
        constructor
        · rintro (h | h)
          · exact .inl h
          · exact .inr (by simp [h])
        · rintro (h | h)
          · exact .inl h
          · rcases List.mem_cons.1 h with e | e
            · exact .inl (e ▸ hm)
            · exact .inr e
      · simp only [List.mem_append, List.mem_cons, List.not_mem_nil, or_false]
        tauto
  rw [h.vars j hj, varsAt, hfold]
  simp only [List.not_mem_nil, false_or, List.mem_append, List.mem_filter, List.mem_range, decide_eq_true_eq]
  have h1 : (x ∈ (match c.cc.getD j none with
      | some cc => [cc.id]
      | none => [])) ↔ ∃ cc, c.cc.getD j none = some cc ∧ x = cc.id := by
    cases c.cc.getD j none with
    | none => simp
    | some cc => simp
  have h2 : (x ∈ (if j = c.outL then c.prog.outs else [])) ↔ (j = c.outL ∧ x ∈ c.prog.outs) := by
    split
    · rename_i e; simp [e]
    · rename_i e; simp [e]
  have h3 : (x < c.prog.nv ∧ j ∈ c.occ.getD x []) ↔ j ∈ c.occOf x :=
    ⟨fun h => h.2, fun hh => ⟨(h.occRange x j hh).2, hh⟩⟩
  exact or_congr h1 (or_congr h2 h3)

/-- Stored variables other than the combined constraint are variables of the circuit, and have appeared. -/
theorem mem_vars_lt (h : CtxOk tab c) {j x : Nat} (hj : j ≤ c.outL) (hx : x ∈ c.varsOf j) (hlt : x < c.prog.nv) : j ∈ c.occOf x := by
  rcases (h.mem_vars hj).1 hx with ⟨cc, h1, h2⟩ | ⟨h1, h2⟩ | h1
  · have := h.ccId j cc h1; omega
  · rw [h1]; exact h.outsOcc x h2
  · exact h1

theorem mem_vars_ge (h : CtxOk tab c) {j x : Nat} (hj : j ≤ c.outL) (hx : x ∈ c.varsOf j) (hge : c.prog.nv ≤ x) :
    ∃ cc, c.cc.getD j none = some cc ∧ x = cc.id := by
  rcases (h.mem_vars hj).1 hx with h1 | ⟨h1, h2⟩ | h1
  · exact h1
  · have := h.occRange x _ (h.outsOcc x h2); omega
  · have := h.occRange x _ h1; omega

end CtxOk

/-- Call lengths of the callee as seen by the caller. -/
def depOf (tab : Nat → Option (Ctx F)) (c : Ctx F) (k : Nat) : Nat := ((subCtx tab c k).map (·.outL)).getD 0

theorem subCtx_of {tab : Nat → Option (Ctx F)} {c : Ctx F} {k : Nat} {q : Call} {s : Ctx F} (hq : c.prog.calls[k]? = some q) (hs : tab q.sub = some s) :
    subCtx tab c k = some s := by rw [subCtx, hq]; exact hs

theorem subCtx_some {tab : Nat → Option (Ctx F)} {c : Ctx F} {k : Nat} {s : Ctx F} (h : subCtx tab c k = some s) :
    ∃ q, c.prog.calls[k]? = some q ∧ tab q.sub = some s := by
  unfold subCtx at h
  obtain ⟨q, hq, hs⟩ := Option.bind_eq_some_iff.1 h
  exact ⟨q, hq, hs⟩

theorem depOf_of {tab : Nat → Option (Ctx F)} {c : Ctx F} {k : Nat} {q : Call} {s : Ctx F} (hq : c.prog.calls[k]? = some q) (hs : tab q.sub = some s) :
    depOf tab c k = s.outL := by rw [depOf, subCtx_of hq hs]; rfl

variable {tab : Nat → Option (Ctx F)}

theorem Same.refl {id : Nat} (ht : Tree tab id) : ∀ (i : Nat) (T : Trace F), Same tab id i T T := by
  induction ht with
  | mk hc h ih =>
    intro i T
    exact .mk hc (fun _ _ _ _ => rfl) (fun _ _ _ _ => rfl) (fun k q hq _ => ih k q hq _ _)

theorem Same.trans {id i : Nat} {T T' : Trace F} (h : Same tab id i T T') : ∀ {i' : Nat} {T'' : Trace F}, i ≤ i' → Same tab id i' T' T'' → Same tab id i T T'' := by
  induction h with
  | @mk id i T T' c hc hv hcc hsub ih =>
    intro i' T'' hle h2
    cases h2 with
    | @mk _ _ _ _ c' hc' hv' hcc' hsub' =>
      rw [hc] at hc'; cases hc'
      refine .mk hc ?_ ?_ ?_
      · intro x h1 h2 h3; rw [hv' x h1 h2 (by omega), hv x h1 h2 h3]
      · intro j cc h1 h2; rw [hcc' j cc (by omega) h2, hcc j cc h1 h2]
      · intro k q hq hk
        exact ih k q hq hk (by omega) (hsub' k q hq (by omega))

/-- For any inputs there is a trace that satisfies the equations of layer 0. -/
theorem ext0 {E : Env F} (hok : ∀ id c, tab id = some c → CtxOk tab c) {id : Nat} (ht : Tree tab id) : ∀ g : Nat → F, ∃ T : Trace F,
    (∀ x, T [] x = g x) ∧ EqAt E tab id 0 T := by
  induction ht with
  | @mk id c hc h ih =>
    intro g
    have ok := hok id c hc
    have key : ∀ k : Nat, ∃ T : Trace F, ∀ q, c.prog.calls[k]? = some q → (∀ (j y : Nat), q.inputs[j]? = some y → T [] (j + 1) = g y) ∧ EqAt E tab q.sub 0 T := by
      intro k
      cases hq : c.prog.calls[k]? with
      | none => exact ⟨fun _ _ => 0, fun q h => by cases h⟩
      | some q =>
        obtain ⟨T, h1, h2⟩ := ih k q hq (fun v => g (q.inputs.getD (v - 1) 0))
        refine ⟨T, fun q' e => ?_⟩
        cases e
        refine ⟨fun j y hy => ?_, h2⟩
        rw [h1]
        simp [List.getD_eq_getElem?_getD, hy]
    choose TT hTT using key
    refine ⟨fun p v => match p with
      | [] => g v
      | k :: p => TT k p v, fun x => rfl, .mk hc ?_ ?_ ?_ ?_⟩
    · intro x h1 h2 h3
      cases hd : c.prog.defn x with
      | none => simp [VarEq, hd]
      | some d => have := ok.layPos x d hd; omega
    · intro cc hcc; rw [ok.cc0] at hcc; cases hcc
    · intro k q hq hk j y hy
      exact (hTT k q hq).1 j y hy
    · intro k q s hq hs hk hk'
      have : (0 : Nat) - c.start k = 0 := by omega
      rw [this]
      exact (hTT k q hq).2

/-- The value of an expression only depends on its variables. -/
theorem expr_congr {E : Env F} {e : Expr F} {f g : Nat → F} {y : F} (h : ∀ v ∈ Expr.getVars e, f v = g v) :
    Expr.Sem E (fun v => some (f v)) e y → Expr.Sem E (fun v => some (g v)) e y := by
  intro hs
  refine Verif.IR.Expr.sem_local E e y ?_ hs
  intro v hv
  simp [h v hv]

/-- Equations keep holding when later values change. -/
theorem EqAt.of_same {E : Env F} (hok : ∀ id c, tab id = some c → CtxOk tab c) {id j : Nat} {T : Trace F} (h : EqAt E tab id j T) :
    ∀ {i : Nat} {T' : Trace F}, j ≤ i → Same tab id i T T' → EqAt E tab id j T' := by
  induction h with
  | @mk id j T c hc hv hcc hin hsub ih =>
    intro i T' hle hs
    have ok := hok id c hc
    cases hs with
    | @mk _ _ _ _ c' hc' sv scc ssub =>
      rw [hc] at hc'; cases hc'
      refine .mk hc ?_ ?_ ?_ ?_
      · intro x h1 h2 h3
        have he := hv x h1 h2 h3
        have hx := sv x h1 h2 (by omega)
        unfold VarEq at he ⊢
        cases hd : c.prog.defn x with
        | none => trivial
        | some d =>
          rw [hd] at he
          cases d with
          | expr e =>
            simp only at he ⊢
            rw [hx]
            refine expr_congr ?_ he
            intro v hv'
            obtain ⟨a, b, d⟩ := ok.exprUse x e v hd hv'
            exact (sv v a b (by have := ok.lay_le d; omega)).symm
          | const a => simp only at he ⊢; rw [hx]; exact he
          | out k jj =>
            simp only at he ⊢
            intro q s y hq hs' hy
            rw [hx, he q s y hq hs' hy]
            obtain ⟨q', hq', ho⟩ := (ok.defOut x k jj).1 hd
            rw [hq] at hq'; cases hq'
            have hl := ok.outLay k q s x hq hs' (List.mem_of_getElem? ho)
            have oks := hok _ _ hs'
            have hso := oks.outsOcc y (List.mem_of_getElem? hy)
            obtain ⟨y1, y2⟩ := oks.occRange y _ hso
            have hly := oks.lay_le hso
            cases ssub k q hq (by omega) with
            | @mk _ _ _ _ c'' hc'' sv' _ _ =>
              rw [hs'] at hc''; cases hc''
              exact (sv' y y1 y2 (by omega)).symm
      · intro cc hcc'
        obtain ⟨ys, h1, h2⟩ := hcc cc hcc'
        have hj0 : j ≠ 0 := by rintro rfl; rw [ok.cc0] at hcc'; cases hcc'
        obtain ⟨j, rfl⟩ : ∃ j', j = j' + 1 := ⟨j - 1, by omega⟩
        refine ⟨ys, ?_, ?_⟩
        · have hvs : ∀ v ∈ cc.vars, T' [] v = T [] v := by
            intro v hvv
            rcases ok.ccVars j cc v hcc' hvv with ⟨a, b, d⟩ | ⟨cc', hc2, rfl⟩
            · exact sv v a b (by have := ok.lay_le d; omega)
            · exact scc j cc' (by omega) hc2
          clear h2 hcc'
          generalize cc.vars = vs at h1 hvs
          induction h1 with
          | nil => exact .nil
          | @cons v y vs' ys' hvy hrest ih' =>
            refine .cons ?_ (ih' fun w hw => hvs w (by simp [hw]))
            rw [hvs v (by simp)]; exact hvy
        · rw [scc _ cc hle hcc', h2]
          congr 2
          apply List.map_congr_left
          intro k hk
          obtain ⟨q, s, cc', hq, hs', hst, hcs⟩ := ok.ccSubs j cc k hcc' hk
          rw [subCtx_of hq hs']
          cases ssub k q hq (by omega) with
          | @mk _ _ _ _ c'' hc'' sv' scc' _ =>
            rw [hs'] at hc''; cases hc''
            simp only [Option.map_some, Option.getD_some, Ctx.ccId, Nat.add_sub_cancel, hcs]
            exact (scc' (j - c.start k) cc' (by omega) hcs).symm
      · intro k q hq hk jj y hy
        have h0 := hin k q hq hk jj y hy
        obtain ⟨a, b, d⟩ := ok.inUse k q y hq (List.mem_of_getElem? hy)
        rw [sv y a b (by have := ok.lay_le d; omega), ← h0]
        obtain ⟨s, hs'⟩ := ok.sub k q hq
        have oks := hok _ _ hs'
        cases ssub k q hq (by omega) with
        | @mk _ _ _ _ c'' hc'' sv' _ _ =>
          rw [hs'] at hc''; cases hc''
          have hlen := ok.inLen k q s hq hs'
          have hjj : jj < q.inputs.length := (List.getElem?_eq_some_iff.1 hy).1
          have := oks.lay0 (jj + 1) (by omega)
          refine sv' (jj + 1) (by omega) ?_ (by omega)
          have := oks.inNv; omega
      · intro k q s hq hs' h1 h2
        exact ih k q s hq hs' h1 h2 (by omega) (ssub k q hq (by omega))

end Verif.Layering
