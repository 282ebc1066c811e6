import Verif.Layering.TraceIR

/-!
# Layer equations and evaluation

The equations of all layers are the equations of the circuit together with those of the combined constraints; the combined constraints can
always be chosen zero, are zero when the constraints hold, and the last one can be chosen non-zero when a constraint fails.
-/

set_option linter.unusedSectionVars false
set_option linter.unusedSimpArgs false

namespace Verif.Layering

open Verif.IR (Expr Coef Env)

variable {F : Type} [Field F] [DecidableEq F] {E : Env F} {pg : Nat → Option (Prog F)} {tab : Nat → Option (Ctx F)}

/-- The equations of all combined constraints. -/
inductive CcAll (tab : Nat → Option (Ctx F)) : Nat → Trace F → Prop
  | mk {id : Nat} {T : Trace F} {c : Ctx F} (hc : tab id = some c) (h : ∀ j cc, c.cc.getD j none = some cc → CcEq tab c T j cc)
      (hs : ∀ (k : Nat) (q : Call), c.prog.calls[k]? = some q → CcAll tab q.sub (T.sub k)) : CcAll tab id T

/-- What the table has to satisfy. -/
structure TabOk (pg : Nat → Option (Prog F)) (tab : Nat → Option (Ctx F)) : Prop where
  ctx : ∀ id c, tab id = some c → CtxOk tab c
  prog : ∀ id c, tab id = some c → pg id = some c.prog
  cons : ∀ id c, tab id = some c → ∀ v ∈ c.prog.cons, v < c.prog.nv

theorem eqAt_iff (ht : TabOk pg tab) {id : Nat} (htree : Tree tab id) : ∀ (T : Trace F) (c : Ctx F), tab id = some c →
    ((∀ i ≤ c.outL, EqAt E tab id i T) ↔ Tr E pg id T ∧ CcAll tab id T) := by
  induction htree with
  | @mk id c hc h ih =>
    intro T c' hc'
    rw [hc] at hc'; cases hc'
    have ok := ht.ctx id c hc
    have layLe : ∀ x, 1 ≤ x → x < c.prog.nv → c.lay x ≤ c.outL := by
      intro x h1 h2
      exact ok.occLe x _ (List.mem_of_mem_head? (ok.occHead x h1 h2))
    constructor
    · intro hall
      have hcases : ∀ i ≤ c.outL, (∀ x, 1 ≤ x → x < c.prog.nv → c.lay x = i → VarEq E tab c T x) ∧ (∀ cc, c.cc.getD i none = some cc → CcEq tab c T i cc) ∧
          (∀ (k : Nat) (q : Call), c.prog.calls[k]? = some q → c.start k = i → ∀ (j y : Nat), q.inputs[j]? = some y → T [k] (j + 1) = T [] y) ∧
          (∀ (k : Nat) (q : Call) (s : Ctx F), c.prog.calls[k]? = some q → tab q.sub = some s → c.start k ≤ i → i ≤ c.start k + s.outL → EqAt E tab q.sub (i - c.start k) (T.sub k)) := by
        intro i hi
        cases hall i hi with
        | mk hc2 hv hcc hin hsub => rw [hc] at hc2; cases hc2; exact ⟨hv, hcc, hin, hsub⟩
      have hv : ∀ x d, c.prog.defn x = some d → VarEq E tab c T x := by
        intro x d hd
        obtain ⟨h1, h2⟩ := ok.defLt x d hd
        exact (hcases _ (layLe x h1 h2)).1 x h1 h2 rfl
      have hsubs : ∀ (k : Nat) (q : Call), c.prog.calls[k]? = some q → Tr E pg q.sub (T.sub k) ∧ CcAll tab q.sub (T.sub k) := by
        intro k q hq
        obtain ⟨s, hs⟩ := ok.sub k q hq
        refine (ih k q hq (T.sub k) s hs).1 ?_
        intro i hi
        have he := ok.callEnd k q s hq hs
        have := (hcases (c.start k + i) (by omega)).2.2.2 k q s hq hs (by omega) (by omega)
        rwa [Nat.add_sub_cancel_left] at this
      refine ⟨.mk (ht.prog id c hc) ?_ ?_ ?_ ?_ (fun k q hq => (hsubs k q hq).1), .mk hc ?_ (fun k q hq => (hsubs k q hq).2)⟩
      · intro x e hd
        have := hv x _ hd
        unfold VarEq at this
        rw [hd] at this; exact this
      · intro x e hd
        have := hv x _ hd
        unfold VarEq at this
        rw [hd] at this; exact this
      · intro k q hq
        obtain ⟨s, hs⟩ := ok.sub k q hq
        have he := ok.callEnd k q s hq hs
        exact (hcases (c.start k) (by omega)).2.2.1 k q hq rfl
      · intro k q hq r j x y hr hx hy
        have hd := (ok.defOut x k j).2 ⟨q, hq, hx⟩
        obtain ⟨s, hs⟩ := ok.sub k q hq
        have := hv x _ hd
        unfold VarEq at this
        rw [hd] at this
        have hps := ht.prog _ _ hs
        rw [hr] at hps; cases hps
        exact this q s y hq hs hy
      · intro j cc hcc
        have hj : j ≤ c.outL := by
          by_contra hn
          rw [ok.ccLen j (by omega)] at hcc; cases hcc
        exact (hcases j hj).2.1 cc hcc
    · rintro ⟨htr, hcc⟩
      cases htr with
      | mk hp he ha hi ho hs =>
        have := ht.prog id c hc
        rw [hp] at this; cases this
        cases hcc with
        | mk hc2 hce hcs =>
          rw [hc] at hc2; cases hc2
          intro i hile
          refine .mk hc ?_ (fun cc h => hce i cc h) (fun k q hq _ => hi k q hq) ?_
          · intro x h1 h2 _
            unfold VarEq
            cases hd : c.prog.defn x with
            | none => trivial
            | some d =>
              cases d with
              | expr e => exact he x e hd
              | const a => exact ha x a hd
              | out k j =>
                intro q s y hq hs' hy
                obtain ⟨q', hq', hx⟩ := (ok.defOut x k j).1 hd
                rw [hq] at hq'; cases hq'
                exact ho k q hq s.prog j x y (ht.prog _ _ hs') hx hy
          · intro k q s hq hs' h1 h2
            exact (ih k q hq (T.sub k) s hs').2 ⟨hs k q hq, hcs k q hq⟩ _ (by omega)

/-- Two traces give the same values to all variables; combined constraints may differ. -/
inductive EqV (tab : Nat → Option (Ctx F)) : Nat → Trace F → Trace F → Prop
  | mk {id : Nat} {T T' : Trace F} {c : Ctx F} (hc : tab id = some c) (hv : ∀ x, x < c.prog.nv → T' [] x = T [] x)
      (hs : ∀ (k : Nat) (q : Call), c.prog.calls[k]? = some q → EqV tab q.sub (T.sub k) (T'.sub k)) : EqV tab id T T'

theorem EqV.val {id : Nat} {T T' : Trace F} {c : Ctx F} (h : EqV tab id T T') (hc : tab id = some c) : ∀ x, x < c.prog.nv → T' [] x = T [] x := by
  cases h with
  | mk hc' hv _ => rw [hc] at hc'; cases hc'; exact hv

theorem EqV.tr (ht : TabOk pg tab) {id : Nat} {T T' : Trace F} (h : EqV tab id T T') : Tr E pg id T → Tr E pg id T' := by
  induction h with
  | @mk id T T' c hc hv hs ih =>
    intro h
    have ok := ht.ctx id c hc
    cases h with
    | mk hp he ha hi ho hsub =>
      have := ht.prog id c hc
      rw [hp] at this; cases this
      refine .mk hp ?_ ?_ ?_ ?_ (fun k q hq => ih k q hq (hsub k q hq))
      · intro x e hd
        rw [hv x (ok.defLt x _ hd).2]
        refine expr_congr ?_ (he x e hd)
        intro v hv'
        exact (hv v (ok.exprUse x e v hd hv').2.1).symm
      · intro x a hd
        rw [hv x (ok.defLt x _ hd).2]; exact ha x a hd
      · intro k q hq j y hy
        obtain ⟨s, hs'⟩ := ok.sub k q hq
        rw [hv y (ok.inUse k q y hq (List.mem_of_getElem? hy)).2.1, ← hi k q hq j y hy]
        refine (hs k q hq).val hs' (j + 1) ?_
        have h1 := ok.inLen k q s hq hs'
        have h2 := (ht.ctx _ _ hs').inNv
        have h3 : j < q.inputs.length := (List.getElem?_eq_some_iff.1 hy).1
        omega
      · intro k q hq r j x y hr hx hy
        obtain ⟨s, hs'⟩ := ok.sub k q hq
        have hps := ht.prog _ _ hs'
        rw [hr] at hps; cases hps
        rw [hv x (ok.defLt x _ ((ok.defOut x k j).2 ⟨q, hq, hx⟩)).2, ho k q hq _ j x y hr hx hy]
        have oks := ht.ctx _ _ hs'
        exact ((hs k q hq).val hs' y (oks.occRange y _ (oks.outsOcc y (List.mem_of_getElem? hy))).2).symm

theorem EqV.sat (ht : TabOk pg tab) {id : Nat} {T T' : Trace F} (h : EqV tab id T T') : Sat pg id T' → Sat pg id T := by
  induction h with
  | @mk id T T' c hc hv hs ih =>
    intro h
    cases h with
    | mk hp hcons hsub =>
      have := ht.prog id c hc
      rw [hp] at this; cases this
      refine .mk hp ?_ (fun k q hq => ih k q hq (hsub k q hq))
      intro v hv'
      rw [← hv v (ht.cons id c hc v hv')]; exact hcons v hv'

theorem forall₂_zero {nv : Nat} {W : Nat → F} : ∀ (vs : List Nat), (∀ v ∈ vs, nv ≤ v → W v = 0) →
    ∃ ys : List F, List.Forall₂ (fun v y => if nv ≤ v then y = W v else ∃ r, y = W v * r) vs ys ∧ ys.sum = 0 := by
  intro vs
  induction vs with
  | nil => intro _; exact ⟨[], .nil, rfl⟩
  | cons v vs ih =>
    intro h
    obtain ⟨ys, h1, h2⟩ := ih (fun w hw => h w (by simp [hw]))
    refine ⟨0 :: ys, .cons ?_ h1, by simp [h2]⟩
    split
    · rename_i hv; exact (h v (by simp) hv).symm
    · exact ⟨0, by simp⟩

theorem forall₂_one {nv : Nat} {W : Nat → F} {v : Nat} (hv : v < nv) (hW : W v ≠ 0) : ∀ (vs : List Nat), v ∈ vs → (∀ w ∈ vs, nv ≤ w → W w = 0) →
    ∃ ys : List F, List.Forall₂ (fun v y => if nv ≤ v then y = W v else ∃ r, y = W v * r) vs ys ∧ ys.sum = 1 := by
  intro vs
  induction vs with
  | nil => intro h; cases h
  | cons w vs ih =>
    intro hm h
    by_cases e : w = v
    · subst e
      obtain ⟨ys, h1, h2⟩ := forall₂_zero (nv := nv) (W := W) vs (fun x hx => h x (by simp [hx]))
      refine ⟨1 :: ys, .cons ?_ h1, by simp [h2]⟩
      rw [if_neg (by omega)]
      exact ⟨(W w)⁻¹, (mul_inv_cancel₀ hW).symm⟩
    · obtain ⟨ys, h1, h2⟩ := ih (by rcases List.mem_cons.1 hm with h | h; exact absurd h.symm e; exact h) (fun x hx => h x (by simp [hx]))
      refine ⟨0 :: ys, .cons ?_ h1, by simp [h2]⟩
      split
      · rename_i hv; exact (h w (by simp) hv).symm
      · exact ⟨0, by simp⟩

theorem forall₂_append_one {R : Nat → F → Prop} {vs : List Nat} {ys : List F} (h : List.Forall₂ R vs ys) {v : Nat} {y : F} (hv : R v y) :
    List.Forall₂ R (vs ++ [v]) (ys ++ [y]) := by
  induction h with
  | nil => exact .cons hv .nil
  | cons h1 _ ih => exact .cons h1 ih

/-- Change the combined constraints of a circuit and the traces of its calls. -/
def reCC (nv : Nat) (T : Trace F) (g : Nat → F) (ts : Nat → Trace F) : Trace F := fun p v => match p with
  | [] => if v < nv then T [] v else g v
  | k :: p => ts k p v

/-- Value of the combined constraint of a call seen by the caller. -/
theorem ccRead {c : Ctx F} (ok : CtxOk tab c) {j : Nat} {cc : CC} (hcc : c.cc.getD (j + 1) none = some cc) {k : Nat} (hk : k ∈ cc.subs) :
    ∃ (q : Call) (s : Ctx F) (cc' : CC), c.prog.calls[k]? = some q ∧ tab q.sub = some s ∧ c.start k ≤ j ∧ s.cc.getD (j - c.start k) none = some cc' ∧
      (((subCtx tab c k).map fun s => s.ccId (j + 1 - 1 - c.start k)).getD 0) = cc'.id := by
  obtain ⟨q, s, cc', h1, h2, h3, h4⟩ := ok.ccSubs j cc k hcc hk
  refine ⟨q, s, cc', h1, h2, h3, h4, ?_⟩
  rw [subCtx_of h1 h2]
  simp only [Option.map_some, Option.getD_some, Ctx.ccId, Nat.add_sub_cancel, h4]

theorem cc_pos {c : Ctx F} (ok : CtxOk tab c) {j : Nat} {cc : CC} (hcc : c.cc.getD j none = some cc) : ∃ j', j = j' + 1 := by
  cases j with
  | zero => rw [ok.cc0] at hcc; cases hcc
  | succ j => exact ⟨j, rfl⟩

/-- The combined constraints can be chosen to be zero. -/
theorem cc_zero (ht : TabOk pg tab) {id : Nat} (htree : Tree tab id) : ∀ T : Trace F, ∃ T', EqV tab id T T' ∧ CcAll tab id T' ∧
    ∀ c, tab id = some c → ∀ j cc, c.cc.getD j none = some cc → T' [] cc.id = 0 := by
  induction htree with
  | @mk id c hc h ih =>
    intro T
    have ok := ht.ctx id c hc
    have key : ∀ k : Nat, ∃ t : Trace F, ∀ q, c.prog.calls[k]? = some q → EqV tab q.sub (T.sub k) t ∧ CcAll tab q.sub t ∧
        ∀ c, tab q.sub = some c → ∀ j cc, c.cc.getD j none = some cc → t [] cc.id = 0 := by
      intro k
      cases hq : c.prog.calls[k]? with
      | none => exact ⟨fun _ _ => 0, fun q h => by cases h⟩
      | some q =>
        obtain ⟨t, ht⟩ := ih k q hq (T.sub k)
        exact ⟨t, fun q' e => by cases e; exact ht⟩
    choose ts hts using key
    have hid : ∀ j cc, c.cc.getD j none = some cc → reCC c.prog.nv T (fun _ => 0) ts [] cc.id = 0 := by
      intro j cc hcc
      have := ok.ccId j cc hcc
      simp only [reCC]
      rw [if_neg (by omega)]
    refine ⟨reCC c.prog.nv T (fun _ => 0) ts, .mk hc ?_ (fun k q hq => (hts k q hq).1), .mk hc ?_ (fun k q hq => (hts k q hq).2.1), ?_⟩
    · intro x hx; simp only [reCC]; rw [if_pos hx]
    · intro j cc hcc
      obtain ⟨j, rfl⟩ := cc_pos ok hcc
      obtain ⟨ys, h1, h2⟩ := forall₂_zero (nv := c.prog.nv) (W := reCC c.prog.nv T (fun _ => 0) ts []) cc.vars (by
        intro v _ hge
        simp only [reCC]
        rw [if_neg (by omega)])
      refine ⟨ys, h1, ?_⟩
      rw [hid _ cc hcc, h2, zero_add]
      symm
      apply List.sum_eq_zero
      intro y hy
      obtain ⟨k, hk, rfl⟩ := List.mem_map.1 hy
      obtain ⟨q, s, cc', e1, e2, e3, e4, e5⟩ := ccRead ok hcc hk
      rw [e5]
      exact (hts k q e1).2.2 s e2 _ cc' e4
    · intro c' hc' j cc hcc
      rw [hc] at hc'; cases hc'
      exact hid j cc hcc

/-- If all constraints hold, all combined constraints are zero. -/
theorem cc_sat (ht : TabOk pg tab) {root : Bool} {id : Nat} (htree : CcTree tab root id) : ∀ T : Trace F, Sat pg id T → CcAll tab id T →
    ∀ c, tab id = some c → ∀ j cc, c.cc.getD j none = some cc → T [] cc.id = 0 := by
  induction htree with
  | @mk root id c hc hok h ih =>
    intro T hsat hcc c' hc'
    rw [hc] at hc'; cases hc'
    have ok := ht.ctx id c hc
    cases hsat with
    | mk hp hcons hsub =>
      have := ht.prog id c hc
      rw [hp] at this; cases this
      cases hcc with
      | mk hc2 hce hcs =>
        rw [hc] at hc2; cases hc2
        intro j
        induction j with
        | zero => intro cc h0; rw [ok.cc0] at h0; cases h0
        | succ j ihj =>
          intro cc hcc
          obtain ⟨ys, h1, h2⟩ := hce _ cc hcc
          rw [h2]
          have e1 : ys.sum = 0 := by
            have hz : ∀ v ∈ cc.vars, T [] v = 0 := by
              intro v hv
              rcases hok.vars _ cc v hcc hv with h | ⟨_, h⟩
              · exact hcons v h
              · rcases ok.ccVars j cc v hcc hv with ⟨_, h', _⟩ | ⟨cc', h', rfl⟩
                · omega
                · exact ihj cc' h'
            clear h2
            generalize cc.vars = vs at h1 hz
            induction h1 with
            | nil => rfl
            | @cons v y vs ys hvy _ ih2 =>
              rw [List.sum_cons, ih2 (fun w hw => hz w (by simp [hw])), add_zero]
              split at hvy
              · rw [hvy]; exact hz v (by simp)
              · obtain ⟨r, rfl⟩ := hvy; rw [hz v (by simp), zero_mul]
          rw [e1, zero_add]
          apply List.sum_eq_zero
          intro y hy
          obtain ⟨k, hk, rfl⟩ := List.mem_map.1 hy
          obtain ⟨q, s, cc', e1, e2, e3, e4, e5⟩ := ccRead ok hcc hk
          rw [e5]
          exact ih k q e1 (T.sub k) (hsub k q e1) (hcs k q e1) s e2 _ cc' e4

theorem sum_single (k : Nat) (a : F) (f : Nat → F) : ∀ (l : List Nat), l.Nodup → k ∈ l → f k = a → (∀ x ∈ l, x ≠ k → f x = 0) → (l.map f).sum = a := by
  intro l
  induction l with
  | nil => intro _ h; cases h
  | cons b l ih =>
    intro hn hk hfa h0
    obtain ⟨hb, hl⟩ := List.nodup_cons.1 hn
    rw [List.map_cons, List.sum_cons]
    by_cases e : b = k
    · subst e
      rw [hfa, List.sum_eq_zero, add_zero]
      intro y hy
      obtain ⟨x, hx, rfl⟩ := List.mem_map.1 hy
      exact h0 x (by simp [hx]) (fun e => hb (e ▸ hx))
    · rw [h0 b (by simp) e, zero_add]
      exact ih hl (by rcases List.mem_cons.1 hk with h | h; exact absurd h.symm e; exact h) hfa (fun x hx => h0 x (by simp [hx]))

/-- If a constraint fails, the combined constraints can be chosen to show it: exactly one is non-zero, at the root all from some layer on. -/
theorem cc_fail (ht : TabOk pg tab) {root : Bool} {id : Nat} (htree : CcTree tab root id) : ∀ T : Trace F, ¬ Sat pg id T → ∃ T', EqV tab id T T' ∧ CcAll tab id T' ∧
    ∀ c, tab id = some c → ∃ j0 cc0, c.cc.getD j0 none = some cc0 ∧
      ∀ j cc, c.cc.getD j none = some cc → T' [] cc.id = if j = j0 ∨ (root = true ∧ j0 ≤ j) then 1 else 0 := by
  induction htree with
  | @mk root id c hc hok h ih =>
    intro T hns
    have ok := ht.ctx id c hc
    have hzt : ∀ k : Nat, ∃ t : Trace F, ∀ q, c.prog.calls[k]? = some q → EqV tab q.sub (T.sub k) t ∧ CcAll tab q.sub t ∧
        ∀ c, tab q.sub = some c → ∀ j cc, c.cc.getD j none = some cc → t [] cc.id = 0 := by
      intro k
      cases hq : c.prog.calls[k]? with
      | none => exact ⟨fun _ _ => 0, fun q h => by cases h⟩
      | some q =>
        obtain ⟨t, ht⟩ := cc_zero ht (h k q hq).tree (T.sub k)
        exact ⟨t, fun q' e => by cases e; exact ht⟩
    choose ts hts using hzt
    -- value of a combined constraint by number
    classical
    let g : Nat → Nat → F := fun j0 v => if ∃ j cc, c.cc.getD j none = some cc ∧ cc.id = v ∧ (j = j0 ∨ (root = true ∧ j0 ≤ j)) then 1 else 0
    have hg : ∀ (j0 : Nat) (ts : Nat → Trace F) j cc, c.cc.getD j none = some cc → reCC c.prog.nv T (g j0) ts [] cc.id = if j = j0 ∨ (root = true ∧ j0 ≤ j) then 1 else 0 := by
      intro j0 ts j cc hcc
      have := ok.ccId j cc hcc
      simp only [reCC]
      rw [if_neg (by omega)]
      show (if _ then _ else _) = _
      by_cases hh : j = j0 ∨ (root = true ∧ j0 ≤ j)
      · rw [if_pos hh, if_pos ⟨j, cc, hcc, rfl, hh⟩]
      · rw [if_neg hh, if_neg]
        rintro ⟨j', cc', hcc', he, hh'⟩
        have := ok.ccInj j' j cc' cc hcc' hcc he
        subst this
        exact hh hh'
    have hlow : ∀ (j0 : Nat) (ts : Nat → Trace F) x, x < c.prog.nv → reCC c.prog.nv T (g j0) ts [] x = T [] x := by
      intro j0 ts x hx; simp only [reCC]; rw [if_pos hx]
    -- the equation of a combined constraint, from the part that is not the previous one
    have fwd : root = true → ∀ (j0 n : Nat), (∃ cc, c.cc.getD j0 none = some cc) → j0 + n ≤ c.outL → ∃ cc, c.cc.getD (j0 + n) none = some cc := by
      intro hr j0 n h0
      induction n with
      | zero => intro _; exact h0
      | succ n ihn =>
        intro hn
        obtain ⟨cc, hcc⟩ := ihn (by omega)
        obtain ⟨cc', ws, h1, -⟩ := hok.chain hr _ cc hcc (by omega)
        exact ⟨cc', h1⟩
    have assemble : ∀ (j0 : Nat) (ts : Nat → Trace F) (j : Nat) (cc : CC), (∃ cc, c.cc.getD j0 none = some cc) → c.cc.getD (j + 1) none = some cc →
        (∀ vs : List Nat, (∀ v ∈ vs, v ∈ cc.vars) → (∀ v ∈ cc.vars, v < c.prog.nv → v ∈ vs) → (∀ v ∈ vs, c.prog.nv ≤ v → reCC c.prog.nv T (g j0) ts [] v = 0) →
          ∃ ys : List F, List.Forall₂ (fun v y => if c.prog.nv ≤ v then y = reCC c.prog.nv T (g j0) ts [] v else ∃ r, y = reCC c.prog.nv T (g j0) ts [] v * r) vs ys ∧
            ys.sum + (cc.subs.map fun k => reCC c.prog.nv T (g j0) ts [k] (((subCtx tab c k).map fun s => s.ccId (j + 1 - 1 - c.start k)).getD 0)).sum = if j + 1 = j0 then 1 else 0) →
        CcEq tab c (reCC c.prog.nv T (g j0) ts) (j + 1) cc := by
      intro j0 ts j cc hj0 hcc hpart
      by_cases hprev : root = true ∧ ∃ cc', c.cc.getD j none = some cc' ∧ j0 ≤ j
      · obtain ⟨hr, cc', hcc', hj0'⟩ := hprev
        have hjl : j < c.outL := by
          by_contra hn
          rw [ok.ccLen (j + 1) (by omega)] at hcc; cases hcc
        obtain ⟨cc'', ws, h1, h2, h3⟩ := hok.chain hr j cc' hcc' hjl
        rw [hcc] at h1; cases h1
        obtain ⟨ys, y1, y2⟩ := hpart ws (fun v hv => by rw [h2]; simp [hv]) (fun v hv hlt => by
          rw [h2, List.mem_append] at hv
          rcases hv with hv | hv
          · exact hv
          · have := ok.ccId _ _ hcc'; simp at hv; omega) (fun v hv hge => by have := h3 v hv; omega)
        rw [if_neg (by omega)] at y2
        refine ⟨ys ++ [1], ?_, ?_⟩
        · rw [h2]
          refine forall₂_append_one y1 ?_
          rw [if_pos (ok.ccId _ _ hcc'), hg j0 ts j cc' hcc', if_pos (.inr ⟨hr, hj0'⟩)]
        · rw [hg j0 ts _ cc hcc, if_pos (.inr ⟨hr, by omega⟩), List.sum_append, List.sum_singleton, add_right_comm, y2, zero_add]
      · obtain ⟨ys, y1, y2⟩ := hpart cc.vars (fun _ h => h) (fun _ h _ => h) (fun v hv hge => by
          rcases ok.ccVars j cc v hcc hv with ⟨_, h', _⟩ | ⟨cc', h', rfl⟩
          · omega
          · rw [hg j0 ts j cc' h', if_neg]
            rintro (e | ⟨e1, e2⟩)
            · rcases hok.vars _ cc _ hcc hv with h'' | ⟨h'', _⟩
              · have := ht.cons id c hc _ h''; omega
              · exact hprev ⟨h'', cc', h', by omega⟩
            · exact hprev ⟨e1, cc', h', e2⟩)
        refine ⟨ys, y1, ?_⟩
        rw [hg j0 ts _ cc hcc, y2]
        by_cases e : j + 1 = j0
        · rw [if_pos e, if_pos (.inl e)]
        · rw [if_neg e, if_neg]
          rintro (e' | ⟨e1, e2⟩)
          · exact e e'
          · -- a later layer: the previous combined constraint exists
            have hjl : j < c.outL := by
              by_contra hn
              rw [ok.ccLen (j + 1) (by omega)] at hcc; cases hcc
            obtain ⟨cc', h'⟩ := fwd e1 j0 (j - j0) hj0 (by omega)
            rw [show j0 + (j - j0) = j by omega] at h'
            exact hprev ⟨e1, cc', h', by omega⟩
    by_cases hown : ∃ v ∈ c.prog.cons, T [] v ≠ 0
    · obtain ⟨v, hv, hne⟩ := hown
      obtain ⟨j0, cc0, hcc0, hv0⟩ := hok.cov v hv
      have hvn := ht.cons id c hc v hv
      refine ⟨reCC c.prog.nv T (g j0) ts, .mk hc (hlow j0 ts) (fun k q hq => (hts k q hq).1), .mk hc ?_ (fun k q hq => (hts k q hq).2.1), ?_⟩
      · intro j cc hcc
        obtain ⟨j, rfl⟩ := cc_pos ok hcc
        refine assemble j0 ts j cc ⟨cc0, hcc0⟩ hcc ?_
        intro vs h1 h2 h3
        have hsub : (cc.subs.map fun k => reCC c.prog.nv T (g j0) ts [k] (((subCtx tab c k).map fun s => s.ccId (j + 1 - 1 - c.start k)).getD 0)).sum = 0 := by
          apply List.sum_eq_zero
          intro y hy
          obtain ⟨k, hk, rfl⟩ := List.mem_map.1 hy
          obtain ⟨q, s, cc', e1, e2, e3, e4, e5⟩ := ccRead ok hcc hk
          rw [e5]
          exact (hts k q e1).2.2 s e2 _ cc' e4
        rw [hsub]
        by_cases e : j + 1 = j0
        · rw [if_pos e]
          subst e
          rw [hcc0] at hcc; cases hcc
          obtain ⟨ys, y1, y2⟩ := forall₂_one (W := reCC c.prog.nv T (g (j + 1)) ts []) hvn (by rw [hlow _ ts v hvn]; exact hne) vs (h2 v hv0 hvn) h3
          exact ⟨ys, y1, by rw [y2, add_zero]⟩
        · rw [if_neg e]
          obtain ⟨ys, y1, y2⟩ := forall₂_zero (W := reCC c.prog.nv T (g j0) ts []) vs h3
          exact ⟨ys, y1, by rw [y2, add_zero]⟩
      · intro c' hc'
        rw [hc] at hc'; cases hc'
        exact ⟨j0, cc0, hcc0, hg j0 ts⟩
    · have hsubf : ∃ (k : Nat) (q : Call), c.prog.calls[k]? = some q ∧ ¬ Sat pg q.sub (T.sub k) := by
        by_contra hn
        push Not at hn hown
        exact hns (.mk (ht.prog id c hc) hown hn)
      obtain ⟨k, q, hq, hnk⟩ := hsubf
      obtain ⟨s, hs⟩ := ok.sub k q hq
      obtain ⟨t, t1, t2, t3⟩ := ih k q hq (T.sub k) hnk
      obtain ⟨j1, cc1, hcc1, t4⟩ := t3 s hs
      obtain ⟨cc0, hcc0, hk0⟩ := hok.covSub k q s j1 cc1 hq hs hcc1
      let ts' : Nat → Trace F := fun k' => if k' = k then t else ts k'
      have hts1 : ts' k = t := if_pos rfl
      have hts2 : ∀ k', k' ≠ k → ts' k' = ts k' := fun k' e => if_neg e
      refine ⟨reCC c.prog.nv T (g (c.start k + j1 + 1)) ts', .mk hc (hlow _ ts') ?_, .mk hc ?_ ?_, ?_⟩
      · intro k' q' hq'
        show EqV tab q'.sub (T.sub k') (ts' k')
        by_cases e : k' = k
        · subst e; rw [hq] at hq'; cases hq'; rw [hts1]; exact t1
        · rw [hts2 k' e]; exact (hts k' q' hq').1
      · intro j cc hcc
        obtain ⟨j, rfl⟩ := cc_pos ok hcc
        refine assemble _ ts' j cc ⟨cc0, hcc0⟩ hcc ?_
        intro vs h1 h2 h3
        obtain ⟨ys, y1, y2⟩ := forall₂_zero (W := reCC c.prog.nv T (g (c.start k + j1 + 1)) ts' []) vs h3
        refine ⟨ys, y1, ?_⟩
        rw [y2, zero_add]
        have hother : ∀ k' ∈ cc.subs, k' ≠ k → reCC c.prog.nv T (g (c.start k + j1 + 1)) ts' [k'] (((subCtx tab c k').map fun s => s.ccId (j + 1 - 1 - c.start k')).getD 0) = 0 := by
          intro k' hk' e
          obtain ⟨q', s', cc', e1, e2, e3, e4, e5⟩ := ccRead ok hcc hk'
          rw [e5]
          show ts' k' [] cc'.id = 0
          rw [hts2 k' e]
          exact (hts k' q' e1).2.2 s' e2 _ cc' e4
        have hself : k ∈ cc.subs → c.start k ≤ j ∧ reCC c.prog.nv T (g (c.start k + j1 + 1)) ts' [k] (((subCtx tab c k).map fun s => s.ccId (j + 1 - 1 - c.start k)).getD 0) =
            if j - c.start k = j1 then 1 else 0 := by
          intro hk'
          obtain ⟨q', s', cc', e1, e2, e3, e4, e5⟩ := ccRead ok hcc hk'
          rw [hq] at e1; cases e1
          rw [hs] at e2; cases e2
          refine ⟨e3, ?_⟩
          rw [e5]
          show ts' k [] cc'.id = _
          rw [hts1, t4 _ cc' e4]
          simp
        by_cases e : j + 1 = c.start k + j1 + 1
        · rw [if_pos e]
          have hkk : k ∈ cc.subs := by
            rw [← e, hcc] at hcc0; cases hcc0; exact hk0
          refine sum_single k 1 _ cc.subs (hok.subsNodup _ cc hcc) hkk ?_ hother
          rw [(hself hkk).2, if_pos (by omega)]
        · rw [if_neg e]
          apply List.sum_eq_zero
          intro y hy
          obtain ⟨k', hk', rfl⟩ := List.mem_map.1 hy
          by_cases e' : k' = k
          · subst e'
            obtain ⟨a1, a2⟩ := hself hk'
            rw [a2, if_neg (by omega)]
          · exact hother k' hk' e'
      · intro k' q' hq'
        show CcAll tab q'.sub (ts' k')
        by_cases e : k' = k
        · subst e; rw [hq] at hq'; cases hq'; rw [hts1]; exact t2
        · rw [hts2 k' e]; exact (hts k' q' hq').2.1
      · intro c' hc'
        rw [hc] at hc'; cases hc'
        exact ⟨_, cc0, hcc0, hg _ ts'⟩

/-- At the root a combined constraint at any layer means one at the output layer. -/
theorem root_out {id : Nat} {c : Ctx F} (ok : CtxOk tab c) (hok : CcOk tab true c) {j : Nat} {cc : CC} (h : c.cc.getD j none = some cc) :
    j ≤ c.outL ∧ ∃ cc', c.cc.getD c.outL none = some cc' := by
  have hj : j ≤ c.outL := by
    by_contra hn
    rw [ok.ccLen j (by omega)] at h; cases h
  refine ⟨hj, ?_⟩
  have : ∀ n, j + n ≤ c.outL → ∃ cc', c.cc.getD (j + n) none = some cc' := by
    intro n
    induction n with
    | zero => intro _; exact ⟨cc, h⟩
    | succ n ih =>
      intro hn
      obtain ⟨cc', h'⟩ := ih (by omega)
      obtain ⟨cc'', ws, h1, -⟩ := hok.chain rfl _ cc' h' (by omega)
      exact ⟨cc'', h1⟩
  obtain ⟨cc', h'⟩ := this (c.outL - j) (by omega)
  exact ⟨cc', by rwa [show j + (c.outL - j) = c.outL by omega] at h'⟩

end Verif.Layering
