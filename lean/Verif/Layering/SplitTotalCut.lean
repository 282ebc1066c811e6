import Verif.Layering.SplitExpand

/-!
# Cutting always succeeds (for `ir_split.rs`)
-/

set_option linter.unusedSectionVars false
set_option linter.unusedSimpArgs false

namespace Verif.Layering.Split

open Verif.IR (Expr Coef Env dest Circuit RootCircuit WFGet CallsOk Calls CircOk InsnsOk numVars Run EvalSub readAll checkCons Constraint Term VarSpec)
open Verif.Layering

variable {F : Type} [Field F] [DecidableEq F]

/-- Number of calls. -/
def ncalls : List (Verif.IR.Dest.Insn F) → Nat
  | [] => 0
  | .call _ _ _ :: is => ncalls is + 1
  | _ :: is => ncalls is

/-- The instructions with their first variables and, for calls, their starting layers. -/
def placedS : List (Verif.IR.Dest.Insn F) → Nat → List Nat → List (Verif.IR.Dest.Insn F × Nat × Nat)
  | [], _, _ => []
  | .call d xs n :: is, cur, scl => (.call d xs n, cur, scl.headD 0) :: placedS is (cur + n) scl.tail
  | .internal e :: is, cur, scl => (.internal e, cur, 0) :: placedS is (cur + 1) scl
  | .constantLike v :: is, cur, scl => (.constantLike v, cur, 0) :: placedS is (cur + 1) scl

theorem ncalls_append : ∀ (is js : List (Verif.IR.Dest.Insn F)), ncalls (is ++ js) = ncalls is + ncalls js
  | [], js => by simp [ncalls]
  | .call _ _ _ :: is, js => by simp only [List.cons_append, ncalls, ncalls_append is js]; omega
  | .internal _ :: is, js => by simp only [List.cons_append, ncalls, ncalls_append is js]
  | .constantLike _ :: is, js => by simp only [List.cons_append, ncalls, ncalls_append is js]

/-- The condition on one instruction: its arguments are on earlier layers, and no cut lies between the start of a call and its end. -/
def LayIn (mn sp : List Nat) (q : Verif.IR.Dest.Insn F × Nat × Nat) : Prop :=
  match q with
  | (.constantLike _, _, _) => True
  | (.internal e, cur, _) => ∀ x ∈ Expr.getVars e, layAt mn x < layAt mn cur
  | (.call _ xs n, cur, sc) => 0 < n → (∀ x ∈ xs, layAt mn x ≤ sc) ∧ sc < layAt mn cur ∧ ∀ s ∈ sp, s < layAt mn cur → s ≤ sc

theorem mem_placedS {is : List (Verif.IR.Dest.Insn F)} : ∀ {cur : Nat} {scl : List Nat} {i : Verif.IR.Dest.Insn F} {c : Nat}, (i, c) ∈ placed is cur → ∃ sc, (i, c, sc) ∈ placedS is cur scl := by
  induction is with
  | nil => intro cur scl i c h; cases h
  | cons j is ih =>
    intro cur scl i c h
    rcases List.mem_cons.1 h with h | h
    · cases h
      cases j <;> exact ⟨_, List.mem_cons_self⟩
    · cases j with
      | call d xs n => obtain ⟨sc, h⟩ := ih (scl := scl.tail) h; exact ⟨sc, List.mem_cons_of_mem _ h⟩
      | internal e => obtain ⟨sc, h⟩ := ih (scl := scl) h; exact ⟨sc, List.mem_cons_of_mem _ h⟩
      | constantLike v => obtain ⟨sc, h⟩ := ih (scl := scl) h; exact ⟨sc, List.mem_cons_of_mem _ h⟩

/-! ### `max_layers` -/

/-- Raise the entries `xs` to at least `b`. -/
def raise (b : Nat) (xs m : List Nat) : List Nat := xs.foldl (fun m x => m.set x (max (m.getD x 0) b)) m

theorem raise_length (b : Nat) : ∀ (xs m : List Nat), (raise b xs m).length = m.length
  | [], m => rfl
  | x :: xs, m => by rw [show raise b (x :: xs) m = raise b xs (m.set x (max (m.getD x 0) b)) from rfl, raise_length b xs]; simp

theorem raise_le (b : Nat) : ∀ (xs m : List Nat) (y : Nat), layAt m y ≤ layAt (raise b xs m) y
  | [], m, y => le_refl _
  | x :: xs, m, y => by
    rw [show raise b (x :: xs) m = raise b xs (m.set x (max (m.getD x 0) b)) from rfl]
    refine le_trans ?_ (raise_le b xs _ y)
    simp only [layAt, List.getD_eq_getElem?_getD, List.getElem?_set]
    split
    · rename_i h; subst h
      split
      · simp
      · rename_i h; simp [List.getElem?_eq_none (Nat.not_lt.1 h)]
    · exact le_refl _

theorem raise_ge (b : Nat) : ∀ (xs m : List Nat) (y : Nat), y ∈ xs → y < m.length → b ≤ layAt (raise b xs m) y
  | [], m, y, h, _ => by cases h
  | x :: xs, m, y, h, hl => by
    rw [show raise b (x :: xs) m = raise b xs (m.set x (max (m.getD x 0) b)) from rfl]
    by_cases hxy : y = x
    · subst hxy
      refine le_trans ?_ (raise_le b xs _ y)
      simp [layAt, List.getD_eq_getElem?_getD, List.getElem?_set, hl]
    · exact raise_ge b xs _ y ((List.mem_cons.1 h).resolve_left hxy) (by simpa using hl)

theorem raise_off (b : Nat) : ∀ (xs m : List Nat) (y : Nat), y ∉ xs → layAt (raise b xs m) y = layAt m y
  | [], m, y, _ => rfl
  | x :: xs, m, y, h => by
    rw [show raise b (x :: xs) m = raise b xs (m.set x (max (m.getD x 0) b)) from rfl, raise_off b xs _ y (fun hy => h (List.mem_cons_of_mem _ hy))]
    simp only [layAt, List.getD_eq_getElem?_getD, List.getElem?_set]
    rw [if_neg (fun e => h (by subst e; exact List.mem_cons_self))]

theorem maxPass_le (mn : List Nat) : ∀ (is : List (Verif.IR.Dest.Insn F)) (cur : Nat) (scl m : List Nat) (y : Nat), layAt m y ≤ layAt (maxPass mn is cur scl m) y
  | [], cur, scl, m, y => le_refl _
  | .internal e :: is, cur, scl, m, y => le_trans (raise_le _ (Expr.getVars e) m y) (maxPass_le mn is (cur + 1) scl (raise (layAt mn cur - 1) (Expr.getVars e) m) y)
  | .call _ xs n :: is, cur, scl, m, y => le_trans (raise_le _ xs m y) (maxPass_le mn is (cur + n) scl.tail (raise (scl.headD 0) xs m) y)
  | .constantLike _ :: is, cur, scl, m, y => maxPass_le mn is (cur + 1) scl m y

/-- How far the arguments of an instruction are needed. -/
def need (mn : List Nat) (q : Verif.IR.Dest.Insn F × Nat × Nat) : Nat :=
  match q with
  | (.constantLike _, _, _) => 0
  | (.internal _, cur, _) => layAt mn cur - 1
  | (.call _ _ _, _, sc) => sc

theorem maxPass_need (mn : List Nat) : ∀ (is : List (Verif.IR.Dest.Insn F)) (cur : Nat) (scl m : List Nat), (∀ p ∈ placed is cur, ∀ x ∈ argsOf p.1, x < m.length) →
    ∀ q ∈ placedS is cur scl, ∀ x ∈ argsOf q.1, need mn q ≤ layAt (maxPass mn is cur scl m) x
  | [], cur, scl, m, _, q, h, _, _ => by cases h
  | .internal e :: is, cur, scl, m, hm, q, h, x, hx => by
    have hm' : ∀ p ∈ placed is (cur + 1), ∀ x ∈ argsOf p.1, x < (raise (layAt mn cur - 1) (Expr.getVars e) m).length := by
      intro p hp x hx; rw [raise_length]; exact hm p (List.mem_cons_of_mem _ hp) x hx
    rcases List.mem_cons.1 h with rfl | h
    · exact le_trans (raise_ge _ (Expr.getVars e) m x hx (hm _ List.mem_cons_self x hx)) (maxPass_le mn is (cur + 1) scl (raise (layAt mn cur - 1) (Expr.getVars e) m) x)
    · exact maxPass_need mn is (cur + 1) scl (raise (layAt mn cur - 1) (Expr.getVars e) m) hm' q h x hx
  | .call d xs n :: is, cur, scl, m, hm, q, h, x, hx => by
    have hm' : ∀ p ∈ placed is (cur + n), ∀ x ∈ argsOf p.1, x < (raise (scl.headD 0) xs m).length := by
      intro p hp x hx; rw [raise_length]; exact hm p (List.mem_cons_of_mem _ hp) x hx
    rcases List.mem_cons.1 h with rfl | h
    · exact le_trans (raise_ge _ xs m x hx (hm _ List.mem_cons_self x hx)) (maxPass_le mn is (cur + n) scl.tail (raise (scl.headD 0) xs m) x)
    · exact maxPass_need mn is (cur + n) scl.tail (raise (scl.headD 0) xs m) hm' q h x hx
  | .constantLike _ :: is, cur, scl, m, hm, q, h, x, hx => by
    rcases List.mem_cons.1 h with rfl | h
    · cases hx
    · exact maxPass_need mn is (cur + 1) scl m (fun p hp => hm p (List.mem_cons_of_mem _ hp)) q h x hx

/-- What an included instruction may use. -/
def UseOk (mn mx sp : List Nat) (is : List (Verif.IR.Dest.Insn F)) (cur : Nat) : Prop :=
  ∀ p ∈ placed is cur, 0 < nOut p.1 → ∀ x ∈ argsOf p.1, layAt mn x < layAt mn p.2 ∧ ∀ s ∈ sp, s < layAt mn p.2 → s ≤ layAt mx x

theorem useOk_of {mn sp scl : List Nat} {is : List (Verif.IR.Dest.Insn F)} {cur : Nat} (h : ∀ q ∈ placedS is cur scl, LayIn mn sp q)
    (hm : ∀ p ∈ placed is cur, ∀ x ∈ argsOf p.1, x < mn.length) : UseOk mn (maxPass mn is cur scl mn) sp is cur := by
  rintro ⟨i, c⟩ hp ho x hx
  obtain ⟨sc, hq⟩ := mem_placedS (scl := scl) hp
  have h1 := h _ hq
  have h2 := maxPass_need mn is cur scl mn hm _ hq x hx
  cases i with
  | constantLike v => cases hx
  | internal e =>
    refine ⟨h1 x hx, fun s _ hs => ?_⟩
    simp only [need] at h2
    dsimp only at hs
    omega
  | call d xs n =>
    obtain ⟨g1, g2, g3⟩ := h1 ho
    refine ⟨lt_of_le_of_lt (g1 x hx) g2, fun s hs hl => le_trans (g3 s hs hl) h2⟩

/-! ### The instructions of a segment -/

theorem argsOk_placed : ∀ {is : List (Verif.IR.Dest.Insn F)} {cur : Nat}, ArgsOk is cur → ∀ p ∈ placed is cur, ∀ x ∈ argsOf p.1, 1 ≤ x ∧ x < p.2
  | [], _, _, p, h, _, _ => by cases h
  | i :: is, cur, ha, p, h, x, hx => by
    rw [argsOk_cons] at ha
    rcases List.mem_cons.1 h with rfl | h
    · exact ha.1 x hx
    · exact argsOk_placed ha.2 p h x hx

theorem locInsn_some {lv : List Nat} {i : Verif.IR.Dest.Insn F} (h : ∀ x ∈ argsOf i, x ∈ lv) : ∃ i', locInsn lv i = some i' := by
  cases i with
  | constantLike v => exact ⟨_, rfl⟩
  | internal e => exact ⟨_, if_pos (List.all_eq_true.2 fun x hx => decide_eq_true (h x hx))⟩
  | call d xs n => exact ⟨_, if_pos (List.all_eq_true.2 fun x hx => decide_eq_true (h x hx))⟩

theorem segInsns_total {mn mx sp : List Nat} {start stop : Nat} (hs : start ∈ sp) : ∀ (is : List (Verif.IR.Dest.Insn F)) (cur : Nat) (lv : List Nat), UseOk mn mx sp is cur → LayOk mn is cur →
    ArgsOk is cur → (∀ x, 1 ≤ x → x < endOf is cur - 1 → layAt mn x ≤ start → start ≤ layAt mx x → x ∈ lv) → (∀ x, 1 ≤ x → x < cur → start < layAt mn x → layAt mn x < stop → x ∈ lv) →
    ∃ sis lv', segInsns mn start stop is cur lv = some (sis, lv')
  | [], cur, lv, _, _, _, _, _ => ⟨[], lv, rfl⟩
  | i :: is, cur, lv, hu, hl, ha, h1, h2 => by
    have hu' : UseOk mn mx sp is (cur + nOut i) := fun p hp => hu p (List.mem_cons_of_mem _ hp)
    have hl' : LayOk mn is (cur + nOut i) := fun p hp => hl p (List.mem_cons_of_mem _ hp)
    rw [argsOk_cons] at ha
    have hle := le_endOf is (cur + nOut i)
    have hnew : ∀ v, cur ≤ v → v < cur + nOut i → start < layAt mn v → layAt mn v ≤ stop → incl mn start stop i cur = true := by
      intro v hv hv' g1 g2
      have := hl (i, cur) List.mem_cons_self
      dsimp only at this
      rw [this.1 v hv hv'] at g1 g2
      cases i with
      | constantLike c =>
        have := this.2 c rfl
        simp only [incl, beq_iff_eq]; omega
      | internal e => simp [incl, g1, g2]
      | call d xs m => simp only [nOut] at hv'; simp only [incl, Bool.and_eq_true, decide_eq_true_eq]; exact ⟨by omega, g1, g2⟩
    simp only [segInsns]
    by_cases hi : incl mn start stop i cur = true
    · rw [if_pos hi]
      have harg : ∀ x ∈ argsOf i, x ∈ lv := by
        intro x hx
        have hx' := ha.1 x hx
        have ho : 0 < nOut i := by
          cases i with
          | call d xs m => simp only [incl, Bool.and_eq_true, decide_eq_true_eq] at hi; exact hi.1
          | _ => exact Nat.one_pos
        obtain ⟨u1, u2⟩ := hu (i, cur) List.mem_cons_self ho x hx
        dsimp only at u1 u2
        have hlay : start < layAt mn cur ∧ layAt mn cur ≤ stop := by
          cases i with
          | constantLike c => cases hx
          | internal e => simpa [incl] using hi
          | call d xs m => simp only [incl, Bool.and_eq_true, decide_eq_true_eq] at hi; exact hi.2
        by_cases hxs : layAt mn x ≤ start
        · exact h1 x hx'.1 (by simp only [endOf]; omega) hxs (u2 start hs hlay.1)
        · exact h2 x hx'.1 hx'.2 (by omega) (by omega)
      obtain ⟨i', hi'⟩ := locInsn_some harg
      obtain ⟨sis, lv', hr⟩ := segInsns_total hs is (cur + nOut i) (lv ++ List.range' cur (nOut i)) hu' hl' ha.2
        (fun x g1 g2 g3 g4 => List.mem_append.2 (Or.inl (h1 x g1 (by simp only [endOf]; exact g2) g3 g4)))
        (fun x g1 g2 g3 g4 => by
          by_cases hx : x < cur
          · exact List.mem_append.2 (Or.inl (h2 x g1 hx g3 g4))
          · exact List.mem_append.2 (Or.inr (List.mem_range'_1.2 ⟨by omega, g2⟩)))
      exact ⟨i' :: sis, lv', by simp only [hi', hr]⟩
    · rw [if_neg hi]
      refine segInsns_total hs is (cur + nOut i) lv hu' hl' ha.2 (fun x g1 g2 g3 g4 => h1 x g1 (by simp only [endOf]; exact g2) g3 g4) (fun x g1 g2 g3 g4 => ?_)
      by_cases hx : x < cur
      · exact h2 x g1 hx g3 g4
      · exact absurd (hnew x (by omega) g2 g3 (by omega)) hi

theorem placed_cover : ∀ (is : List (Verif.IR.Dest.Insn F)) (cur x : Nat), cur ≤ x → x < endOf is cur → ∃ p ∈ placed is cur, p.2 ≤ x ∧ x < p.2 + nOut p.1
  | [], cur, x, h, h' => by simp only [endOf] at h'; omega
  | i :: is, cur, x, h, h' => by
    by_cases hx : x < cur + nOut i
    · exact ⟨(i, cur), List.mem_cons_self, h, hx⟩
    · obtain ⟨p, h1, h2⟩ := placed_cover is (cur + nOut i) x (by omega) h'
      exact ⟨p, List.mem_cons_of_mem _ h1, h2⟩

theorem incl_of_lay {mn : List Nat} {is : List (Verif.IR.Dest.Insn F)} {cur start stop : Nat} (hl : LayOk mn is cur) {p : Verif.IR.Dest.Insn F × Nat} (hp : p ∈ placed is cur) {v : Nat}
    (h1 : p.2 ≤ v) (h2 : v < p.2 + nOut p.1) (g1 : start < layAt mn v) (g2 : layAt mn v ≤ stop) : incl mn start stop p.1 p.2 = true := by
  obtain ⟨k1, k2⟩ := hl p hp
  rw [k1 v h1 h2] at g1 g2
  obtain ⟨i, c⟩ := p
  cases i with
  | constantLike c =>
    have := k2 c rfl
    simp only [incl, beq_iff_eq]; simp only at this g1; omega
  | internal e => simp only at g1 g2; simp [incl, g1, g2]
  | call d xs m => simp only [nOut] at h1 h2; simp only [incl, Bool.and_eq_true, decide_eq_true_eq]; exact ⟨by omega, g1, g2⟩

/-! ### What the segments say about layers -/

/-- A reference to a value of a layer at most `b`; `l` are the layers of the values. -/
def RefLay (mn : List Nat) (n : Nat) (l : List Nat) (b : Nat) (r : Ref) : Prop :=
  (∃ i, r = .input i ∧ i < n ∧ layAt mn (i + 1) ≤ b) ∨ ∃ i y, r = .internal i ∧ l[i]? = some y ∧ y ≤ b

/-- The segments lie between consecutive cuts and refer to values known before them. -/
def SegsLay (pool : List (Prog F)) (mn : List Nat) (n : Nat) (sp : List Nat) : List Seg → List Nat → List Nat → Prop
  | [], l, l' => l' = l
  | s :: ss, l, l' => ∃ c, pool[s.id - 1]? = some c ∧ (∀ r ∈ s.mid, RefLay mn n l s.start r) ∧ (s.start < s.stop ∧ ∀ t ∈ sp, t ≤ s.start ∨ s.stop ≤ t) ∧
      SegsLay pool mn n sp ss (l ++ List.replicate c.outs.length s.stop) l'

theorem segsLay_append {pool : List (Prog F)} {mn sp : List Nat} {n : Nat} {s : Seg} : ∀ {ss : List Seg} {k k' k'' : List Nat}, SegsLay pool mn n sp ss k k' → SegsLay pool mn n sp [s] k' k'' →
    SegsLay pool mn n sp (ss ++ [s]) k k''
  | [], k, k', k'', h, h' => by cases h; exact h'
  | a :: ss, k, k', k'', h, h' => by
    obtain ⟨c, h1, h2, h3, h4⟩ := h
    exact ⟨c, h1, h2, h3, segsLay_append h4 h'⟩

theorem SegsLay.mono {pool pool' : List (Prog F)} (hp : pool <+: pool') {mn sp : List Nat} {n : Nat} : ∀ {ss : List Seg} {k k' : List Nat}, SegsLay pool mn n sp ss k k' → SegsLay pool' mn n sp ss k k'
  | [], _, _, h => h
  | a :: ss, k, k', h => by
    obtain ⟨c, h1, h2, h3, h4⟩ := h
    exact ⟨c, prefix_get hp h1, h2, h3, h4.mono hp⟩

/-- What holds of the state when everything up to layer `a` is done; `l` are the layers of the values. -/
structure Tot (n cvm : Nat) (mn mx sp outs : List Nat) (pool : List (Prog F)) (a : Nat) (st : SegSt) (l : List Nat) : Prop where
  inp : ∀ j, 1 ≤ j → j ≤ n → st.varNew j ≠ .unknown
  unk : ∀ j, n < j → j < cvm → layAt mn j ≤ a → a ≤ layAt mx j → st.varNew j ≠ .unknown
  lay : ∀ y ∈ l, y ≤ a
  cnt : st.count = l.length
  done : ∀ o ∈ outs, n < o → layAt mn o ≤ a → st.isOut o = false ∧ ∃ i, st.fin o = some (.internal i) ∧ l[i]? = some (layAt mn o)
  todo : ∀ o ∈ outs, n < o → a < layAt mn o → st.isOut o = true
  finIn : ∀ j, 1 ≤ j → j ≤ n → st.isOut j = false ∧ st.fin j = some (.input (j - 1))
  segs : SegsLay pool mn n sp st.segs [] l

section
variable {n cvm npi : Nat} {is : List (Verif.IR.Dest.Insn F)} {mn mx sp outs : List Nat}

theorem segStep_total (hend : endOf is (n + 1) = cvm + 1) (hu : UseOk mn mx sp is (n + 1)) (hlay : LayOk mn is (n + 1)) (hargs : ArgsOk is (n + 1)) (hin : ∀ x, 1 ≤ x → x ≤ n → layAt mn x ∈ sp)
    (houts : ∀ o ∈ outs, 1 ≤ o ∧ o ≤ cvm ∧ layAt mn o ∈ sp) {a b : Nat} (hab : a < b) (ha : a ∈ sp) (hc : ∀ s ∈ sp, s ≤ a ∨ b ≤ s) {st : SegSt} {pool : List (Prog F)} {iv l : List Nat}
    (hv : ∀ i ∈ is, Verif.IR.Dest.Insn.valid npi i = true) (hi : Inv n pool st iv) (hp : PoolOk npi pool) (hcal : CallsIn pool pool.length is) (ht : Tot n cvm mn mx sp outs pool a st l) :
    ∃ st' pool' l', segStep n cvm is mn mx a b st pool = some (st', pool') ∧ Tot n cvm mn mx sp outs pool' b st' l' := by
  -- what enters
  have hen : ∀ x, 1 ≤ x → x < cvm → layAt mn x ≤ a → a ≤ layAt mx x → x ∈ (segIns n cvm mn mx a).1 ++ (segIns n cvm mn mx a).2 := by
    intro x h1 h2 h3 h4
    simp only [segIns, List.mem_append, List.mem_filter, List.mem_range'_1, beq_iff_eq, Bool.and_eq_true, Bool.or_eq_true, decide_eq_true_eq]
    by_cases hx : x ≤ n ∧ layAt mn x = a
    · exact Or.inl ⟨by omega, hx.2⟩
    · exact Or.inr ⟨by omega, by omega, h4⟩
  -- between the cuts there are no inputs
  have hmid : ∀ x, 1 ≤ x → x ≤ n → a < layAt mn x → b ≤ layAt mn x := fun x h1 h2 h3 => (hc _ (hin x h1 h2)).resolve_left (by omega)
  obtain ⟨sis, lv, hs⟩ := segInsns_total (stop := b) ha is (n + 1) ((segIns n cvm mn mx a).1 ++ (segIns n cvm mn mx a).2) hu hlay hargs
    (fun x h1 h2 h3 h4 => hen x h1 (by omega) h3 h4) (fun x h1 h2 h3 h4 => absurd (hmid x h1 (by omega) h3) (by omega))
  obtain ⟨new, g2⟩ := segInsns_spec _ _ _ _ _ hs
  have hcover : ∀ x, n < x → x ≤ cvm → a < layAt mn x → layAt mn x ≤ b → x ∈ lv := by
    intro x h1 h2 h3 h4
    obtain ⟨p, p1, p2, p3⟩ := placed_cover is (n + 1) x (by omega) (by omega)
    rw [g2.app]
    exact List.mem_append.2 (Or.inr ((g2.mem x).2 ⟨p, p1, incl_of_lay hlay p1 p2 p3 h3 h4, p2, p3⟩))
  have hlvlay : ∀ x ∈ lv, layAt mn x ≤ b := by
    intro x hx
    rw [g2.app] at hx
    rcases List.mem_append.1 hx with hx | hx
    · have := en_lay x hx; omega
    · obtain ⟨p, p1, p2, p3, p4⟩ := (g2.mem x).1 hx
      exact (incl_lay hlay hab p1 p2 p3 p4).2
  have hcirc := circ_in (js := segJs cvm mn mx b st lv) g2 hv hcal js_mem
  obtain ⟨a1, a2, a3, a4⟩ := poolAdd_spec hp hcirc
  have hst : segStep n cvm is mn mx a b st pool = some (segNext a b (poolAdd pool (segCirc ((segIns n cvm mn mx a).1 ++ (segIns n cvm mn mx a).2) lv (segJs cvm mn mx b st lv) sis)).1
      (segMid (segIns n cvm mn mx a) st) (segJs cvm mn mx b st lv) st, (poolAdd pool (segCirc ((segIns n cvm mn mx a).1 ++ (segIns n cvm mn mx a).2) lv (segJs cvm mn mx b st lv) sis)).2) := by
    simp only [segStep, hs]; rfl
  refine ⟨_, _, l ++ List.replicate (segJs cvm mn mx b st lv).length b, hst, ?_⟩
  generalize hjs : segJs cvm mn mx b st lv = js at *
  have hjsmem : ∀ x, 1 ≤ x → x ≤ cvm → (st.isOut x = true ∨ (layAt mn x ≤ b ∧ b ≤ layAt mx x)) → x ∈ lv → x ∈ js := by
    intro x h1 h2 h3 h4
    rw [← hjs]
    refine List.mem_filter.2 ⟨List.mem_range'_1.2 ⟨h1, by omega⟩, ?_⟩
    simp only [Bool.and_eq_true, Bool.or_eq_true, decide_eq_true_eq]
    exact ⟨h3, h4⟩
  have hjslv : ∀ x ∈ js, x ∈ lv := by rw [← hjs]; exact js_mem
  refine ⟨?_, ?_, ?_, ?_, ?_, ?_, ?_, ?_⟩
  · intro j h1 h2
    simp only [segNext]
    split
    · simp
    · exact ht.inp j h1 h2
  · intro j h1 h2 h3 h4
    have : j ∈ js := by
      refine hjsmem j (by omega) (by omega) (Or.inr ⟨h3, h4⟩) ?_
      by_cases hj : layAt mn j ≤ a
      · rw [g2.app]; exact List.mem_append.2 (Or.inl (hen j (by omega) h2 hj (by omega)))
      · exact hcover j h1 (by omega) (by omega) h3
    simp [segNext, this]
  · intro y hy
    rcases List.mem_append.1 hy with hy | hy
    · have := ht.lay y hy; omega
    · exact le_of_eq (List.eq_of_mem_replicate hy)
  · simp [segNext, ht.cnt]
  · intro o ho h1 h2
    obtain ⟨o1, o2, o3⟩ := houts o ho
    by_cases hoa : layAt mn o ≤ a
    · obtain ⟨d1, i, d2, d3⟩ := ht.done o ho h1 hoa
      refine ⟨by simp [segNext, d1], i, ?_, ?_⟩
      · simp only [segNext, d1]
        simpa using d2
      · rw [List.getElem?_append_left (List.getElem?_eq_some_iff.1 d3).1]; exact d3
    · have hob : layAt mn o = b := by
        rcases hc _ o3 with h | h <;> omega
      have hout := ht.todo o ho h1 (by omega)
      have hjo : o ∈ js := hjsmem o o1 o2 (Or.inl hout) (hcover o h1 o2 (by omega) h2)
      refine ⟨by simp [segNext, hjo], st.count + js.idxOf o, ?_, ?_⟩
      · simp [segNext, hjo, hout]
      · rw [ht.cnt, List.getElem?_append_right (by omega), Nat.add_sub_cancel_left, List.getElem?_replicate, if_pos (List.idxOf_lt_length_iff.2 hjo), hob]
  · intro o ho h1 h2
    have hno : o ∉ js := fun h => by have := hlvlay o (hjslv o h); omega
    simp [segNext, hno, ht.todo o ho h1 (by omega)]
  · intro j h1 h2
    obtain ⟨f1, f2⟩ := ht.finIn j h1 h2
    simp [segNext, f1, f2]
  · refine segsLay_append (ht.segs.mono a1) ⟨_, a4, ?_, ⟨hab, hc⟩, ?_⟩
    · intro r hr
      rcases List.mem_append.1 hr with hr | hr
      · obtain ⟨j, hj, rfl⟩ := List.mem_map.1 hr
        obtain ⟨j1, j2⟩ := List.mem_filter.1 hj
        have j1 := List.mem_range'_1.1 j1
        refine Or.inl ⟨j - 1, rfl, by omega, ?_⟩
        rw [Nat.sub_add_cancel (by omega)]
        exact le_of_eq (by simpa using j2)
      · obtain ⟨j, hj, rfl⟩ := List.mem_map.1 hr
        obtain ⟨j1, j2⟩ := List.mem_filter.1 hj
        have j1 := List.mem_range'_1.1 j1
        simp only [beq_iff_eq, Bool.and_eq_true, Bool.or_eq_true, decide_eq_true_eq] at j2
        cases e : st.varNew j with
        | input i =>
          obtain ⟨rfl, h2⟩ := hi.inp j i e
          exact Or.inl ⟨i, rfl, h2, by simp only; omega⟩
        | internal i =>
          have h2 := (List.getElem?_eq_some_iff.1 (hi.int j i e)).1
          rw [← hi.count, ht.cnt] at h2
          exact Or.inr ⟨i, l[i], rfl, List.getElem?_eq_getElem h2, ht.lay _ (List.getElem_mem h2)⟩
        | unknown =>
          exfalso
          by_cases hjn : j ≤ n
          · exact ht.inp j (by omega) hjn e
          · exact ht.unk j (by omega) (by omega) (by omega) (by omega) e
    · show _ = _
      simp [segCirc]

theorem segLoop_total (hend : endOf is (n + 1) = cvm + 1) (hu : UseOk mn mx sp is (n + 1)) (hlay : LayOk mn is (n + 1)) (hargs : ArgsOk is (n + 1)) (hin : ∀ x, 1 ≤ x → x ≤ n → layAt mn x ∈ sp)
    (houts : ∀ o ∈ outs, 1 ≤ o ∧ o ≤ cvm ∧ layAt mn o ∈ sp) (hv : ∀ i ∈ is, Verif.IR.Dest.Insn.valid npi i = true) (hsp : sp.Pairwise (· < ·)) :
    ∀ (r : List Nat) (a : Nat) (d : List Nat) (st : SegSt) (pool : List (Prog F)) (iv l : List Nat), sp = d ++ a :: r → Inv n pool st iv → PoolOk npi pool → CallsIn pool pool.length is →
      Tot n cvm mn mx sp outs pool a st l → ∃ st' pool' l' z, segLoop n cvm is mn mx (pairs (a :: r)) st pool = some (st', pool') ∧ (∀ s ∈ sp, s ≤ z) ∧ Tot n cvm mn mx sp outs pool' z st' l'
  | [], a, d, st, pool, iv, l, hs, _, _, _, ht => by
    refine ⟨st, pool, l, a, rfl, ?_, ht⟩
    intro s hm
    rw [hs] at hm hsp
    rcases List.mem_append.1 hm with hm | hm
    · exact le_of_lt ((List.pairwise_append.1 hsp).2.2 s hm a (by simp))
    · simp at hm; omega
  | b :: r, a, d, st, pool, iv, l, hs, hi, hp, hcal, ht => by
    rw [show pairs (a :: b :: r) = (a, b) :: pairs (b :: r) from rfl]
    have hsp' := hsp
    rw [hs] at hsp'
    obtain ⟨s1, s2, s3⟩ := List.pairwise_append.1 hsp'
    obtain ⟨s4, s5⟩ := List.pairwise_cons.1 s2
    obtain ⟨s6, s7⟩ := List.pairwise_cons.1 s5
    have hab : a < b := s4 b (by simp)
    have hc : ∀ s ∈ sp, s ≤ a ∨ b ≤ s := by
      intro s hm
      rw [hs] at hm
      rcases List.mem_append.1 hm with hm | hm
      · exact Or.inl (le_of_lt (s3 s hm a (by simp)))
      · rcases List.mem_cons.1 hm with rfl | hm
        · exact Or.inl (le_refl _)
        · rcases List.mem_cons.1 hm with rfl | hm
          · exact Or.inr (le_refl _)
          · exact Or.inr (le_of_lt (s6 s hm))
    obtain ⟨st1, pool1, l1, h1, ht1⟩ := segStep_total (npi := npi) hend hu hlay hargs hin houts hab (by rw [hs]; simp) hc hv hi hp hcal ht
    obtain ⟨en, sis, lv, js, rfl, g1, rfl, rfl, rfl⟩ := segStep_some h1
    obtain ⟨new, g2⟩ := segInsns_spec _ _ _ _ _ g1
    have hcirc := circ_in (js := segJs cvm mn mx b st lv) g2 hv hcal js_mem
    obtain ⟨a1, a2, a3, a4⟩ := poolAdd_spec hp hcirc
    have hinv := next_inv (start := a) (stop := b) (js := segJs cvm mn mx b st lv) hi a1 a3 a4 (mid := segMid (segIns n cvm mn mx a) st)
      (by simp [segMid, segCirc]) (by simp [segCirc]) (mid_input hi) (mid_internal hi)
    obtain ⟨st', pool', l', z, h2, h3, h4⟩ := segLoop_total hend hu hlay hargs hin houts hv hsp r b (d ++ [a]) _ _ _ _ (by rw [hs]; simp) hinv a2 (hcal.mono a1 (a1.length_le)) ht1
    exact ⟨st', pool', l', z, by simp only [segLoop, h1, h2], h3, h4⟩
end

/-- What `cut` says about layers. -/
structure CutLay (n : Nat) (mn sp outs : List Nat) (spl : Spl) (pool : List (Prog F)) : Prop where
  segs : ∃ l, SegsLay pool mn n sp spl.segs [] l ∧ ∀ (k o : Nat), outs[k]? = some o →
    (1 ≤ o ∧ o ≤ n ∧ spl.outs[k]? = some (.input (o - 1))) ∨ (n < o ∧ ∃ i, spl.outs[k]? = some (.internal i) ∧ l[i]? = some (layAt mn o))

theorem cut_total {npi n : Nat} {fl : Flat F} {splitAt : List Nat} {pool : List (Prog F)} (hs : splitAt.Pairwise (· < ·)) (h0 : splitAt.head? = some 0)
    (hlay : LayOk fl.ls fl.insns (n + 1)) (hv : ∀ i ∈ fl.insns, Verif.IR.Dest.Insn.valid npi i = true) (ha : ArgsOk fl.insns (n + 1)) (hp : PoolOk npi pool) (hc : CallsIn pool pool.length fl.insns)
    (hend : endOf fl.insns (n + 1) = fl.ls.length) (hz : layAt fl.ls 0 = 0) (hin : ∀ x, x ≤ n → layAt fl.ls x ∈ splitAt) (hpos : ∀ x, n < x → x < fl.ls.length → 1 ≤ layAt fl.ls x)
    (houts : ∀ o ∈ fl.outs ++ fl.adds, 1 ≤ o ∧ o < fl.ls.length ∧ layAt fl.ls o ∈ splitAt) (hq : ∀ q ∈ placedS fl.insns (n + 1) fl.scl, LayIn fl.ls splitAt q) :
    ∃ spl pool', cut n fl splitAt pool = some (spl, pool') ∧ CutLay n fl.ls splitAt (fl.outs ++ fl.adds) spl pool' := by
  have hlen : n + 1 ≤ fl.ls.length := by rw [← hend]; exact le_endOf _ _
  have hu : UseOk fl.ls (maxPass fl.ls fl.insns (n + 1) fl.scl fl.ls) splitAt fl.insns (n + 1) := by
    refine useOk_of hq fun p hp x hx => ?_
    have h1 := placed_bound (F := F) fl.insns (n + 1) p hp
    have h2 := argsOk_placed ha p hp x hx
    omega
  obtain ⟨r, rfl⟩ : ∃ r, splitAt = 0 :: r := by
    cases splitAt with
    | nil => cases h0
    | cons b r => simp only [List.head?_cons, Option.some.injEq] at h0; exact ⟨r, by rw [h0]⟩
  have hinit : Inv n pool (SegSt.init n (fl.outs ++ fl.adds)) [] := by
    refine ⟨rfl, ?_, ?_, ?_, rfl⟩
    · intro j i hji; simp only [SegSt.init] at hji; split at hji <;> cases hji
    · intro j i hji
      simp only [SegSt.init] at hji
      split at hji
      · cases hji; omega
      · cases hji
    · intro j r hr
      simp only [SegSt.init] at hr
      split at hr
      · cases hr; exact Or.inl ⟨_, rfl, by omega, by omega⟩
      · cases hr
  have ht : Tot n (fl.ls.length - 1) fl.ls (maxPass fl.ls fl.insns (n + 1) fl.scl fl.ls) (0 :: r) (fl.outs ++ fl.adds) pool 0 (SegSt.init n (fl.outs ++ fl.adds)) [] := by
    refine ⟨?_, ?_, by simp, rfl, ?_, ?_, ?_, rfl⟩
    · intro j h1 h2; simp [SegSt.init, h1, h2]
    · intro j h1 h2 h3; have := hpos j h1 (by omega); omega
    · intro o ho h1 h2; have := hpos o h1 (houts o ho).2.1; omega
    · intro o ho h1 h2; simp only [SegSt.init, ho, decide_true, Bool.true_and, Bool.not_eq_true', decide_eq_false_iff_not]; omega
    · intro j h1 h2; simp [SegSt.init, h1, h2]
  obtain ⟨st, pool', l, z, h1, h2, h3⟩ := segLoop_total (npi := npi) (outs := fl.outs ++ fl.adds) (cvm := fl.ls.length - 1) (by omega) hu hlay ha (fun x _ h => hin x h)
    (fun o ho => ⟨(houts o ho).1, by have := (houts o ho).2.1; omega, (houts o ho).2.2⟩) hv hs r 0 [] _ _ _ _ rfl hinit hp hc ht
  have hfin : ∀ o ∈ fl.outs ++ fl.adds, (1 ≤ o ∧ o ≤ n ∧ st.fin o = some (.input (o - 1))) ∨ (n < o ∧ ∃ i, st.fin o = some (.internal i) ∧ l[i]? = some (layAt fl.ls o)) := by
    intro o ho
    by_cases hn : o ≤ n
    · exact Or.inl ⟨(houts o ho).1, hn, (h3.finIn o (houts o ho).1 hn).2⟩
    · exact Or.inr ⟨by omega, (h3.done o ho (by omega) (h2 _ (houts o ho).2.2)).2⟩
  obtain ⟨refs, hr⟩ : ∃ refs, mapOpt st.fin (fl.outs ++ fl.adds) = some refs := by
    apply mapOpt_isSome
    intro o ho
    rcases hfin o ho with ⟨_, _, h⟩ | ⟨_, i, h, _⟩ <;> rw [h] <;> rfl
  refine ⟨⟨st.segs, refs⟩, pool', ?_, ⟨l, h3.segs, ?_⟩⟩
  · have hcond : (fl.ls.take (n + 1)).all (fun l => decide (l ∈ 0 :: r)) ∧ (fl.outs ++ fl.adds).all (fun o => decide (layAt fl.ls o ∈ 0 :: r)) ∧ (0 :: r : List Nat).head? = some 0 := by
      refine ⟨?_, ?_, rfl⟩
      · refine List.all_eq_true.2 fun y hy => decide_eq_true ?_
        obtain ⟨k, hk⟩ := List.getElem?_of_mem hy
        have hk' := (List.getElem?_eq_some_iff.1 hk).1
        rw [List.length_take] at hk'
        rw [List.getElem?_take, if_pos (by omega)] at hk
        have := hin k (by omega)
        rwa [layAt, List.getD_eq_getElem?_getD, hk] at this
      · exact List.all_eq_true.2 fun o ho => decide_eq_true (houts o ho).2.2
    unfold cut
    dsimp only
    rw [if_pos hcond, h1]
    dsimp only
    rw [hr]
  · intro k o hk
    have ho := List.mem_of_getElem? hk
    have := mapOpt_getElem? hr k o hk
    rcases hfin o ho with ⟨g1, g2, g3⟩ | ⟨g1, i, g2, g3⟩
    · exact Or.inl ⟨g1, g2, by rw [← this, g3]⟩
    · exact Or.inr ⟨g1, i, by rw [← this, g2], g3⟩

end Verif.Layering.Split
