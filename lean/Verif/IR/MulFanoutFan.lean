import Verif.IR.MulFanoutLimit

/-!
# `solve_mul_fanout_limit`: no variable is used in more than `limit` products
-/

set_option linter.unusedSectionVars false
set_option linter.unusedSimpArgs false

namespace Verif.IR

variable {F : Type} [Field F] [DecidableEq F]

namespace MulFanout

open Dest Verif.IR.SolveDup

/-! ### Normalising an expression does not add products -/

theorem quads_cons (t : Term F) (ts : List (Term F)) : quads (t :: ts) = termQuads t ++ quads ts := rfl

theorem termQuads_coef (a b : F) (v : VarSpec) : termQuads (⟨a, v⟩ : Term F) = termQuads ⟨b, v⟩ := by
  simp only [termQuads]

theorem mergeAdj_count (id : Nat) : ∀ (ts : List (Term F)) (t : Term F), (quads (Expr.mergeAdj t ts)).count id ≤ (quads (t :: ts)).count id := by
  intro ts
  induction ts with
  | nil => intro t; exact Nat.le_refl _
  | cons s ts ih =>
    intro t
    simp only [Expr.mergeAdj]
    split
    · have := ih { t with coef := t.coef + s.coef }
      have e : termQuads ({ t with coef := t.coef + s.coef } : Term F) = termQuads t := termQuads_coef _ _ _
      rw [quads_cons, List.count_append, e] at this
      simp only [quads_cons, List.count_append]
      omega
    · have := ih s
      simp only [quads_cons, List.count_append] at this ⊢
      omega

theorem filter_count (id : Nat) (p : Term F → Bool) (ts : List (Term F)) : (quads (ts.filter p)).count id ≤ (quads ts).count id := by
  induction ts with
  | nil => exact Nat.le_refl _
  | cons t ts ih =>
    rw [List.filter_cons, quads_cons, List.count_append]
    split
    · rw [quads_cons, List.count_append]; omega
    · omega

theorem compress_count (id : Nat) (ts : List (Term F)) : (quads (Expr.compress ts)).count id ≤ (quads ts).count id := by
  cases ts with
  | nil => simp [Expr.compress, quads, Term.zero, termQuads]
  | cons t ts =>
    simp only [Expr.compress]
    split
    · simp [quads, Term.zero, termQuads]
    · exact Nat.le_trans (filter_count id _ _) (mergeAdj_count id ts t)

theorem normalize_count (id : Nat) (t : Term F) : (termQuads t.normalize).count id = (termQuads t).count id := by
  obtain ⟨c, v⟩ := t
  cases v <;> simp only [Term.normalize, VarSpec.normalize, termQuads]
  split
  · rename_i h; split at h <;> cases h <;> simp [List.count_cons, Nat.add_comm]
  · rename_i h; split at h <;> exact absurd rfl (h _ _)

theorem quads_perm {a b : List (Term F)} (h : a.Perm b) (id : Nat) : (quads a).count id = (quads b).count id := by
  induction h with
  | nil => rfl
  | cons t _ ih => simp [quads_cons, List.count_append, ih]
  | swap s t l => simp [quads_cons, List.count_append]; omega
  | trans _ _ h1 h2 => rw [h1, h2]

theorem fromTerms_count (id : Nat) (ts : List (Term F)) : (quads (Expr.fromTerms ts)).count id ≤ (quads ts).count id := by
  refine Nat.le_trans (compress_count id _) (Nat.le_of_eq ?_)
  rw [Expr.sortTerms, quads_perm (List.perm_insertionSort _ _)]
  induction ts with
  | nil => rfl
  | cons t ts ih => simp only [List.map_cons, quads_cons, List.count_append, normalize_count, ih]

/-! ### Taking ids from the queues -/

/-- `u`: products emitted so far, `todo`: products still to come. -/
structure FanInv (limit : Nat) (u todo : Nat → Nat) (st : List Q) : Prop where
  disj : ∀ x y id, IdsAt st x id → IdsAt st y id → x = y
  bound : ∀ id, u id ≤ limit
  done : ∀ x q, st[x]? = some q → x ≠ 0 → ∀ id ∈ q.ids, u id + (gets (todo x) q).count id ≤ limit

theorem getAt_fan {limit : Nat} {u todo : Nat → Nat} {st : List Q} (h : FanInv limit u todo st) {x : Nat} (hx : x < st.length) (hx0 : x ≠ 0) (todo' : Nat → Nat)
    (ht : ∀ y, todo y = todo' y + [x].count y) :
    FanInv limit (fun id => u id + [(getAt st x).1].count id) todo' (getAt st x).2 := by
  obtain ⟨q, hq⟩ : ∃ q, st[x]? = some q := ⟨_, List.getElem?_eq_getElem hx⟩
  have hg : getAt st x = (q.get.1, st.set x q.get.2) := by simp only [getAt, hq]
  have hsub := (getAt_spec hx).2
  rw [hg] at hsub ⊢
  have hmem : q.get.1 ∈ q.ids := q.get_mem
  have htx : todo x = todo' x + 1 := by rw [ht x]; simp
  have hd := h.done x q hq hx0
  rw [htx] at hd
  simp only [gets] at hd
  refine ⟨fun a b id h1 h2 => h.disj a b id (hsub.ids _ _ h1) (hsub.ids _ _ h2), ?_, ?_⟩
  · intro id
    by_cases e : id = q.get.1
    · subst e
      have := hd _ hmem
      simp only [List.count_cons_self, List.count_nil] at this ⊢
      omega
    · rw [List.count_eq_zero.2 (by simpa using e)]
      exact h.bound id
  · intro y p hp hy0 id hid
    simp only [List.getElem?_set] at hp
    split at hp
    · rename_i e
      subst e
      simp only [hx, if_true, Option.some.injEq] at hp
      subst hp
      have := hd id (q.get_ids id hid)
      rw [List.count_cons] at this
      simp only [List.count_cons, List.count_nil] at this ⊢
      simp only [beq_iff_eq] at this ⊢
      split at this <;> simp_all <;> omega
    · rename_i e
      have h1 := h.done y p hp hy0 id hid
      have hne : id ≠ q.get.1 := by
        rintro rfl
        exact e (h.disj _ _ _ ⟨q, hq, hmem⟩ ⟨p, hp, hid⟩)
      have e1 : todo y = todo' y := by rw [ht y, List.count_eq_zero.2 (by simpa using Ne.symm e)]; rfl
      rw [e1] at h1
      rw [List.count_eq_zero.2 (by simpa using hne)]
      exact h1

theorem emitTerm_fan {limit : Nat} {u todo : Nat → Nat} {st : List Q} (h : FanInv limit u todo st) (t : Term F) (hv : ∀ x ∈ t.vars.vars, x < st.length ∧ x ≠ 0)
    (todo' : Nat → Nat) (ht : ∀ y, todo y = todo' y + (termQuads t).count y) :
    FanInv limit (fun id => u id + (termQuads (emitTerm st t).1).count id) todo' (emitTerm st t).2 := by
  obtain ⟨c, v⟩ := t
  have triv : (∀ y, todo y = todo' y) → FanInv limit (fun id => u id + ([] : List Nat).count id) todo' st := by
    intro e
    have : todo = todo' := funext e
    subst this
    simpa using h
  cases v with
  | quad x y =>
    simp only [VarSpec.vars, List.mem_cons, List.not_mem_nil, or_false, forall_eq_or_imp, forall_eq] at hv
    have h1 := getAt_fan h hv.1.1 hv.1.2 (fun z => todo' z + [y].count z) (by
      intro z
      rw [ht z]; simp only [termQuads, List.count_cons, List.count_nil]; omega)
    have hl := (getAt_spec hv.1.1).2.len
    have h2 := getAt_fan h1 (by rw [hl]; exact hv.2.1) hv.2.2 todo' (fun z => rfl)
    simp only [emitTerm, termQuads]
    have e : (fun id => u id + [(getAt st x).1, (getAt (getAt st x).2 y).1].count id) =
        fun id => u id + [(getAt st x).1].count id + [(getAt (getAt st x).2 y).1].count id := by
      funext id; simp only [List.count_cons, List.count_nil]; omega
    rw [e]; exact h2
  | const => exact triv (fun y => by simpa [termQuads] using ht y)
  | linear x => exact triv (fun y => by simpa [termQuads] using ht y)
  | custom g xs => exact triv (fun y => by simpa [termQuads] using ht y)
  | randomLinear x => exact triv (fun y => by simpa [termQuads] using ht y)

theorem emitTerms_fan {limit : Nat} : ∀ (ts : List (Term F)) (u todo : Nat → Nat) (st : List Q), FanInv limit u todo st →
    (∀ x ∈ Expr.getVars ts, x < st.length ∧ x ≠ 0) → ∀ (todo' : Nat → Nat), (∀ y, todo y = todo' y + (quads ts).count y) →
    FanInv limit (fun id => u id + (quads (emitTerms ts st).1).count id) todo' (emitTerms ts st).2 := by
  intro ts
  induction ts with
  | nil =>
    intro u todo st h _ todo' ht
    have : todo = todo' := funext (fun y => by simpa [quads] using ht y)
    subst this
    simpa [emitTerms, quads] using h
  | cons t ts ih =>
    intro u todo st h hv todo' ht
    have hv1 : ∀ x ∈ t.vars.vars, x < st.length ∧ x ≠ 0 := fun x hx => hv x (by simp [Expr.getVars, hx])
    have h1 := emitTerm_fan h t hv1 (fun y => todo' y + (quads ts).count y) (by
      intro y; rw [ht y, quads_cons, List.count_append]; omega)
    have hl := (emitTerm_rel (fun x hx => (hv1 x hx).1)).2.len
    have h2 := ih _ _ _ h1 (fun x hx => by rw [hl]; exact hv x (by simp only [Expr.getVars, List.flatMap_cons, List.mem_append]; exact Or.inr hx)) todo' (fun y => rfl)
    simp only [emitTerms]
    have e : (fun id => u id + (quads ((emitTerm st t).1 :: (emitTerms ts (emitTerm st t).2).1)).count id) =
        fun id => u id + (termQuads (emitTerm st t).1).count id + (quads (emitTerms ts (emitTerm st t).2).1).count id := by
      funext id; rw [quads_cons, List.count_append]; omega
    rw [e]; exact h2

theorem emitCopies_fan {limit : Nat} (e : Expr F) : ∀ (k : Nat) (u todo : Nat → Nat) (st : List Q), FanInv limit u todo st →
    (∀ x ∈ Expr.getVars e, x < st.length ∧ x ≠ 0) → ∀ (todo' : Nat → Nat), (∀ y, todo y = todo' y + k * (quads e).count y) →
    ∃ u' : Nat → Nat, FanInv limit u' todo' (emitCopies e k st).2 ∧ (∀ id, u id + ((emitCopies e k st).1.flatMap insnQuads).count id ≤ u' id) ∧
      ∀ id, u id < u' id → ∃ x ∈ Expr.getVars e, IdsAt st x id := by
  intro k
  induction k with
  | zero =>
    intro u todo st h _ todo' ht
    have : todo = todo' := funext (fun y => by simpa using ht y)
    subst this
    exact ⟨u, by simpa [emitCopies] using h, by simp [emitCopies], fun id h => absurd h (Nat.lt_irrefl _)⟩
  | succ k ih =>
    intro u todo st h hv todo' ht
    have h1 := emitTerms_fan e u todo st h hv (fun y => todo' y + k * (quads e).count y) (by
      intro y; rw [ht y, Nat.add_mul, Nat.one_mul]; omega)
    have hr := emitTerms_rel e st (fun x hx => (hv x hx).1)
    have hl := hr.2.len
    obtain ⟨u', i1, i2, i3⟩ := ih _ _ _ h1 (fun x hx => by rw [hl]; exact hv x hx) todo' (fun y => rfl)
    refine ⟨u', by simpa only [emitCopies] using i1, ?_, ?_⟩
    · intro id
      have a := i2 id
      have b := fromTerms_count id (emitTerms e st).1
      simp only [emitCopies, List.flatMap_cons, List.count_append, insnQuads]
      omega
    · intro id hlt
      by_cases hz : (quads (emitTerms e st).1).count id = 0
      · obtain ⟨x, hx, hid⟩ := i3 id (by simp only [hz]; exact hlt)
        exact ⟨x, hx, hr.2.ids _ _ hid⟩
      · have hm : id ∈ quads (emitTerms e st).1 := by
          by_contra hne; exact hz (List.count_eq_zero.2 hne)
        refine terms_vars hr.1 id ?_
        obtain ⟨t, ht1, ht2⟩ := List.mem_flatMap.1 hm
        refine List.mem_flatMap.2 ⟨t, ht1, ?_⟩
        obtain ⟨c, v⟩ := t
        cases v <;> simp_all [termQuads, VarSpec.vars]

/-! ### The loops -/

/-- What the loops maintain. -/
structure LInv (limit : Nat) (u todo : Nat → Nat) (s : St F) : Prop where
  range : ∀ x id, IdsAt s.newId x id → x ≠ 0 → id ≤ s.mx ∧ id ≠ 0
  zero : ∀ id, IdsAt s.newId 0 id → id = 0
  disj : ∀ x y id, IdsAt s.newId x id → IdsAt s.newId y id → x = y
  bound : ∀ id, u id ≤ limit
  fresh : ∀ id, s.mx < id → u id = 0
  done : ∀ x q, s.newId[x]? = some q → x ≠ 0 → x ≤ s.solved → ∀ id ∈ q.ids, u id + (gets (todo x) q).count id ≤ limit
  pend : ∀ x q, s.newId[x]? = some q → s.solved < x → q.queue = [] ∧ u q.dflt = 0

theorem LInv.le_mx {limit : Nat} {u todo : Nat → Nat} {s : St F} (h : LInv limit u todo s) {x id : Nat} (hi : IdsAt s.newId x id) : id ≤ s.mx := by
  by_cases h0 : x = 0
  · subst h0; rw [h.zero id hi]; omega
  · exact (h.range x id hi h0).1

variable {npi : Option Nat} {E : Env F}

/-- At most one pending variable is to be copied; it is a constant and the last emitted instruction defines it. -/
def PendLast (E : Env F) (npi : Option Nat) (pl : List (Nat × Nat)) (s : St F) : Prop :=
  ∀ x, s.solved < x → x < s.newId.length → 0 < (pl.getD x (0, 0)).1 →
    x + 1 = s.newId.length ∧ x = s.solved + 1 ∧ ∃ c, s.last = some (.constantLike c) ∧ validAt (dest E true) npi (.constantLike c) = true

theorem solveAll_limit (limit : Nat) (hl : 2 ≤ limit) (pl : List (Nat × Nat)) (u todo : Nat → Nat)
    (hb : ∀ x, x ≠ 0 → todo x + (pl.getD x (0, 0)).2 ≤ limit * (1 + (pl.getD x (0, 0)).1 + (pl.getD x (0, 0)).2)) :
    ∀ (k : Nat) (s : St F) (js : List (Insn F)) (s' : St F), s.solved + k + 1 = s.newId.length → LInv limit u todo s → PendLast E npi pl s →
    solveAll limit pl k s = some (js, s') →
    Block E npi s.mx js ∧ s'.mx = s.mx + js.length ∧ LInv limit u todo s' ∧ s'.newId.length = s.newId.length ∧ s'.solved + 1 = s'.newId.length ∧
      (∀ j ∈ js, insnQuads j = []) := by
  intro k
  induction k with
  | zero =>
    intro s js s' hk h _ he
    simp only [solveAll, Option.some.injEq, Prod.mk.injEq] at he
    obtain ⟨rfl, rfl⟩ := he
    exact ⟨Block.nil _, rfl, h, rfl, by omega, by simp⟩
  | succ k ih =>
    intro s js s' hk h hp he
    have hx : s.solved + 1 < s.newId.length := by omega
    obtain ⟨q, hq⟩ : ∃ q, s.newId[s.solved + 1]? = some q := ⟨_, List.getElem?_eq_getElem hx⟩
    simp only [solveAll, hq] at he
    obtain ⟨hqe, hqu⟩ := h.pend _ q hq (by omega)
    obtain ⟨qq, d⟩ := q
    simp only at hqe hqu
    subst hqe
    cases hsv : solveVar limit (pl.getD (s.solved + 1) (0, 0)) s.last ⟨[], d⟩ s.mx with
    | none => rw [hsv] at he; cases he
    | some r =>
      obtain ⟨js1, q'⟩ := r
      rw [hsv] at he
      simp only [Option.map_eq_some_iff] at he
      obtain ⟨⟨js2, s2⟩, he, e2⟩ := he
      simp only [Prod.mk.injEq] at e2
      obtain ⟨rfl, rfl⟩ := e2
      have hdr := h.range (s.solved + 1) d ⟨_, hq, by simp [Q.ids]⟩ (by omega)
      obtain ⟨b1, b2, b3, b4⟩ := solveVar_limit (npi := npi) (E := E) limit hl _ s.last d s.mx (todo (s.solved + 1)) js1 q' hsv hdr (hb _ (by omega)) (fun ha => by
        obtain ⟨_, _, hc⟩ := hp (s.solved + 1) (by omega) hx ha
        exact hc)
      have hids : ∀ id ∈ q'.ids, id = d ∨ (s.mx < id ∧ id ≤ s.mx + js1.length) := by
        intro id hid
        rcases b2.2 id hid with h1 | h1
        · left; simpa [Q.ids] using h1
        · right; exact h1
      have hat : ∀ x id, IdsAt (s.newId.set (s.solved + 1) q') x id → (x = s.solved + 1 ∧ id ∈ q'.ids) ∨ (x ≠ s.solved + 1 ∧ IdsAt s.newId x id) := by
        rintro x id ⟨p, hpx, hid⟩
        rw [List.getElem?_set] at hpx
        split at hpx
        · rename_i e; subst e
          simp [hx] at hpx; subst hpx
          exact Or.inl ⟨rfl, hid⟩
        · rename_i e; exact Or.inr ⟨Ne.symm e, p, hpx, hid⟩
      have hdat : IdsAt s.newId (s.solved + 1) d := ⟨_, hq, by simp [Q.ids]⟩
      have cross : ∀ y id, id ∈ q'.ids → y ≠ s.solved + 1 → ¬ IdsAt s.newId y id := by
        intro y id hid hy hiy
        rcases hids id hid with rfl | h1
        · exact hy (h.disj _ _ _ hiy hdat)
        · have := h.le_mx hiy; omega
      have hinv : LInv limit u todo (⟨s.newId.set (s.solved + 1) q', s.solved + 1, lastOf s.last js1, s.mx + js1.length⟩ : St F) := by
        refine ⟨?_, ?_, ?_, h.bound, ?_, ?_, ?_⟩
        · intro x id hi h0
          rcases hat x id hi with ⟨_, h1⟩ | ⟨_, h1⟩
          · rcases hids id h1 with rfl | h1
            · show id ≤ s.mx + _ ∧ _; omega
            · show id ≤ s.mx + _ ∧ _; omega
          · have := h.range x id h1 h0
            show id ≤ s.mx + _ ∧ _; omega
        · intro id hi
          rcases hat 0 id hi with ⟨h1, _⟩ | ⟨_, h1⟩
          · omega
          · exact h.zero id h1
        · intro x y id hi1 hi2
          rcases hat x id hi1 with ⟨rfl, h1⟩ | ⟨n1, h1⟩
          · rcases hat y id hi2 with ⟨rfl, h2⟩ | ⟨n2, h2⟩
            · rfl
            · exact absurd h2 (cross y id h1 n2)
          · rcases hat y id hi2 with ⟨rfl, h2⟩ | ⟨n2, h2⟩
            · exact absurd h1 (cross x id h2 n1)
            · exact h.disj _ _ _ h1 h2
        · intro id hid
          exact h.fresh id (by have : s.mx + js1.length < id := hid; omega)
        · intro x p hpx h0 hle id hid
          simp only [List.getElem?_set] at hpx
          split at hpx
          · rename_i e; subst e
            simp [hx] at hpx; subst hpx
            have : u id = 0 := by
              rcases hids id hid with rfl | h1
              · exact hqu
              · exact h.fresh id h1.1
            rw [this, Nat.zero_add]; exact b3 id
          · rename_i e
            exact h.done x p hpx h0 (by have : x ≤ s.solved + 1 := hle; omega) id hid
        · intro x p hpx hlt
          simp only [List.getElem?_set] at hpx
          have hlt' : s.solved + 1 < x := hlt
          rw [if_neg (by omega)] at hpx
          exact h.pend x p hpx (by omega)
      obtain ⟨c1, c2, c3, c4, c5, c6⟩ := ih ⟨s.newId.set (s.solved + 1) q', s.solved + 1, lastOf s.last js1, s.mx + js1.length⟩ js2 s2 (by simp; omega) hinv (by
        intro x hx1 hx2 ha
        simp only [List.length_set] at hx1 hx2
        have := hp x (by omega) hx2 ha
        omega) he
      refine ⟨b1.append c1, by rw [c2, List.length_append]; simp only; omega, c3, by rw [c4]; simp, c5, ?_⟩
      intro j hj
      rcases List.mem_append.1 hj with hj | hj
      · exact b4 j hj
      · exact c6 j hj

/-- The products that the remaining instructions will emit, per original variable. -/
def todoOf (pl : List (Nat × Nat)) : Nat → List (Insn F) → Nat → Nat
  | _, [], _ => 0
  | cur, i :: is, y => (1 + (pl.getD (cur + 1) (0, 0)).1) * (insnQuads i).count y + todoOf pl (cur + i.numOutputs) is y

theorem todoOf_call (pl : List (Nat × Nat)) (cur : Nat) (i : Insn F) (is : List (Insn F)) (hi : insnQuads i = []) :
    todoOf pl cur (i :: is) = todoOf pl (cur + i.numOutputs) is := by
  funext y; simp [todoOf, hi]

theorem linv_push {limit : Nat} {u todo : Nat → Nat} {s : St F} (h : LInv limit u todo s) (hs : s.solved + 1 = s.newId.length) (n : Nat) (last : Option (Insn F)) :
    LInv limit u todo (⟨s.newId ++ (List.range' (s.mx + 1) n).map (fun id => ⟨[], id⟩), s.solved, last, s.mx + n⟩ : St F) := by
  have hget : ∀ x q, (s.newId ++ (List.range' (s.mx + 1) n).map (fun id => (⟨[], id⟩ : Q)))[x]? = some q →
      (x < s.newId.length ∧ s.newId[x]? = some q) ∨ (s.newId.length ≤ x ∧ x < s.newId.length + n ∧ q = ⟨[], s.mx + 1 + (x - s.newId.length)⟩) := by
    intro x q hq
    by_cases hx : x < s.newId.length
    · rw [List.getElem?_append_left hx] at hq; exact Or.inl ⟨hx, hq⟩
    · rw [List.getElem?_append_right (by omega), List.getElem?_map] at hq
      by_cases hlt : x - s.newId.length < n
      · rw [List.getElem?_range' hlt] at hq
        simp at hq
        exact Or.inr ⟨by omega, by omega, hq.symm⟩
      · rw [List.getElem?_eq_none (by simp; omega)] at hq; cases hq
  have hat : ∀ x id, IdsAt (s.newId ++ (List.range' (s.mx + 1) n).map (fun id => (⟨[], id⟩ : Q))) x id → IdsAt s.newId x id ∨
      (s.newId.length ≤ x ∧ x < s.newId.length + n ∧ id = s.mx + 1 + (x - s.newId.length)) := by
    rintro x id ⟨q, hq, hid⟩
    rcases hget x q hq with ⟨_, h1⟩ | ⟨h1, h2, rfl⟩
    · exact Or.inl ⟨q, h1, hid⟩
    · right; exact ⟨h1, h2, by simpa [Q.ids] using hid⟩
  have hpos : 0 < s.newId.length := by omega
  refine ⟨?_, ?_, ?_, h.bound, ?_, ?_, ?_⟩
  · intro x id hi h0
    show id ≤ s.mx + n ∧ _
    rcases hat x id hi with h1 | h1
    · have := h.range x id h1 h0; omega
    · omega
  · intro id hi
    rcases hat 0 id hi with h1 | h1
    · exact h.zero id h1
    · omega
  · intro x y id h1 h2
    rcases hat x id h1 with h1 | h1
    · rcases hat y id h2 with h2 | h2
      · exact h.disj _ _ _ h1 h2
      · have := h.le_mx h1; omega
    · rcases hat y id h2 with h2 | h2
      · have := h.le_mx h2; omega
      · omega
  · intro id hid
    exact h.fresh id (by have : s.mx + n < id := hid; omega)
  · intro x q hq h0 hle id hid
    rcases hget x q hq with ⟨_, h1⟩ | ⟨h1, h2, rfl⟩
    · exact h.done x q h1 h0 hle id hid
    · exfalso; have : x ≤ s.solved := hle; omega
  · intro x q hq hlt
    have hlt' : s.solved < x := hlt
    rcases hget x q hq with ⟨h1, _⟩ | ⟨h1, h2, rfl⟩
    · omega
    · exact ⟨rfl, h.fresh _ (by simp only; omega)⟩

theorem linv_internal {limit : Nat} {u todo todo' : Nat → Nat} {s : St F} (h : LInv limit u todo s) (hs : s.solved + 1 = s.newId.length) (e : Expr F) (p : Nat × Nat)
    (hv : ∀ x ∈ Expr.getVars e, x < s.newId.length ∧ x ≠ 0) (ht : ∀ y, todo y = todo' y + (p.1 + 1) * (quads e).count y)
    (hb : 0 < p.1 → todo' s.newId.length ≤ limit * (1 + p.1)) (last : Option (Insn F)) :
    ∃ u' : Nat → Nat, LInv limit u' todo' (⟨(emitCopies e (p.1 + 1) s.newId).2 ++
        [⟨if p.1 > 0 then (List.range' (s.mx + 1) (p.1 + 1)).map (fun i => (i, limit)) else [], s.mx + (p.1 + 1)⟩],
        if p.1 > 0 then s.newId.length else s.solved, last, s.mx + (p.1 + 1)⟩ : St F) ∧
      ∀ id, u id + ((emitCopies e (p.1 + 1) s.newId).1.flatMap insnQuads).count id ≤ u' id := by
  have hfan : FanInv limit u todo s.newId := ⟨h.disj, h.bound, fun x q hq h0 id hid => h.done x q hq h0 (by
    have := (List.getElem?_eq_some_iff.1 hq).1; omega) id hid⟩
  obtain ⟨u', f1, f2, f3⟩ := emitCopies_fan e (p.1 + 1) u todo s.newId hfan hv todo' ht
  obtain ⟨c1, c2, c3⟩ := emitCopies_rel e (p.1 + 1) s.newId (fun x hx => (hv x hx).1)
  refine ⟨u', ?_, f2⟩
  have hu : ∀ id, s.mx < id → u' id = 0 := by
    intro id hid
    by_contra hne
    have h0 := h.fresh id hid
    obtain ⟨x, _, hx⟩ := f3 id (by omega)
    have := h.le_mx hx; omega
  generalize hst : (emitCopies e (p.1 + 1) s.newId).2 = st at *
  have hlen := c3.len
  generalize hqn : (⟨if p.1 > 0 then (List.range' (s.mx + 1) (p.1 + 1)).map (fun i => (i, limit)) else [], s.mx + (p.1 + 1)⟩ : Q) = qn
  have hqids : ∀ id ∈ qn.ids, s.mx < id ∧ id ≤ s.mx + (p.1 + 1) := by
    intro id hid
    rw [← hqn] at hid
    simp only [Q.ids, List.mem_cons] at hid
    rcases hid with rfl | hid
    · omega
    · split at hid
      · simp only [List.map_map, List.mem_map, List.mem_range'] at hid
        obtain ⟨k, ⟨i, hi, rfl⟩, rfl⟩ := hid
        simp; omega
      · simp at hid
  have hget : ∀ x q, (st ++ [qn])[x]? = some q → (x < s.newId.length ∧ st[x]? = some q) ∨ (x = s.newId.length ∧ q = qn) := by
    intro x q hq
    by_cases hx : x < st.length
    · rw [List.getElem?_append_left hx] at hq; exact Or.inl ⟨by omega, hq⟩
    · rw [List.getElem?_append_right (by omega)] at hq
      have : x - st.length = 0 := by
        have := (List.getElem?_eq_some_iff.1 hq).1; simp at this; omega
      rw [this] at hq
      simp at hq
      exact Or.inr ⟨by omega, hq.symm⟩
  have hat : ∀ x id, IdsAt (st ++ [qn]) x id → IdsAt s.newId x id ∨ (x = s.newId.length ∧ s.mx < id ∧ id ≤ s.mx + (p.1 + 1)) := by
    rintro x id ⟨q, hq, hid⟩
    rcases hget x q hq with ⟨_, h1⟩ | ⟨h1, rfl⟩
    · exact Or.inl (c3.ids _ _ ⟨q, h1, hid⟩)
    · exact Or.inr ⟨h1, hqids id hid⟩
  refine ⟨?_, ?_, ?_, f1.bound, ?_, ?_, ?_⟩
  · intro x id hi h0
    show id ≤ s.mx + _ ∧ _
    rcases hat x id hi with h1 | h1
    · have := h.range x id h1 h0; omega
    · omega
  · intro id hi
    rcases hat 0 id hi with h1 | h1
    · exact h.zero id h1
    · omega
  · intro x y id h1 h2
    rcases hat x id h1 with h1 | h1
    · rcases hat y id h2 with h2 | h2
      · exact h.disj _ _ _ h1 h2
      · have := h.le_mx h1; omega
    · rcases hat y id h2 with h2 | h2
      · have := h.le_mx h2; omega
      · omega
  · intro id hid
    exact hu id (by have : s.mx + (p.1 + 1) < id := hid; omega)
  · intro x q hq h0 hle id hid
    rcases hget x q hq with ⟨h1, h2⟩ | ⟨rfl, rfl⟩
    · exact f1.done x q h2 h0 id hid
    · have hp : p.1 > 0 := by
        by_contra hp
        have : s.newId.length ≤ s.solved := by simpa only [if_neg hp] using hle
        omega
      rw [hu id (hqids id hid).1, Nat.zero_add]
      rw [if_pos hp] at hqn
      subst hqn
      have hcp : ∀ (k m : Nat), cap ((List.range' m k).map (fun i => (i, limit))) = k * limit := by
        intro k
        induction k with
        | zero => intro m; simp [cap]
        | succ k ihk => intro m; have := ihk (m + 1); simp only [cap] at this; simp only [List.range'_succ, List.map_cons, cap, List.sum_cons, this, Nat.add_mul]; omega
      have hrm : ∀ (k m id : Nat), room ((List.range' m k).map (fun i => (i, limit))) id ≤ (if m ≤ id then limit else 0) := by
        intro k
        induction k with
        | zero => intro m id; simp [room]
        | succ k ihk =>
          intro m id
          have := ihk (m + 1) id
          simp only [room] at this
          simp only [List.range'_succ, List.map_cons, room, List.filter_cons]
          by_cases e : m = id
          · subst e
            rw [if_neg (by omega)] at this
            simp at this ⊢
            omega
          · simp only [e, decide_false, Bool.false_eq_true, if_false]
            split at this
            · rw [if_pos (by omega)]; exact this
            · omega
      refine Nat.le_trans (gets_count _ _ id ?_) (Nat.le_trans (hrm _ _ id) ?_)
      · simp only [hcp]
        have := hb hp
        rw [Nat.mul_comm, Nat.add_comm]; exact this
      · split <;> omega
  · intro x q hq hlt
    rcases hget x q hq with ⟨h1, h2⟩ | ⟨rfl, rfl⟩
    · exfalso
      have hlt' : (if p.1 > 0 then s.newId.length else s.solved) < x := hlt
      split at hlt' <;> omega
    · have hp : ¬ p.1 > 0 := by
        intro hp
        have : s.newId.length < s.newId.length := by simpa only [if_pos hp] using hlt
        omega
      rw [if_neg hp] at hqn
      subst hqn
      exact ⟨rfl, hu _ (by simp only; omega)⟩

theorem sameCalls_nil : MapCircuits.SameCalls (L := dest E true) (L' := dest E true) [] [] := fun _ _ _ => Iff.rfl

theorem sameCalls_append {a b c d : List (Insn F)} (h1 : MapCircuits.SameCalls (L := dest E true) (L' := dest E true) a c)
    (h2 : MapCircuits.SameCalls (L := dest E true) (L' := dest E true) b d) :
    MapCircuits.SameCalls (L := dest E true) (L' := dest E true) (a ++ b) (c ++ d) := by
  intro x m k
  have e1 := h1 x m k
  have e2 := h2 x m k
  constructor
  · rintro ⟨j, hj, a', h⟩
    rcases List.mem_append.1 hj with hj | hj
    · obtain ⟨i, hi, b', h'⟩ := e1.1 ⟨j, hj, a', h⟩; exact ⟨i, List.mem_append_left _ hi, b', h'⟩
    · obtain ⟨i, hi, b', h'⟩ := e2.1 ⟨j, hj, a', h⟩; exact ⟨i, List.mem_append_right _ hi, b', h'⟩
  · rintro ⟨j, hj, a', h⟩
    rcases List.mem_append.1 hj with hj | hj
    · obtain ⟨i, hi, b', h'⟩ := e1.2 ⟨j, hj, a', h⟩; exact ⟨i, List.mem_append_left _ hi, b', h'⟩
    · obtain ⟨i, hi, b', h'⟩ := e2.2 ⟨j, hj, a', h⟩; exact ⟨i, List.mem_append_right _ hi, b', h'⟩

theorem sameCalls_nocall {a b : List (Insn F)} (h1 : ∀ i ∈ a, i.asCall = none) (h2 : ∀ i ∈ b, i.asCall = none) :
    MapCircuits.SameCalls (L := dest E true) (L' := dest E true) a b := by
  intro x m k
  constructor
  · rintro ⟨j, hj, a', h, _⟩
    have := h2 j hj
    have h' : j.asCall = some (x, a', m) := h
    rw [this] at h'; cases h'
  · rintro ⟨j, hj, a', h, _⟩
    have := h1 j hj
    have h' : j.asCall = some (x, a', m) := h
    rw [this] at h'; cases h'

theorem copies_block {st : List Q} {e : Expr F} {mx : Nat} (hr : ∀ x ∈ Expr.getVars e, ∀ id, IdsAt st x id → id ≤ mx ∧ id ≠ 0) :
    ∀ (ks : List (Insn F)) (m : Nat), mx ≤ m → (∀ j ∈ ks, ∃ e', j = .internal e' ∧ Copy st e e') → Block E npi m ks := by
  intro ks
  induction ks with
  | nil => intro m _ _; exact Block.nil m
  | cons k ks ih =>
    intro m hm h
    obtain ⟨e', rfl, ts, rfl, ht⟩ := h k (by simp)
    refine (Block.single (j := .internal (Expr.fromTerms ts)) rfl ?_ (internal_valid _)).append (ih (m + 1) (by omega) (fun j hj => h j (by simp [hj])))
    intro v hv
    obtain ⟨x, hx, hid⟩ := terms_vars ht v (Expr.fromTerms_vars ts v hv)
    have := hr x hx v hid
    omega

theorem lastOf_singleton (l : Option (Insn F)) (j : Insn F) : lastOf l [j] = some j := rfl

theorem loop_limit (limit : Nat) (hl : 2 ≤ limit) (pl : List (Nat × Nat)) (vars : List Info) (hpl : PlanOk pl vars) (is : List (Insn F)) :
    ∀ (s : St F) (u : Nat → Nat) (cur : Nat) (pre : List Info) (js : List (Insn F)) (s' : St F), vars = pre ++ is.flatMap insnInfos → pre.length = cur →
    s.newId.length = cur + 1 → s.solved < s.newId.length → LInv limit u (todoOf pl cur is) s → PendLast E npi pl s → InsnsOk (dest E true) npi cur is →
    (∀ x, x ≠ 0 → todoOf pl cur is x + (pl.getD x (0, 0)).2 ≤ limit * (1 + (pl.getD x (0, 0)).1 + (pl.getD x (0, 0)).2)) →
    loop limit pl is s = some (js, s') →
    InsnsOk (dest E true) npi s.mx js ∧ numVars (L := dest E true) s.mx js = s'.mx ∧ s'.newId.length = numVars (L := dest E true) cur is + 1 ∧
      MapCircuits.SameCalls (L := dest E true) (L' := dest E true) is js ∧
      ∃ u', LInv limit u' (fun _ => 0) s' ∧ ∀ id, u id + (js.flatMap insnQuads).count id ≤ u' id := by
  induction is with
  | nil =>
    intro s u cur pre js s' _ _ hlen _ h _ _ _ he
    simp only [loop, Option.some.injEq, Prod.mk.injEq] at he
    obtain ⟨rfl, rfl⟩ := he
    exact ⟨trivial, rfl, hlen, sameCalls_nil, u, h, by simp⟩
  | cons i is ih =>
    intro s u cur pre js s' hvars hpre hlen hsol h hp hok hb he
    simp only [loop] at he
    cases hsa : solveAll limit pl (s.newId.length - 1 - s.solved) s with
    | none => rw [hsa] at he; cases he
    | some r =>
      obtain ⟨js1, s1⟩ := r
      rw [hsa] at he
      simp only at he
      obtain ⟨a1, a2, a3, a4, a5, a6⟩ := solveAll_limit (npi := npi) (E := E) limit hl pl u _ hb _ s js1 s1 (by omega) h hp hsa
      cases hst : stepInsn limit pl i s1 with
      | none => rw [hst] at he; cases he
      | some r =>
        obtain ⟨ks, s2⟩ := r
        rw [hst] at he
        simp only [Option.map_eq_some_iff] at he
        obtain ⟨⟨ls, s3⟩, he, e2⟩ := he
        simp only [Prod.mk.injEq] at e2
        obtain ⟨rfl, rfl⟩ := e2
        have hlen1 : s1.newId.length = cur + 1 := by omega
        obtain ⟨hin, hval, _, hok'⟩ := hok
        have hb' : ∀ x, x ≠ 0 → todoOf pl (cur + i.numOutputs) is x + (pl.getD x (0, 0)).2 ≤ limit * (1 + (pl.getD x (0, 0)).1 + (pl.getD x (0, 0)).2) := by
          intro x hx
          have := hb x hx
          simp only [todoOf] at this
          omega
        -- it suffices to treat the emitted block
        suffices hstep : InsnsOk (dest E true) npi s1.mx ks ∧ numVars (L := dest E true) s1.mx ks = s2.mx ∧ s2.newId.length = cur + i.numOutputs + 1 ∧
            s2.solved < s2.newId.length ∧ MapCircuits.SameCalls (L := dest E true) (L' := dest E true) [i] ks ∧ PendLast E npi pl s2 ∧
            ∃ u2, LInv limit u2 (todoOf pl (cur + i.numOutputs) is) s2 ∧ ∀ id, u id + (ks.flatMap insnQuads).count id ≤ u2 id by
          obtain ⟨k1, k2, k3, k4, k5, k6, u2, k7, k8⟩ := hstep
          obtain ⟨l1, l2, l3, l4, u3, l5, l6⟩ := ih s2 u2 (cur + i.numOutputs) (pre ++ insnInfos i) ls s3 (by rw [hvars]; simp) (by simp [hpre, insnInfos_length]) k3 k4 k7
            k6 hok' hb' he
          have happ : ∀ (m : Nat) (a b : List (Insn F)), numVars (L := dest E true) m (a ++ b) = numVars (L := dest E true) (numVars (L := dest E true) m a) b := by
            intro m a b; simp [numVars, List.foldl_append]
          refine ⟨?_, ?_, ?_, ?_, u3, l5, ?_⟩
          · refine (insnsOk_append _ _ _).2 ⟨(insnsOk_append _ _ _).2 ⟨a1.ok, ?_⟩, ?_⟩
            · rw [a1.nv, ← a2]; exact k1
            · rw [happ, a1.nv, ← a2, k2]; exact l1
          · rw [happ, happ, a1.nv, ← a2, k2, l2]
          · rw [l3, numVars_cons (L := dest E true)]
          · have := sameCalls_append (E := E) (sameCalls_append (E := E) (sameCalls_nocall (a := []) (by simp) a1.nocall) k5) l4
            simpa using this
          · intro id
            have h1 := k8 id
            have h2 := l6 id
            have h3 : (js1.flatMap insnQuads).count id = 0 := by
              rw [List.count_eq_zero]
              intro hm
              obtain ⟨j, hj, hm⟩ := List.mem_flatMap.1 hm
              rw [a6 j hj] at hm; cases hm
            simp only [List.flatMap_append, List.count_append, h3]
            omega
        cases i with
        | constantLike c =>
          simp only [stepInsn, Option.some.injEq, Prod.mk.injEq] at hst
          obtain ⟨rfl, rfl⟩ := hst
          have hbl : Block E npi s1.mx [(Insn.constantLike c : Insn F)] := Block.single rfl (by simp [Insn.inputs]) hval
          refine ⟨hbl.ok, hbl.nv, by simp [hlen1, Insn.numOutputs], by simp; omega, sameCalls_nocall (by simp [Insn.asCall]) (by simp [Insn.asCall]), ?_, u, ?_, by simp [insnQuads]⟩
          · intro x hx1 hx2 hx3
            simp only [List.length_append, List.length_cons, List.length_nil] at hx1 hx2 ⊢
            exact ⟨by omega, by omega, c, rfl, hval⟩
          · rw [todoOf_call _ _ _ _ rfl] at a3
            exact linv_push a3 a5 1 _
        | call c xs n =>
          simp only [stepInsn] at hst
          split at hst
          · rename_i hall
            simp only [Option.some.injEq, Prod.mk.injEq] at hst
            obtain ⟨rfl, rfl⟩ := hst
            refine ⟨⟨?_, ?_, Or.inl rfl, trivial⟩, rfl, by simp [hlen1, Insn.numOutputs]; omega, by simp; omega, ?_, ?_, u, ?_, by simp [insnQuads]⟩
            · intro v hv
              simp only [Insn.inputs, List.mem_map] at hv
              obtain ⟨x, hx, rfl⟩ := hv
              have := hin x hx
              exact a3.range x _ (dfltAt_ids (by omega)) this.2
            · cases npi <;> rfl
            · intro d m k
              constructor
              · rintro ⟨j, hj, a, h1, h2⟩
                simp at hj; subst hj
                cases h1
                exact ⟨_, List.mem_singleton_self _, xs, rfl, by simpa using h2⟩
              · rintro ⟨j, hj, a, h1, h2⟩
                simp at hj; subst hj
                cases h1
                exact ⟨_, List.mem_singleton_self _, _, rfl, by simpa using h2⟩
            · intro x hx1 hx2 hx3
              exfalso
              simp only [List.length_append, List.length_map, List.length_range'] at hx1 hx2
              simp only [List.all_eq_true, List.mem_range, beq_iff_eq] at hall
              have := hall (x - s1.newId.length) (by omega)
              rw [show s1.newId.length + (x - s1.newId.length) = x by omega] at this
              omega
            · rw [todoOf_call _ _ _ _ rfl] at a3
              exact linv_push a3 a5 n _
          · cases hst
        | internal e =>
          simp only [stepInsn] at hst
          generalize hpp : pl.getD s1.newId.length (0, 0) = p at *
          split at hst
          · cases hst
          · rename_i hx
            simp only [Option.some.injEq, Prod.mk.injEq] at hst
            obtain ⟨rfl, rfl⟩ := hst
            have hv : ∀ x ∈ Expr.getVars e, x < s1.newId.length ∧ x ≠ 0 := fun x hx => by
              have := hin x hx; omega
            obtain ⟨c1, c2, c3⟩ := emitCopies_rel e (p.1 + 1) s1.newId (fun x hx => (hv x hx).1)
            have hbl : Block E npi s1.mx (emitCopies e (p.1 + 1) s1.newId).1 :=
              copies_block (fun x hx id hid => a3.range x id hid (hv x hx).2) _ _ (Nat.le_refl _) c2
            obtain ⟨u2, g1, g2⟩ := linv_internal (todo' := todoOf pl (cur + 1) is) a3 a5 e p hv (by
                intro y
                simp only [todoOf, ← hlen1, hpp, insnQuads, Insn.numOutputs]
                rw [Nat.add_comm 1 p.1]; omega) (by
                intro hp0
                have h1 := hb' s1.newId.length (by omega)
                rw [hpp] at h1
                have : p.2 = 0 := by by_contra h0; exact hx ⟨hp0, h0⟩
                rw [this] at h1
                exact h1) (lastOf s1.last (emitCopies e (p.1 + 1) s1.newId).1)
            refine ⟨hbl.ok, by rw [hbl.nv, c1], by simp [c3.len, hlen1, Insn.numOutputs], ?_, ?_, ?_, u2, g1, g2⟩
            · simp only [List.length_append, c3.len, List.length_cons, List.length_nil]
              split <;> omega
            · exact sameCalls_nocall (by simp [Insn.asCall]) hbl.nocall
            · intro x hx1 hx2 hx3
              simp only [List.length_append, c3.len, List.length_cons, List.length_nil] at hx1 hx2
              exfalso
              split at hx1
              · omega
              · have : x = s1.newId.length := by omega
                subst this
                rw [hpp] at hx3
                omega

end MulFanout
end Verif.IR
