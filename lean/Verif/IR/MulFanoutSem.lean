import Verif.IR.MulFanout

/-!
# `solve_mul_fanout_limit` preserves the meaning
-/

set_option linter.unusedSectionVars false
set_option linter.unusedSimpArgs false

namespace Verif.IR

variable {F : Type} [Field F] [DecidableEq F]

namespace MulFanout

open Dest Verif.IR.SolveDup

/-- The ids a queue can return. -/
def Q.ids (q : Q) : List Nat := q.dflt :: q.queue.map Prod.fst

def IdsAt (st : List Q) (x id : Nat) : Prop := ∃ q, st[x]? = some q ∧ id ∈ q.ids

theorem getAux_mem (d : Nat) : ∀ (q : List (Nat × Nat)), (getAux d q).1 ∈ d :: q.map Prod.fst ∧ ∀ p ∈ (getAux d q).2.map Prod.fst, p ∈ q.map Prod.fst := by
  intro q
  induction q with
  | nil => simp [getAux]
  | cons a q ih =>
    obtain ⟨id, n⟩ := a
    cases n with
    | zero =>
      simp only [getAux]
      refine ⟨?_, fun p hp => by simp only [List.map_cons, List.mem_cons]; exact Or.inr (ih.2 p hp)⟩
      have := ih.1
      simp only [List.mem_cons, List.map_cons] at this ⊢
      tauto
    | succ n => simp [getAux]

theorem Q.get_mem (q : Q) : q.get.1 ∈ q.ids := (getAux_mem q.dflt q.queue).1

theorem Q.get_ids (q : Q) : ∀ id ∈ q.get.2.ids, id ∈ q.ids := by
  intro id h
  simp only [Q.ids, Q.get, List.mem_cons] at h ⊢
  rcases h with h | h
  · exact Or.inl h
  · exact Or.inr ((getAux_mem q.dflt q.queue).2 id h)

/-- Later states of `new_id` return the same or fewer ids. -/
structure Sub (st' st : List Q) : Prop where
  len : st'.length = st.length
  ids : ∀ x id, IdsAt st' x id → IdsAt st x id
  dflt : ∀ x, dfltAt st' x = dfltAt st x

theorem Sub.refl (st : List Q) : Sub st st := ⟨rfl, fun _ _ h => h, fun _ => rfl⟩

theorem Sub.trans {a b c : List Q} (h1 : Sub a b) (h2 : Sub b c) : Sub a c :=
  ⟨h1.len.trans h2.len, fun x id h => h2.ids x id (h1.ids x id h), fun x => (h1.dflt x).trans (h2.dflt x)⟩

theorem sub_set {st : List Q} {x : Nat} {q q' : Q} (hx : st[x]? = some q) (hi : ∀ id ∈ q'.ids, id ∈ q.ids) (hd : q'.dflt = q.dflt) : Sub (st.set x q') st := by
  have hl : x < st.length := (List.getElem?_eq_some_iff.1 hx).1
  refine ⟨by simp, ?_, ?_⟩
  · rintro y id ⟨p, hp, hid⟩
    rw [List.getElem?_set] at hp
    split at hp
    · rename_i e; subst e
      simp [hl] at hp; subst hp
      exact ⟨q, hx, hi id hid⟩
    · exact ⟨p, hp, hid⟩
  · intro y
    simp only [dfltAt, List.getElem?_set]
    by_cases e : x = y
    · subst e; simp only [hl, if_true, hx, hd]
    · simp [e]

theorem getAt_spec {st : List Q} {x : Nat} (hx : x < st.length) : IdsAt st x (getAt st x).1 ∧ Sub (getAt st x).2 st := by
  have h : st[x]? = some st[x] := List.getElem?_eq_getElem hx
  simp only [getAt, h]
  exact ⟨⟨_, h, Q.get_mem _⟩, sub_set h (Q.get_ids _) rfl⟩

theorem dfltAt_ids {st : List Q} {x : Nat} (hx : x < st.length) : IdsAt st x (dfltAt st x) := by
  have h : st[x]? = some st[x] := List.getElem?_eq_getElem hx
  simp only [dfltAt, h]
  exact ⟨_, h, by simp [Q.ids]⟩

/-- A monomial whose variables have been renamed. -/
inductive VarRel (st : List Q) : VarSpec → VarSpec → Prop
  | const : VarRel st .const .const
  | linear {x a : Nat} (h : IdsAt st x a) : VarRel st (.linear x) (.linear a)
  | quad {x y a b : Nat} (h : IdsAt st x a) (h' : IdsAt st y b) : VarRel st (.quad x y) (.quad a b)
  | custom {g : Nat} {xs as : List Nat} (h : List.Forall₂ (IdsAt st) xs as) : VarRel st (.custom g xs) (.custom g as)
  | randomLinear {x a : Nat} (h : IdsAt st x a) : VarRel st (.randomLinear x) (.randomLinear a)

theorem VarRel.mono {st st' : List Q} (h : Sub st' st) {v w : VarSpec} (hv : VarRel st' v w) : VarRel st v w := by
  cases hv with
  | const => exact .const
  | linear a => exact .linear (h.ids _ _ a)
  | quad a b => exact .quad (h.ids _ _ a) (h.ids _ _ b)
  | custom a => exact .custom (a.imp fun _ _ => h.ids _ _)
  | randomLinear a => exact .randomLinear (h.ids _ _ a)

def TermRel (st : List Q) (t t' : Term F) : Prop := t'.coef = t.coef ∧ VarRel st t.vars t'.vars

theorem emitTerm_rel {st : List Q} {t : Term F} (h : ∀ x ∈ t.vars.vars, x < st.length) : TermRel st t (emitTerm st t).1 ∧ Sub (emitTerm st t).2 st := by
  obtain ⟨c, v⟩ := t
  cases v with
  | const => exact ⟨⟨rfl, .const⟩, Sub.refl _⟩
  | linear x => exact ⟨⟨rfl, .linear (dfltAt_ids (h x (by simp [VarSpec.vars])))⟩, Sub.refl _⟩
  | quad x y =>
    obtain ⟨h1, h2⟩ := getAt_spec (h x (by simp [VarSpec.vars]))
    obtain ⟨h3, h4⟩ := getAt_spec (st := (getAt st x).2) (x := y) (by rw [h2.len]; exact h y (by simp [VarSpec.vars]))
    exact ⟨⟨rfl, .quad h1 (h2.ids _ _ h3)⟩, h4.trans h2⟩
  | custom g xs =>
    refine ⟨⟨rfl, .custom ?_⟩, Sub.refl _⟩
    rw [List.forall₂_map_right_iff]
    exact List.forall₂_same.2 fun x hx => dfltAt_ids (h x (by simp [VarSpec.vars, hx]))
  | randomLinear x => exact ⟨⟨rfl, .randomLinear (dfltAt_ids (h x (by simp [VarSpec.vars])))⟩, Sub.refl _⟩

theorem emitTerms_rel : ∀ (ts : List (Term F)) (st : List Q), (∀ x ∈ Expr.getVars ts, x < st.length) →
    List.Forall₂ (TermRel st) ts (emitTerms ts st).1 ∧ Sub (emitTerms ts st).2 st := by
  intro ts
  induction ts with
  | nil => intro st _; exact ⟨.nil, Sub.refl _⟩
  | cons t ts ih =>
    intro st h
    obtain ⟨h1, h2⟩ := emitTerm_rel (st := st) (t := t) (fun x hx => h x (by simp [Expr.getVars, hx]))
    obtain ⟨h3, h4⟩ := ih (emitTerm st t).2 (fun x hx => by
      rw [h2.len]; exact h x (by simp only [Expr.getVars, List.flatMap_cons, List.mem_append] at hx ⊢; exact Or.inr hx))
    exact ⟨.cons h1 (h3.imp fun _ _ hr => ⟨hr.1, hr.2.mono h2⟩), h4.trans h2⟩

/-- A renamed copy of an expression. -/
def Copy (st : List Q) (e e' : Expr F) : Prop := ∃ ts, e' = Expr.fromTerms ts ∧ List.Forall₂ (TermRel st) e ts

theorem emitCopies_rel (e : Expr F) : ∀ (k : Nat) (st : List Q), (∀ x ∈ Expr.getVars e, x < st.length) →
    (emitCopies e k st).1.length = k ∧ (∀ j ∈ (emitCopies e k st).1, ∃ e', j = .internal e' ∧ Copy st e e') ∧ Sub (emitCopies e k st).2 st := by
  intro k
  induction k with
  | zero => intro st _; exact ⟨rfl, by simp [emitCopies], Sub.refl _⟩
  | succ k ih =>
    intro st h
    obtain ⟨h1, h2⟩ := emitTerms_rel e st h
    obtain ⟨h3, h4, h5⟩ := ih (emitTerms e st).2 (by rw [h2.len]; exact h)
    refine ⟨by simp [emitCopies, h3], ?_, h5.trans h2⟩
    intro j hj
    simp only [emitCopies, List.mem_cons] at hj
    rcases hj with rfl | hj
    · exact ⟨_, rfl, _, rfl, h1⟩
    · obtain ⟨e', rfl, ts, rfl, h6⟩ := h4 j hj
      exact ⟨_, rfl, ts, rfl, h6.imp fun _ _ hr => ⟨hr.1, hr.2.mono h2⟩⟩

/-! ### Values -/

/-- Every id of a variable holds the value of the variable. -/
structure SemInv (st : List Q) (vs ws : List F) : Prop where
  len : st.length = vs.length
  val : ∀ x id, IdsAt st x id → ws[id]? = vs[x]?

theorem SemInv.sub {st st' : List Q} {vs ws : List F} (h : SemInv st vs ws) (hs : Sub st' st) : SemInv st' vs ws :=
  ⟨hs.len.trans h.len, fun x id hi => h.val x id (hs.ids x id hi)⟩

theorem idsAt_lt {st : List Q} {x id : Nat} (h : IdsAt st x id) : x < st.length := by
  obtain ⟨q, hq, _⟩ := h; exact (List.getElem?_eq_some_iff.1 hq).1

theorem SemInv.extend {st : List Q} {vs ws : List F} (h : SemInv st vs ws) (ys : List F) : SemInv st vs (ws ++ ys) := by
  refine ⟨h.len, fun x id hi => ?_⟩
  have h1 := h.val x id hi
  have hx : x < vs.length := by rw [← h.len]; exact idsAt_lt hi
  rw [List.getElem?_eq_getElem hx] at h1 ⊢
  rw [List.getElem?_append_left (List.getElem?_eq_some_iff.1 h1).1]; exact h1

theorem SemInv.push {st : List Q} {vs ws : List F} (h : SemInv st vs ws) {y : F} {q : Q} (hq : ∀ id ∈ q.ids, ws[id]? = some y) :
    SemInv (st ++ [q]) (vs ++ [y]) ws := by
  refine ⟨by simp [h.len], ?_⟩
  rintro x id ⟨p, hp, hid⟩
  by_cases hx : x < st.length
  · rw [List.getElem?_append_left hx] at hp
    rw [h.val x id ⟨p, hp, hid⟩, List.getElem?_append_left (by rw [← h.len]; exact hx)]
  · rw [List.getElem?_append_right (by omega)] at hp
    have : x - st.length = 0 := by
      by_contra hne
      rw [List.getElem?_eq_none (by simp; omega)] at hp; cases hp
    rw [this] at hp
    simp at hp; subst hp
    rw [hq id hid, show x = vs.length by have := h.len; omega]
    simp

theorem varRel_sem (E : Env F) {st : List Q} {vs ws : List F} (h : SemInv st vs ws) {v w : VarSpec} (hv : VarRel st v w) (y : F) :
    w.Sem E (fun x => ws[x]?) y ↔ v.Sem E (fun x => vs[x]?) y := by
  cases hv with
  | const => exact Iff.rfl
  | linear a => simp only [VarSpec.Sem, h.val _ _ a]
  | quad a b => simp only [VarSpec.Sem, h.val _ _ a, h.val _ _ b]
  | custom a =>
    have e : ∀ (xs as : List Nat), List.Forall₂ (IdsAt st) xs as → mapOpt (fun x => ws[x]?) as = mapOpt (fun x => vs[x]?) xs := by
      intro xs as hf
      induction hf with
      | nil => rfl
      | cons p _ ih => simp only [mapOpt, h.val _ _ p, ih]
    simp only [VarSpec.Sem, e _ _ a]
  | randomLinear a => simp only [VarSpec.Sem, h.val _ _ a]

theorem termRel_sem (E : Env F) {st : List Q} {vs ws : List F} (h : SemInv st vs ws) {t t' : Term F} (ht : TermRel st t t') (y : F) :
    t'.Sem E (fun x => ws[x]?) y ↔ t.Sem E (fun x => vs[x]?) y := by
  obtain ⟨c, v⟩ := t
  obtain ⟨c', v'⟩ := t'
  obtain ⟨h1, h2⟩ := ht
  simp only at h1 h2
  subst h1
  have := varRel_sem E h h2
  cases h2 <;> simp only [Term.Sem, this]

theorem terms_sem (E : Env F) {st : List Q} {vs ws : List F} (h : SemInv st vs ws) {ts ts' : List (Term F)} (ht : List.Forall₂ (TermRel st) ts ts') :
    ∀ y, Expr.Sem E (fun x => ws[x]?) ts' y ↔ Expr.Sem E (fun x => vs[x]?) ts y := by
  induction ht with
  | nil => intro y; exact Iff.rfl
  | cons p _ ih => intro y; simp only [Expr.Sem, termRel_sem E h p, ih]

theorem terms_noRandom {st : List Q} {ts ts' : List (Term F)} (ht : List.Forall₂ (TermRel st) ts ts') (hn : Expr.NoRandom ts) : Expr.NoRandom ts' := by
  induction ht with
  | nil => exact hn
  | @cons t0 t1 ts0 ts1 p _ ih =>
    intro t htm x
    rcases List.mem_cons.1 htm with rfl | htm
    · have := hn t0 (List.mem_cons_self)
      obtain ⟨_, hp⟩ := p
      intro e
      rw [e] at hp
      generalize t0.vars = v at hp this
      cases hp with
      | randomLinear a => exact this _ rfl
    · exact ih (fun t ht => hn t (List.mem_cons_of_mem _ ht)) t htm x

theorem terms_vars {st : List Q} {ts ts' : List (Term F)} (ht : List.Forall₂ (TermRel st) ts ts') :
    ∀ a ∈ Expr.getVars ts', ∃ x ∈ Expr.getVars ts, IdsAt st x a := by
  induction ht with
  | nil => intro a h; simp [Expr.getVars] at h
  | @cons t t' ts ts' p _ ih =>
    intro a ha
    simp only [Expr.getVars, List.flatMap_cons, List.mem_append] at ha ⊢
    rcases ha with ha | ha
    · obtain ⟨_, hp⟩ := p
      have : ∃ x ∈ t.vars.vars, IdsAt st x a := by
        generalize t.vars = v at hp
        generalize t'.vars = w at hp ha
        cases hp with
        | const => simp [VarSpec.vars] at ha
        | linear h => simp [VarSpec.vars] at ha; subst ha; exact ⟨_, by simp [VarSpec.vars], h⟩
        | quad h h' =>
          simp [VarSpec.vars] at ha
          rcases ha with rfl | rfl
          · exact ⟨_, by simp [VarSpec.vars], h⟩
          · exact ⟨_, by simp [VarSpec.vars], h'⟩
        | custom h =>
          simp only [VarSpec.vars] at ha ⊢
          clear ih
          induction h with
          | nil => cases ha
          | cons p _ ih2 =>
            rcases List.mem_cons.1 ha with rfl | ha
            · exact ⟨_, List.mem_cons_self, p⟩
            · obtain ⟨x, h1, h2⟩ := ih2 ha
              exact ⟨x, List.mem_cons_of_mem _ h1, h2⟩
        | randomLinear h => simp [VarSpec.vars] at ha; subst ha; exact ⟨_, by simp [VarSpec.vars], h⟩
      obtain ⟨x, h1, h2⟩ := this
      exact ⟨x, Or.inl h1, h2⟩
    · obtain ⟨x, h1, h2⟩ := ih a ha
      exact ⟨x, Or.inr h1, h2⟩

theorem copy_sem (E : Env F) {st : List Q} {vs ws : List F} (h : SemInv st vs ws) {e e' : Expr F} (hc : Copy st e e') (hn : Expr.NoRandom e) (y : F) :
    Expr.Sem E (fun x => ws[x]?) e' y ↔ Expr.Sem E (fun x => vs[x]?) e y := by
  obtain ⟨ts, rfl, ht⟩ := hc
  rw [Expr.sem_fromTerms E _ ts (terms_noRandom ht hn), terms_sem E h ht]
  intro a ha
  obtain ⟨x, hx, hid⟩ := terms_vars ht a ha
  simp only
  rw [h.val x a hid]
  have : x < vs.length := by rw [← h.len]; exact idsAt_lt hid
  simp [this]

/-! ### Blocks of emitted instructions -/

variable {E : Env F}

/-- The block runs, and if `P` in one way only. -/
def Det (get : Nat → Option (Circuit (dest E true))) (P : Prop) (js : List (Insn F)) (ws ys : List F) : Prop :=
  Run get js ws (ws ++ ys) true ∧ (P → ∀ ws' b, Run get js ws ws' b → b = true ∧ ws' = ws ++ ys)

variable {get : Nat → Option (Circuit (dest E true))} {P : Prop}

theorem Det.nil (ws : List F) : Det get P [] ws [] :=
  ⟨by simpa using Run.nil ws, fun _ ws' b h => by obtain ⟨rfl, rfl⟩ := run_nil_iff.1 h; simp⟩

theorem Det.append {js ks : List (Insn F)} {ws ys zs : List F} (h1 : Det get P js ws ys) (h2 : Det get P ks (ws ++ ys) zs) :
    Det get P (js ++ ks) ws (ys ++ zs) := by
  refine ⟨run_append_iff.2 ⟨_, _, _, h1.1, by rw [← List.append_assoc]; exact h2.1, rfl⟩, ?_⟩
  intro hP ws' b h
  obtain ⟨us, b1, b2, r1, r2, rfl⟩ := run_append_iff.1 h
  obtain ⟨rfl, rfl⟩ := h1.2 hP _ _ r1
  obtain ⟨rfl, rfl⟩ := h2.2 hP _ _ r2
  simp

theorem Det.single {j : Insn F} {ws : List F} {y : F} (hc : j.asCall = none) (hp : j.Prim E (fun x => ws[x]?) [y])
    (hd : P → ∀ o, j.Prim E (fun x => ws[x]?) o → o = [y]) : Det get P [j] ws [y] := by
  have hc' : (dest E true).asCall j = none := hc
  refine ⟨(run_prim_iff hc').2 ⟨[y], hp, .nil _⟩, ?_⟩
  intro hP ws' b h
  obtain ⟨o, h1, h2⟩ := (run_prim_iff hc').1 h
  obtain ⟨h3, h4⟩ := run_nil_iff.1 h2
  have h5 : o = [y] := hd hP o h1
  subst h5
  exact ⟨h4, h3⟩

/-- Repeating an instruction that reads only what is already there. -/
theorem Det.replicate {j : Insn F} {y : F} (hc : j.asCall = none) : ∀ (n : Nat) (ws : List F), (∀ zs : List F, j.Prim E (fun x => (ws ++ zs)[x]?) [y]) →
    (P → ∀ (zs : List F) o, j.Prim E (fun x => (ws ++ zs)[x]?) o → o = [y]) → Det get P (List.replicate n j) ws (List.replicate n y) := by
  intro n
  induction n with
  | zero => intro ws _ _; exact Det.nil ws
  | succ n ih =>
    intro ws h1 h2
    have a := Det.single (get := get) (P := P) hc (by simpa using h1 []) (fun hP o h => h2 hP [] o (by simpa using h))
    have b := ih (ws ++ [y]) (fun zs => by rw [List.append_assoc]; exact h1 _) (fun hP zs o h => h2 hP _ o (by rw [List.append_assoc] at h; exact h))
    exact a.append b

theorem linear_sem {ws : List F} {a : Nat} {y : F} (h : ws[a]? = some y) (o : List F) :
    (Insn.internal [⟨1, .linear a⟩] : Insn F).Prim E (fun x => ws[x]?) o ↔ o = [y] := by
  simp only [Insn.Prim, Expr.Sem, Term.Sem, VarSpec.Sem, h]
  constructor
  · rintro ⟨_, ⟨_, _, ⟨m, hm, rfl⟩, rfl, rfl⟩, rfl⟩
    cases hm; simp
  · rintro rfl
    exact ⟨y, ⟨y, 0, ⟨y, rfl, by simp⟩, rfl, by simp⟩, rfl⟩

/-- All ids of the queue hold `y`. -/
def Holds (ws : List F) (q : Q) (y : F) : Prop := ∀ id ∈ q.ids, ws[id]? = some y

theorem holds_extend {ws ys : List F} {q : Q} {y : F} (h : Holds ws q y) : Holds (ws ++ ys) q y := by
  intro id hid
  have := h id hid
  rw [List.getElem?_append_left (List.getElem?_eq_some_iff.1 this).1]; exact this

theorem ids_push (q : Q) (id n : Nat) : ∀ k, k ∈ (q.push id n).ids ↔ k ∈ q.ids ∨ k = id := by
  intro k; simp only [Q.ids, Q.push, List.mem_cons, List.map_append, List.mem_append, List.map_cons, List.map_nil, List.not_mem_nil, or_false]; tauto

theorem relays_sem (limit : Nat) : ∀ (r : Nat) (q : Q) (mx : Nat) (ws : List F) (y : F), ws.length = mx + 1 → Holds ws q y →
    Det get P (relays limit r q mx).1 ws (List.replicate r y) ∧ (relays (F := F) limit r q mx).1.length = r ∧
      Holds (ws ++ List.replicate r y) (relays (F := F) limit r q mx).2 y ∧ (relays (F := F) limit r q mx).2.dflt = q.dflt := by
  intro r
  induction r with
  | zero => intro q mx ws y _ h; exact ⟨Det.nil ws, rfl, by simpa [relays] using h, rfl⟩
  | succ r ih =>
    intro q mx ws y hl h
    have hy := h _ q.get_mem
    have h' : Holds (ws ++ [y]) (q.get.2.push (mx + 1) limit) y := by
      intro id hid
      rcases (ids_push _ _ _ id).1 hid with hid | rfl
      · exact holds_extend h id (q.get_ids id hid)
      · rw [← hl]; simp
    obtain ⟨i1, i2, i3, i4⟩ := ih (q.get.2.push (mx + 1) limit) (mx + 1) (ws ++ [y]) y (by simp [hl]) h'
    refine ⟨?_, by simp [relays, i2], ?_, i4⟩
    · exact (Det.single (get := get) (P := P) (ws := ws) rfl ((linear_sem hy _).2 rfl) (fun _ o ho => (linear_sem hy o).1 ho)).append i1
    · rw [List.append_assoc] at i3; exact i3

/-- What the `while` loop needs to know of `new_insns.last()` when a variable is to be copied. -/
def LastOk (E : Env F) (P : Prop) (last : Option (Insn F)) (y : F) : Prop :=
  ∃ c, last = some (.constantLike c) ∧ c.Sem E y ∧ (P → c ≠ .random)

theorem coef_det {c : Coef F} (hc : c ≠ .random) {x y : F} (h1 : c.Sem E x) (h2 : c.Sem E y) : x = y := by
  have := prim_det (E := E) (val := fun _ => none) (i := .constantLike c) hc ⟨x, h1, rfl⟩ ⟨y, h2, rfl⟩
  simpa using this

theorem solveVar_sem (limit : Nat) (p : Nat × Nat) (last : Option (Insn F)) (q : Q) (mx : Nat) (ws : List F) (y : F) (hl : ws.length = mx + 1)
    (h : Holds ws q y) (hlast : 0 < p.1 → LastOk E P last y) :
    ∃ js q', solveVar limit p last q mx = some (js, q') ∧ Det get P js ws (List.replicate js.length y) ∧
      Holds (ws ++ List.replicate js.length y) q' y ∧ q'.dflt = q.dflt := by
  obtain ⟨a, r⟩ := p
  simp only [solveVar]
  have h0 : Holds ws (q.push q.dflt limit) y := by
    intro id hid
    rcases (ids_push _ _ _ id).1 hid with hid | rfl
    · exact h id hid
    · exact h _ (by simp [Q.ids])
  by_cases hz : a = 0 ∧ r = 0
  · rw [if_pos hz]
    exact ⟨[], q, rfl, Det.nil ws, by simpa using h, rfl⟩
  · rw [if_neg hz]
    cases a with
    | zero =>
      obtain ⟨i1, i2, i3, i4⟩ := relays_sem (get := get) (P := P) limit r (q.push q.dflt limit) mx ws y hl h0
      refine ⟨_, _, rfl, ?_, ?_, ?_⟩
      · rw [i2]; exact i1
      · rw [i2]; exact i3
      · rw [i4]; rfl
    | succ a =>
      obtain ⟨c, rfl, hcs, hcr⟩ := hlast (by simp)
      have h1 : Holds (ws ++ List.replicate (a + 1) y) (pushCopies limit (a + 1) mx (q.push q.dflt limit)) y := by
        intro id hid
        simp only [Q.ids, pushCopies, List.map_append, List.mem_cons, List.mem_append, List.map_map] at hid
        have : id ∈ (q.push q.dflt limit).ids ∨ ∃ k, k < a + 1 ∧ id = mx + 1 + k := by
          rcases hid with hid | hid | hid
          · left; simp [Q.ids, hid]
          · left; simp only [Q.ids, List.mem_cons]; exact Or.inr hid
          · obtain ⟨k, hk, rfl⟩ := List.mem_map.1 hid
            obtain ⟨i, hi, rfl⟩ := List.mem_range'.1 hk
            right; exact ⟨i, hi, by simp⟩
        rcases this with hid | ⟨k, hk, rfl⟩
        · exact holds_extend h0 id hid
        · rw [List.getElem?_append_right (by omega), hl]
          simp [hk]
      obtain ⟨i1, i2, i3, i4⟩ := relays_sem (get := get) (P := P) limit r (pushCopies limit (a + 1) mx (q.push q.dflt limit)) (mx + (a + 1))
        (ws ++ List.replicate (a + 1) y) y (by simp [hl]; omega) h1
      refine ⟨_, _, rfl, ?_, ?_, ?_⟩
      · simp only [List.length_append, List.length_replicate, i2, List.replicate_add (n := r)]
        refine Det.append (Det.replicate (get := get) (P := P) (E := E) rfl (a + 1) ws (fun zs => ⟨y, hcs, rfl⟩) ?_) i1
        rintro hP zs o ⟨z, hz, rfl⟩
        rw [coef_det (hcr hP) hz hcs]
      · simp only [List.length_append, List.length_replicate, i2, List.replicate_add (n := r)]
        rw [← List.append_assoc]; exact i3
      · rw [i4]; rfl

/-- Variables still to be solved: at most one is to be copied, and then the last emitted instruction defines it. -/
def Pending (E : Env F) (P : Prop) (pl : List (Nat × Nat)) (s : St F) (vs : List F) : Prop :=
  ∀ x, s.solved < x → x < s.newId.length → 0 < (pl.getD x (0, 0)).1 →
    x + 1 = s.newId.length ∧ x = s.solved + 1 ∧ ∃ y, vs[x]? = some y ∧ LastOk E P s.last y

theorem solveAll_sem (limit : Nat) (pl : List (Nat × Nat)) : ∀ (k : Nat) (s : St F) (vs ws : List F), s.solved + k + 1 = s.newId.length →
    ws.length = s.mx + 1 → SemInv s.newId vs ws → Pending E P pl s vs →
    ∃ js s' ys, solveAll limit pl k s = some (js, s') ∧ Det get P js ws ys ∧ SemInv s'.newId vs (ws ++ ys) ∧ (ws ++ ys).length = s'.mx + 1 ∧
      s'.newId.length = s.newId.length ∧ s'.solved + 1 = s'.newId.length ∧ ∀ x, dfltAt s'.newId x = dfltAt s.newId x := by
  intro k
  induction k with
  | zero =>
    intro s vs ws hk hl hs _
    exact ⟨[], s, [], rfl, Det.nil ws, by simpa using hs, by simpa using hl, rfl, by omega, fun _ => rfl⟩
  | succ k ih =>
    intro s vs ws hk hl hs hp
    have hx : s.solved + 1 < s.newId.length := by omega
    have hq : s.newId[s.solved + 1]? = some s.newId[s.solved + 1] := List.getElem?_eq_getElem hx
    have hxv : s.solved + 1 < vs.length := by rw [← hs.len]; exact hx
    have hy : vs[s.solved + 1]? = some vs[s.solved + 1] := List.getElem?_eq_getElem hxv
    have hh : Holds ws s.newId[s.solved + 1] vs[s.solved + 1] := fun id hid => by
      rw [hs.val _ id ⟨_, hq, hid⟩, hy]
    obtain ⟨js, q', e1, d1, h1, hd1⟩ := solveVar_sem (get := get) (P := P) (E := E) limit (pl.getD (s.solved + 1) (0, 0)) s.last s.newId[s.solved + 1] s.mx ws
      vs[s.solved + 1] hl hh (fun ha => by
        obtain ⟨_, _, y, hy', hlo⟩ := hp (s.solved + 1) (by omega) hx ha
        rw [hy] at hy'; cases hy'; exact hlo)
    have hset : SemInv (s.newId.set (s.solved + 1) q') vs (ws ++ List.replicate js.length vs[s.solved + 1]) := by
      refine ⟨by simp [hs.len], ?_⟩
      rintro x id ⟨p, hpx, hid⟩
      rw [List.getElem?_set] at hpx
      split at hpx
      · rename_i e; subst e
        simp [hx] at hpx; subst hpx
        rw [h1 id hid, hy]
      · exact (hs.extend _).val x id ⟨p, hpx, hid⟩
    obtain ⟨js2, s2, ys2, e2, d2, h2, l2, n2, v2, f2⟩ := ih ⟨s.newId.set (s.solved + 1) q', s.solved + 1, lastOf s.last js, s.mx + js.length⟩ vs
      (ws ++ List.replicate js.length vs[s.solved + 1]) (by simp; omega) (by simp [hl]; omega) hset (by
        intro x hx1 hx2 ha
        simp only [List.length_set] at hx1 hx2 ⊢
        exfalso
        have := hp x (by omega) hx2 ha
        omega)
    refine ⟨js ++ js2, s2, List.replicate js.length vs[s.solved + 1] ++ ys2, ?_, d1.append d2, by rw [← List.append_assoc]; exact h2,
      by rw [← List.append_assoc]; exact l2, by simpa using n2, v2, ?_⟩
    · simp only [solveAll, hq, e1, e2, Option.map_some]
    · intro x
      rw [f2]
      simp only [dfltAt, List.getElem?_set]
      by_cases e : s.solved + 1 = x
      · subst e; simp [hx, hd1]
      · simp [e]

/-! ### The instruction loop -/

/-- Facts about the decisions used by the loop. -/
structure PlanOk (pl : List (Nat × Nat)) (infos : List Info) : Prop where
  excl : ∀ x : Nat, 0 < (pl.getD x (0, 0)).1 → (pl.getD x (0, 0)).2 = 0
  small : ∀ (x : Nat) (v : Info), infos[x]? = some v → v.maxCopy ≤ 1 → (pl.getD (x + 1) (0, 0)).1 = 0

theorem semInv_pushMany {st : List Q} {vs ws res : List F} (h : SemInv st vs ws) (mx : Nat) (hl : ws.length = mx + 1) (n : Nat) (hn : res.length = n) :
    SemInv (st ++ (List.range' (mx + 1) n).map (fun id => ⟨[], id⟩)) (vs ++ res) (ws ++ res) := by
  refine ⟨by simp [h.len, hn], ?_⟩
  rintro x id ⟨p, hp, hid⟩
  by_cases hx : x < st.length
  · rw [List.getElem?_append_left hx] at hp
    rw [(h.extend res).val x id ⟨p, hp, hid⟩, List.getElem?_append_left (by rw [← h.len]; exact hx)]
  · rw [List.getElem?_append_right (by omega)] at hp
    rw [List.getElem?_map] at hp
    by_cases hlt : x - st.length < n
    · rw [List.getElem?_range' hlt] at hp
      simp at hp; subst hp
      simp [Q.ids] at hid; subst hid
      have h1 := h.len
      rw [List.getElem?_append_right (by omega), List.getElem?_append_right (by omega)]
      congr 1; omega
    · rw [List.getElem?_eq_none (by simp; omega)] at hp; cases hp

theorem insnInfos_length (i : Insn F) : (insnInfos i).length = i.numOutputs := by
  cases i <;> simp [insnInfos, Insn.numOutputs]

/-- No random-linear terms (none are produced before the layering stage). -/
def NoRandomLinear : Insn F → Prop
  | .internal e => Expr.NoRandom e
  | _ => True

theorem loop_sem {get0 : Nat → Option (Circuit (dest E true))} {npi : Option Nat} (limit : Nat) (pl : List (Nat × Nat)) (vars : List Info) (hpl : PlanOk pl vars)
    (is : List (Insn F)) : ∀ (s : St F) (vs ws : List F) (cur : Nat) (pre : List Info), vars = pre ++ is.flatMap insnInfos → pre.length = cur →
    vs.length = cur + 1 → ws.length = s.mx + 1 → s.solved < s.newId.length → SemInv s.newId vs ws → Pending E P pl s vs →
    InsnsOk (dest E true) npi cur is → CallsOk get0 is → (∀ j ∈ is, NoRandomLinear j) → (P → ∀ j ∈ is, NoRandom j) →
    (∀ i ∈ is, ∀ d a n, i.asCall = some (d, a, n) → ∀ sub, get0 d = some sub → ∃ sub', get d = some sub' ∧ MapCircuits.Spec get0 get P sub sub') →
    ∃ js s', loop limit pl is s = some (js, s') ∧
    (∀ t b, Run get0 is vs (vs ++ t) b → ∃ xs, Run get js ws (ws ++ xs) b ∧ SemInv s'.newId (vs ++ t) (ws ++ xs)) ∧
    (P → ∀ xs b, Run get js ws (ws ++ xs) b → ∃ t, Run get0 is vs (vs ++ t) b ∧ SemInv s'.newId (vs ++ t) (ws ++ xs)) := by
  induction is with
  | nil =>
    intro s vs ws cur pre _ _ _ _ _ hs _ _ _ _ _ _
    refine ⟨[], s, rfl, ?_, ?_⟩
    · intro t b h
      obtain ⟨h1, rfl⟩ := run_nil_iff.1 h
      rw [h1]
      exact ⟨[], by simpa using Run.nil ws, by simpa using hs⟩
    · intro _ xs b h
      obtain ⟨h1, rfl⟩ := run_nil_iff.1 h
      rw [h1]
      exact ⟨[], by simpa using Run.nil vs, by simpa using hs⟩
  | cons i is ih =>
    intro s0 vs ws0 cur pre hvars hpre hvs hws0 hsol hs0 hpend hok hco hrl hni hspec
    obtain ⟨js, s, ys, e1, d1, hs, hws, hlen, hsolved, _⟩ := solveAll_sem (get := get) (P := P) (E := E) limit pl (s0.newId.length - 1 - s0.solved) s0 vs ws0
      (by omega) hws0 hs0 hpend
    clear hpend hs0
    generalize hws' : ws0 ++ ys = ws at hs hws
    obtain ⟨hin, hok'⟩ := HintExport.insns_lt hok hvs
    have hco' : CallsOk get0 is := fun j hj => hco j (by simp [hj])
    have hspec' := fun j hj => hspec j (List.mem_cons_of_mem i hj)
    have hni' : P → ∀ j ∈ is, NoRandom j := fun hP j hj => hni hP j (by simp [hj])
    have hrl' : ∀ j ∈ is, NoRandomLinear j := fun j hj => hrl j (by simp [hj])
    have hsl := hs.len
    -- it suffices to treat the block of the instruction itself
    suffices hmain : ∃ ks s1, stepInsn limit pl i s = some (ks, s1) ∧ ∃ ls s2, loop limit pl is s1 = some (ls, s2) ∧
        (∀ t b, Run get0 (i :: is) vs (vs ++ t) b → ∃ xs, Run get (ks ++ ls) ws (ws ++ xs) b ∧ SemInv s2.newId (vs ++ t) (ws ++ xs)) ∧
        (P → ∀ xs b, Run get (ks ++ ls) ws (ws ++ xs) b → ∃ t, Run get0 (i :: is) vs (vs ++ t) b ∧ SemInv s2.newId (vs ++ t) (ws ++ xs)) by
      obtain ⟨ks, s1, f1, ls, s2, f2, g1, g2⟩ := hmain
      refine ⟨js ++ ks ++ ls, s2, by simp only [loop, e1, f1, f2, Option.map_some], ?_, ?_⟩
      · intro t b h
        obtain ⟨xs, k1, k2⟩ := g1 t b h
        refine ⟨ys ++ xs, ?_, by rw [← List.append_assoc, hws']; exact k2⟩
        rw [List.append_assoc]
        exact run_append_iff.2 ⟨ws0 ++ ys, true, b, d1.1, by rw [← List.append_assoc, hws']; exact k1, by simp⟩
      · intro hP xs b h
        rw [List.append_assoc] at h
        obtain ⟨ws1, b1, b2, r1, r2, rfl⟩ := run_append_iff.1 h
        obtain ⟨rfl, rfl⟩ := d1.2 hP _ _ r1
        rw [hws'] at r2
        obtain ⟨xs', hx⟩ := r2.prefix
        rw [hx] at r2
        obtain ⟨t, k1, k2⟩ := g2 hP xs' b2 r2
        exact ⟨t, by simpa using k1, by rw [hx]; exact k2⟩
    cases i with
    | call c xs n =>
      have hc : (dest E true).asCall (Insn.call c xs n) = some (c, xs, n) := rfl
      obtain ⟨sub, hg, hal, hn⟩ := hco (Insn.call c xs n) (by simp) c xs n rfl
      obtain ⟨sub', hg', hsp⟩ := hspec (Insn.call c xs n) (by simp) c xs n rfl sub hg
      have hcond : (List.range n).all (fun k => (pl.getD (s.newId.length + k) (0, 0)).1 == 0) = true := by
        simp only [List.all_eq_true, List.mem_range, beq_iff_eq]
        intro k hk
        have := hpl.small (cur + k) ⟨[], 0⟩ (by
          rw [hvars, List.getElem?_append_right (by omega)]
          simp only [List.flatMap_cons, insnInfos]
          rw [List.getElem?_append_left (by simp; omega), List.getElem?_replicate, if_pos (by omega)]) (by simp)
        rw [show s.newId.length + k = cur + k + 1 by omega]; exact this
      have hpos : ∀ res : List F, res.length = n → SemInv (s.newId ++ (List.range' (s.mx + 1) n).map (fun id => ⟨[], id⟩)) (vs ++ res) (ws ++ res) :=
        fun res hr => semInv_pushMany hs s.mx hws n hr
      have hargs : readAll ws (xs.map (dfltAt s.newId)) = readAll vs xs := by
        have : ∀ (zs : List Nat), (∀ v ∈ zs, v < vs.length) → readAll ws (zs.map (dfltAt s.newId)) = readAll vs zs := by
          intro zs
          induction zs with
          | nil => intro _; rfl
          | cons z zs ihz =>
            intro hz
            have h1 := hs.val z _ (dfltAt_ids (by rw [hsl]; exact hz z (by simp)))
            simp only [List.map_cons, readAll, h1, ihz fun v hv => hz v (by simp [hv])]
        exact this xs hin
      obtain ⟨args, ha⟩ := readAll_isSome (vs := vs) (is := xs) hin
      rw [ha] at hargs
      have hal' : args.length = sub.numInputs := by rw [readAll_length ha]; exact hal
      have hc2 : (dest E true).asCall (Insn.call c (xs.map (dfltAt s.newId)) n) = some (c, xs.map (dfltAt s.newId), n) := rfl
      have ih' := fun (res : List F) (hr : res.length = n) =>
        ih ⟨s.newId ++ (List.range' (s.mx + 1) n).map (fun id => ⟨[], id⟩), s.solved, some (.call c (xs.map (dfltAt s.newId)) n), s.mx + n⟩ (vs ++ res) (ws ++ res)
          (cur + n) (pre ++ List.replicate n ⟨[], 0⟩) (by rw [hvars]; simp [insnInfos]) (by simp [hpre]) (by simp [hvs, hr]; omega) (by simp [hws, hr]; omega)
          (by simp; omega) (hpos res hr) (by
            intro x h1 h2 h3
            simp only [List.length_append, List.length_map, List.length_range'] at h1 h2
            exfalso
            have := List.all_eq_true.1 hcond (x - s.newId.length) (List.mem_range.2 (by omega))
            rw [show s.newId.length + (x - s.newId.length) = x by omega] at this
            simp only [beq_iff_eq] at this
            omega) hok' hco' hrl' hni' hspec'
      obtain ⟨args0, hargs0⟩ : ∃ r : List F, r.length = n := ⟨List.replicate n 0, by simp⟩
      obtain ⟨ls, s2, f2, _⟩ := ih' args0 hargs0
      refine ⟨_, _, by simp only [stepInsn, hcond, if_true]; rfl, ls, s2, f2, ?_, ?_⟩
      · intro t b h
        obtain ⟨circ, args', res, sb, b', h1, h2, h3, h4, rfl⟩ := (run_call_iff hc).1 h
        rw [hg] at h1; cases h1
        rw [ha] at h2; cases h2
        obtain ⟨t', ht⟩ := h4.prefix
        rw [ht] at h4
        have e : t = res ++ t' := by rw [List.append_assoc] at ht; exact List.append_cancel_left ht
        subst e
        have hres : res.length = n := by rw [h3.length, hn]
        obtain ⟨ls', s2', f2', k, _⟩ := ih' res hres
        rw [f2] at f2'; cases f2'
        obtain ⟨xs', k1, k2⟩ := k t' b' h4
        refine ⟨res ++ xs', (run_call_iff hc2).2 ⟨sub', args, res, sb, b', hg', hargs, (hsp args hal').1 res sb h3, ?_, rfl⟩, ?_⟩
        · show Run _ _ _ _ _; simp only [List.append_assoc] at k1; exact k1
        · simpa only [List.append_assoc] using k2
      · intro hP xs' b h
        obtain ⟨circ, args', res, sb, b', g1, g2, g3, g4, rfl⟩ := (run_call_iff hc2).1 h
        rw [hg'] at g1; cases g1
        rw [hargs] at g2; cases g2
        have g3' := (hsp args hal').2 hP res sb g3
        have hres : res.length = n := by rw [g3'.length, hn]
        obtain ⟨t', ht⟩ := g4.prefix
        rw [ht] at g4
        have e : xs' = res ++ t' := by simp only [List.append_assoc] at ht; exact List.append_cancel_left ht
        subst e
        obtain ⟨ls', s2', f2', _, k⟩ := ih' res hres
        rw [f2] at f2'; cases f2'
        obtain ⟨t, k1, k2⟩ := k hP t' b' g4
        refine ⟨res ++ t, (run_call_iff hc).2 ⟨sub, args, res, sb, b', hg, ha, g3', ?_, rfl⟩, ?_⟩
        · show Run _ _ _ _ _; simp only [List.append_assoc] at k1; exact k1
        · simpa only [List.append_assoc] using k2
    | constantLike c =>
      have hc : (dest E true).asCall (Insn.constantLike c : Insn F) = none := rfl
      have hpos : ∀ y : F, SemInv (s.newId ++ [⟨[], s.mx + 1⟩]) (vs ++ [y]) (ws ++ [y]) := by
        intro y
        refine (hs.extend [y]).push (q := ⟨[], s.mx + 1⟩) ?_
        intro id hid
        simp [Q.ids] at hid; subst hid
        rw [← hws]; simp
      have ih' := fun (y : F) (hy : c.Sem E y) =>
        ih ⟨s.newId ++ [⟨[], s.mx + 1⟩], s.solved, some (.constantLike c), s.mx + 1⟩ (vs ++ [y]) (ws ++ [y]) (cur + 1) (pre ++ [⟨[], maxCopies 1⟩])
          (by rw [hvars]; simp [insnInfos]) (by simp [hpre]) (by simp [hvs]) (by simp [hws]) (by simp; omega) (hpos y) (by
            intro x h1 h2 h3
            simp only [List.length_append, List.length_cons, List.length_nil] at h1 h2 ⊢
            refine ⟨by omega, by omega, y, ?_, c, rfl, hy, fun hP => hni hP (.constantLike c) (by simp)⟩
            rw [show x = vs.length by omega]; simp) hok' hco' hrl' hni' hspec'
      have hy0 : ∃ y : F, c.Sem E y := by
        cases c with
        | const k => exact ⟨k, rfl⟩
        | random => exact ⟨0, trivial⟩
        | pub k => exact ⟨_, rfl⟩
      obtain ⟨y0, hy0⟩ := hy0
      obtain ⟨ls, s2, f2, _⟩ := ih' y0 hy0
      refine ⟨_, _, rfl, ls, s2, f2, ?_, ?_⟩
      · intro t b h
        obtain ⟨outs, ⟨y, hy, rfl⟩, h2⟩ := (run_prim_iff hc).1 h
        obtain ⟨t', ht⟩ := h2.prefix
        rw [ht] at h2
        have e : t = [y] ++ t' := by rw [List.append_assoc] at ht; exact List.append_cancel_left ht
        subst e
        obtain ⟨ls', s2', f2', k, _⟩ := ih' y hy
        rw [f2] at f2'; cases f2'
        obtain ⟨xs, k1, k2⟩ := k t' b h2
        refine ⟨[y] ++ xs, (run_prim_iff hc).2 ⟨[y], ⟨y, hy, rfl⟩, ?_⟩, ?_⟩
        · show Run _ _ _ _ _; simp only [List.append_assoc] at k1; exact k1
        · simpa only [List.append_assoc] using k2
      · intro hP xs b h
        obtain ⟨outs, ⟨y, hy, rfl⟩, h2⟩ := (run_prim_iff hc).1 h
        obtain ⟨t', ht⟩ := h2.prefix
        rw [ht] at h2
        have e : xs = [y] ++ t' := by rw [List.append_assoc] at ht; exact List.append_cancel_left ht
        subst e
        obtain ⟨ls', s2', f2', _, k⟩ := ih' y hy
        rw [f2] at f2'; cases f2'
        obtain ⟨t, k1, k2⟩ := k hP t' b h2
        refine ⟨[y] ++ t, (run_prim_iff hc).2 ⟨[y], ⟨y, hy, rfl⟩, ?_⟩, ?_⟩
        · show Run _ _ _ _ _; simp only [List.append_assoc] at k1; exact k1
        · simpa only [List.append_assoc] using k2
    | internal e =>
      have hc : (dest E true).asCall (Insn.internal e) = none := rfl
      have hn : Expr.NoRandom e := hrl (.internal e) (by simp)
      have hin' : ∀ x ∈ Expr.getVars e, x < s.newId.length := fun x hx => by rw [hsl]; exact hin x hx
      obtain ⟨y, hy⟩ := Expr.sem_total E (fun x => vs[x]?) e (fun x hx => by simp [hin x hx])
      have hdet : ∀ y', Expr.Sem E (fun x => vs[x]?) e y' → y' = y := fun y' h => SolveDup.sem_det hn h hy
      generalize hp : pl.getD s.newId.length (0, 0) = p at *
      have hx : ¬ (p.1 > 0 ∧ p.2 ≠ 0) := by
        rintro ⟨h1, h2⟩
        rw [← hp] at h1 h2
        exact h2 (hpl.excl _ h1)
      obtain ⟨c1, c2, c3⟩ := emitCopies_rel e (p.1 + 1) s.newId hin'
      -- the block of copies
      have hblock : ∀ (ks : List (Insn F)) (zs : List F), (∀ j ∈ ks, ∃ e', j = .internal e' ∧ Copy s.newId e e') →
          Det get True ks (ws ++ zs) (List.replicate ks.length y) := by
        intro ks
        induction ks with
        | nil => intro zs _; exact Det.nil _
        | cons k ks ihk =>
          intro zs hk
          obtain ⟨e', rfl, hcp⟩ := hk k (by simp)
          have hsz := hs.extend zs
          have a : Det get True [(Insn.internal e' : Insn F)] (ws ++ zs) [y] := by
            refine Det.single rfl ⟨y, (copy_sem E hsz hcp hn y).2 hy, rfl⟩ ?_
            rintro _ o ⟨y', hy', rfl⟩
            rw [hdet y' ((copy_sem E hsz hcp hn y').1 hy')]
          have b := ihk (zs ++ [y]) (fun j hj => hk j (by simp [hj]))
          rw [← List.append_assoc] at b
          exact a.append b
      have hb := hblock (emitCopies e (p.1 + 1) s.newId).1 [] c2
      rw [List.append_nil, c1] at hb
      -- the state after the instruction
      have hpos : SemInv ((emitCopies e (p.1 + 1) s.newId).2 ++
          [⟨if p.1 > 0 then (List.range' (s.mx + 1) (p.1 + 1)).map (fun i => (i, limit)) else [], s.mx + (p.1 + 1)⟩]) (vs ++ [y])
          (ws ++ List.replicate (p.1 + 1) y) := by
        refine ((hs.sub c3).extend _).push ?_
        intro id hid
        have : s.mx + 1 ≤ id ∧ id ≤ s.mx + (p.1 + 1) := by
          simp only [Q.ids, List.mem_cons] at hid
          rcases hid with rfl | hid
          · omega
          · split at hid
            · simp only [List.map_map, List.mem_map, List.mem_range'] at hid
              obtain ⟨k, ⟨i, hi, rfl⟩, rfl⟩ := hid
              simp; omega
            · simp at hid
        rw [List.getElem?_append_right (by omega), List.getElem?_replicate, if_pos (by omega)]
      have hsv : (if p.1 > 0 then s.newId.length else s.solved) ≤ s.newId.length := by split <;> omega
      obtain ⟨ls, s2, f2, k1, k2⟩ :=
        ih ⟨(emitCopies e (p.1 + 1) s.newId).2 ++ [⟨if p.1 > 0 then (List.range' (s.mx + 1) (p.1 + 1)).map (fun i => (i, limit)) else [], s.mx + (p.1 + 1)⟩],
            if p.1 > 0 then s.newId.length else s.solved, lastOf s.last (emitCopies e (p.1 + 1) s.newId).1, s.mx + (p.1 + 1)⟩ (vs ++ [y])
          (ws ++ List.replicate (p.1 + 1) y) (cur + 1) (pre ++ [⟨quads e, maxCopies e.length⟩]) (by rw [hvars]; simp [insnInfos]) (by simp [hpre]) (by simp [hvs])
          (by simp [hws]; omega) (by simp [c3.len]; omega) hpos (by
            intro x h1 h2 h3
            simp only [List.length_append, List.length_cons, List.length_nil, c3.len] at h1 h2 ⊢
            exfalso
            by_cases ha : p.1 > 0
            · rw [if_pos ha] at h1; omega
            · rw [if_neg ha] at h1
              have : x = s.newId.length := by omega
              subst this; rw [hp] at h3; exact ha h3) hok' hco' hrl' hni' hspec'
      refine ⟨_, _, by simp only [stepInsn, hp, hx, if_false]; rfl, ls, s2, f2, ?_, ?_⟩
      · intro t b h
        obtain ⟨outs, ⟨y', hy', rfl⟩, h2⟩ := (run_prim_iff hc).1 h
        have := hdet y' hy'
        subst this
        obtain ⟨t', ht⟩ := h2.prefix
        rw [ht] at h2
        have e : t = [y'] ++ t' := by rw [List.append_assoc] at ht; exact List.append_cancel_left ht
        subst e
        obtain ⟨xs, k3, k4⟩ := k1 t' b h2
        refine ⟨List.replicate (p.1 + 1) y' ++ xs, run_append_iff.2 ⟨_, _, _, hb.1, ?_, (Bool.true_and b).symm⟩, ?_⟩
        · rw [← List.append_assoc]; exact k3
        · simpa only [List.append_assoc] using k4
      · intro hP xs b h
        obtain ⟨ws1, b1, b2, r1, r2, rfl⟩ := run_append_iff.1 h
        obtain ⟨rfl, rfl⟩ := hb.2 trivial _ _ r1
        obtain ⟨t', ht⟩ := r2.prefix
        rw [ht] at r2
        obtain ⟨t, k3, k4⟩ := k2 hP t' b2 r2
        refine ⟨[y] ++ t, (run_prim_iff hc).2 ⟨[y], ⟨y, hy, rfl⟩, ?_⟩, ?_⟩
        · simpa only [List.append_assoc, Bool.true_and] using k3
        · rw [ht]; simpa only [List.append_assoc] using k4

end MulFanout
end Verif.IR
