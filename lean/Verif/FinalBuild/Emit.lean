import Verif.FinalBuild.Circuit
import Verif.IR.HintExportProof

/-!
# The instructions emitted by `final_build_opt.rs`

Emission goes through the middle variables in order and interleaves the recorded calls and constants.  Here: adding a middle variable or a
recorded instruction at the end of the state adds its instruction at the end of the emitted list; and running the instructions of new middle
variables gives exactly the assignments in which each has the value of its definition.
-/

set_option linter.unusedSectionVars false
set_option linter.unusedSimpArgs false

namespace Verif.FinalBuild

open Verif.IR Verif.Builder

variable {F : Type} [Field F] [DecidableEq F]

/-! ## Emission and growth -/

theorem takeWhile_snoc {α : Type} (p : α → Bool) (y : α) (hy : p y = false) : ∀ l : List α, (l ++ [y]).takeWhile p = l.takeWhile p := by
  intro l
  induction l with
  | nil => simp [hy]
  | cons a l ih => simp only [List.cons_append, List.takeWhile_cons, ih]

theorem dropWhile_snoc {α : Type} (p : α → Bool) (y : α) (hy : p y = false) : ∀ l : List α, (l ++ [y]).dropWhile p = l.dropWhile p ++ [y] := by
  intro l
  induction l with
  | nil => simp [hy]
  | cons a l ih =>
    simp only [List.cons_append, List.dropWhile_cons, ih]
    split <;> simp

theorem takeWhile_all {α : Type} (p : α → Bool) : ∀ l : List α, (∀ o ∈ l, p o = true) → l.takeWhile p = l := by
  intro l
  induction l with
  | nil => intro _; rfl
  | cons a l ih => intro h; rw [List.takeWhile_cons, if_pos (h a (by simp)), ih (fun o ho => h o (by simp [ho]))]

theorem dropWhile_all {α : Type} (p : α → Bool) : ∀ l : List α, (∀ o ∈ l, p o = true) → l.dropWhile p = [] := by
  intro l
  induction l with
  | nil => intro _; rfl
  | cons a l ih => intro h; rw [List.dropWhile_cons, if_pos (h a (by simp)), ih (fun o ho => h o (by simp [ho]))]

theorem emit_out : ∀ (ms : Mids F) (i k : Nat) (outs : List (Nat × Dest.Insn F)) (x : Dest.Insn F), k = i + ms.length →
    emit i ms (outs ++ [(k, x)]) = emit i ms outs ++ [x] := by
  intro ms
  induction ms with
  | nil => intro i k outs x _; simp [emit]
  | cons m ms ih =>
    intro i k outs x hk
    simp only [List.length_cons] at hk
    have hy : (fun o : Nat × Dest.Insn F => decide (o.1 = i)) (k, x) = false := by simp; omega
    simp only [emit]
    rw [takeWhile_snoc (fun o : Nat × Dest.Insn F => decide (o.1 = i)) _ hy, dropWhile_snoc (fun o : Nat × Dest.Insn F => decide (o.1 = i)) _ hy,
      ih (i + 1) k _ x (by omega)]
    simp

theorem dropWhile_bounds {i k : Nat} : ∀ (outs : List (Nat × Dest.Insn F)), outs.Pairwise (fun a b => a.1 ≤ b.1) → (∀ o ∈ outs, i ≤ o.1 ∧ o.1 ≤ k) →
    (outs.dropWhile (fun o => decide (o.1 = i))).Pairwise (fun a b => a.1 ≤ b.1) ∧
      ∀ o ∈ outs.dropWhile (fun o => decide (o.1 = i)), i + 1 ≤ o.1 ∧ o.1 ≤ k := by
  intro outs
  induction outs with
  | nil => intro _ _; simp
  | cons a l ih =>
    intro hs hb
    rw [List.pairwise_cons] at hs
    rw [List.dropWhile_cons]
    split
    · exact ih hs.2 (fun o ho => hb o (by simp [ho]))
    · rename_i hne
      simp only [decide_eq_true_eq] at hne
      refine ⟨List.pairwise_cons.2 hs, fun o ho => ?_⟩
      have ha := hb a (by simp)
      have hbo := hb o ho
      rcases List.mem_cons.1 ho with rfl | ho
      · omega
      · have := hs.1 o ho; omega

theorem emit_mid : ∀ (ms : Mids F) (i k : Nat) (outs : List (Nat × Dest.Insn F)) (m : Mid F), k = i + ms.length →
    outs.Pairwise (fun a b => a.1 ≤ b.1) → (∀ o ∈ outs, i ≤ o.1 ∧ o.1 ≤ k) →
    emit i (ms ++ [m]) outs = emit i ms outs ++ (if m.expr = [⟨1, .linear k⟩] then [] else [.internal (internalExpr m)]) := by
  intro ms
  induction ms with
  | nil =>
    intro i k outs m hk _ hb
    simp only [List.length_nil, Nat.add_zero] at hk
    subst hk
    have hall : ∀ o ∈ outs, (fun o : Nat × Dest.Insn F => decide (o.1 = k)) o = true := by
      intro o ho; have := hb o ho; simp; omega
    have h1 : outs.takeWhile (fun o => decide (o.1 = k)) = outs := takeWhile_all _ outs hall
    have h2 : outs.dropWhile (fun o => decide (o.1 = k)) = [] := dropWhile_all _ outs hall
    simp only [List.nil_append, emit, h1, h2, List.map_nil, List.append_nil]
  | cons m0 ms ih =>
    intro i k outs m hk hs hb
    simp only [List.length_cons] at hk
    obtain ⟨d1, d2⟩ := dropWhile_bounds outs hs hb
    simp only [List.cons_append, emit]
    rw [ih (i + 1) k _ m (by omega) d1 d2]
    simp

/-- The instructions of the middle variables added after `ms`. -/
def internals (ms ms' : Mids F) : List (Dest.Insn F) := (ms'.drop ms.length).map (fun m => .internal (internalExpr m))

theorem Ext.ind {ms ms' : Mids F} (h : Ext ms ms') {P : Mids F → Prop} (h0 : P ms)
    (hs : ∀ q m, Ext ms q → m.Internal q.length → P q → P (q ++ [m])) : P ms' := by
  obtain ⟨xs, rfl⟩ := h.pre
  have key : ∀ xs : List (Mid F), Ext ms (ms ++ xs) → P (ms ++ xs) := by
    intro xs
    induction xs using List.reverseRecOn with
    | nil => intro _; simpa using h0
    | append_singleton ys m ih =>
      intro h
      have hys : Ext ms (ms ++ ys) := ⟨List.prefix_append _ _, fun i m' hi hm => h.ok i m' hi (by
        rw [← List.append_assoc, List.getElem?_append_left (List.getElem?_eq_some_iff.1 hm).1]; exact hm)⟩
      have hm : m.Internal (ms ++ ys).length := h.ok _ m (by simp) (by rw [← List.append_assoc]; simp)
      rw [← List.append_assoc]
      exact hs _ m hys hm (ih hys)
  exact key xs h

theorem internal_not_own {i : Nat} {m : Mid F} (h : m.Internal i) : m.expr ≠ [⟨1, .linear i⟩] := by
  intro he
  have := h.1.vars i (by rw [he]; simp [Expr.getVars, VarSpec.vars])
  omega

theorem internals_push {ms q : Mids F} (m : Mid F) (h : ms.length ≤ q.length) : internals ms (q ++ [m]) = internals ms q ++ [.internal (internalExpr m)] := by
  unfold internals
  rw [List.drop_append_of_le_length h]; simp

theorem internals_self (ms : Mids F) : internals ms ms = [] := by simp [internals]

theorem internals_trans {a b c : Mids F} (h1 : Ext a b) (h2 : Ext b c) : internals a c = internals a b ++ internals b c := by
  obtain ⟨x, rfl⟩ := h1.pre
  obtain ⟨y, rfl⟩ := h2.pre
  simp [internals]

/-- What the recorded instructions satisfy. -/
structure OutsOk (n : Nat) (ms : Mids F) (outs : List (Nat × Dest.Insn F)) : Prop where
  len : n < ms.length
  sorted : outs.Pairwise (fun a b => a.1 ≤ b.1)
  bound : ∀ o ∈ outs, n + 1 ≤ o.1 ∧ o.1 ≤ ms.length

/-- The emitted instructions of a state. -/
def emitted (n : Nat) (ms : Mids F) (outs : List (Nat × Dest.Insn F)) : List (Dest.Insn F) := emit (n + 1) (ms.drop (n + 1)) outs

theorem OutsOk.ext {n : Nat} {ms ms' : Mids F} {outs : List (Nat × Dest.Insn F)} (h : OutsOk n ms outs) (he : Ext ms ms') : OutsOk n ms' outs :=
  ⟨lt_of_lt_of_le h.len he.len, h.sorted, fun o ho => ⟨(h.bound o ho).1, le_trans (h.bound o ho).2 he.len⟩⟩

theorem emitted_push {n : Nat} {ms : Mids F} {outs : List (Nat × Dest.Insn F)} (h : OutsOk n ms outs) (m : Mid F) :
    emitted n (ms ++ [m]) outs = emitted n ms outs ++ (if m.expr = [⟨1, .linear ms.length⟩] then [] else [.internal (internalExpr m)]) := by
  unfold emitted
  rw [List.drop_append_of_le_length h.len]
  have hl : ms.length = n + 1 + (ms.drop (n + 1)).length := by have := h.len; simp; omega
  exact emit_mid _ _ _ _ _ hl h.sorted h.bound

theorem emitted_ext {n : Nat} {ms ms' : Mids F} {outs : List (Nat × Dest.Insn F)} (h : OutsOk n ms outs) (he : Ext ms ms') :
    emitted n ms' outs = emitted n ms outs ++ internals ms ms' := by
  refine he.ind (P := fun q => emitted n q outs = emitted n ms outs ++ internals ms q) (by simp [internals_self]) ?_
  intro q m hq hm ih
  rw [emitted_push (h.ext hq) m, ih, internals_push m hq.len, if_neg (internal_not_own hm), List.append_assoc]

theorem emitted_out {n : Nat} {ms : Mids F} {outs : List (Nat × Dest.Insn F)} (h : OutsOk n ms outs) (x : Dest.Insn F) :
    emitted n ms (outs ++ [(ms.length, x)]) = emitted n ms outs ++ [x] ∧ OutsOk n ms (outs ++ [(ms.length, x)]) := by
  refine ⟨emit_out _ _ _ _ _ (by have := h.len; simp; omega), h.len, ?_, ?_⟩
  · rw [List.pairwise_append]
    refine ⟨h.sorted, List.pairwise_singleton _ _, ?_⟩
    intro a ha b hb
    rw [List.mem_singleton.1 hb]; exact (h.bound a ha).2
  · intro o ho
    rcases List.mem_append.1 ho with ho | ho
    · exact h.bound o ho
    · rw [List.mem_singleton.1 ho]; exact ⟨h.len, le_rfl⟩

/-! ## Running the definitions of new middle variables -/

/-- The assignment of a value vector. -/
def asg (ws : List F) (i : Nat) : F := ws.getD i 0

theorem asg_append {ws t : List F} {i : Nat} (h : i < ws.length) : asg (ws ++ t) i = asg ws i := by
  simp [asg, List.getD, List.getElem?_append_left h]

theorem get_asg {ws : List F} {i : Nat} (h : i < ws.length) : ws[i]? = some (asg ws i) := by
  simp [asg, List.getD, List.getElem?_eq_getElem h]

theorem asg_of_get {ws : List F} {i : Nat} {x : F} (h : ws[i]? = some x) : asg ws i = x := by
  simp [asg, List.getD, h]

theorem value_append (E : Env F) {ws t : List F} {e : Expr F} (h : GOk ws.length e) : value E (asg (ws ++ t)) e = value E (asg ws) e :=
  value_congr E _ _ e fun v hv => asg_append (h.vars v hv)

theorem sem_value (E : Env F) {ws : List F} {e : Expr F} (hr : Expr.NoRandom e) (hv : ∀ v ∈ Expr.getVars e, v < ws.length) (y : F) :
    Expr.Sem E (fun v => ws[v]?) e y ↔ y = value E (asg ws) e := by
  have h1 : Expr.Sem E (fun v => ws[v]?) e y ↔ Expr.Sem E (fun v => some (asg ws v)) e y :=
    ⟨Expr.sem_local E e y (fun v h => get_asg (hv v h)), Expr.sem_local E e y (fun v h => (get_asg (hv v h)).symm)⟩
  rw [h1]
  exact Expr.sem_iff_lin E _ e hr (fun v _ => rfl) y

theorem internalExpr_spec {n : Nat} {m : Mid F} (h : m.Internal n) :
    GOk n (internalExpr m) ∧ ∀ E ρ, value E ρ (internalExpr m) = value E ρ m.expr * m.k + m.b := by
  have hk : m.k ≠ 0 := by
    intro h0; have := h.2.1; rw [h0, mul_zero] at this; exact zero_ne_one this
  have h2 : Expr.mulConstant m.expr m.k = m.expr.map (fun t => (⟨t.coef * m.k, t.vars⟩ : Term F)) := by simp [Expr.mulConstant, hk]
  have hv : Expr.getVars (Expr.mulConstant m.expr m.k) = Expr.getVars m.expr := by
    rw [h2]; simp [Expr.getVars, List.flatMap_map]
  have hval : ∀ E ρ, value E ρ (Expr.mulConstant m.expr m.k) = value E ρ m.expr * m.k := by
    intro E ρ; rw [h2]; exact value_scale E ρ m.expr m.k
  have hnr : Expr.NoRandom (Expr.mulConstant m.expr m.k) := by
    intro t ht x; rw [h2] at ht
    obtain ⟨s, hs, rfl⟩ := List.mem_map.1 ht
    exact h.1.norandom s hs x
  unfold internalExpr
  simp only
  split
  · rename_i hb
    refine ⟨⟨⟨?_, ?_, ?_, ?_, hnr, by rw [hv]; exact h.1.vars⟩, by rw [hv]; exact h.1.nz⟩, fun E ρ => by rw [hval, hb, add_zero]⟩
    · rw [h2]; simpa using h.1.ne
    · rw [h2]; exact List.pairwise_map.2 h.1.sorted
    · rw [h2]; intro t ht; obtain ⟨s, hs, rfl⟩ := List.mem_map.1 ht; exact h.1.norm s hs
    · rw [h2]
      rcases h.1.coef with ⟨c, hc⟩ | hc
      · left; rw [hc]; exact ⟨_, rfl⟩
      · right; intro t ht; obtain ⟨s, hs, rfl⟩ := List.mem_map.1 ht; exact mul_ne_zero (hc s hs) hk
  · have htok : TOk n (Expr.mulConstant m.expr m.k ++ [⟨m.b, .const⟩]) :=
      tok_append.2 ⟨⟨hnr, by rw [hv]; exact h.1.vars, by rw [hv]; exact h.1.nz⟩, (gok_const n m.b).tok⟩
    obtain ⟨g1, g2⟩ := gok_fromTerms htok
    refine ⟨g1, fun E ρ => ?_⟩
    rw [g2, Builder.value_append, hval, Builder.value_const]

theorem internal_run {E : Env F} {get : Nat → Option (Circuit (dest E true))} {m : Mid F} {ws ws' : List F} {b : Bool} (h : m.Internal ws.length) :
    Run (L := dest E true) get [.internal (internalExpr m)] ws ws' b ↔ ws' = ws ++ [value E (asg ws) m.expr * m.k + m.b] ∧ b = true := by
  obtain ⟨g1, g2⟩ := internalExpr_spec h
  rw [run_prim_iff (L := dest E true) rfl]
  constructor
  · rintro ⟨outs, ⟨y, hy, rfl⟩, hr⟩
    rw [run_nil_iff (L := dest E true)] at hr
    rw [sem_value E g1.norandom g1.vars] at hy
    rw [hr.1, hy, g2]; exact ⟨rfl, hr.2⟩
  · rintro ⟨rfl, rfl⟩
    refine ⟨[_], ⟨_, (sem_value E g1.norandom g1.vars _).2 rfl, rfl⟩, ?_⟩
    rw [g2]
    exact Run.nil _

theorem MidsOk.append {E : Env F} {ms : Mids F} {ws : List F} (t : List F) (hm : MidsWF ms) (hl : ws.length = ms.length) (h : MidsOk E (asg ws) ms) :
    MidsOk E (asg (ws ++ t)) ms := by
  intro i m hi h0
  have hlt : i < ws.length := by rw [hl]; exact (List.getElem?_eq_some_iff.1 hi).1
  rcases hm.ok i m hi h0 with hin | ho
  · rw [asg_append hlt, value_congr E (asg (ws ++ t)) (asg ws) m.expr (fun v hv => asg_append (lt_trans (hin.1.vars v hv) hlt))]
    exact h i m hi h0
  · rw [ho.1, ho.2.1, ho.2.2.2.1, Builder.value_linear]; ring

/-- Running the definitions of the new middle variables: total, and the result satisfies all definitions. -/
theorem ext_run {E : Env F} {get : Nat → Option (Circuit (dest E true))} {ms ms' : Mids F} (hm : MidsWF ms) (he : Ext ms ms') {ws : List F} (hl : ws.length = ms.length)
    (hok : MidsOk E (asg ws) ms) :
    (∃ ws', Run (L := dest E true) get (internals ms ms') ws ws' true) ∧
    ∀ ws' b, Run (L := dest E true) get (internals ms ms') ws ws' b → b = true ∧ (∃ t, ws' = ws ++ t) ∧ ws'.length = ms'.length ∧ MidsOk E (asg ws') ms' := by
  refine he.ind (P := fun q => (∃ ws', Run (L := dest E true) get (internals ms q) ws ws' true) ∧
    ∀ ws' b, Run (L := dest E true) get (internals ms q) ws ws' b → b = true ∧ (∃ t, ws' = ws ++ t) ∧ ws'.length = q.length ∧ MidsOk E (asg ws') q) ?_ ?_
  · rw [internals_self]
    refine ⟨⟨ws, Run.nil _⟩, fun ws' b h => ?_⟩
    rw [run_nil_iff (L := dest E true)] at h
    obtain ⟨rfl, rfl⟩ := h
    exact ⟨rfl, ⟨[], by simp⟩, hl, hok⟩
  · rintro q m hq hmi ⟨⟨w1, hw1⟩, h2⟩
    rw [internals_push m hq.len]
    constructor
    · obtain ⟨_, _, hl1, _⟩ := h2 _ _ hw1
      exact ⟨_, (run_append_iff (L := dest E true)).2 ⟨w1, true, true, hw1, (internal_run (by rw [hl1]; exact hmi)).2 ⟨rfl, rfl⟩, rfl⟩⟩
    · intro ws' b h
      obtain ⟨w2, b1, b2, r1, r2, rfl⟩ := (run_append_iff (L := dest E true)).1 h
      obtain ⟨rfl, ⟨t, rfl⟩, hl1, hok1⟩ := h2 _ _ r1
      obtain ⟨rfl, rfl⟩ := (internal_run (by rw [hl1]; exact hmi)).1 r2
      refine ⟨rfl, ⟨_, List.append_assoc _ _ _⟩, by rw [List.length_append (as := ws ++ t), hl1, List.length_append]; rfl, ?_⟩
      have hqw := hq.wf hm
      intro i m' hi h0
      by_cases hlt : i < q.length
      · rw [List.getElem?_append_left hlt] at hi
        exact hok1.append _ hqw hl1 i m' hi h0
      · have hi2 := (List.getElem?_eq_some_iff.1 hi).1
        simp only [List.length_append, List.length_singleton] at hi2
        have : i = q.length := by omega
        subst this
        rw [get_push] at hi
        cases hi
        have hg : GOk (ws ++ t).length m.expr := by rw [hl1]; exact hmi.1
        rw [value_append E (ws := ws ++ t) hg, ← hl1]
        exact asg_of_get (by simp only [List.getElem?_append_right le_rfl, Nat.sub_self, List.getElem?_cons_zero])

end Verif.FinalBuild
