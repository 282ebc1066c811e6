import Verif.IR.MulFanoutRoot
import Verif.IR.ReassignCanon
import Verif.Layering.Level

/-!
# Limiting the fan-out of products does not make outputs equal

`solve_mul_fanout_limit` (mul_fanout_limit.rs:51-238) renumbers variables; different variables keep different default numbers, so a circuit
without duplicate outputs stays without.  `solve_duplicates`, which comes later, panics on duplicate outputs.
-/

set_option linter.unusedSectionVars false
set_option linter.unusedSimpArgs false

namespace Verif.IR.MulFanout

open Verif.IR Verif.IR.Dest

variable {F : Type} [Field F] [DecidableEq F]

theorem map_dflt_set {st : List Q} {x : Nat} {q q' : Q} (hx : st[x]? = some q) (hd : q'.dflt = q.dflt) : (st.set x q').map Q.dflt = st.map Q.dflt := by
  apply List.ext_getElem?
  intro i
  rw [List.getElem?_map, List.getElem?_map, List.getElem?_set]
  split
  · rename_i h
    subst h
    obtain ⟨h1, -⟩ := List.getElem?_eq_some_iff.1 hx
    rw [if_pos h1, hx]
    simp [hd]
  · rfl

theorem getAt_dflt (st : List Q) (x : Nat) : (getAt st x).2.map Q.dflt = st.map Q.dflt := by
  unfold getAt
  cases h : st[x]? with
  | none => rfl
  | some q => exact map_dflt_set h rfl

theorem emitTerm_dflt (st : List Q) (t : Term F) : (emitTerm st t).2.map Q.dflt = st.map Q.dflt := by
  unfold emitTerm
  split
  · rw [getAt_dflt, getAt_dflt]
  · rfl

theorem emitTerms_dflt : ∀ (ts : List (Term F)) (st : List Q), (emitTerms ts st).2.map Q.dflt = st.map Q.dflt := by
  intro ts
  induction ts with
  | nil => intro st; rfl
  | cons t ts ih => intro st; rw [emitTerms]; dsimp only; rw [ih, emitTerm_dflt]

theorem emitCopies_dflt (e : Expr F) : ∀ (k : Nat) (st : List Q), (emitCopies e k st).2.map Q.dflt = st.map Q.dflt := by
  intro k
  induction k with
  | zero => intro st; rfl
  | succ k ih => intro st; rw [emitCopies]; dsimp only; rw [ih, emitTerms_dflt]

theorem relays_dflt (limit : Nat) : ∀ (r : Nat) (q : Q) (mx : Nat), (relays (F := F) limit r q mx).2.dflt = q.dflt := by
  intro r
  induction r with
  | zero => intro q mx; rfl
  | succ r ih => intro q mx; rw [relays]; dsimp only; rw [ih]; rfl

theorem solveVar_dflt {limit : Nat} {p : Nat × Nat} {last : Option (Insn F)} {q q' : Q} {mx : Nat} {js : List (Insn F)} (h : solveVar limit p last q mx = some (js, q')) :
    q'.dflt = q.dflt := by
  unfold solveVar at h
  split at h
  · cases h; rfl
  · split at h
    · have := Option.some.inj h
      rw [show q' = (relays (F := F) limit p.2 (q.push q.dflt limit) mx).2 from by rw [this], relays_dflt]; rfl
    · dsimp only at h
      have := Option.some.inj h
      rw [Prod.mk.injEq] at this
      rw [← this.2, relays_dflt]; rfl
    · cases h

/-- The default numbers are different and have been used. -/
def Incr (s : St F) : Prop := (s.newId.map Q.dflt).Nodup ∧ ∀ d ∈ s.newId.map Q.dflt, d ≤ s.mx

theorem solveAll_incr {limit : Nat} {pl : List (Nat × Nat)} : ∀ (k : Nat) (s s' : St F) (js : List (Insn F)), solveAll limit pl k s = some (js, s') →
    s'.newId.map Q.dflt = s.newId.map Q.dflt ∧ s.mx ≤ s'.mx := by
  intro k
  induction k with
  | zero => intro s s' js h; rw [solveAll] at h; cases h; exact ⟨rfl, le_refl _⟩
  | succ k ih =>
    intro s s' js h
    rw [solveAll] at h
    cases hq : s.newId[s.solved + 1]? with
    | none => rw [hq] at h; cases h
    | some q =>
      rw [hq] at h
      dsimp only at h
      cases hs : solveVar limit (pl.getD (s.solved + 1) (0, 0)) s.last q s.mx with
      | none => rw [hs] at h; cases h
      | some r =>
        obtain ⟨js1, q'⟩ := r
        rw [hs] at h
        dsimp only at h
        obtain ⟨⟨js2, s2⟩, h1, h2⟩ := Option.map_eq_some_iff.1 h
        cases h2
        obtain ⟨a, b⟩ := ih _ _ _ h1
        dsimp only at a b
        exact ⟨a.trans (map_dflt_set hq (solveVar_dflt hs)), by dsimp only; omega⟩

theorem incr_append {s : St F} (hs : Incr s) {l : List Q} {newId : List Q} (he : newId.map Q.dflt = s.newId.map Q.dflt) {mx : Nat} (hmx : s.mx ≤ mx) (hn : (l.map Q.dflt).Nodup)
    (hl : ∀ d ∈ l.map Q.dflt, s.mx < d ∧ d ≤ mx) : ((newId ++ l).map Q.dflt).Nodup ∧ ∀ d ∈ (newId ++ l).map Q.dflt, d ≤ mx := by
  rw [List.map_append, he]
  refine ⟨List.nodup_append.2 ⟨hs.1, hn, fun a ha b hb hab => ?_⟩, fun d hd => ?_⟩
  · have := hs.2 a ha
    have := (hl b hb).1
    omega
  · rcases List.mem_append.1 hd with h | h
    · exact (hs.2 d h).trans hmx
    · exact (hl d h).2

theorem stepInsn_incr {limit : Nat} {pl : List (Nat × Nat)} {i : Insn F} {s s' : St F} {js : List (Insn F)} (hs : Incr s) (h : stepInsn limit pl i s = some (js, s')) : Incr s' := by
  cases i with
  | constantLike c =>
    simp only [stepInsn, Option.some.injEq, Prod.mk.injEq] at h
    obtain ⟨-, rfl⟩ := h
    exact incr_append hs rfl (mx := s.mx + 1) (by omega) (by simp) (by simp)
  | call c xs n =>
    simp only [stepInsn] at h
    split at h
    · cases h
      refine incr_append hs rfl (mx := s.mx + n) (by omega) ?_ ?_
      · rw [List.map_map, show Q.dflt ∘ (fun id => (⟨[], id⟩ : Q)) = id from rfl, List.map_id]
        exact List.nodup_range'
      · rw [List.map_map, show Q.dflt ∘ (fun id => (⟨[], id⟩ : Q)) = id from rfl, List.map_id]
        intro d hd
        rw [List.mem_range'_1] at hd
        omega
    · cases h
  | internal e =>
    simp only [stepInsn] at h
    split at h
    · cases h
    · cases h
      exact incr_append hs (emitCopies_dflt e _ _) (by dsimp only; omega) (by simp) (by simp)

theorem loop_incr {limit : Nat} {pl : List (Nat × Nat)} : ∀ (is : List (Insn F)) (s s' : St F) (js : List (Insn F)), Incr s → loop limit pl is s = some (js, s') → Incr s' := by
  intro is
  induction is with
  | nil => intro s s' js hs h; rw [loop] at h; cases h; exact hs
  | cons i is ih =>
    intro s s' js hs h
    rw [loop] at h
    cases h1 : solveAll limit pl (s.newId.length - 1 - s.solved) s with
    | none => rw [h1] at h; cases h
    | some r1 =>
      obtain ⟨js1, s1⟩ := r1
      rw [h1] at h
      dsimp only at h
      cases h2 : stepInsn limit pl i s1 with
      | none => rw [h2] at h; cases h
      | some r2 =>
        obtain ⟨js2, s2⟩ := r2
        rw [h2] at h
        dsimp only at h
        obtain ⟨⟨js3, s3⟩, h3, h4⟩ := Option.map_eq_some_iff.1 h
        cases h4
        obtain ⟨a, b⟩ := solveAll_incr _ _ _ _ h1
        refine ih _ _ _ (stepInsn_incr ⟨by rw [a]; exact hs.1, fun d hd => ?_⟩ h2) h3
        rw [a] at hd
        exact (hs.2 d hd).trans b

theorem init_incr (n : Nat) : Incr (init (F := F) n) := by
  unfold Incr init
  dsimp only
  rw [List.map_map, show Q.dflt ∘ (fun i => (⟨[], i⟩ : Q)) = id from rfl, List.map_id]
  exact ⟨List.nodup_range, fun d hd => by rw [List.mem_range] at hd; omega⟩

/-- Number of variables that have numbers. -/
theorem stepInsn_len {limit : Nat} {pl : List (Nat × Nat)} {i : Insn F} {s s' : St F} {js : List (Insn F)} (h : stepInsn limit pl i s = some (js, s')) :
    s.newId.length ≤ s'.newId.length ∧ s'.newId.length = s.newId.length + (match i with | .call _ _ n => n | _ => 1) := by
  cases i with
  | constantLike c =>
    simp only [stepInsn, Option.some.injEq, Prod.mk.injEq] at h
    obtain ⟨-, rfl⟩ := h
    simp
  | call c xs n =>
    simp only [stepInsn] at h
    split at h
    · cases h; simp
    · cases h
  | internal e =>
    simp only [stepInsn] at h
    split at h
    · cases h
    · cases h
      have := congrArg List.length (emitCopies_dflt e ((pl.getD s.newId.length (0, 0)).1 + 1) s.newId)
      simp only [List.length_map] at this
      dsimp only
      rw [List.length_append, this]
      simp

theorem loop_len {E : Env F} {limit : Nat} {pl : List (Nat × Nat)} : ∀ (is : List (Insn F)) (s s' : St F) (js : List (Insn F)), loop limit pl is s = some (js, s') →
    s'.newId.length = numVars (L := dest E true) s.newId.length is := by
  intro is
  induction is with
  | nil => intro s s' js h; rw [loop] at h; cases h; rfl
  | cons i is ih =>
    intro s s' js h
    rw [loop] at h
    cases h1 : solveAll limit pl (s.newId.length - 1 - s.solved) s with
    | none => rw [h1] at h; cases h
    | some r1 =>
      obtain ⟨js1, s1⟩ := r1
      rw [h1] at h
      dsimp only at h
      cases h2 : stepInsn limit pl i s1 with
      | none => rw [h2] at h; cases h
      | some r2 =>
        obtain ⟨js2, s2⟩ := r2
        rw [h2] at h
        dsimp only at h
        obtain ⟨⟨js3, s3⟩, h3, h4⟩ := Option.map_eq_some_iff.1 h
        cases h4
        have a := congrArg List.length (solveAll_incr _ _ _ _ h1).1
        simp only [List.length_map] at a
        rw [ih _ _ _ h3, (stepInsn_len h2).2, a, numVars_cons]
        cases i <;> rfl

/-- Different outputs stay different. -/
theorem solveCircuit_noDup {E : Env F} {limit : Nat} {npi : Option Nat} {circ circ' : Circuit (dest E true)} (hok : CircOk npi circ) (hn : circ.outputs.Nodup)
    (h : solveCircuit E limit circ = some circ') : circ'.outputs.Nodup := by
  unfold solveCircuit at h
  split at h
  · cases h; exact hn
  · obtain ⟨⟨js, s⟩, h1, h2⟩ := Option.map_eq_some_iff.1 h
    subst h2
    have hi := loop_incr _ _ _ _ (init_incr _) h1
    have hl := loop_len (E := E) _ _ _ _ h1
    dsimp only
    refine List.Nodup.map_on (fun a ha b hb he => ?_) hn
    have hlt : ∀ x ∈ circ.outputs, x < s.newId.length := by
      intro x hx
      have := (hok.outs x hx).1
      rw [hl, show (init (F := F) circ.numInputs).newId.length = circ.numInputs + 1 from by simp [init]]
      have h2 := numVars_add (L := dest E true) circ.numInputs 1 circ.instructions
      have := (hok.outs x hx).2
      omega
    have g : ∀ x (hx : x < s.newId.length), dfltAt s.newId x = (s.newId.map Q.dflt)[x]'(by simpa using hx) := by
      intro x hx
      unfold dfltAt
      rw [List.getElem?_eq_getElem hx]
      simp
    rw [g a (hlt a ha), g b (hlt b hb)] at he
    exact (List.Nodup.getElem_inj_iff hi.1).1 he

theorem solveRoot_noDup {E : Env F} {limit : Nat} {npi : Option Nat} {rc rc' : RootCircuit (dest E true)} (hk : rc.vertices.Nodup) (hw : WFGet npi rc.get) (hn : NoDupOut rc.get)
    (h : solveRoot E limit rc = some rc') : NoDupOut rc'.get := by
  unfold solveRoot at h
  split at h
  · cases h
  · obtain ⟨cs, h1, h2⟩ := Option.map_eq_some_iff.1 h
    subst h2
    intro c circ' hg
    have hm := mem_of_get hg
    obtain ⟨p, hp, he⟩ := Verif.Layering.mapOpt_mem h1 _ hm
    obtain ⟨c1, h3, h4⟩ := Option.map_eq_some_iff.1 he
    cases h4
    have hg0 := get_of_mem hk hp
    exact solveCircuit_noDup (hw.circ _ _ hg0) (hn _ _ hg0) h3

end Verif.IR.MulFanout
