import Verif.Builder.Process

/-!
# What happens to assertions, for arbitrary sequences of requests; and when hint normalisation reports a user error
-/

set_option linter.unusedSectionVars false
set_option linter.unusedSimpArgs false
set_option linter.unusedVariables false

namespace Verif.Builder

open Verif.IR Verif.Hints Verif.IR.HintExport Verif.Utils

variable {F : Type} [Field F] [DecidableEq F]
variable {cn : Canon F} {srt : List (Expr F) → List (Expr F)} {npi : Nat}

/-- Splitting an execution. -/
theorem exec_split (hsrt : ∀ l, (srt l).Perm l) {st st' : St F} {e1 e2 : List (Ev F)} (hw : Wf st.exprs.length st) (hf : EtoFull st) (hc : ConsOk st)
    (hev : EvsOk npi st.exprs.length (e1 ++ e2)) (hex : exec srt st (e1 ++ e2) = some st') :
    ∃ sa ja jb, exec srt st e1 = some sa ∧ exec srt sa e2 = some st' ∧ Execd npi st e1 sa ja ∧ Execd npi sa e2 st' jb ∧ EvsOk npi sa.exprs.length e2 := by
  obtain ⟨o1, o2⟩ := evsOk_append.1 hev
  obtain ⟨sa, ja, x1, d1⟩ := exec_spec hsrt e1 hw hf hc o1
  rw [← d1.len] at o2
  obtain ⟨sb, jb, x2, d2⟩ := exec_spec hsrt e2 d1.wf d1.full d1.cok o2
  rw [exec_append, x1] at hex
  simp only [Option.bind_some] at hex
  rw [x2] at hex
  cases hex
  exact ⟨sa, ja, jb, x1, x2, d1, d2, o2⟩

theorem mem_asserts_split {v : Nat} : ∀ {es : List (Ev F)}, v ∈ asserts es → ∃ e1 e2, es = e1 ++ .assert v :: e2 := by
  intro es
  induction es with
  | nil => simp [asserts]
  | cons e es ih =>
    intro h
    cases e with
    | push i =>
      obtain ⟨e1, e2, rfl⟩ := ih (by simpa [asserts] using h)
      exact ⟨_ :: e1, e2, rfl⟩
    | mark u =>
      obtain ⟨e1, e2, rfl⟩ := ih (by simpa [asserts] using h)
      exact ⟨_ :: e1, e2, rfl⟩
    | assert u =>
      simp only [asserts, List.mem_cons] at h
      rcases h with rfl | h
      · exact ⟨[], es, rfl⟩
      · obtain ⟨e1, e2, rfl⟩ := ih h
        exact ⟨_ :: e1, e2, rfl⟩

/-- What the table of constraints knows of an assertion, just after it and at the end. -/
theorem assert_entry (hsrt : ∀ l, (srt l).Perm l) {st st' : St F} {e1 e2 : List (Ev F)} {v : Nat} (hw : Wf st.exprs.length st) (hf : EtoFull st) (hc : ConsOk st)
    (h0 : st.cons = []) (hev : EvsOk npi st.exprs.length (e1 ++ .assert v :: e2)) (hex : exec srt st (e1 ++ .assert v :: e2) = some st') :
    ∃ e, st'.exprs[v]? = some e ∧ (st'.cons.lookup e = some true ∨ (st'.cons.lookup e = some false ∧ st'.overwrote = true) ∨
      (st'.cons.lookup e = some false ∧ ∃ u ∈ marks e1, st'.exprs[u]? = some e)) := by
  have e : e1 ++ .assert v :: e2 = (e1 ++ [.assert v]) ++ e2 := by simp
  rw [e] at hev hex
  obtain ⟨sa, ja, jb, x1, x2, d1, d2, o2⟩ := exec_split hsrt hw hf hc hev hex
  obtain ⟨sm, jm, jn, y1, y2, c1, c2, p2⟩ := exec_split hsrt hw hf hc (evsOk_append.1 hev).1 x1
  have hlt := c2.inRange v (.inl (by simp [asserts]))
  have hx : sa.exprs[v]? = some sa.exprs[v] := List.getElem?_eq_getElem hlt
  generalize sa.exprs[v] = e at hx
  refine ⟨e, prefix_get d2.pre hx, ?_⟩
  rcases c2.asserted (by simp [marks]) v (by simp [asserts]) e hx with g | g
  · rcases d2.persTrue e g with g | g
    · exact .inl g
    · exact .inr (.inl g)
  · right; right
    refine ⟨d2.persFalse e (c2.persFalse e g), ?_⟩
    rcases c1.origin e false g with g | ⟨g, _⟩ | ⟨_, u, hu, _, hux⟩
    · rw [h0] at g; simp at g
    · cases g
    · exact ⟨u, hu, prefix_get d2.pre (prefix_get c2.pre hux)⟩

/-- If the emitted constraints and the marks hold, so do all assertions. -/
theorem asserts_of_marks (hsrt : ∀ l, (srt l).Perm l) {E : Env F} {st st' : St F} {es : List (Ev F)} {ws : List F} (hw : Wf st.exprs.length st) (hf : EtoFull st) (hc : ConsOk st)
    (h0 : st.cons = []) (hev : EvsOk npi st.exprs.length es) (hex : exec srt st es = some st') (hs : ∃ ρ, Sem E ρ st' ws) (ht : TrueZero st' ws)
    (hm : ∀ v ∈ marks es, ws[v]? = some 0) : ∀ v ∈ asserts es, ws[v]? = some 0 := by
  intro v hv
  obtain ⟨st2, js, x, d⟩ := exec_spec hsrt es hw hf hc hev
  rw [hex] at x; cases x
  obtain ⟨e1, e2, rfl⟩ := mem_asserts_split hv
  obtain ⟨e, hx, g⟩ := assert_entry hsrt hw hf hc h0 hev hex
  have : st'.cons.lookup e = some true ∨ st'.cons.lookup e = some false := by
    rcases g with g | ⟨g, _⟩ | ⟨g, _⟩
    · exact .inl g
    · exact .inr g
    · exact .inr g
  rcases this with g | g
  · exact ht e g v hx
  · rcases d.origin e false g with g | ⟨g, _⟩ | ⟨_, u, hu, _, hux⟩
    · rw [h0] at g; simp at g
    · cases g
    · exact zero_of_var hs hux (hm u hu) v hx

/-- Every mark follows from the assertions made before it. -/
def MarksJustified (es : List (Ev F)) (ws : List F) : Prop :=
  ∀ e1 v e2, es = e1 ++ .mark v :: e2 → (∀ u ∈ asserts e1, ws[u]? = some 0) → ws[v]? = some 0

theorem asserts_of_justified (hsrt : ∀ l, (srt l).Perm l) {E : Env F} {st st' : St F} {es : List (Ev F)} {ws : List F} (hw : Wf st.exprs.length st) (hf : EtoFull st) (hc : ConsOk st)
    (h0 : st.cons = []) (hev : EvsOk npi st.exprs.length es) (hex : exec srt st es = some st') (hs : ∃ ρ, Sem E ρ st' ws) (ht : TrueZero st' ws)
    (hov : st'.overwrote = false) (hj : MarksJustified es ws) : ∀ v, (v ∈ asserts es ∨ v ∈ marks es) → ws[v]? = some 0 := by
  suffices key : ∀ n e1 e2, e1.length = n → es = e1 ++ e2 → ∀ v, (v ∈ asserts e1 ∨ v ∈ marks e1) → ws[v]? = some 0 from
    key es.length es [] rfl (by simp)
  intro n
  induction n with
  | zero =>
    intro e1 e2 hl _ v hv
    have : e1 = [] := List.length_eq_zero_iff.1 hl
    subst this
    simp [asserts, marks] at hv
  | succ n ih =>
    intro e1 e2 hl he v hv
    obtain ⟨e0, a, rfl⟩ : ∃ e0 a, e1 = e0 ++ [a] := by
      refine ⟨e1.dropLast, e1.getLast (by intro h; simp [h] at hl), (List.dropLast_append_getLast _).symm⟩
    have ih' := ih e0 (a :: e2) (by simpa using hl) (by rw [he]; simp)
    rw [asserts_append, marks_append, List.mem_append, List.mem_append] at hv
    cases a with
    | push i => exact ih' v (by simpa [asserts, marks] using hv)
    | assert u =>
      simp only [asserts, marks, List.mem_singleton, List.not_mem_nil, or_false] at hv
      rcases hv with (hv | rfl) | hv
      · exact ih' v (.inl hv)
      · have he' : es = e0 ++ .assert v :: e2 := by rw [he]; simp
        rw [he'] at hev hex
        obtain ⟨e, hx, g⟩ := assert_entry hsrt hw hf hc h0 hev hex
        rcases g with g | ⟨_, g⟩ | ⟨_, u, hu, hux⟩
        · exact ht e g v hx
        · rw [hov] at g; cases g
        · exact zero_of_var hs hux (ih' u (.inr hu)) v hx
      · exact ih' v (.inr hv)
    | mark u =>
      simp only [asserts, marks, List.mem_singleton, List.not_mem_nil, or_false] at hv
      rcases hv with hv | hv | rfl
      · exact ih' v (.inl hv)
      · exact ih' v (.inr hv)
      · exact hj e0 v e2 (by rw [he]; simp) (fun u hu => ih' u (.inl hu))

/-! ## User errors -/

/-- The instructions whose lowering can fail: divisions and unconstrained operations (with constant operands). -/
def mayReject : Source.Insn F → Bool
  | .div _ _ _ => true
  | .unconstrainedBinOp _ _ _ => true
  | _ => false

theorem expand_none {cv : Nat → Option F} {n : Nat} {i : Source.Insn F} (h : expand cn cv n i = none) : mayReject i = true := by
  cases i <;> simp only [expand] at h <;> first | rfl | (split at h <;> simp at h) | simp at h

theorem mayReject_replace (i : Source.Insn F) (f : Nat → Nat) : mayReject (i.replaceVars f) = mayReject i := by
  cases i <;> rfl

theorem processInsns_userError {is : List (Source.Insn F)} : ∀ {ps : PSt F}, processInsns cn srt ps is = .userError → ∃ i ∈ is, mayReject i = true := by
  induction is with
  | nil => intro ps h; simp [processInsns] at h
  | cons i is ih =>
    intro ps h
    simp only [processInsns] at h
    cases hp : processInsn cn srt ps i with
    | ok ps' =>
      rw [hp] at h
      obtain ⟨j, hj, hm⟩ := ih h
      exact ⟨j, by simp [hj], hm⟩
    | panic => rw [hp] at h; cases h
    | userError =>
      refine ⟨i, by simp, ?_⟩
      unfold processInsn at hp
      cases he : expand cn (constOf ps.st) ps.st.exprs.length (i.replaceVars (vmGet ps.ito)) with
      | none => rw [← mayReject_replace]; exact expand_none he
      | some r =>
        rw [he] at hp
        obtain ⟨es, vars⟩ := r
        simp only at hp
        cases hx : exec srt ps.st es with
        | none => rw [hx] at hp; cases hp
        | some s => rw [hx] at hp; simp only at hp; split at hp <;> cases hp

theorem processCircuit_userError {E E' : Env F} {c : Circuit (source E)} (h : processCircuit cn srt E' c = .userError) :
    ∃ i ∈ c.instructions, mayReject (F := F) i = true := by
  unfold processCircuit buildCircuit at h
  cases h0 : initPs (F := F) c.numInputs with
  | none => rw [h0] at h; cases h
  | some ps =>
    rw [h0] at h
    simp only at h
    cases h1 : processInsns cn srt ps c.instructions with
    | userError => exact processInsns_userError h1
    | panic => rw [h1] at h; cases h
    | ok ps' =>
      rw [h1] at h
      simp only at h
      have hnot : ∀ (ks : List (Source.Con × Nat)) (p : PSt F), processCons srt p ks ≠ .userError := by
        intro ks
        induction ks with
        | nil => intro p hp; simp [processCons] at hp
        | cons k ks ih =>
          intro p hp
          obtain ⟨t, v⟩ := k
          simp only [processCons] at hp
          cases hc : processCon srt p t v with
          | ok p' => rw [hc] at hp; exact ih p' hp
          | panic => rw [hc] at hp; cases hp
          | userError =>
            unfold processCon at hc
            split at hc <;> cases hc
      cases h2 : processCons srt ps' (consOf c) with
      | userError => exact absurd h2 (hnot _ _)
      | panic => rw [h2] at h; cases h
      | ok p2 =>
        rw [h2] at h
        simp only at h
        split at h <;> cases h

theorem processList_userError {E E' : Env F} {get : Nat → Option (Circuit (source E))} : ∀ {q : List Nat}, processList cn srt E' get q = .userError →
    ∃ c circ, get c = some circ ∧ ∃ i ∈ circ.instructions, mayReject (F := F) i = true := by
  intro q
  induction q with
  | nil => intro h; simp [processList] at h
  | cons c q ih =>
    intro h
    simp only [processList] at h
    cases h1 : processList cn srt E' get q with
    | userError => exact ih h1
    | panic => rw [h1] at h; cases h
    | ok t =>
      rw [h1] at h
      simp only at h
      cases h2 : get c with
      | none => rw [h2] at h; cases h
      | some circ =>
        rw [h2] at h
        simp only at h
        cases h3 : processCircuit cn srt E' circ with
        | userError => exact ⟨c, circ, h2, processCircuit_userError h3⟩
        | panic => rw [h3] at h; cases h
        | ok c' => rw [h3] at h; cases h

theorem process_userError {E E' : Env F} {rc : RootCircuit (source E)} (h : process cn srt E' rc = .userError) :
    ∃ c circ, rc.get c = some circ ∧ ∃ i ∈ circ.instructions, mayReject (F := F) i = true := by
  unfold process at h
  split at h
  · cases h
  · split at h
    · cases h
    · rename_i h1; exact processList_userError h1
    · cases h

end Verif.Builder
