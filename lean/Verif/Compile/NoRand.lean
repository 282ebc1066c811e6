import Verif.Compile.Track
import Verif.IR.SolveDup
import Verif.IR.MulFanout
import Verif.IR.ExportCons
import Verif.Layering.SplitRoot

/-!
# Circuits without random values

Which passes keep a circuit free of random values, and where `split_to_single_layer` puts the random values it introduces.
-/

set_option linter.unusedSectionVars false
set_option linter.unusedSimpArgs false

namespace Verif.Compile

open Verif.IR Verif.IR.SolveDup

variable {F : Type} [Field F] [DecidableEq F] {L : Lang F}

theorem fromTerms_noRandom {ts : List (Term F)} (h : ∀ t ∈ ts, ∀ x, t.vars ≠ .randomLinear x) : Expr.NoRandom (Expr.fromTerms ts) := by
  intro t ht x e
  by_cases hz : t = Term.zero
  · subst hz; cases e
  · obtain ⟨s, hs, he⟩ := Expr.fromTerms_mem ts t ht hz
    rw [e] at he
    have := h s hs
    cases hv : s.vars with
    | randomLinear y => exact this _ hv
    | quad a b => rw [hv] at he; simp only [VarSpec.normalize] at he; split at he <;> cases he
    | _ => rw [hv] at he; simp [VarSpec.normalize] at he

theorem kx_noRandom (x : Nat) (k b : F) : NoRandom (.internal (Expr.fromTerms [⟨k, .linear x⟩, ⟨b, .const⟩]) : Dest.Insn F) := by
  refine fromTerms_noRandom fun t ht => ?_
  simp at ht
  rcases ht with rfl | rfl <;> intro x <;> simp

/-- All instructions have a property. -/
def AllInsn (R : L.Insn → Prop) (rc : RootCircuit L) : Prop := ∀ c circ, rc.get c = some circ → ∀ i ∈ circ.instructions, R i

theorem derived_all {R : L.Insn → Prop} (hr : ∀ i f, L.asCall i = none → R i → R (L.replaceVars i f)) (hk : ∀ x k b, R (L.fromKxPlusB x k b)) (hc : ∀ i, L.asCall i ≠ none → R i)
    {is js : List L.Insn} (h : Derived L is js) : (∀ i ∈ is, R i) → ∀ j ∈ js, R j := by
  induction h with
  | fresh h =>
    intro _ j hj
    obtain ⟨x, k, b, rfl⟩ := h j hj
    exact hk _ _ _
  | skip i h ih => exact fun hi => ih fun j hj => hi j (by simp [hj])
  | prim i f hi h ih =>
    intro ha j hj
    rcases List.mem_cons.1 hj with rfl | hj
    · exact hr _ _ hi (ha i (by simp))
    · exact ih (fun j hj => ha j (by simp [hj])) j hj
  | call i j hi hj' h ih =>
    intro ha j2 hj
    rcases List.mem_cons.1 hj with rfl | hj
    · exact hc _ (by rw [hj']; simp)
    · exact ih (fun j hj => ha j (by simp [hj])) j2 hj

theorem fwd_all {R : L.Insn → Prop} (hr : ∀ i f, L.asCall i = none → R i → R (L.replaceVars i f)) (hk : ∀ x k b, R (L.fromKxPlusB x k b)) (hc : ∀ i, L.asCall i ≠ none → R i) :
    Fwd (AllInsn (L := L) R) := by
  intro x y hd hx c circ' hg
  obtain ⟨circ, hg0, h⟩ := hd.circ _ _ hg
  exact derived_all hr hk hc h.insns (hx c circ hg0)

/-- No instruction of a circuit without hints draws a random value. -/
def HlNoRandom {E : Env F} (rc : RootCircuit (hintLess E)) : Prop := AllInsn (L := hintLess E) (fun i => (i : HintLess.Insn F) ≠ .constantLike .random) rc

theorem hl_fwd {E : Env F} : Fwd (HlNoRandom (E := E)) := by
  refine fwd_all ?_ ?_ ?_
  · intro i f _ h
    cases i <;> simp_all [hintLess, HintLess.Insn.replaceVars]
  · intro x k b h; cases h
  · intro i h e; subst e; exact h rfl

/-- No instruction of a circuit in final form draws a random value. -/
def DestNoRandom {E : Env F} {relaxed : Bool} (rc : RootCircuit (dest E relaxed)) : Prop := AllInsn (L := dest E relaxed) NoRandom rc

theorem dest_fwd {E : Env F} {relaxed : Bool} : Fwd (DestNoRandom (E := E) (relaxed := relaxed)) := by
  refine fwd_all ?_ ?_ ?_
  · intro i f _ h; exact noRandom_replace h f
  · intro x k b; exact kx_noRandom x k b
  · intro i h
    cases i with
    | call c xs n => trivial
    | internal e => exact (h rfl).elim
    | constantLike c => exact (h rfl).elim

/-- No product with a random number. -/
def NoRandomLinear : Dest.Insn F → Prop
  | .internal e => ∀ t ∈ e, ∀ x, t.vars ≠ .randomLinear x
  | _ => True

theorem randomLinear_fwd {E : Env F} {relaxed : Bool} : Fwd (AllInsn (L := dest E relaxed) NoRandomLinear) := by
  refine fwd_all ?_ ?_ ?_
  · intro i f hc h
    cases i with
    | internal e => exact noRandom_replace (i := .internal e) h f
    | call c xs n => trivial
    | constantLike c => trivial
  · intro x k b; exact kx_noRandom x k b
  · intro i h
    cases i with
    | call c xs n => trivial
    | internal e => exact (h rfl).elim
    | constantLike c => trivial

/-- Random values are drawn after the last call. -/
def DestRandLast {E : Env F} {relaxed : Bool} (rc : RootCircuit (dest E relaxed)) : Prop :=
  ∀ c circ, rc.get c = some circ → RandLast (circ.instructions : List (Dest.Insn F))

theorem derived_randLast {E : Env F} {relaxed : Bool} {is js : List (dest E relaxed).Insn} (h : Derived (dest E relaxed) is js) : RandLast (is : List (Dest.Insn F)) →
    RandLast (js : List (Dest.Insn F)) ∧ ((∀ i ∈ (is : List (Dest.Insn F)), i.asCall = none) → ∀ j ∈ (js : List (Dest.Insn F)), j.asCall = none) := by
  induction h with
  | fresh h =>
    intro _
    refine ⟨RandLast.of_noRandom fun j hj => ?_, fun _ j hj => ?_⟩
    · obtain ⟨x, k, b, rfl⟩ := h j hj
      exact kx_noRandom x k b
    · obtain ⟨x, k, b, rfl⟩ := h j hj; rfl
  | skip i h ih => exact fun hr => ⟨(ih hr.2).1, fun ha => (ih hr.2).2 fun j hj => ha j (by simp [hj])⟩
  | prim i f hi h ih =>
    intro hr
    refine ⟨⟨hr.1.imp (fun h => noRandom_replace h f) (ih hr.2).2, (ih hr.2).1⟩, fun ha j hj => ?_⟩
    rcases List.mem_cons.1 hj with rfl | hj
    · have : (Dest.Insn.replaceVars i f).asCall = none := by
        cases i <;> first | rfl | cases hi
      exact this
    · exact (ih hr.2).2 (fun j hj => ha j (by simp [hj])) j hj
  | call i j hi hj' h ih =>
    intro hr
    refine ⟨⟨.inl ?_, (ih hr.2).1⟩, fun ha j2 hj => ?_⟩
    · cases j with
      | call c xs n => trivial
      | internal e => cases hj'
      | constantLike c => cases hj'
    · have := ha i (by simp)
      have hi' : i.asCall = some _ := hi
      rw [this] at hi'; cases hi'

theorem randLast_fwd {E : Env F} {relaxed : Bool} : Fwd (DestRandLast (E := E) (relaxed := relaxed)) := by
  intro x y hd hx c circ' hg
  obtain ⟨circ, hg0, h⟩ := hd.circ _ _ hg
  exact (derived_randLast h.insns (hx c circ hg0)).1

theorem DestNoRandom.randLast {E : Env F} {relaxed : Bool} {rc : RootCircuit (dest E relaxed)} (h : DestNoRandom rc) : DestRandLast rc :=
  fun c circ hg => RandLast.of_noRandom (h c circ hg)

/-! ### `export_constraints` -/

section exportC
open ExportCons

theorem exportInsns_noRandom {E : Env F} (add : Nat → Nat) : ∀ (is : List (Dest.Insn F)) (vm : List Nat) (mx : Nat), (∀ i ∈ is, NoRandom i) →
    ∀ j ∈ (exportInsns (L := dest E true) add is vm mx).1, NoRandom j := by
  intro is
  induction is with
  | nil => intro vm mx _ j hj; simp [exportInsns] at hj
  | cons i is ih =>
    intro vm mx hi j hj
    have hrest : ∀ i ∈ is, NoRandom i := fun k hk => hi k (by simp [hk])
    simp only [exportInsns] at hj
    cases hc : Dest.Insn.asCall i with
    | none =>
      rw [hc] at hj
      rcases List.mem_cons.1 hj with rfl | hj
      · exact noRandom_replace (hi i (by simp)) _
      · exact ih _ _ hrest j hj
    | some t =>
      obtain ⟨d, a, n⟩ := t
      rw [hc] at hj
      rcases List.mem_cons.1 hj with rfl | hj
      · trivial
      · exact ih _ _ hrest j hj

theorem exportConstraints_noRandom {E : Env F} {rc rc' : RootCircuit (dest E true)} (h : exportConstraints rc = some rc') (hn : DestNoRandom rc) : DestNoRandom rc' := by
  unfold exportConstraints at h
  split at h
  · cases h
  · cases h
    intro c circ' hg
    rw [RootCircuit.get, lookup_map_snd] at hg
    obtain ⟨p, hp, rfl⟩ := Option.map_eq_some_iff.1 hg
    obtain ⟨a, ha, hb⟩ := bottomUp_lookup (P := fun _ a b => ∃ add r, b = exportCircuit (L := dest E true) add r a) (fun t c a => ⟨_, _, rfl⟩) _ c p hp
    obtain ⟨add, r, rfl⟩ := hb
    exact exportInsns_noRandom add _ _ _ (hn c a ha)

end exportC

/-! ### `solve_mul_fanout_limit` -/

section fanout
open MulFanout

theorem relays_noRandom (limit : Nat) : ∀ (r : Nat) (q : Q) (mx : Nat), ∀ j ∈ (relays (F := F) limit r q mx).1, NoRandom j := by
  intro r
  induction r with
  | zero => intro q mx j hj; simp [relays] at hj
  | succ r ih =>
    intro q mx j hj
    simp only [relays] at hj
    rcases List.mem_cons.1 hj with rfl | hj
    · intro t ht; simp at ht; subst ht; simp
    · exact ih _ _ j hj

theorem solveVar_noRandom {limit : Nat} {p : Nat × Nat} {last : Option (Dest.Insn F)} {q : Q} {mx : Nat} {r : List (Dest.Insn F) × Q}
    (h : solveVar limit p last q mx = some r) (hl : ∀ i, last = some i → NoRandom i) : ∀ j ∈ r.1, NoRandom j := by
  unfold solveVar at h
  split at h
  · cases h; simp
  · split at h
    · cases h; exact relays_noRandom _ _ _ _
    · rename_i a i _
      cases h
      intro j hj
      rcases List.mem_append.1 hj with hj | hj
      · rw [List.eq_of_mem_replicate hj]; exact hl _ rfl
      · exact relays_noRandom _ _ _ _ j hj
    · cases h

theorem lastOf_noRandom {last : Option (Dest.Insn F)} {js : List (Dest.Insn F)} (hl : ∀ i, last = some i → NoRandom i) (hj : ∀ j ∈ js, NoRandom j) :
    ∀ i, lastOf last js = some i → NoRandom i := by
  intro i h
  unfold lastOf at h
  split at h
  · rename_i j hg; cases h; exact hj _ (List.mem_of_getLast? hg)
  · exact hl i h

theorem solveAll_noRandom (limit : Nat) (pl : List (Nat × Nat)) : ∀ (k : Nat) (s : MulFanout.St F) (r : List (Dest.Insn F) × MulFanout.St F), solveAll limit pl k s = some r →
    (∀ i, s.last = some i → NoRandom i) → (∀ j ∈ r.1, NoRandom j) ∧ ∀ i, r.2.last = some i → NoRandom i := by
  intro k
  induction k with
  | zero => intro s r h hl; simp [solveAll] at h; subst h; exact ⟨by simp, hl⟩
  | succ k ih =>
    intro s r h hl
    simp only [solveAll] at h
    split at h
    · cases h
    · split at h
      · cases h
      · rename_i js q' hs
        obtain ⟨r', hr', rfl⟩ := Option.map_eq_some_iff.1 h
        have h1 := solveVar_noRandom hs hl
        obtain ⟨h2, h3⟩ := ih _ _ hr' (lastOf_noRandom hl h1)
        refine ⟨fun j hj => ?_, h3⟩
        rcases List.mem_append.1 hj with hj | hj
        · exact h1 j hj
        · exact h2 j hj

theorem emitTerms_noRandom : ∀ (ts : List (Term F)) (st : List Q), (∀ t ∈ ts, ∀ x, t.vars ≠ .randomLinear x) →
    ∀ t ∈ (emitTerms ts st).1, ∀ x, t.vars ≠ .randomLinear x := by
  intro ts
  induction ts with
  | nil => intro st _ t ht; simp [emitTerms] at ht
  | cons t ts ih =>
    intro st h t' ht'
    simp only [emitTerms] at ht'
    rcases List.mem_cons.1 ht' with rfl | ht'
    · have := h t (by simp)
      unfold emitTerm
      split
      · simp
      · intro x hx
        cases hv : t.vars <;> simp_all [VarSpec.replaceVars]
    · exact ih _ (fun t ht => h t (by simp [ht])) t' ht'

theorem emitCopies_noRandom (e : Expr F) (h : Expr.NoRandom e) : ∀ (k : Nat) (st : List Q), ∀ j ∈ (emitCopies e k st).1, NoRandom j := by
  intro k
  induction k with
  | zero => intro st j hj; simp [emitCopies] at hj
  | succ k ih =>
    intro st j hj
    simp only [emitCopies] at hj
    rcases List.mem_cons.1 hj with rfl | hj
    · exact fromTerms_noRandom (emitTerms_noRandom _ _ h)
    · exact ih _ j hj

theorem stepInsn_noRandom {limit : Nat} {pl : List (Nat × Nat)} {i : Dest.Insn F} {s : MulFanout.St F} {r : List (Dest.Insn F) × MulFanout.St F} (h : stepInsn limit pl i s = some r)
    (hi : NoRandom i) (hl : ∀ i, s.last = some i → NoRandom i) : (∀ j ∈ r.1, NoRandom j) ∧ ∀ i, r.2.last = some i → NoRandom i := by
  cases i with
  | constantLike c =>
    simp only [stepInsn, Option.some.injEq] at h
    subst h
    refine ⟨fun j hj => by simp at hj; subst hj; exact hi, fun j hj => by cases hj; exact hi⟩
  | call c xs n =>
    simp only [stepInsn] at h
    split at h
    · cases h
      refine ⟨fun j hj => by simp at hj; subst hj; trivial, fun j hj => by cases hj; trivial⟩
    · cases h
  | internal e =>
    simp only [stepInsn] at h
    split at h
    · cases h
    · cases h
      have := emitCopies_noRandom e hi ((pl.getD s.newId.length (0, 0)).1 + 1) s.newId
      exact ⟨this, lastOf_noRandom hl this⟩

theorem loop_noRandom (limit : Nat) (pl : List (Nat × Nat)) : ∀ (is : List (Dest.Insn F)) (s : MulFanout.St F) (r : List (Dest.Insn F) × MulFanout.St F), MulFanout.loop limit pl is s = some r →
    (∀ i ∈ is, NoRandom i) → (∀ i, s.last = some i → NoRandom i) → ∀ j ∈ r.1, NoRandom j := by
  intro is
  induction is with
  | nil => intro s r h _ _; simp [MulFanout.loop] at h; subst h; simp
  | cons i is ih =>
    intro s r h hi hl
    simp only [MulFanout.loop] at h
    split at h
    · cases h
    · rename_i js s1 hs
      split at h
      · cases h
      · rename_i ks s2 hk
        obtain ⟨r', hr', rfl⟩ := Option.map_eq_some_iff.1 h
        obtain ⟨a1, a2⟩ := solveAll_noRandom _ _ _ _ _ hs hl
        obtain ⟨b1, b2⟩ := stepInsn_noRandom hk (hi i (by simp)) a2
        intro j hj
        rcases List.mem_append.1 hj with hj | hj
        · rcases List.mem_append.1 hj with hj | hj
          · exact a1 j hj
          · exact b1 j hj
        · exact ih _ _ hr' (fun k hk => hi k (by simp [hk])) b2 j hj

theorem solveRoot_noRandom {E : Env F} {limit : Nat} {rc rc' : RootCircuit (dest E true)} (h : solveRoot E limit rc = some rc') (hn : DestNoRandom rc) : DestNoRandom rc' := by
  unfold solveRoot at h
  split at h
  · cases h
  · obtain ⟨cs, hcs, rfl⟩ := Option.map_eq_some_iff.1 h
    have key : ∀ (l : List (Nat × Circuit (dest E true))) (cs : List (Nat × Circuit (dest E true))),
        mapOpt (fun p => (MulFanout.solveCircuit E limit p.2).map (fun c => (p.1, c))) l = some cs →
        ∀ c, cs.lookup c = (l.lookup c).bind (MulFanout.solveCircuit E limit) := by
      intro l
      induction l with
      | nil => intro cs h c; cases h; rfl
      | cons p l ih =>
        intro cs h c
        rw [mapOpt_cons] at h
        obtain ⟨q, cs', h1, h2, rfl⟩ := h
        obtain ⟨k, hk, rfl⟩ := Option.map_eq_some_iff.1 h1
        by_cases e : c = p.1
        · subst e
          rw [List.lookup_cons, beq_self_eq_true]
          show _ = (List.lookup p.1 ((p.1, p.2) :: l)).bind _
          rw [List.lookup_cons, beq_self_eq_true]
          exact hk.symm
        · have hne : (c == p.1) = false := by simpa using e
          rw [List.lookup_cons, hne]
          show _ = (List.lookup c ((p.1, p.2) :: l)).bind _
          rw [List.lookup_cons, hne]
          exact ih _ h2 c
    intro c circ hg
    have := key rc.circuits cs hcs c
    have hg' : cs.lookup c = some circ := hg
    rw [hg'] at this
    cases hl : rc.circuits.lookup c with
    | none => rw [hl] at this; cases this
    | some k =>
      rw [hl] at this
      have hs : MulFanout.solveCircuit E limit k = some circ := this.symm
      have hkn := hn c k hl
      unfold MulFanout.solveCircuit at hs
      split at hs
      · cases hs; exact hkn
      · obtain ⟨r, hr, rfl⟩ := Option.map_eq_some_iff.1 hs
        exact loop_noRandom _ _ _ _ _ hr hkn (by intro i h; cases h)
end fanout

/-! ### `split_to_single_layer` -/

section split
open Verif.Layering Verif.Layering.Split

/-- Random values are drawn after the last call in every circuit of the pool. -/
def PoolLast (pool : List (Prog F)) : Prop := ∀ p ∈ pool, RandLast p.insns

theorem randLast_append : ∀ {is js : List (Dest.Insn F)}, (∀ i ∈ is, NoRandom i) → (∀ j ∈ js, j.asCall = none) → RandLast (is ++ js)
  | [], [], _, _ => trivial
  | [], j :: js, hi, hj => ⟨.inr fun k hk => hj k (by simp [hk]), randLast_append (is := []) hi fun k hk => hj k (by simp [hk])⟩
  | i :: is, js, hi, hj => ⟨.inl (hi i (by simp)), randLast_append (fun k hk => hi k (by simp [hk])) hj⟩

theorem poolAdd_last {pool : List (Prog F)} {c : Prog F} (hp : PoolLast pool) (hc : RandLast c.insns) : PoolLast (poolAdd pool c).2 := by
  unfold poolAdd
  split
  · exact hp
  · intro p h
    rcases List.mem_append.1 h with h | h
    · exact hp p h
    · simp at h; subst h; exact hc

theorem expandSegs_noRandom (pool : List (Prog F)) (inputs : List Nat) (pre : Nat) : ∀ (segs : List Seg) (st st' : Exp F), expandSegs pool inputs pre segs st = some st' →
    (∀ i ∈ st.insns, NoRandom i) → ∀ i ∈ st'.insns, NoRandom i := by
  intro segs
  induction segs with
  | nil => intro st st' h hi; cases h; exact hi
  | cons s segs ih =>
    intro st st' h hi
    simp only [expandSegs] at h
    split at h
    · cases h
    · split at h
      · cases h
      · split at h
        · refine ih _ _ h ?_
          intro i hm
          rcases List.mem_append.1 hm with hm | hm
          · exact hi i hm
          · simp at hm; subst hm; trivial
        · cases h

/-- Recursive calls keep the invariant of the pool. -/
def RecLast (rec : Nat → List Nat → List (Prog F) → Option (Spl × List (Prog F))) : Prop :=
  ∀ d ils pool r, rec d ils pool = some r → PoolLast pool → PoolLast r.2

theorem expandStep_noRandom {layers : Nat → List Nat → Option (List Nat × List Nat)} {rec : Nat → List Nat → List (Prog F) → Option (Spl × List (Prog F))} (hrec : RecLast rec)
    {i : Dest.Insn F} {st : Exp F} {pool : List (Prog F)} {r : Exp F × List (Prog F)} (h : expandStep layers rec i st pool = some r) (hi : NoRandom i)
    (hs : ∀ i ∈ st.insns, NoRandom i) (hp : PoolLast pool) : (∀ i ∈ r.1.insns, NoRandom i) ∧ PoolLast r.2 := by
  cases i with
  | constantLike v =>
    simp only [expandStep, Option.some.injEq] at h
    subst h
    refine ⟨fun j hj => ?_, hp⟩
    rcases List.mem_append.1 hj with hj | hj
    · exact hs j hj
    · simp at hj; subst hj; exact hi
  | internal e =>
    simp only [expandStep, Option.some.injEq] at h
    subst h
    refine ⟨fun j hj => ?_, hp⟩
    rcases List.mem_append.1 hj with hj | hj
    · exact hs j hj
    · simp at hj; subst hj; exact noRandom_replace (i := .internal e) hi _
  | call d xs n =>
    simp only [expandStep] at h
    split at h
    · rename_i spl pool' o _ hr _
      split at h
      · cases h
      · rename_i st' he
        split at h
        · split at h
          · cases h
            exact ⟨expandSegs_noRandom _ _ _ _ _ st' he hs, hrec _ _ _ _ hr hp⟩
          · cases h
        · cases h
    · cases h

theorem expand_noRandom {layers : Nat → List Nat → Option (List Nat × List Nat)} {rec : Nat → List Nat → List (Prog F) → Option (Spl × List (Prog F))} (hrec : RecLast rec) :
    ∀ (is : List (Dest.Insn F)) (st : Exp F) (pool : List (Prog F)) (r : Exp F × List (Prog F)), expand layers rec is st pool = some r → (∀ i ∈ is, NoRandom i) →
    (∀ i ∈ st.insns, NoRandom i) → PoolLast pool → (∀ i ∈ r.1.insns, NoRandom i) ∧ PoolLast r.2 := by
  intro is
  induction is with
  | nil => intro st pool r h _ hs hp; cases h; exact ⟨hs, hp⟩
  | cons i is ih =>
    intro st pool r h hi hs hp
    simp only [expand] at h
    split at h
    · cases h
    · rename_i st' pool' he
      obtain ⟨h1, h2⟩ := expandStep_noRandom hrec he (hi i (by simp)) hs hp
      exact ih _ _ _ h (fun k hk => hi k (by simp [hk])) h1 h2

theorem flatten_last {random root : Bool} {layers : Nat → List Nat → Option (List Nat × List Nat)} {rec : Nat → List Nat → List (Prog F) → Option (Spl × List (Prog F))}
    (hrec : RecLast rec) {p : Prog F} {ils : List Nat} {pool : List (Prog F)} {r : Flat F × List (Prog F)} (h : flatten random root layers rec p ils pool = some r)
    (hi : ∀ i ∈ p.insns, NoRandom i) (hp : PoolLast pool) : RandLast r.1.insns ∧ PoolLast r.2 := by
  unfold flatten at h
  split at h
  · cases h
  · rename_i st pool' he
    simp only [Option.some.injEq] at h
    subst h
    obtain ⟨h1, h2⟩ := expand_noRandom hrec _ _ _ _ he hi (by simp [Exp.init]) hp
    refine ⟨randLast_append h1 ?_, h2⟩
    intro j hj
    obtain ⟨e, _, rfl⟩ := List.mem_map.1 hj
    rfl

theorem locInsn_noRandom {lv : List Nat} {i j : Dest.Insn F} (h : locInsn lv i = some j) : (NoRandom i → NoRandom j) ∧ (i.asCall = none → j.asCall = none) := by
  cases i with
  | constantLike v => cases h; exact ⟨id, id⟩
  | internal e =>
    simp only [locInsn] at h
    split at h
    · cases h; exact ⟨fun h => noRandom_replace (i := .internal e) h _, fun _ => rfl⟩
    · cases h
  | call d xs n =>
    simp only [locInsn] at h
    split at h
    · cases h; exact ⟨fun _ => trivial, fun h => by cases h⟩
    · cases h

theorem segInsns_last (mn : List Nat) (start stop : Nat) : ∀ (is : List (Dest.Insn F)) (cur : Nat) (lv : List Nat) (r : List (Dest.Insn F) × List Nat),
    segInsns mn start stop is cur lv = some r → (RandLast is → RandLast r.1) ∧ ((∀ i ∈ is, i.asCall = none) → ∀ j ∈ r.1, j.asCall = none) := by
  intro is
  induction is with
  | nil => intro cur lv r h; cases h; exact ⟨id, id⟩
  | cons i is ih =>
    intro cur lv r h
    simp only [segInsns] at h
    split at h
    · split at h
      · rename_i i' r' lv' h1 h2
        cases h
        obtain ⟨a1, a2⟩ := locInsn_noRandom h1
        obtain ⟨b1, b2⟩ := ih _ _ _ h2
        refine ⟨fun hr => ⟨hr.1.imp a1 b2, b1 hr.2⟩, fun hn j hj => ?_⟩
        rcases List.mem_cons.1 hj with rfl | hj
        · exact a2 (hn i (by simp))
        · exact b2 (fun k hk => hn k (by simp [hk])) j hj
      · cases h
    · obtain ⟨b1, b2⟩ := ih _ _ _ h
      exact ⟨fun hr => b1 hr.2, fun hn => b2 fun k hk => hn k (by simp [hk])⟩

theorem segStep_last {n cvm : Nat} {is : List (Dest.Insn F)} {mn mx : List Nat} {start stop : Nat} {st : SegSt} {pool : List (Prog F)} {r : SegSt × List (Prog F)}
    (h : segStep n cvm is mn mx start stop st pool = some r) (hi : RandLast is) (hp : PoolLast pool) : PoolLast r.2 := by
  unfold segStep at h
  dsimp only at h
  split at h
  · cases h
  · rename_i sis lv hs
    cases h
    exact poolAdd_last hp ((segInsns_last _ _ _ _ _ _ _ hs).1 hi)

theorem segLoop_last {n cvm : Nat} {is : List (Dest.Insn F)} {mn mx : List Nat} (hi : RandLast is) : ∀ (ps : List (Nat × Nat)) (st : SegSt) (pool : List (Prog F))
    (r : SegSt × List (Prog F)), segLoop n cvm is mn mx ps st pool = some r → PoolLast pool → PoolLast r.2 := by
  intro ps
  induction ps with
  | nil => intro st pool r h hp; cases h; exact hp
  | cons p ps ih =>
    intro st pool r h hp
    simp only [segLoop] at h
    split at h
    · cases h
    · rename_i st' pool' hs
      exact ih _ _ _ h (segStep_last hs hi hp)

theorem cut_last {n : Nat} {fl : Flat F} {splitAt : List Nat} {pool : List (Prog F)} {r : Spl × List (Prog F)} (h : cut n fl splitAt pool = some r)
    (hi : RandLast fl.insns) (hp : PoolLast pool) : PoolLast r.2 := by
  unfold cut at h
  dsimp only at h
  split at h
  · split at h
    · cases h
    · rename_i st pool' hs
      split at h
      · cases h
      · cases h; exact segLoop_last hi _ _ _ _ hs hp
  · cases h

theorem split_last {random : Bool} {get : Nat → Option (Prog F)} (hg : ∀ d p, get d = some p → ∀ i ∈ p.insns, NoRandom i) (fuel : Nat) :
    ∀ (f : Nat) (pre : List Nat), RecLast (split random get fuel f pre) := by
  intro f
  induction f with
  | zero => intro pre d ils pool r h; cases h
  | succ f ih =>
    intro pre d ils pool r h hp
    simp only [split] at h
    split at h
    · cases h
    · split at h
      · rename_i p o cc h1 h2
        split at h
        · cases h
        · rename_i fl pool' hf
          obtain ⟨a, b⟩ := flatten_last (ih _) hf (hg _ _ h1) hp
          exact cut_last h a b
      · cases h

/-- After `split_to_single_layer` of a circuit without random values, random values are drawn after the last call in every circuit. -/
theorem splitRoot_last {E : Env F} {relaxed random : Bool} {rc : RootCircuit (dest E relaxed)} {fuel k : Nat} {r : Prog F × List (Prog F) × Nat}
    (h : splitRoot random (progGet rc.get) fuel k = some r) (hn : DestNoRandom rc) (npi : Nat) : DestRandLast (splitRc E npi r) := by
  have hg : ∀ d p, progGet rc.get d = some p → ∀ i ∈ p.insns, NoRandom i := by
    intro d p hp
    unfold progGet at hp
    obtain ⟨circ, hc, rfl⟩ := Option.map_eq_some_iff.1 hp
    exact hn d circ hc
  have key : RandLast r.1.insns ∧ PoolLast r.2.1 := by
    unfold splitRoot at h
    split at h
    · cases h
    · rename_i p hp
      dsimp only at h
      split at h
      · cases h
      · split at h
        · cases h
        · rename_i fl pool hf
          split at h
          · cases h
            exact flatten_last (split_last hg fuel fuel _) hf (hg _ _ hp) (by intro p h; cases h)
          · cases h
  intro c circ hc
  have hc' : ((0, circOf E r.1) :: numbered E r.2.1 1).lookup c = some circ := hc
  rw [List.lookup_cons] at hc'
  by_cases e : c = 0
  · subst e
    simp at hc'
    subst hc'
    exact key.1
  · have : (c == 0) = false := by simpa using e
    rw [this] at hc'
    obtain ⟨j, rfl⟩ : ∃ j, c = 1 + j := ⟨c - 1, by omega⟩
    have hc'' : (numbered E r.2.1 1).lookup (1 + j) = some circ := hc'
    rw [numbered_lookup] at hc''
    obtain ⟨p, hp, rfl⟩ := Option.map_eq_some_iff.1 hc''
    exact key.2 p (List.mem_of_getElem? hp)
end split

end Verif.Compile
