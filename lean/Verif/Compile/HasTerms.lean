import Verif.Compile.NoRand

/-!
# No expression is empty

Every `InternalVariable` of the expression-level circuits the compiler makes has at least one term. (`Expression` is never empty in the
compiler: the constructors put in the term `0`, expr.rs:258-260.) The layering stage turns terms into gates, so a variable without terms
would be a wire that no gate writes.
-/

set_option linter.unusedSectionVars false
set_option linter.unusedSimpArgs false

namespace Verif.Compile

open Verif.IR Verif.IR.SolveDup

variable {F : Type} [Field F] [DecidableEq F] {L : Lang F}

/-- The expression of an internal variable has a term. -/
def HasTerms : Dest.Insn F → Prop
  | .internal e => e ≠ []
  | _ => True

theorem fromTerms_ne (ts : List (Term F)) : Expr.fromTerms ts ≠ [] := by
  rcases Expr.fromTerms_nonzero ts with h | h
  · rw [h]; simp
  · exact h.1

theorem hasTerms_replace {i : Dest.Insn F} (h : HasTerms i) (f : Nat → Nat) : HasTerms (i.replaceVars f) := by
  cases i with
  | internal e =>
    intro e0
    exact h (by simpa [Expr.replaceVars] using e0)
  | constantLike c => trivial
  | call c xs n => trivial

/-- No instruction has an empty expression. -/
def DestHasTerms {E : Env F} {relaxed : Bool} (rc : RootCircuit (dest E relaxed)) : Prop := AllInsn (L := dest E relaxed) HasTerms rc

theorem hasTerms_fwd {E : Env F} {relaxed : Bool} : Fwd (DestHasTerms (E := E) (relaxed := relaxed)) := by
  refine fwd_all ?_ ?_ ?_
  · intro i f _ h; exact hasTerms_replace h f
  · intro x k b; exact fromTerms_ne _
  · intro i h
    cases i with
    | call c xs n => trivial
    | internal e => exact (h rfl).elim
    | constantLike c => exact (h rfl).elim

/-! ### `export_constraints` -/

section exportC
open ExportCons

theorem exportInsns_hasTerms {E : Env F} (add : Nat → Nat) : ∀ (is : List (Dest.Insn F)) (vm : List Nat) (mx : Nat), (∀ i ∈ is, HasTerms i) →
    ∀ j ∈ (exportInsns (L := dest E true) add is vm mx).1, HasTerms j := by
  intro is
  induction is with
  | nil => intro vm mx _ j hj; simp [exportInsns] at hj
  | cons i is ih =>
    intro vm mx hi j hj
    have hrest : ∀ i ∈ is, HasTerms i := fun k hk => hi k (by simp [hk])
    simp only [exportInsns] at hj
    cases hc : Dest.Insn.asCall i with
    | none =>
      rw [hc] at hj
      rcases List.mem_cons.1 hj with rfl | hj
      · exact hasTerms_replace (hi i (by simp)) _
      · exact ih _ _ hrest j hj
    | some t =>
      obtain ⟨d, a, n⟩ := t
      rw [hc] at hj
      rcases List.mem_cons.1 hj with rfl | hj
      · trivial
      · exact ih _ _ hrest j hj

theorem exportConstraints_hasTerms {E : Env F} {rc rc' : RootCircuit (dest E true)} (h : exportConstraints rc = some rc') (hn : DestHasTerms rc) : DestHasTerms rc' := by
  unfold exportConstraints at h
  split at h
  · cases h
  · cases h
    intro c circ' hg
    rw [RootCircuit.get, lookup_map_snd] at hg
    obtain ⟨p, hp, rfl⟩ := Option.map_eq_some_iff.1 hg
    obtain ⟨a, ha, hb⟩ := bottomUp_lookup (P := fun _ a b => ∃ add r, b = exportCircuit (L := dest E true) add r a) (fun t c a => ⟨_, _, rfl⟩) _ c p hp
    obtain ⟨add, r, rfl⟩ := hb
    exact exportInsns_hasTerms add _ _ _ (hn c a ha)

end exportC

/-! ### `solve_mul_fanout_limit` -/

section fanout
open MulFanout

theorem relays_hasTerms (limit : Nat) : ∀ (r : Nat) (q : Q) (mx : Nat), ∀ j ∈ (relays (F := F) limit r q mx).1, HasTerms j := by
  intro r
  induction r with
  | zero => intro q mx j hj; simp [relays] at hj
  | succ r ih =>
    intro q mx j hj
    simp only [relays] at hj
    rcases List.mem_cons.1 hj with rfl | hj
    · simp [HasTerms]
    · exact ih _ _ j hj

theorem solveVar_hasTerms {limit : Nat} {p : Nat × Nat} {last : Option (Dest.Insn F)} {q : Q} {mx : Nat} {r : List (Dest.Insn F) × Q}
    (h : solveVar limit p last q mx = some r) (hl : ∀ i, last = some i → HasTerms i) : ∀ j ∈ r.1, HasTerms j := by
  unfold solveVar at h
  split at h
  · cases h; simp
  · split at h
    · cases h; exact relays_hasTerms _ _ _ _
    · rename_i a i _
      cases h
      intro j hj
      rcases List.mem_append.1 hj with hj | hj
      · rw [List.eq_of_mem_replicate hj]; exact hl _ rfl
      · exact relays_hasTerms _ _ _ _ j hj
    · cases h

theorem lastOf_hasTerms {last : Option (Dest.Insn F)} {js : List (Dest.Insn F)} (hl : ∀ i, last = some i → HasTerms i) (hj : ∀ j ∈ js, HasTerms j) :
    ∀ i, lastOf last js = some i → HasTerms i := by
  intro i h
  unfold lastOf at h
  split at h
  · rename_i j hg; cases h; exact hj _ (List.mem_of_getLast? hg)
  · exact hl i h

theorem solveAll_hasTerms (limit : Nat) (pl : List (Nat × Nat)) : ∀ (k : Nat) (s : MulFanout.St F) (r : List (Dest.Insn F) × MulFanout.St F), solveAll limit pl k s = some r →
    (∀ i, s.last = some i → HasTerms i) → (∀ j ∈ r.1, HasTerms j) ∧ ∀ i, r.2.last = some i → HasTerms i := by
  intro k
  induction k with
  | zero => intro s r h hl; simp [solveAll] at h; subst h; exact ⟨by simp, hl⟩
  | succ k ih =>
    intro s r h hl
    simp only [solveAll] at h
    split at h
    · cases h
    · split at h
      · cases h
      · rename_i js q' hs
        obtain ⟨r', hr', rfl⟩ := Option.map_eq_some_iff.1 h
        have h1 := solveVar_hasTerms hs hl
        obtain ⟨h2, h3⟩ := ih _ _ hr' (lastOf_hasTerms hl h1)
        refine ⟨fun j hj => ?_, h3⟩
        rcases List.mem_append.1 hj with hj | hj
        · exact h1 j hj
        · exact h2 j hj

theorem emitCopies_hasTerms (e : Expr F) : ∀ (k : Nat) (st : List Q), ∀ j ∈ (emitCopies e k st).1, HasTerms j := by
  intro k
  induction k with
  | zero => intro st j hj; simp [emitCopies] at hj
  | succ k ih =>
    intro st j hj
    simp only [emitCopies] at hj
    rcases List.mem_cons.1 hj with rfl | hj
    · exact fromTerms_ne _
    · exact ih _ j hj

theorem stepInsn_hasTerms {limit : Nat} {pl : List (Nat × Nat)} {i : Dest.Insn F} {s : MulFanout.St F} {r : List (Dest.Insn F) × MulFanout.St F} (h : stepInsn limit pl i s = some r)
    (hi : HasTerms i) (hl : ∀ i, s.last = some i → HasTerms i) : (∀ j ∈ r.1, HasTerms j) ∧ ∀ i, r.2.last = some i → HasTerms i := by
  cases i with
  | constantLike c =>
    simp only [stepInsn, Option.some.injEq] at h
    subst h
    refine ⟨fun j hj => by simp at hj; subst hj; exact hi, fun j hj => by cases hj; exact hi⟩
  | call c xs n =>
    simp only [stepInsn] at h
    split at h
    · cases h
      refine ⟨fun j hj => by simp at hj; subst hj; trivial, fun j hj => by cases hj; trivial⟩
    · cases h
  | internal e =>
    simp only [stepInsn] at h
    split at h
    · cases h
    · cases h
      have := emitCopies_hasTerms e ((pl.getD s.newId.length (0, 0)).1 + 1) s.newId
      exact ⟨this, lastOf_hasTerms hl this⟩

theorem loop_hasTerms (limit : Nat) (pl : List (Nat × Nat)) : ∀ (is : List (Dest.Insn F)) (s : MulFanout.St F) (r : List (Dest.Insn F) × MulFanout.St F), MulFanout.loop limit pl is s = some r →
    (∀ i ∈ is, HasTerms i) → (∀ i, s.last = some i → HasTerms i) → ∀ j ∈ r.1, HasTerms j := by
  intro is
  induction is with
  | nil => intro s r h _ _; simp [MulFanout.loop] at h; subst h; simp
  | cons i is ih =>
    intro s r h hi hl
    simp only [MulFanout.loop] at h
    split at h
    · cases h
    · rename_i js s1 hs
      split at h
      · cases h
      · rename_i ks s2 hk
        obtain ⟨r', hr', rfl⟩ := Option.map_eq_some_iff.1 h
        obtain ⟨a1, a2⟩ := solveAll_hasTerms _ _ _ _ _ hs hl
        obtain ⟨b1, b2⟩ := stepInsn_hasTerms hk (hi i (by simp)) a2
        intro j hj
        rcases List.mem_append.1 hj with hj | hj
        · rcases List.mem_append.1 hj with hj | hj
          · exact a1 j hj
          · exact b1 j hj
        · exact ih _ _ hr' (fun k hk => hi k (by simp [hk])) b2 j hj

theorem solveRoot_hasTerms {E : Env F} {limit : Nat} {rc rc' : RootCircuit (dest E true)} (h : solveRoot E limit rc = some rc') (hn : DestHasTerms rc) : DestHasTerms rc' := by
  unfold solveRoot at h
  split at h
  · cases h
  · obtain ⟨cs, hcs, rfl⟩ := Option.map_eq_some_iff.1 h
    have key : ∀ (l : List (Nat × Circuit (dest E true))) (cs : List (Nat × Circuit (dest E true))),
        mapOpt (fun p => (MulFanout.solveCircuit E limit p.2).map (fun c => (p.1, c))) l = some cs →
        ∀ c, cs.lookup c = (l.lookup c).bind (MulFanout.solveCircuit E limit) := by
      intro l
      induction l with
      | nil => intro cs h c; cases h; rfl
      | cons p l ih =>
        intro cs h c
        rw [mapOpt_cons] at h
        obtain ⟨q, cs', h1, h2, rfl⟩ := h
        obtain ⟨k, hk, rfl⟩ := Option.map_eq_some_iff.1 h1
        by_cases e : c = p.1
        · subst e
          rw [List.lookup_cons, beq_self_eq_true]
          show _ = (List.lookup p.1 ((p.1, p.2) :: l)).bind _
          rw [List.lookup_cons, beq_self_eq_true]
          exact hk.symm
        · have hne : (c == p.1) = false := by simpa using e
          rw [List.lookup_cons, hne]
          show _ = (List.lookup c ((p.1, p.2) :: l)).bind _
          rw [List.lookup_cons, hne]
          exact ih _ h2 c
    intro c circ hg
    have := key rc.circuits cs hcs c
    have hg' : cs.lookup c = some circ := hg
    rw [hg'] at this
    cases hl : rc.circuits.lookup c with
    | none => rw [hl] at this; cases this
    | some k =>
      rw [hl] at this
      have hs : MulFanout.solveCircuit E limit k = some circ := this.symm
      have hkn := hn c k hl
      unfold MulFanout.solveCircuit at hs
      split at hs
      · cases hs; exact hkn
      · obtain ⟨r, hr, rfl⟩ := Option.map_eq_some_iff.1 hs
        exact loop_hasTerms _ _ _ _ _ hr hkn (by intro i h; cases h)
end fanout

section split
open Verif.Layering Verif.Layering.Split

/-- Every circuit of the pool. -/
def PoolTerms (pool : List (Prog F)) : Prop := ∀ p ∈ pool, ∀ i ∈ p.insns, HasTerms i

theorem poolAdd_terms {pool : List (Prog F)} {c : Prog F} (hp : PoolTerms pool) (hc : ∀ i ∈ c.insns, HasTerms i) : PoolTerms (poolAdd pool c).2 := by
  unfold poolAdd
  split
  · exact hp
  · intro p h
    rcases List.mem_append.1 h with h | h
    · exact hp p h
    · simp at h; subst h; exact hc

theorem expandSegs_hasTerms (pool : List (Prog F)) (inputs : List Nat) (pre : Nat) : ∀ (segs : List Seg) (st st' : Exp F), expandSegs pool inputs pre segs st = some st' →
    (∀ i ∈ st.insns, HasTerms i) → ∀ i ∈ st'.insns, HasTerms i := by
  intro segs
  induction segs with
  | nil => intro st st' h hi; cases h; exact hi
  | cons s segs ih =>
    intro st st' h hi
    simp only [expandSegs] at h
    split at h
    · cases h
    · split at h
      · cases h
      · split at h
        · refine ih _ _ h ?_
          intro i hm
          rcases List.mem_append.1 hm with hm | hm
          · exact hi i hm
          · simp at hm; subst hm; trivial
        · cases h

/-- Recursive calls keep the invariant of the pool. -/
def RecTerms (rec : Nat → List Nat → List (Prog F) → Option (Spl × List (Prog F))) : Prop :=
  ∀ d ils pool r, rec d ils pool = some r → PoolTerms pool → PoolTerms r.2

theorem expandStep_hasTerms {layers : Nat → List Nat → Option (List Nat × List Nat)} {rec : Nat → List Nat → List (Prog F) → Option (Spl × List (Prog F))} (hrec : RecTerms rec)
    {i : Dest.Insn F} {st : Exp F} {pool : List (Prog F)} {r : Exp F × List (Prog F)} (h : expandStep layers rec i st pool = some r) (hi : HasTerms i)
    (hs : ∀ i ∈ st.insns, HasTerms i) (hp : PoolTerms pool) : (∀ i ∈ r.1.insns, HasTerms i) ∧ PoolTerms r.2 := by
  cases i with
  | constantLike v =>
    simp only [expandStep, Option.some.injEq] at h
    subst h
    refine ⟨fun j hj => ?_, hp⟩
    rcases List.mem_append.1 hj with hj | hj
    · exact hs j hj
    · simp at hj; subst hj; exact hi
  | internal e =>
    simp only [expandStep, Option.some.injEq] at h
    subst h
    refine ⟨fun j hj => ?_, hp⟩
    rcases List.mem_append.1 hj with hj | hj
    · exact hs j hj
    · simp at hj; subst hj; exact hasTerms_replace (i := .internal e) hi _
  | call d xs n =>
    simp only [expandStep] at h
    split at h
    · rename_i spl pool' o _ hr _
      split at h
      · cases h
      · rename_i st' he
        split at h
        · split at h
          · cases h
            exact ⟨expandSegs_hasTerms _ _ _ _ _ st' he hs, hrec _ _ _ _ hr hp⟩
          · cases h
        · cases h
    · cases h

theorem expand_hasTerms {layers : Nat → List Nat → Option (List Nat × List Nat)} {rec : Nat → List Nat → List (Prog F) → Option (Spl × List (Prog F))} (hrec : RecTerms rec) :
    ∀ (is : List (Dest.Insn F)) (st : Exp F) (pool : List (Prog F)) (r : Exp F × List (Prog F)), expand layers rec is st pool = some r → (∀ i ∈ is, HasTerms i) →
    (∀ i ∈ st.insns, HasTerms i) → PoolTerms pool → (∀ i ∈ r.1.insns, HasTerms i) ∧ PoolTerms r.2 := by
  intro is
  induction is with
  | nil => intro st pool r h _ hs hp; cases h; exact ⟨hs, hp⟩
  | cons i is ih =>
    intro st pool r h hi hs hp
    simp only [expand] at h
    split at h
    · cases h
    · rename_i st' pool' he
      obtain ⟨h1, h2⟩ := expandStep_hasTerms hrec he (hi i (by simp)) hs hp
      exact ih _ _ _ h (fun k hk => hi k (by simp [hk])) h1 h2

theorem flatten_terms {random root : Bool} {layers : Nat → List Nat → Option (List Nat × List Nat)} {rec : Nat → List Nat → List (Prog F) → Option (Spl × List (Prog F))}
    (hrec : RecTerms rec) {p : Prog F} {ils : List Nat} {pool : List (Prog F)} {r : Flat F × List (Prog F)} (h : flatten random root layers rec p ils pool = some r)
    (hi : ∀ i ∈ p.insns, HasTerms i) (hp : PoolTerms pool) : (∀ i ∈ r.1.insns, HasTerms i) ∧ PoolTerms r.2 := by
  unfold flatten at h
  split at h
  · cases h
  · rename_i st pool' he
    simp only [Option.some.injEq] at h
    subst h
    obtain ⟨h1, h2⟩ := expand_hasTerms hrec _ _ _ _ he hi (by simp [Exp.init]) hp
    refine ⟨?_, h2⟩
    intro j hj
    rcases List.mem_append.1 hj with hj | hj
    · exact h1 j hj
    · obtain ⟨e, _, rfl⟩ := List.mem_map.1 hj
      exact fromTerms_ne _

theorem locInsn_hasTerms {lv : List Nat} {i j : Dest.Insn F} (h : locInsn lv i = some j) : HasTerms i → HasTerms j := by
  cases i with
  | constantLike v => cases h; exact id
  | internal e =>
    simp only [locInsn] at h
    split at h
    · cases h; exact fun h => hasTerms_replace (i := .internal e) h _
    · cases h
  | call d xs n =>
    simp only [locInsn] at h
    split at h
    · cases h; exact fun _ => trivial
    · cases h

theorem segInsns_terms (mn : List Nat) (start stop : Nat) : ∀ (is : List (Dest.Insn F)) (cur : Nat) (lv : List Nat) (r : List (Dest.Insn F) × List Nat),
    segInsns mn start stop is cur lv = some r → (∀ i ∈ is, HasTerms i) → ∀ j ∈ r.1, HasTerms j := by
  intro is
  induction is with
  | nil => intro cur lv r h; cases h; exact id
  | cons i is ih =>
    intro cur lv r h hi
    simp only [segInsns] at h
    split at h
    · split at h
      · rename_i i' r' lv' h1 h2
        cases h
        intro j hj
        rcases List.mem_cons.1 hj with rfl | hj
        · exact locInsn_hasTerms h1 (hi i (by simp))
        · exact ih _ _ _ h2 (fun k hk => hi k (by simp [hk])) j hj
      · cases h
    · exact ih _ _ _ h (fun k hk => hi k (by simp [hk]))

theorem segStep_terms {n cvm : Nat} {is : List (Dest.Insn F)} {mn mx : List Nat} {start stop : Nat} {st : SegSt} {pool : List (Prog F)} {r : SegSt × List (Prog F)}
    (h : segStep n cvm is mn mx start stop st pool = some r) (hi : ∀ i ∈ is, HasTerms i) (hp : PoolTerms pool) : PoolTerms r.2 := by
  unfold segStep at h
  dsimp only at h
  split at h
  · cases h
  · rename_i sis lv hs
    cases h
    exact poolAdd_terms hp (segInsns_terms _ _ _ _ _ _ _ hs hi)

theorem segLoop_terms {n cvm : Nat} {is : List (Dest.Insn F)} {mn mx : List Nat} (hi : ∀ i ∈ is, HasTerms i) : ∀ (ps : List (Nat × Nat)) (st : SegSt) (pool : List (Prog F))
    (r : SegSt × List (Prog F)), segLoop n cvm is mn mx ps st pool = some r → PoolTerms pool → PoolTerms r.2 := by
  intro ps
  induction ps with
  | nil => intro st pool r h hp; cases h; exact hp
  | cons p ps ih =>
    intro st pool r h hp
    simp only [segLoop] at h
    split at h
    · cases h
    · rename_i st' pool' hs
      exact ih _ _ _ h (segStep_terms hs hi hp)

theorem cut_terms {n : Nat} {fl : Flat F} {splitAt : List Nat} {pool : List (Prog F)} {r : Spl × List (Prog F)} (h : cut n fl splitAt pool = some r)
    (hi : ∀ i ∈ fl.insns, HasTerms i) (hp : PoolTerms pool) : PoolTerms r.2 := by
  unfold cut at h
  dsimp only at h
  split at h
  · split at h
    · cases h
    · rename_i st pool' hs
      split at h
      · cases h
      · cases h; exact segLoop_terms hi _ _ _ _ hs hp
  · cases h

theorem split_terms {random : Bool} {get : Nat → Option (Prog F)} (hg : ∀ d p, get d = some p → ∀ i ∈ p.insns, HasTerms i) (fuel : Nat) :
    ∀ (f : Nat) (pre : List Nat), RecTerms (split random get fuel f pre) := by
  intro f
  induction f with
  | zero => intro pre d ils pool r h; cases h
  | succ f ih =>
    intro pre d ils pool r h hp
    simp only [split] at h
    split at h
    · cases h
    · split at h
      · rename_i p o cc h1 h2
        split at h
        · cases h
        · rename_i fl pool' hf
          obtain ⟨a, b⟩ := flatten_terms (ih _) hf (hg _ _ h1) hp
          exact cut_terms h a b
      · cases h

theorem splitRoot_terms {E : Env F} {relaxed random : Bool} {rc : RootCircuit (dest E relaxed)} {fuel k : Nat} {r : Prog F × List (Prog F) × Nat}
    (h : splitRoot random (progGet rc.get) fuel k = some r) (hn : DestHasTerms rc) (npi : Nat) : DestHasTerms (splitRc E npi r) := by
  have hg : ∀ d p, progGet rc.get d = some p → ∀ i ∈ p.insns, HasTerms i := by
    intro d p hp
    unfold progGet at hp
    obtain ⟨circ, hc, rfl⟩ := Option.map_eq_some_iff.1 hp
    exact hn d circ hc
  have key : (∀ i ∈ r.1.insns, HasTerms i) ∧ PoolTerms r.2.1 := by
    unfold splitRoot at h
    split at h
    · cases h
    · rename_i p hp
      dsimp only at h
      split at h
      · cases h
      · split at h
        · cases h
        · rename_i fl pool hf
          split at h
          · cases h
            exact flatten_terms (split_terms hg fuel fuel _) hf (hg _ _ hp) (by intro p h; cases h)
          · cases h
  intro c circ hc
  have hc' : ((0, circOf E r.1) :: numbered E r.2.1 1).lookup c = some circ := hc
  rw [List.lookup_cons] at hc'
  by_cases e : c = 0
  · subst e
    simp at hc'
    subst hc'
    exact key.1
  · have : (c == 0) = false := by simpa using e
    rw [this] at hc'
    obtain ⟨j, rfl⟩ : ∃ j, c = 1 + j := ⟨c - 1, by omega⟩
    have hc'' : (numbered E r.2.1 1).lookup (1 + j) = some circ := hc'
    rw [numbered_lookup] at hc''
    obtain ⟨p, hp, rfl⟩ := Option.map_eq_some_iff.1 hc''
    exact key.2 p (List.mem_of_getElem? hp)
end split

/-! ### `solve_duplicates` -/

section dup

theorem dedupArgs_hasTerms : ∀ (xs seen : List Nat) (acc : List (Dest.Insn F)) (iov : List (Option Nat)) (mx : Nat), (∀ j ∈ acc, HasTerms j) →
    ∀ j ∈ (dedupArgs xs seen acc iov mx).1, HasTerms j := by
  intro xs
  induction xs with
  | nil => intro seen acc iov mx _ j hj; simp [dedupArgs] at hj
  | cons i xs ih =>
    intro seen acc iov mx ha j hj
    simp only [dedupArgs] at hj
    split at hj
    · have hc : HasTerms (copyInsn acc iov i) := by
        rcases copy_cases acc iov i with h | h
        · exact ha _ h
        · rw [h]; simp [HasTerms]
      rcases List.mem_cons.1 hj with rfl | hj
      · exact hc
      · refine ih _ _ _ _ ?_ j hj
        intro k hk
        rcases List.mem_append.1 hk with hk | hk
        · exact ha k hk
        · simp at hk; subst hk; exact hc
    · exact ih _ _ _ _ ha j hj

theorem solveInsns_hasTerms : ∀ (is : List (Dest.Insn F)) (vm : List Nat) (acc : List (Dest.Insn F)) (iov : List (Option Nat)) (mx : Nat), (∀ i ∈ is, HasTerms i) → (∀ j ∈ acc, HasTerms j) →
    ∀ j ∈ (solveInsns is vm acc iov mx).1, HasTerms j := by
  intro is
  induction is with
  | nil => intro vm acc iov mx _ _ j hj; simp [solveInsns] at hj
  | cons i is ih =>
    intro vm acc iov mx hi ha j hj
    have h1 := hasTerms_replace (hi i (by simp)) (vmGet vm)
    have h2 : ∀ i ∈ is, HasTerms i := fun k hk => hi k (by simp [hk])
    simp only [solveInsns] at hj
    generalize i.replaceVars (vmGet vm) = i' at hj h1
    have hsnoc : ∀ k ∈ acc ++ [i'], HasTerms k := by
      intro k hk
      rcases List.mem_append.1 hk with hk | hk
      · exact ha k hk
      · simp at hk; subst hk; exact h1
    cases i' with
    | call c xs n =>
      dsimp only at hj
      have h3 := dedupArgs_hasTerms xs [] acc iov mx ha
      rcases List.mem_append.1 hj with hj | hj
      · exact h3 j hj
      · rcases List.mem_cons.1 hj with rfl | hj
        · trivial
        · refine ih _ _ _ _ h2 ?_ j hj
          intro k hk
          rcases List.mem_append.1 hk with hk | hk
          · rcases List.mem_append.1 hk with hk | hk
            · exact ha k hk
            · exact h3 k hk
          · simp at hk; subst hk; trivial
    | internal e =>
      dsimp only at hj
      rcases List.mem_cons.1 hj with rfl | hj
      · exact h1
      · exact ih _ _ _ _ h2 hsnoc j hj
    | constantLike e =>
      dsimp only at hj
      rcases List.mem_cons.1 hj with rfl | hj
      · exact h1
      · exact ih _ _ _ _ h2 hsnoc j hj

theorem solveDuplicates_hasTerms {E : Env F} {ord : List Nat → List Nat} {rc : RootCircuit (dest E true)} {rc' : RootCircuit (dest E false)} (h : solveDuplicates E ord rc = some rc')
    (hn : DestHasTerms rc) : DestHasTerms rc' := by
  unfold solveDuplicates at h
  obtain ⟨cs, hcs, rfl⟩ := Option.map_eq_some_iff.1 h
  have key : ∀ (l : List (Nat × Circuit (dest E true))) (cs : List (Nat × Circuit (dest E false))),
      mapOpt (fun p => (solveCircuit E ord p.2).map (fun c => (p.1, c))) l = some cs →
      ∀ c, cs.lookup c = (l.lookup c).bind (solveCircuit E ord) := by
    intro l
    induction l with
    | nil => intro cs h c; cases h; rfl
    | cons p l ih =>
      intro cs h c
      rw [mapOpt_cons] at h
      obtain ⟨q, cs', h1, h2, rfl⟩ := h
      obtain ⟨k, hk, rfl⟩ := Option.map_eq_some_iff.1 h1
      by_cases e : c = p.1
      · subst e
        rw [List.lookup_cons, beq_self_eq_true]
        show _ = (List.lookup p.1 ((p.1, p.2) :: l)).bind _
        rw [List.lookup_cons, beq_self_eq_true]
        exact hk.symm
      · have hne : (c == p.1) = false := by simpa using e
        rw [List.lookup_cons, hne]
        show _ = (List.lookup c ((p.1, p.2) :: l)).bind _
        rw [List.lookup_cons, hne]
        exact ih _ h2 c
  intro c circ hg
  have := key rc.circuits cs hcs c
  have hg' : cs.lookup c = some circ := hg
  rw [hg'] at this
  cases hl : rc.circuits.lookup c with
  | none => rw [hl] at this; cases this
  | some k =>
    rw [hl] at this
    have hs : solveCircuit E ord k = some circ := this.symm
    have hkn := hn c k hl
    unfold solveCircuit at hs
    dsimp only at hs
    split at hs
    · cases hs
      exact solveInsns_hasTerms _ _ _ _ _ hkn (by simp)
    · cases hs

end dup

end Verif.Compile
