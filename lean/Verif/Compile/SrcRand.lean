import Verif.Compile.Det
import Verif.Compile.Step1

/-!
# Hint normalisation draws random values only for source instructions that do
-/

set_option linter.unusedSectionVars false
set_option linter.unusedSimpArgs false

namespace Verif.Compile

open Verif.IR Verif.IR.HintExport Verif.Builder

variable {F : Type} [Field F] [DecidableEq F]

/-- The source instruction draws no random value. -/
def SrcIns : Source.Insn F → Prop
  | .constantLike .random => False
  | .commit _ => False
  | _ => True

/-- No instruction of the source circuit draws a random value. -/
def SrcNoRandom {E : Env F} (rc : RootCircuit (source E)) : Prop := AllInsn (L := source E) SrcIns rc

/-- A property of source instructions that the passes on the source circuit keep: it does not depend on the variables, and calls, linear
combinations and products have it. -/
structure Stable (R : Source.Insn F → Prop) : Prop where
  replace : ∀ (i : Source.Insn F) f, R i → R (i.replaceVars f)
  lin : ∀ lc, R (.linComb lc)
  mul : ∀ xs, R (.mul xs)
  call : ∀ c xs n, R (.call c xs n)

theorem srcIns_stable : Stable (SrcIns (F := F)) where
  replace := by
    intro i f h
    cases i <;> simp_all [SrcIns, Source.Insn.replaceVars]
  lin := fun _ => trivial
  mul := fun _ => trivial
  call := fun _ _ _ => trivial

section
variable {R : Source.Insn F → Prop}

theorem stable_fwd (hR : Stable R) {E : Env F} : Fwd (AllInsn (L := source E) R) := by
  refine fwd_all ?_ ?_ ?_
  · intro i f _ h
    exact hR.replace i f h
  · intro x k b; exact hR.lin _
  · intro i h
    cases i <;> first | exact hR.call _ _ _ | exact (h rfl).elim

theorem src_fwd {E : Env F} : Fwd (SrcNoRandom (E := E)) := stable_fwd srcIns_stable

/-! ### Chains -/

theorem all_set {is : List (Source.Insn F)} (h : ∀ i ∈ is, R i) (k : Nat) {j : Source.Insn F} (hj : R j) : ∀ i ∈ is.set k j, R i := by
  intro i hi
  rcases List.mem_or_eq_of_mem_set hi with hi | rfl
  · exact h i hi
  · exact hj

theorem absorbAdd_src (hR : Stable R) (I : Chains.Info) : ∀ (xs : List (Nat × F)) (is : List (Source.Insn F)) lcs rem c, (∀ i ∈ is, R i) →
    ∀ i ∈ (Chains.absorbAdd I xs (is, lcs, rem, c)).1, R i := by
  intro xs
  induction xs with
  | nil => intro is lcs rem c h; exact h
  | cons x xs ih =>
    intro is lcs rem c h
    simp only [Chains.absorbAdd]
    split
    · split
      · exact ih _ _ _ _ (all_set h _ (hR.lin _))
      · exact ih _ _ _ _ h
    · exact ih _ _ _ _ h

theorem absorbMul_src (hR : Stable R) (I : Chains.Info) : ∀ (xs : List Nat) (is : List (Source.Insn F)) vecs rem, (∀ i ∈ is, R i) →
    ∀ i ∈ (Chains.absorbMul I xs (is, vecs, rem)).1, R i := by
  intro xs
  induction xs with
  | nil => intro is vecs rem h; exact h
  | cons x xs ih =>
    intro is vecs rem h
    simp only [Chains.absorbMul]
    split
    · split
      · exact ih _ _ _ (all_set h _ (hR.mul _))
      · exact ih _ _ _ h
    · exact ih _ _ _ h

theorem stepAdd_src (hR : Stable R) (I : Chains.Info) (is : List (Source.Insn F)) (k : Nat) (h : ∀ i ∈ is, R i) : ∀ i ∈ Chains.stepAdd I is k, R i := by
  unfold Chains.stepAdd
  split
  · split
    · split
      · exact all_set (absorbAdd_src hR I _ _ _ _ _ h) _ (hR.lin _)
      · exact h
    · exact h
  · exact h

theorem stepMul_src (hR : Stable R) (I : Chains.Info) (is : List (Source.Insn F)) (k : Nat) (h : ∀ i ∈ is, R i) : ∀ i ∈ Chains.stepMul I is k, R i := by
  unfold Chains.stepMul
  split
  · split
    · split
      · exact all_set (absorbMul_src hR I _ _ _ _ h) _ (hR.mul _)
      · exact h
    · exact h
  · exact h

theorem foldl_src {f : List (Source.Insn F) → Nat → List (Source.Insn F)} (hf : ∀ is k, (∀ i ∈ is, R i) → ∀ i ∈ f is k, R i) :
    ∀ (ks : List Nat) (is : List (Source.Insn F)), (∀ i ∈ is, R i) → ∀ i ∈ ks.foldl f is, R i := by
  intro ks
  induction ks with
  | nil => intro is h; exact h
  | cons k ks ih => intro is h; exact ih _ (hf _ _ h)

theorem detectChains_src (hR : Stable R) {E : Env F} {rc : RootCircuit (source E)} (h : AllInsn (L := source E) R rc) : AllInsn (L := source E) R (Chains.detectChains rc) := by
  intro c circ hg
  have hg : ((rc.circuits.map fun p => (p.1, Chains.detectCircuit p.2)).lookup c) = some circ := hg
  rw [lookup_map_snd] at hg
  obtain ⟨c0, h0, rfl⟩ := Option.map_eq_some_iff.1 hg
  exact foldl_src (fun is k => stepMul_src hR _ is k) _ _ (foldl_src (fun is k => stepAdd_src hR _ is k) _ _ (h c c0 h0))

theorem tidySource_all (hR : Stable R) {E : Env F} (hE : E.HintLen) {opt fuel : Nat} {x y : RootCircuit (source E)} {im im' : InputMapping} (h : tidySource opt fuel x im = some (y, im'))
    (hx : AllInsn (L := source E) R x) : AllInsn (L := source E) R y := by
  have hL := source_lawful E hE
  unfold tidySource at h
  split at h
  · refine optimize_fwd (Q := AllInsn (L := source E) R) (fun {a b m} hf ha => ?_) (toOption_some.1 h) (detectChains_src hR hx)
    unfold cleanupSource at hf
    obtain ⟨z, hz, e⟩ := Option.map_eq_some_iff.1 hf
    cases e
    exact detectChains_src hR (cleanup_fwd hL (stable_fwd hR) (y := z.1) hz ha)
  · split at h
    · obtain ⟨m, h1, h2⟩ := pruneOnce_some.1 h
      exact removeUnreachable_fwd hL (stable_fwd hR) h1 (detectChains_src hR hx)
    · cases h; exact hx

/-- The source circuit step 1 hands to hint normalisation has the property if the given one has it. -/
theorem step1_src (hR : Stable R) {E : Env F} (hE : E.HintLen) {P : Params F} {o : Options} {rc src : RootCircuit (source E)} {hn : RootCircuit (hintNorm E)} {im : InputMapping}
    (h : step1 P o rc = some (src, hn, im)) (hr : AllInsn (L := source E) R rc) : AllInsn (L := source E) R src := by
  simp only [step1, Option.bind_eq_bind, Option.bind_eq_some_iff] at h
  obtain ⟨rc1, h1, ⟨src1, m1⟩, h2, src2, h3, hn1, h4, ⟨hn2, m2⟩, h5, hn3, h6, h7⟩ := h
  cases h7
  obtain ⟨rfl, v1⟩ := checked_some.1 h1
  obtain ⟨rfl, v3⟩ := checked_some.1 h3
  exact tidySource_all hR hE h2 hr

end

/-! ### The builder -/

/-- The emitted instruction draws no random value. -/
abbrev HnIns (i : HintNorm.Insn F) : Prop := i ≠ .constantLike .random

/-- No emitted instruction draws a random value. -/
def NR (st : St F) : Prop := ∀ i ∈ st.insns, HnIns i

theorem setLast_nr {is js : List (HintNorm.Insn F)} {i : HintNorm.Insn F} (h : ∀ i ∈ is, HnIns i) (hi : HnIns i) (e : setLast is i = some js) : ∀ i ∈ js, HnIns i := by
  unfold setLast at e
  split at e
  · cases e
  · cases e
    intro j hj
    rcases List.mem_append.1 hj with hj | hj
    · exact h j (List.dropLast_subset _ hj)
    · simp at hj; subst hj; exact hi

theorem fixOne_nr {one : Bool} {st st' : St F} {i : Nat} (h : NR st) (e : fixOne one st i = some st') : NR st' := by
  unfold fixOne at e
  split at e
  · cases e
  · split at e
    · cases e
    · split at e
      · split at e
        · split at e
          · cases e
          · rename_i hs; cases e; exact setLast_nr h (by intro h; cases h) hs
        · cases e
      · split at e
        · split at e
          · split at e
            · cases e
            · rename_i hs; cases e; exact setLast_nr h (by intro h; cases h) hs
          · cases e
        · split at e
          · cases e
          · cases e; exact h

theorem fixLoop_nr {one : Bool} : ∀ (is : List Nat) {st st' : St F}, NR st → fixLoop one is st = some st' → NR st' := by
  intro is
  induction is with
  | nil => intro st st' h e; cases e; exact h
  | cons i is ih =>
    intro st st' h e
    simp only [fixLoop] at e
    cases hf : fixOne one st i with
    | none => rw [hf] at e; cases e
    | some s => rw [hf] at e; exact ih (fixOne_nr h hf) e

theorem newVars_nr : ∀ (n : Nat) {st st' : St F}, NR st → newVars n st = some st' → NR st' := by
  intro n
  induction n with
  | zero => intro st st' h e; cases e; exact h
  | succ n ih =>
    intro st st' h e
    simp only [newVars] at e
    split at e
    · refine ih ?_ e; exact h
    · cases e

theorem addOutVars_nr {n : Nat} {st st' : St F} (h : NR st) (e : addOutVars n st = some st') : NR st' := by
  unfold addOutVars at e
  cases hf : newVars n st with
  | none => rw [hf] at e; cases e
  | some s => rw [hf] at e; exact fixLoop_nr _ (newVars_nr n h hf) e

theorem addExpr_nr {st st' : St F} {r : Option (Pool F × Expr F)} (h : NR st) (e : addExpr st r = some st') : NR st' := by
  unfold addExpr at e
  cases r with
  | none => cases e
  | some q => refine fixLoop_nr _ (st := { st with pool := q.1, exprs := st.exprs ++ [q.2] }) ?_ e; exact h

theorem executeOut_nr {srt : List (Expr F) → List (Expr F)} {st st' : St F} {i : HintNorm.Insn F} (h : NR st) (e : executeOut srt st i = some st') : NR st' := by
  cases i with
  | linComb lc =>
    simp only [executeOut, addLinComb] at e
    split at e
    · cases e
    · exact addExpr_nr h e
  | mul xs =>
    simp only [executeOut, addMulVec] at e
    split at e
    · cases e
    · split at e
      · exact addExpr_nr h e
      · cases e
  | hint id xs n => exact addOutVars_nr h e
  | constantLike c =>
    cases c with
    | const k => exact addExpr_nr (r := some (st.pool, [⟨k, .const⟩])) h e
    | random => exact addOutVars_nr h e
    | pub k => exact addOutVars_nr h e
  | call c xs n =>
    simp only [executeOut, subCircuitCall] at e
    split at e
    · cases e
    · refine addOutVars_nr ?_ e; exact h
  | customGate g xs => exact addOutVars_nr h e

/-- The request adds no random value. -/
def EvOk : Ev F → Prop
  | .push i => HnIns i
  | _ => True

theorem exec_nr {srt : List (Expr F) → List (Expr F)} : ∀ (es : List (Ev F)) {st st' : St F}, (∀ e ∈ es, EvOk e) → NR st → exec srt st es = some st' → NR st' := by
  intro es
  induction es with
  | nil => intro st st' _ h e; cases e; exact h
  | cons ev es ih =>
    intro st st' he h e
    simp only [exec] at e
    cases hf : exec1 srt st ev with
    | none => rw [hf] at e; cases e
    | some s =>
      rw [hf] at e
      refine ih (fun x hx => he x (by simp [hx])) ?_ e
      cases ev with
      | push i =>
        refine executeOut_nr (st := { st with insns := st.insns ++ [i] }) ?_ hf
        intro j hj
        rcases List.mem_append.1 hj with hj | hj
        · exact h j hj
        · simp at hj; subst hj; exact he (.push j) (by simp)
      | assert v =>
        simp only [exec1, assertVar] at hf
        split at hf
        · cases hf
        · split at hf <;> (cases hf; exact h)
      | mark v =>
        simp only [exec1, markVar] at hf
        split at hf
        · cases hf
        · cases hf; exact h

theorem assertBool_ok (n a : Nat) : ∀ e ∈ (assertBool n a : List (Ev F)), EvOk e := by
  intro e he
  simp [assertBool, boolCond] at he
  rcases he with rfl | rfl | rfl | rfl <;> simp [EvOk, HnIns, constI, subI, mulI, lc2]

theorem markBool_ok (n a : Nat) : ∀ e ∈ (markBool n a : List (Ev F)), EvOk e := by
  intro e he
  simp [markBool, boolCond] at he
  rcases he with rfl | rfl | rfl | rfl <;> simp [EvOk, HnIns, constI, subI, mulI, lc2]

theorem bitsLoop_ok : ∀ (bits : List Nat) (n sum : Nat) (k : F), ∀ e ∈ (bitsLoop n sum k bits).1, EvOk e := by
  intro bits
  induction bits with
  | nil => intro n sum k e he; cases he
  | cons b bits ih =>
    intro n sum k e he
    simp only [bitsLoop, List.mem_append] at he
    rcases he with (he | he) | he
    · exact assertBool_ok _ _ e he
    · simp at he
      rcases he with rfl | rfl <;> simp [EvOk, HnIns, addI, lc2]
    · exact ih _ _ _ e he

theorem ev_append {a b : List (Ev F)} (ha : ∀ e ∈ a, EvOk e) (hb : ∀ e ∈ b, EvOk e) : ∀ e ∈ a ++ b, EvOk e := by
  intro e he
  rcases List.mem_append.1 he with h | h
  · exact ha e h
  · exact hb e h

theorem expand_ok {cn : Canon F} {cv : Nat → Option F} {n : Nat} {i : Source.Insn F} (hi : SrcIns i) {es : List (Ev F)} {vars : List Nat}
    (h : expand cn cv n i = some (es, vars)) : ∀ e ∈ es, EvOk e := by
  cases i with
  | linComb lc => cases h; simp [EvOk, HnIns]
  | mul xs => cases h; simp [EvOk, HnIns]
  | div x y checked =>
    simp only [expand] at h
    split at h
    · split at h
      · cases h
      · cases h; simp [EvOk, HnIns, constI, mulI]
    · split at h <;> (cases h; simp [EvOk, HnIns, constI, mulI, hintI, subI, lc2])
  | boolBinOp x y op =>
    cases h
    refine ev_append (ev_append (assertBool_ok _ _) (assertBool_ok _ _)) ?_
    cases op <;> exact ev_append (by simp [EvOk, HnIns, addI, mulI, subI, lc2]) (markBool_ok _ _)
  | isZero x =>
    simp only [expand] at h
    split at h
    · cases h; simp [EvOk, HnIns, constI]
    · cases h
      exact ev_append (by simp [EvOk, HnIns, constI, hintI, mulI, subI, lc2]) (markBool_ok _ _)
  | commit v => exact hi.elim
  | hint id xs k => cases h; simp [EvOk, HnIns]
  | constantLike c =>
    cases h
    cases c with
    | random => exact hi.elim
    | const k => simp [EvOk, HnIns]
    | pub k => simp [EvOk, HnIns]
  | call c xs k => cases h; simp [EvOk, HnIns]
  | unconstrainedBinOp x y op =>
    simp only [expand] at h
    split at h
    · split at h
      · cases h; simp [EvOk, HnIns, constI]
      · cases h
    · cases h; simp [EvOk, HnIns, hintI]
  | unconstrainedSelect c t f =>
    simp only [expand] at h
    split at h
    · cases h; simp
    · cases h; simp [EvOk, HnIns, hintI]
  | customGate g xs => cases h; simp [EvOk, HnIns]
  | toBinary x k =>
    cases h
    refine ev_append (ev_append (by simp [EvOk, HnIns, hintI, constI]) (bitsLoop_ok _ _ _ _)) (by simp [EvOk, HnIns, lc2])

theorem expandCon_ok (n v : Nat) (c : Source.Con) : ∀ e ∈ (expandCon n v c : List (Ev F)), EvOk e := by
  cases c with
  | zero => simp [expandCon, EvOk]
  | bool => exact assertBool_ok _ _
  | nonZero => simp [expandCon, EvOk, HnIns, constI, hintI, mulI, subI, lc2]

theorem processInsns_nr {cn : Canon F} {srt : List (Expr F) → List (Expr F)} : ∀ (is : List (Source.Insn F)) {ps ps' : PSt F}, (∀ i ∈ is, SrcIns i) → NR ps.st →
    processInsns cn srt ps is = .ok ps' → NR ps'.st := by
  intro is
  induction is with
  | nil => intro ps ps' _ h e; cases e; exact h
  | cons i is ih =>
    intro ps ps' hi h e
    simp only [processInsns] at e
    cases hp : processInsn cn srt ps i with
    | panic => rw [hp] at e; cases e
    | userError => rw [hp] at e; cases e
    | ok q =>
      rw [hp] at e
      refine ih (fun j hj => hi j (by simp [hj])) ?_ e
      unfold processInsn at hp
      have hr : SrcIns (i.replaceVars (vmGet ps.ito)) := by
        have := hi i (by simp)
        cases i <;> simp_all [SrcIns, Source.Insn.replaceVars]
      cases hx : expand cn (constOf ps.st) ps.st.exprs.length (i.replaceVars (vmGet ps.ito)) with
      | none => rw [hx] at hp; cases hp
      | some r =>
        obtain ⟨es, vars⟩ := r
        rw [hx] at hp
        dsimp only at hp
        cases hy : exec srt ps.st es with
        | none => rw [hy] at hp; cases hp
        | some s =>
          rw [hy] at hp
          dsimp only at hp
          split at hp
          · cases hp; exact exec_nr es (expand_ok hr hx) h hy
          · cases hp

theorem processCons_nr {srt : List (Expr F) → List (Expr F)} : ∀ (cs : List (Source.Con × Nat)) {ps ps' : PSt F}, NR ps.st → processCons srt ps cs = .ok ps' → NR ps'.st := by
  intro cs
  induction cs with
  | nil => intro ps ps' h e; cases e; exact h
  | cons c cs ih =>
    intro ps ps' h e
    obtain ⟨t, v⟩ := c
    simp only [processCons] at e
    cases hp : processCon srt ps t v with
    | panic => rw [hp] at e; cases e
    | userError => rw [hp] at e; cases e
    | ok q =>
      rw [hp] at e
      refine ih ?_ e
      unfold processCon at hp
      cases hy : exec srt ps.st (expandCon ps.st.exprs.length (vmGet ps.ito v) t) with
      | none => rw [hy] at hp; cases hp
      | some s => rw [hy] at hp; cases hp; exact exec_nr _ (expandCon_ok _ _ _) h hy

theorem processCircuit_nr {cn : Canon F} {srt : List (Expr F) → List (Expr F)} {E E' : Env F} {c : Circuit (source E)} {c' : Circuit (hintNorm E')}
    (hc : ∀ i ∈ (c.instructions : List (Source.Insn F)), SrcIns i) (h : processCircuit cn srt E' c = .ok c') : ∀ i ∈ (c'.instructions : List (HintNorm.Insn F)), HnIns i := by
  unfold processCircuit at h
  cases hb : buildCircuit cn srt c.numInputs c.instructions (consOf c) with
  | panic => rw [hb] at h; cases h
  | userError => rw [hb] at h; cases h
  | ok ps =>
    rw [hb] at h
    dsimp only at h
    have hnr : NR ps.st := by
      unfold buildCircuit at hb
      cases hi : initPs (F := F) c.numInputs with
      | none => rw [hi] at hb; cases hb
      | some p0 =>
        rw [hi] at hb
        dsimp only at hb
        have h0 : NR p0.st := by
          unfold initPs at hi
          split at hi
          · cases hi
          · rename_i st hst; cases hi
            exact addOutVars_nr (st := St.init) (fun i hi => by simp [St.init] at hi) hst
        cases hp : processInsns cn srt p0 c.instructions with
        | panic => rw [hp] at hb; cases hb
        | userError => rw [hp] at hb; cases hb
        | ok p1 => rw [hp] at hb; exact processCons_nr _ (processInsns_nr _ hc h0 hp) hb
    cases hf : finalCons srt ps.st with
    | none => rw [hf] at h; cases h
    | some ks => rw [hf] at h; cases h; exact hnr

theorem processList_nr {cn : Canon F} {srt : List (Expr F) → List (Expr F)} {E E' : Env F} {get : Nat → Option (Circuit (source E))}
    (hg : ∀ c circ, get c = some circ → ∀ i ∈ (circ.instructions : List (Source.Insn F)), SrcIns i) :
    ∀ (q : List Nat) {t : List (Nat × Circuit (hintNorm E'))}, processList cn srt E' get q = .ok t → ∀ p ∈ t, ∀ i ∈ (p.2.instructions : List (HintNorm.Insn F)), HnIns i := by
  intro q
  induction q with
  | nil => intro t h; cases h; simp
  | cons c q ih =>
    intro t h
    simp only [processList] at h
    cases hl : processList cn srt E' get q with
    | panic => rw [hl] at h; cases h
    | userError => rw [hl] at h; cases h
    | ok t' =>
      rw [hl] at h
      dsimp only at h
      cases hc : get c with
      | none => rw [hc] at h; cases h
      | some circ =>
        rw [hc] at h
        dsimp only at h
        cases hp : processCircuit cn srt E' circ with
        | panic => rw [hp] at h; cases h
        | userError => rw [hp] at h; cases h
        | ok c' =>
          rw [hp] at h
          cases h
          intro p hp'
          rcases List.mem_cons.1 hp' with rfl | hp'
          · exact processCircuit_nr (hg c circ hc) hp
          · exact ih hl p hp'

theorem process_nr {cn : Canon F} {srt : List (Expr F) → List (Expr F)} {E E' : Env F} {rc : RootCircuit (source E)} {rc' : RootCircuit (hintNorm E')}
    (hr : SrcNoRandom rc) (h : process cn srt E' rc = .ok rc') : HintExport.NoRandom rc' := by
  unfold process at h
  cases ht : Utils.topoOrder rc.vertices rc.edges with
  | none => rw [ht] at h; cases h
  | some q =>
    rw [ht] at h
    dsimp only at h
    cases hl : processList cn srt E' rc.get q with
    | panic => rw [hl] at h; cases h
    | userError => rw [hl] at h; cases h
    | ok t =>
      rw [hl] at h
      cases h
      intro c circ hg
      exact processList_nr hr q hl _ (mem_of_get (L := hintNorm E') (rc := ⟨rc.numPublicInputs, rc.expectedNumOutputZeroes, t⟩) hg)

/-- Step 1 draws no random value unless the source circuit does. -/
theorem step1_noRandom {E : Env F} (hE : E.HintLen) {P : Params F} {o : Options} {rc src : RootCircuit (source E)} {hn : RootCircuit (hintNorm E)} {im : InputMapping}
    (h : step1 P o rc = some (src, hn, im)) (hr : SrcNoRandom rc) : HintExport.NoRandom hn := by
  simp only [step1, Option.bind_eq_bind, Option.bind_eq_some_iff] at h
  obtain ⟨rc1, h1, ⟨src1, m1⟩, h2, src2, h3, hn1, h4, ⟨hn2, m2⟩, h5, hn3, h6, h7⟩ := h
  cases h7
  obtain ⟨rfl, v1⟩ := checked_some.1 h1
  obtain ⟨rfl, v3⟩ := checked_some.1 h3
  obtain ⟨rfl, v6⟩ := checked_some.1 h6
  exact tidy_fwd (hintNorm_lawful E hE) hn_fwd h5 (process_nr (tidySource_all srcIns_stable hE h2 hr) (outcomeOption_some.1 h4))

end Verif.Compile
