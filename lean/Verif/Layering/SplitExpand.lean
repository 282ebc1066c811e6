import Verif.Layering.SplitCc
import Verif.Layering.SplitCut
import Verif.Layering.Level

/-!
# Replacing calls by the segments of the called circuits (for `ir_split.rs`)
-/

set_option linter.unusedSectionVars false
set_option linter.unusedSimpArgs false

namespace Verif.Layering.Split

open Verif.IR (Expr Coef Env dest Circuit RootCircuit WFGet CallsOk Calls CircOk InsnsOk numVars Run EvalSub readAll checkCons Constraint Term VarSpec)
open Verif.Layering

variable {F : Type} [Field F] [DecidableEq F]

theorem holdsAllB_append {E : Env F} {SB : Nat → List F → List F → Bool → Prop} {W : Nat → F} : ∀ {is js : List (Verif.IR.Dest.Insn F)} {cur : Nat} {b : Bool},
    HoldsAllB E SB W (is ++ js) cur b ↔ ∃ b1 b2, HoldsAllB E SB W is cur b1 ∧ HoldsAllB E SB W js (endOf is cur) b2 ∧ b = (b1 && b2)
  | [], js, cur, b => by
    constructor
    · intro h; exact ⟨true, b, rfl, h, by simp⟩
    · rintro ⟨b1, b2, h1, h2, rfl⟩; cases h1; rw [Bool.true_and]; exact h2
  | i :: is, js, cur, b => by
    constructor
    · rintro ⟨b1, b2, h1, h2, rfl⟩
      obtain ⟨b3, b4, h3, h4, rfl⟩ := holdsAllB_append.1 h2
      exact ⟨b1 && b3, b4, ⟨b1, b3, h1, h3, rfl⟩, h4, by rw [Bool.and_assoc]⟩
    · rintro ⟨b1, b2, ⟨b3, b4, h3, h4, rfl⟩, h2, rfl⟩
      exact ⟨b3, b4 && b2, h3, holdsAllB_append.2 ⟨b4, b2, h4, h2, rfl⟩, by rw [Bool.and_assoc]⟩

theorem layAt_append_left {ls t : List Nat} {v : Nat} (h : v < ls.length) : layAt (ls ++ t) v = layAt ls v := by
  simp only [layAt, List.getD_eq_getElem?_getD]
  rw [List.getElem?_append_left h]

theorem layAt_replicate {ls : List Nat} {m l v : Nat} (h : ls.length ≤ v) (h' : v < ls.length + m) : layAt (ls ++ List.replicate m l) v = l := by
  simp only [layAt, List.getD_eq_getElem?_getD]
  rw [List.getElem?_append_right h, List.getElem?_replicate, if_pos (by omega)]; rfl

theorem placed_bound : ∀ (is : List (Verif.IR.Dest.Insn F)) (cur : Nat) (p : Verif.IR.Dest.Insn F × Nat), p ∈ placed is cur → p.2 + nOut p.1 ≤ endOf is cur
  | [], _, _, h => by cases h
  | i :: is, cur, p, h => by
    rcases List.mem_cons.1 h with rfl | h
    · exact le_endOf is _
    · exact placed_bound is _ p h

theorem LayOk.snoc {ls : List Nat} {is : List (Verif.IR.Dest.Insn F)} {n : Nat} {i : Verif.IR.Dest.Insn F} {l : Nat} (h : LayOk ls is n) (he : endOf is n = ls.length)
    (hc : ∀ c, i = .constantLike c → l = 1) : LayOk (ls ++ List.replicate (nOut i) l) (is ++ [i]) n := by
  intro p hp
  rw [placed_append] at hp
  rcases List.mem_append.1 hp with hp | hp
  · obtain ⟨h1, h2⟩ := h p hp
    have hb := placed_bound _ _ _ hp
    refine ⟨fun v hv hv' => ?_, fun c hc => ?_⟩
    · rw [layAt_append_left (by omega), layAt_append_left (by omega)]; exact h1 v hv hv'
    · have : nOut p.1 = 1 := by rw [hc]; rfl
      rw [layAt_append_left (by omega)]; exact h2 c hc
  · simp only [placed, List.mem_singleton] at hp
    subst hp
    rw [he]
    refine ⟨fun v hv hv' => ?_, fun c hc' => ?_⟩
    · simp only at hv hv'
      rw [layAt_replicate hv hv', layAt_replicate (le_refl _) (by omega)]
    · simp only at hc'
      subst hc'
      rw [layAt_replicate (le_refl _) (by simp [nOut])]; exact hc c rfl

/-- What the state of the expansion satisfies. -/
structure ExpInv (npi n : Nat) (pool : List (Prog F)) (st : Exp F) : Prop where
  lsLen : st.ls.length = st.vmax + 1
  fin : endOf st.insns (n + 1) = st.vmax + 1
  vmIn : ∀ x, x ≤ n → st.vm[x]? = some x
  vmR : ∀ x y, 1 ≤ x → st.vm[x]? = some y → 1 ≤ y ∧ y ≤ st.vmax
  args : ArgsOk st.insns (n + 1)
  lay : LayOk st.ls st.insns (n + 1)
  valid : ∀ i ∈ st.insns, Verif.IR.Dest.Insn.valid npi i = true
  calls : CallsIn pool pool.length st.insns
  sccR : ∀ x ∈ st.scc, 1 ≤ x ∧ x ≤ st.vmax

theorem ExpInv.mono {npi n : Nat} {pool pool' : List (Prog F)} {st : Exp F} (h : ExpInv npi n pool st) (hp : pool <+: pool') : ExpInv npi n pool' st :=
  { h with calls := h.calls.mono hp hp.length_le }

theorem ExpInv.push {npi n : Nat} {pool : List (Prog F)} {st : Exp F} (h : ExpInv npi n pool st) {i : Verif.IR.Dest.Insn F} (ha : ∀ v ∈ argsOf i, 1 ≤ v ∧ v ≤ st.vmax)
    (hv : Verif.IR.Dest.Insn.valid npi i = true) (hc : CallsIn pool pool.length [i]) {l : Nat} (hl : ∀ c, i = .constantLike c → l = 1) (scl : List Nat) :
    ExpInv npi n pool ⟨st.vm, st.vmax + nOut i, st.insns ++ [i], st.scc, st.ls ++ List.replicate (nOut i) l, scl⟩ where
  lsLen := by simp only [List.length_append, List.length_replicate, h.lsLen]; omega
  fin := by rw [endOf_append, h.fin]; simp only [endOf]; omega
  vmIn := h.vmIn
  vmR := fun x y hx hy => by have := h.vmR x y hx hy; simp only; omega
  args := by
    rw [argsOk_append]
    refine ⟨h.args, ?_⟩
    rw [argsOk_cons, h.fin]
    exact ⟨fun v hv => by have := ha v hv; omega, trivial⟩
  lay := h.lay.snoc (by rw [h.fin, h.lsLen]) hl
  valid := by
    intro j hj
    rcases List.mem_append.1 hj with hj | hj
    · exact h.valid j hj
    · simp only [List.mem_singleton] at hj; subst hj; exact hv
  calls := by
    intro d xs m hm
    rcases List.mem_append.1 hm with hm | hm
    · exact h.calls d xs m hm
    · exact hc d xs m hm
  sccR := fun x hx => by have := h.sccR x hx; simp only; omega

theorem ExpInv.vmLen {npi n : Nat} {pool : List (Prog F)} {st : Exp F} (h : ExpInv npi n pool st) : n < st.vm.length :=
  (List.getElem?_eq_some_iff.1 (h.vmIn n (le_refl _))).1

theorem ExpInv.addVm {npi n : Nat} {pool : List (Prog F)} {st : Exp F} (h : ExpInv npi n pool st) {ts cs : List Nat} (ht : ∀ x ∈ ts, 1 ≤ x ∧ x ≤ st.vmax)
    (hc : ∀ x ∈ cs, 1 ≤ x ∧ x ≤ st.vmax) : ExpInv npi n pool { st with vm := st.vm ++ ts, scc := st.scc ++ cs } where
  lsLen := h.lsLen
  fin := h.fin
  vmIn := fun x hx => by
    show (st.vm ++ ts)[x]? = _
    rw [List.getElem?_append_left (by have := h.vmLen; omega)]; exact h.vmIn x hx
  vmR := fun x y hx hy => by
    have hy : (st.vm ++ ts)[x]? = some y := hy
    by_cases hl : x < st.vm.length
    · rw [List.getElem?_append_left hl] at hy; exact h.vmR x y hx hy
    · rw [List.getElem?_append_right (by omega)] at hy; exact ht y (List.mem_of_getElem? hy)
  args := h.args
  lay := h.lay
  valid := h.valid
  calls := h.calls
  sccR := fun x hx => by
    rcases List.mem_append.1 hx with hx | hx
    · exact h.sccR x hx
    · exact hc x hx

/-! ### The segments of one call -/

/-- The reference is in range. -/
def RefOk (n k : Nat) (r : Ref) : Prop := (∃ i, r = .input i ∧ i < n) ∨ ∃ i, r = .internal i ∧ i < k

theorem refVar_range {inputs : List Nat} {pre k t m : Nat} {r : Ref} (hi : ∀ x ∈ inputs, 1 ≤ x ∧ x ≤ pre) (hm : pre + k ≤ m) (hr : ∀ i, r = .internal i → i < k)
    (h : refVar inputs pre r = some t) : 1 ≤ t ∧ t ≤ m := by
  cases r with
  | input i => have := hi t (List.mem_of_getElem? h); omega
  | internal i => have := hr i rfl; simp only [refVar, Option.some.injEq] at h; omega
  | unknown => cases h

theorem refVar_val {inputs : List Nat} {pre t : Nat} {r : Ref} (W : Nat → F) (h : refVar inputs pre r = some t) : W t = rv (inputs.map W) (fun i => W (pre + i + 1)) r := by
  cases r with
  | input i =>
    have h : inputs[i]? = some t := h
    simp only [rv, List.getD_eq_getElem?_getD, List.getElem?_map, h]; rfl
  | internal i => simp only [refVar, Option.some.injEq] at h; subst h; rfl
  | unknown => cases h

theorem refVars_val {inputs : List Nat} {pre : Nat} {rs : List Ref} {ts : List Nat} (W : Nat → F) (h : mapOpt (refVar inputs pre) rs = some ts) :
    ts.map W = rs.map (rv (inputs.map W) fun i => W (pre + i + 1)) := by
  induction rs generalizing ts with
  | nil => simp only [mapOpt, Option.some.injEq] at h; subst h; rfl
  | cons r rs ih =>
    obtain ⟨t, ts', h1, h2, rfl⟩ := Verif.mapOpt_cons.1 h
    rw [List.map_cons, List.map_cons, ih h2, refVar_val W h1]

theorem expandSegs_spec {npi n n' : Nat} {pool : List (Prog F)} {inputs : List Nat} {pre : Nat} (hi : ∀ x ∈ inputs, 1 ≤ x ∧ x ≤ pre) : ∀ (segs : List Seg) (k k' : Nat) (st st' : Exp F),
    expandSegs pool inputs pre segs st = some st' → SegsOk pool n' segs k k' → st.vmax = pre + k → ExpInv npi n pool st →
    ExpInv npi n pool st' ∧ st'.vmax = pre + k' ∧ st'.vm = st.vm ∧ st'.scc = st.scc ∧ NoUnk segs ∧ ∃ new, st'.insns = st.insns ++ new ∧
      ∀ (E : Env F) S PF, pool <+: PF → ∀ W : Nat → F, HoldsAll E S W new (pre + k + 1) ↔ SegsHold S PF (inputs.map W) (fun i => W (pre + i + 1)) segs k := by
  intro segs
  induction segs with
  | nil =>
    intro k k' st st' h hs hv hinv
    simp only [expandSegs, Option.some.injEq] at h
    subst h
    cases hs
    exact ⟨hinv, hv, rfl, rfl, (fun s hs => by cases hs), [], by simp, fun _ _ _ _ _ => Iff.rfl⟩
  | cons s segs ih =>
    intro k k' st st' h hs hv hinv
    obtain ⟨c, hc, hid, hlen, hin, hint, hrest⟩ := hs
    simp only [expandSegs, hc] at h
    cases hm : mapOpt (refVar inputs pre) s.mid with
    | none => rw [hm] at h; cases h
    | some ins =>
      rw [hm] at h
      dsimp only at h
      split at h
      · have hr : ∀ v ∈ ins, 1 ≤ v ∧ v ≤ st.vmax := by
          intro v hv'
          obtain ⟨r, hr, hrv⟩ := mapOpt_mem hm v hv'
          exact refVar_range hi (by omega) (fun i e => hint i (e ▸ hr)) hrv
        have hu : Ref.unknown ∉ s.mid := by
          intro hmem
          obtain ⟨j, hj⟩ := List.getElem?_of_mem hmem
          have e := Verif.mapOpt_getElem? hm j _ hj
          rw [List.getElem?_eq_getElem (by rw [Verif.mapOpt_length hm]; exact (List.getElem?_eq_some_iff.1 hj).1)] at e
          cases e
        have hil : s.id - 1 < pool.length := (List.getElem?_eq_some_iff.1 hc).1
        have hpush := hinv.push (i := .call s.id ins c.outs.length) hr rfl (by
          intro d xs m hm'
          simp only [List.mem_singleton, Verif.IR.Dest.Insn.call.injEq] at hm'
          obtain ⟨rfl, rfl, rfl⟩ := hm'
          exact ⟨hid, by omega, c, hc, by rw [Verif.mapOpt_length hm, hlen], rfl⟩) (l := s.stop) (by intro _ e; cases e) (st.scl ++ [s.start])
        obtain ⟨g1, g2, g3, g4, g5, new, g6, g7⟩ := ih (k + c.outs.length) k' _ st' h hrest (by simp only; omega) hpush
        refine ⟨g1, g2, g3, g4, ?_, .call s.id ins c.outs.length :: new, by rw [g6]; simp, ?_⟩
        · intro s' hs'
          rcases List.mem_cons.1 hs' with rfl | hs'
          · exact hu
          · exact g5 s' hs'
        · intro E S PF hp W
          have e := outLen_of hp hc
          have g7 := g7 E S PF hp W
          simp only [SegsHold, HoldsAll, Holds, nOut, e]
          rw [refVars_val W hm, show pre + k + 1 + c.outs.length = pre + (k + c.outs.length) + 1 by omega, g7]
          have e2 : (List.range' (pre + k + 1) c.outs.length).map W = (List.range' k c.outs.length).map fun i => W (pre + i + 1) := by
            apply List.ext_getElem?
            intro j
            rw [List.getElem?_map, List.getElem?_map]
            by_cases hj : j < c.outs.length
            · rw [range'_get hj, range'_get hj]; simp only [Option.map_some]; rw [show pre + k + 1 + j = pre + (k + j) + 1 by omega]
            · rw [List.getElem?_eq_none (by simp; omega), List.getElem?_eq_none (by simp; omega)]; rfl
          rw [e2]
      · cases h

/-! ### Specification of a split circuit -/

/-- A circuit, or a circuit it calls, has a constraint. -/
inductive HasC (get : Nat → Option (Prog F)) : Nat → Prop
  | here {d : Nat} {p : Prog F} (h : get d = some p) (hc : p.cons ≠ []) : HasC get d
  | there {d d' m : Nat} {xs : List Nat} {p : Prog F} (h : get d = some p) (hm : Verif.IR.Dest.Insn.call d' xs m ∈ p.insns) (hc : HasC get d') : HasC get d

/-- What splitting a circuit other than the root guarantees: `SB` is what the original circuits do. -/
structure SplSpec (random : Bool) (get : Nat → Option (Prog F)) (npi : Nat) (E : Env F) (SB : Nat → List F → List F → Bool → Prop) (id : Nat) (p : Prog F) (spl : Spl)
    (pool pool' : List (Prog F)) : Prop where
  pre : pool <+: pool'
  poolOk : PoolOk npi pool'
  total : ∃ k, SegsOk pool' p.numInputs spl.segs 0 k ∧ ∀ r ∈ spl.outs, RefOk p.numInputs k r
  len : p.outs.length ≤ spl.outs.length
  nonrandom : random = false → spl.outs.length = p.outs.length
  nonempty : random = true → HasC get id → p.outs.length < spl.outs.length
  fwd0 : ∀ S PF, pool' <+: PF → PoolOk npi PF → SubSem E S PF → NoUnk spl.segs → ∀ ins ys b, ins.length = p.numInputs → SB id ins ys b →
    ∃ V, SegsHold S PF ins V spl.segs 0 ∧ ys = (spl.outs.take p.outs.length).map (rv ins V) ∧ ∀ r ∈ spl.outs.drop p.outs.length, rv ins V r = 0
  fwd1 : ∀ S PF, pool' <+: PF → PoolOk npi PF → SubSem E S PF → NoUnk spl.segs → ∀ ins ys, ins.length = p.numInputs → SB id ins ys false →
    ∃ V, SegsHold S PF ins V spl.segs 0 ∧ ys = (spl.outs.take p.outs.length).map (rv ins V) ∧ One ((spl.outs.drop p.outs.length).map (rv ins V))
  bwd : ∀ S PF, pool' <+: PF → PoolOk npi PF → SubSem E S PF → NoUnk spl.segs → ∀ ins V, ins.length = p.numInputs → SegsHold S PF ins V spl.segs 0 →
    ∃ b, SB id ins ((spl.outs.take p.outs.length).map (rv ins V)) b ∧ (b = true → ∀ r ∈ spl.outs.drop p.outs.length, rv ins V r = 0)

/-! ### Expansion -/

/-- New values of renamed variables. -/
def Maps (vm : List Nat) (Wo Wn : Nat → F) : Prop := ∀ x y, 1 ≤ x → vm[x]? = some y → Wn y = Wo x

/-- What expanding the instructions `is` guarantees. -/
structure StepOk (random : Bool) (get : Nat → Option (Prog F)) (npi n : Nat) (E : Env F) (SB : Nat → List F → List F → Bool → Prop) (is : List (Verif.IR.Dest.Insn F)) (st st' : Exp F)
    (pool pool' : List (Prog F)) (ts cs : List Nat) (new : List (Verif.IR.Dest.Insn F)) : Prop where
  inv : ExpInv npi n pool' st'
  pre : pool <+: pool'
  poolOk : PoolOk npi pool'
  vm : st'.vm = st.vm ++ ts
  len : st'.vm.length = endOf is st.vm.length
  scc : st'.scc = st.scc ++ cs
  insns : st'.insns = st.insns ++ new
  nonrandom : random = false → cs = []
  nonempty : random = true → ∀ d xs m, Verif.IR.Dest.Insn.call d xs m ∈ is → HasC get d → cs ≠ []
  fwd0 : ∀ S PF, pool' <+: PF → PoolOk npi PF → SubSem E S PF → ∀ Wo Wn b, Maps st.vm Wo Wn → HoldsAllB E SB Wo is st.vm.length b →
    ∃ Wn', (∀ x, x ≤ st.vmax → Wn' x = Wn x) ∧ HoldsAll E S Wn' new (st.vmax + 1) ∧ Maps st'.vm Wo Wn' ∧ ∀ x ∈ cs, Wn' x = 0
  fwd1 : ∀ S PF, pool' <+: PF → PoolOk npi PF → SubSem E S PF → ∀ Wo Wn, Maps st.vm Wo Wn → HoldsAllB E SB Wo is st.vm.length false →
    ∃ Wn', (∀ x, x ≤ st.vmax → Wn' x = Wn x) ∧ HoldsAll E S Wn' new (st.vmax + 1) ∧ Maps st'.vm Wo Wn' ∧ One (cs.map Wn')
  bwd : ∀ S PF, pool' <+: PF → PoolOk npi PF → SubSem E S PF → ∀ Wo Wn, Maps st'.vm Wo Wn → HoldsAll E S Wn new (st.vmax + 1) →
    ∃ b, HoldsAllB E SB Wo is st.vm.length b ∧ (b = true → ∀ x ∈ cs, Wn x = 0)

section
variable {random : Bool} {get : Nat → Option (Prog F)} {npi n : Nat} {E : Env F} {SB : Nat → List F → List F → Bool → Prop}

theorem Maps.left {vm ts : List Nat} {Wo Wn : Nat → F} (h : Maps (vm ++ ts) Wo Wn) : Maps vm Wo Wn := by
  intro x y hx hy
  exact h x y hx (by rw [List.getElem?_append_left (List.getElem?_eq_some_iff.1 hy).1]; exact hy)

theorem stepOk_nil {st : Exp F} {pool : List (Prog F)} (hi : ExpInv npi n pool st) (hp : PoolOk npi pool) : StepOk random get npi n E SB [] st st pool pool [] [] [] where
  inv := hi
  pre := List.prefix_refl _
  poolOk := hp
  vm := by simp
  len := rfl
  scc := by simp
  insns := by simp
  nonrandom := fun _ => rfl
  nonempty := fun _ _ _ _ h => by cases h
  fwd0 := fun S PF _ _ _ Wo Wn b hm h => ⟨Wn, fun _ _ => rfl, trivial, hm, fun x hx => by cases hx⟩
  fwd1 := fun S PF _ _ _ Wo Wn hm h => by cases h
  bwd := fun S PF _ _ _ Wo Wn hm h => ⟨true, rfl, fun _ x hx => by cases hx⟩

theorem StepOk.append {st st1 st2 : Exp F} {pool pool1 pool2 : List (Prog F)} {is js : List (Verif.IR.Dest.Insn F)} {ts cs ts' cs' : List Nat} {new new' : List (Verif.IR.Dest.Insn F)}
    (hi : ExpInv npi n pool st) (h : StepOk random get npi n E SB is st st1 pool pool1 ts cs new) (h' : StepOk random get npi n E SB js st1 st2 pool1 pool2 ts' cs' new') :
    StepOk random get npi n E SB (is ++ js) st st2 pool pool2 (ts ++ ts') (cs ++ cs') (new ++ new') := by
  have hfin : endOf new (st.vmax + 1) = st1.vmax + 1 := by
    rw [← h.inv.fin, h.insns, endOf_append, hi.fin]
  have hargs : ArgsOk new (st.vmax + 1) := by
    have := h.inv.args
    rw [h.insns, argsOk_append, hi.fin] at this
    exact this.2
  have hmax : st.vmax ≤ st1.vmax := by have := le_endOf new (st.vmax + 1); omega
  have hcs : ∀ x ∈ cs, x ≤ st1.vmax := fun x hx => (h.inv.sccR x (by rw [h.scc]; simp [hx])).2
  have hcongr : ∀ {S : Nat → List F → List F → Prop} {W W' : Nat → F}, (∀ x, x ≤ st1.vmax → W' x = W x) → HoldsAll E S W new (st.vmax + 1) → HoldsAll E S W' new (st.vmax + 1) :=
    fun hw hh => hh.congr hargs (fun v _ hv => (hw v (by omega)).symm) (by omega)
  refine { inv := h'.inv, pre := h.pre.trans h'.pre, poolOk := h'.poolOk, vm := by rw [h'.vm, h.vm, List.append_assoc], len := by rw [h'.len, h.len, endOf_append],
           scc := by rw [h'.scc, h.scc, List.append_assoc], insns := by rw [h'.insns, h.insns, List.append_assoc], nonrandom := fun hr => by rw [h.nonrandom hr, h'.nonrandom hr]; rfl,
           nonempty := ?_, fwd0 := ?_, fwd1 := ?_, bwd := ?_ }
  · intro hr d xs m hm hc
    rcases List.mem_append.1 hm with hm | hm
    · have := h.nonempty hr d xs m hm hc; simp [this]
    · have := h'.nonempty hr d xs m hm hc; simp [this]
  · intro S PF hp hpo hs Wo Wn b hm hh
    obtain ⟨b1, b2, h1, h2, rfl⟩ := holdsAllB_append.1 hh
    rw [← h.len] at h2
    obtain ⟨W1, a1, a2, a3, a4⟩ := h.fwd0 S PF (h'.pre.trans hp) hpo hs Wo Wn b1 hm h1
    obtain ⟨W2, c1, c2, c3, c4⟩ := h'.fwd0 S PF hp hpo hs Wo W1 b2 a3 h2
    refine ⟨W2, fun x hx => by rw [c1 x (by omega), a1 x hx], holdsAll_append.2 ⟨hcongr c1 a2, by rw [hfin]; exact c2⟩, c3, ?_⟩
    intro x hx
    rcases List.mem_append.1 hx with hx | hx
    · rw [c1 x (hcs x hx)]; exact a4 x hx
    · exact c4 x hx
  · intro S PF hp hpo hs Wo Wn hm hh
    obtain ⟨b1, b2, h1, h2, hb⟩ := holdsAllB_append.1 hh
    rw [← h.len] at h2
    cases b1 with
    | false =>
      obtain ⟨W1, a1, a2, a3, a4⟩ := h.fwd1 S PF (h'.pre.trans hp) hpo hs Wo Wn hm h1
      obtain ⟨W2, c1, c2, c3, c4⟩ := h'.fwd0 S PF hp hpo hs Wo W1 b2 a3 h2
      refine ⟨W2, fun x hx => by rw [c1 x (by omega), a1 x hx], holdsAll_append.2 ⟨hcongr c1 a2, by rw [hfin]; exact c2⟩, c3, ?_⟩
      rw [List.map_append]
      refine One.left ?_ (by intro y hy; obtain ⟨x, hx, rfl⟩ := List.mem_map.1 hy; exact c4 x hx)
      rw [map_congr_mem (f := W2) (g := W1) fun x hx => c1 x (hcs x hx)]; exact a4
    | true =>
      have hb2 : b2 = false := by simpa using hb.symm
      subst hb2
      obtain ⟨W1, a1, a2, a3, a4⟩ := h.fwd0 S PF (h'.pre.trans hp) hpo hs Wo Wn true hm h1
      obtain ⟨W2, c1, c2, c3, c4⟩ := h'.fwd1 S PF hp hpo hs Wo W1 a3 h2
      refine ⟨W2, fun x hx => by rw [c1 x (by omega), a1 x hx], holdsAll_append.2 ⟨hcongr c1 a2, by rw [hfin]; exact c2⟩, c3, ?_⟩
      rw [List.map_append]
      refine One.right c4 ?_
      intro y hy
      obtain ⟨x, hx, rfl⟩ := List.mem_map.1 hy
      rw [c1 x (hcs x hx)]; exact a4 x hx
  · intro S PF hp hpo hs Wo Wn hm hh
    obtain ⟨h1, h2⟩ := holdsAll_append.1 hh
    rw [hfin] at h2
    obtain ⟨b2, g3, g4⟩ := h'.bwd S PF hp hpo hs Wo Wn hm h2
    obtain ⟨b1, g1, g2⟩ := h.bwd S PF (h'.pre.trans hp) hpo hs Wo Wn (by have := hm; rw [h'.vm] at this; exact this.left) h1
    refine ⟨b1 && b2, holdsAllB_append.2 ⟨b1, b2, g1, by rw [← h.len]; exact g3, rfl⟩, ?_⟩
    intro hb x hx
    obtain ⟨rfl, rfl⟩ := Bool.and_eq_true_iff.1 hb
    rcases List.mem_append.1 hx with hx | hx
    · exact g2 rfl x hx
    · exact g4 rfl x hx

/-- An instruction that is not a call. -/
theorem stepOk_simple {st : Exp F} {pool : List (Prog F)} (hi : ExpInv npi n pool st) (hp : PoolOk npi pool) {i j : Verif.IR.Dest.Insn F} (ho : nOut i = 1) (hj : nOut j = 1)
    (hic : ∀ d xs m, i ≠ .call d xs m) (hjc : ∀ d xs m, j ≠ .call d xs m)
    (ha : ∀ v ∈ argsOf j, 1 ≤ v ∧ v ≤ st.vmax) (hv : Verif.IR.Dest.Insn.valid npi j = true) {l : Nat} (hl : ∀ c, j = .constantLike c → l = 1)
    (hsem : ∀ S (Wo Wn : Nat → F), Maps st.vm Wo Wn → Wn (st.vmax + 1) = Wo st.vm.length → ((∃ b, HoldsB E SB Wo i st.vm.length b) ↔ Holds E S Wn j (st.vmax + 1)))
    (hb : ∀ Wo b, HoldsB E SB Wo i st.vm.length b → b = true) :
    StepOk random get npi n E SB [i] st ⟨st.vm ++ [st.vmax + 1], st.vmax + 1, st.insns ++ [j], st.scc, st.ls ++ [l], st.scl⟩ pool pool [st.vmax + 1] [] [j] := by
  have hvl := hi.vmLen
  have hpush := hi.push (i := j) ha hv (by intro d xs m hm; simp only [List.mem_singleton] at hm; exact absurd hm.symm (hjc d xs m)) hl st.scl
  rw [hj] at hpush
  have hadd := hpush.addVm (ts := [st.vmax + 1]) (cs := []) (by simp) (by simp)
  rw [List.append_nil] at hadd
  have hmaps : ∀ Wo Wn : Nat → F, Maps (st.vm ++ [st.vmax + 1]) Wo Wn → Wn (st.vmax + 1) = Wo st.vm.length := by
    intro Wo Wn h
    exact h st.vm.length _ (by omega) (by simp)
  refine { inv := hadd, pre := List.prefix_refl _, poolOk := hp, vm := rfl, len := by simp [endOf, ho], scc := by simp, insns := rfl, nonrandom := fun _ => rfl, nonempty := ?_, fwd0 := ?_, fwd1 := ?_, bwd := ?_ }
  · intro _ d xs m hm
    simp only [List.mem_singleton] at hm
    exact absurd hm.symm (hic d xs m)
  · intro S PF _ _ _ Wo Wn b hm h
    obtain ⟨b1, b2, h1, h2, rfl⟩ := h
    have hagree : ∀ x, x ≤ st.vmax → put Wn (st.vmax + 1) [Wo st.vm.length] x = Wn x := fun x hx => put_out (Or.inl (by omega))
    have hm' : Maps st.vm Wo (put Wn (st.vmax + 1) [Wo st.vm.length]) := fun x y hx hy => by
      rw [hagree y (hi.vmR x y hx hy).2]; exact hm x y hx hy
    refine ⟨put Wn (st.vmax + 1) [Wo st.vm.length], hagree, ⟨(hsem S _ _ hm' (put_one _ _ _)).1 ⟨b1, h1⟩, trivial⟩, ?_, fun x hx => by cases hx⟩
    intro x y hx hy
    by_cases hxl : x < st.vm.length
    · rw [List.getElem?_append_left hxl] at hy; exact hm' x y hx hy
    · have hlen := (List.getElem?_eq_some_iff.1 hy).1
      simp only [List.length_append, List.length_singleton] at hlen
      have : x = st.vm.length := by omega
      subst this
      simp only [List.getElem?_concat_length, Option.some.injEq] at hy
      subst hy
      exact put_one _ _ _
  · intro S PF _ _ _ Wo Wn hm h
    obtain ⟨b1, b2, h1, h2, hbb⟩ := h
    have := hb _ _ h1
    subst this
    cases h2
    simp at hbb
  · intro S PF _ _ _ Wo Wn hm h
    obtain ⟨b, hb'⟩ := (hsem S Wo Wn hm.left (hmaps _ _ hm)).2 h.1
    exact ⟨b, ⟨b, true, hb', rfl, by simp⟩, fun _ x hx => by cases hx⟩

theorem getD_of {l : List Nat} {x y : Nat} (h : l[x]? = some y) : l.getD x 0 = y := by
  rw [List.getD_eq_getElem?_getD, h]; rfl

theorem Maps.args {vm : List Nat} {Wo Wn : Nat → F} (h : Maps vm Wo Wn) {x : Nat} (h1 : 1 ≤ x) (h2 : x < vm.length) : Wn (vm.getD x 0) = Wo x := by
  have e := List.getElem?_eq_getElem h2
  rw [getD_of e]; exact h x _ h1 e

theorem ExpInv.args_range {pool : List (Prog F)} {st : Exp F} (h : ExpInv npi n pool st) {x : Nat} (h1 : 1 ≤ x) (h2 : x < st.vm.length) : 1 ≤ st.vm.getD x 0 ∧ st.vm.getD x 0 ≤ st.vmax := by
  have e := List.getElem?_eq_getElem h2
  rw [getD_of e]; exact h.vmR x _ h1 e

theorem scc_refVar {inputs : List Nat} {pre : Nat} : ∀ {rs : List Ref} {cs : List Nat}, mapOpt (sccVar pre) rs = some cs → mapOpt (refVar inputs pre) rs = some cs
  | [], cs, h => h
  | r :: rs, cs, h => by
    obtain ⟨t, ts', h1, h2, rfl⟩ := Verif.mapOpt_cons.1 h
    refine Verif.mapOpt_cons.2 ⟨t, ts', ?_, scc_refVar h2, rfl⟩
    cases r with
    | internal i => exact h1
    | input i => cases h1
    | unknown => cases h1

theorem stepOk_call {st st' : Exp F} {pool pool' : List (Prog F)} (hi : ExpInv npi n pool st) {d : Nat} {xs : List Nat} {p : Prog F} {spl : Spl} {ts cs : List Nat}
    (hx : ∀ x ∈ xs, 1 ≤ x ∧ x < st.vm.length) (hxl : xs.length = p.numInputs) (hspl : SplSpec random get npi E SB d p spl pool pool')
    (hseg : expandSegs pool' (xs.map fun x => st.vm.getD x 0) st.vmax spl.segs st = some st')
    (hts : mapOpt (refVar (xs.map fun x => st.vm.getD x 0) st.vmax) (spl.outs.take p.outs.length) = some ts)
    (hcs : mapOpt (sccVar st.vmax) (spl.outs.drop p.outs.length) = some cs) :
    ∃ new, StepOk random get npi n E SB [.call d xs p.outs.length] st { st' with vm := st'.vm ++ ts, scc := st'.scc ++ cs } pool pool' ts cs new := by
  have hvl := hi.vmLen
  have hir : ∀ x ∈ xs.map (fun x => st.vm.getD x 0), 1 ≤ x ∧ x ≤ st.vmax := by
    intro y hy
    obtain ⟨x, hx', rfl⟩ := List.mem_map.1 hy
    exact hi.args_range (hx x hx').1 (hx x hx').2
  have hcs' := scc_refVar (inputs := xs.map fun x => st.vm.getD x 0) hcs
  obtain ⟨k, hk, hrefs⟩ := hspl.total
  obtain ⟨g1, g2, g3, g4, g5, new, g6, g7⟩ := expandSegs_spec hir spl.segs 0 k st st' hseg hk (by omega) (hi.mono hspl.pre)
  rw [Nat.add_zero] at g7
  have hrange : ∀ {rs : List Ref} {us : List Nat}, (∀ r ∈ rs, r ∈ spl.outs) → mapOpt (refVar (xs.map fun x => st.vm.getD x 0) st.vmax) rs = some us → ∀ x ∈ us, 1 ≤ x ∧ x ≤ st'.vmax := by
    intro rs us hrs hus x hx'
    obtain ⟨r, hr, hrx⟩ := mapOpt_mem hus x hx'
    refine refVar_range hir (k := k) (by omega) ?_ hrx
    intro i e
    rcases hrefs r (hrs r hr) with ⟨i', e', -⟩ | ⟨i', e', h⟩
    · rw [e] at e'; cases e'
    · rw [e] at e'; cases e'; exact h
  have hadd := g1.addVm (hrange (fun r hr => List.mem_of_mem_take hr) hts) (hrange (fun r hr => List.mem_of_mem_drop hr) hcs')
  have htl : ts.length = p.outs.length := by
    rw [Verif.mapOpt_length hts, List.length_take]; have := hspl.len; omega
  have hcl : cs.length = spl.outs.length - p.outs.length := by
    rw [Verif.mapOpt_length hcs, List.length_drop]
  have hins : ∀ {Wo Wn : Nat → F}, Maps st.vm Wo Wn → (xs.map fun x => st.vm.getD x 0).map Wn = xs.map Wo := by
    intro Wo Wn hm
    rw [List.map_map]
    exact map_congr_mem fun x hx' => hm.args (hx x hx').1 (hx x hx').2
  -- values of the new variables from values of the segments
  have hbuild : ∀ {S : Nat → List F → List F → Prop} {PF : List (Prog F)} {Wo Wn V : Nat → F}, pool' <+: PF → Maps st.vm Wo Wn → SegsHold S PF (xs.map Wo) V spl.segs 0 →
      (List.range' st.vm.length p.outs.length).map Wo = (spl.outs.take p.outs.length).map (rv (xs.map Wo) V) →
      ∃ Wn', (∀ x, x ≤ st.vmax → Wn' x = Wn x) ∧ HoldsAll E S Wn' new (st.vmax + 1) ∧ Maps (st'.vm ++ ts) Wo Wn' ∧ cs.map Wn' = (spl.outs.drop p.outs.length).map (rv (xs.map Wo) V) := by
    intro S PF Wo Wn V hPF hm hV hys
    have e1 : ∀ x, x ≤ st.vmax → (fun x => if x ≤ st.vmax then Wn x else V (x - st.vmax - 1)) x = Wn x := fun x hx' => by simp only; rw [if_pos hx']
    have e2 : (fun i => (fun x => if x ≤ st.vmax then Wn x else V (x - st.vmax - 1)) (st.vmax + i + 1)) = V := by
      funext i
      simp only
      rw [if_neg (by omega)]
      congr 1; omega
    generalize (fun x => if x ≤ st.vmax then Wn x else V (x - st.vmax - 1)) = Wn' at e1 e2
    have hm' : Maps st.vm Wo Wn' := fun x y hx' hy => by rw [e1 y (hi.vmR x y hx' hy).2]; exact hm x y hx' hy
    have e3 := hins hm'
    refine ⟨Wn', e1, ?_, ?_, ?_⟩
    · rw [g7 E S PF hPF Wn', e3, e2]; exact hV
    · rw [g3]
      intro x y hx' hy
      by_cases hxl : x < st.vm.length
      · rw [List.getElem?_append_left hxl] at hy; exact hm' x y hx' hy
      · rw [List.getElem?_append_right (by omega)] at hy
        have h1 := refVars_val Wn' hts
        rw [e3, e2, ← hys] at h1
        have h2 : (ts.map Wn')[x - st.vm.length]? = some (Wn' y) := by rw [List.getElem?_map, hy]; rfl
        have hj : x - st.vm.length < p.outs.length := by rw [← htl]; exact (List.getElem?_eq_some_iff.1 hy).1
        rw [h1, List.getElem?_map, range'_get hj, show st.vm.length + (x - st.vm.length) = x by omega] at h2
        exact (Option.some.inj h2).symm
    · have h1 := refVars_val Wn' hcs'
      rw [e3, e2] at h1
      exact h1
  refine ⟨new, { inv := hadd, pre := hspl.pre, poolOk := hspl.poolOk, vm := ?_, len := ?_, scc := ?_, insns := g6, nonrandom := ?_, nonempty := ?_, fwd0 := ?_, fwd1 := ?_, bwd := ?_ }⟩
  · show st'.vm ++ ts = _
    rw [g3]
  · show (st'.vm ++ ts).length = _
    rw [g3, List.length_append, htl]; rfl
  · show st'.scc ++ cs = _
    rw [g4]
  · intro hr
    have := hspl.nonrandom hr
    exact List.length_eq_zero_iff.1 (by omega)
  · intro hr d' xs' m hm hc
    simp only [List.mem_singleton, Verif.IR.Dest.Insn.call.injEq] at hm
    obtain ⟨rfl, rfl, rfl⟩ := hm
    have := hspl.nonempty hr hc
    intro e
    rw [e] at hcl
    simp at hcl; omega
  · intro S PF hPF hpo hs Wo Wn b hm h
    obtain ⟨b1, b2, h1, h2, rfl⟩ := h
    obtain ⟨V, v1, v2, v3⟩ := hspl.fwd0 S PF hPF hpo hs g5 _ _ b1 (by rw [List.length_map, hxl]) h1
    obtain ⟨Wn', w1, w2, w3, w4⟩ := hbuild hPF hm v1 v2
    refine ⟨Wn', w1, w2, w3, fun x hx' => ?_⟩
    have : Wn' x ∈ cs.map Wn' := List.mem_map.2 ⟨x, hx', rfl⟩
    rw [w4] at this
    obtain ⟨r, hr, e⟩ := List.mem_map.1 this
    rw [← e]; exact v3 r hr
  · intro S PF hPF hpo hs Wo Wn hm h
    obtain ⟨b1, b2, h1, h2, hb⟩ := h
    have hb2 : b2 = true := h2
    subst hb2
    rw [Bool.and_true] at hb
    subst hb
    obtain ⟨V, v1, v2, v3⟩ := hspl.fwd1 S PF hPF hpo hs g5 _ _ (by rw [List.length_map, hxl]) h1
    obtain ⟨Wn', w1, w2, w3, w4⟩ := hbuild hPF hm v1 v2
    exact ⟨Wn', w1, w2, w3, by rw [w4]; exact v3⟩
  · intro S PF hPF hpo hs Wo Wn hm h
    have hm : Maps (st'.vm ++ ts) Wo Wn := hm
    rw [g3] at hm
    have e3 := hins hm.left
    rw [g7 E S PF hPF Wn, e3] at h
    obtain ⟨b, b1, b2⟩ := hspl.bwd S PF hPF hpo hs g5 _ _ (by rw [List.length_map, hxl]) h
    refine ⟨b, ⟨b, true, ?_, rfl, by simp⟩, ?_⟩
    · show SB d (xs.map Wo) _ b
      have e4 : (List.range' st.vm.length p.outs.length).map Wo = ts.map Wn := by
        apply List.ext_getElem?
        intro j
        rw [List.getElem?_map, List.getElem?_map]
        by_cases hj : j < p.outs.length
        · have hj' : j < ts.length := by omega
          rw [range'_get hj, List.getElem?_eq_getElem hj']
          simp only [Option.map_some]
          rw [hm (st.vm.length + j) ts[j] (by omega) (by rw [List.getElem?_append_right (by omega), Nat.add_sub_cancel_left]; exact List.getElem?_eq_getElem hj')]
        · rw [List.getElem?_eq_none (by simp; omega), List.getElem?_eq_none (by omega)]; rfl
      rw [e4, refVars_val Wn hts, e3]; exact b1
    · intro hb x hx'
      have : Wn x ∈ cs.map Wn := List.mem_map.2 ⟨x, hx', rfl⟩
      rw [refVars_val Wn hcs', e3] at this
      obtain ⟨r, hr, e⟩ := List.mem_map.1 this
      rw [← e]; exact b2 hb r hr

/-- What is assumed about the original instructions. -/
structure InsnsIn (get : Nat → Option (Prog F)) (npi : Nat) (is : List (Verif.IR.Dest.Insn F)) : Prop where
  valid : ∀ i ∈ is, Verif.IR.Dest.Insn.valid npi i = true
  calls : ∀ d xs m, Verif.IR.Dest.Insn.call d xs m ∈ is → ∃ p, get d = some p ∧ xs.length = p.numInputs ∧ m = p.outs.length

/-- What is assumed about the recursive calls. -/
def RecOk (random : Bool) (get : Nat → Option (Prog F)) (npi : Nat) (E : Env F) (SB : Nat → List F → List F → Bool → Prop)
    (rec : Nat → List Nat → List (Prog F) → Option (Spl × List (Prog F))) : Prop :=
  ∀ d ils pool spl pool' p, get d = some p → ils.length = p.numInputs → PoolOk npi pool → rec d ils pool = some (spl, pool') → SplSpec random get npi E SB d p spl pool pool'

theorem expandStep_spec {layers : Nat → List Nat → Option (List Nat × List Nat)} {rec : Nat → List Nat → List (Prog F) → Option (Spl × List (Prog F))}
    (hrec : RecOk random get npi E SB rec) {i : Verif.IR.Dest.Insn F} {st st' : Exp F} {pool pool' : List (Prog F)} (hi : ExpInv npi n pool st) (hp : PoolOk npi pool)
    (ha : ∀ v ∈ argsOf i, 1 ≤ v ∧ v < st.vm.length) (hin : InsnsIn get npi [i]) (h : expandStep layers rec i st pool = some (st', pool')) :
    ∃ ts cs new, StepOk random get npi n E SB [i] st st' pool pool' ts cs new := by
  cases i with
  | constantLike c =>
    simp only [expandStep, Option.some.injEq, Prod.mk.injEq] at h
    obtain ⟨rfl, rfl⟩ := h
    refine ⟨_, _, _, stepOk_simple (j := .constantLike c) hi hp rfl rfl (by simp) (by simp) (by simp [argsOf]) (hin.valid _ (by simp)) (fun _ _ => rfl) ?_ ?_⟩
    · intro S Wo Wn hm he
      simp only [HoldsB, Holds, he]
      exact ⟨fun ⟨b, h, _⟩ => h, fun h => ⟨true, h, rfl⟩⟩
    · intro Wo b h; exact h.2
  | internal e =>
    simp only [expandStep, Option.some.injEq, Prod.mk.injEq] at h
    obtain ⟨rfl, rfl⟩ := h
    refine ⟨_, _, _, stepOk_simple (j := .internal (Expr.replaceVars e fun x => st.vm.getD x 0)) hi hp rfl rfl (by simp) (by simp) ?_ rfl (fun _ e => by cases e) ?_ ?_⟩
    · intro v hv
      rw [argsOf, Verif.IR.Expr.getVars_replace] at hv
      obtain ⟨x, hx, rfl⟩ := List.mem_map.1 hv
      exact hi.args_range (ha x hx).1 (ha x hx).2
    · intro S Wo Wn hm he
      simp only [HoldsB, Holds, he]
      rw [Verif.IR.Expr.sem_replace]
      have h1 : ∀ v ∈ Expr.getVars e, Wn (st.vm.getD v 0) = Wo v := fun v hv => hm.args (ha v hv).1 (ha v hv).2
      constructor
      · rintro ⟨b, h, -⟩; exact expr_congr (f := Wo) (g := fun v => Wn (st.vm.getD v 0)) (fun v hv => (h1 v hv).symm) h
      · intro h; exact ⟨true, expr_congr (f := fun v => Wn (st.vm.getD v 0)) (g := Wo) h1 h, rfl⟩
    · intro Wo b h; exact h.2
  | call d xs m =>
    simp only [expandStep] at h
    obtain ⟨p, hg, hxl, rfl⟩ := hin.calls d xs m (by simp)
    split at h
    · rename_i spl pool1 o cc hr hlay
      cases hseg : expandSegs pool1 (xs.map fun x => st.vm.getD x 0) st.vmax spl.segs st with
      | none => rw [hseg] at h; cases h
      | some st1 =>
        rw [hseg] at h
        dsimp only at h
        split at h
        · rename_i ts cs hts hcs
          split at h
          · simp only [Option.some.injEq, Prod.mk.injEq] at h
            obtain ⟨rfl, rfl⟩ := h
            obtain ⟨new, hnew⟩ := stepOk_call hi ha hxl (hrec d _ pool spl pool1 p hg (by simp [hxl]) hp hr) hseg hts hcs
            exact ⟨ts, cs, new, hnew⟩
          · cases h
        · cases h
    · cases h

theorem expand_spec {layers : Nat → List Nat → Option (List Nat × List Nat)} {rec : Nat → List Nat → List (Prog F) → Option (Spl × List (Prog F))}
    (hrec : RecOk random get npi E SB rec) : ∀ (is : List (Verif.IR.Dest.Insn F)) (st st' : Exp F) (pool pool' : List (Prog F)), ExpInv npi n pool st → PoolOk npi pool →
    ArgsOk is st.vm.length → InsnsIn get npi is → expand layers rec is st pool = some (st', pool') → ∃ ts cs new, StepOk random get npi n E SB is st st' pool pool' ts cs new := by
  intro is
  induction is with
  | nil =>
    intro st st' pool pool' hi hp _ _ h
    simp only [expand, Option.some.injEq, Prod.mk.injEq] at h
    obtain ⟨rfl, rfl⟩ := h
    exact ⟨_, _, _, stepOk_nil hi hp⟩
  | cons i is ih =>
    intro st st' pool pool' hi hp ha hin h
    rw [argsOk_cons] at ha
    simp only [expand] at h
    cases hs : expandStep layers rec i st pool with
    | none => rw [hs] at h; cases h
    | some r =>
      obtain ⟨st1, pool1⟩ := r
      rw [hs] at h
      dsimp only at h
      obtain ⟨ts, cs, new, h1⟩ := expandStep_spec hrec hi hp ha.1 ⟨fun j hj => hin.valid j (by simp at hj; simp [hj]), fun d xs m hm => hin.calls d xs m (by simp at hm; simp [hm])⟩ hs
      obtain ⟨ts', cs', new', h2⟩ := ih st1 st' pool1 pool' h1.inv h1.poolOk (by rw [h1.len]; exact ha.2) ⟨fun j hj => hin.valid j (by simp [hj]), fun d xs m hm => hin.calls d xs m (by simp [hm])⟩ h
      exact ⟨_, _, _, h1.append hi h2⟩

end

end Verif.Layering.Split
