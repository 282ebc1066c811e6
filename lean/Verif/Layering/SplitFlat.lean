import Verif.Layering.SplitExpand
import Verif.Layering.ScheduleAux

/-!
# Expansion together with the combined constraints (for `ir_split.rs`)
-/

set_option linter.unusedSectionVars false
set_option linter.unusedSimpArgs false

namespace Verif.Layering.Split

open Verif.IR (Expr Coef Env dest Circuit RootCircuit WFGet CallsOk Calls CircOk InsnsOk numVars Run EvalSub readAll checkCons Constraint Term VarSpec)
open Verif.Layering

variable {F : Type} [Field F] [DecidableEq F]

/-- Evaluation of an original circuit. -/
def Old (E : Env F) (SB : Nat → List F → List F → Bool → Prop) (p : Prog F) (ins ys : List F) (b : Bool) : Prop :=
  ∃ W sb, InputsAre W ins ∧ HoldsAllB E SB W p.insns (p.numInputs + 1) sb ∧ ys = p.outs.map W ∧ b = (sb && p.cons.all fun x => decide (W x = 0))

/-- What is assumed about an original circuit. -/
structure ProgIn (random : Bool) (get : Nat → Option (Prog F)) (npi : Nat) (p : Prog F) : Prop where
  prog : RProgOk p
  insns : InsnsIn get npi p.insns
  char : random = true → ∀ k : Nat, 0 < k → k ≤ p.cons.length → (k : F) ≠ 0
  none : random = false → p.cons = []

/-- The circuit, or a circuit it calls, has a constraint. -/
def HasCons (get : Nat → Option (Prog F)) (p : Prog F) : Prop := p.cons ≠ [] ∨ ∃ d xs m, Verif.IR.Dest.Insn.call d xs m ∈ p.insns ∧ HasC get d

structure FlatOk (random root : Bool) (get : Nat → Option (Prog F)) (npi : Nat) (E : Env F) (SB : Nat → List F → List F → Bool → Prop) (p : Prog F) (fl : Flat F)
    (pool pool' : List (Prog F)) : Prop where
  pre : pool <+: pool'
  poolOk : PoolOk npi pool'
  lay : LayOk fl.ls fl.insns (p.numInputs + 1)
  valid : ∀ i ∈ fl.insns, Verif.IR.Dest.Insn.valid npi i = true
  args : ArgsOk fl.insns (p.numInputs + 1)
  calls : CallsIn pool' pool'.length fl.insns
  lenOuts : fl.outs.length = p.outs.length
  outsR : ∀ x ∈ fl.adds ++ fl.outs, 1 ≤ x ∧ x < endOf fl.insns (p.numInputs + 1)
  nonrandom : random = false → fl.adds = []
  nonempty : random = true → HasCons get p → fl.adds ≠ []
  rootLen : root = true → fl.adds.length ≤ 1
  fwd0 : ∀ S PF, pool' <+: PF → PoolOk npi PF → SubSem E S PF → ∀ ins ys b, ins.length = p.numInputs → Old E SB p ins ys b →
    ∃ W, InputsAre W ins ∧ HoldsAll E S W fl.insns (p.numInputs + 1) ∧ ys = fl.outs.map W ∧ ∀ x ∈ fl.adds, W x = 0
  fwd1 : ∀ S PF, pool' <+: PF → PoolOk npi PF → SubSem E S PF → ∀ ins ys, ins.length = p.numInputs → Old E SB p ins ys false →
    ∃ W, InputsAre W ins ∧ HoldsAll E S W fl.insns (p.numInputs + 1) ∧ ys = fl.outs.map W ∧ One (fl.adds.map W)
  bwd : ∀ S PF, pool' <+: PF → PoolOk npi PF → SubSem E S PF → ∀ ins W, ins.length = p.numInputs → InputsAre W ins → HoldsAll E S W fl.insns (p.numInputs + 1) →
    ∃ b, Old E SB p ins (fl.outs.map W) b ∧ (b = true → ∀ x ∈ fl.adds, W x = 0)

theorem init_inv {npi n : Nat} {pool : List (Prog F)} {ils : List Nat} (h : ils.length = n) : ExpInv npi n pool (Exp.init n ils) where
  lsLen := by simp [Exp.init, h]
  fin := rfl
  vmIn := fun x hx => by simp only [Exp.init]; rw [List.getElem?_range (by omega)]
  vmR := fun x y hx hy => by
    simp only [Exp.init] at hy ⊢
    have := (List.getElem?_eq_some_iff.1 hy).1
    simp only [List.length_range] at this
    rw [List.getElem?_range (by omega)] at hy
    cases hy; omega
  args := trivial
  lay := fun p hp => by cases hp
  valid := fun i hi => by cases hi
  calls := fun d xs m hm => by cases hm
  sccR := fun x hx => by cases hx

theorem LayOk.cc : ∀ (en : List (Nat × List (Term F))) {ls : List Nat} {is : List (Verif.IR.Dest.Insn F)} {n : Nat}, LayOk ls is n → endOf is n = ls.length →
    LayOk (ls ++ en.map (·.1 + 1)) (is ++ ccInsns en) n := by
  intro en
  induction en with
  | nil => intro ls is n h _; simpa [ccInsns] using h
  | cons e en ih =>
    intro ls is n h he
    have h1 := h.snoc (i := .internal (Expr.fromTerms e.2)) (l := e.1 + 1) he (by intro _ h; cases h)
    have h2 := ih h1 (by rw [endOf_append, he]; simp [endOf, nOut])
    have e1 : is ++ [.internal (Expr.fromTerms e.2)] ++ ccInsns en = is ++ ccInsns (e :: en) := by simp [ccInsns]
    have e2 : ls ++ List.replicate (nOut (.internal (Expr.fromTerms e.2) : Verif.IR.Dest.Insn F)) (e.1 + 1) ++ en.map (·.1 + 1) = ls ++ (e :: en).map (·.1 + 1) := by simp [nOut]
    rw [e1, e2] at h2
    exact h2

theorem sum_single {L : List Nat} (hn : L.Nodup) {i0 : Nat} (hi : i0 ∈ L) (c : F) : (L.map fun i => if i = i0 then c else 0).sum = c := by
  induction L with
  | nil => cases hi
  | cons a L ih =>
    rw [List.map_cons, List.sum_cons]
    rw [List.nodup_cons] at hn
    rcases List.mem_cons.1 hi with rfl | h
    · rw [if_pos rfl]
      have : (L.map fun i => if i = i0 then c else 0).sum = 0 := by
        apply List.sum_eq_zero
        intro y hy
        obtain ⟨i, hi', rfl⟩ := List.mem_map.1 hy
        rw [if_neg]; rintro rfl; exact hn.1 hi'
      rw [this, add_zero]
    · rw [if_neg (by rintro rfl; exact hn.1 h), zero_add, ih hn.2 h]

section
variable {random root : Bool} {get : Nat → Option (Prog F)} {npi : Nat} {E : Env F} {SB : Nat → List F → List F → Bool → Prop}

/-- What the added instructions do: with the sums `scc` and the constraints `cons`. -/
structure CcOk (E : Env F) (scc cons : List Nat) (base : Nat) (en : List (Nat × List (Term F))) (adds : List Nat) : Prop where
  fwd0 : ∀ (S : Nat → List F → List F → Prop) (W : Nat → F), (∀ x ∈ scc, W x = 0) → ∃ W', (∀ x, x < base → W' x = W x) ∧ HoldsAll E S W' (ccInsns en) base ∧ ∀ x ∈ adds, W' x = 0
  fwd1 : ∀ (S : Nat → List F → List F → Prop) (W : Nat → F), (One (scc.map W) ∨ ((∀ x ∈ scc, W x = 0) ∧ ∃ v ∈ cons, W v ≠ 0)) →
    ∃ W', (∀ x, x < base → W' x = W x) ∧ HoldsAll E S W' (ccInsns en) base ∧ One (adds.map W')
  bwd : ∀ (S : Nat → List F → List F → Prop) (W : Nat → F), (∀ x ∈ scc, W x = 0) → (∀ x ∈ cons, W x = 0) → HoldsAll E S W (ccInsns en) base → ∀ x ∈ adds, W x = 0

theorem lastOk_none (base nv : Nat) : LastOk (F := F) base nv none := by intro y lt h; cases h

theorem ccOk_sub {scc cons : List Nat} {lay : Nat → Nat} {base : Nat} (hs : ∀ x ∈ scc, 1 ≤ x ∧ x < base) (hc : ∀ x ∈ cons, 1 ≤ x ∧ x < base)
    (hchar : ∀ k : Nat, 0 < k → k ≤ cons.length → (k : F) ≠ 0) {L : List Nat} (hL : L.Nodup) (hLm : ∀ x ∈ scc ++ cons, lay x ∈ L) :
    CcOk E scc cons base (ccLoop false scc cons lay L base none) (List.range' base (ccLoop (F := F) false scc cons lay L base none).length) := by
  rw [ccLoop_sub hs hc L base none (le_refl _) (lastOk_none _ _)]
  rw [List.length_map]
  have hput : ∀ (W f : Nat → F), (List.range' base (ccLayers (F := F) scc cons lay L).length).map (put W base ((ccLayers (F := F) scc cons lay L).map f)) = (ccLayers (F := F) scc cons lay L).map f := by
    intro W f
    have := put_map W base ((ccLayers (F := F) scc cons lay L).map f)
    rwa [List.length_map] at this
  refine ⟨?_, ?_, ?_⟩
  · intro S W h0
    refine ⟨put W base ((ccLayers (F := F) scc cons lay L).map fun _ => 0), fun x hx => put_out (Or.inl hx), sub_fwd hs hc (fun i => vals_zero lay h0 i) _, ?_⟩
    intro x hx
    have : put W base ((ccLayers (F := F) scc cons lay L).map fun _ => 0) x ∈ (List.range' base (ccLayers (F := F) scc cons lay L).length).map (put W base ((ccLayers (F := F) scc cons lay L).map fun _ => 0)) :=
      List.mem_map.2 ⟨x, hx, rfl⟩
    rw [hput] at this
    obtain ⟨_, _, e⟩ := List.mem_map.1 this
    exact e.symm
  · intro S W h
    obtain ⟨x, hx, c, hc0, hv⟩ := vals_one lay hchar h
    refine ⟨put W base ((ccLayers (F := F) scc cons lay L).map fun i => if i = lay x then c else 0), fun x hx => put_out (Or.inl hx), sub_fwd hs hc hv _, ?_⟩
    rw [hput]
    exact one_layers (hL.filter _) (mem_ccLayers hx (hLm x hx)) hc0
  · intro S W h1 h2 h x hx
    have := List.mem_range'_1.1 hx
    rw [show x = base + (x - base) by omega]
    exact sub_bwd h1 h2 h _ (by omega)

theorem getLast_range' {base m : Nat} : (List.range' base (m + 1)).getLast? = some (base + m) := by
  rw [List.getLast?_eq_getElem?, List.length_range', Nat.add_sub_cancel, range'_get (by omega)]

theorem ccOk_root {scc cons : List Nat} {lay : Nat → Nat} {base : Nat} (hb : 1 ≤ base) (hs : ∀ x ∈ scc, 1 ≤ x ∧ x < base) (hc : ∀ x ∈ cons, 1 ≤ x ∧ x < base)
    (hchar : ∀ k : Nat, 0 < k → k ≤ cons.length → (k : F) ≠ 0) {L : List Nat} (hL : L.Nodup) (hLm : ∀ x ∈ scc ++ cons, lay x ∈ L) :
    CcOk E scc cons base (ccLoop true scc cons lay L base none) ((List.range' base (ccLoop (F := F) true scc cons lay L base none).length).getLast?).toList := by
  have hmem : ∀ x, x ∈ ((List.range' base (ccLoop (F := F) true scc cons lay L base none).length).getLast?).toList →
      ∃ k, (ccLoop (F := F) true scc cons lay L base none).length = k + 1 ∧ x = base + k := by
    intro x hx
    cases hk : (ccLoop (F := F) true scc cons lay L base none).length with
    | zero => rw [hk] at hx; simp at hx
    | succ k => rw [hk, getLast_range'] at hx; simp at hx; exact ⟨k, rfl, hx⟩
  refine ⟨?_, ?_, ?_⟩
  · intro S W h0
    obtain ⟨W', w1, w2, w3⟩ := root_fwd (E := E) (S := S) (f := fun _ => 0) hb hs hc L base none W (le_refl _) (lastOk_none _ _) (by intro y lt h; cases h) (fun i => vals_zero lay h0 i)
    refine ⟨W', w1, w2, ?_⟩
    intro x hx
    obtain ⟨k, hk, rfl⟩ := hmem x hx
    rw [w3 k hk]
    simp [lastVal]
  · intro S W h
    obtain ⟨x, hx, c, hc0, hv⟩ := vals_one lay hchar h
    obtain ⟨W', w1, w2, w3⟩ := root_fwd (E := E) (S := S) hb hs hc L base none W (le_refl _) (lastOk_none _ _) (by intro y lt h; cases h) hv
    refine ⟨W', w1, w2, ?_⟩
    have hne := root_nonempty (F := F) (root := true) hx (hLm x hx) base none
    cases hk : (ccLoop (F := F) true scc cons lay L base none).length with
    | zero => exact absurd (List.length_eq_zero_iff.1 hk) hne
    | succ k =>
      rw [getLast_range']
      refine ⟨[], W' (base + k), [], rfl, ?_, by simp, by simp⟩
      rw [w3 k hk, lastVal, zero_add, sum_single hL (hLm x hx)]
      exact hc0
  · intro S W h1 h2 h x hx
    obtain ⟨k, hk, rfl⟩ := hmem x hx
    exact root_bwd h1 h2 L base none (by intro y lt h; cases h) h k (by omega)

theorem flatten_spec {layers : Nat → List Nat → Option (List Nat × List Nat)} {rec : Nat → List Nat → List (Prog F) → Option (Spl × List (Prog F))}
    (hrec : RecOk random get npi E SB rec) {p : Prog F} (hpi : ProgIn random get npi p) {ils : List Nat} (hil : ils.length = p.numInputs) {pool pool' : List (Prog F)} (hp : PoolOk npi pool)
    {fl : Flat F} (h : flatten random root layers rec p ils pool = some (fl, pool')) : FlatOk random root get npi E SB p fl pool pool' := by
  unfold flatten at h
  cases hex : expand layers rec p.insns (Exp.init p.numInputs ils) pool with
  | none => rw [hex] at h; cases h
  | some r =>
    obtain ⟨st, pool1⟩ := r
    rw [hex] at h
    dsimp only at h
    have hvml : (Exp.init (F := F) p.numInputs ils).vm.length = p.numInputs + 1 := by simp [Exp.init]
    obtain ⟨ts, cs, new, hst⟩ := expand_spec hrec p.insns _ _ _ _ (init_inv hil) hp (by rw [hvml]; exact hpi.prog.args) hpi.insns hex
    have hscc : st.scc = cs := by rw [hst.scc]; simp [Exp.init]
    have hins : st.insns = new := by rw [hst.insns]; simp [Exp.init]
    have hlen : st.vm.length = endOf p.insns (p.numInputs + 1) := by rw [hst.len, hvml]
    have hinit : (Exp.init (F := F) p.numInputs ils).vmax + 1 = p.numInputs + 1 := rfl
    have hn : p.numInputs ≤ st.vmax := by
      have h1 := hst.inv.fin
      have h2 := le_endOf st.insns (p.numInputs + 1)
      omega
    -- the parts of the circuit before the combinations
    have hvmR : ∀ x, 1 ≤ x → x < endOf p.insns (p.numInputs + 1) → 1 ≤ st.vm.getD x 0 ∧ st.vm.getD x 0 < st.vmax + 1 := by
      intro x h1 h2
      have := hst.inv.args_range h1 (by rw [hlen]; exact h2)
      omega
    have hconsR : ∀ x ∈ p.cons.map (fun x => st.vm.getD x 0), 1 ≤ x ∧ x < st.vmax + 1 := by
      intro y hy
      obtain ⟨x, hx, rfl⟩ := List.mem_map.1 hy
      exact hvmR x (hpi.prog.cons x hx).1 (hpi.prog.cons x hx).2
    have hsccR : ∀ x ∈ st.scc, 1 ≤ x ∧ x < st.vmax + 1 := by
      intro x hx
      have := hst.inv.sccR x hx
      omega
    generalize hcons : p.cons.map (fun x => st.vm.getD x 0) = cons at h hconsR
    have hLm : ∀ x ∈ st.scc ++ cons, layAt st.ls x ∈ List.range (maxOf st.ls + 10) := by
      intro x _
      have : layAt st.ls x ≤ maxOf st.ls := getD_le_maxOf st.ls x
      rw [List.mem_range]; omega
    have hcl : cons.length = p.cons.length := by rw [← hcons, List.length_map]
    generalize hen : (if random = true then ccLoop root st.scc cons (layAt st.ls) (List.range (maxOf st.ls + 10)) (st.vmax + 1) none else ([] : List (Nat × List (Term F)))) = en at h
    generalize hadds : (if root = true then ((List.range' (st.vmax + 1) en.length).getLast?).toList else List.range' (st.vmax + 1) en.length) = adds at h
    simp only [Option.some.injEq, Prod.mk.injEq] at h
    obtain ⟨rfl, rfl⟩ := h
    have hargs : ArgsOk (ccInsns en) (st.vmax + 1) := by
      cases random with
      | false => simp only [Bool.false_eq_true, if_false] at hen; subst hen; trivial
      | true =>
        simp only [if_true] at hen; subst hen
        exact cc_args (by omega) hsccR hconsR _ _ _ (le_refl _) (lastOk_none _ _)
    have hfin : endOf (st.insns ++ ccInsns en) (p.numInputs + 1) = st.vmax + 1 + en.length := by
      rw [endOf_append, hst.inv.fin, endOf_ccInsns]
    have haddsR : ∀ x ∈ adds, 1 ≤ x ∧ x < st.vmax + 1 + en.length := by
      intro x hx
      rw [← hadds] at hx
      have hx' : x ∈ List.range' (st.vmax + 1) en.length := by
        cases root with
        | false => simpa using hx
        | true =>
          simp only [if_true, Option.mem_toList] at hx
          exact List.mem_of_getLast? hx
      have := List.mem_range'_1.1 hx'
      omega
    -- the combinations
    have hcc : (random = true → CcOk E st.scc cons (st.vmax + 1) en adds) := by
      intro hr
      subst hr
      simp only [if_true] at hen
      have hchar : ∀ k : Nat, 0 < k → k ≤ cons.length → (k : F) ≠ 0 := by rw [hcl]; exact hpi.char rfl
      cases root with
      | false => simp only [Bool.false_eq_true, if_false] at hadds; subst hadds; subst hen; exact ccOk_sub hsccR hconsR hchar List.nodup_range hLm
      | true => simp only [if_true] at hadds; subst hadds; subst hen; exact ccOk_root (by omega) hsccR hconsR hchar List.nodup_range hLm
    have hnon : random = false → st.scc = [] ∧ cons = [] ∧ en = [] ∧ adds = [] := by
      intro hr
      have hc0 := hpi.none hr
      subst hr
      simp only [Bool.false_eq_true, if_false] at hen
      subst hen
      refine ⟨by rw [hscc]; exact hst.nonrandom rfl, by rw [← hcons, hc0]; rfl, rfl, ?_⟩
      rw [← hadds]; cases root <;> simp
    have houtsMap : ∀ {Wo Wn : Nat → F}, Maps st.vm Wo Wn → (p.outs.map fun x => st.vm.getD x 0).map Wn = p.outs.map Wo := by
      intro Wo Wn hm
      rw [List.map_map]
      exact map_congr_mem fun x hx => hm.args (hpi.prog.outs x hx).1 (by rw [hlen]; exact (hpi.prog.outs x hx).2)
    have hconsAll : ∀ {Wo Wn : Nat → F}, Maps st.vm Wo Wn → ((∀ x ∈ cons, Wn x = 0) ↔ (p.cons.all fun x => decide (Wo x = 0)) = true) := by
      intro Wo Wn hm
      rw [List.all_eq_true, ← hcons]
      simp only [decide_eq_true_eq, List.mem_map, forall_exists_index, and_imp, forall_apply_eq_imp_iff₂]
      refine forall_congr' fun x => forall_congr' fun hx => ?_
      rw [hm.args (hpi.prog.cons x hx).1 (by rw [hlen]; exact (hpi.prog.cons x hx).2)]
    have hinputs : ∀ {ins : List F} {Wo Wn : Nat → F}, ins.length = p.numInputs → (∀ x, x ≤ p.numInputs → Wn x = Wo x) → InputsAre Wo ins → InputsAre Wn ins := by
      intro ins Wo Wn hl he hi i v hv
      rw [he (i + 1) (by have := (List.getElem?_eq_some_iff.1 hv).1; omega)]; exact hi i v hv
    have hmaps0 : ∀ W : Nat → F, Maps (Exp.init (F := F) p.numInputs ils).vm W W := by
      intro W x y hx hy
      simp only [Exp.init] at hy
      have := (List.getElem?_eq_some_iff.1 hy).1
      simp only [List.length_range] at this
      rw [List.getElem?_range (by omega)] at hy
      cases hy; rfl
    have houtsR : ∀ x ∈ p.outs.map (fun x => st.vm.getD x 0), 1 ≤ x ∧ x < st.vmax + 1 := by
      intro y hy
      obtain ⟨x, hx, rfl⟩ := List.mem_map.1 hy
      exact hvmR x (hpi.prog.outs x hx).1 (hpi.prog.outs x hx).2
    -- continue an assignment of the expanded instructions
    have hcont : ∀ {S : Nat → List F → List F → Prop} {Wo Wn W' : Nat → F} {ins : List F}, ins.length = p.numInputs → InputsAre Wo ins → (∀ x, x ≤ p.numInputs → Wn x = Wo x) →
        HoldsAll E S Wn new (p.numInputs + 1) → Maps st.vm Wo Wn → (∀ x, x < st.vmax + 1 → W' x = Wn x) → HoldsAll E S W' (ccInsns en) (st.vmax + 1) →
        InputsAre W' ins ∧ HoldsAll E S W' (st.insns ++ ccInsns en) (p.numInputs + 1) ∧ p.outs.map Wo = (p.outs.map fun x => st.vm.getD x 0).map W' := by
      intro S Wo Wn W' ins hl hi he hh hm hw hcc'
      refine ⟨hinputs hl (fun x hx => by rw [hw x (by omega), he x hx]) hi, holdsAll_append.2 ⟨?_, by rw [hst.inv.fin]; exact hcc'⟩, ?_⟩
      · rw [hins]
        refine hh.congr (by rw [← hins]; exact hst.inv.args) (fun v _ hv => (hw v ?_).symm) (by omega)
        rw [← hst.inv.fin, hins]; exact hv
      · rw [map_congr_mem (f := W') (g := Wn) fun x hx => hw x (houtsR x hx).2, houtsMap hm]
    refine { pre := hst.pre, poolOk := hst.poolOk, lay := hst.inv.lay.cc en (by rw [hst.inv.fin, hst.inv.lsLen]), valid := ?_, args := ?_, calls := ?_, lenOuts := by simp, outsR := ?_,
             nonrandom := fun hr => (hnon hr).2.2.2, nonempty := ?_, rootLen := ?_, fwd0 := ?_, fwd1 := ?_, bwd := ?_ }
    · intro i hi
      rcases List.mem_append.1 hi with hi | hi
      · exact hst.inv.valid i hi
      · obtain ⟨e, -, rfl⟩ := List.mem_map.1 hi; rfl
    · show ArgsOk (st.insns ++ ccInsns en) _
      rw [argsOk_append, hst.inv.fin]; exact ⟨hst.inv.args, hargs⟩
    · intro d xs m hm
      rcases List.mem_append.1 hm with hm | hm
      · exact hst.inv.calls d xs m hm
      · obtain ⟨e, -, e'⟩ := List.mem_map.1 hm; cases e'
    · intro x hx
      show 1 ≤ x ∧ x < endOf (st.insns ++ ccInsns en) _
      rw [hfin]
      rcases List.mem_append.1 hx with hx | hx
      · exact haddsR x hx
      · have := houtsR x hx; omega
    · intro hr hhas
      have hx : ∃ x, x ∈ st.scc ++ cons := by
        rcases hhas with h | ⟨d, xs, m, hm, hc⟩
        · have : cons ≠ [] := by rw [← hcons]; simpa using h
          obtain ⟨x, hx⟩ := List.exists_mem_of_ne_nil _ this
          exact ⟨x, by simp [hx]⟩
        · have := hst.nonempty hr d xs m hm hc
          obtain ⟨x, hx⟩ := List.exists_mem_of_ne_nil _ this
          exact ⟨x, by rw [hscc]; simp [hx]⟩
      obtain ⟨x, hx⟩ := hx
      have hne := root_nonempty (F := F) (root := root) hx (hLm x hx) (st.vmax + 1) none
      rw [hr, if_pos rfl] at hen
      rw [hen] at hne
      cases hk : en.length with
      | zero => exact absurd (List.length_eq_zero_iff.1 hk) hne
      | succ k =>
        show adds ≠ []
        rw [← hadds, hk, getLast_range']
        cases root <;> simp [List.range'_succ]
    · intro hr
      show adds.length ≤ 1
      rw [← hadds, hr, if_pos rfl]
      cases (List.range' (st.vmax + 1) en.length).getLast? <;> simp
    · intro S PF hPF hpo hs ins ys b hl hold
      obtain ⟨Wo, sb, hi, hh, rfl, rfl⟩ := hold
      obtain ⟨Wn, w1, w2, w3, w4⟩ := hst.fwd0 S PF hPF hpo hs Wo Wo sb (hmaps0 Wo) (by rw [hvml]; exact hh)
      rw [hinit] at w2
      cases random with
      | false =>
        obtain ⟨n1, n2, n3, n4⟩ := hnon rfl
        obtain ⟨c1, c2, c3⟩ := hcont hl hi w1 w2 w3 (fun _ _ => rfl) (by rw [n3]; trivial)
        exact ⟨Wn, c1, c2, c3, fun x hx => by simp only [n4] at hx; cases hx⟩
      | true =>
        obtain ⟨W', v1, v2, v3⟩ := (hcc rfl).fwd0 S Wn (by rw [hscc]; exact w4)
        obtain ⟨c1, c2, c3⟩ := hcont hl hi w1 w2 w3 v1 v2
        exact ⟨W', c1, c2, c3, v3⟩
    · intro S PF hPF hpo hs ins ys hl hold
      obtain ⟨Wo, sb, hi, hh, rfl, hb⟩ := hold
      have hwn : ∃ Wn, (∀ x, x ≤ p.numInputs → Wn x = Wo x) ∧ HoldsAll E S Wn new (p.numInputs + 1) ∧ Maps st.vm Wo Wn ∧ (One (cs.map Wn) ∨ ((∀ x ∈ cs, Wn x = 0) ∧ ∃ v ∈ cons, Wn v ≠ 0)) := by
        cases sb with
        | false =>
          obtain ⟨Wn, w1, w2, w3, w4⟩ := hst.fwd1 S PF hPF hpo hs Wo Wo (hmaps0 Wo) (by rw [hvml]; exact hh)
          exact ⟨Wn, w1, w2, w3, Or.inl w4⟩
        | true =>
          obtain ⟨Wn, w1, w2, w3, w4⟩ := hst.fwd0 S PF hPF hpo hs Wo Wo true (hmaps0 Wo) (by rw [hvml]; exact hh)
          refine ⟨Wn, w1, w2, w3, Or.inr ⟨w4, ?_⟩⟩
          by_contra hno
          push Not at hno
          rw [(hconsAll w3).1 hno] at hb
          cases hb
      obtain ⟨Wn, w1, w2, w3, w4⟩ := hwn
      cases random with
      | false =>
        exfalso
        obtain ⟨n1, n2, n3, n4⟩ := hnon rfl
        rw [← hscc, n1, n2] at w4
        rcases w4 with ⟨a, y, b, h, _⟩ | ⟨-, v, hv, -⟩
        · simp at h
        · cases hv
      | true =>
        obtain ⟨W', v1, v2, v3⟩ := (hcc rfl).fwd1 S Wn (by rw [hscc]; exact w4)
        obtain ⟨c1, c2, c3⟩ := hcont hl hi w1 w2 w3 v1 v2
        exact ⟨W', c1, c2, c3, v3⟩
    · intro S PF hPF hpo hs ins W hl hi hh
      obtain ⟨h1, h2⟩ := holdsAll_append.1 (show HoldsAll E S W (st.insns ++ ccInsns en) _ from hh)
      rw [hst.inv.fin] at h2
      rw [hins] at h1
      have hm : Maps st.vm (fun x => W (st.vm.getD x 0)) W := by
        intro x y _ hy
        simp only [getD_of hy]
      obtain ⟨sb, g1, g2⟩ := hst.bwd S PF hPF hpo hs _ W hm h1
      rw [hvml] at g1
      refine ⟨_, ⟨_, sb, hinputs hl (Wo := W) (fun x hx => by simp only [getD_of (hst.inv.vmIn x hx)]) hi, g1, houtsMap hm, rfl⟩, ?_⟩
      intro hb x hx
      obtain ⟨rfl, hb2⟩ := Bool.and_eq_true_iff.1 hb
      cases random with
      | false => simp only [(hnon rfl).2.2.2] at hx; cases hx
      | true => exact (hcc rfl).bwd S W (by rw [hscc]; exact g2 rfl) ((hconsAll hm).2 hb2) h2 x hx

end

end Verif.Layering.Split
