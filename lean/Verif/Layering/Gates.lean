import Verif.Layering.CtxOk

/-!
# What the generated gates compute
-/

set_option linter.unusedSectionVars false
set_option linter.unusedSimpArgs false

namespace Verif.Layering

open Verif.IR (Expr Coef Term VarSpec Env)
open Verif.Layered (Segment Gate Input Alloc LEnv den opSet opsSet shiftOut Op specOps readInput childIn CoefVal gateVal)
open scoped Pointwise

variable {F : Type} [Field F] [DecidableEq F]

/-- The layered environment interprets constants and custom gates as the IR environment does. -/
structure EnvOk (E : Env F) (V : LEnv F F) : Prop where
  const : ∀ x, V.const x = x
  custom : ∀ g xs, V.custom g xs = E.custom g xs

theorem single_zero (p : Nat) : single p (0 : F) = 0 := by funext i; simp [single]

theorem single_add (p : Nat) (a b : F) : single p (a + b) = single p a + single p b := by
  funext i; simp only [single, Pi.add_apply]; split <;> simp

theorem gateSet_of {V : LEnv F F} {segs : List (Segment F)} {rec : Segment F → Nat → List (List F) → Set (Nat → F)} {n : Nat} {cur : List (List F)}
    {g : Gate F} {vs : List F} (h : mapOpt (readInput cur) g.inputs = some vs) (hn : g.output < n) :
    opSet V segs rec n cur (.gate g) = {t | ∃ c, CoefVal V g.coef c ∧ t = single g.output (gateVal V g vs * c)} := by
  ext t
  simp only [opSet, Set.mem_setOf_eq, h]
  constructor
  · rintro ⟨vs', c, e, hc, _, rfl⟩; cases e; exact ⟨c, hc, rfl⟩
  · rintro ⟨c, hc, rfl⟩; exact ⟨vs, c, rfl, hc, hn, rfl⟩

section
variable {E : Env F} {V : LEnv F F} {segs : List (Segment F)} {rec : Segment F → Nat → List (List F) → Set (Nat → F)} {n : Nat} {cur : List (List F)}

theorem termGate_set (hV : EnvOk E V) {aq : Nat → Option Nat} {val : Nat → F} (hr : ∀ v a, aq v = some a → readInput cur ⟨0, a⟩ = some (val v))
    {pos : Nat} (hp : pos < n) {t : Term F} {g : Gate F} (hg : termGate aq pos t = some g) :
    opSet V segs rec n cur (.gate g) = {f | ∃ y, t.Sem E (fun v => some (val v)) y ∧ f = single pos y} ∧ (g.typ = none → g.inputs.length ≤ 2) := by
  obtain ⟨coef, vars⟩ := t
  cases vars with
  | const =>
    simp [termGate] at hg; subst hg
    refine ⟨?_, by simp⟩
    rw [gateSet_of (vs := []) rfl hp]
    ext f; simp [CoefVal, gateVal, Term.Sem, VarSpec.Sem, hV.const]
  | linear v =>
    simp only [termGate, Option.map_eq_some_iff] at hg
    obtain ⟨a, ha, rfl⟩ := hg
    refine ⟨?_, by simp⟩
    rw [gateSet_of (vs := [val v]) (by simp [mapOpt, hr v a ha]) hp]
    ext f; simp [CoefVal, gateVal, Term.Sem, VarSpec.Sem, hV.const]
  | quad v w =>
    simp only [termGate] at hg
    cases ha : aq v with
    | none => simp [ha] at hg
    | some a =>
      cases hb : aq w with
      | none => simp [ha, hb] at hg
      | some b =>
        simp only [ha, hb, Option.some.injEq] at hg; subst hg
        by_cases hab : a < b
        · refine ⟨?_, by simp [hab]⟩
          rw [gateSet_of (vs := [val v, val w]) (by simp [mapOpt, hr v a ha, hr w b hb, hab]) hp]
          ext f; simp [CoefVal, gateVal, Term.Sem, VarSpec.Sem, hV.const]
        · refine ⟨?_, by simp [hab]⟩
          rw [gateSet_of (vs := [val w, val v]) (by simp [mapOpt, hr v a ha, hr w b hb, hab]) hp]
          ext f; simp [CoefVal, gateVal, Term.Sem, VarSpec.Sem, hV.const, mul_comm (val w) (val v)]
  | custom k xs =>
    simp only [termGate, Option.map_eq_some_iff] at hg
    obtain ⟨as, ha, rfl⟩ := hg
    refine ⟨?_, by simp⟩
    have h1 : mapOpt (readInput cur) (as.map fun a => (⟨0, a⟩ : Input)) = some (xs.map val) := by
      rw [mapOpt_map]
      clear hp
      induction xs generalizing as with
      | nil => simp [mapOpt] at ha; subst ha; rfl
      | cons x xs ih =>
        obtain ⟨a, as', h1, h2, rfl⟩ := mapOpt_cons.1 ha
        simp [mapOpt, hr x a h1, ih as' h2]
    have h2 : mapOpt (fun v => some (val v)) xs = some (xs.map val) := by
      clear ha h1
      induction xs with
      | nil => rfl
      | cons x xs ih => simp [mapOpt, ih]
    rw [gateSet_of (vs := xs.map val) h1 hp]
    ext f; simp [CoefVal, gateVal, Term.Sem, VarSpec.Sem, hV.const, hV.custom, h2]
  | randomLinear v =>
    simp only [termGate, Option.map_eq_some_iff] at hg
    obtain ⟨a, ha, rfl⟩ := hg
    refine ⟨?_, by simp⟩
    rw [gateSet_of (vs := [val v]) (by simp [mapOpt, hr v a ha]) hp]
    ext f; simp only [CoefVal, gateVal, Term.Sem, VarSpec.Sem, Set.mem_setOf_eq, true_and, List.prod_cons, List.prod_nil, mul_one, Option.some.injEq]
    constructor
    · rintro ⟨r, rfl⟩; exact ⟨_, ⟨_, r, rfl, rfl⟩, rfl⟩
    · rintro ⟨_, ⟨_, r, rfl, rfl⟩, rfl⟩; exact ⟨r, rfl⟩

theorem exprGates_set (hV : EnvOk E V) {aq : Nat → Option Nat} {val : Nat → F} (hr : ∀ v a, aq v = some a → readInput cur ⟨0, a⟩ = some (val v))
    {pos : Nat} (hp : pos < n) : ∀ {e : Expr F} {gs : List (Gate F)}, mapOpt (termGate aq pos) e = some gs →
    (gs.map fun g => opSet V segs rec n cur (.gate g)).sum = {f | ∃ y, Expr.Sem E (fun v => some (val v)) e y ∧ f = single pos y} ∧
      ∀ g ∈ gs, g.typ = none → g.inputs.length ≤ 2 := by
  intro e
  induction e with
  | nil =>
    intro gs h; simp [mapOpt] at h; subst h
    refine ⟨?_, by simp⟩
    ext f; simp [Expr.Sem, single_zero]
  | cons t e ih =>
    intro gs h
    obtain ⟨g, gs', h1, h2, rfl⟩ := mapOpt_cons.1 h
    obtain ⟨a1, a2⟩ := termGate_set (segs := segs) (rec := rec) hV hr hp h1
    obtain ⟨b1, b2⟩ := ih h2
    refine ⟨?_, ?_⟩
    · rw [List.map_cons, List.sum_cons, a1, b1]
      ext f
      simp only [Set.mem_add, Set.mem_setOf_eq, Expr.Sem]
      constructor
      · rintro ⟨_, ⟨y, hy, rfl⟩, _, ⟨z, hz, rfl⟩, rfl⟩
        exact ⟨y + z, ⟨y, z, hy, hz, rfl⟩, (single_add _ _ _).symm⟩
      · rintro ⟨_, ⟨y, z, hy, hz, rfl⟩, rfl⟩
        exact ⟨_, ⟨y, hy, rfl⟩, _, ⟨z, hz, rfl⟩, (single_add _ _ _).symm⟩
    · intro g' hg'
      rcases List.mem_cons.1 hg' with e | e
      · subst e; exact a2
      · exact b2 g' e

end

theorem pairs_filter_none : ∀ {l : List Nat} {a j : Nat}, (a :: l).Pairwise (· < ·) → j ≤ a → (pairs (a :: l)).filter (fun p => p.2 == j) = [] := by
  intro l a j hs hj
  rw [List.filter_eq_nil_iff]
  rintro ⟨u, v⟩ hp
  have := (List.of_mem_zip hp).2
  rw [List.tail_cons] at this
  have := (List.pairwise_cons.1 hs).1 v this
  simp; omega

/-- In an increasing list every element but the first has exactly one predecessor. -/
theorem pairs_filter : ∀ {l : List Nat} {a j : Nat}, (a :: l).Pairwise (· < ·) → j ∈ l →
    ∃ u, (pairs (a :: l)).filter (fun p => p.2 == j) = [(u, j)] ∧ u < j ∧ u ∈ a :: l := by
  intro l
  induction l with
  | nil => intro a j _ h; cases h
  | cons b l ih =>
    intro a j hs hj
    have hs' := hs
    rw [List.pairwise_cons] at hs
    have hp : pairs (a :: b :: l) = (a, b) :: pairs (b :: l) := rfl
    rcases List.mem_cons.1 hj with e | e
    · subst e
      refine ⟨a, ?_, hs.1 j (by simp), by simp⟩
      rw [hp, List.filter_cons_of_pos (by simp), pairs_filter_none hs.2 (le_refl _)]
    · obtain ⟨u, h1, h2, h3⟩ := ih hs.2 e
      refine ⟨u, ?_, h2, by simp at h3 ⊢; exact .inr h3⟩
      have : b < j := (List.pairwise_cons.1 hs.2).1 j e
      rw [hp, List.filter_cons_of_neg (by simp; omega), h1]

theorem pairs_mem {l : List Nat} {u v : Nat} (h : (u, v) ∈ pairs l) : u ∈ l ∧ v ∈ l :=
  ⟨(List.of_mem_zip h).1, List.mem_of_mem_tail (List.of_mem_zip h).2⟩

/-! ### The gates of one transition -/

section layer

variable {E : Env F} {V : LEnv F F} {segs : List (Segment F)} {rec : Segment F → Nat → List (List F) → Set (Nat → F)}
variable {tab : Nat → Option (Ctx F)} {c : Ctx F} {qs : List (List (Nat × Nat))} {i n : Nat} {bufs : Nat → List F} {T : Trace F}

/-- The layers a segment reads, newest first. -/
def window (c : Ctx F) (bufs : Nat → List F) (i : Nat) : List (List F) := (List.range (i + 1 - c.mu.getD (i + 1) 0)).map fun l => bufs (i - l)

/-- What is read for the stored variables. -/
def ReadsOk (c : Ctx F) (qs : List (List (Nat × Nat))) (bufs : Nat → List F) (T : Trace F) (i : Nat) : Prop :=
  ∀ j, c.mu.getD (i + 1) 0 ≤ j → j ≤ i → ∀ x p, (qs.getD j []).lookup x = some p → (bufs j)[p]? = some (T [] x)

theorem readInput_window {l a : Nat} (hl : l < i + 1 - c.mu.getD (i + 1) 0) : readInput (window c bufs i) ⟨l, a⟩ = (bufs (i - l))[a]? := by
  rw [readInput, window, List.getElem?_map, List.getElem?_range hl]; rfl

theorem read_cur (hmu : c.mu.getD (i + 1) 0 ≤ i) (hr : ReadsOk c qs bufs T i) : ∀ v a, (qs.getD i []).lookup v = some a →
    readInput (window c bufs i) ⟨0, a⟩ = some (T [] v) := by
  intro v a h
  rw [readInput_window (by omega)]
  exact hr i hmu (le_refl _) v a h

/-- Does a variable have gates of its own? -/
def isCE (c : Ctx F) (x : Nat) : Bool := match c.prog.defn x with
  | some (.expr _) => true
  | some (.const _) => true
  | _ => false

/-- What the gates of `x` may contribute, when it appears at layer `i + 1`. -/
def firstSet (E : Env F) (c : Ctx F) (qs : List (List (Nat × Nat))) (T : Trace F) (i x : Nat) : Set (Nat → F) :=
  {f | ∃ y, (c.lay x = i + 1 → match c.prog.defn x with
      | some (.expr e) => Expr.Sem E (fun v => some (T [] v)) e y
      | some (.const a) => a.Sem E y
      | _ => True) ∧
    f = if c.lay x = i + 1 ∧ isCE c x = true then (((qs.getD (i + 1) []).lookup x).map fun p => single p y).getD 0 else 0}

theorem first_set (ok : CtxOk tab c) (hV : EnvOk E V) (hmu : c.mu.getD (i + 1) 0 ≤ i) (hr : ReadsOk c qs bufs T i)
    (hpos : ∀ x p, (qs.getD (i + 1) []).lookup x = some p → p < n)
    {x : Nat} (hco : ∀ a, c.prog.defn x = some (.const a) → ∀ y, CoefVal V a y ↔ a.Sem E y)
    {gs : List (Gate F)} (hg : firstGates c qs i x = some gs) :
    (gs.map fun g => opSet V segs rec n (window c bufs i) (.gate g)).sum = firstSet E c qs T i x ∧ ∀ g ∈ gs, g.typ = none → g.inputs.length ≤ 2 := by
  unfold firstGates at hg
  have hlay : c.minL.getD x 0 = c.lay x := rfl
  rw [hlay] at hg
  by_cases hl : c.lay x = i + 1
  · rw [if_neg (by simpa using hl)] at hg
    cases hp : (qs.getD (i + 1) []).lookup x with
    | none =>
      rw [hp] at hg
      simp only at hg
      split at hg
      · cases hg
        refine ⟨?_, by simp⟩
        have hex : ∃ y, match c.prog.defn x with
            | some (.expr e) => Expr.Sem E (fun v => some (T [] v)) e y
            | some (.const a) => a.Sem E y
            | _ => True := by
          cases hd : c.prog.defn x with
          | none => exact ⟨0, trivial⟩
          | some d =>
            cases d with
            | expr e => exact Verif.IR.Expr.sem_total E _ e (by simp)
            | const a => cases a with
              | const v => exact ⟨v, rfl⟩
              | random => exact ⟨0, trivial⟩
              | pub k => exact ⟨_, rfl⟩
            | out k j => exact ⟨0, trivial⟩
        obtain ⟨y, hy⟩ := hex
        ext f
        simp only [List.map_nil, List.sum_nil, Set.mem_zero, firstSet, Set.mem_setOf_eq, hp, Option.map_none, Option.getD_none, ite_self]
        constructor
        · rintro rfl; exact ⟨y, fun _ => hy, rfl⟩
        · rintro ⟨_, _, rfl⟩; rfl
      · cases hg
    | some pos =>
      rw [hp] at hg
      simp only at hg
      have hpn := hpos x pos hp
      cases hd : c.prog.defn x with
      | none =>
        simp only [hd] at hg; cases hg
        refine ⟨?_, by simp⟩
        ext f; simp [-List.getD_eq_getElem?_getD, firstSet, hd, isCE]
      | some d =>
        cases d with
        | expr e =>
          simp only [hd] at hg
          obtain ⟨h1, h2⟩ := exprGates_set (segs := segs) (rec := rec) (n := n) (cur := window c bufs i) hV (val := T []) (read_cur hmu hr) hpn hg
          refine ⟨?_, h2⟩
          rw [h1]
          ext f; simp [-List.getD_eq_getElem?_getD, firstSet, hd, isCE, hp, hl]
        | const a =>
          simp only [hd] at hg; cases hg
          refine ⟨?_, by simp⟩
          rw [List.map_cons, List.map_nil, List.sum_cons, List.sum_nil, add_zero, gateSet_of (vs := []) rfl hpn]
          ext f; simp [-List.getD_eq_getElem?_getD, firstSet, hd, isCE, hp, hl, hco a hd, gateVal]
        | out k j =>
          simp only [hd] at hg; cases hg
          refine ⟨?_, by simp⟩
          ext f; simp [-List.getD_eq_getElem?_getD, firstSet, hd, isCE]
  · rw [if_pos (by simpa using hl)] at hg; cases hg
    refine ⟨?_, by simp⟩
    ext f; simp [-List.getD_eq_getElem?_getD, firstSet, hl]

/-- What the relay of `x` contributes. -/
def relayPart (c : Ctx F) (qs : List (List (Nat × Nat))) (T : Trace F) (i x : Nat) : Nat → F :=
  if c.lay x ≤ i then (((qs.getD (i + 1) []).lookup x).map fun p => single p (T [] x)).getD 0 else 0

theorem relay_set (ok : CtxOk tab c) (hV : EnvOk E V) (hi : i < c.outL) (hr : ReadsOk c qs bufs T i)
    (hkeys : ∀ x p, (qs.getD (i + 1) []).lookup x = some p → p < n ∧ x ∈ c.varsOf (i + 1))
    {x : Nat} (hx : x < c.prog.nv) {gs : List (Gate F)} (hg : relayGates c qs i x = some gs) :
    (gs.map fun g => opSet V segs rec n (window c bufs i) (.gate g)).sum = {relayPart c qs T i x} ∧ ∀ g ∈ gs, g.typ = none → g.inputs.length ≤ 2 := by
  unfold relayGates at hg
  cases hp : (qs.getD (i + 1) []).lookup x with
  | none =>
    have : ((pairs (c.occ.getD x [])).filter fun p => p.2 == i + 1 && ((qs.getD p.2 []).lookup x).isSome) = [] := by
      rw [List.filter_eq_nil_iff]
      rintro ⟨u, v⟩ _
      by_cases e : v = i + 1
      · subst e; rw [hp]; simp
      · simp [e]
    rw [this] at hg
    simp [mapOpt] at hg; subst hg
    refine ⟨?_, by simp⟩
    ext f; simp [-List.getD_eq_getElem?_getD, relayPart, hp]
  | some pos =>
    obtain ⟨hpn, hmem⟩ := hkeys x pos hp
    have hocc : i + 1 ∈ c.occOf x := ok.mem_vars_lt (by omega) hmem hx
    obtain ⟨h1, _⟩ := ok.occRange x _ hocc
    have hhead := ok.occHead x h1 hx
    have hsorted := ok.occSorted x
    have hfil : ((pairs (c.occ.getD x [])).filter fun p => p.2 == i + 1 && ((qs.getD p.2 []).lookup x).isSome) =
        (pairs (c.occ.getD x [])).filter fun p => p.2 == i + 1 := by
      apply List.filter_congr
      rintro ⟨u, v⟩ _
      by_cases e : v = i + 1
      · subst e; rw [hp]; simp
      · simp [e]
    rw [hfil] at hg
    have hoc : c.occ.getD x [] = c.occOf x := rfl
    rw [hoc] at hg
    cases ho : c.occOf x with
    | nil => rw [ho] at hocc; cases hocc
    | cons a l =>
      rw [ho] at hg hocc hhead hsorted
      simp at hhead
      by_cases hl : c.lay x ≤ i
      · have hml : i + 1 ∈ l := by
          rcases List.mem_cons.1 hocc with e | e
          · omega
          · exact e
        obtain ⟨u, hu1, hu2, hu3⟩ := pairs_filter hsorted hml
        rw [hu1] at hg
        obtain ⟨g, gs', hg1, hg2, rfl⟩ := mapOpt_cons.1 hg
        simp [mapOpt] at hg2; subst hg2
        simp only [hp] at hg1
        cases hq : (qs.getD u []).lookup x with
        | none => rw [hq] at hg1; cases hg1
        | some b =>
          rw [hq] at hg1
          simp only [Option.some.injEq] at hg1
          subst hg1
          have hpair : (u, i + 1) ∈ pairs (c.occOf x) := by
            rw [ho]
            have : (u, i + 1) ∈ (pairs (a :: l)).filter (fun p => p.2 == i + 1) := by rw [hu1]; simp
            exact (List.mem_filter.1 this).1
          have hmu := ok.muOcc x u i hi hpair
          refine ⟨?_, by simp⟩
          have hread : mapOpt (readInput (window c bufs i)) [(⟨i + 1 - u - 1, b⟩ : Input)] = some [T [] x] := by
            have e : i - (i + 1 - u - 1) = u := by omega
            simp only [mapOpt, readInput_window (c := c) (bufs := bufs) (i := i) (l := i + 1 - u - 1) (a := b) (by omega), e, hr u hmu (by omega) x b hq]
          rw [List.map_cons, List.map_nil, List.sum_cons, List.sum_nil, add_zero, gateSet_of hread hpn]
          ext f; simp [-List.getD_eq_getElem?_getD, relayPart, hl, hp, CoefVal, hV.const, gateVal]
      · have hle := ok.lay_le (x := x) (j := i + 1) (by rw [ho]; exact hocc)
        have : i + 1 ≤ a := by omega
        rw [pairs_filter_none hsorted this] at hg
        simp [mapOpt] at hg; subst hg
        refine ⟨?_, by simp⟩
        ext f; simp [-List.getD_eq_getElem?_getD, relayPart, hl]

/-- What the gates of the combined constraint may contribute. -/
def ccSet (tab : Nat → Option (Ctx F)) (c : Ctx F) (qs : List (List (Nat × Nat))) (T : Trace F) (i : Nat) : Set (Nat → F) :=
  {f | ∃ y, (∀ cc, c.cc.getD (i + 1) none = some cc → ∃ ys : List F,
      List.Forall₂ (fun v y => if c.prog.nv ≤ v then y = T [] v else ∃ r, y = T [] v * r) cc.vars ys ∧
      y = ys.sum + (cc.subs.map fun k => T [k] (((subCtx tab c k).map fun s => s.ccId (i - c.start k)).getD 0)).sum) ∧
    f = (match c.cc.getD (i + 1) none with
      | some cc => (((qs.getD (i + 1) []).lookup cc.id).map fun p => single p y).getD 0
      | none => 0)}

theorem cc_set (hV : EnvOk E V) (hmu : c.mu.getD (i + 1) 0 ≤ i) (hr : ReadsOk c qs bufs T i)
    (hpos : ∀ x p, (qs.getD (i + 1) []).lookup x = some p → p < n) {subl : Nat → Nat → Option (Nat × Layout)}
    (hsub : ∀ (k : Nat) (s : Ctx F) (sl : Nat × Layout) (a : Nat), subCtx tab c k = some s → subl k (i - c.start k) = some sl → ccPos s sl (i - c.start k) = some a →
      (bufs i)[a]? = some (T [k] (s.ccId (i - c.start k))))
    {gs : List (Gate F)} (hg : ccGates tab c qs subl i = some gs) :
    (gs.map fun g => opSet V segs rec n (window c bufs i) (.gate g)).sum = ccSet tab c qs T i ∧ ∀ g ∈ gs, g.typ = none → g.inputs.length ≤ 2 := by
  unfold ccGates at hg
  cases hcc : c.cc.getD (i + 1) none with
  | none =>
    rw [hcc] at hg; cases hg
    refine ⟨?_, by simp⟩
    ext f; simp only [List.map_nil, List.sum_nil, Set.mem_zero, ccSet, Set.mem_setOf_eq, hcc]
    constructor
    · rintro rfl; exact ⟨0, fun cc h => (by cases h), rfl⟩
    · rintro ⟨_, _, rfl⟩; rfl
  | some cc =>
    rw [hcc] at hg
    simp only at hg
    cases hp : (qs.getD (i + 1) []).lookup cc.id with
    | none => rw [hp] at hg; cases hg
    | some pos =>
      rw [hp] at hg
      simp only at hg
      have hpn := hpos _ _ hp
      split at hg
      · rename_i g1 g2 hg1 hg2
        cases hg
        have hA : ∀ (vs : List Nat) (g1 : List (Gate F)), mapOpt (fun v => ((qs.getD i []).lookup v).map fun a =>
            (⟨none, [⟨0, a⟩], pos, if c.prog.nv ≤ v then .const 1 else .random⟩ : Gate F)) vs = some g1 →
            (g1.map fun g => opSet V segs rec n (window c bufs i) (.gate g)).sum = {f | ∃ ys : List F,
              List.Forall₂ (fun v y => if c.prog.nv ≤ v then y = T [] v else ∃ r, y = T [] v * r) vs ys ∧ f = single pos ys.sum} ∧
            ∀ g ∈ g1, g.typ = none → g.inputs.length ≤ 2 := by
          intro vs
          induction vs with
          | nil =>
            intro g1 h; simp [mapOpt] at h; subst h
            refine ⟨?_, by simp⟩
            ext f; simp [single_zero]
          | cons v vs ih =>
            intro g1 h
            obtain ⟨g, gs', h1, h2, rfl⟩ := mapOpt_cons.1 h
            obtain ⟨b1, b2⟩ := ih gs' h2
            obtain ⟨a, ha, rfl⟩ := Option.map_eq_some_iff.1 h1
            refine ⟨?_, ?_⟩
            · rw [List.map_cons, List.sum_cons, b1, gateSet_of (vs := [T [] v]) (by simp [mapOpt, read_cur hmu hr v a ha]) hpn]
              ext f
              simp only [Set.mem_add, Set.mem_setOf_eq, gateVal, List.prod_cons, List.prod_nil, mul_one]
              constructor
              · rintro ⟨_, ⟨r, h1, rfl⟩, _, ⟨ys, h2, rfl⟩, rfl⟩
                refine ⟨(T [] v * r) :: ys, .cons ?_ h2, by rw [List.sum_cons, single_add]⟩
                by_cases hv : c.prog.nv ≤ v
                · rw [if_pos hv] at h1 ⊢; rw [show r = 1 by rw [h1, hV.const], mul_one]
                · rw [if_neg hv]; exact ⟨r, rfl⟩
              · rintro ⟨_, h, rfl⟩
                cases h with
                | @cons _ y _ ys h1 h2 =>
                  by_cases hv : c.prog.nv ≤ v
                  · rw [if_pos hv] at h1
                    refine ⟨_, ⟨1, by rw [if_pos hv]; exact (hV.const 1).symm, rfl⟩, _, ⟨ys, h2, rfl⟩, ?_⟩
                    rw [List.sum_cons, single_add, h1, mul_one]
                  · rw [if_neg hv] at h1
                    obtain ⟨r, rfl⟩ := h1
                    refine ⟨_, ⟨r, by rw [if_neg hv]; trivial, rfl⟩, _, ⟨ys, h2, rfl⟩, ?_⟩
                    rw [List.sum_cons, single_add]
            · intro g' hg'
              rcases List.mem_cons.1 hg' with e | e
              · subst e; simp
              · exact b2 g' e
        have hB : ∀ (ks : List Nat) (g2 : List (Gate F)), mapOpt (fun k =>
            match subCtx tab c k, subl k (i - c.starts.getD k 0) with
            | some s, some sl => (ccPos s sl (i - c.starts.getD k 0)).map fun a => (⟨none, [⟨0, a⟩], pos, .const 1⟩ : Gate F)
            | _, _ => none) ks = some g2 →
            (g2.map fun g => opSet V segs rec n (window c bufs i) (.gate g)).sum =
              {single pos (ks.map fun k => T [k] (((subCtx tab c k).map fun s => s.ccId (i - c.start k)).getD 0)).sum} ∧
            ∀ g ∈ g2, g.typ = none → g.inputs.length ≤ 2 := by
          intro ks
          induction ks with
          | nil =>
            intro g2 h; simp [mapOpt] at h; subst h
            refine ⟨?_, by simp⟩
            ext f; simp [single_zero]
          | cons k ks ih =>
            intro g2 h
            obtain ⟨g, gs', h1, h2, rfl⟩ := mapOpt_cons.1 h
            obtain ⟨b1, b2⟩ := ih gs' h2
            split at h1
            · rename_i s sl hs hsl
              obtain ⟨a, ha, rfl⟩ := Option.map_eq_some_iff.1 h1
              refine ⟨?_, ?_⟩
              · have hb := hsub k s sl a hs hsl ha
                rw [List.map_cons, List.sum_cons, b1, gateSet_of (vs := [T [k] (s.ccId (i - c.start k))])
                  (by simp only [mapOpt, readInput_window (c := c) (bufs := bufs) (i := i) (l := 0) (a := a) (by omega), Nat.sub_zero, hb]) hpn]
                ext f
                simp only [Set.mem_add, Set.mem_setOf_eq, gateVal, List.prod_cons, List.prod_nil, mul_one, CoefVal, hV.const,
                  Set.mem_singleton_iff, List.map_cons, List.sum_cons, hs, Option.map_some, Option.getD_some, single_add]
                constructor
                · rintro ⟨_, ⟨r, rfl, rfl⟩, _, rfl, rfl⟩; rw [mul_one]
                · rintro rfl; exact ⟨_, ⟨1, rfl, rfl⟩, _, rfl, by rw [mul_one]⟩
              · intro g' hg'
                rcases List.mem_cons.1 hg' with e | e
                · subst e; simp
                · exact b2 g' e
            · cases h1
        obtain ⟨a1, a2⟩ := hA cc.vars g1 hg1
        obtain ⟨b1, b2⟩ := hB cc.subs g2 hg2
        refine ⟨?_, ?_⟩
        · rw [List.map_append, List.sum_append, a1, b1]
          ext f
          simp only [Set.mem_add, Set.mem_setOf_eq, ccSet, hcc, hp, Option.map_some, Option.getD_some, Set.mem_singleton_iff]
          constructor
          · rintro ⟨_, ⟨ys, h1, rfl⟩, _, rfl, rfl⟩
            refine ⟨_, fun cc' e => ?_, (single_add _ _ _).symm⟩
            cases e
            exact ⟨ys, h1, rfl⟩
          · rintro ⟨y, h, rfl⟩
            obtain ⟨ys, h1, rfl⟩ := h cc rfl
            exact ⟨_, ⟨ys, h1, rfl⟩, _, rfl, (single_add _ _ _).symm⟩
        · intro g hg
          rcases List.mem_append.1 hg with h | h
          · exact a2 g h
          · exact b2 g h
      · cases hg

/-- All gates of a transition. -/
theorem layer_set (ok : CtxOk tab c) (hV : EnvOk E V) (hi : i < c.outL) (hr : ReadsOk c qs bufs T i)
    (hkeys : ∀ x p, (qs.getD (i + 1) []).lookup x = some p → p < n ∧ x ∈ c.varsOf (i + 1))
    (hco : ∀ x a, c.prog.defn x = some (.const a) → ∀ y, CoefVal V a y ↔ a.Sem E y) {subl : Nat → Nat → Option (Nat × Layout)}
    (hsub : ∀ (k : Nat) (s : Ctx F) (sl : Nat × Layout) (a : Nat), subCtx tab c k = some s → subl k (i - c.start k) = some sl → ccPos s sl (i - c.start k) = some a →
      (bufs i)[a]? = some (T [k] (s.ccId (i - c.start k))))
    {gs : List (Gate F)} (hg : layerGates tab c qs subl i = some gs) :
    (gs.map fun g => opSet V segs rec n (window c bufs i) (.gate g)).sum =
      (∑ x ∈ Finset.range c.prog.nv, (firstSet E c qs T i x + {relayPart c qs T i x})) + ccSet tab c qs T i ∧
    ∀ g ∈ gs, g.typ = none → g.inputs.length ≤ 2 := by
  unfold layerGates at hg
  split at hg
  · rename_i gss g hgs hgc
    cases hg
    have hmu := ok.mu1 i hi
    obtain ⟨h1, h2⟩ := cc_set (segs := segs) (rec := rec) hV hmu hr (fun x p h => (hkeys x p h).1) hsub hgc
    have key : ∀ (xs : List Nat) (gss : List (List (Gate F))), (∀ x ∈ xs, x < c.prog.nv) →
        mapOpt (fun x => if relayOk c qs i x then
          match firstGates c qs i x, relayGates c qs i x with
          | some a, some b => some (a ++ b)
          | _, _ => none
        else none) xs = some gss →
        (gss.flatten.map fun g => opSet V segs rec n (window c bufs i) (.gate g)).sum =
          (xs.map fun x => firstSet E c qs T i x + {relayPart c qs T i x}).sum ∧ ∀ g ∈ gss.flatten, g.typ = none → g.inputs.length ≤ 2 := by
      intro xs
      induction xs with
      | nil => intro gss _ h; simp [mapOpt] at h; subst h; simp
      | cons x xs ih =>
        intro gss hlt h
        obtain ⟨g, gs', e1, e2, rfl⟩ := mapOpt_cons.1 h
        obtain ⟨b1, b2⟩ := ih gs' (fun y hy => hlt y (by simp [hy])) e2
        split at e1
        · split at e1
          · rename_i a b ha hb
            cases e1
            obtain ⟨f1, f2⟩ := first_set (segs := segs) (rec := rec) ok hV hmu hr (fun x p h => (hkeys x p h).1) (hco x) ha
            obtain ⟨r1, r2⟩ := relay_set (segs := segs) (rec := rec) ok hV hi hr hkeys (hlt x (by simp)) hb
            refine ⟨?_, ?_⟩
            · rw [List.flatten_cons, List.map_append, List.sum_append, List.map_append, List.sum_append, f1, r1, b1, List.map_cons, List.sum_cons]
            · intro g hg
              rw [List.flatten_cons, List.mem_append, List.mem_append] at hg
              rcases hg with (h | h) | h
              · exact f2 g h
              · exact r2 g h
              · exact b2 g h
          · cases e1
        · cases e1
    obtain ⟨k1, k2⟩ := key _ _ (fun x hx => List.mem_range.1 hx) hgs
    refine ⟨?_, ?_⟩
    · rw [List.map_append, List.sum_append, k1, h1, list_range_sum]
    · intro g' hg'
      rcases List.mem_append.1 hg' with h | h
      · exact k2 g' h
      · exact h2 g' h
  · cases hg

end layer

end Verif.Layering
