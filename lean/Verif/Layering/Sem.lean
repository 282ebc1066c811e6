import Verif.Layering.Wire
import Verif.Layered.Den
import Mathlib.Algebra.Group.Pointwise.Set.Basic
import Mathlib.Algebra.BigOperators.Group.List.Basic
import Mathlib.Data.List.Nodup

/-!
# Values of a layered computation

`Trace`: a value for every variable of every instance of a circuit (an instance is a path of call numbers).  `EqAt`: the equations of the
variables that appear at one layer.  `fill`: the contents of a layer.  `Agrees`: a buffer holds the values of a trace.
-/

set_option linter.unusedSectionVars false
set_option linter.unusedSimpArgs false

namespace Verif.Layering

open Verif.IR (Expr Coef Term VarSpec Env)
open Verif.Layered (Segment Gate Input Alloc LEnv den opSet opsSet shiftOut Op specOps)
open scoped Pointwise

section general

/-- A vector with one entry. -/
def single {F : Type} [Zero F] (p : Nat) (v : F) : Nat → F := fun i => if i = p then v else 0

/-- Membership in a sum of sets. -/
theorem mem_setSum {α M : Type} [AddCommMonoid M] [DecidableEq α] (S : α → Set M) : ∀ (l : List α), l.Nodup → ∀ (f : M),
    f ∈ (l.map S).sum ↔ ∃ u : α → M, (∀ a ∈ l, u a ∈ S a) ∧ f = (l.map u).sum := by
  intro l
  induction l with
  | nil => intro _ f; simp
  | cons a l ih =>
    intro hn f
    obtain ⟨ha, hl⟩ := List.nodup_cons.1 hn
    rw [List.map_cons, List.sum_cons, Set.mem_add]
    constructor
    · rintro ⟨x, hx, y, hy, rfl⟩
      obtain ⟨u, hu, rfl⟩ := (ih hl y).1 hy
      refine ⟨fun b => if b = a then x else u b, ?_, ?_⟩
      · intro b hb
        by_cases e : b = a
        · subst e; simpa using hx
        · rcases List.mem_cons.1 hb with h | h
          · exact absurd h e
          · simpa [e] using hu b h
      · rw [List.map_cons, List.sum_cons, if_pos rfl]
        congr 2
        apply List.map_congr_left
        intro b hb
        rw [if_neg (fun e : b = a => ha (e ▸ hb))]
    · rintro ⟨u, hu, rfl⟩
      refine ⟨u a, hu a (by simp), (l.map u).sum, (ih hl _).2 ⟨u, fun b hb => hu b (by simp [hb]), rfl⟩, ?_⟩
      simp

theorem sum_ite_eq {M : Type} [AddCommMonoid M] (k : Nat) (a : M) : ∀ (U : List Nat), U.Nodup → k ∈ U →
    (U.map fun x => if x = k then a else 0).sum = a := by
  intro U
  induction U with
  | nil => intro _ h; cases h
  | cons b U ih =>
    intro hn hk
    obtain ⟨hb, hU⟩ := List.nodup_cons.1 hn
    rw [List.map_cons, List.sum_cons]
    by_cases e : b = k
    · subst e
      have : (U.map fun x => if x = b then a else 0).sum = 0 := by
        apply List.sum_eq_zero
        intro y hy
        obtain ⟨x, hx, rfl⟩ := List.mem_map.1 hy
        rw [if_neg (fun e : x = b => hb (e ▸ hx))]
      rw [if_pos rfl, this, add_zero]
    · rw [if_neg e, zero_add]
      exact ih hU (by rcases List.mem_cons.1 hk with h | h; exact absurd h.symm e; exact h)

theorem lookup_none {β : Type} : ∀ {q : List (Nat × β)} {x : Nat}, x ∉ q.map (·.1) → q.lookup x = none := by
  intro q
  induction q with
  | nil => intro x _; rfl
  | cons e q ih =>
    intro x h
    obtain ⟨k, p⟩ := e
    have h1 : x ≠ k := fun e => h (by simp [e])
    have h2 : x ∉ q.map (·.1) := fun m => h (by simp at m ⊢; exact .inr m)
    rw [List.lookup_cons, show (x == k) = false by simpa using h1]
    exact ih h2

theorem lookup_mem {β : Type} : ∀ {q : List (Nat × β)} {x : Nat} {p : β}, q.lookup x = some p → (x, p) ∈ q := by
  intro q
  induction q with
  | nil => intro x p h; cases h
  | cons e q ih =>
    intro x p h
    obtain ⟨k, r⟩ := e
    rw [List.lookup_cons] at h
    by_cases hk : x = k
    · subst hk; simp at h; subst h; simp
    · rw [show (x == k) = false by simpa using hk] at h
      exact List.mem_cons_of_mem _ (ih h)

theorem lookup_of_mem {β : Type} : ∀ {q : List (Nat × β)}, (q.map (·.1)).Nodup → ∀ {x : Nat} {p : β}, (x, p) ∈ q → q.lookup x = some p := by
  intro q
  induction q with
  | nil => intro _ x p h; cases h
  | cons e q ih =>
    intro hn x p h
    obtain ⟨k, r⟩ := e
    rw [List.map_cons, List.nodup_cons] at hn
    rw [List.lookup_cons]
    rcases List.mem_cons.1 h with h | h
    · cases h; simp
    · have : x ≠ k := fun e => hn.1 (e ▸ List.mem_map.2 ⟨(x, p), h, rfl⟩)
      rw [show (x == k) = false by simpa using this]
      exact ih hn.2 h

/-- A sum over an association list as a sum over possible keys. -/
theorem assoc_sum {β M : Type} [AddCommMonoid M] (g : Nat → β → M) : ∀ (q : List (Nat × β)) (U : List Nat), (q.map (·.1)).Nodup → U.Nodup →
    (∀ x ∈ q.map (·.1), x ∈ U) → (q.map fun e => g e.1 e.2).sum = (U.map fun x => ((q.lookup x).map (g x)).getD 0).sum := by
  intro q
  induction q with
  | nil => intro U _ _ _; symm; simp
  | cons e q ih =>
    intro U hq hU hs
    obtain ⟨k, p⟩ := e
    rw [List.map_cons, List.nodup_cons] at hq
    have h0 := ih U hq.2 hU (fun x hx => hs x (by simp at hx ⊢; exact .inr hx))
    have hk : q.lookup k = none := lookup_none hq.1
    have key : (U.map fun x => ((((k, p) :: q).lookup x).map (g x)).getD 0) =
        U.map fun x => (if x = k then g k p else 0) + ((q.lookup x).map (g x)).getD 0 := by
      apply List.map_congr_left
      intro x _
      rw [List.lookup_cons]
      by_cases e : x = k
      · subst e; simp [hk]
      · rw [show (x == k) = false by simpa using e, if_neg e, zero_add]
    rw [List.map_cons, List.sum_cons, h0, key, List.sum_map_add, sum_ite_eq k (g k p) U hU (hs k (by simp))]

end general

variable {F : Type} [Field F] [DecidableEq F]

/-- A value for every variable of every instance: the path lists call numbers, outermost first. -/
abbrev Trace (F : Type) := List Nat → Nat → F

/-- The part of a trace that belongs to call `k`. -/
def Trace.sub (T : Trace F) (k : Nat) : Trace F := fun p v => T (k :: p) v

/-- Number of the combined constraint of a context at a layer. -/
def Ctx.ccId (c : Ctx F) (j : Nat) : Nat := ((c.cc.getD j none).map (·.id)).getD 0

/-- Start layer of a call. -/
def Ctx.start (c : Ctx F) (k : Nat) : Nat := c.starts.getD k 0

/-- First layer of a variable. -/
def Ctx.lay (c : Ctx F) (x : Nat) : Nat := c.minL.getD x 0

/-- Variables stored at a layer. -/
def Ctx.varsOf (c : Ctx F) (i : Nat) : List Nat := c.vars.getD i []

/-- Layers of a variable. -/
def Ctx.occOf (c : Ctx F) (x : Nat) : List Nat := c.occ.getD x []

/-- The equation of a variable. -/
def VarEq (E : Env F) (tab : Nat → Option (Ctx F)) (c : Ctx F) (T : Trace F) (x : Nat) : Prop :=
  match c.prog.defn x with
  | some (.expr e) => Expr.Sem E (fun v => some (T [] v)) e (T [] x)
  | some (.const a) => a.Sem E (T [] x)
  | some (.out k j) => ∀ q s y, c.prog.calls[k]? = some q → tab q.sub = some s → s.prog.outs[j]? = some y → T [] x = T [k] y
  | none => True

/-- What the combined constraint at layer `i` can be. -/
def CcEq (tab : Nat → Option (Ctx F)) (c : Ctx F) (T : Trace F) (i : Nat) (cc : CC) : Prop :=
  ∃ ys : List F, List.Forall₂ (fun v y => if c.prog.nv ≤ v then y = T [] v else ∃ r, y = T [] v * r) cc.vars ys ∧
    T [] cc.id = ys.sum + (cc.subs.map fun k => T [k] (((subCtx tab c k).map fun s => s.ccId (i - 1 - c.start k)).getD 0)).sum

/-- The equations that hold at one layer of a circuit, calls included. -/
inductive EqAt (E : Env F) (tab : Nat → Option (Ctx F)) : Nat → Nat → Trace F → Prop
  | mk {id i : Nat} {T : Trace F} {c : Ctx F} (hc : tab id = some c)
      (hv : ∀ x, 1 ≤ x → x < c.prog.nv → c.lay x = i → VarEq E tab c T x)
      (hcc : ∀ cc, c.cc.getD i none = some cc → CcEq tab c T i cc)
      (hin : ∀ k q, c.prog.calls[k]? = some q → c.start k = i → ∀ j y, q.inputs[j]? = some y → T [k] (j + 1) = T [] y)
      (hsub : ∀ k q s, c.prog.calls[k]? = some q → tab q.sub = some s → c.start k ≤ i → i ≤ c.start k + s.outL →
        EqAt E tab q.sub (i - c.start k) (T.sub k)) : EqAt E tab id i T

/-- Two traces agree on everything that has appeared up to layer `i`. -/
inductive Same (tab : Nat → Option (Ctx F)) : Nat → Nat → Trace F → Trace F → Prop
  | mk {id i : Nat} {T T' : Trace F} {c : Ctx F} (hc : tab id = some c)
      (hv : ∀ x, 1 ≤ x → x < c.prog.nv → c.lay x ≤ i → T' [] x = T [] x)
      (hcc : ∀ j cc, j ≤ i → c.cc.getD j none = some cc → T' [] cc.id = T [] cc.id)
      (hsub : ∀ k q, c.prog.calls[k]? = some q → c.start k ≤ i → Same tab q.sub (i - c.start k) (T.sub k) (T'.sub k)) : Same tab id i T T'

/-- Variables of a layout's layer. -/
def lvars (tab : Nat → Option (Ctx F)) (L : Layout) : List Nat := ((tab L.circ).map fun c => c.varsOf L.layer).getD []

/-- Contents of the slots of the circuit itself. -/
def ownFill (vars : List Nat) (slots : List (Nat × Nat)) (T : Trace F) : Nat → F :=
  (slots.map fun p => single p.1 (T [] (vars.getD p.2 0))).sum

mutual
/-- Contents of a layer: the value of every stored variable, 0 elsewhere. -/
def fill (tab : Nat → Option (Ctx F)) : Layout → Trace F → Nat → F
  | .dense c l pl, T => ownFill (lvars tab (.dense c l pl)) (Layout.dense c l pl).slots T
  | .sparse c l sz own subs, T => ownFill (lvars tab (.sparse c l sz own subs)) own T + fillSubs tab subs T
/-- Contents of the sub-layouts. -/
def fillSubs (tab : Nat → Option (Ctx F)) : List (Nat × Nat × Layout) → Trace F → Nat → F
  | [], _ => 0
  | (k, off, S) :: l, T => shiftOut off S.size (fill tab S (T.sub k)) + fillSubs tab l T
end

theorem fillSubs_eq (tab : Nat → Option (Ctx F)) (T : Trace F) : ∀ (l : List (Nat × Nat × Layout)),
    fillSubs tab l T = (l.map fun s => shiftOut s.2.1 s.2.2.size (fill tab s.2.2 (T.sub s.1))).sum := by
  intro l
  induction l with
  | nil => simp [fillSubs]
  | cons s l ih => obtain ⟨k, off, S⟩ := s; simp [fillSubs, ih]

theorem fill_eq (tab : Nat → Option (Ctx F)) (L : Layout) (T : Trace F) : fill tab L T = ownFill (lvars tab L) L.slots T +
    (L.subs.map fun s => shiftOut s.2.1 s.2.2.size (fill tab s.2.2 (T.sub s.1))).sum := by
  cases L with
  | dense c l pl => simp [fill, Layout.subs]
  | sparse c l sz own subs => rw [fill, fillSubs_eq]; rfl

/-- A buffer holds the values of a trace wherever a variable is stored. -/
inductive Agrees (tab : Nat → Option (Ctx F)) : Layout → Trace F → List F → Prop
  | mk {L : Layout} {T : Trace F} {b : List F} (hl : b.length = L.size)
      (hs : ∀ p idx, (p, idx) ∈ L.slots → b[p]? = some (T [] ((lvars tab L).getD idx 0)))
      (hr : ∀ k off S, (k, off, S) ∈ L.subs → off + S.size ≤ L.size)
      (hsub : ∀ k off S, (k, off, S) ∈ L.subs → Agrees tab S (T.sub k) ((b.drop off).take S.size)) : Agrees tab L T b

/-- What makes a layout usable: its size is a power of two, positions are in range and do not overlap, sub-layouts belong to calls that are
in the middle of their execution. -/
inductive LayoutOk (tab : Nat → Option (Ctx F)) : Layout → Prop
  | mk {L : Layout} (c : Ctx F) (hc : tab L.circ = some c) (hp : ∃ n, L.size = 2 ^ n)
      (hs : ∀ p idx, (p, idx) ∈ L.slots → p < L.size) (hn : (L.slots.map (·.1)).Nodup)
      (hk : (L.subs.map (·.1)).Nodup)
      (hsub : ∀ k off S, (k, off, S) ∈ L.subs → LayoutOk tab S)
      (hr : ∀ k off S, (k, off, S) ∈ L.subs → off + S.size ≤ L.size)
      (hd : ∀ k off S, (k, off, S) ∈ L.subs → ∀ p idx, (p, idx) ∈ L.slots → p < off ∨ off + S.size ≤ p)
      (hdd : L.subs.Pairwise fun a b => a.2.1 + a.2.2.size ≤ b.2.1 ∨ b.2.1 + b.2.2.size ≤ a.2.1)
      (hm : ∀ k off S, (k, off, S) ∈ L.subs → ∃ q s, c.prog.calls[k]? = some q ∧ tab q.sub = some s ∧ S.circ = q.sub ∧
        c.start k < L.layer ∧ L.layer < c.start k + s.outL ∧ S.layer = L.layer - c.start k) : LayoutOk tab L

end Verif.Layering
