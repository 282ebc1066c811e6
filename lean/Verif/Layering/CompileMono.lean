import Verif.Layering.CompileTotal

/-!
# A larger recursion bound does not change the result of layering

The model of `layering::compile` (layering/mod.rs:27-59) has a bound on the depth of recursion; once there is a result, it is the same for
every larger bound.
-/

set_option linter.unusedSectionVars false
set_option linter.unusedSimpArgs false

namespace Verif.Layering

open Verif.IR Verif.Layered

variable {F : Type} [Field F] [DecidableEq F]

/-- The second table extends the first, and the circuits called by a circuit of the first are in it. -/
structure Extends (tab tab' : Nat → Option (Ctx F)) : Prop where
  same : ∀ id c, tab id = some c → tab' id = some c
  calls : ∀ id c, tab id = some c → ∀ q ∈ c.prog.calls, ∃ s, tab q.sub = some s

variable {tab tab' : Nat → Option (Ctx F)}

theorem Extends.subCtx (h : Extends tab tab') {id : Nat} {c : Ctx F} (hc : tab id = some c) : Layering.subCtx tab' c = Layering.subCtx tab c := by
  funext k
  unfold Layering.subCtx
  cases hk : c.prog.calls[k]? with
  | none => rfl
  | some q =>
    obtain ⟨s, hs⟩ := h.calls id c hc q (List.mem_of_getElem? hk)
    rw [Option.bind_some, Option.bind_some, hs, h.same _ _ hs]

theorem Extends.ends (h : Extends tab tab') {id : Nat} {c : Ctx F} (hc : tab id = some c) (layer : Nat) : endCalls tab' c layer = endCalls tab c layer := by
  unfold endCalls
  rw [h.subCtx hc]

theorem Extends.mids (h : Extends tab tab') {id : Nat} {c : Ctx F} (hc : tab id = some c) (layer : Nat) : midCalls tab' c layer = midCalls tab c layer := by
  unfold midCalls
  rw [h.subCtx hc]

theorem Extends.gates (h : Extends tab tab') {id : Nat} {c : Ctx F} (hc : tab id = some c) (qs : List (List (Nat × Nat))) (subl : Nat → Nat → Option (Nat × Layout)) :
    layerGates tab' c qs subl = layerGates tab c qs subl := by
  funext i
  unfold layerGates ccGates
  rw [h.subCtx hc]

theorem Extends.children (h : Extends tab tab') {id : Nat} {c : Ctx F} (hc : tab id = some c) (subls : List (List (Nat × Layout))) (ids : List (List Nat)) (i : Nat) :
    childrenAt tab' c subls ids i = childrenAt tab c subls ids i := by
  unfold childrenAt
  rw [h.subCtx hc]

theorem Extends.callLayouts (h : Extends tab tab') {id : Nat} {c : Ctx F} (hc : tab id = some c) (layouts : List Layout) (qs : List (List (Nat × Nat))) :
    callLayouts tab' c layouts qs = callLayouts tab c layouts qs := by
  funext k
  unfold Layering.callLayouts
  cases hk : c.prog.calls[k]? with
  | none => rfl
  | some q =>
    obtain ⟨s, hs⟩ := h.calls id c hc q (List.mem_of_getElem? hk)
    dsimp only
    rw [hs, h.same _ _ hs]

theorem mapOpt_grow {A B : Type} {f g : A → Option B} : ∀ {l : List A}, (∀ a ∈ l, ∀ r, f a = some r → g a = some r) → ∀ {r}, mapOpt f l = some r → mapOpt g l = some r := by
  intro l
  induction l with
  | nil => intro _ r h; exact h
  | cons a l ih =>
    intro h r hr
    obtain ⟨b, r', h1, h2, rfl⟩ := mapOpt_cons.1 hr
    exact mapOpt_cons.2 ⟨b, r', h a (by simp) b h1, ih (fun a ha => h a (by simp [ha])) h2, rfl⟩

theorem prevLayout_mono (h : Extends tab tab') {rec rec' : Nat → Nat → Option Layout} (hr : ∀ id l r, rec id l = some r → rec' id l = some r) {c : Ctx F} (layer k : Nat) {r : List (Option Nat)}
    (hp : prevLayout tab rec c layer k = some r) : prevLayout tab' rec' c layer k = some r := by
  unfold prevLayout at hp ⊢
  cases hk : c.prog.calls[k]? with
  | none => rw [hk] at hp; cases hp
  | some q =>
    rw [hk] at hp
    dsimp only at hp ⊢
    cases hs : tab q.sub with
    | none => rw [hs] at hp; cases hp
    | some s =>
      rw [hs] at hp
      rw [h.same _ _ hs]
      dsimp only at hp ⊢
      cases hl : rec q.sub s.outL with
      | none => rw [hl] at hp; cases hp
      | some L =>
        rw [hl] at hp
        rw [hr _ _ _ hl]
        exact hp

theorem midLayout_mono {rec rec' : Nat → Nat → Option Layout} (hr : ∀ id l r, rec id l = some r → rec' id l = some r) {c : Ctx F} (layer k : Nat) {r : Nat × Layout}
    (hp : midLayout rec c layer k = some r) : midLayout rec' c layer k = some r := by
  unfold midLayout at hp ⊢
  cases hk : c.prog.calls[k]? with
  | none => rw [hk] at hp; cases hp
  | some q =>
    rw [hk] at hp
    dsimp only at hp ⊢
    obtain ⟨L, h1, h2⟩ := Option.map_eq_some_iff.1 hp
    rw [hr _ _ _ h1, Option.map_some, h2]

theorem solveNormal_mono (h : Extends tab tab') {rec rec' : Nat → Nat → Option Layout} (hr : ∀ id l r, rec id l = some r → rec' id l = some r) {id : Nat} {c : Ctx F} (hc : tab id = some c) (layer : Nat)
    {L : Layout} (hp : solveNormal tab rec c id layer = some L) : solveNormal tab' rec' c id layer = some L := by
  unfold solveNormal at hp ⊢
  rw [h.ends hc, h.mids hc]
  dsimp only at hp ⊢
  cases h1 : mapOpt (prevLayout tab rec c layer) (endCalls tab c layer) with
  | none => rw [h1] at hp; cases hp
  | some prevs =>
    rw [h1] at hp
    rw [mapOpt_grow (fun k _ r => prevLayout_mono h hr layer k) h1]
    cases h2 : groupsOf c (endCalls tab c layer) layer with
    | none => rw [h2] at hp; cases hp
    | some g =>
      rw [h2] at hp
      dsimp only at hp ⊢
      split at hp
      · cases hp
      · rename_i acc e
        by_cases h3 : (midCalls tab c layer).isEmpty = true
        · rw [if_pos h3] at hp ⊢; exact hp
        · rw [if_neg h3] at hp ⊢
          cases h4 : mapOpt (midLayout rec c layer) (midCalls tab c layer) with
          | none => rw [h4] at hp; cases hp
          | some ml =>
            rw [h4] at hp
            rw [mapOpt_grow (fun k _ r => midLayout_mono hr layer k) h4]
            exact hp

theorem solve_mono (h : Extends tab tab') (reorder : Bool) : ∀ {n m : Nat}, n ≤ m → ∀ id layer L, solve reorder tab n id layer = some L → solve reorder tab' m id layer = some L := by
  intro n
  induction n with
  | zero => intro m _ id layer L hp; cases hp
  | succ n ih =>
    intro m hm id layer L hp
    obtain ⟨m, rfl⟩ : ∃ k, m = k + 1 := ⟨m - 1, by omega⟩
    unfold solve at hp ⊢
    cases hc : tab id with
    | none => rw [hc] at hp; cases hp
    | some c =>
      rw [hc] at hp
      rw [h.same _ _ hc]
      dsimp only at hp ⊢
      split at hp
      · rename_i h1
        rw [if_pos h1]; exact hp
      · rename_i h1
        rw [if_neg h1]; exact solveNormal_mono h (ih (by omega)) hc layer hp

theorem connAll_mono {rec rec' : List Layout → List (Segment F) → Option (List Nat × List (Segment F))} (hr : ∀ l s r, rec l s = some r → rec' l s = some r) :
    ∀ (ls : List (List Layout)) (segs : List (Segment F)) r, connAll rec ls segs = some r → connAll rec' ls segs = some r := by
  intro ls
  induction ls with
  | nil => intro segs r h; exact h
  | cons l ls ih =>
    intro segs r h
    unfold connAll at h ⊢
    cases h1 : rec l segs with
    | none => rw [h1] at h; cases h
    | some p =>
      obtain ⟨ids, segs1⟩ := p
      rw [h1] at h
      rw [hr _ _ _ h1]
      dsimp only at h ⊢
      cases h2 : connAll rec ls segs1 with
      | none => rw [h2] at h; cases h
      | some q =>
        rw [h2] at h
        rw [ih _ _ h2]
        exact h

theorem connect_mono (h : Extends tab tab') : ∀ {n m : Nat}, n ≤ m → ∀ (ls : List Layout) (segs : List (Segment F)) r, connect tab n ls segs = some r → connect tab' m ls segs = some r := by
  intro n
  induction n with
  | zero => intro m _ ls segs r hp; cases hp
  | succ n ih =>
    intro m hm ls segs r hp
    obtain ⟨m, rfl⟩ : ∃ k, m = k + 1 := ⟨m - 1, by omega⟩
    unfold connect at hp ⊢
    cases ls with
    | nil => cases hp
    | cons l0 ls =>
      dsimp only at hp ⊢
      cases hc : tab l0.circ with
      | none => rw [hc] at hp; cases hp
      | some c =>
        rw [hc] at hp
        rw [h.same _ _ hc]
        dsimp only at hp ⊢
        split at hp
        · cases hp
        rename_i h1
        rw [if_neg h1]
        split at hp
        · cases hp
        rename_i qs hq
        split at hp
        · cases hp
        rename_i h2
        rw [if_neg h2]
        split at hp
        · cases hp
        rename_i subls hs
        rw [h.callLayouts hc, hs]
        dsimp only at hp ⊢
        split at hp
        · cases hp
        rename_i ids segs1 ha
        rw [connAll_mono (ih (by omega)) _ _ _ ha]
        dsimp only at hp ⊢
        rw [h.gates hc]
        split at hp
        · cases hp
        rw [← hp]
        congr 4
        funext i
        rw [h.children hc]

theorem ctxOf_grow {cross : Bool} {get : Nat → Option (Prog F)} : ∀ {n m : Nat}, n ≤ m → ∀ id c, ctxOf cross get n id = some c → ctxOf cross get m id = some c := by
  intro n
  induction n with
  | zero => intro m _ id c h; cases h
  | succ n ih =>
    intro m hm id c h
    obtain ⟨m, rfl⟩ : ∃ k, m = k + 1 := ⟨m - 1, by omega⟩
    unfold ctxOf at h ⊢
    cases hp : get id with
    | none => rw [hp] at h; cases h
    | some p =>
      rw [hp] at h
      dsimp only at h ⊢
      cases hs : mapOpt (fun c : Call => ctxOf cross get n c.sub) p.calls with
      | none => rw [hs] at h; cases h
      | some subs =>
        rw [hs] at h
        rw [mapOpt_grow (fun c _ r => ih (by omega) c.sub r) hs]
        exact h

/-- A larger bound gives the same layered circuit. -/
theorem compile_mono {E : Env F} {npi : Option Nat} {get : Nat → Option (Circuit (dest E false))} (hw : WFGet npi get) {cross reorder : Bool} {n m np k : Nat} (hm : n ≤ m)
    {r : Layered.Circuit F × Nat × List (Option Nat)} (h : compile cross reorder (progGet get) n np k = some r) : compile cross reorder (progGet get) m np k = some r := by
  have hx : Extends (ctxOf cross (progGet get) n) (ctxOf cross (progGet get) m) := by
    refine ⟨ctxOf_grow hm, fun id c hc q hq => ?_⟩
    obtain ⟨circ, subs, -, -, -, e, h5⟩ := table_step hw (le_refl n) hc
    obtain ⟨k, hk⟩ := List.mem_iff_getElem?.1 hq
    rw [e] at hk
    obtain ⟨s, _, _, _, _, h6, _⟩ := h5 k q hk
    exact ⟨s, h6⟩
  unfold compile at h ⊢
  dsimp only at h ⊢
  cases hc : ctxOf cross (progGet get) n 0 with
  | none => rw [hc] at h; cases h
  | some c =>
    rw [hc] at h
    rw [hx.same _ _ hc]
    dsimp only at h ⊢
    cases h1 : mapOpt (solve reorder (ctxOf cross (progGet get) n) n 0) (List.range (c.outL + 1)) with
    | none => rw [h1] at h; cases h
    | some layouts =>
      rw [h1] at h
      rw [mapOpt_grow (fun i _ L => solve_mono hx reorder hm 0 i L) h1]
      dsimp only at h ⊢
      cases h2 : connect (ctxOf cross (progGet get) n) n layouts [] with
      | none => rw [h2] at h; cases h
      | some p =>
        rw [h2] at h
        rw [connect_mono hx hm _ _ _ h2]
        exact h

end Verif.Layering
