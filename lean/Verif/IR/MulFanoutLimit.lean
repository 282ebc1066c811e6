import Verif.IR.MulFanoutSem

/-!
# `solve_mul_fanout_limit` respects the limit and produces valid circuits
-/

set_option linter.unusedSectionVars false
set_option linter.unusedSimpArgs false

namespace Verif.IR

variable {F : Type} [Field F] [DecidableEq F]

namespace MulFanout

open Dest Verif.IR.SolveDup

/-! ### The plan -/

/-- All products that will be emitted for some variables. -/
def needList (vs : List Info) (ps : List (Nat × Nat)) : List Nat := (vs.zip ps).flatMap fun p => (List.replicate (1 + p.2.1) p.1.quads).flatten

/-- What the copies add. -/
def extra (vs : List Info) (ps : List (Nat × Nat)) (x : Nat) : Nat := ((vs.zip ps).map fun p => p.2.1 * p.1.quads.count x).sum

theorem count_replicate_flatten (n : Nat) (l : List Nat) (x : Nat) : (List.replicate n l).flatten.count x = n * l.count x := by
  induction n with
  | zero => simp
  | succ n ih => simp [List.replicate_succ, List.count_append, ih, Nat.add_mul, Nat.add_comm]

theorem need_count : ∀ (vs : List Info) (ps : List (Nat × Nat)) (x : Nat), vs.length = ps.length →
    (needList vs ps).count x = (vs.flatMap (·.quads)).count x + extra vs ps x := by
  intro vs
  induction vs with
  | nil => intro ps x _; simp [needList, extra]
  | cons v vs ih =>
    intro ps x h
    cases ps with
    | nil => simp at h
    | cons p ps =>
      have := ih ps x (by simpa using h)
      simp only [needList, extra, List.zip_cons_cons, List.flatMap_cons, List.map_cons, List.count_append, List.sum_cons, count_replicate_flatten] at this ⊢
      rw [this, Nat.add_mul, Nat.one_mul]; omega

theorem plan_length (limit : Nat) : ∀ (vs : List Info) (k : Nat) (ref : Nat → Nat), (plan limit k vs ref).1.length = vs.length := by
  intro vs
  induction vs with
  | nil => intro k ref; rfl
  | cons v vs ih => intro k ref; simp [plan, ih]

theorem plan_ref (limit : Nat) : ∀ (vs : List Info) (k : Nat) (ref : Nat → Nat) (x : Nat),
    (plan limit k vs ref).2 x = ref x + extra vs (plan limit k vs ref).1 x := by
  intro vs
  induction vs with
  | nil => intro k ref x; simp [plan, extra]
  | cons v vs ih =>
    intro k ref x
    have h1 := ih (k + 1) ref x
    simp only [extra] at h1 ⊢
    simp only [plan, List.zip_cons_cons, List.map_cons, List.sum_cons, h1]
    omega

theorem plan_drop (limit : Nat) : ∀ (vs : List Info) (k j : Nat) (ref : Nat → Nat), (plan limit k vs ref).1.drop j = (plan limit (k + j) (vs.drop j) ref).1 := by
  intro vs
  induction vs with
  | nil => intro k j ref; simp [plan]
  | cons v vs ih =>
    intro k j ref
    cases j with
    | zero => rfl
    | succ j => simp only [plan, List.drop_succ_cons, ih]; rw [show k + 1 + j = k + (j + 1) by omega]

theorem decide_facts (limit m mc : Nat) (hl : 2 ≤ limit) : (0 < (decideVar limit m mc).1 → (decideVar limit m mc).2 = 0) ∧
    (mc ≤ 1 → (decideVar limit m mc).1 = 0) ∧ m + (decideVar limit m mc).2 ≤ limit * (1 + (decideVar limit m mc).1 + (decideVar limit m mc).2) := by
  unfold decideVar
  split
  · rename_i h
    refine ⟨fun _ => rfl, ?_, ?_⟩
    · intro hm
      rw [show max mc 1 = 1 by omega, Nat.one_mul] at h
      have : (m + limit - 1) / limit ≤ 1 := by
        rw [Nat.div_le_iff_le_mul_add_pred (by omega)]; omega
      show max _ 1 - 1 = 0
      omega
    · show m + 0 ≤ limit * (1 + (max ((m + limit - 1) / limit) 1 - 1) + 0)
      have h1 : m ≤ limit * ((m + limit - 1) / limit) := by
        have := Nat.div_add_mod (m + limit - 1) limit
        have := Nat.mod_lt (m + limit - 1) (show 0 < limit by omega)
        omega
      have h2 : limit * ((m + limit - 1) / limit) ≤ limit * (1 + (max ((m + limit - 1) / limit) 1 - 1) + 0) := Nat.mul_le_mul_left _ (by omega)
      omega
  · rename_i h
    have hm : limit < m := by
      have : limit ≤ max mc 1 * limit := Nat.le_mul_of_pos_left _ (by omega)
      omega
    refine ⟨fun h => absurd h (by simp), fun _ => rfl, ?_⟩
    show m + (m - 2) / (limit - 1) ≤ limit * (1 + 0 + (m - 2) / (limit - 1))
    have h1 := Nat.div_add_mod (m - 2) (limit - 1)
    have h2 := Nat.mod_lt (m - 2) (show 0 < limit - 1 by omega)
    generalize (m - 2) / (limit - 1) = r at h1 ⊢
    have h3 : limit * (1 + 0 + r) = limit + (limit - 1) * r + r := by
      obtain ⟨l, rfl⟩ : ∃ l, limit = l + 1 := ⟨limit - 1, by omega⟩
      simp only [Nat.add_sub_cancel, Nat.add_mul, Nat.mul_add]; omega
    omega

theorem plan_facts (limit : Nat) (hl : 2 ≤ limit) : ∀ (vs : List Info) (k j : Nat) (ref : Nat → Nat) (v : Info) (d : Nat × Nat), vs[j]? = some v →
    (plan limit k vs ref).1[j]? = some d → d = decideVar limit (ref (k + j) + extra (vs.drop (j + 1)) ((plan limit k vs ref).1.drop (j + 1)) (k + j)) v.maxCopy := by
  intro vs
  induction vs with
  | nil => intro k j ref v d h; simp at h
  | cons w vs ih =>
    intro k j ref v d h1 h2
    cases j with
    | zero =>
      simp only [List.getElem?_cons_zero, Option.some.injEq] at h1
      simp only [plan, List.getElem?_cons_zero, Option.some.injEq] at h2
      rw [← h2, ← h1, plan_ref]; rfl
    | succ j =>
      simp only [List.getElem?_cons_succ] at h1
      simp only [plan, List.getElem?_cons_succ] at h2
      have := ih (k + 1) j ref v d h1 h2
      rw [show k + (j + 1) = k + 1 + j by omega]
      simpa only [plan, List.drop_succ_cons] using this

/-- Every definition uses earlier variables only. -/
def Earlier (vs : List Info) : Prop := ∀ (i : Nat) (v : Info), vs[i]? = some v → ∀ x ∈ v.quads, x ≤ i ∧ x ≠ 0

theorem count_zero_prefix (vs : List Info) (h : Earlier vs) (j x : Nat) (hx : j ≤ x) : ((vs.take j).flatMap (·.quads)).count x = 0 := by
  rw [List.count_eq_zero]
  intro hm
  obtain ⟨v, hv, hxv⟩ := List.mem_flatMap.1 hm
  obtain ⟨i, hi, rfl⟩ := List.getElem_of_mem hv
  rw [List.length_take] at hi
  have := h i _ (by rw [List.getElem_take]; exact List.getElem?_eq_getElem (by omega)) x hxv
  omega

/-- The decisions of a circuit with definitions `vs`. -/
def planOf' (limit : Nat) (vs : List Info) : List (Nat × Nat) := (0, 0) :: (plan limit 1 vs (fun x => (vs.flatMap (·.quads)).count x)).1

theorem need_split (vs : List Info) (ps : List (Nat × Nat)) (j : Nat) : needList vs ps = needList (vs.take j) (ps.take j) ++ needList (vs.drop j) (ps.drop j) := by
  unfold needList
  rw [← List.flatMap_append]
  congr 1
  induction j generalizing vs ps with
  | zero => simp
  | succ j ih =>
    cases vs with
    | nil => simp
    | cons v vs =>
      cases ps with
      | nil => simp
      | cons p ps => simpa using ih vs ps

/-- Every variable gets enough copies and relays. -/
theorem plan_bound (limit : Nat) (hl : 2 ≤ limit) (vs : List Info) (he : Earlier vs) (x : Nat) (hx0 : x ≠ 0) (hx : x ≤ vs.length) :
    (needList vs ((planOf' limit vs).drop 1)).count x + ((planOf' limit vs).getD x (0, 0)).2 ≤
      limit * (1 + ((planOf' limit vs).getD x (0, 0)).1 + ((planOf' limit vs).getD x (0, 0)).2) := by
  obtain ⟨j, rfl⟩ : ∃ j, x = j + 1 := ⟨x - 1, by omega⟩
  have hv : vs[j]? = some vs[j] := List.getElem?_eq_getElem (by omega)
  have hlen := plan_length limit vs 1 (fun x => (vs.flatMap (·.quads)).count x)
  simp only [planOf', List.drop_succ_cons, List.drop_zero, List.getD_cons_succ]
  generalize hps : (plan limit 1 vs (fun x => (vs.flatMap (·.quads)).count x)).1 = ps at hlen ⊢
  have hd : ps[j]? = some ps[j] := List.getElem?_eq_getElem (by omega)
  have hf := plan_facts limit hl vs 1 j (fun x => (vs.flatMap (·.quads)).count x) _ ps[j] hv (by rw [hps]; exact hd)
  rw [hps] at hf
  have hD := (decide_facts limit ((vs.flatMap (·.quads)).count (1 + j) + extra (vs.drop (j + 1)) (ps.drop (j + 1)) (1 + j)) vs[j].maxCopy hl).2.2
  rw [← hf] at hD
  have hgd : ps.getD j (0, 0) = ps[j] := by simp [List.getD, hd]
  rw [hgd]
  have hn : (needList vs ps).count (j + 1) = (vs.flatMap (·.quads)).count (1 + j) + extra (vs.drop (j + 1)) (ps.drop (j + 1)) (1 + j) := by
    have hq : (vs.flatMap (·.quads)).count (j + 1) = ((vs.drop (j + 1)).flatMap (·.quads)).count (j + 1) := by
      conv_lhs => rw [← List.take_append_drop (j + 1) vs, List.flatMap_append, List.count_append, count_zero_prefix vs he _ _ (Nat.le_refl _), Nat.zero_add]
    rw [show 1 + j = j + 1 by omega, hq, ← need_count _ _ _ (by simp [hlen]), need_split vs ps (j + 1), List.count_append]
    have h0 : (needList (vs.take (j + 1)) (ps.take (j + 1))).count (j + 1) = 0 := by
      rw [List.count_eq_zero]
      intro hm
      simp only [needList, List.mem_flatMap] at hm
      obtain ⟨p, hp, hm⟩ := hm
      have hp1 := List.of_mem_zip hp
      rw [List.mem_flatten] at hm
      obtain ⟨l, hl, hm⟩ := hm
      have := List.eq_of_mem_replicate hl
      subst this
      have hc := count_zero_prefix vs he (j + 1) (j + 1) (Nat.le_refl _)
      rw [List.count_eq_zero] at hc
      exact hc (List.mem_flatMap.2 ⟨p.1, hp1.1, hm⟩)
    omega
  rw [hn]; exact hD

theorem planOf_ok (limit : Nat) (hl : 2 ≤ limit) (vs : List Info) : PlanOk (planOf' limit vs) vs := by
  have hlen := plan_length limit vs 1 (fun x => (vs.flatMap (·.quads)).count x)
  refine ⟨?_, ?_⟩
  · intro x hx
    cases x with
    | zero => simp [planOf'] at hx
    | succ j =>
      simp only [planOf', List.getD_cons_succ] at hx ⊢
      by_cases hj : j < vs.length
      · have hd : (plan limit 1 vs (fun x => (vs.flatMap (·.quads)).count x)).1[j]? = some (plan limit 1 vs (fun x => (vs.flatMap (·.quads)).count x)).1[j] :=
          List.getElem?_eq_getElem (by omega)
        have hf := plan_facts limit hl vs 1 j _ _ _ (List.getElem?_eq_getElem hj) hd
        simp only [List.getD, hd, Option.getD_some] at hx ⊢
        rw [hf] at hx ⊢
        exact (decide_facts limit _ _ hl).1 hx
      · simp only [List.getD] at hx
        rw [List.getElem?_eq_none (by omega)] at hx; simp at hx
  · intro x v hv hm
    have hj : x < vs.length := (List.getElem?_eq_some_iff.1 hv).1
    simp only [planOf', List.getD_cons_succ]
    have hd : (plan limit 1 vs (fun x => (vs.flatMap (·.quads)).count x)).1[x]? = some (plan limit 1 vs (fun x => (vs.flatMap (·.quads)).count x)).1[x] :=
      List.getElem?_eq_getElem (by omega)
    have hf := plan_facts limit hl vs 1 x _ _ _ hv hd
    simp only [List.getD, hd, Option.getD_some]
    rw [hf]
    exact (decide_facts limit _ _ hl).2.1 hm

/-! ### Queues -/

def cap (q : List (Nat × Nat)) : Nat := (q.map Prod.snd).sum
def room (q : List (Nat × Nat)) (id : Nat) : Nat := ((q.filter (fun p => p.1 = id)).map Prod.snd).sum

theorem cap_append (a b : List (Nat × Nat)) : cap (a ++ b) = cap a + cap b := by simp [cap]
theorem room_append (a b : List (Nat × Nat)) (id : Nat) : room (a ++ b) id = room a id + room b id := by simp [room]

theorem getAux_cap (d : Nat) : ∀ (q : List (Nat × Nat)), 1 ≤ cap q → cap (getAux d q).2 + 1 = cap q ∧
    ∀ id, room (getAux d q).2 id + (if id = (getAux d q).1 then 1 else 0) = room q id := by
  intro q
  induction q with
  | nil => intro h; simp [cap] at h
  | cons a q ih =>
    intro h
    obtain ⟨i, n⟩ := a
    cases n with
    | zero =>
      have h' : 1 ≤ cap q := by simpa [cap] using h
      obtain ⟨h1, h2⟩ := ih h'
      refine ⟨by simpa [getAux, cap] using h1, fun id => ?_⟩
      have h3 := h2 id
      have h4 : room ((i, 0) :: q) id = room q id := by simp only [room, List.filter_cons]; split <;> simp
      have h5 : getAux d ((i, 0) :: q) = getAux d q := rfl
      rw [h4, h5]; exact h3
    | succ n =>
      refine ⟨by simp [getAux, cap]; omega, fun id => ?_⟩
      simp only [getAux, room, List.filter_cons]
      by_cases e : i = id
      · subst e; simp; omega
      · simp [e, Ne.symm e]

/-- The next ids the queue returns. -/
def gets : Nat → Q → List Nat
  | 0, _ => []
  | n + 1, q => q.get.1 :: gets n q.get.2

theorem gets_count : ∀ (n : Nat) (q : Q) (id : Nat), n ≤ cap q.queue → (gets n q).count id ≤ room q.queue id := by
  intro n
  induction n with
  | zero => intro q id _; simp [gets]
  | succ n ih =>
    intro q id h
    obtain ⟨h1, h2⟩ := getAux_cap q.dflt q.queue (by omega)
    have := ih q.get.2 id (by simp only [Q.get]; omega)
    have h3 := h2 id
    simp only [gets, List.count_cons]
    simp only [Q.get, beq_iff_eq] at this ⊢
    split
    · rename_i e; rw [e] at h3; simp at h3; omega
    · rename_i e; rw [if_neg (Ne.symm e)] at h3; omega

theorem gets_empty (n d : Nat) : gets n ⟨[], d⟩ = List.replicate n d := by
  induction n with
  | zero => rfl
  | succ n ih => simp only [gets, Q.get, getAux, ih, List.replicate_succ]

variable {npi : Option Nat} {E : Env F}

/-- A block of single-output instructions whose inputs lie in `1..mx`. -/
structure Block (E : Env F) (npi : Option Nat) (mx : Nat) (js : List (Insn F)) : Prop where
  ok : InsnsOk (dest E true) npi mx js
  nv : numVars (L := dest E true) mx js = mx + js.length
  nocall : ∀ j ∈ js, j.asCall = none

theorem Block.nil (mx : Nat) : Block E npi mx ([] : List (Insn F)) := ⟨trivial, rfl, by simp⟩

theorem Block.append {mx : Nat} {js ks : List (Insn F)} (h1 : Block E npi mx js) (h2 : Block E npi (mx + js.length) ks) : Block E npi mx (js ++ ks) := by
  have happ : numVars (L := dest E true) mx (js ++ ks) = numVars (L := dest E true) (numVars (L := dest E true) mx js) ks := by simp [numVars, List.foldl_append]
  refine ⟨(insnsOk_append _ _ _).2 ⟨h1.ok, by rw [h1.nv]; exact h2.ok⟩, ?_, ?_⟩
  · rw [happ, h1.nv, h2.nv, List.length_append, Nat.add_assoc]
  · intro j hj
    rcases List.mem_append.1 hj with hj | hj
    · exact h1.nocall j hj
    · exact h2.nocall j hj

theorem Block.single {mx : Nat} {j : Insn F} (hc : j.asCall = none) (hi : ∀ v ∈ j.inputs, v ≤ mx ∧ v ≠ 0) (hv : validAt (dest E true) npi j = true) :
    Block E npi mx [j] := by
  have hn : (dest E true).numOutputs j = 1 := by cases j <;> simp_all [Insn.asCall, Insn.numOutputs]
  exact ⟨⟨hi, hv, Or.inl rfl, trivial⟩, by rw [numVars_cons (L := dest E true), hn]; rfl, by simpa using hc⟩

theorem Block.replicate {mx : Nat} {j : Insn F} (hc : j.asCall = none) (hi : ∀ v ∈ j.inputs, v ≤ mx ∧ v ≠ 0) (hv : validAt (dest E true) npi j = true) :
    ∀ n, Block E npi mx (List.replicate n j) := by
  have h : ∀ n mx', mx ≤ mx' → Block E npi mx' (List.replicate n j) := by
    intro n
    induction n with
    | zero => intro mx' _; exact Block.nil mx'
    | succ n ih =>
      intro mx' hm
      exact (Block.single hc (fun v hv => by have := hi v hv; omega) hv).append (ih (mx' + 1) (by omega))
  exact fun n => h n mx (Nat.le_refl _)

theorem internal_valid (e : Expr F) : validAt (dest E true) npi (.internal e) = true := by cases npi <;> rfl

/-- `q'` offers only ids of `q` and ids in `(mx, mx + n]`. -/
def Grows (q q' : Q) (mx n : Nat) : Prop := q'.dflt = q.dflt ∧ ∀ id ∈ q'.ids, id ∈ q.ids ∨ (mx < id ∧ id ≤ mx + n)

theorem relays_limit (limit : Nat) (hl : 2 ≤ limit) : ∀ (r : Nat) (q : Q) (mx : Nat), 1 ≤ cap q.queue → (∀ id, room q.queue id ≤ limit) →
    (∀ id ∈ q.ids, id ≤ mx ∧ id ≠ 0) →
    Block E npi mx (relays (F := F) limit r q mx).1 ∧ (relays (F := F) limit r q mx).1.length = r ∧ Grows q (relays (F := F) limit r q mx).2 mx r ∧
      (∀ id, room (relays (F := F) limit r q mx).2.queue id ≤ limit) ∧ cap (relays (F := F) limit r q mx).2.queue + r = cap q.queue + r * limit ∧
      (∀ j ∈ (relays (F := F) limit r q mx).1, insnQuads j = []) := by
  intro r
  induction r with
  | zero => intro q mx _ hr _; exact ⟨Block.nil mx, rfl, ⟨rfl, fun id h => Or.inl h⟩, hr, by simp [relays], by simp [relays]⟩
  | succ r ih =>
    intro q mx hc hr hi
    obtain ⟨g1, g2⟩ := getAux_cap q.dflt q.queue hc
    have hy := hi _ q.get_mem
    have hnew : room (getAux q.dflt q.queue).2 (mx + 1) = 0 := by
      simp only [room]
      rw [List.filter_eq_nil_iff.2]; rfl
      intro p hp
      have h1 := hi p.1 (q.get_ids p.1 (by simp only [Q.ids, Q.get, List.mem_cons]; exact Or.inr (List.mem_map_of_mem hp)))
      simp; omega
    have hcap : cap (q.get.2.push (mx + 1) limit).queue + 1 = cap q.queue + limit := by
      simp only [Q.push, Q.get, cap_append]; simp [cap] at g1 ⊢; omega
    obtain ⟨i1, i2, i3, i4, i5, i6⟩ := ih (q.get.2.push (mx + 1) limit) (mx + 1) (by omega) (by
        intro id
        simp only [Q.push, Q.get, room_append]
        have := g2 id
        have := hr id
        by_cases e : mx + 1 = id
        · subst e; rw [hnew]; simp [room]
        · simp [room, e] at *; omega) (by
        intro id hid
        rcases (ids_push _ _ _ id).1 hid with hid | rfl
        · have := hi id (q.get_ids id hid); omega
        · omega)
    refine ⟨?_, by simp [relays, i2], ⟨i3.1, ?_⟩, i4, ?_, ?_⟩
    · refine (Block.single (j := .internal [⟨1, .linear q.get.1⟩]) rfl ?_ (internal_valid _)).append i1
      intro v hv
      simp [Insn.inputs, Expr.getVars, VarSpec.vars] at hv
      subst hv; exact hy
    · intro id hid
      rcases i3.2 id hid with h | h
      · rcases (ids_push _ _ _ id).1 h with h | rfl
        · exact Or.inl (q.get_ids id h)
        · right; omega
      · right; omega
    · simp only [relays]
      rw [Nat.add_mul]; omega
    · intro j hj
      simp only [relays, List.mem_cons] at hj
      rcases hj with rfl | hj
      · rfl
      · exact i6 j hj

theorem solveVar_limit (limit : Nat) (hl : 2 ≤ limit) (p : Nat × Nat) (last : Option (Insn F)) (d mx n : Nat) (js : List (Insn F)) (q' : Q)
    (h : solveVar limit p last ⟨[], d⟩ mx = some (js, q')) (hd : d ≤ mx ∧ d ≠ 0) (hn : n + p.2 ≤ limit * (1 + p.1 + p.2))
    (hlast : 0 < p.1 → ∃ c, last = some (.constantLike c) ∧ validAt (dest E true) npi (.constantLike c) = true) :
    Block E npi mx js ∧ Grows ⟨[], d⟩ q' mx js.length ∧ (∀ id, (gets n q').count id ≤ limit) ∧ (∀ j ∈ js, insnQuads j = []) := by
  obtain ⟨a, r⟩ := p
  simp only [solveVar] at h
  have room1 : ∀ (x id : Nat), room [(x, limit)] id ≤ limit := by
    intro x id
    simp only [room, List.filter_cons, List.filter_nil]
    split <;> simp
  split at h
  · rename_i hz
    obtain ⟨rfl, rfl⟩ := hz
    simp only [Option.some.injEq, Prod.mk.injEq] at h
    obtain ⟨rfl, rfl⟩ := h
    refine ⟨Block.nil mx, ⟨rfl, fun id h => Or.inl h⟩, ?_, by simp⟩
    intro id
    rw [gets_empty]
    have := List.count_le_length (a := id) (l := List.replicate n d)
    simp at this hn
    omega
  · cases a with
    | zero =>
      simp only [Option.some.injEq] at h
      obtain ⟨i1, i2, i3, i4, i5, i6⟩ := relays_limit (npi := npi) (E := E) limit hl r ((⟨[], d⟩ : Q).push d limit) mx (by simp [Q.push, cap]; omega)
        (by intro id; simpa [Q.push] using room1 d id) (by intro id hid; simp [Q.ids, Q.push] at hid; subst hid; exact hd)
      have e : relays limit r ((⟨[], d⟩ : Q).push d limit) mx = (js, q') := h
      rw [e] at i1 i2 i3 i4 i5 i6
      refine ⟨i1, ⟨i3.1, ?_⟩, ?_, i6⟩
      · intro id hid
        rcases i3.2 id hid with h1 | h1
        · left; simpa [Q.ids, Q.push] using h1
        · right; rw [i2]; exact h1
      · intro id
        refine Nat.le_trans (gets_count n q' id ?_) (i4 id)
        simp only [Q.push, cap, List.nil_append, List.map_cons, List.map_nil, List.sum_cons, List.sum_nil] at i5
        simp only [Nat.mul_add, Nat.mul_one] at hn
        rw [Nat.mul_comm r limit] at i5
        simp only [cap]
        omega
    | succ a =>
      obtain ⟨c, rfl, hcv⟩ := hlast (by simp)
      simp only [Option.some.injEq] at h
      have hcp : ∀ (k m : Nat), cap ((List.range' m k).map (fun i => (i, limit))) = k * limit := by
        intro k
        induction k with
        | zero => intro m; simp [cap]
        | succ k ihk => intro m; have := ihk (m + 1); simp only [cap] at this; simp only [List.range'_succ, List.map_cons, cap, List.sum_cons, this, Nat.add_mul]; omega
      have hrm : ∀ (k m id : Nat), room ((List.range' m k).map (fun i => (i, limit))) id ≤ (if m ≤ id then limit else 0) := by
        intro k
        induction k with
        | zero => intro m id; simp [room]
        | succ k ihk =>
          intro m id
          have := ihk (m + 1) id
          simp only [room] at this
          simp only [List.range'_succ, List.map_cons, room, List.filter_cons]
          by_cases e : m = id
          · subst e
            rw [if_neg (by omega)] at this
            simp at this ⊢
            omega
          · simp only [e, decide_false, Bool.false_eq_true, if_false]
            split at this
            · rw [if_pos (by omega)]; exact this
            · omega
      obtain ⟨i1, i2, i3, i4, i5, i6⟩ := relays_limit (npi := npi) (E := E) limit hl r (pushCopies limit (a + 1) mx ((⟨[], d⟩ : Q).push d limit)) (mx + (a + 1))
        (by simp [pushCopies, Q.push, cap]; omega)
        (by
          intro id
          simp only [pushCopies, Q.push, List.nil_append, room_append]
          have h1 := hrm (a + 1) (mx + 1) id
          split at h1
          · have : room [(d, limit)] id = 0 := by simp only [room, List.filter_cons, List.filter_nil]; rw [if_neg (by simp; omega)]; rfl
            omega
          · have := room1 d id; omega)
        (by
          intro id hid
          simp only [Q.ids, pushCopies, Q.push, List.nil_append, List.map_append, List.mem_cons, List.mem_append, List.map_cons, List.map_nil, List.map_map,
            List.not_mem_nil, or_false] at hid
          rcases hid with rfl | rfl | hid
          · omega
          · omega
          · obtain ⟨k, hk, rfl⟩ := List.mem_map.1 hid
            obtain ⟨i, hi, rfl⟩ := List.mem_range'.1 hk
            simp; omega)
      generalize relays (F := F) limit r (pushCopies limit (a + 1) mx ((⟨[], d⟩ : Q).push d limit)) (mx + (a + 1)) = rr at *
      have e1 : js = List.replicate (a + 1) (Insn.constantLike c) ++ rr.1 := (congrArg Prod.fst h).symm
      have e2 : q' = rr.2 := (congrArg Prod.snd h).symm
      subst e1 e2
      refine ⟨?_, ⟨i3.1, ?_⟩, ?_, ?_⟩
      · exact (Block.replicate rfl (by simp [Insn.inputs]) hcv (a + 1)).append (by simpa using i1)
      · intro id hid
        rw [List.length_append, List.length_replicate, i2]
        rcases i3.2 id hid with h1 | h1
        · simp only [Q.ids, pushCopies, Q.push, List.nil_append, List.map_append, List.mem_cons, List.mem_append, List.map_cons, List.map_nil, List.map_map,
            List.not_mem_nil, or_false] at h1
          rcases h1 with rfl | rfl | h1
          · left; simp [Q.ids]
          · left; simp [Q.ids]
          · obtain ⟨k, hk, rfl⟩ := List.mem_map.1 h1
            obtain ⟨i, hi, rfl⟩ := List.mem_range'.1 hk
            right; simp; omega
        · right; omega
      · intro id
        refine Nat.le_trans (gets_count n rr.2 id ?_) (i4 id)
        simp only [pushCopies, Q.push, List.nil_append, cap_append, hcp] at i5
        simp only [cap, List.map_cons, List.map_nil, List.sum_cons, List.sum_nil] at i5
        have e3 : limit * (1 + (a + 1) + r) = limit + (a + 1) * limit + r * limit := by
          rw [Nat.mul_add, Nat.mul_add, Nat.mul_one, Nat.mul_comm limit (a + 1), Nat.mul_comm limit r]
        simp only [e3] at hn
        simp only [cap]
        omega
      · intro j hj
        rcases List.mem_append.1 hj with hj | hj
        · rw [List.eq_of_mem_replicate hj]; rfl
        · exact i6 j hj

end MulFanout
end Verif.IR
