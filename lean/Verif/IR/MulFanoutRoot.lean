import Verif.IR.MulFanoutFan

/-!
# `solve_mul_fanout_limit` on whole circuits
-/

set_option linter.unusedSectionVars false
set_option linter.unusedSimpArgs false

namespace Verif.IR

variable {F : Type} [Field F] [DecidableEq F]

namespace MulFanout

open Dest Verif.IR.SolveDup MapCircuits

variable {npi : Option Nat} {E : Env F}

theorem infos_length (n : Nat) (is : List (Insn F)) : (infos n is).length = numVars (L := dest E true) n is := by
  simp only [infos, List.length_append, List.length_replicate]
  induction is generalizing n with
  | nil => rfl
  | cons i is ih =>
    rw [numVars_cons (L := dest E true), ← ih, List.flatMap_cons, List.length_append, insnInfos_length]
    show _ = n + i.numOutputs + _
    omega

theorem infos_earlier : ∀ (is : List (Insn F)) (pre : List Info), Earlier pre → InsnsOk (dest E true) npi pre.length is → Earlier (pre ++ is.flatMap insnInfos) := by
  intro is
  induction is with
  | nil => intro pre h _; simpa using h
  | cons i is ih =>
    intro pre h hok
    obtain ⟨hin, _, _, hok'⟩ := hok
    rw [List.flatMap_cons, ← List.append_assoc]
    refine ih _ ?_ (by rw [List.length_append, insnInfos_length]; exact hok')
    intro k v hv x hx
    by_cases hk : k < pre.length
    · rw [List.getElem?_append_left hk] at hv; exact h k v hv x hx
    · rw [List.getElem?_append_right (by omega)] at hv
      have hm := List.mem_of_getElem? hv
      cases i with
      | constantLike c => simp [insnInfos] at hm; subst hm; cases hx
      | call c xs n => simp [insnInfos] at hm; rw [hm.2] at hx; cases hx
      | internal e =>
        simp [insnInfos] at hm; subst hm
        have hxe : x ∈ Expr.getVars e := by
          obtain ⟨t, ht, hxt⟩ := List.mem_flatMap.1 hx
          refine List.mem_flatMap.2 ⟨t, ht, ?_⟩
          obtain ⟨c, w⟩ := t
          cases w <;> simp_all [termQuads, VarSpec.vars]
        have := hin x hxe
        omega

theorem need_nil (vs : List Info) (ps : List (Nat × Nat)) (h : ∀ v ∈ vs, v.quads = []) : needList vs ps = [] := by
  simp only [needList, List.flatMap_eq_nil_iff]
  intro p hp
  have := h p.1 (List.of_mem_zip hp).1
  rw [this]
  simp

theorem todo_need (pl : List (Nat × Nat)) (y : Nat) : ∀ (is : List (Insn F)) (cur : Nat), pl.length = cur + 1 + (is.flatMap insnInfos).length →
    todoOf pl cur is y = (needList (is.flatMap insnInfos) (pl.drop (cur + 1))).count y := by
  intro is
  induction is with
  | nil => intro cur _; simp [todoOf, needList]
  | cons i is ih =>
    intro cur h
    rw [List.flatMap_cons, List.length_append, insnInfos_length] at h
    rw [List.flatMap_cons, need_split _ _ (insnInfos i).length, List.take_left, List.drop_left, List.count_append, List.drop_drop, insnInfos_length]
    rw [todoOf, ih (cur + i.numOutputs) (by omega), show cur + 1 + i.numOutputs = cur + i.numOutputs + 1 by omega]
    congr 1
    cases i with
    | constantLike c => rw [need_nil]; simp [insnQuads]; simp [insnInfos]
    | call c xs n => rw [need_nil]; simp [insnQuads]; simp [insnInfos]
    | internal e =>
      have hlt : cur + 1 < pl.length := by simp [Insn.numOutputs] at h; omega
      have hd : pl.drop (cur + 1) = pl[cur + 1] :: pl.drop (cur + 2) := List.drop_eq_getElem_cons hlt
      simp only [Insn.numOutputs, hd, List.take_succ_cons, List.take_zero, insnInfos, needList, List.zip_cons_cons, List.zip_nil_left, List.flatMap_cons, List.flatMap_nil,
        List.append_nil, count_replicate_flatten, insnQuads, List.getD, List.getElem?_eq_getElem hlt, Option.getD_some]

theorem planOf_length (limit n : Nat) (is : List (Insn F)) : (planOf limit n is).length = 1 + (infos n is).length := by
  simp [planOf, plan_length]; omega

theorem need_bound (limit : Nat) (hl : 2 ≤ limit) (n : Nat) (is : List (Insn F)) (hok : InsnsOk (dest E true) npi n is) (x : Nat) (hx : x ≠ 0) :
    todoOf (planOf limit n is) n is x + ((planOf limit n is).getD x (0, 0)).2 ≤
      limit * (1 + ((planOf limit n is).getD x (0, 0)).1 + ((planOf limit n is).getD x (0, 0)).2) := by
  have he : Earlier (infos n is) := by
    refine infos_earlier (npi := npi) (E := E) is _ ?_ (by simpa using hok)
    intro k v hv x hx
    have := List.mem_of_getElem? hv
    simp at this
    rw [this.2] at hx; cases hx
  have hpl : planOf limit n is = planOf' limit (infos n is) := rfl
  have e : todoOf (planOf limit n is) n is x = (needList (infos n is) ((planOf limit n is).drop 1)).count x := by
    rw [todo_need _ _ _ _ (by rw [planOf_length]; simp [infos]; omega)]
    rw [need_split (infos n is) _ n]
    have h1 : (infos n is).take n = List.replicate n ⟨[], 0⟩ := by simp [infos]
    have h2 : (infos n is).drop n = is.flatMap insnInfos := by
      simp only [infos]; rw [List.drop_append_of_le_length (by simp)]; simp
    rw [h1, h2, need_nil (List.replicate n ⟨[], 0⟩) _ (by simp), List.nil_append, List.drop_drop, Nat.add_comm 1 n]
  rw [e]
  by_cases hle : x ≤ (infos n is).length
  · rw [hpl]; exact plan_bound limit hl _ he x hx hle
  · have h1 : (planOf limit n is).getD x (0, 0) = (0, 0) := by
      simp only [List.getD]
      rw [List.getElem?_eq_none (by rw [planOf_length]; omega)]; rfl
    rw [h1]
    have h2 : (needList (infos n is) ((planOf limit n is).drop 1)).count x = 0 := by
      rw [List.count_eq_zero]
      intro hm
      simp only [needList, List.mem_flatMap] at hm
      obtain ⟨p, hp, hm⟩ := hm
      have hp1 := List.of_mem_zip hp
      rw [List.mem_flatten] at hm
      obtain ⟨l, hl, hm⟩ := hm
      have := List.eq_of_mem_replicate hl
      subst this
      obtain ⟨i, hi, e⟩ := List.getElem_of_mem hp1.1
      have := he i p.1 (by rw [List.getElem?_eq_getElem hi, e]) x hm
      omega
    rw [h2]; omega

theorem init_get (n x : Nat) (q : Q) : (init (F := F) n).newId[x]? = some q ↔ x ≤ n ∧ q = ⟨[], x⟩ := by
  simp only [init, List.getElem?_map]
  by_cases h : x < n + 1
  · rw [List.getElem?_range h]; simp; constructor
    · rintro rfl; exact ⟨by omega, rfl⟩
    · rintro ⟨_, rfl⟩; rfl
  · rw [List.getElem?_eq_none (by simp; omega)]; simp; omega

theorem init_ids (n x id : Nat) : IdsAt (init (F := F) n).newId x id ↔ x ≤ n ∧ id = x := by
  constructor
  · rintro ⟨q, hq, hid⟩
    obtain ⟨h1, rfl⟩ := (init_get n x q).1 hq
    exact ⟨h1, by simpa [Q.ids] using hid⟩
  · rintro ⟨h1, rfl⟩
    exact ⟨_, (init_get n id _).2 ⟨h1, rfl⟩, by simp [Q.ids]⟩

theorem init_linv (limit n : Nat) (todo : Nat → Nat) : LInv limit (fun _ => 0) todo (init (F := F) n) := by
  refine ⟨?_, ?_, ?_, fun _ => Nat.zero_le _, fun _ _ => rfl, ?_, ?_⟩
  · intro x id h h0
    obtain ⟨h1, rfl⟩ := (init_ids n x id).1 h
    exact ⟨h1, h0⟩
  · intro id h; exact ((init_ids n 0 id).1 h).2
  · intro x y id h1 h2
    have := ((init_ids n x id).1 h1).2
    have := ((init_ids n y id).1 h2).2
    omega
  · intro x q _ h0 hle
    have : x ≤ 0 := hle
    omega
  · intro x q hq _
    obtain ⟨_, rfl⟩ := (init_get n x q).1 hq
    exact ⟨rfl, rfl⟩

theorem init_plan (limit n : Nat) (is : List (Insn F)) (hpl : PlanOk (planOf limit n is) (infos n is)) (x : Nat) (hx0 : 0 < x) (hx : x < n + 1) :
    ((planOf limit n is).getD x (0, 0)).1 = 0 := by
  have := hpl.small (x - 1) ⟨[], 0⟩ (by
    simp only [infos]
    rw [List.getElem?_append_left (by simp; omega), List.getElem?_replicate, if_pos (by omega)]) (by simp)
  rwa [show x - 1 + 1 = x by omega] at this

theorem init_sem (n : Nat) (ins : List F) (hi : ins.length = n) : SemInv (init (F := F) n).newId (0 :: ins) (0 :: ins) := by
  refine ⟨by simp [init, hi], ?_⟩
  intro x id h
  obtain ⟨_, rfl⟩ := (init_ids n x id).1 h
  rfl

/-- The circuit the loop produces. -/
def outOf (circ : Circuit (dest E true)) (r : List (Insn F) × St F) : Circuit (dest E true) :=
  ⟨r.1, circ.constraints.map (fun k => ⟨k.typ, dfltAt r.2.newId k.var⟩), circ.outputs.map (dfltAt r.2.newId), circ.numInputs⟩

theorem loop_empty (limit : Nat) (pl : List (Nat × Nat)) : ∀ (is : List (Insn F)) (s : St F), s.newId.length = 1 → s.solved = 0 → InsnsOk (dest E true) npi 0 is →
    is.flatMap insnInfos = [] → ∃ s', loop limit pl is s = some (is, s') := by
  intro is
  induction is with
  | nil => intro s _ _ _ _; exact ⟨s, rfl⟩
  | cons i is ih =>
    intro s h1 h2 hok hn
    rw [List.flatMap_cons, List.append_eq_nil_iff] at hn
    obtain ⟨hin, _, _, hok'⟩ := hok
    cases i with
    | constantLike c => simp [insnInfos] at hn
    | internal e => simp [insnInfos] at hn
    | call c xs n =>
      have hn0 : n = 0 := by simpa [insnInfos] using hn.1
      subst hn0
      have hxs : xs = [] := by
        cases xs with
        | nil => rfl
        | cons x xs => have := hin x (by simp [Insn.inputs]); omega
      subst hxs
      obtain ⟨s', hs'⟩ := ih ⟨s.newId ++ [], s.solved, some (.call c [] 0), s.mx + 0⟩ (by simpa using h1) h2 hok' hn.2
      refine ⟨s', ?_⟩
      have e0 : s.newId.length - 1 - s.solved = 0 := by omega
      simp only [loop, e0, solveAll]
      simp only [stepInsn, List.range_zero, List.all_nil, if_true, List.map_nil, List.range'_zero]
      rw [hs']; rfl

/-- In all cases the result is the one of the loop. -/
theorem solve_eq (limit : Nat) (circ : Circuit (dest E true)) (hok : CircOk npi circ) (r : List (Insn F) × St F)
    (hr : loop limit (planOf limit circ.numInputs circ.instructions) circ.instructions (init circ.numInputs) = some r) :
    solveCircuit E limit circ = some (outOf circ r) := by
  simp only [solveCircuit]
  split
  · rename_i he
    have he' : infos circ.numInputs circ.instructions = [] := by simpa using he
    simp only [infos, List.append_eq_nil_iff, List.replicate_eq_nil_iff] at he'
    obtain ⟨h0, h1⟩ := he'
    have hnv : numVars (L := dest E true) circ.numInputs circ.instructions = 0 := by
      rw [← infos_length]; simpa using he
    have hok1 := hok.insns
    rw [h0] at hok1
    obtain ⟨s', hs'⟩ := loop_empty (npi := npi) limit (planOf limit circ.numInputs circ.instructions) circ.instructions (init circ.numInputs)
      (by simp [init, h0]) rfl hok1 h1
    rw [hr] at hs'
    cases hs'
    have hc : circ.constraints = [] := by
      rcases hcc : circ.constraints with _ | ⟨k, ks⟩
      · rfl
      · have := hok.cons k (by rw [hcc]; simp); rw [hnv] at this; omega
    have ho : circ.outputs = [] := by
      rcases hcc : circ.outputs with _ | ⟨k, ks⟩
      · rfl
      · have := hok.outs k (by rw [hcc]; simp); rw [hnv] at this; omega
    obtain ⟨is, cs, os, n⟩ := circ
    simp only at hc ho
    subst hc ho
    rfl
  · rw [hr]; rfl

/-- No instruction of the circuit draws a random value. -/
def CircNoRandom (circ : Circuit (dest E true)) : Prop := ∀ j ∈ (circ.instructions : List (Insn F)), NoRandom j

/-- What the pass is about: no variable takes part in more than `limit` products. -/
def Limited (limit : Nat) (circ : Circuit (dest E true)) : Prop := ∀ x, ((circ.instructions : List (Insn F)).flatMap insnQuads).count x ≤ limit

theorem circ_good (limit : Nat) (hl : 2 ≤ limit) (P : Prop) (get : Nat → Option (Circuit (dest E true))) (circ : Circuit (dest E true)) (hok : CircOk npi circ)
    (hcalls : CallsOk get circ.instructions) (hrl : ∀ j ∈ (circ.instructions : List (Insn F)), NoRandomLinear j) (hP : P → CircNoRandom circ)
    (T : Circuit (dest E true) → Circuit (dest E true)) (hT : T circ = (solveCircuit E limit circ).getD circ) :
    (∃ circ', solveCircuit E limit circ = some circ' ∧ Limited limit circ') ∧ Good npi get P T circ := by
  have hpl : PlanOk (planOf limit circ.numInputs circ.instructions) (infos circ.numInputs circ.instructions) := planOf_ok limit hl _
  have hpend : ∀ (vs : List F), Pending E P (planOf limit circ.numInputs circ.instructions) (init circ.numInputs) vs := by
    intro vs x h1 h2 h3
    have h1' : 0 < x := h1
    rw [init_plan limit _ _ hpl x h1' (by simpa [init] using h2)] at h3
    omega
  have hpend0 : ∀ (vs : List F), Pending E False (planOf limit circ.numInputs circ.instructions) (init circ.numInputs) vs := by
    intro vs x h1 h2 h3
    have h1' : 0 < x := h1
    rw [init_plan limit _ _ hpl x h1' (by simpa [init] using h2)] at h3
    omega
  have hpendL : PendLast E npi (planOf limit circ.numInputs circ.instructions) (init circ.numInputs) := by
    intro x h1 h2 h3
    have h1' : 0 < x := h1
    rw [init_plan limit _ _ hpl x h1' (by simpa [init] using h2)] at h3
    omega
  obtain ⟨js, s', hloop, _⟩ := loop_sem (get0 := get) (get := get) (P := False) (npi := npi) limit _ _ hpl circ.instructions (init circ.numInputs)
    (0 :: List.replicate circ.numInputs 0) (0 :: List.replicate circ.numInputs 0) circ.numInputs (List.replicate circ.numInputs ⟨[], 0⟩) rfl (by simp) (by simp)
    (by simp [init]) (by simp [init]) (init_sem _ _ (by simp)) (hpend0 _) hok.insns hcalls hrl (fun h => h.elim)
    (fun i hi d a n hc sub hs => ⟨sub, hs, fun ins _ => ⟨fun _ _ h => h, fun h => h.elim⟩⟩)
  have hres := solve_eq limit circ hok _ hloop
  obtain ⟨l1, l2, l3, l4, u', l5, l6⟩ := loop_limit (npi := npi) (E := E) limit hl _ _ hpl circ.instructions (init circ.numInputs) (fun _ => 0) circ.numInputs
    (List.replicate circ.numInputs ⟨[], 0⟩) js s' rfl (by simp) (by simp [init]) (by simp [init]) (init_linv limit _ _) hpendL hok.insns
    (need_bound limit hl _ _ hok.insns) hloop
  have hTc : T circ = outOf circ (js, s') := by rw [hT, hres]; rfl
  have hrange : ∀ x, x ≤ numVars (L := dest E true) circ.numInputs circ.instructions → x ≠ 0 → dfltAt s'.newId x ≤ s'.mx ∧ dfltAt s'.newId x ≠ 0 := by
    intro x hx h0
    exact l5.range x _ (dfltAt_ids (by omega)) h0
  have hmx : numVars (L := dest E true) circ.numInputs js = s'.mx := l2
  refine ⟨⟨_, hres, ?_⟩, ?_⟩
  · intro x
    have h1 := l6 x
    have h2 := l5.bound x
    show (js.flatMap insnQuads).count x ≤ limit
    omega
  · refine ⟨by rw [hTc]; rfl, by rw [hTc]; simp [outOf], ?_, by rw [hTc]; exact l4, ?_, ?_⟩
    · rw [hTc]; intro h; simpa [outOf] using h
    · rw [hTc]
      refine ⟨l1, ?_, ?_, ?_, Or.inl rfl⟩
      · intro k hk
        obtain ⟨k0, hk0, rfl⟩ := List.mem_map.1 hk
        have := hok.cons k0 hk0
        show dfltAt s'.newId k0.var ≤ numVars (L := dest E true) circ.numInputs js ∧ _
        rw [hmx]; exact hrange _ this.1 this.2
      · exact Or.inl rfl
      · intro o ho
        obtain ⟨o0, ho0, rfl⟩ := List.mem_map.1 ho
        have := hok.outs o0 ho0
        show dfltAt s'.newId o0 ≤ numVars (L := dest E true) circ.numInputs js ∧ _
        rw [hmx]; exact hrange _ this.1 this.2
    · intro hspec ins hins
      rw [hTc]
      obtain ⟨js', s'', hloop', k1, k2⟩ := loop_sem (get0 := get) (get := mapGet T get) (P := P) (npi := npi) limit _ _ hpl circ.instructions (init circ.numInputs)
        (0 :: ins) (0 :: ins) circ.numInputs (List.replicate circ.numInputs ⟨[], 0⟩) rfl (by simp) (by simp [hins])
        (by simp [init, hins]) (by simp [init]) (init_sem _ _ hins) (hpend _) hok.insns hcalls hrl hP
        (fun i hi d a n hc sub hs => ⟨T sub, by simp [mapGet, hs], hspec i hi d a n hc sub hs⟩)
      rw [hloop] at hloop'
      cases hloop'
      have hread : ∀ (vs ws : List F), SemInv s'.newId vs ws → ∀ x, x ≤ numVars (L := dest E true) circ.numInputs circ.instructions →
          ws[dfltAt s'.newId x]? = vs[x]? := fun vs ws h x hx => h.val x _ (dfltAt_ids (by omega))
      have houts : ∀ (vs ws : List F), SemInv s'.newId vs ws → readAll ws (circ.outputs.map (dfltAt s'.newId)) = readAll vs circ.outputs := by
        intro vs ws h
        have : ∀ (l : List Nat), (∀ o ∈ l, o ∈ circ.outputs) → readAll ws (l.map (dfltAt s'.newId)) = readAll vs l := by
          intro l
          induction l with
          | nil => intro _; rfl
          | cons o l ihl =>
            intro hm
            have e := hread vs ws h o (hok.outs o (hm o (by simp))).1
            simp only [readAll, List.map_cons, e, ihl (fun k hk => hm k (by simp [hk]))]
        exact this _ (fun _ h => h)
      have hcons : ∀ (vs ws : List F), SemInv s'.newId vs ws → checkCons (L := dest E true) ws (circ.constraints.map (fun k => ⟨k.typ, dfltAt s'.newId k.var⟩)) =
          checkCons (L := dest E true) vs circ.constraints := by
        intro vs ws h
        have : ∀ (l : List (Constraint (dest E true))), (∀ k ∈ l, k ∈ circ.constraints) →
            checkCons (L := dest E true) ws (l.map (fun k => ⟨k.typ, dfltAt s'.newId k.var⟩)) = checkCons (L := dest E true) vs l := by
          intro l
          induction l with
          | nil => intro _; rfl
          | cons k l ihl =>
            intro hm
            have e := hread vs ws h k.var (hok.cons k (hm k (by simp))).1
            simp only [checkCons, List.map_cons, e, ihl (fun k hk => hm k (by simp [hk]))]
        exact this _ (fun _ h => h)
      constructor
      · rintro outs b ⟨vs, sb, cb, hr, hk, ho, rfl⟩
        obtain ⟨t, rfl⟩ := hr.prefix
        obtain ⟨xs, g1, g2⟩ := k1 t sb hr
        exact ⟨_, sb, cb, g1, by rw [← hk]; exact hcons _ _ g2, by rw [← ho]; exact houts _ _ g2, rfl⟩
      · rintro hPP outs b ⟨ws, sb, cb, hr, hk, ho, rfl⟩
        obtain ⟨t, rfl⟩ := hr.prefix
        obtain ⟨xs, g1, g2⟩ := k2 hPP t sb hr
        exact ⟨_, sb, cb, g1, by rw [← hk]; exact (hcons _ _ g2).symm, by rw [← ho]; exact (houts _ _ g2).symm, rfl⟩

theorem solveRoot_correct (limit : Nat) (hl : 2 ≤ limit) (rc : RootCircuit (dest E true)) (hw : WFAt npi rc) (hk : rc.vertices.Nodup)
    (hrl : ∀ c circ, rc.get c = some circ → ∀ j ∈ (circ.instructions : List (Insn F)), NoRandomLinear j) :
    ∃ rc', solveRoot E limit rc = some rc' ∧ rc'.vertices = rc.vertices ∧ WFAt npi rc' ∧ rc'.numPublicInputs = rc.numPublicInputs ∧
      (∀ c, (rc'.get c).map (·.numInputs) = (rc.get c).map (·.numInputs)) ∧ (∀ c circ, rc'.get c = some circ → Limited limit circ) ∧
      (∀ ins outs b, Eval rc ins outs b → Eval rc' ins outs b) ∧
      ((∀ c circ, rc.get c = some circ → CircNoRandom circ) → ∀ ins outs b, Eval rc' ins outs b → Eval rc ins outs b) := by
  have hgood := fun c circ (hg : rc.get c = some circ) => circ_good (npi := npi) limit hl (∀ c circ, rc.get c = some circ → CircNoRandom circ) rc.get circ
    (hw.wf.circ c circ hg) (hw.wf.calls c circ hg) (hrl c circ hg) (fun h => h c circ hg) (fun circ => (solveCircuit E limit circ).getD circ) rfl
  obtain ⟨m1, m2, m3, m4, m5⟩ := map_correct rc hw (fun c circ hg => (hgood c circ hg).2)
  refine ⟨mapRc (fun circ => (solveCircuit E limit circ).getD circ) rc, ?_, m1, m2, rfl, m3, ?_, m4, m5⟩
  · simp only [solveRoot, if_neg (show ¬ limit ≤ 1 by omega)]
    rw [HintExport.mapOpt_eq_map]
    · rfl
    · intro p hp
      obtain ⟨⟨c', h1, _⟩, _⟩ := hgood p.1 p.2 (get_of_mem hk hp)
      simp only [h1, Option.map_some, Option.getD_some]
  · intro c circ hg
    rw [mapRc_get] at hg
    simp only [mapGet, Option.map_eq_some_iff] at hg
    obtain ⟨c0, hg, rfl⟩ := hg
    obtain ⟨⟨c', h1, h2⟩, _⟩ := hgood c c0 hg
    rw [h1]; exact h2

end MulFanout
end Verif.IR
