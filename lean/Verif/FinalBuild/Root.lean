import Verif.FinalBuild.Circ

/-!
# `final_build_opt.rs`: the root circuit
-/

set_option linter.unusedSectionVars false
set_option linter.unusedSimpArgs false

namespace Verif.FinalBuild

open Verif.IR Verif.Builder

variable {F : Type} [Field F] [DecidableEq F]

/-- A circuit whose evaluation always ends with a violated constraint. -/
def NeverOk {L : Lang F} (get : Nat → Option (Circuit L)) (circ : Circuit L) : Prop :=
  ∀ ins outs b, ins.length = circ.numInputs → EvalSub get circ ins outs b → b = false

theorem run_neverOk {L : Lang F} {get : Nat → Option (Circuit L)} {d : Nat} {sub : Circuit L} (hg : get d = some sub) (hn : NeverOk get sub) :
    ∀ (is : List L.Insn) (vs vs' : List F) (b : Bool), CallsOk get is → (∃ i ∈ is, ∃ a n, L.asCall i = some (d, a, n)) → Run get is vs vs' b → b = false := by
  intro is
  induction is with
  | nil => rintro vs vs' b _ ⟨i, hi, _⟩ _; simp at hi
  | cons j is ih =>
    rintro vs vs' b hok ⟨i, hi, a, n, hc⟩ hr
    have hr' : Run get ([j] ++ is) vs vs' b := hr
    obtain ⟨w, b1, b2, r1, r2, rfl⟩ := run_append_iff.1 hr'
    rcases List.mem_cons.1 hi with rfl | hi
    · obtain ⟨circ, args, res, sb, b', h1, h2, h3, h4, rfl⟩ := (run_call_iff hc).1 r1
      rw [hg] at h1; cases h1
      obtain ⟨sub', k1, k2, _⟩ := hok i (by simp) d a n hc
      rw [hg] at k1; cases k1
      rw [hn args res sb (by rw [readAll_length h2, k2]) h3]; simp
    · rw [ih w vs' b2 (fun j hj => hok j (by simp [hj])) ⟨i, hi, a, n, hc⟩ r2, Bool.and_false]

theorem calls_neverOk {L : Lang F} {npi : Option Nat} {get : Nat → Option (Circuit L)} (hw : WFGet npi get) {c d : Nat} {circ sub : Circuit L}
    (hc : get c = some circ) (hd : get d = some sub) (hcall : Calls get c d) (hn : NeverOk get sub) : NeverOk get circ := by
  obtain ⟨circ', h1, i, hi, a, n, h2⟩ := hcall
  rw [hc] at h1; cases h1
  rintro ins outs b hl ⟨vs, sb, cb, r1, _, _, rfl⟩
  rw [run_neverOk hd hn _ _ _ _ (hw.calls c circ hc) ⟨i, hi, a, n, h2⟩ r1, Bool.false_and]

theorem reach_neverOk {L : Lang F} {npi : Option Nat} {rc : RootCircuit L} (hw : WFGet npi rc.get) {c : Nat} {circ : Circuit L} (hc : rc.get c = some circ)
    (hn : NeverOk rc.get circ) (h : Relation.ReflTransGen (Calls rc.get) 0 c) : ∀ ins outs b, Eval rc ins outs b → b = false := by
  have key : ∀ a, Relation.ReflTransGen (Calls rc.get) a c → ∀ ca, rc.get a = some ca → NeverOk rc.get ca := by
    intro a h
    induction h using Relation.ReflTransGen.head_induction_on with
    | refl => intro ca hca; rw [hc] at hca; cases hca; exact hn
    | @head x y hxy _ ih =>
      intro ca hca
      obtain ⟨cx, hx, i, hi, a', n', h'⟩ := hxy
      obtain ⟨cy, hy, _⟩ := hw.calls _ cx hx i hi _ a' n' h'
      exact calls_neverOk hw hca hy ⟨cx, hx, i, hi, a', n', h'⟩ (ih cy hy)
  rintro ins outs b ⟨root, all, b0, h1, h2, h3, h4, rfl, rfl⟩
  rw [key 0 h root h1 ins all b0 h2 h3, Bool.false_and]

theorem procList_spec {E : Env F} {cs : Costs} (hcs : CostOk cs) (ltE : Expr F → Expr F → Bool) {npi : Nat} {get : Nat → Option (Circuit (hintLess E))}
    (hw : WFGet (some npi) get) : ∀ (q : List Nat), q.Nodup → (∀ c ∈ q, ∃ circ, get c = some circ) →
    (∀ l1 v l2, q = l1 ++ v :: l2 → ∀ w, Calls get v w → w ∈ l2) →
    (procList cs ltE E get q = .userError ∧ ∃ c circ, get c = some circ ∧ NeverOk get circ) ∨
    ∃ t, procList cs ltE E get q = .ok t ∧ t.map (·.1) = q ∧ ∀ c ∈ q, ∀ circ, get c = some circ → ∃ r, t.lookup c = some r ∧ Image (some npi) circ r.1 := by
  intro q
  induction q with
  | nil => intro _ _ _; right; exact ⟨[], rfl, rfl, by simp⟩
  | cons c q ih =>
    intro hn hq ht
    rw [List.nodup_cons] at hn
    rcases ih hn.2 (fun d hd => hq d (by simp [hd])) (fun l1 v l2 e w hw' => ht (c :: l1) v l2 (by simp [e]) w hw') with ⟨h, h'⟩ | ⟨t, h1, h2, h3⟩
    · left; exact ⟨by simp only [procList, h], h'⟩
    · obtain ⟨circ, hc⟩ := hq c (by simp)
      have hol : ∀ i ∈ circ.instructions, ∀ d a m, HintLess.Insn.asCall i = some (d, a, m) → ((t.lookup d).map (·.2)).isSome := by
        intro i hi d a m hcall
        have hd : d ∈ q := ht [] c q rfl d ⟨circ, hc, i, hi, a, m, hcall⟩
        obtain ⟨sub, hs⟩ := hq d (by simp [hd])
        obtain ⟨r, hr, _⟩ := h3 d hd sub hs
        simp [hr]
      rcases procCircuit_spec (E := E) hcs ltE (fun d => (t.lookup d).map (·.2)) (hw.circ c circ hc) hol with ⟨h, h'⟩ | ⟨c', l, h4, h5⟩
      · left
        exact ⟨by simp only [procList, h1, hc, h], c, circ, hc, fun ins outs b hl he => h' get (hw.calls c circ hc) ins outs b hl he⟩
      · right
        refine ⟨(c, (c', l)) :: t, by simp only [procList, h1, hc, h4], by simp [h2], ?_⟩
        intro d hd circ' hg
        rcases List.mem_cons.1 hd with rfl | hd
        · rw [hc] at hg; cases hg
          exact ⟨(c', l), by simp [List.lookup_cons], h5⟩
        · obtain ⟨r, g1, g2⟩ := h3 d hd circ' hg
          refine ⟨r, ?_, g2⟩
          have : d ≠ c := fun e => hn.1 (e ▸ hd)
          rw [List.lookup_cons, beq_eq_false_iff_ne.2 this]
          exact g1

/-- What `process` returns. -/
structure Processed {E : Env F} (rc : RootCircuit (hintLess E)) (rc' : RootCircuit (dest E true)) : Prop where
  npi : rc'.numPublicInputs = rc.numPublicInputs
  zeroes : rc'.expectedNumOutputZeroes = rc.expectedNumOutputZeroes
  verts : rc'.vertices.Nodup ∧ ∀ c, c ∈ rc'.vertices ↔ c ∈ rc.vertices
  image : ∀ c circ, rc.get c = some circ → ∃ c', rc'.get c = some c' ∧ Image (some rc.numPublicInputs) circ c'
  back : ∀ c c', rc'.get c = some c' → ∃ circ, rc.get c = some circ ∧ Image (some rc.numPublicInputs) circ c'

theorem process_spec {E : Env F} {cs : Costs} (hcs : CostOk cs) (ltE : Expr F → Expr F → Bool) (rc : RootCircuit (hintLess E)) (hk : rc.vertices.Nodup)
    (hw : WFGet (some rc.numPublicInputs) rc.get) :
    (process cs ltE E rc = .userError ∧ ∃ c circ, rc.get c = some circ ∧ NeverOk rc.get circ) ∨
    ∃ rc', process cs ltE E rc = .ok rc' ∧ Processed rc rc' := by
  obtain ⟨q, t1, t2, t3, t4⟩ := topo_of_wf rc hk hw
  rcases procList_spec (E := E) hcs ltE hw q t2 (fun c hc => (t3 c).1 hc) t4 with ⟨h, h'⟩ | ⟨t, h1, h2, h3⟩
  · left; exact ⟨by simp only [process, t1, h], h'⟩
  · right
    have hkeys : (t.map (fun p => (p.1, p.2.1))).map (·.1) = q := by rw [← h2, List.map_map]; rfl
    have hlk : ∀ c, (t.map (fun p => (p.1, p.2.1))).lookup c = (t.lookup c).map (·.1) := fun c => lookup_map_snd (·.1) t c
    have himg : ∀ c circ, rc.get c = some circ → ∃ c', (t.map (fun p => (p.1, p.2.1))).lookup c = some c' ∧ Image (some rc.numPublicInputs) circ c' := by
      intro c circ hg
      obtain ⟨r, g1, g2⟩ := h3 c ((t3 c).2 ⟨circ, hg⟩) circ hg
      exact ⟨r.1, by rw [hlk, g1]; rfl, g2⟩
    refine ⟨(⟨rc.numPublicInputs, rc.expectedNumOutputZeroes, t.map (fun p : Nat × (Circuit (dest E true) × Nat) => (p.1, p.2.1))⟩ : RootCircuit (dest E true)), by simp only [process, t1, h1], rfl, rfl, ⟨?_, fun c => ?_⟩, himg, ?_⟩
    · rw [RootCircuit.vertices]; simp only; rw [hkeys]; exact t2
    · rw [RootCircuit.vertices]; simp only; rw [hkeys, t3 c]
      exact mem_vertices_iff.symm
    · intro c c' hg
      have hcq : c ∈ q := by
        rw [← hkeys]
        have hm := mem_of_get (rc := (⟨rc.numPublicInputs, rc.expectedNumOutputZeroes, t.map (fun p => (p.1, p.2.1))⟩ : RootCircuit (dest E true))) hg
        exact List.mem_map.2 ⟨_, hm, rfl⟩
      obtain ⟨circ, hc⟩ := (t3 c).1 hcq
      obtain ⟨c'', g1, g2⟩ := himg c circ hc
      have hg : (t.map (fun p => (p.1, p.2.1))).lookup c = some c' := hg
      rw [hg] at g1; cases g1
      exact ⟨circ, hc, g2⟩

variable {E : Env F} {rc : RootCircuit (hintLess E)} {rc' : RootCircuit (dest E true)}

theorem Processed.calls_iff (h : Processed rc rc') (c d : Nat) : Calls rc'.get c d ↔ Calls rc.get c d := by
  constructor
  · rintro ⟨c', hg, j, hj, a, n, hcall⟩
    obtain ⟨circ, hc, hi⟩ := h.back c c' hg
    obtain ⟨i, hi', a', h', _⟩ := (hi.calls d n a.length).1 ⟨j, hj, a, hcall, rfl⟩
    exact ⟨circ, hc, i, hi', a', n, h'⟩
  · rintro ⟨circ, hc, i, hi', a, n, hcall⟩
    obtain ⟨c', hg, hi⟩ := h.image c circ hc
    obtain ⟨j, hj, a', h', _⟩ := (hi.calls d n a.length).2 ⟨i, hi', a, hcall, rfl⟩
    exact ⟨c', hg, j, hj, a', n, h'⟩

theorem Processed.wf (h : Processed rc rc') (hw : WFGet (some rc.numPublicInputs) rc.get) : WFGet (some rc'.numPublicInputs) rc'.get := by
  rw [h.npi]
  refine ⟨?_, ?_, ?_⟩
  · intro c c' hg
    obtain ⟨circ, _, hi⟩ := h.back c c' hg
    exact hi.ok
  · intro c c' hg j hj d a n hcall
    obtain ⟨circ, hc, hi⟩ := h.back c c' hg
    obtain ⟨i, hi', a', h', hal⟩ := (hi.calls d n a.length).1 ⟨j, hj, a, hcall, rfl⟩
    obtain ⟨sub, s1, s2, s3⟩ := hw.calls c circ hc i hi' d a' n h'
    obtain ⟨sub', u1, u2⟩ := h.image d sub s1
    exact ⟨sub', u1, by rw [← hal, s2, u2.inputs], by rw [s3, u2.outputs]⟩
  · obtain ⟨r, hr⟩ := hw.dag
    exact ⟨r, fun c d hcd => hr c d ((h.calls_iff c d).1 hcd)⟩

theorem Processed.sub (h : Processed rc rc') (hw : WFGet (some rc.numPublicInputs) rc.get) : ∀ c circ, rc.get c = some circ → ∃ c', rc'.get c = some c' ∧
    ∀ ins : List F, ins.length = circ.numInputs → ∀ outs b, EvalSub rc.get circ ins outs b ↔ EvalSub rc'.get c' ins outs b := by
  apply call_induction (P := fun c circ => ∃ c', rc'.get c = some c' ∧
    ∀ ins : List F, ins.length = circ.numInputs → ∀ outs b, EvalSub rc.get circ ins outs b ↔ EvalSub rc'.get c' ins outs b) hw.dag
  intro c circ hg ih
  obtain ⟨c', g1, g2⟩ := h.image c circ hg
  refine ⟨c', g1, g2.spec rc.get rc'.get ?_⟩
  intro i hi d a m hcall
  obtain ⟨sub, s1, s2, s3⟩ := hw.calls c circ hg i hi d a m hcall
  obtain ⟨sub', u1, u2⟩ := ih d sub ⟨circ, hg, i, hi, a, m, hcall⟩ s1
  obtain ⟨sub'', w1, w2⟩ := h.image d sub s1
  rw [u1] at w1; cases w1
  exact ⟨sub, sub', s1, u1, s3.symm, by rw [w2.outputs, s3], fun ins hl => u2 ins (by rw [hl, s2])⟩

theorem Processed.eval (h : Processed rc rc') (hw : WFGet (some rc.numPublicInputs) rc.get) (ins outs : List F) (b : Bool) : Eval rc ins outs b ↔ Eval rc' ins outs b := by
  have hz := h.zeroes
  constructor
  · rintro ⟨root, all, b0, h1, h2, h3, h4, rfl, rfl⟩
    obtain ⟨c', g1, g2⟩ := h.image 0 root h1
    obtain ⟨c'', g3, g4⟩ := h.sub hw 0 root h1
    rw [g1] at g3; cases g3
    exact ⟨c', all, b0, g1, by rw [g2.inputs]; exact h2, (g4 ins h2 _ _).1 h3, by rw [hz]; exact h4, by rw [hz], by rw [hz]⟩
  · rintro ⟨root', all, b0, h1, h2, h3, h4, rfl, rfl⟩
    obtain ⟨circ, g1, g2⟩ := h.back 0 root' h1
    obtain ⟨c'', g3, g4⟩ := h.sub hw 0 circ g1
    rw [h1] at g3; cases g3
    have h2' : ins.length = circ.numInputs := by rw [h2, g2.inputs]
    exact ⟨circ, all, b0, g1, h2', (g4 ins h2' _ _).2 h3, by rw [← hz]; exact h4, by rw [← hz], by rw [← hz]⟩

/-- With an output, the new circuit is well-formed again. -/
theorem Processed.wf_root (h : Processed rc rc') (hw : WF rc) (hne : ∀ root, rc.get 0 = some root → root.outputs ≠ []) : WF rc' := by
  refine ⟨h.wf hw.wf, ?_⟩
  obtain ⟨root, h1, h2, _⟩ := hw.root
  obtain ⟨c', g1, g2⟩ := h.image 0 root h1
  refine ⟨c', g1, by rw [h.zeroes, g2.outputs]; exact h2, fun he => ?_⟩
  have : root.outputs.length = 0 := by rw [← g2.outputs, he]; rfl
  exact absurd (List.length_eq_zero_iff.1 this) (hne root h1)

end Verif.FinalBuild
