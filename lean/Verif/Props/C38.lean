import Verif.Zkcuda.Context

/-!
# C38: loading a compiled computation graph

`compileGraph` and `loadGraph` model `compile_computation_graph` and `load_computation_graph` after the same calls; `compile` stands for `compile_primitive` (any function
of primitive and padded shapes), `lens` for the padded lengths of the device memories.
-/
namespace Verif.Props
open Verif.Zkcuda Verif.Utils

variable {K P L : Type} [DecidableEq K] [DecidableEq P]

/-- **Exactly when loading works**: for every history, loading the graph just compiled succeeds exactly when every template's kernel id equals the id of the primitive
called, and whenever loading succeeds the templates are the compiled ones. -/
theorem C38_exact {hint : K → Option Nat} {compile : P → L → Option K} {prims : Pool P} {calls : List (KernelCall L)} {lens : List Nat} {cg : Graph K}
    (h : compileGraph hint compile prims calls lens = some cg) :
    (loadGraph hint cg calls lens = some cg.templates ↔ ∀ (j : Nat) c t, calls[j]? = some c → cg.templates[j]? = some t → t.kernelId = c.kid) ∧
    (∀ ts, loadGraph hint cg calls lens = some ts → ts = cg.templates) := load_compile_iff h

/-- **Partial**: the calls call the primitives `ps` in order (registered as by `call_kernel`).  If two calls have the same compiled kernel exactly when they call the
same primitive — each primitive is compiled for one layout only, and different primitives give different kernels — then loading succeeds and gives the same templates.
Missing: one primitive used with two layouts (`C38_violated`). -/
theorem C38_partial {hint : K → Option Nat} {compile : P → L → Option K} (ps : List P) {calls : List (KernelCall L)} {lens : List Nat} {cg : Graph K}
    (hkid : calls.map (·.kid) = ((Pool.new : Pool P).addAll ps).2)
    (hone : ∀ (i j : Nat) p q c d k l, ps[i]? = some p → ps[j]? = some q → calls[i]? = some c → calls[j]? = some d → compile p c.layout = some k → compile q d.layout = some l →
      (k = l ↔ p = q))
    (h : compileGraph hint compile ((Pool.new : Pool P).addAll ps).1 calls lens = some cg) : loadGraph hint cg calls lens = some cg.templates := by
  rw [(C38_exact h).1]
  obtain ⟨a1, a2, a3, a4⟩ := Pool.addAll_spec ps (p := (Pool.new : Pool P)) Pool.new_ok
  have hlen : ps.length = calls.length := by
    have := congrArg List.length hkid
    rw [a2] at this; simpa using this.symm
  unfold compileGraph at h
  cases hl : loop hint (pickCompile compile ((Pool.new : Pool P).addAll ps).1) calls ⟨Pool.new, [], lens, lens.length⟩ with
  | none => simp [hl] at h
  | some st =>
    simp only [hl, Option.some.injEq] at h
    subst h
    obtain ⟨ks, k1, k2, k3⟩ := loop_ids calls hl
    -- the kernel of call `i` is its primitive compiled for its layout
    have hk : ∀ (i : Nat) p c k, ps[i]? = some p → calls[i]? = some c → ks[i]? = some k → compile p c.layout = some k := by
      intro i p c k hp hc hki
      obtain ⟨k', h1, h2⟩ := k2 i c hc
      rw [hki, Option.some.injEq] at h1
      subst h1
      have hid : ((Pool.new : Pool P).addAll ps).2[i]? = some c.kid := by rw [← hkid]; simp [hc]
      have := (a4 i p c.kid hp hid).1
      simpa [pickCompile, this] using h2
    have hpat := addAll_pattern ps ks (p := Pool.new) (q := Pool.new) Pool.new_ok Pool.new_ok rfl (by rw [hlen, k1]) (by
      intro i j p q k l hp hq hki hkj
      have hi : i < calls.length := by rw [← hlen]; exact (List.getElem?_eq_some_iff.1 hp).1
      have hj : j < calls.length := by rw [← hlen]; exact (List.getElem?_eq_some_iff.1 hq).1
      exact (hone i j p q _ _ k l hp hq (List.getElem?_eq_getElem hi) (List.getElem?_eq_getElem hj) (hk i p _ k hp (List.getElem?_eq_getElem hi) hki)
        (hk j q _ l hq (List.getElem?_eq_getElem hj) hkj)).symm) (by intro i p k _ _; rfl)
    intro j c t hc ht
    have e1 : (calls.map (·.kid))[j]? = some c.kid := by simp [hc]
    have e2 : (st.templates.map (·.kernelId))[j]? = some t.kernelId := by simp [ht]
    rw [k3, List.map_nil, List.nil_append, ← hpat, ← hkid, e1, Option.some.injEq] at e2
    exact e2.symm

/-- **C38 is violated** when one primitive is called with two layouts that compile to different kernels: loading the graph just compiled fails. -/
theorem C38_violated (compile : P → L → Option K) (hint : K → Option Nat) (p : P) (c d : KernelCall L) (k l : K) (hc : c.kid = 0) (hd : d.kid = 0)
    (hk : compile p c.layout = some k) (hl : compile p d.layout = some l) (hne : k ≠ l) (lens : List Nat) :
    ∃ cg, compileGraph hint compile ((Pool.new : Pool P).addAll [p, p]).1 [c, d] lens = some cg ∧ loadGraph hint cg [c, d] lens = none := by
  have hp : ((Pool.new : Pool P).addAll [p, p]).1.get 0 = some p := by simp [Pool.addAll, Pool.add, Pool.new, Pool.get]
  have h1 : pickCompile compile ((Pool.new : Pool P).addAll [p, p]).1 c (Pool.new : Pool K) = some k := by simp only [pickCompile, hc, hp, hk]
  have h2 : ∀ q : Pool K, pickCompile compile ((Pool.new : Pool P).addAll [p, p]).1 d q = some l := by intro q; simp only [pickCompile, hd, hp, hl]
  have hne' : (l == k) = false := by simpa using hne.symm
  have hb : ∃ cg, compileGraph hint compile ((Pool.new : Pool P).addAll [p, p]).1 [c, d] lens = some cg ∧ ∃ t, cg.templates[1]? = some t ∧ t.kernelId = 1 := by
    simp only [compileGraph, loop, h1, h2]
    refine ⟨_, rfl, ?_⟩
    unfold loopStep
    cases hint k <;> cases hint l <;> simp [Pool.add, Pool.new, List.lookup, hne']
  obtain ⟨cg, hcg, t, ht, ht1⟩ := hb
  refine ⟨cg, hcg, ?_⟩
  obtain ⟨e1, e2⟩ := C38_exact hcg
  cases hload : loadGraph hint cg [c, d] lens with
  | none => rfl
  | some ts =>
    have := e2 ts hload
    rw [this] at hload
    have := e1.1 hload 1 d t rfl ht
    omega

/-- **Memories for hints**: in a compiled graph the templates are those of the calls, in order; the input of the hint solver of a kernel lives in a memory of its own, after
the memories of the program, of the length the kernel needs. -/
theorem C38_hints {hint : K → Option Nat} {compile : P → L → Option K} {prims : Pool P} {calls : List (KernelCall L)} {lens : List Nat} {cg : Graph K}
    (h : compileGraph hint compile prims calls lens = some cg) : cg.templates.length = calls.length ∧
    ∀ (j : Nat) c t, calls[j]? = some c → cg.templates[j]? = some t → ∃ k, cg.kernels[t.kernelId]? = some k ∧ t.parallel = c.dim0 ∧
      ((hint k = none ∧ t.indices = c.ids ∧ t.orders = c.orders ∧ t.bcast = c.bcast) ∨
       ∃ m i, hint k = some m ∧ t.indices = c.ids ++ [i] ∧ t.bcast = c.bcast ++ [false] ∧ lens.length ≤ i ∧ cg.lens[i]? = some (m * c.dim0) ∧
         ∀ (j' : Nat) c' t', j' < j → calls[j']? = some c' → cg.templates[j']? = some t' → ∀ i' ∈ t'.indices, i' ∈ c'.ids ∨ i' < i) := by
  unfold compileGraph at h
  cases hl : loop hint (pickCompile compile prims) calls ⟨Pool.new, [], lens, lens.length⟩ with
  | none => simp [hl] at h
  | some st =>
    simp only [hl, Option.some.injEq] at h
    subst h
    obtain ⟨ts, ext, t1, t2, t3, t4, t5⟩ := loop_hints calls hl Pool.new_ok rfl
    simp only [List.nil_append] at t1
    subst t1
    dsimp only at t2 t5
    refine ⟨t3, fun j c t hc ht => ?_⟩
    obtain ⟨k, k1, k2, k3⟩ := t5 j c t hc ht
    refine ⟨k, k1, k2, k3.imp id ?_⟩
    rintro ⟨m, m1, m2, m3, m4, m5⟩
    refine ⟨m, lens.length + _, m1, m2, m4, Nat.le_add_right _ _, ?_, ?_⟩
    · simp only
      rw [t2, List.getElem?_append_right (by omega)]
      simpa using m5
    · intro j' c' t' hj hc' ht' i' hi'
      obtain ⟨k', k1', -, k3'⟩ := t5 j' c' t' hc' ht'
      rcases k3' with ⟨-, e, -⟩ | ⟨m', m1', e, -⟩
      · rw [e] at hi'; exact Or.inl hi'
      · rw [e] at hi'
        rcases List.mem_append.1 hi' with hi' | hi'
        · exact Or.inl hi'
        · right
          simp only [List.mem_singleton] at hi'
          subst hi'
          have h1 : (st.templates.take (j' + 1)).countP (needsHint hint st.kernels) ≤ (st.templates.take j).countP (needsHint hint st.kernels) :=
            List.Sublist.countP_le (List.take_sublist_take_left (by omega))
          have h2 : (st.templates.take (j' + 1)).countP (needsHint hint st.kernels) = (st.templates.take j').countP (needsHint hint st.kernels) + 1 := by
            rw [List.take_succ, ht', List.countP_append]
            have : needsHint hint st.kernels t' = true := by simp [needsHint, k1', m1']
            simp [List.countP_cons, this]
          omega

/-- **What loading accepts**, for every graph (compiled here or not): its kernels are pairwise different, its templates are exactly those of the calls, in order, with the
kernel id equal to the id of the primitive called; its lengths begin with those of the program. -/
theorem C38_load_sound {hint : K → Option Nat} {cg : Graph K} {calls : List (KernelCall L)} {lens : List Nat} {ts : List Template} (h : loadGraph hint cg calls lens = some ts) :
    cg.kernels.Nodup ∧ ts = cg.templates ∧ lens <+: cg.lens ∧ ts.length = calls.length ∧
    ∀ (j : Nat) c t, calls[j]? = some c → ts[j]? = some t → t.kernelId = c.kid ∧ t.parallel = c.dim0 ∧ ∃ k, cg.kernels[c.kid]? = some k ∧
      ((hint k = none ∧ t.indices = c.ids) ∨ ∃ m i, hint k = some m ∧ t.indices = c.ids ++ [i] ∧ cg.lens[i]? = some (m * c.dim0)) := by
  unfold loadGraph at h
  cases ha : addKernels cg.kernels Pool.new 0 with
  | none => simp [ha] at h
  | some ks =>
    simp only [ha] at h
    obtain ⟨n1, n2, n3⟩ := addKernels_nodup cg.kernels Pool.new_ok ha
    simp only [Pool.new, List.nil_append] at n1 n3
    split at h
    · rename_i hpre
      cases hl : loop hint pickLoad calls ⟨ks, [], lens, lens.length⟩ with
      | none => simp [hl] at h
      | some st =>
        simp only [hl] at h
        split at h
        · rename_i heq
          simp only [Option.some.injEq] at h
          subst h
          obtain ⟨ts, ext, t1, t2, t3, t4, t5⟩ := loop_hints calls hl n2 rfl
          simp only [List.nil_append] at t1
          subst t1
          have hids := loop_load_ids n2 calls rfl hl
          simp only [List.length_nil, Nat.zero_add] at hids
          refine ⟨n1, heq.1.symm, ?_, t3, fun j c t hc ht => ?_⟩
          · exact ⟨ext, by rw [heq.2, t2]⟩
          · have hid := hids j c t hc ht
            obtain ⟨k, k1, k2, k3⟩ := t5 j c t hc ht
            have hcg : cg.kernels[c.kid]? = some k := by
              rw [loop_load_kernels n2 calls rfl hl, hid] at k1
              rw [← n3]; exact k1
            refine ⟨hid, k2, k, hcg, ?_⟩
            rcases k3 with ⟨a1, a2, -⟩ | ⟨m, a1, a2, -, -, a5⟩
            · exact Or.inl ⟨a1, a2⟩
            · refine Or.inr ⟨m, _, a1, a2, ?_⟩
              rw [heq.2, t2, List.getElem?_append_right (by omega)]
              simpa using a5
        · cases h
    · cases h

/-! ### Concrete cases: kernels are numbers, `compile p layout = 10 p + layout` -/

def kc (kid layout id : Nat) : KernelCall Nat := ⟨kid, layout, [id], [[0, 1]], 4, [false]⟩

example : (compileGraph (fun k : Nat => if k = 31 then some 2 else none) (fun p l => some (10 * p + l)) ((Pool.new : Pool Nat).addAll [3, 7, 3]).1 [kc 0 1 0, kc 1 2 1, kc 0 1 2] [4, 4, 4]).map
    (fun cg => (cg.kernels, cg.lens, cg.templates.map (fun t => (t.kernelId, t.indices)))) = some ([31, 72], [4, 4, 4, 8, 8], [(0, [0, 3]), (1, [1]), (0, [2, 4])]) := by decide

example : (compileGraph (fun _ : Nat => none) (fun p l => some (10 * p + l)) ((Pool.new : Pool Nat).addAll [3, 7, 3]).1 [kc 0 1 0, kc 1 2 1, kc 0 1 2] [4, 4, 4]).bind
    (fun cg => loadGraph (fun _ => none) cg [kc 0 1 0, kc 1 2 1, kc 0 1 2] [4, 4, 4]) ≠ none := by decide

end Verif.Props
