import Verif.Utils.Pool
import Mathlib.Data.List.Nodup

/-!
# Kernel registration and computation graphs (zkcuda/context.rs)

Modelled: the kernel bookkeeping of `call_kernel` (context.rs:393-406, 505-512) and `compile_or_load_computation_graph` (context.rs:586-746).  The shape computations
(`propagate_and_get_shapes`, `get_transposed_shape_and_bit_order`) and `compile_primitive` are parameters: their results depend on the calls only, which is all that is
used here.
-/
set_option linter.unusedSectionVars false
set_option linter.unusedSimpArgs false
namespace Verif.Zkcuda
open Verif.Utils

variable {K : Type} [DecidableEq K]

/-! ### `call_kernel` -/

/-- The parts of `Context` used for registration (context.rs:110-121): `kernel_primitives`, `kernel_ptr_cache` (latest entry first), and the `kernel_id`s of
`kernel_calls`. -/
structure Reg (K : Type) where
  prims : Pool K
  cache : List (Nat × Nat)
  calls : List Nat

/-- `Context::new` (context.rs:219-230). -/
def Reg.new : Reg K := ⟨Pool.new, [], []⟩

/-- The registration of a call (context.rs:393-406, 505-512): the kernel found at address `ptr` is `k`. -/
def Reg.call (r : Reg K) (ptr : Nat) (k : K) : Reg K :=
  match r.cache.lookup ptr with
  | some id => ⟨r.prims, r.cache, r.calls ++ [id]⟩
  | none => ⟨(r.prims.add k).1, (ptr, (r.prims.add k).2) :: r.cache, r.calls ++ [(r.prims.add k).2]⟩

/-- A history of calls: address and kernel. -/
def Reg.run (r : Reg K) : List (Nat × K) → Reg K
  | [] => r
  | (p, k) :: hs => (r.call p k).run hs

/-- The kernel recorded for call `i` (context.rs:545, 645: `kernel_primitives.get(kernel_call.kernel_id)`). -/
def Reg.recorded (r : Reg K) (i : Nat) : Option K := match r.calls[i]? with
  | none => none
  | some id => r.prims.get id

/-- The cache is right for the calls made so far. -/
structure RegOk (r : Reg K) (hist : List (Nat × K)) : Prop where
  pool : r.prims.Ok
  len : r.calls.length = hist.length
  cache : ∀ p id, r.cache.lookup p = some id → ∃ k, (p, k) ∈ hist ∧ r.prims.get id = some k
  calls : ∀ (i : Nat) p k, hist[i]? = some (p, k) → r.recorded i = some k

theorem Reg.call_ok {r : Reg K} {hist : List (Nat × K)} (h : RegOk r hist) (p : Nat) (k : K) (hp : ∀ k', (p, k') ∈ hist → k' = k) : RegOk (r.call p k) (hist ++ [(p, k)]) := by
  unfold Reg.call
  cases hl : r.cache.lookup p with
  | some id =>
    simp only
    obtain ⟨k', hk', hg⟩ := h.cache p id hl
    have := hp k' hk'
    subst this
    refine ⟨h.pool, by simp [h.len], fun q i hq => ?_, fun i q j hi => ?_⟩
    · obtain ⟨x, h1, h2⟩ := h.cache q i hq
      exact ⟨x, by simp [h1], h2⟩
    · by_cases hlt : i < hist.length
      · have h2 := h.calls i q j (by rw [List.getElem?_append_left hlt] at hi; exact hi)
        unfold Reg.recorded at h2 ⊢
        simp only at h2 ⊢
        rw [List.getElem?_append_left (by rw [h.len]; exact hlt)]
        exact h2
      · have : i = hist.length := by
          have := (List.getElem?_eq_some_iff.1 hi).1
          simp at this; omega
        subst this
        simp at hi
        obtain ⟨rfl, rfl⟩ := hi
        unfold Reg.recorded
        simp [← h.len, hg]
  | none =>
    simp only
    obtain ⟨h1, h2, _, h4, _⟩ := Pool.add_spec h.pool k
    refine ⟨h1, by simp [h.len], fun q i hq => ?_, fun i q j hi => ?_⟩
    · simp only [List.lookup] at hq
      split at hq
      · rename_i he
        have he : q = p := by simpa using he
        simp only [Option.some.injEq] at hq
        subst hq; subst he
        exact ⟨k, by simp, h2⟩
      · obtain ⟨x, h1, h2⟩ := h.cache q i hq
        exact ⟨x, by simp [h1], h4 _ _ h2⟩
    · by_cases hlt : i < hist.length
      · have hr := h.calls i q j (by rw [List.getElem?_append_left hlt] at hi; exact hi)
        unfold Reg.recorded at hr ⊢
        simp only at hr ⊢
        rw [List.getElem?_append_left (by rw [h.len]; exact hlt)]
        cases hc : r.calls[i]? with
        | none => simp [hc] at hr
        | some id => simp only [hc] at hr ⊢; exact h4 _ _ hr
      · have : i = hist.length := by
          have := (List.getElem?_eq_some_iff.1 hi).1
          simp at this; omega
        subst this
        simp at hi
        obtain ⟨rfl, rfl⟩ := hi
        unfold Reg.recorded
        simp [← h.len, h2]

theorem Reg.run_ok : ∀ (hs : List (Nat × K)) {r : Reg K} {hist : List (Nat × K)}, RegOk r hist →
    (∀ p k k', (p, k) ∈ hist ++ hs → (p, k') ∈ hist ++ hs → k = k') → RegOk (r.run hs) (hist ++ hs) := by
  intro hs
  induction hs with
  | nil => intro r hist h _; simpa [Reg.run] using h
  | cons e hs ih =>
    intro r hist h hp
    obtain ⟨p, k⟩ := e
    have := Reg.call_ok h p k (fun k' hk' => hp p k' k (by simp [hk']) (by simp))
    have h2 := ih this (by simpa using hp)
    simpa [Reg.run] using h2

theorem Reg.new_ok : RegOk (Reg.new : Reg K) [] := ⟨Pool.new_ok, rfl, by simp [Reg.new], by simp⟩

/-! ### `compile_or_load_computation_graph` -/

variable {P L : Type} [DecidableEq P]

/-- A recorded kernel call with what the shape computations give for it: `kernel_id`, the padded shapes of its inputs and outputs (`layout`), the memory ids and bit
orders of its inputs and outputs, the padded parallel count and the broadcast flags (context.rs:39-45, 625-715). -/
structure KernelCall (L : Type) where
  kid : Nat
  layout : L
  ids : List Nat
  orders : List (List Nat)
  dim0 : Nat
  bcast : List Bool

/-- `ProofTemplate` (context.rs:48-55). -/
structure Template where
  kernelId : Nat
  indices : List Nat
  orders : List (List Nat)
  parallel : Nat
  bcast : List Bool
  deriving DecidableEq

/-- `ComputationGraph` (context.rs:76-80). -/
structure Graph (K : Type) where
  kernels : List K
  lens : List Nat
  templates : List Template

/-- State of the loop over the kernel calls (context.rs:604-735). -/
structure LoopSt (K : Type) where
  kernels : Pool K
  templates : List Template
  lens : List Nat
  dmMax : Nat

/-- One round (context.rs:614-735) for the kernel `k`; `hint k` is the length of the hint input if the kernel has a hint solver (context.rs:717-725). -/
def loopStep (hint : K → Option Nat) (c : KernelCall L) (k : K) (st : LoopSt K) : LoopSt K :=
  match hint k with
  | none => ⟨(st.kernels.add k).1, st.templates ++ [⟨(st.kernels.add k).2, c.ids, c.orders, c.dim0, c.bcast⟩], st.lens, st.dmMax⟩
  | some m => ⟨(st.kernels.add k).1,
      st.templates ++ [⟨(st.kernels.add k).2, c.ids ++ [st.dmMax], c.orders ++ [List.range (Nat.log2 (m * c.dim0))], c.dim0, c.bcast ++ [false]⟩],
      st.lens ++ [m * c.dim0], st.dmMax + 1⟩

/-- The loop; `pick` chooses the kernel of a call (context.rs:626-659), `none` is an error or panic. -/
def loop (hint : K → Option Nat) (pick : KernelCall L → Pool K → Option K) : List (KernelCall L) → LoopSt K → Option (LoopSt K)
  | [], st => some st
  | c :: cs, st => match pick c st.kernels with
    | none => none
    | some k => loop hint pick cs (loopStep hint c k st)

/-- Compiling (context.rs:630-659): the primitive with the call's `kernel_id` is compiled for the call's layout. -/
def pickCompile (compile : P → L → Option K) (prims : Pool P) (c : KernelCall L) (_ : Pool K) : Option K :=
  match prims.get c.kid with
  | none => none
  | some p => compile p c.layout

/-- Loading (context.rs:627-629): `self.kernels.get(kernel_call.kernel_id)`. -/
def pickLoad (c : KernelCall L) (ks : Pool K) : Option K := ks.get c.kid

/-- `compile_computation_graph` (context.rs:748-750); `lens` are the padded lengths of the device memories (context.rs:611-612). -/
def compileGraph (hint : K → Option Nat) (compile : P → L → Option K) (prims : Pool P) (calls : List (KernelCall L)) (lens : List Nat) : Option (Graph K) :=
  match loop hint (pickCompile compile prims) calls ⟨Pool.new, [], lens, lens.length⟩ with
  | none => none
  | some st => some ⟨st.kernels.vec, st.lens, st.templates⟩

/-- `assert_eq!(self.kernels.add(kernel), i)` for all loaded kernels (context.rs:600-602). -/
def addKernels : List K → Pool K → Nat → Option (Pool K)
  | [], p, _ => some p
  | k :: ks, p, i => if (p.add k).2 = i then addKernels ks (p.add k).1 (i + 1) else none

/-- `load_computation_graph` (context.rs:752-755, 600-622, 737-744): the proof templates of the context afterwards; a failed assertion is `none`. -/
def loadGraph (hint : K → Option Nat) (cg : Graph K) (calls : List (KernelCall L)) (lens : List Nat) : Option (List Template) :=
  match addKernels cg.kernels Pool.new 0 with
  | none => none
  | some ks => if lens.length ≤ cg.lens.length ∧ lens = cg.lens.take lens.length then
      match loop hint pickLoad calls ⟨ks, [], lens, lens.length⟩ with
      | none => none
      | some st => if cg.templates = st.templates ∧ cg.lens = st.lens then some st.templates else none
    else none

/-! ### Loading what was compiled -/

theorem addKernels_ok : ∀ (ks : List K) {p : Pool K}, p.Ok → (p.vec ++ ks).Nodup → ∃ q, addKernels ks p p.vec.length = some q ∧ q.Ok ∧ q.vec = p.vec ++ ks := by
  intro ks
  induction ks with
  | nil => intro p h _; exact ⟨p, rfl, h, by simp⟩
  | cons k ks ih =>
    intro p h hn
    have hk : p.map.lookup k = none := by
      cases hl : p.map.lookup k with
      | none => rfl
      | some i =>
        have h1 := (h k i).1 hl
        have : k ∈ p.vec := List.mem_of_getElem? h1
        have h2 := (List.nodup_append.1 hn).2.2 k this k (by simp)
        exact absurd rfl h2
    have ha : p.add k = (⟨p.vec ++ [k], (k, p.vec.length) :: p.map⟩, p.vec.length) := by simp [Pool.add, hk]
    obtain ⟨q, h1, h2, h3⟩ := ih (p := (p.add k).1) (Pool.add_spec h k).1 (by simpa [ha] using hn)
    refine ⟨q, ?_, h2, by simpa [ha] using h3⟩
    rw [addKernels, ha]
    rw [ha] at h1
    simpa using h1

theorem pool_nodup {p : Pool K} (h : p.Ok) : p.vec.Nodup := by
  refine List.nodup_iff_injective_get.2 ?_
  intro i j he
  have h1 : p.vec[i.1]? = some (p.vec.get i) := List.getElem?_eq_getElem i.2
  have h2 : p.vec[j.1]? = some (p.vec.get j) := List.getElem?_eq_getElem j.2
  have h1 := (h _ _).2 h1
  have h2 := (h _ _).2 h2
  rw [he, h2, Option.some.injEq] at h1
  exact Fin.ext h1.symm

/-- Templates are made from the calls, the kernels and their ids. -/
theorem loop_templates {hint : K → Option Nat} {pick : KernelCall L → Pool K → Option K} : ∀ (cs : List (KernelCall L)) {st st' : LoopSt K},
    loop hint pick cs st = some st' → ∃ ts, st'.templates = st.templates ++ ts ∧ ts.length = cs.length := by
  intro cs
  induction cs with
  | nil => intro st st' h; simp only [loop, Option.some.injEq] at h; subst h; exact ⟨[], by simp, rfl⟩
  | cons c cs ih =>
    intro st st' h
    simp only [loop] at h
    cases hp : pick c st.kernels with
    | none => simp [hp] at h
    | some k =>
      simp only [hp] at h
      obtain ⟨ts, h1, h2⟩ := ih h
      unfold loopStep at h1
      cases hh : hint k with
      | none =>
        simp only [hh, List.append_assoc] at h1
        exact ⟨_, h1, by simp [h2]⟩
      | some m =>
        simp only [hh, List.append_assoc] at h1
        exact ⟨_, h1, by simp [h2]⟩

theorem loopStep_kernels (hint : K → Option Nat) (c : KernelCall L) (k : K) (st : LoopSt K) : (loopStep hint c k st).kernels = (st.kernels.add k).1 := by
  unfold loopStep; cases hint k <;> rfl

theorem loop_pool {hint : K → Option Nat} {pick : KernelCall L → Pool K → Option K} : ∀ (cs : List (KernelCall L)) {st st' : LoopSt K},
    loop hint pick cs st = some st' → st.kernels.Ok → st'.kernels.Ok ∧ ∀ i k, st.kernels.get i = some k → st'.kernels.get i = some k := by
  intro cs
  induction cs with
  | nil => intro st st' h hok; simp only [loop, Option.some.injEq] at h; subst h; exact ⟨hok, fun _ _ h => h⟩
  | cons c cs ih =>
    intro st st' h hok
    simp only [loop] at h
    cases hp : pick c st.kernels with
    | none => simp [hp] at h
    | some k =>
      simp only [hp] at h
      obtain ⟨a1, _, _, a4, _⟩ := Pool.add_spec hok k
      obtain ⟨b1, b2⟩ := ih h (by rw [loopStep_kernels]; exact a1)
      exact ⟨b1, fun i w hi => b2 i w (by rw [loopStep_kernels]; exact a4 i w hi)⟩

/-- The two loops step by step: while the ids agree with the primitive ids, loading follows compiling. -/
theorem loop_follow {hint : K → Option Nat} {compile : P → L → Option K} {prims : Pool P} {full : Pool K} (hfull : full.Ok) : ∀ (cs : List (KernelCall L)) {st st' : LoopSt K},
    st.kernels.Ok → loop hint (pickCompile compile prims) cs st = some st' → (∀ i k, st'.kernels.get i = some k → full.get i = some k) →
    (∀ (j : Nat) c t, cs[j]? = some c → st'.templates[st.templates.length + j]? = some t → t.kernelId = c.kid) →
    loop hint pickLoad cs ⟨full, st.templates, st.lens, st.dmMax⟩ = some ⟨full, st'.templates, st'.lens, st'.dmMax⟩ := by
  intro cs
  induction cs with
  | nil => intro st st' _ h _ _; simp only [loop, Option.some.injEq] at h; subst h; rfl
  | cons c cs ih =>
    intro st st' hok h hmono hids
    simp only [loop] at h
    cases hp : pickCompile compile prims c st.kernels with
    | none => simp [hp] at h
    | some k =>
      simp only [hp] at h
      obtain ⟨a1, a2, _, _, _⟩ := Pool.add_spec hok k
      have hok' : (loopStep hint c k st).kernels.Ok := by rw [loopStep_kernels]; exact a1
      obtain ⟨_, b2⟩ := loop_pool cs h hok'
      have hget : full.get (st.kernels.add k).2 = some k := hmono _ _ (b2 _ _ (by rw [loopStep_kernels]; exact a2))
      obtain ⟨ts, ht, _⟩ := loop_templates cs h
      have hid : (st.kernels.add k).2 = c.kid := by
        cases hh : hint k with
        | none =>
          have := hids 0 c ⟨(st.kernels.add k).2, c.ids, c.orders, c.dim0, c.bcast⟩ rfl (by
            rw [ht]; simp [loopStep, hh])
          exact this
        | some m =>
          have := hids 0 c ⟨(st.kernels.add k).2, c.ids ++ [st.dmMax], c.orders ++ [List.range (Nat.log2 (m * c.dim0))], c.dim0, c.bcast ++ [false]⟩ rfl (by
            rw [ht]; simp [loopStep, hh])
          exact this
      have hadd : full.add k = (full, c.kid) := by
        have := (hfull k _).2 hget
        rw [hid] at this
        simp [Pool.add, this]
      have hlen : (loopStep hint c k st).templates.length = st.templates.length + 1 := by unfold loopStep; cases hint k <;> simp
      have := ih hok' h hmono (fun j c' t hj ht' => hids (j + 1) c' t (by simpa using hj) (by rw [hlen] at ht'; rw [← ht']; congr 1; omega))
      have hpl : pickLoad c full = some k := by unfold pickLoad; rw [← hid]; exact hget
      simp only [loop, hpl]
      rw [← this]
      unfold loopStep
      cases hh : hint k <;> simp [hadd, hid]

/-- While loading, a template's kernel id is the primitive id of its call. -/
theorem loop_load_ids {hint : K → Option Nat} {full : Pool K} (hfull : full.Ok) : ∀ (cs : List (KernelCall L)) {st st' : LoopSt K}, st.kernels = full →
    loop hint pickLoad cs st = some st' → ∀ (j : Nat) c t, cs[j]? = some c → st'.templates[st.templates.length + j]? = some t → t.kernelId = c.kid := by
  intro cs
  induction cs with
  | nil => intro st st' _ _ j c t hj; simp at hj
  | cons c cs ih =>
    intro st st' hst h j c' t hj ht
    simp only [loop] at h
    cases hp : pickLoad c st.kernels with
    | none => simp [hp] at h
    | some k =>
      simp only [hp] at h
      have hget : full.get c.kid = some k := by rw [← hst]; exact hp
      have hadd : full.add k = (full, c.kid) := by
        have := (hfull k _).2 hget
        simp [Pool.add, this]
      have hlen : (loopStep hint c k st).templates.length = st.templates.length + 1 := by unfold loopStep; cases hint k <;> simp
      obtain ⟨ts, htt, _⟩ := loop_templates cs h
      cases j with
      | zero =>
        simp only [List.getElem?_cons_zero, Option.some.injEq] at hj
        subst hj
        rw [htt] at ht
        unfold loopStep at ht
        cases hh : hint k with
        | none => simp [hh, hst, hadd] at ht; rw [← ht]
        | some m => simp [hh, hst, hadd] at ht; rw [← ht]
      | succ j =>
        refine ih (by rw [loopStep_kernels, hst, hadd]) h j c' t (by simpa using hj) ?_
        rw [hlen, ← ht]; congr 1; omega

/-- **Loading what was compiled works exactly when every template's kernel id is the id of the primitive called**, and then gives the same templates. -/
theorem load_compile_iff {hint : K → Option Nat} {compile : P → L → Option K} {prims : Pool P} {calls : List (KernelCall L)} {lens : List Nat} {cg : Graph K}
    (h : compileGraph hint compile prims calls lens = some cg) :
    (loadGraph hint cg calls lens = some cg.templates ↔ ∀ (j : Nat) c t, calls[j]? = some c → cg.templates[j]? = some t → t.kernelId = c.kid) ∧
    (∀ ts, loadGraph hint cg calls lens = some ts → ts = cg.templates) := by
  unfold compileGraph at h
  cases hl : loop hint (pickCompile compile prims) calls ⟨Pool.new, [], lens, lens.length⟩ with
  | none => simp [hl] at h
  | some st =>
    simp only [hl, Option.some.injEq] at h
    subst h
    have hok := (loop_pool calls hl Pool.new_ok).1
    obtain ⟨full, hf1, hf2, hf3⟩ := addKernels_ok st.kernels.vec (p := Pool.new) Pool.new_ok (by simpa [Pool.new] using pool_nodup hok)
    simp only [Pool.new, List.nil_append] at hf3
    have hf1' : addKernels st.kernels.vec Pool.new 0 = some full := by simpa [Pool.new] using hf1
    have hlens : ∃ more, st.lens = lens ++ more := by
      have : ∀ (cs : List (KernelCall L)) (s s' : LoopSt K), loop hint (pickCompile compile prims) cs s = some s' → ∃ more, s'.lens = s.lens ++ more := by
        intro cs
        induction cs with
        | nil => intro s s' h; simp only [loop, Option.some.injEq] at h; subst h; exact ⟨[], by simp⟩
        | cons c cs ih =>
          intro s s' h
          simp only [loop] at h
          cases hp : pickCompile compile prims c s.kernels with
          | none => simp [hp] at h
          | some k =>
            simp only [hp] at h
            obtain ⟨more, hm⟩ := ih _ _ h
            unfold loopStep at hm
            cases hh : hint k with
            | none => exact ⟨more, by simpa [hh] using hm⟩
            | some m => exact ⟨_, by simpa [hh] using hm⟩
      exact this _ _ _ hl
    obtain ⟨more, hmore⟩ := hlens
    have hcond : lens.length ≤ st.lens.length ∧ lens = st.lens.take lens.length := by rw [hmore]; simp
    have hmono : ∀ i k, st.kernels.get i = some k → full.get i = some k := by
      intro i k hi; unfold Pool.get at hi ⊢; rw [hf3]; exact hi
    refine ⟨⟨fun hload j c t hc ht => ?_, fun hids => ?_⟩, fun ts hts => ?_⟩
    · unfold loadGraph at hload
      simp only [hf1'] at hload
      rw [if_pos ⟨hcond.1, hcond.2⟩] at hload
      cases hl2 : loop hint pickLoad calls ⟨full, [], lens, lens.length⟩ with
      | none => simp [hl2] at hload
      | some s2 =>
        simp only [hl2] at hload
        split at hload
        · rename_i he
          exact loop_load_ids hf2 calls (st := ⟨full, [], lens, lens.length⟩) rfl hl2 j c t hc (by rw [← he.1]; simpa using ht)
        · simp at hload
    · have := loop_follow (full := full) hf2 calls (st := ⟨Pool.new, [], lens, lens.length⟩) Pool.new_ok hl hmono (by simpa using hids)
      unfold loadGraph
      simp only [hf1']
      rw [if_pos hcond]
      simp only [] at this
      rw [this]
      simp
    · unfold loadGraph at hts
      simp only [hf1'] at hts
      rw [if_pos hcond] at hts
      cases hl2 : loop hint pickLoad calls ⟨full, [], lens, lens.length⟩ with
      | none => simp [hl2] at hts
      | some s2 =>
        simp only [hl2] at hts
        split at hts
        · rename_i he
          simp only [Option.some.injEq] at hts
          rw [← hts, he.1]
        · simp at hts

/-! ### When the ids agree -/

/-- Adding two sequences with the same pattern of equalities gives the same ids. -/
theorem addAll_pattern {A B : Type} [DecidableEq A] [DecidableEq B] : ∀ (vs : List A) (ws : List B) {p : Pool A} {q : Pool B}, p.Ok → q.Ok → p.vec.length = q.vec.length → vs.length = ws.length →
    (∀ (i j : Nat) v v' w w', vs[i]? = some v → vs[j]? = some v' → ws[i]? = some w → ws[j]? = some w' → (v = v' ↔ w = w')) →
    (∀ (i : Nat) v w, vs[i]? = some v → ws[i]? = some w → p.map.lookup v = q.map.lookup w) → (p.addAll vs).2 = (q.addAll ws).2 := by
  intro vs
  induction vs with
  | nil =>
    intro ws p q _ _ _ hl _ _
    cases ws with
    | nil => rfl
    | cons => simp at hl
  | cons v vs ih =>
    intro ws p q hp hq hpq hl hpat hinv
    cases ws with
    | nil => simp at hl
    | cons w ws =>
      have h0 := hinv 0 v w rfl rfl
      have hid : (p.add v).2 = (q.add w).2 ∧ (p.add v).1.vec.length = (q.add w).1.vec.length := by
        unfold Pool.add
        cases hc : p.map.lookup v with
        | some i => rw [hc] at h0; rw [← h0]; exact ⟨rfl, hpq⟩
        | none => rw [hc] at h0; rw [← h0]; simp [hpq]
      obtain ⟨a1, _, a3, _, a5, _⟩ := Pool.add_spec hp v
      obtain ⟨b1, _, b3, _, b5, _⟩ := Pool.add_spec hq w
      simp only [Pool.addAll, List.cons.injEq]
      refine ⟨hid.1, ih ws a1 b1 hid.2 (by simpa using hl) (fun i j x x' y y' h1 h2 h3 h4 => hpat (i + 1) (j + 1) x x' y y' (by simpa using h1) (by simpa using h2) (by simpa using h3) (by simpa using h4)) ?_⟩
      intro i x y hx hy
      have hpe := hpat (i + 1) 0 x v y w (by simpa using hx) rfl (by simpa using hy) rfl
      by_cases he : x = v
      · have := hpe.1 he
        subst he; subst this
        exact a3.trans (hid.1 ▸ b3.symm)
      · have hne : y ≠ w := fun h => he (hpe.2 h)
        have e1 := a5 x he
        have e2 := b5 y hne
        unfold Pool.tryGetIdx at e1 e2
        rw [e1, e2]
        exact hinv (i + 1) x y (by simpa using hx) (by simpa using hy)

/-- The compile loop adds the compiled kernels in order. -/
theorem loop_ids {hint : K → Option Nat} {compile : P → L → Option K} {prims : Pool P} : ∀ (cs : List (KernelCall L)) {st st' : LoopSt K},
    loop hint (pickCompile compile prims) cs st = some st' →
    ∃ ks : List K, ks.length = cs.length ∧ (∀ (i : Nat) c, cs[i]? = some c → ∃ k, ks[i]? = some k ∧ pickCompile compile prims c Pool.new = some k) ∧
      st'.templates.map (·.kernelId) = st.templates.map (·.kernelId) ++ (st.kernels.addAll ks).2 := by
  intro cs
  induction cs with
  | nil => intro st st' h; simp only [loop, Option.some.injEq] at h; subst h; exact ⟨[], rfl, by simp, by simp [Pool.addAll]⟩
  | cons c cs ih =>
    intro st st' h
    simp only [loop] at h
    cases hp : pickCompile compile prims c st.kernels with
    | none => simp [hp] at h
    | some k =>
      simp only [hp] at h
      obtain ⟨ks, h1, h2, h3⟩ := ih h
      refine ⟨k :: ks, by simp [h1], ?_, ?_⟩
      · intro i c' hc'
        cases i with
        | zero => simp at hc'; subst hc'; exact ⟨k, rfl, hp⟩
        | succ i => exact h2 i c' (by simpa using hc')
      · rw [h3, loopStep_kernels]
        unfold loopStep
        cases hint k <;> simp [Pool.addAll]

/-! ### Memories for hints; what loading accepts -/

/-- Does the kernel of a template have a hint input? -/
def needsHint (hint : K → Option Nat) (ks : Pool K) (t : Template) : Bool := ((ks.get t.kernelId).bind hint).isSome

theorem loop_hints {hint : K → Option Nat} {pick : KernelCall L → Pool K → Option K} : ∀ (cs : List (KernelCall L)) {st st' : LoopSt K},
    loop hint pick cs st = some st' → st.kernels.Ok → st.dmMax = st.lens.length →
    ∃ ts ext, st'.templates = st.templates ++ ts ∧ st'.lens = st.lens ++ ext ∧ ts.length = cs.length ∧ ext.length = ts.countP (needsHint hint st'.kernels) ∧
      ∀ (j : Nat) c t, cs[j]? = some c → ts[j]? = some t → ∃ k, st'.kernels.get t.kernelId = some k ∧ t.parallel = c.dim0 ∧
        ((hint k = none ∧ t.indices = c.ids ∧ t.orders = c.orders ∧ t.bcast = c.bcast) ∨
         ∃ m, hint k = some m ∧ t.indices = c.ids ++ [st.lens.length + (ts.take j).countP (needsHint hint st'.kernels)] ∧
           t.orders = c.orders ++ [List.range (Nat.log2 (m * c.dim0))] ∧ t.bcast = c.bcast ++ [false] ∧
           ext[(ts.take j).countP (needsHint hint st'.kernels)]? = some (m * c.dim0)) := by
  intro cs
  induction cs with
  | nil =>
    intro st st' h _ _
    simp only [loop, Option.some.injEq] at h; subst h
    exact ⟨[], [], by simp, by simp, rfl, rfl, by simp⟩
  | cons c cs ih =>
    intro st st' h hok hd
    simp only [loop] at h
    cases hp : pick c st.kernels with
    | none => simp [hp] at h
    | some k =>
      simp only [hp] at h
      have hok1 : (loopStep hint c k st).kernels.Ok := by rw [loopStep_kernels]; exact (Pool.add_spec hok k).1
      have hget : st'.kernels.get (st.kernels.add k).2 = some k := by
        refine (loop_pool cs h hok1).2 _ _ ?_
        rw [loopStep_kernels]; exact (Pool.add_spec hok k).2.1
      cases hk : hint k with
      | none =>
        have e : loopStep hint c k st = ⟨(st.kernels.add k).1, st.templates ++ [⟨(st.kernels.add k).2, c.ids, c.orders, c.dim0, c.bcast⟩], st.lens, st.dmMax⟩ := by simp [loopStep, hk]
        rw [e] at h hok1
        obtain ⟨ts, ext, t1, t2, t3, t4, t5⟩ := ih h hok1 hd
        have hnh : needsHint hint st'.kernels ⟨(st.kernels.add k).2, c.ids, c.orders, c.dim0, c.bcast⟩ = false := by simp [needsHint, hget, hk]
        refine ⟨⟨(st.kernels.add k).2, c.ids, c.orders, c.dim0, c.bcast⟩ :: ts, ext, by rw [t1]; simp, t2, by simp [t3], by rw [List.countP_cons, hnh]; simpa using t4, ?_⟩
        intro j c' t hc ht
        cases j with
        | zero =>
          simp only [List.getElem?_cons_zero, Option.some.injEq] at hc ht
          subst hc; subst ht
          exact ⟨k, hget, rfl, Or.inl ⟨hk, rfl, rfl, rfl⟩⟩
        | succ j =>
          simp only [List.getElem?_cons_succ] at hc ht
          have := t5 j c' t hc ht
          simpa only [List.take_succ_cons, List.countP_cons, hnh, Bool.false_eq_true, if_false, Nat.add_zero] using this
      | some m =>
        have e : loopStep hint c k st = ⟨(st.kernels.add k).1, st.templates ++ [⟨(st.kernels.add k).2, c.ids ++ [st.dmMax], c.orders ++ [List.range (Nat.log2 (m * c.dim0))], c.dim0, c.bcast ++ [false]⟩],
            st.lens ++ [m * c.dim0], st.dmMax + 1⟩ := by simp [loopStep, hk]
        rw [e] at h hok1
        obtain ⟨ts, ext, t1, t2, t3, t4, t5⟩ := ih h hok1 (by simp [hd])
        have hnh : needsHint hint st'.kernels ⟨(st.kernels.add k).2, c.ids ++ [st.dmMax], c.orders ++ [List.range (Nat.log2 (m * c.dim0))], c.dim0, c.bcast ++ [false]⟩ = true := by simp [needsHint, hget, hk]
        refine ⟨⟨(st.kernels.add k).2, c.ids ++ [st.dmMax], c.orders ++ [List.range (Nat.log2 (m * c.dim0))], c.dim0, c.bcast ++ [false]⟩ :: ts, (m * c.dim0) :: ext, by rw [t1]; simp, by rw [t2]; simp,
          by simp [t3], by rw [List.countP_cons, hnh]; simpa using t4, ?_⟩
        intro j c' t hc ht
        cases j with
        | zero =>
          simp only [List.getElem?_cons_zero, Option.some.injEq] at hc ht
          subst hc; subst ht
          exact ⟨k, hget, rfl, Or.inr ⟨m, hk, by simp [hd], rfl, rfl, rfl⟩⟩
        | succ j =>
          simp only [List.getElem?_cons_succ] at hc ht
          obtain ⟨k', k1, k2, k3⟩ := t5 j c' t hc ht
          refine ⟨k', k1, k2, k3.imp id ?_⟩
          rintro ⟨m', m1, m2, m3, m4, m5⟩
          refine ⟨m', m1, ?_, m3, m4, ?_⟩
          · rw [m2]
            simp only [List.take_succ_cons, List.countP_cons, hnh, if_true, List.length_append, List.length_singleton]
            congr 2; omega
          · simp only [List.take_succ_cons, List.countP_cons, hnh, if_true, List.getElem?_cons_succ]; exact m5

/-- Loading adds no kernels. -/
theorem loop_load_kernels {hint : K → Option Nat} {full : Pool K} (hfull : full.Ok) : ∀ (cs : List (KernelCall L)) {st st' : LoopSt K}, st.kernels = full →
    loop hint pickLoad cs st = some st' → st'.kernels = full := by
  intro cs
  induction cs with
  | nil => intro st st' hst h; simp only [loop, Option.some.injEq] at h; subst h; exact hst
  | cons c cs ih =>
    intro st st' hst h
    simp only [loop] at h
    cases hp : pickLoad c st.kernels with
    | none => simp [hp] at h
    | some k =>
      simp only [hp] at h
      have hget : full.get c.kid = some k := by rw [← hst]; exact hp
      have hadd : full.add k = (full, c.kid) := by
        have := (hfull k _).2 hget
        simp [Pool.add, this]
      exact ih (by rw [loopStep_kernels, hst, hadd]) h

theorem addKernels_nodup : ∀ (ks : List K) {p q : Pool K}, p.Ok → addKernels ks p p.vec.length = some q → (p.vec ++ ks).Nodup ∧ q.Ok ∧ q.vec = p.vec ++ ks := by
  intro ks
  induction ks with
  | nil =>
    intro p q h hq
    simp only [addKernels, Option.some.injEq] at hq; subst hq
    exact ⟨by simpa using pool_nodup h, h, by simp⟩
  | cons k ks ih =>
    intro p q h hq
    simp only [addKernels] at hq
    split at hq
    · rename_i hid
      have hk : p.map.lookup k = none := by
        cases hl : p.map.lookup k with
        | none => rfl
        | some i =>
          have h1 := (h k i).1 hl
          have h2 := (List.getElem?_eq_some_iff.1 h1).1
          simp only [Pool.add, hl] at hid
          omega
      have ha : p.add k = (⟨p.vec ++ [k], (k, p.vec.length) :: p.map⟩, p.vec.length) := by simp [Pool.add, hk]
      obtain ⟨h1, h2, h3⟩ := ih (p := (p.add k).1) (Pool.add_spec h k).1 (by simpa [ha] using hq)
      simp only [ha, List.append_assoc, List.singleton_append] at h1 h3
      exact ⟨h1, h2, h3⟩
    · cases hq

end Verif.Zkcuda
