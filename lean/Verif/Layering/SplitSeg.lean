import Verif.Layering.SplitPool

/-!
# The instructions of a segment (for `ir_split.rs`)
-/

set_option linter.unusedSectionVars false
set_option linter.unusedSimpArgs false

namespace Verif.Layering.Split

open Verif.IR (Expr Coef Env dest Circuit RootCircuit WFGet CallsOk Calls CircOk InsnsOk numVars Run EvalSub readAll checkCons Constraint Term VarSpec)
open Verif.Layering

variable {F : Type} [Field F] [DecidableEq F]

theorem locOf_get {lv : List Nat} {x : Nat} (h : x ∈ lv) : 1 ≤ locOf lv x ∧ locOf lv x ≤ lv.length ∧ lv[locOf lv x - 1]? = some x := by
  have hl := List.idxOf_lt_length_iff.2 h
  rw [locOf, if_pos h]
  refine ⟨by omega, by omega, ?_⟩
  rw [Nat.add_sub_cancel, List.getElem?_eq_getElem hl]; simp

/-- Local values are the values of the variables. -/
def Local (lv : List Nat) (Wl Wg : Nat → F) : Prop := ∀ (k v : Nat), lv[k]? = some v → Wl (k + 1) = Wg v

theorem Local.loc {lv : List Nat} {Wl Wg : Nat → F} (h : Local lv Wl Wg) {x : Nat} (hx : x ∈ lv) : Wl (locOf lv x) = Wg x := by
  obtain ⟨h1, h2, h3⟩ := locOf_get hx
  have := h _ _ h3
  rwa [Nat.sub_add_cancel h1] at this

theorem Local.left {lv new : List Nat} {Wl Wg : Nat → F} (h : Local (lv ++ new) Wl Wg) : Local lv Wl Wg :=
  fun k v hk => h k v (by rw [List.getElem?_append_left (List.getElem?_eq_some_iff.1 hk).1]; exact hk)

theorem locInsn_args {lv : List Nat} {i i' : Verif.IR.Dest.Insn F} (h : locInsn lv i = some i') :
    nOut i' = nOut i ∧ argsOf i' = (argsOf i).map (locOf lv) ∧ ∀ x ∈ argsOf i, x ∈ lv := by
  cases i with
  | constantLike v => simp only [locInsn, Option.some.injEq] at h; subst h; simp [nOut, argsOf]
  | internal e =>
    simp only [locInsn] at h
    split at h
    · rename_i hall
      simp only [Option.some.injEq] at h; subst h
      refine ⟨rfl, Verif.IR.Expr.getVars_replace e _, ?_⟩
      simpa [argsOf] using hall
    · cases h
  | call d xs n =>
    simp only [locInsn] at h
    split at h
    · rename_i hall
      simp only [Option.some.injEq] at h; subst h
      refine ⟨rfl, rfl, ?_⟩
      simpa [argsOf] using hall
    · cases h

theorem locInsn_call {lv : List Nat} {i : Verif.IR.Dest.Insn F} {d n : Nat} {xs : List Nat} (h : locInsn lv i = some (.call d xs n)) :
    ∃ ys, i = .call d ys n ∧ xs.length = ys.length := by
  cases i with
  | constantLike v => simp [locInsn] at h
  | internal e => simp only [locInsn] at h; split at h <;> simp at h
  | call d' ys n' =>
    simp only [locInsn] at h
    split at h
    · simp only [Option.some.injEq, Verif.IR.Dest.Insn.call.injEq] at h
      obtain ⟨rfl, rfl, rfl⟩ := h
      exact ⟨ys, rfl, by simp⟩
    · cases h

theorem locInsn_valid {npi : Nat} {lv : List Nat} {i i' : Verif.IR.Dest.Insn F} (h : locInsn lv i = some i') (hv : Verif.IR.Dest.Insn.valid npi i = true) : Verif.IR.Dest.Insn.valid npi i' = true := by
  cases i with
  | constantLike v => simp only [locInsn, Option.some.injEq] at h; subst h; exact hv
  | internal e => simp only [locInsn] at h; split at h <;> simp at h; subst h; rfl
  | call d xs n => simp only [locInsn] at h; split at h <;> simp at h; subst h; rfl

theorem locInsn_holds {E : Env F} {S : Nat → List F → List F → Prop} {Wl Wg : Nat → F} {lv : List Nat} {i i' : Verif.IR.Dest.Insn F} {lcur cur : Nat} (h : locInsn lv i = some i')
    (hl : Local lv Wl Wg) (ho : ∀ k, k < nOut i → Wl (lcur + k) = Wg (cur + k)) : Holds E S Wl i' lcur ↔ Holds E S Wg i cur := by
  obtain ⟨-, -, hargs⟩ := locInsn_args h
  cases i with
  | constantLike v =>
    simp only [locInsn, Option.some.injEq] at h; subst h
    have := ho 0 (by simp [nOut])
    simp only [Nat.add_zero] at this
    simp only [Holds, this]
  | internal e =>
    simp only [locInsn] at h
    split at h
    · simp only [Option.some.injEq] at h; subst h
      have h0 := ho 0 (by simp [nOut])
      simp only [Nat.add_zero] at h0
      simp only [Holds, h0]
      rw [Verif.IR.Expr.sem_replace]
      constructor
      · exact expr_congr (f := fun x => Wl (locOf lv x)) (fun v hv => hl.loc (hargs v hv))
      · exact expr_congr (g := fun x => Wl (locOf lv x)) (fun v hv => (hl.loc (hargs v hv)).symm)
    · cases h
  | call d xs n =>
    simp only [locInsn] at h
    split at h
    · simp only [Option.some.injEq] at h; subst h
      simp only [Holds]
      rw [List.map_map, map_congr_mem (f := Wl ∘ locOf lv) (g := Wg) (l := xs) (fun v hv => hl.loc (hargs v hv))]
      have : (List.range' lcur n).map Wl = (List.range' cur n).map Wg := by
        apply List.ext_getElem?
        intro j
        rw [List.getElem?_map, List.getElem?_map]
        by_cases hj : j < n
        · rw [range'_get hj, range'_get hj]; exact congrArg some (ho j hj)
        · rw [List.getElem?_eq_none (by simp; omega), List.getElem?_eq_none (by simp; omega)]; rfl
      rw [this]
    · cases h

theorem placed_ge : ∀ (is : List (Verif.IR.Dest.Insn F)) (cur : Nat), ∀ p ∈ placed is cur, cur ≤ p.2
  | [], _, p, h => by cases h
  | i :: is, cur, p, h => by
    rcases List.mem_cons.1 h with rfl | h
    · exact le_refl _
    · have := placed_ge is (cur + nOut i) p h; omega

/-- What `segInsns` returns. -/
structure SegInsnsOk (mn : List Nat) (start stop : Nat) (is : List (Verif.IR.Dest.Insn F)) (cur : Nat) (lv : List Nat) (sis : List (Verif.IR.Dest.Insn F)) (lv' new : List Nat) : Prop where
  app : lv' = lv ++ new
  nodup : new.Nodup
  ge : ∀ v ∈ new, cur ≤ v
  mem : ∀ v, v ∈ new ↔ ∃ p ∈ placed is cur, incl mn start stop p.1 p.2 = true ∧ p.2 ≤ v ∧ v < p.2 + nOut p.1
  fin : endOf sis (lv.length + 1) = lv'.length + 1
  argsOk : ArgsOk sis (lv.length + 1)
  valid : ∀ npi, (∀ i ∈ is, Verif.IR.Dest.Insn.valid npi i = true) → ∀ i ∈ sis, Verif.IR.Dest.Insn.valid npi i = true
  calls : ∀ pool k, CallsIn pool k is → CallsIn pool k sis
  args : ∀ p ∈ placed is cur, incl mn start stop p.1 p.2 = true → ∀ v ∈ argsOf p.1, v ∈ lv'
  holds : ∀ (E : Env F) S Wl Wg, Local lv' Wl Wg → (HoldsAll E S Wl sis (lv.length + 1) ↔ ∀ p ∈ placed is cur, incl mn start stop p.1 p.2 = true → Holds E S Wg p.1 p.2)

theorem segInsns_spec {mn : List Nat} {start stop : Nat} : ∀ (is : List (Verif.IR.Dest.Insn F)) (cur : Nat) (lv : List Nat) (sis : List (Verif.IR.Dest.Insn F)) (lv' : List Nat),
    segInsns mn start stop is cur lv = some (sis, lv') → ∃ new, SegInsnsOk mn start stop is cur lv sis lv' new := by
  intro is
  induction is with
  | nil =>
    intro cur lv sis lv' h
    simp only [segInsns, Option.some.injEq, Prod.mk.injEq] at h
    obtain ⟨rfl, rfl⟩ := h
    exact ⟨[], by simp, by simp, by simp, by simp [placed], by simp [endOf], trivial, fun _ _ => by simp, fun _ _ _ => by simp [CallsIn], by simp [placed], by simp [placed, HoldsAll]⟩
  | cons i is ih =>
    intro cur lv sis lv' h
    unfold segInsns at h
    by_cases hin : incl mn start stop i cur = true
    · rw [if_pos hin] at h
      dsimp only at h
      cases hl : locInsn lv i with
      | none => rw [hl] at h; cases h
      | some i' =>
        rw [hl] at h
        cases hr : segInsns mn start stop is (cur + nOut i) (lv ++ List.range' cur (nOut i)) with
        | none => rw [hr] at h; cases h
        | some r =>
          obtain ⟨r, lvr⟩ := r
          rw [hr] at h
          simp only [Option.some.injEq, Prod.mk.injEq] at h
          obtain ⟨rfl, rfl⟩ := h
          obtain ⟨new, hn⟩ := ih _ _ _ _ hr
          obtain ⟨l1, l2, l3⟩ := locInsn_args hl
          have hlen : (lv ++ List.range' cur (nOut i)).length + 1 = lv.length + 1 + nOut i := by simp; omega
          refine ⟨List.range' cur (nOut i) ++ new, ?_, ?_, ?_, ?_, ?_, ?_, ?_, ?_, ?_, ?_⟩
          · rw [hn.app, List.append_assoc]
          · rw [List.nodup_append]
            refine ⟨List.nodup_range' , hn.nodup, ?_⟩
            intro a ha b hb
            have h1 := List.mem_range'_1.1 ha
            have h2 := hn.ge b hb
            omega
          · intro v hv
            rcases List.mem_append.1 hv with hv | hv
            · exact (List.mem_range'_1.1 hv).1
            · have := hn.ge v hv; omega
          · intro v
            rw [List.mem_append, hn.mem, List.mem_range'_1]
            simp only [placed, List.mem_cons, exists_eq_or_imp]
            constructor
            · rintro (h | h)
              · exact Or.inl ⟨hin, h⟩
              · exact Or.inr h
            · rintro (h | h)
              · exact Or.inl h.2
              · exact Or.inr h
          · simp only [endOf]; rw [l1, ← hlen]; exact hn.fin
          · rw [argsOk_cons, l1, l2, ← hlen]
            refine ⟨?_, hn.argsOk⟩
            intro v hv
            obtain ⟨x, hx, rfl⟩ := List.mem_map.1 hv
            have := locOf_get (l3 x hx)
            omega
          · intro npi hv j hj
            rcases List.mem_cons.1 hj with rfl | hj
            · exact locInsn_valid hl (hv i (by simp))
            · exact hn.valid npi (fun k hk => hv k (by simp [hk])) j hj
          · intro pool k hc d xs n hm
            rcases List.mem_cons.1 hm with e | hm
            · rw [← e] at hl
              obtain ⟨ys, rfl, hy⟩ := locInsn_call hl
              rw [hy]; exact hc d ys n (by simp)
            · exact hn.calls pool k (fun d xs n hm => hc d xs n (by simp [hm])) d xs n hm
          · intro p hp hi v hv
            rcases List.mem_cons.1 hp with rfl | hp
            · rw [hn.app]; simp [l3 v hv]
            · exact hn.args p hp hi v hv
          · intro E S Wl Wg hloc
            have h2 := hn.holds E S Wl Wg hloc
            rw [hlen] at h2
            rw [hn.app] at hloc
            have h1 : Holds E S Wl i' (lv.length + 1) ↔ Holds E S Wg i cur := by
              refine locInsn_holds hl hloc.left.left ?_
              intro k hk
              have := hloc (lv.length + k) (cur + k) (by
                rw [List.append_assoc, List.getElem?_append_right (by omega), Nat.add_sub_cancel_left, List.getElem?_append_left (by simpa using hk), range'_get hk])
              rw [← this]; congr 1; omega
            show Holds E S Wl i' (lv.length + 1) ∧ HoldsAll E S Wl r (lv.length + 1 + nOut i') ↔ _
            rw [l1, h2, h1]
            constructor
            · rintro ⟨g1, g2⟩ p hp hi
              rcases List.mem_cons.1 hp with rfl | hp
              · exact g1
              · exact g2 p hp hi
            · intro g
              exact ⟨g (i, cur) (by simp [placed]) hin, fun p hp hi => g p (by simp [placed, hp]) hi⟩
    · rw [if_neg hin] at h
      obtain ⟨new, hn⟩ := ih _ _ _ _ h
      refine ⟨new, hn.app, hn.nodup, ?_, ?_, hn.fin, hn.argsOk, ?_, ?_, ?_, ?_⟩
      · intro v hv; have := hn.ge v hv; omega
      · intro v
        rw [hn.mem]
        simp only [placed, List.mem_cons, exists_eq_or_imp]
        constructor
        · exact Or.inr
        · rintro (h | h)
          · exact absurd h.1 hin
          · exact h
      · exact fun npi hv => hn.valid npi (fun k hk => hv k (by simp [hk]))
      · exact fun pool k hc => hn.calls pool k (fun d xs n hm => hc d xs n (by simp [hm]))
      · intro p hp hi v hv
        rcases List.mem_cons.1 hp with rfl | hp
        · exact absurd hi hin
        · exact hn.args p hp hi v hv
      · intro E S Wl Wg hloc
        rw [hn.holds E S Wl Wg hloc]
        constructor
        · intro g p hp hi
          rcases List.mem_cons.1 hp with rfl | hp
          · exact absurd hi hin
          · exact g p hp hi
        · intro g p hp hi
          exact g p (by simp [placed, hp]) hi

end Verif.Layering.Split
