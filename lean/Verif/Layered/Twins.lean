import Verif.Layered.PubExpand

/-!
# After `dedup_gates` equal gates are random gates

This needs what a sort gives: the gates that can be merged stand side by side.
-/

set_option linter.unusedSectionVars false
set_option linter.unusedSimpArgs false

namespace Verif.Layered

open Verif.IR (Coef)

variable {F : Type} [CommRing F] [DecidableEq F]

/-- Gates that can be merged with each other stand side by side. -/
def Grouped : List (Gate F) → Prop
  | [] => True
  | g :: t => (t.Pairwise fun b c => canMerge g c = true → canMerge g b = true) ∧ Grouped t

theorem canMerge_coefAdd_left {g h : Gate F} (hm : canMerge g h = true) (z : Gate F) : canMerge (coefAdd g h) z = canMerge g z := by
  obtain ⟨_, _, _, x, y, hx, hy⟩ := canMerge_iff.1 hm
  simp only [canMerge, coefAdd, hx, hy, getConst, Option.isSome_some]

theorem canMerge_coefAdd_right {g h : Gate F} (hm : canMerge g h = true) (z : Gate F) : canMerge z (coefAdd g h) = canMerge z g := by
  obtain ⟨_, _, _, x, y, hx, hy⟩ := canMerge_iff.1 hm
  simp only [canMerge, coefAdd, hx, hy, getConst, Option.isSome_some]

theorem mergeRun_key : ∀ (t : List (Gate F)) (g x : Gate F), x ∈ mergeRun g t → ∃ y ∈ g :: t, ∀ z, canMerge z x = canMerge z y := by
  intro t
  induction t with
  | nil => intro g x hx; exact ⟨x, hx, fun _ => rfl⟩
  | cons h t ih =>
    intro g x hx
    simp only [mergeRun] at hx
    split at hx
    · rename_i hm
      obtain ⟨y, hy, e⟩ := ih _ x hx
      rcases List.mem_cons.1 hy with rfl | hy
      · exact ⟨g, by simp, fun z => (e z).trans (canMerge_coefAdd_right hm z)⟩
      · exact ⟨y, by simp [hy], e⟩
    · rcases List.mem_cons.1 hx with rfl | hx
      · exact ⟨x, by simp, fun _ => rfl⟩
      · obtain ⟨y, hy, e⟩ := ih _ x hx
        exact ⟨y, by simp only [List.mem_cons] at hy ⊢; tauto, e⟩

theorem mergeRun_apart : ∀ (t : List (Gate F)) (g : Gate F), Grouped (g :: t) → (mergeRun g t).Pairwise fun a b => canMerge a b = false := by
  intro t
  induction t with
  | nil => intro g _; simp [mergeRun]
  | cons h t ih =>
    intro g hg
    obtain ⟨h1, h2⟩ := hg
    obtain ⟨h3, h4⟩ := List.pairwise_cons.1 h1
    simp only [mergeRun]
    split
    · rename_i hm
      apply ih
      refine ⟨?_, h2.2⟩
      simp only [canMerge_coefAdd_left hm]
      exact h4
    · rename_i hm
      refine List.pairwise_cons.2 ⟨?_, ih h h2⟩
      intro x hx
      obtain ⟨y, hy, e⟩ := mergeRun_key t h x hx
      rw [e g]
      rcases List.mem_cons.1 hy with rfl | hy
      · simpa using hm
      · cases hc : canMerge g y with
        | false => rfl
        | true => exact absurd (h3 y hy hc) hm

theorem canMerge_self {a : Gate F} {x : F} (h : a.coef = .const x) : canMerge a a = true := canMerge_iff.2 ⟨rfl, rfl, rfl, x, x, h, h⟩

theorem pairwise_of_countP {A : Type} {p : A → Bool} : ∀ {l : List A}, l.countP p ≤ 1 → l.Pairwise fun a b => ¬ (p a = true ∧ p b = true) := by
  intro l
  induction l with
  | nil => intro _; exact List.Pairwise.nil
  | cons a l ih =>
    intro h
    rw [List.countP_cons] at h
    refine List.pairwise_cons.2 ⟨?_, ih (by omega)⟩
    rintro b hb ⟨ha, hpb⟩
    rw [if_pos ha] at h
    have : 0 < l.countP p := List.countP_pos_iff.2 ⟨b, hb, hpb⟩
    omega

/-- At most one public-input gate per output: equal gates are no public-input gates. -/
theorem pub_apart {l : List (Gate F)} (h : ∀ o, pubAt l o ≤ 1) : l.Pairwise fun a b => a = b → a.isPub = false := by
  rw [List.pairwise_iff_getElem]
  rintro i j hi hj hij e
  have := List.pairwise_iff_getElem.1 (pairwise_of_countP (h (l[i]).output)) i j hi hj hij
  rw [← e] at this
  simpa using this

theorem random_of {a : Gate F} (h1 : canMerge a a = false) (h2 : a.isPub = false) : a.coef = .random := by
  cases hc : a.coef with
  | const x => rw [canMerge_self hc] at h1; cases h1
  | random => rfl
  | pub k => simp [Gate.isPub, hc] at h2

/-- Equal gates of a list are random gates. -/
def Apart {F : Type} (l : List (Gate F)) : Prop := l.Pairwise fun a b => a = b → a.coef = .random

theorem Apart.perm {l l' : List (Gate F)} (h : Apart l) (hp : l.Perm l') : Apart l' :=
  hp.pairwise h (fun {a b} hab e => e ▸ hab e.symm)

theorem dedupGates_apart {srt : List (Gate F) → List (Gate F)} (hs : ∀ l, (srt l).Perm l) (hg : ∀ l, Grouped (srt l)) {trim : Bool} {gs : List (Gate F)} (h : ∀ o, pubAt gs o ≤ 1) :
    Apart (dedupGates srt trim gs) := by
  have h1 : (mergeAdj (srt gs)).Pairwise fun a b => canMerge a b = false := by
    have := hg gs
    cases hh : srt gs with
    | nil => exact List.Pairwise.nil
    | cons g t => rw [hh] at this; exact mergeRun_apart t g this
  have h2 : (dedupGates srt trim gs).Pairwise fun a b => canMerge a b = false := by
    unfold dedupGates
    cases trim
    · exact h1
    · exact h1.filter _
  have h3 := pub_apart (l := dedupGates srt trim gs) (by rw [pubAt_dedupGates hs]; exact h)
  refine (h2.and h3).imp ?_
  rintro a b ⟨q1, q2⟩ e
  rw [← e] at q1
  exact random_of q1 (q2 e)

theorem uni_noTwins {s : Segment F} (h0 : Apart s.gateMuls) (h1 : Apart s.gateAdds) (h2 : Apart s.gateConsts) (h3 : Apart s.gateCustoms) : s.NoTwins := by
  unfold Segment.NoTwins Segment.uni
  have hm : ∀ (k : Nat) (l : List (Gate F)), Apart l → (l.map fun g => (k, g)).Pairwise fun a b : UniGate F => a = b → a.2.coef = .random := by
    intro k l h
    rw [List.pairwise_map]
    exact h.imp fun h e => h (Prod.mk.inj e).2
  rw [List.pairwise_append, List.pairwise_append, List.pairwise_append]
  refine ⟨⟨⟨hm 0 _ h0, hm 1 _ h1, ?_⟩, hm 2 _ h2, ?_⟩, hm 3 _ h3, ?_⟩
  all_goals
    intro a ha b hb e
    subst e
    simp only [List.mem_append, List.mem_map] at ha hb
    exfalso
    obtain ⟨k, g⟩ := a
    simp only [Prod.mk.injEq] at ha hb
    obtain ⟨_, _, rfl, _⟩ := hb
    omega

/-- After `dedup_gates` equal gates are random gates, if at most one public-input gate writes each output. -/
theorem dedup_noTwins {srt : List (Gate F) → List (Gate F)} (hs : ∀ l, (srt l).Perm l) (hg : ∀ l, Grouped (srt l)) {s : Segment F} (h : ∀ o, pubAt s.allGates o ≤ 1) : (s.dedup srt).NoTwins := by
  have hle : ∀ o, pubAt s.gateMuls o + pubAt s.gateAdds o + pubAt s.gateConsts o + pubAt s.gateCustoms o ≤ 1 := by
    intro o
    have := h o
    rw [allGates_pubAt] at this
    exact this
  have h0 := dedupGates_apart hs hg (trim := true) (gs := s.gateMuls) (fun o => by have := hle o; omega)
  have h1 := dedupGates_apart hs hg (trim := true) (gs := s.gateAdds) (fun o => by have := hle o; omega)
  have h2 := dedupGates_apart hs hg (trim := false) (gs := s.gateConsts) (fun o => by have := hle o; omega)
  have h3 := dedupGates_apart hs hg (trim := true) (gs := s.gateCustoms) (fun o => by have := hle o; omega)
  refine uni_noTwins h0 h1 ?_ h3
  simp only [Segment.dedup]
  refine Apart.perm ?_ (hs _).symm
  unfold Apart
  rw [List.pairwise_append]
  refine ⟨h2, ?_, ?_⟩
  · rw [List.pairwise_map]
    refine (List.nodup_range.filter _).imp ?_
    intro a b hab e
    exact absurd (Gate.mk.inj e).2.2.1 hab
  · rintro a ha b hb rfl
    obtain ⟨i, hi, rfl⟩ := List.mem_map.1 hb
    exfalso
    have := (List.mem_filter.1 hi).2
    simp only [Bool.and_eq_true, Bool.not_eq_true', List.any_eq_false, beq_iff_eq] at this
    exact this.2 ⟨none, [], i, .const 0⟩ (by simp [ha]) rfl


end Verif.Layered
