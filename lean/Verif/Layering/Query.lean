import Verif.Layering.Fill
import Mathlib.Data.Nat.Bitwise
import Mathlib.Tactic.Ring

/-!
# The layout of a called circuit inside a layer of its caller (`LayoutQuery::query`)
-/

set_option linter.unusedSectionVars false
set_option linter.unusedSimpArgs false

namespace Verif.Layering

open Verif.Layered (shiftOut addVec)

/-! ### Slots of dense layouts -/

theorem dense_slots {c l : Nat} {pl : List (Option Nat)} {p idx : Nat} : (p, idx) ∈ (Layout.dense c l pl).slots ↔ pl[p]? = some (some idx) := by
  simp only [Layout.slots, List.mem_filterMap]
  constructor
  · rintro ⟨⟨o, i⟩, h1, h2⟩
    have := List.mem_zipIdx_iff_getElem?.1 h1
    cases o with
    | none => cases h2
    | some v => simp at h2; obtain ⟨rfl, rfl⟩ := h2; exact this
  · intro h
    exact ⟨(some idx, p), List.mem_zipIdx_iff_getElem?.2 h, rfl⟩

theorem dense_nodup_aux (pl : List (Option Nat)) : ∀ n : Nat,
    (((pl.zipIdx n).filterMap fun p => p.1.map fun v => (p.2, v)).map (·.1)).Nodup ∧
    ∀ x ∈ ((pl.zipIdx n).filterMap fun p => p.1.map fun v => (p.2, v)).map (·.1), n ≤ x := by
  induction pl with
  | nil => intro n; simp
  | cons o pl ih =>
    intro n
    obtain ⟨h1, h2⟩ := ih (n + 1)
    rw [List.zipIdx_cons, List.filterMap_cons]
    cases o with
    | none => exact ⟨h1, fun x hx => by have := h2 x hx; omega⟩
    | some v =>
      refine ⟨List.nodup_cons.2 ⟨fun hx => by have := h2 _ hx; simp at this, h1⟩, ?_⟩
      intro x hx
      rcases List.mem_cons.1 hx with h | h
      · simp at h; omega
      · have := h2 x h; omega

theorem dense_nodup (c l : Nat) (pl : List (Option Nat)) : ((Layout.dense c l pl).slots.map (·.1)).Nodup := (dense_nodup_aux pl 0).1

/-! ### The block -/

theorem blockSize_pow (x : Nat) : ∃ m, blockSize x = 2 ^ m ∧ x < 2 ^ m := by
  unfold blockSize
  by_cases h : x = 0
  · exact ⟨0, by simp [h]⟩
  · rw [if_neg h]; exact ⟨_, rfl, Nat.lt_log2_self⟩

theorem blockSize_le {x N : Nat} (h : x < 2 ^ N) : ∃ m, m ≤ N ∧ blockSize x = 2 ^ m ∧ x < 2 ^ m := by
  unfold blockSize
  by_cases h0 : x = 0
  · exact ⟨0, by simp [h0]⟩
  · rw [if_neg h0]
    refine ⟨_, ?_, rfl, Nat.lt_log2_self⟩
    have := (Nat.log2_lt h0).2 h
    omega

theorem div_eq_of_xor {l r m : Nat} (h : l ^^^ r < 2 ^ m) : l / 2 ^ m = r / 2 ^ m := by
  have h1 : (l ^^^ r) >>> m = 0 := by rw [Nat.shiftRight_eq_div_pow]; exact Nat.div_eq_of_lt h
  rw [Nat.shiftRight_xor_distrib] at h1
  have := Nat.xor_eq_zero_iff.1 h1
  rwa [Nat.shiftRight_eq_div_pow, Nat.shiftRight_eq_div_pow] at this

/-- An aligned block that contains the lowest and the highest position contains all positions and lies inside the layer. -/
theorem block_spec {l r N : Nat} (hlr : l ≤ r) (hr : r < 2 ^ N) : ∃ m, m ≤ N ∧ blockSize (l ^^^ r) = 2 ^ m ∧
    (l - l % 2 ^ m) + 2 ^ m ≤ 2 ^ N ∧ ∀ p, l ≤ p → p ≤ r → l - l % 2 ^ m ≤ p ∧ p < (l - l % 2 ^ m) + 2 ^ m := by
  have hl : l < 2 ^ N := by omega
  obtain ⟨m, hm, hb, hx⟩ := blockSize_le (Nat.xor_lt_two_pow hl hr)
  have hd := div_eq_of_xor hx
  have hpos : 0 < 2 ^ m := Nat.two_pow_pos m
  have e1 : l - l % 2 ^ m = 2 ^ m * (l / 2 ^ m) := by have := Nat.div_add_mod l (2 ^ m); omega
  have e2 := Nat.div_add_mod r (2 ^ m)
  have e3 := Nat.mod_lt r hpos
  refine ⟨m, hm, hb, ?_, ?_⟩
  · obtain ⟨d, rfl⟩ := Nat.exists_eq_add_of_le hm
    rw [e1]
    have hlt : l / 2 ^ m < 2 ^ d := by rw [Nat.div_lt_iff_lt_mul hpos, Nat.mul_comm]; rwa [pow_add] at hl
    calc 2 ^ m * (l / 2 ^ m) + 2 ^ m = 2 ^ m * (l / 2 ^ m + 1) := by ring
      _ ≤ 2 ^ m * 2 ^ d := Nat.mul_le_mul_left _ hlt
      _ = 2 ^ (m + d) := by rw [pow_add]
  · intro p h1 h2
    refine ⟨by omega, ?_⟩
    rw [e1, hd]; omega

theorem foldl_min_le : ∀ (l : List Nat) (a : Nat), l.foldl min a ≤ a ∧ (∀ x ∈ l, l.foldl min a ≤ x) ∧ (l.foldl min a = a ∨ l.foldl min a ∈ l) := by
  intro l
  induction l with
  | nil => intro a; simp
  | cons b l ih =>
    intro a
    obtain ⟨h1, h2, h3⟩ := ih (min a b)
    refine ⟨by simp only [List.foldl_cons]; omega, ?_, ?_⟩
    · intro x hx
      rcases List.mem_cons.1 hx with h | h
      · subst h; simp only [List.foldl_cons]; omega
      · exact h2 x h
    · simp only [List.foldl_cons]
      rcases h3 with h | h
      · rw [h]
        rcases Nat.le_total a b with hab | hab
        · left; omega
        · right; rw [Nat.min_eq_right hab]; simp
      · right; exact List.mem_cons_of_mem _ h

theorem le_foldl_max : ∀ (l : List Nat) (a : Nat), a ≤ l.foldl max a ∧ (∀ x ∈ l, x ≤ l.foldl max a) ∧ (l.foldl max a = a ∨ l.foldl max a ∈ l) := by
  intro l
  induction l with
  | nil => intro a; simp
  | cons b l ih =>
    intro a
    obtain ⟨h1, h2, h3⟩ := ih (max a b)
    refine ⟨by simp only [List.foldl_cons]; omega, ?_, ?_⟩
    · intro x hx
      rcases List.mem_cons.1 hx with h | h
      · subst h; simp only [List.foldl_cons]; omega
      · exact h2 x h
    · simp only [List.foldl_cons]
      rcases h3 with h | h
      · rw [h]
        rcases Nat.le_total a b with hab | hab
        · right; rw [Nat.max_eq_right hab]; simp
        · left; omega
      · right; exact List.mem_cons_of_mem _ h

/-! ### The placement -/

theorem queryPl_length (n off : Nat) : ∀ (l : List (Option Nat × Nat)) (pl : List (Option Nat)), (queryPl n off l pl).length = pl.length := by
  intro l
  induction l with
  | nil => intro pl; rfl
  | cons e l ih =>
    intro pl
    obtain ⟨o, v⟩ := e
    cases o with
    | none => exact ih pl
    | some P => simp only [queryPl]; rw [ih]; simp

theorem queryPl_sound (n off : Nat) : ∀ (l : List (Option Nat × Nat)) (pl : List (Option Nat)) (p v : Nat),
    (queryPl n off l pl)[p]? = some (some v) → (∃ P, (some P, v) ∈ l ∧ P - off = p) ∨ pl[p]? = some (some v) := by
  intro l
  induction l with
  | nil => intro pl p v h; exact .inr h
  | cons e l ih =>
    intro pl p v h
    obtain ⟨o, w⟩ := e
    cases o with
    | none =>
      rcases ih pl p v h with ⟨P, h1, h2⟩ | h
      · exact .inl ⟨P, List.mem_cons_of_mem _ h1, h2⟩
      · exact .inr h
    | some P =>
      rcases ih _ p v h with ⟨Q, h1, h2⟩ | h
      · exact .inl ⟨Q, List.mem_cons_of_mem _ h1, h2⟩
      · rw [List.getElem?_set] at h
        split at h
        · rename_i e
          split at h
          · simp at h; subst h; exact .inl ⟨P, by simp, e⟩
          · cases h
        · exact .inr h

/-! ### `query` -/

variable {F : Type} [Field F] [DecidableEq F]

theorem posOf_spec {l : List Nat} {x i : Nat} (h : posOf l x = some i) : l[i]? = some x := by
  unfold posOf at h
  split at h
  · rename_i hm
    cases h
    rw [List.getElem?_eq_getElem (List.idxOf_lt_length_of_mem hm)]
    simp
  · cases h

theorem posOf_mem {l : List Nat} {x : Nat} (h : x ∈ l) : ∃ i, posOf l x = some i := ⟨_, if_pos h⟩

/-- Everything later proofs need about a query: the block lies inside the layer, and its slots correspond to the queried variables. -/
theorem query_spec {pos : List (Nat × Nat)} {N : Nat} (hpos : ∀ x p, pos.lookup x = some p → p < 2 ^ N)
    (vs names tv : List Nat) (cid lid : Nat) :
    ∃ pl, query pos vs names tv cid lid = ((query pos vs names tv cid lid).1, .dense cid lid pl) ∧ (∃ m, pl.length = 2 ^ m) ∧
      (query pos vs names tv cid lid).1 + pl.length ≤ 2 ^ N ∧
      (∀ p idx, pl[p]? = some (some idx) → ∃ (j x v : Nat), vs[j]? = some x ∧ names[j]? = some v ∧
        pos.lookup x = some ((query pos vs names tv cid lid).1 + p) ∧ posOf tv v = some idx) ∧
      (∀ (j x v P : Nat), vs[j]? = some x → names[j]? = some v → pos.lookup x = some P →
        (query pos vs names tv cid lid).1 ≤ P ∧ P < (query pos vs names tv cid lid).1 + pl.length ∧
        ((∀ (j' x' v' : Nat), vs[j']? = some x' → names[j']? = some v' → pos.lookup x' = some P → v' = v) →
          pl[P - (query pos vs names tv cid lid).1]? = some (posOf tv v))) := by
  have hone : (1 : Nat) ≤ 2 ^ N := Nat.one_le_two_pow
  by_cases he : vs.isEmpty = true
  · have hq : query pos vs names tv cid lid = (0, .dense cid lid [none]) := by unfold query; rw [if_pos he]
    rw [hq]
    have : vs = [] := by simpa using he
    subst this
    refine ⟨[none], rfl, ⟨0, rfl⟩, by simpa using hone, ?_, ?_⟩
    · intro p idx h; cases p <;> simp at h
    · intro j x v P h; simp at h
  · generalize hps : (vs.map fun x => pos.lookup x) = ps
    have hmem : ∀ P, P ∈ ps.filterMap id ↔ ∃ x ∈ vs, pos.lookup x = some P := by
      intro P; rw [← hps]; simp [List.mem_filterMap]
    -- the entries of the zipped list
    have hz : ∀ (o : Option Nat) (v : Nat), (o, v) ∈ ps.zip names ↔ ∃ (j x : Nat), vs[j]? = some x ∧ names[j]? = some v ∧ o = pos.lookup x := by
      intro o v
      rw [List.mem_iff_getElem?]
      constructor
      · rintro ⟨j, hj⟩
        rw [List.getElem?_zip_eq_some] at hj
        obtain ⟨h1, h2⟩ := hj
        rw [← hps, List.getElem?_map, Option.map_eq_some_iff] at h1
        obtain ⟨x, hx, rfl⟩ := h1
        exact ⟨j, x, hx, h2, rfl⟩
      · rintro ⟨j, x, hx, hv, rfl⟩
        exact ⟨j, List.getElem?_zip_eq_some.2 ⟨by rw [← hps, List.getElem?_map, hx]; rfl, hv⟩⟩
    generalize hkn : ps.filterMap id = known at *
    by_cases hk : known.isEmpty = true
    · have hnil : known = [] := by simpa using hk
      have hno : ∀ x ∈ vs, pos.lookup x = none := by
        intro x hx
        cases h : pos.lookup x with
        | none => rfl
        | some P => have := (hmem P).2 ⟨x, hx, h⟩; rw [hnil] at this; cases this
      have hq : query pos vs names tv cid lid = (0, .dense cid lid (subsMap (queryPl 1 0 (ps.zip names) [none]) (posOf tv))) := by
        unfold query; rw [if_neg he, hps]; dsimp only; rw [hkn, if_pos hk, if_pos hk]; rfl
      rw [hq]
      refine ⟨_, rfl, ⟨0, by simp [subsMap, queryPl_length]⟩, by simpa [subsMap, queryPl_length] using hone, ?_, ?_⟩
      · intro p idx h
        simp only [subsMap, List.getElem?_map, Option.map_eq_some_iff] at h
        obtain ⟨o, h1, h2⟩ := h
        cases o with
        | none => cases h2
        | some v =>
          rcases queryPl_sound _ _ _ _ _ _ h1 with ⟨P, h3, _⟩ | h3
          · obtain ⟨j, x, hx, _, hP⟩ := (hz _ _).1 h3
            rw [hno x (List.mem_of_getElem? hx)] at hP; cases hP
          · cases p <;> simp at h3
      · intro j x v P hx _ hP
        rw [hno x (List.mem_of_getElem? hx)] at hP; cases hP
    · obtain ⟨k0, rest, hkr⟩ : ∃ k0 rest, known = k0 :: rest := by
        cases known with
        | nil => simp at hk
        | cons a b => exact ⟨a, b, rfl⟩
      generalize hl : known.foldl min (known.headD 0) = l
      generalize hr : known.foldl max 0 = r
      have hmin := foldl_min_le known (known.headD 0)
      have hmax := le_foldl_max known 0
      rw [hl] at hmin
      rw [hr] at hmax
      have hk0 : k0 ∈ known := by rw [hkr]; simp
      have hlk := hmin.2.1 k0 hk0
      have hkr' := hmax.2.1 k0 hk0
      have hrlt : r < 2 ^ N := by
        rcases hmax.2.2 with h | h
        · rw [h]; omega
        · obtain ⟨x, _, hx⟩ := (hmem r).1 h
          exact hpos x r hx
      obtain ⟨m, hm, hb, hin, hall⟩ := block_spec (show l ≤ r by omega) hrlt
      have hq : query pos vs names tv cid lid = (l - l % 2 ^ m, .dense cid lid (subsMap (queryPl (2 ^ m) (l - l % 2 ^ m) (ps.zip names)
          (List.replicate (2 ^ m) none)) (posOf tv))) := by
        unfold query; rw [if_neg he, hps]; dsimp only; rw [hkn, if_neg hk, if_neg hk, hl, hr, hb]
      rw [hq]
      generalize hoff : l - l % 2 ^ m = off at *
      have hge : ∀ P v, (some P, v) ∈ ps.zip names → off ≤ P ∧ P < off + 2 ^ m := by
        intro P v h
        obtain ⟨j, x, hx, _, hP⟩ := (hz _ _).1 h
        have := (hmem P).2 ⟨x, List.mem_of_getElem? hx, hP.symm⟩
        exact hall P (hmin.2.1 P this) (hmax.2.1 P this)
      refine ⟨_, rfl, ⟨m, by simp [subsMap, queryPl_length]⟩, by simpa [subsMap, queryPl_length] using hin, ?_, ?_⟩
      · intro p idx h
        simp only [subsMap, List.getElem?_map, Option.map_eq_some_iff] at h
        obtain ⟨o, h1, h2⟩ := h
        cases o with
        | none => cases h2
        | some v =>
          rcases queryPl_sound _ _ _ _ _ _ h1 with ⟨P, h3, h4⟩ | h3
          · obtain ⟨j, x, hx, hv, hP⟩ := (hz _ _).1 h3
            have := hge P v h3
            refine ⟨j, x, v, hx, hv, ?_, h2⟩
            rw [← hP]; congr 1; simp only; omega
          · rw [List.getElem?_replicate] at h3; split at h3 <;> cases h3
      · intro j x v P hx hv hP
        have hmemz : (some P, v) ∈ ps.zip names := (hz _ _).2 ⟨j, x, hx, hv, hP.symm⟩
        have hPo := hge P v hmemz
        refine ⟨hPo.1, by simpa [subsMap, queryPl_length] using hPo.2, ?_⟩
        intro huniq
        simp only [subsMap, List.getElem?_map]
        -- filter the list to entries at position P agree
        have : (queryPl (2 ^ m) off (ps.zip names) (List.replicate (2 ^ m) none))[P - off]? = some (some v) := by
          have aux : ∀ (l : List (Option Nat × Nat)) (pl : List (Option Nat)), (∀ Q w, (some Q, w) ∈ l → off ≤ Q) →
              (∀ w, (some P, w) ∈ l → w = v) → P - off < pl.length → ((some P, v) ∈ l ∨ pl[P - off]? = some (some v)) →
              (queryPl (2 ^ m) off l pl)[P - off]? = some (some v) := by
            intro l
            induction l with
            | nil => intro pl _ _ _ h; rcases h with h | h; cases h; exact h
            | cons e l ih =>
              intro pl h1 h2 h3 h4
              obtain ⟨o, w⟩ := e
              have h1' : ∀ Q w, (some Q, w) ∈ l → off ≤ Q := fun Q w h => h1 Q w (List.mem_cons_of_mem _ h)
              have h2' : ∀ w, (some P, w) ∈ l → w = v := fun w h => h2 w (List.mem_cons_of_mem _ h)
              cases o with
              | none =>
                refine ih pl h1' h2' h3 ?_
                rcases h4 with h | h
                · rcases List.mem_cons.1 h with h | h
                  · cases h
                  · exact .inl h
                · exact .inr h
              | some Q =>
                refine ih _ h1' h2' (by simpa using h3) ?_
                by_cases hQ : Q = P
                · subst hQ
                  right
                  rw [List.getElem?_set_self h3, h2 w (by simp)]
                · rcases h4 with h | h
                  · rcases List.mem_cons.1 h with h | h
                    · cases h; exact absurd rfl hQ
                    · exact .inl h
                  · right
                    have := h1 Q w (by simp)
                    rw [List.getElem?_set_ne (by omega)]; exact h
          refine aux _ _ (fun Q w h => (hge Q w h).1) ?_ (by simp; omega) (.inl hmemz)
          intro w hw
          obtain ⟨j', x', hx', hw', hP'⟩ := (hz _ _).1 hw
          exact huniq j' x' w hx' hw' hP'.symm
        rw [this]; rfl

end Verif.Layering

namespace Verif.Layering

open Verif.Layered (shiftOut addVec)

variable {F : Type} [Field F] [DecidableEq F]

theorem sum_assoc_ite {M : Type} [AddCommMonoid M] (h : Nat → M) : ∀ {Z : List (Nat × Nat)}, (Z.map (·.1)).Nodup → ∀ {x v : Nat}, (x, v) ∈ Z →
    (Z.map fun e => if e.1 = x then h e.2 else 0).sum = h v := by
  intro Z
  induction Z with
  | nil => intro _ x v h; cases h
  | cons e Z ih =>
    intro hn x v hm
    rw [List.map_cons, List.nodup_cons] at hn
    rw [List.map_cons, List.sum_cons]
    rcases List.mem_cons.1 hm with hm | hm
    · subst hm
      rw [if_pos rfl]
      have : (Z.map fun e => if e.1 = x then h e.2 else 0).sum = 0 := by
        apply List.sum_eq_zero
        intro y hy
        obtain ⟨e, he, rfl⟩ := List.mem_map.1 hy
        rw [if_neg (fun h : e.1 = x => hn.1 (List.mem_map.2 ⟨e, he, h⟩))]
      rw [this, add_zero]
    · rw [ih hn.2 hm, if_neg (fun h => hn.1 (List.mem_map.2 ⟨(x, v), hm, h.symm⟩)), zero_add]

theorem zip_keys_nodup : ∀ {vs : List Nat}, vs.Nodup → ∀ (names : List Nat), ((vs.zip names).map (·.1)).Nodup := by
  intro vs
  induction vs with
  | nil => intro _ names; simp
  | cons a vs ih =>
    intro h names
    cases names with
    | nil => simp
    | cons b names =>
      rw [List.nodup_cons] at h
      rw [List.zip_cons_cons, List.map_cons, List.nodup_cons]
      refine ⟨fun hm => h.1 ?_, ih h.2 names⟩
      obtain ⟨e, he, rfl⟩ := List.mem_map.1 hm
      exact (List.of_mem_zip he).1

/-- The contents of the layout of a finished call: its outputs, at the positions of the caller's variables. -/
theorem query_fill {pos : List (Nat × Nat)} {N : Nat} (hpos : ∀ x p, pos.lookup x = some p → p < 2 ^ N)
    (hinj : ∀ x x' p, pos.lookup x = some p → pos.lookup x' = some p → x = x')
    {vs names tv : List Nat} (hvs : vs.Nodup) (htv : ∀ v ∈ names, v ∈ tv) (cid lid : Nat) {off : Nat} {pl : List (Option Nat)}
    (hq : query pos vs names tv cid lid = (off, .dense cid lid pl)) (T : Trace F) :
    shiftOut off pl.length (ownFill tv (Layout.dense cid lid pl).slots T) =
      ((vs.zip names).map fun e => ((pos.lookup e.1).map fun P => single P (T [] e.2)).getD 0).sum := by
  obtain ⟨pl', hq', _, hin, hs, hc⟩ := query_spec hpos vs names tv cid lid
  rw [hq] at hq' hin hs hc
  obtain rfl : pl = pl' := by simpa using hq'
  have huniq : ∀ {j x : Nat} {v P : Nat}, vs[j]? = some x → names[j]? = some v → pos.lookup x = some P →
      ∀ (j' x' v' : Nat), vs[j']? = some x' → names[j']? = some v' → pos.lookup x' = some P → v' = v := by
    intro j x v P hx hv hP j' x' v' hx' hv' hP'
    have := hinj x x' P hP hP'
    subst this
    have hj : j < vs.length := (List.getElem?_eq_some_iff.1 hx).1
    have : j = j' := (List.getElem?_inj hj hvs).1 (by rw [hx, hx'])
    subst this
    rw [hv] at hv'; exact (Option.some.inj hv').symm
  funext P
  rw [sum_apply, List.map_map]
  have hterm : ((vs.zip names).map ((· P) ∘ fun e => ((pos.lookup e.1).map fun P => single P (T [] e.2)).getD 0)) =
      (vs.zip names).map fun e => if pos.lookup e.1 = some P then T [] e.2 else 0 := by
    apply List.map_congr_left
    intro e _
    simp only [Function.comp]
    cases h : pos.lookup e.1 with
    | none => simp
    | some Q =>
      by_cases hQ : Q = P
      · subst hQ; simp [single]
      · have : P ≠ Q := fun e => hQ e.symm
        simp [single, hQ, this]
  rw [hterm]
  by_cases hex : ∃ (j x v : Nat), vs[j]? = some x ∧ names[j]? = some v ∧ pos.lookup x = some P
  · obtain ⟨j, x, v, hx, hv, hP⟩ := hex
    obtain ⟨h1, h2, h3⟩ := hc j x v P hx hv hP
    have h4 := h3 (huniq hx hv hP)
    obtain ⟨idx, hidx⟩ := posOf_mem (htv v (List.mem_of_getElem? hv))
    rw [hidx] at h4
    simp only at h1 h2
    have e1 : P = off + (P - off) := by omega
    have : (vs.zip names).map (fun e => if pos.lookup e.1 = some P then T [] e.2 else 0) = (vs.zip names).map fun e => if e.1 = x then T [] e.2 else 0 := by
      apply List.map_congr_left
      intro e _
      by_cases he : e.1 = x
      · rw [he, if_pos hP, if_pos rfl]
      · rw [if_neg he, if_neg (fun h => he (hinj _ _ _ h hP))]
    rw [this, sum_assoc_ite _ (zip_keys_nodup hvs names) (List.mem_of_getElem? (List.getElem?_zip_eq_some.2 ⟨hx, hv⟩) : (x, v) ∈ vs.zip names)]
    rw [e1, shiftOut_in (by omega), ownFill_at _ _ _ (dense_nodup _ _ _) _ idx (dense_slots.2 h4)]
    have := posOf_spec hidx
    rw [List.getD_eq_getElem?_getD, this]; rfl
  · have hz : ((vs.zip names).map fun e => if pos.lookup e.1 = some P then T [] e.2 else 0).sum = 0 := by
      apply List.sum_eq_zero
      intro y hy
      obtain ⟨⟨x, v⟩, he, rfl⟩ := List.mem_map.1 hy
      rw [if_neg]
      intro h
      obtain ⟨j, hj⟩ := List.mem_iff_getElem?.1 he
      obtain ⟨h1, h2⟩ := List.getElem?_zip_eq_some.1 hj
      exact hex ⟨j, x, v, h1, h2, h⟩
    rw [hz]
    by_cases hr : off ≤ P ∧ P < off + pl.length
    · rw [show P = off + (P - off) by omega, shiftOut_in (by omega), ownFill_out]
      intro hm
      obtain ⟨⟨p, idx⟩, h1, h2⟩ := List.mem_map.1 hm
      simp only at h2; subst h2
      obtain ⟨j, x, v, hx, hv, hP, _⟩ := hs _ _ (dense_slots.1 h1)
      exact hex ⟨j, x, v, hx, hv, by rw [hP]; congr 1; simp only; omega⟩
    · exact shiftOut_out (by omega)

/-- The layout of a call at its first or last layer is usable. -/
theorem query_ok {tab : Nat → Option (Ctx F)} {cid lid : Nat} {c : Ctx F} (hc : tab cid = some c) {pl : List (Option Nat)} (hp : ∃ m, pl.length = 2 ^ m) :
    LayoutOk tab (.dense cid lid pl) := by
  refine .mk c hc hp ?_ (dense_nodup _ _ _) (by simp [Layout.subs]) (by simp [Layout.subs]) (by simp [Layout.subs]) (by simp [Layout.subs]) (by simp [Layout.subs]) (by simp [Layout.subs])
  intro p idx h
  exact (List.getElem?_eq_some_iff.1 (dense_slots.1 h)).1

end Verif.Layering
