/-!
# Small shared helpers
-/

namespace Verif

/-- `iter().map(f).collect::<Option<Vec<_>>>()`: all results, or `none` if some element fails. -/
def mapOpt {α β : Type} (f : α → Option β) : List α → Option (List β)
  | [] => some []
  | a :: l => match f a, mapOpt f l with
    | some b, some r => some (b :: r)
    | _, _ => none

theorem mapOpt_cons {α β : Type} {f : α → Option β} {a : α} {l : List α} {r : List β} :
    mapOpt f (a :: l) = some r ↔ ∃ b r', f a = some b ∧ mapOpt f l = some r' ∧ r = b :: r' := by
  simp only [mapOpt]
  constructor
  · intro h
    split at h
    · rename_i b r' h1 h2; cases h; exact ⟨b, r', h1, h2, rfl⟩
    · cases h
  · rintro ⟨b, r', h1, h2, rfl⟩; rw [h1, h2]

theorem mapOpt_length {α β : Type} {f : α → Option β} : ∀ {l : List α} {r : List β}, mapOpt f l = some r → r.length = l.length := by
  intro l
  induction l with
  | nil => intro r h; simp [mapOpt] at h; simp [h]
  | cons a l ih =>
    intro r h
    obtain ⟨b, r', _, h2, rfl⟩ := mapOpt_cons.1 h
    simp [ih h2]

theorem mapOpt_getElem? {α β : Type} {f : α → Option β} : ∀ {l : List α} {r : List β}, mapOpt f l = some r →
    ∀ (i : Nat) (a : α), l[i]? = some a → f a = r[i]? := by
  intro l
  induction l with
  | nil => intro r h i a ha; simp at ha
  | cons a l ih =>
    intro r h i b hb
    obtain ⟨c, r', hc, hr, rfl⟩ := mapOpt_cons.1 h
    cases i with
    | zero => simp at hb; subst hb; simpa using hc
    | succ i => simpa using ih hr i b (by simpa using hb)

theorem mapOpt_isSome {α β : Type} {f : α → Option β} : ∀ {l : List α}, (∀ a ∈ l, (f a).isSome) → ∃ r, mapOpt f l = some r := by
  intro l
  induction l with
  | nil => intro _; exact ⟨[], rfl⟩
  | cons a l ih =>
    intro h
    obtain ⟨r, hr⟩ := ih (fun b hb => h b (by simp [hb]))
    obtain ⟨b, hb⟩ := Option.isSome_iff_exists.1 (h a (by simp))
    exact ⟨b :: r, mapOpt_cons.2 ⟨b, r, hb, hr, rfl⟩⟩

theorem mapOpt_congr {α β : Type} {f g : α → Option β} : ∀ {l : List α}, (∀ a ∈ l, f a = g a) → mapOpt f l = mapOpt g l := by
  intro l
  induction l with
  | nil => intro _; rfl
  | cons a l ih =>
    intro h
    simp only [mapOpt, h a (by simp), ih (fun b hb => h b (by simp [hb]))]

theorem mapOpt_append {α β : Type} {f : α → Option β} : ∀ {l m : List α}, mapOpt f (l ++ m) =
    match mapOpt f l, mapOpt f m with
    | some a, some b => some (a ++ b)
    | _, _ => none := by
  intro l
  induction l with
  | nil => intro m; cases h : mapOpt f m <;> simp [mapOpt, h]
  | cons a l ih =>
    intro m
    simp only [List.cons_append, mapOpt, ih]
    cases f a <;> cases mapOpt f l <;> cases mapOpt f m <;> simp

theorem mapOpt_map {α β γ : Type} {f : β → Option γ} {g : α → β} : ∀ {l : List α}, mapOpt f (l.map g) = mapOpt (fun a => f (g a)) l := by
  intro l
  induction l with
  | nil => rfl
  | cons a l ih => simp only [List.map_cons, mapOpt, ih]

theorem mapOpt_some {α β : Type} {g : α → β} : ∀ {l : List α}, mapOpt (fun a => some (g a)) l = some (l.map g) := by
  intro l
  induction l with
  | nil => rfl
  | cons a l ih => simp [mapOpt, ih]

end Verif
