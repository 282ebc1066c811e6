import Verif.Std.Poseidon
/-!
# C45: the Poseidon gadget computes Poseidon

`Spec` (in `Verif.Std.Poseidon`) is Poseidon with matrices and vectors: `h` full rounds, `q` partial rounds, `h` full rounds, each adding the
constants, multiplying by the matrix and taking fifth powers; `Spec.hash` is the sponge with zero padding.
-/
namespace Verif.Props
open Verif.Std.Poseidon

/-- The circuit, over every ring: for all constants (a table with at least one row per round), all first rows of the matrix, all rates up to the
width, numbers of rounds and messages of any length, `hash_to_state` returns the state of the sponge; `permute` computes the permutation. -/
theorem C45_circuit {F : Type} [CommRing F] (w rate full part : Nat) (consts : List (List Nat)) (row : List Nat)
    (h0 : 0 < rate) (hr : rate ≤ w) (hl : full + part ≤ consts.length) (hc : ∀ r ∈ consts, r.length = w) :
    (∀ x : Fin w → F, permute (circ F) (.circuit F consts row rate w full part) (List.ofFn x) = some (List.ofFn ((spec F consts row w).perm (full / 2) part x))) ∧
    (∀ msg : List F, hashToState (circ F) (.circuit F consts row rate w full part) msg =
      some (List.ofFn ((spec F consts row w).hash rate (full / 2) part msg))) :=
  ⟨permute_circ (Nat.lt_of_lt_of_le h0 hr) (match_circuit hl hc), hash_circ (Nat.lt_of_lt_of_le h0 hr) (match_circuit hl hc) h0 hr⟩

/-- The reference implementation on `u32`: on reduced inputs it returns reduced numbers that stand for the state the circuit computes. -/
theorem C45_reference (w rate full part : Nat) (consts : List (List Nat)) (row : List Nat)
    (h0 : 0 < rate) (hr : rate ≤ w) (hl : full + part ≤ consts.length) (hc : ∀ r ∈ consts, r.length = w) (msg : List Nat) (hm : ∀ a ∈ msg, a < modulus) :
    ∃ out, hashToState ref (.reference consts row rate w full part) msg = some out ∧ (∀ a ∈ out, a < modulus) ∧
      hashToState (circ (ZMod modulus)) (.circuit _ consts row rate w full part) (msg.map Nat.cast) = some (out.map Nat.cast) ∧
      hash ref (.reference consts row rate w full part) msg = some (out.take rate) := by
  have hm' : List.Forall₂ Rep msg (msg.map Nat.cast) := by
    induction msg with
    | nil => exact .nil
    | cons a l ih => exact .cons ⟨hm a (by simp), rfl⟩ (ih fun b hb => hm b (by simp [hb]))
  obtain ⟨u, v, h1, h2, h3, h4⟩ := both_hash (repParams (row := row) (rate := rate) hl hc) h0 hr hm'
  have h5 : (∀ a ∈ u, a < modulus) ∧ u.map Nat.cast = v := by
    clear h1 h2 h4
    induction h3 with
    | nil => simp
    | cons h _ ih => exact ⟨by rintro a (_ | ⟨_, ha⟩); exacts [h.1, ih.1 a ha], by rw [List.map_cons, ih.2, h.2]⟩
  refine ⟨u, h1, h5.1, by rw [h2, h5.2], ?_⟩
  rw [Verif.Std.Poseidon.hash, h1, Option.bind_some, if_pos (by rw [h4]; exact hr)]
  rfl

/-- Inputs that are not reduced are outside: the reference panics (an overflow of `u32`) when a second block contains one, although the first
block may. -/
theorem C45_unreduced_violated : ∃ (consts : List (List Nat)) (row : List Nat),
    (hashToState ref (.reference consts row 1 2 2 0) [4294967295]).isSome = true ∧ hashToState ref (.reference consts row 1 2 2 0) [0, 4294967295] = none :=
  ⟨[[1, 2], [3, 4]], [5, 6], by decide +kernel, by decide +kernel⟩

/-- `hash_to_state_flatten`: if all assertions hold then, whatever values the prover gave to the copies (lists of the requested length), the
result is the state of the sponge; and some copies (the honest ones) make them hold. -/
theorem C45_flatten {F : Type} [CommRing F] [DecidableEq F] (w rate full part : Nat) (consts : List (List Nat)) (row : List Nat)
    (h0 : 0 < rate) (hr : rate ≤ w) (hl : full + part ≤ consts.length) (hc : ∀ r ∈ consts, r.length = w) (msg : List F) :
    (∀ (hints : List (List F)) (res : List F), (∀ k, k < (msg.length + rate - 1) / rate → (hints.getD k []).length = w) →
      hashFlatten (.circuit F consts row rate w full part) msg hints = some (res, true) →
      res = List.ofFn ((spec F consts row w).hash rate (full / 2) part msg)) ∧
    (∃ hints : List (List F), hints.length = (msg.length + rate - 1) / rate ∧
      hashFlatten (.circuit F consts row rate w full part) msg hints = some (List.ofFn ((spec F consts row w).hash rate (full / 2) part msg), true)) := by
  have hk := (C45_circuit (F := F) w rate full part consts row h0 hr hl hc).2 msg
  have h0' : ¬ (Params.circuit F consts row rate w full part).rate = 0 := by simp only [Params.circuit]; omega
  rw [hashToState, if_neg h0'] at hk
  constructor
  · intro hints res hh h
    rw [hashFlatten, if_neg h0'] at h
    obtain ⟨g, -⟩ := flatten_sound _ _ _ _ _ _ (by rw [chunks_length]; exact hh) rfl h
    have := g.symm.trans hk
    exact Option.some.inj this
  · obtain ⟨hints, h1, h2⟩ := flatten_complete _ _ _ hk
    exact ⟨hints, by rw [h2, chunks_length]; rfl, by rw [hashFlatten, if_neg h0']; exact h1 _ rfl⟩

/-- A case with two blocks, two full rounds and one partial round; the state is not zero. -/
example : 0 < 2 ∧ 2 ≤ 3 ∧ 2 + 1 ≤ [[1, 2, 3], [4, 5, 6], [7, 8, 9]].length ∧ (∀ r ∈ [[1, 2, 3], [4, 5, 6], [7, 8, 9]], r.length = 3) ∧
    hashToState ref (.reference [[1, 2, 3], [4, 5, 6], [7, 8, 9]] [1, 1, 2] 2 3 2 1) [10, 11, 12] = some [1493629584, 1598399044, 1685943620] := by
  decide +kernel

end Verif.Props
