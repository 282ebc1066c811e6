import Verif.Base

/-!
# Byte streams

Readers and writers of the base types.  Those of `usize`, `u8`, `bool`, `U256`, `Vec<T>`, pairs and `HashMap<K, V>` live in the external crate
`serdes`; the models below (fixed-width little-endian numbers, a 64-bit length before the elements) are assumptions about that crate.
-/

namespace Verif.Serde

abbrev Bytes := List UInt8

/-- A reader consumes a prefix of the stream; `none` is an error result. -/
def Reader (α : Type) := Bytes → Option (α × Bytes)

/-- `?` sequencing. -/
def Reader.andThen {α β : Type} (r : Reader α) (f : α → Reader β) : Reader β := fun s =>
  match r s with
  | none => none
  | some (a, s') => f a s'

/-- `Ok(a)`. -/
def ret {α : Type} (a : α) : Reader α := fun s => some (a, s)

/-- `Err(..)`. -/
def fail {α : Type} : Reader α := fun _ => none

/-- Specification of a codec: for every value of the domain and whatever follows, reading gives the value back and leaves exactly what follows. -/
def RoundTrip {α : Type} (ok : α → Prop) (w : α → Bytes) (r : Reader α) : Prop := ∀ a, ok a → ∀ rest : Bytes, r (w a ++ rest) = some (a, rest)

theorem andThen_eq {α β : Type} {r : Reader α} {f : α → Reader β} {s s' : Bytes} {a : α} (h : r s = some (a, s')) : r.andThen f s = f a s' := by
  simp only [Reader.andThen, h]

/-- What a round trip means for a writer: no two values (with anything after them) have the same encoding. -/
theorem RoundTrip.injective {α : Type} {ok : α → Prop} {w : α → Bytes} {r : Reader α} (h : RoundTrip ok w r) {a b : α} (ha : ok a) (hb : ok b) {s t : Bytes}
    (e : w a ++ s = w b ++ t) : a = b ∧ s = t := by
  have h1 := h a ha s
  rw [e, h b hb t] at h1
  cases h1; exact ⟨rfl, rfl⟩

/-- `n` as `k` little-endian bytes. -/
def writeLE : Nat → Nat → Bytes
  | 0, _ => []
  | k + 1, n => UInt8.ofNat (n % 256) :: writeLE k (n / 256)

/-- `k` little-endian bytes as a number. -/
def readLE : Nat → Reader Nat
  | 0 => ret 0
  | k + 1 => fun s =>
    match s with
    | [] => none
    | b :: s => (readLE k).andThen (fun n => ret (b.toNat + 256 * n)) s

theorem le_roundTrip : ∀ k : Nat, RoundTrip (fun n => n < 256 ^ k) (writeLE k) (readLE k) := by
  intro k
  induction k with
  | zero =>
    intro n hn rest
    have : n = 0 := by simpa using hn
    subst this; rfl
  | succ k ih =>
    intro n hn rest
    have h1 : n / 256 < 256 ^ k := by
      rw [Nat.pow_succ] at hn
      exact Nat.div_lt_of_lt_mul (by rw [Nat.mul_comm]; exact hn)
    simp only [writeLE, List.cons_append, readLE]
    rw [andThen_eq (ih _ h1 rest)]
    simp only [ret]
    have h2 : (UInt8.ofNat (n % 256)).toNat = n % 256 := by
      rw [UInt8.toNat_ofNat']; omega
    rw [h2]
    have := Nat.mod_add_div n 256
    rw [this]

/-- Values of `usize`. -/
def U64 (n : Nat) : Prop := n < 256 ^ 8

/-- `usize::serialize_into` / `deserialize_from`. -/
def writeU64 (n : Nat) : Bytes := writeLE 8 n
def readU64 : Reader Nat := readLE 8
theorem u64_rt : RoundTrip U64 writeU64 readU64 := le_roundTrip 8

/-- `u8`. -/
def writeU8 (n : Nat) : Bytes := writeLE 1 n
def readU8 : Reader Nat := readLE 1
theorem u8_rt : RoundTrip (fun n => n < 256) writeU8 readU8 := fun n hn rest => le_roundTrip 1 n (by simpa using hn) rest

/-- `U256`. -/
def writeU256 (n : Nat) : Bytes := writeLE 32 n
def readU256 : Reader Nat := readLE 32
theorem u256_rt : RoundTrip (fun n => n < 256 ^ 32) writeU256 readU256 := le_roundTrip 32

/-- `bool`, one byte. -/
def writeBool (b : Bool) : Bytes := writeU8 (if b then 1 else 0)
def readBool : Reader Bool := readU8.andThen (fun n => ret (n != 0))
theorem bool_rt : RoundTrip (fun _ => True) writeBool readBool := by
  intro b _ rest
  simp only [writeBool, readBool]
  rw [andThen_eq (u8_rt _ (by split <;> decide) rest)]
  cases b <;> rfl

/-- `k` elements one after the other. -/
def readN {α : Type} (r : Reader α) : Nat → Reader (List α)
  | 0 => ret []
  | k + 1 => r.andThen (fun a => (readN r k).andThen (fun l => ret (a :: l)))

theorem readN_rt {α : Type} {ok : α → Prop} {w : α → Bytes} {r : Reader α} (h : RoundTrip ok w r) : ∀ (l : List α), (∀ a ∈ l, ok a) → ∀ rest : Bytes,
    readN r l.length (l.flatMap w ++ rest) = some (l, rest) := by
  intro l
  induction l with
  | nil => intro _ rest; rfl
  | cons a l ih =>
    intro hl rest
    simp only [List.length_cons, readN, List.flatMap_cons, List.append_assoc]
    rw [andThen_eq (h a (hl a (by simp)) _), andThen_eq (ih (fun b hb => hl b (by simp [hb])) rest)]
    rfl

/-- `Vec<T>`: the length, then the elements. -/
def writeVec {α : Type} (w : α → Bytes) (l : List α) : Bytes := writeU64 l.length ++ l.flatMap w
def readVec {α : Type} (r : Reader α) : Reader (List α) := readU64.andThen (readN r)

/-- Vectors whose length fits and whose elements are in the domain. -/
def VecOk {α : Type} (ok : α → Prop) (l : List α) : Prop := U64 l.length ∧ ∀ a ∈ l, ok a

theorem vec_rt {α : Type} {ok : α → Prop} {w : α → Bytes} {r : Reader α} (h : RoundTrip ok w r) : RoundTrip (VecOk ok) (writeVec w) (readVec r) := by
  intro l hl rest
  simp only [writeVec, readVec, List.append_assoc]
  rw [andThen_eq (u64_rt _ hl.1 _)]
  exact readN_rt h l hl.2 rest

/-- Pairs (also `derive(ExpSerde)` of a two-field struct). -/
def writePair {α β : Type} (w : α → Bytes) (v : β → Bytes) (p : α × β) : Bytes := w p.1 ++ v p.2
def readPair {α β : Type} (r : Reader α) (q : Reader β) : Reader (α × β) := r.andThen (fun a => q.andThen (fun b => ret (a, b)))

theorem pair_rt {α β : Type} {ok : α → Prop} {ok' : β → Prop} {w : α → Bytes} {v : β → Bytes} {r : Reader α} {q : Reader β} (h : RoundTrip ok w r) (h' : RoundTrip ok' v q) :
    RoundTrip (fun p => ok p.1 ∧ ok' p.2) (writePair w v) (readPair r q) := by
  rintro ⟨a, b⟩ ⟨ha, hb⟩ rest
  simp only [writePair, readPair, List.append_assoc]
  rw [andThen_eq (h a ha _), andThen_eq (h' b hb _)]; rfl

/-- `HashMap::insert` on an association list. -/
def insertMap {β : Type} (m : List (Nat × β)) (p : Nat × β) : List (Nat × β) := if p.1 ∈ m.map (·.1) then m.map (fun q => if q.1 = p.1 then p else q) else m ++ [p]

/-- `HashMap<usize, V>`: the entries in iteration order as a vector of pairs; reading inserts them one after the other. -/
def writeMap {β : Type} (v : β → Bytes) (m : List (Nat × β)) : Bytes := writeVec (writePair writeU64 v) m
def readMap {β : Type} (q : Reader β) : Reader (List (Nat × β)) := (readVec (readPair readU64 q)).andThen (fun l => ret (l.foldl insertMap []))

theorem foldl_insert {β : Type} : ∀ (l m : List (Nat × β)), ((m ++ l).map (·.1)).Nodup → l.foldl insertMap m = m ++ l := by
  intro l
  induction l with
  | nil => intro m _; simp
  | cons p l ih =>
    intro m h
    have hp : p.1 ∉ m.map (·.1) := by
      intro hm
      rw [List.map_append, List.nodup_append] at h
      exact h.2.2 _ hm _ (by simp) rfl
    rw [List.foldl_cons, insertMap, if_neg hp, ih (m ++ [p]) (by simpa using h)]
    simp

theorem map_rt {β : Type} {ok : β → Prop} {v : β → Bytes} {q : Reader β} (h : RoundTrip ok v q) :
    RoundTrip (fun m : List (Nat × β) => (m.map (·.1)).Nodup ∧ VecOk (fun p => U64 p.1 ∧ ok p.2) m) (writeMap v) (readMap q) := by
  intro m hm rest
  simp only [writeMap, readMap]
  rw [andThen_eq (vec_rt (pair_rt u64_rt h) m hm.2 rest), foldl_insert m [] (by simpa using hm.1)]
  rfl

end Verif.Serde
