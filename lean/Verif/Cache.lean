import Verif.Basic

/-! # `fast_cache`

Model of include/sdsl/fast_cache.hpp: a direct mapped cache with 1024 entries of a request and its answer. The answers of a new cache are
uninitialised. -/
namespace Sdsl.Cache

abbrev Word := BitVec 64

/-- `m_table`, fast_cache.hpp:14; `CACHE_SIZE` is 0x3FF (line 9). -/
abbrev Table := List Word

/-- The constructor, fast_cache.hpp:16-20: every second entry is set to -1. -/
def init (junk : Nat → Word) : Table := (List.range 2048).map (fun i => if i % 2 = 0 then -1 else junk i)

/-- The position of a request, `(i&CACHE_SIZE)<<1`. -/
def pos (i : Word) : Nat := ((i &&& 0x3FF#64) <<< 1).toNat

/-- `exists(i, x)`, fast_cache.hpp:23-29: `some none` is the answer `false`, `some (some x)` is `true` and sets `x`; `none` would be an
access outside of the table. -/
def find (t : Table) (i : Word) : Option (Option Word) :=
  match t[pos i]? with
  | none => none
  | some k => if k = i then t[pos i + 1]?.map some else some none

/-- `write(i, x)`, fast_cache.hpp:31-34. -/
def write (t : Table) (i x : Word) : Option Table :=
  if pos i + 1 < t.length then some ((t.set (pos i) i).set (pos i + 1) x) else none

/-- Several calls of `write`. -/
def writes : Table → List (Word × Word) → Option Table
  | t, [] => some t
  | t, (i, x) :: l => match write t i x with
    | none => none
    | some t' => writes t' l

/-! ### Specification -/

/-- The last answer that was written for a request that shares the entry of `i`. -/
def last (i : Word) (l : List (Word × Word)) : Option (Word × Word) := l.reverse.find? (fun p => p.1.toNat % 1024 == i.toNat % 1024)

/-! ### Proofs -/

theorem pos_eq (i : Word) : pos i = 2 * (i.toNat % 1024) := by
  unfold pos
  rw [BitVec.toNat_shiftLeft, BitVec.toNat_and, show (0x3FF#64).toNat = 2 ^ 10 - 1 from rfl, Nat.and_two_pow_sub_one_eq_mod, Nat.shiftLeft_eq]
  omega

theorem write_eq {t : Table} (h : t.length = 2048) (i x : Word) : ∃ t', write t i x = some t' ∧ t'.length = 2048 ∧
    ∀ k, k < 1024 → t'[2 * k]? = (if k = i.toNat % 1024 then some i else t[2 * k]?) ∧
      t'[2 * k + 1]? = (if k = i.toNat % 1024 then some x else t[2 * k + 1]?) := by
  have hp := pos_eq i
  unfold write
  rw [if_pos (by omega)]
  refine ⟨_, rfl, by simp [h], fun k hk => ?_⟩
  rw [List.getElem?_set, List.getElem?_set, List.getElem?_set, List.getElem?_set, hp]
  simp only [List.length_set, h]
  by_cases e : k = i.toNat % 1024
  · subst e
    simp only [if_true]
    refine ⟨?_, ?_⟩
    · rw [if_neg (by omega), if_pos (by omega)]
    · rw [if_pos (by omega)]
  · rw [if_neg e, if_neg e]
    refine ⟨?_, ?_⟩
    · rw [if_neg (by omega), if_neg (by omega)]
    · rw [if_neg (by omega), if_neg (by omega)]

theorem find_eq {t : Table} {i : Word} {a b : Word} (h1 : t[2 * (i.toNat % 1024)]? = some a) (h2 : t[2 * (i.toNat % 1024) + 1]? = some b) :
    find t i = some (if a = i then some b else none) := by
  unfold find
  rw [pos_eq, h1, h2]
  simp only [Option.map_some]
  split <;> rfl

/-- An entry after several calls of `write`. -/
theorem writes_eq (l : List (Word × Word)) : ∀ {t : Table}, t.length = 2048 → ∃ t', writes t l = some t' ∧ t'.length = 2048 ∧ ∀ i : Word,
    t'[2 * (i.toNat % 1024)]? = (match last i l with | some p => some p.1 | none => t[2 * (i.toNat % 1024)]?) ∧
    t'[2 * (i.toNat % 1024) + 1]? = (match last i l with | some p => some p.2 | none => t[2 * (i.toNat % 1024) + 1]?) := by
  induction l with
  | nil => intro t h; exact ⟨t, rfl, h, fun i => ⟨rfl, rfl⟩⟩
  | cons p l ih =>
    intro t h
    obtain ⟨j, x⟩ := p
    obtain ⟨t1, e1, h1, h2⟩ := write_eq h j x
    obtain ⟨t2, e2, h3, h4⟩ := ih h1
    refine ⟨t2, by simp only [writes, e1, e2], h3, fun i => ?_⟩
    obtain ⟨a1, a2⟩ := h4 i
    obtain ⟨b1, b2⟩ := h2 (i.toNat % 1024) (Nat.mod_lt _ (by decide))
    rw [a1, a2, b1, b2]
    unfold last
    rw [List.reverse_cons, List.find?_append]
    cases l.reverse.find? (fun p => p.1.toNat % 1024 == i.toNat % 1024) with
    | some p => exact ⟨rfl, rfl⟩
    | none =>
      simp only [Option.none_or, List.find?_cons, List.find?_nil]
      by_cases e : j.toNat % 1024 = i.toNat % 1024
      · rw [show (j.toNat % 1024 == i.toNat % 1024) = true from beq_iff_eq.2 e, if_pos e.symm, if_pos e.symm]
        exact ⟨rfl, rfl⟩
      · rw [show (j.toNat % 1024 == i.toNat % 1024) = false from beq_eq_false_iff_ne.2 e, if_neg (fun h => e h.symm), if_neg (fun h => e h.symm)]
        exact ⟨rfl, rfl⟩

theorem init_get (junk : Nat → Word) {k : Nat} (h : k < 1024) : (init junk)[2 * k]? = some (-1) ∧ (init junk)[2 * k + 1]? = some (junk (2 * k + 1)) := by
  unfold init
  refine ⟨?_, ?_⟩
  · rw [List.getElem?_map, List.getElem?_range (by omega)]
    simp
  · rw [List.getElem?_map, List.getElem?_range (by omega)]
    simp only [Option.map_some]
    rw [if_neg (by omega)]

end Sdsl.Cache
