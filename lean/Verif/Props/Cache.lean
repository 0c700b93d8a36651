import Verif.Cache

/-! # C94: `fast_cache` returns what was written -/
namespace Sdsl.Props
open Sdsl.Cache

/-- C94: after any calls of `write`, `exists(i, x)` for `i ≠ 2^64-1` is true if and only if the last request written to the entry of `i` was `i`,
and `x` is what was written then. -/
theorem C94_cache_partial (junk : Nat → Word) (l : List (Word × Word)) : ∃ t, writes (init junk) l = some t ∧ ∀ i : Word, i ≠ -1 →
    find t i = some (match last i l with | some p => if p.1 = i then some p.2 else none | none => none) := by
  obtain ⟨t, e, -, h⟩ := writes_eq l (t := init junk) (by simp [init])
  refine ⟨t, e, fun i hi => ?_⟩
  obtain ⟨h1, h2⟩ := h i
  obtain ⟨g1, g2⟩ := init_get junk (Nat.mod_lt i.toNat (show 1024 > 0 by decide))
  cases hl : last i l with
  | some p => rw [hl] at h1 h2; exact find_eq h1 h2
  | none =>
    rw [hl] at h1 h2
    rw [find_eq (h1.trans g1) (h2.trans g2), if_neg (fun h => hi h.symm)]

/-- C94: if only right answers are written, only right answers are returned. -/
theorem C94_answers_partial (junk : Nat → Word) (f : Word → Word) (l : List (Word × Word)) (hl : ∀ p ∈ l, p.2 = f p.1) : ∃ t, writes (init junk) l = some t ∧
    ∀ i x : Word, i ≠ -1 → find t i = some (some x) → x = f i := by
  obtain ⟨t, e, h⟩ := C94_cache_partial junk l
  refine ⟨t, e, fun i x hi hx => ?_⟩
  rw [h i hi] at hx
  cases hp : last i l with
  | none => rw [hp] at hx; cases hx
  | some p =>
    rw [hp] at hx
    simp only [Option.some.injEq] at hx
    split at hx
    · rename_i e2
      rw [Option.some.injEq] at hx
      rw [← hx, ← e2]
      exact hl p (List.mem_reverse.1 (List.mem_of_find?_eq_some hp))
    · cases hx

/-- Two requests for one entry: the second one replaces the first one. -/
example : last 5 [(5, 10), (1029, 2058), (7, 14)] = some (1029, 2058) ∧ last 7 [(5, 10), (1029, 2058), (7, 14)] = some (7, 14) ∧
    (∀ p ∈ [((5 : Word), (10 : Word)), (1029, 2058), (7, 14)], p.2 = 2 * p.1) ∧ (5 : Word) ≠ -1 := by decide

/-- C94 is false for the request `2^64-1`: the new cache says that the answer is known and returns an uninitialised number. -/
theorem C94_new_wrong (junk : Nat → Word) : find (init junk) (-1) = some (some (junk 2047)) := by
  obtain ⟨g1, g2⟩ := init_get junk (show 1023 < 1024 by decide)
  have := find_eq (t := init junk) (i := -1) g1 g2
  rwa [if_pos rfl] at this

end Sdsl.Props
