import Verif.Isa

/-! # C99: the inverse suffix array -/
namespace Sdsl.Props
open Isa

/-- C99: for every permutation in the cache, `construct_isa` stores its inverse (from both sides) and leaves the permutation as it is. -/
theorem C99_inverse (sa : List Nat) (h : sa.Perm (List.range sa.length)) :
    ∃ isa, construct ⟨some sa, none⟩ = .ok ⟨some sa, some isa⟩ ∧ isa.length = sa.length ∧
      (∀ i x : Nat, sa[i]? = some x → isa[x]? = some i) ∧ ∀ x i : Nat, isa[x]? = some i → sa[i]? = some x := by
  have hlt : ∀ x ∈ sa, x < (List.replicate sa.length 0).length := fun x hx => by
    rw [List.length_replicate]; exact List.mem_range.1 (h.mem_iff.1 hx)
  obtain ⟨r, h1, h2, h3, -⟩ := loop_ok sa 0 _ hlt (h.nodup_iff.2 List.nodup_range)
  rw [List.length_replicate] at h2
  have hf : ∀ i x : Nat, sa[i]? = some x → r[x]? = some i := by
    intro i x hi
    obtain ⟨hl, rfl⟩ := List.getElem?_eq_some_iff.1 hi
    rw [h3 i hl, Nat.zero_add]
  refine ⟨r, by simp only [construct, h1], h2, hf, fun x i hx => ?_⟩
  have hxl : x < sa.length := h2 ▸ (List.getElem?_eq_some_iff.1 hx).1
  obtain ⟨j, hj⟩ := List.mem_iff_getElem?.1 (h.mem_iff.2 (List.mem_range.2 hxl))
  have := hf j x hj
  rw [hx] at this
  cases this
  exact hj

example : construct ⟨some [3, 0, 2, 1], none⟩ = .ok ⟨some [3, 0, 2, 1], some [1, 3, 2, 0]⟩ := by decide

/-- C99: if the inverse is in the cache already, nothing is computed; without the suffix array the function fails and never goes on. -/
theorem C99_cache (c : Cache) : (∀ isa, c.isa = some isa → construct c = .ok c) ∧ (c.isa = none → c.sa = none → construct c = .failure) := by
  refine ⟨fun isa h => ?_, fun h1 h2 => ?_⟩
  · simp only [construct, h]
  · simp only [construct, h1, h2]

/-- C99: calling `construct_isa` a second time changes nothing. -/
theorem C99_twice (c d : Cache) (h : construct c = .ok d) : construct d = .ok d := by
  have : ∃ isa, d.isa = some isa := by
    unfold construct at h
    repeat' split at h
    all_goals cases h
    · exact ⟨_, by assumption⟩
    · exact ⟨_, rfl⟩
  obtain ⟨isa, hi⟩ := this
  exact (C99_cache d).1 isa hi

example : construct ⟨none, none⟩ = .failure ∧ construct ⟨some [0, 5], none⟩ = .undefined := by decide

end Sdsl.Props
