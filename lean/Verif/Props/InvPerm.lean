/-
  C43: `inv_perm_support` answers every query correctly, after at most `t_s` steps along the permutation.
-/
import Verif.InvPermLemmas

namespace Sdsl.Props

/-- C43: for every permutation `v` of `0 … n-1` and every sampling parameter `t_s` (also 0), the constructor succeeds and `operator[](i)` returns, for every `i`,
    the position `j` with `v[j] = i`; it assigns to its cursor at most `2n` times. -/
theorem C43_inverse (ts : Nat) (v : List Nat) (hlt : ∀ x ∈ v, x < v.length) (hnd : v.Nodup) (hn : v.length ≤ 2 ^ 64) :
    ∃ p, InvPerm.new ts v = some p ∧ ∀ i, i < v.length → ∃ j, InvPerm.get p (2 * v.length) i = some j ∧ v[j]? = some i := by
  obtain ⟨p, Ls, h1, h2⟩ := InvPerm.new_good ⟨hlt, hnd⟩ hn ts
  exact ⟨p, h1, fun i hi => InvPerm.get_eq ⟨hlt, hnd⟩ h2 hi (.inl (Nat.le_refl _))⟩

/-- C43: for `t_s ≥ 1` at most `t_s` assignments to the cursor are needed, as documented ("access to the inverse of a permutation in at most t_s steps"). -/
theorem C43_steps (ts : Nat) (h0 : 0 < ts) (v : List Nat) (hlt : ∀ x ∈ v, x < v.length) (hnd : v.Nodup) (hn : v.length ≤ 2 ^ 64) :
    ∃ p, InvPerm.new ts v = some p ∧ ∀ i, i < v.length → ∃ j, InvPerm.get p ts i = some j ∧ v[j]? = some i := by
  obtain ⟨p, Ls, h1, h2⟩ := InvPerm.new_good ⟨hlt, hnd⟩ hn ts
  exact ⟨p, h1, fun i hi => InvPerm.get_eq ⟨hlt, hnd⟩ h2 hi (.inr ⟨h0, rfl⟩)⟩

/-- The back pointers really are used: a cycle of length 7, `t_s = 2`; every query needs at most 2 steps. -/
example : (InvPerm.new 2 [3, 0, 1, 6, 2, 4, 5, 7]).bind (fun p => (List.range 8).mapM (InvPerm.get p 2)) = some [1, 2, 4, 0, 5, 6, 3, 7] := by decide +kernel

/-- Two steps are not enough without sampling. -/
example : (InvPerm.new 8 [3, 0, 1, 6, 2, 4, 5, 7]).bind (fun p => InvPerm.get p 2 3) = none := by decide +kernel

example : (∀ x ∈ [3, 0, 1, 6, 2, 4, 5, 7], x < 8) ∧ [3, 0, 1, 6, 2, 4, 5, 7].Nodup := by decide +kernel

end Sdsl.Props
