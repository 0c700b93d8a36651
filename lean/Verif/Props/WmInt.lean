/-
  C34: the wavelet matrix `wm_int`.
-/
import Verif.WmIntLemmas
import Verif.WtList
import Verif.Props.WtInt

namespace Sdsl.Props

open Wt

/-- C34: the constructor succeeds for the automatic level (`maxLevel = 0`) and for every given level that is wide enough, and `size`, `sigma`, `operator[]`, `select` and
    `inverse_select` answer as the sequence does, for all 64-bit symbols. -/
theorem C34_wm_int (maxLevel : Nat) (xs : List Word) (hne : xs ≠ []) (hm : maxLevel ≤ 64) (hlt : maxLevel ≠ 0 → ∀ x ∈ xs, x.toNat < 2 ^ maxLevel) :
    ∃ t, WmInt.new maxLevel xs = some t ∧ t.size = xs.length ∧ t.sigma = Spec.countTrue (fun v => decide (BitVec.ofNat 64 v ∈ xs)) (2 ^ 64) ∧
      (∀ i (h : i < xs.length), WmInt.get t i = some xs[i]) ∧
      (∀ i c, 0 < i → i ≤ xs.count c → ∃ p, ∃ h : p < xs.length, WmInt.select t i c = some p ∧ xs[p] = c ∧ (xs.take p).count c + 1 = i) ∧
      (∀ i (h : i < xs.length), WmInt.inverseSelect t i = some ((xs.take i).count xs[i], xs[i])) := by
  obtain ⟨t, h1, h2, h3, h4⟩ := WmInt.new_spec hne hm hlt
  refine ⟨t, h1, h2.size, h4, ?_, ?_, ?_⟩
  · intro i h
    rw [WmInt.get_spec h2 h, getD_getElem h]
  · intro i c h0 hi
    obtain ⟨j, hj, h5, h6⟩ := exists_occ c xs i h0 hi
    have := WmInt.select_spec h2 hj
    rw [getD_getElem hj, h5, occ_count c (by omega), h6] at this
    exact ⟨j, hj, this, h5, h6⟩
  · intro i h
    rw [WmInt.inverseSelect_spec h2 h, getD_getElem h, occ_count _ (by omega)]

/-- C34 (partial: symbols below `2^63`): `rank` of every symbol, also one that does not occur or lies outside the alphabet. Missing: symbols from `2^63` on, where the code shifts
    a 64-bit value by 64 (`C34_rank_wide_undefined`), and the empty tree (`C34_empty_undefined`). -/
theorem C34_rank_partial (maxLevel : Nat) (xs : List Word) (hne : xs ≠ []) (hm : maxLevel ≤ 63) (hlt : ∀ x ∈ xs, x.toNat < 2 ^ (if maxLevel = 0 then 63 else maxLevel)) :
    ∃ t, WmInt.new maxLevel xs = some t ∧ ∀ i c, i ≤ xs.length → WmInt.rank t i c = some ((xs.take i).count c) := by
  obtain ⟨t, h1, h2, h3, h4⟩ := WmInt.new_spec hne (by omega : maxLevel ≤ 64) (fun h0 => by simpa [h0] using hlt)
  refine ⟨t, h1, ?_⟩
  have hL : t.maxLevel ≤ 63 := by
    rw [h3]
    split
    · rename_i h0
      rw [if_pos h0] at hlt
      exact WtInt.autoLevel_le (by decide) hlt
    · exact hm
  intro i c hi
  rw [WmInt.rank_spec h2 hL c hi, occ_count c hi]

/-- C34 fails for symbols from `2^63` on: `rank` evaluates `1ULL << 64`, for every argument. -/
theorem C34_rank_wide_undefined (xs : List Word) (h : ∃ x ∈ xs, 2 ^ 63 ≤ x.toNat) : ∃ t, WmInt.new 0 xs = some t ∧ ∀ i c, WmInt.rank t i c = none := by
  obtain ⟨x, hx, hx2⟩ := h
  obtain ⟨t, h1, h2, h3, h4⟩ := WmInt.new_spec (maxLevel := 0) (List.ne_nil_of_mem hx) (by omega) (fun h0 => absurd rfl h0)
  refine ⟨t, h1, fun i c => ?_⟩
  rw [if_pos rfl] at h3
  have hL : t.maxLevel = 64 := by
    have h5 := h2.level
    have h6 := h2.lt x hx
    have h7 : ¬ t.maxLevel ≤ 63 := fun h8 => by
      have := Nat.pow_le_pow_right (n := 2) (by decide) h8
      omega
    omega
  rw [WmInt.rank, hL, shl, if_neg (by decide)]
  rfl

/-- C34 fails for the empty tree: `rank(0, 0)` evaluates `1ULL << (m_max_level - 1)` with `m_max_level = 0`. -/
theorem C34_empty_undefined : ∃ t, WmInt.new 0 [] = some t ∧ WmInt.rank t 0 0#64 = none := ⟨_, rfl, by decide +kernel⟩

example : wtSample ≠ [] ∧ 5 ≤ 64 ∧ (5 ≠ 0 → ∀ x ∈ wtSample, x.toNat < 2 ^ 5) ∧ (∀ x ∈ wtSample, x.toNat < 2 ^ (if 0 = 0 then 63 else 0)) := by simp [wtSample]

example : (WmInt.new 0 wtSample).bind (fun t => WmInt.select t 2 5#64) = some 8 := by decide +kernel

example : (WmInt.new 0 wtSample).bind (fun t => WmInt.inverseSelect t 8) = some (1, 5#64) := by decide +kernel

example : (WmInt.new 5 wtSample).bind (fun t => WmInt.rank t 9 1#64) = some 2 := by decide +kernel

example : (WmInt.new 0 [2#64, 9223372036854775808#64]).bind (fun t => WmInt.get t 1) = some 9223372036854775808#64 := by decide +kernel

end Sdsl.Props
