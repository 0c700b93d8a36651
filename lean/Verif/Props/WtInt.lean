/-
  C33, C54: the wavelet tree `wt_int`.
-/
import Verif.WtList

namespace Sdsl.Props

open Wt

/-- C33 (partial: symbols below `2^63`, non-empty sequences): the constructor succeeds for the automatic level (`maxLevel = 0`) and for every given level that is wide enough, and
    `size`, `sigma`, `operator[]`, `rank`, `select` and `inverse_select` answer as the sequence does. Missing: symbols from `2^63` on, where the code shifts a 64-bit value by 64
    (`C33_wide_symbols_undefined`), and `rank` on the empty tree (`C33_empty_undefined`). -/
theorem C33_wt_int_partial (maxLevel : Nat) (xs : List Word) (hne : xs ≠ []) (hm : maxLevel ≤ 63) (hlt : ∀ x ∈ xs, x.toNat < 2 ^ (if maxLevel = 0 then 63 else maxLevel)) :
    ∃ t, WtInt.new maxLevel xs = some t ∧ t.size = xs.length ∧ t.sigma = Spec.countTrue (fun v => decide (BitVec.ofNat 64 v ∈ xs)) (2 ^ 64) ∧
      (∀ i (h : i < xs.length), WtInt.get t i = some xs[i]) ∧
      (∀ i c, i ≤ xs.length → WtInt.rank t i c = some ((xs.take i).count c)) ∧
      (∀ i c, 0 < i → i ≤ xs.count c → ∃ p, ∃ h : p < xs.length, WtInt.select t i c = some (.ok p) ∧ xs[p] = c ∧ (xs.take p).count c + 1 = i) ∧
      (∀ i (h : i < xs.length), WtInt.inverseSelect t i = some ((xs.take i).count xs[i], xs[i])) := by
  obtain ⟨t, h1, h2, h3, h4⟩ := WtInt.new_spec hne hm hlt
  refine ⟨t, h1, h2.size, ?_, ?_, ?_, ?_, ?_⟩
  · rw [h4]; exact distinct_eq (by have := h2.level; omega) h2.lt
  · intro i h
    rw [WtInt.get_spec h2 h, getD_getElem h]
  · intro i c hi
    rw [WtInt.rank_spec h2 c hi, occ_count c hi]
  · intro i c h0 hi
    obtain ⟨j, hj, h5, h6⟩ := exists_occ c xs i h0 hi
    have := WtInt.select_spec h2 hj
    rw [getD_getElem hj, h5, occ_count c (by omega), h6] at this
    exact ⟨j, hj, this, h5, h6⟩
  · intro i h
    rw [WtInt.inverseSelect_spec h2 h, getD_getElem h, occ_count _ (by omega)]

/-- C33: `select` of a symbol inside the alphabet that occurs less than `i` times throws. -/
theorem C33_select_missing (maxLevel : Nat) (xs : List Word) (hne : xs ≠ []) (hm : maxLevel ≤ 63) (hlt : ∀ x ∈ xs, x.toNat < 2 ^ (if maxLevel = 0 then 63 else maxLevel)) :
    ∃ t, WtInt.new maxLevel xs = some t ∧ ∀ i c, c.toNat < 2 ^ t.maxLevel → xs.count c < i →
      WtInt.select t i c = some (.error "c does not occur i times in the WT") := by
  obtain ⟨t, h1, h2, h3, h4⟩ := WtInt.new_spec hne hm hlt
  refine ⟨t, h1, ?_⟩
  intro i c hc hi
  exact WtInt.select_missing h2 hc (by rw [occ_count c (Nat.le_refl _), List.take_length]; exact hi)

/-- C33 fails for symbols from `2^63` on: the constructor with automatic level evaluates `1ULL << 64`. -/
theorem C33_wide_symbols_undefined (xs : List Word) (h : ∃ x ∈ xs, 2 ^ 63 ≤ x.toNat) : WtInt.new 0 xs = none := by
  obtain ⟨x, hx, hx2⟩ := h
  have h1 := BitVec.le_def.1 ((WtInt.maxVal_foldl xs 1#64).2 x hx)
  unfold WtInt.new
  rw [if_neg (by intro h0; rw [List.length_eq_zero_iff.1 h0] at hx; simp at hx)]
  have hlog : Nat.log2 (WtInt.maxVal xs).toNat = 63 := by
    have h2 : 2 ^ 63 ≤ (WtInt.maxVal xs).toNat := by unfold WtInt.maxVal; omega
    have h3 := (Nat.log2_lt (by omega : (WtInt.maxVal xs).toNat ≠ 0)).2 (WtInt.maxVal xs).isLt
    have h4 := (Nat.le_log2 (by omega : (WtInt.maxVal xs).toNat ≠ 0)).2 h2
    omega
  rw [if_pos rfl, Bits.hi_eq, hlog]
  rfl

/-- C33 fails for the empty tree: `rank(0, 0)` evaluates `1ULL << (m_max_level - 1)` with `m_max_level = 0`. -/
theorem C33_empty_undefined : ∃ t, WtInt.new 0 [] = some t ∧ WtInt.rank t 0 0#64 = none := ⟨⟨0, 0, [], 0⟩, rfl, by decide +kernel⟩

/-- C54: `lex_count`, `lex_smaller_count` and `interval_symbols` (same restriction on the sequence as `C33_wt_int_partial`): the numbers of smaller and greater symbols in the
    interval, for every symbol, also outside the alphabet; and all symbols of the interval in ascending order, each with its two ranks. -/
theorem C54_lex_partial (maxLevel : Nat) (xs : List Word) (hne : xs ≠ []) (hm : maxLevel ≤ 63) (hlt : ∀ x ∈ xs, x.toNat < 2 ^ (if maxLevel = 0 then 63 else maxLevel)) :
    ∃ t, WtInt.new maxLevel xs = some t ∧
      (∀ i j c, i ≤ j → j ≤ xs.length → WtInt.lexCount t i j c =
        some ((xs.take i).count c, ((xs.take j).drop i).countP (fun b => decide (b < c)), ((xs.take j).drop i).countP (fun b => decide (c < b)))) ∧
      (∀ i c, i ≤ xs.length → WtInt.lexSmallerCount t i c = some ((xs.take i).count c, (xs.take i).countP (fun b => decide (b < c)))) ∧
      (∀ i j, i ≤ j → j ≤ xs.length → ∃ l, WtInt.intervalSymbols t i j = some l ∧ l.Pairwise (fun a b => a.1 < b.1) ∧
        ∀ c ri rj, (c, ri, rj) ∈ l ↔ c ∈ (xs.take j).drop i ∧ ri = (xs.take i).count c ∧ rj = (xs.take j).count c) := by
  obtain ⟨t, h1, h2, h3, h4⟩ := WtInt.new_spec hne hm hlt
  have hL := h2.level
  refine ⟨t, h1, ?_, ?_, ?_⟩
  · intro i j c hij hj
    rw [WtInt.lexCount_spec h2 c hij hj, occ_count c (by omega), occ_countP _ hj, occ_countP _ (by omega), countP_range _ hij, occ_countP _ hj, occ_countP _ (by omega), countP_range _ hij]
  · intro i c hi
    rw [WtInt.lexSmallerCount_spec h2 c hi, occ_count c hi, occ_countP _ hi]
  · intro i j hij hj
    exact ⟨_, WtInt.intervalSymbols_spec h2 hij hj, entries_sorted (by omega) _ _ _, fun c ri rj => mem_entries (by omega) h2.lt hij hj c ri rj⟩

/-- C54: `range_search_2d` reports exactly the points in the box, by symbol and then by index, and counts them, also when it does not report them; the lower value bound must lie
    in the alphabet (see `C54_range_search_beyond_alphabet`). -/
theorem C54_range_search_partial (maxLevel : Nat) (xs : List Word) (hne : xs ≠ []) (hm : maxLevel ≤ 63) (hlt : ∀ x ∈ xs, x.toNat < 2 ^ (if maxLevel = 0 then 63 else maxLevel)) :
    ∃ t, WtInt.new maxLevel xs = some t ∧ ∀ lb rb vlb vrb, lb ≤ rb → rb < xs.length → vlb.toNat < 2 ^ t.maxLevel →
      ∃ pts, WtInt.rangeSearch2d t lb rb vlb vrb true = some (pts, pts.length) ∧ WtInt.rangeSearch2d t lb rb vlb vrb false = some ([], pts.length) ∧
        pts.Pairwise (fun a b => a.2 < b.2 ∨ (a.2 = b.2 ∧ a.1 < b.1)) ∧
        ∀ q v, (q, v) ∈ pts ↔ ∃ h : q < xs.length, lb ≤ q ∧ q ≤ rb ∧ xs[q].toNat = v ∧ vlb.toNat ≤ v ∧ v ≤ vrb.toNat := by
  obtain ⟨t, h1, h2, h3, h4⟩ := WtInt.new_spec hne hm hlt
  refine ⟨t, h1, ?_⟩
  intro lb rb vlb vrb hlr hrb hv
  refine ⟨_, by rw [WtInt.rangeSearch2d_spec h2 true hlr hrb hv, if_pos rfl], by rw [WtInt.rangeSearch2d_spec h2 false hlr hrb hv, if_neg (by simp)], box_sorted _ _ _ _ _ _, ?_⟩
  intro q v
  rw [mem_box h2.lt (by omega)]
  constructor
  · rintro ⟨h, h5, h6, h7⟩; exact ⟨h, h5, by omega, h7⟩
  · rintro ⟨h, h5, h6, h7⟩; exact ⟨h, h5, by omega, h7⟩

/-- C54 fails for a value interval that starts just above the alphabet: with `m_max_level = 2`, the search for symbols in `[4..4]` in `[3,1,0,3]` reports the two symbols 3. -/
theorem C54_range_search_beyond_alphabet :
    ∃ t, WtInt.new 0 [3#64, 1#64, 0#64, 3#64] = some t ∧ WtInt.rangeSearch2d t 0 3 4#64 4#64 true = some ([(0, 3), (3, 3)], 2) :=
  ⟨_, rfl, by decide +kernel⟩

/-- A sequence with repeated and missing symbols. -/
def wtSample : List Word := [3#64, 1#64, 4#64, 1#64, 5#64, 9#64, 2#64, 6#64, 5#64, 3#64]

example : wtSample ≠ [] ∧ (∀ x ∈ wtSample, x.toNat < 2 ^ (if 0 = 0 then 63 else 0)) ∧ (∀ x ∈ wtSample, x.toNat < 2 ^ (if 5 = 0 then 63 else 5)) := by simp [wtSample]

example : (WtInt.new 0 wtSample).bind (fun t => WtInt.select t 2 5#64) = some (.ok 8) := rfl

example : (WtInt.new 0 wtSample).bind (fun t => WtInt.inverseSelect t 8) = some (1, 5#64) := by decide +kernel

example : (WtInt.new 5 wtSample).bind (fun t => WtInt.select t 3 5#64) = some (.error "c does not occur i times in the WT") := rfl

example : (WtInt.new 0 wtSample).bind (fun t => WtInt.lexCount t 2 9 5#64) = some (0, 3, 2) := by decide +kernel

example : (WtInt.new 0 wtSample).bind (fun t => WtInt.rangeSearch2d t 1 7 2#64 5#64 true) = some ([(6, 2), (2, 4), (4, 5)], 3) := by decide +kernel

example : ∃ x ∈ [2#64, 9223372036854775808#64], 2 ^ 63 ≤ x.toNat := ⟨9223372036854775808#64, by simp, by decide⟩

end Sdsl.Props
