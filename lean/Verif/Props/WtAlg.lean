/-
  C55: the generic wavelet-tree algorithms on `wt_int` and `wm_int`.
-/
import Verif.WtAlgList
import Verif.WmIntRange
import Verif.Props.WtInt

namespace Sdsl.Props

open Wt

/-- Navigation: the node reached by the directions `bs` stands for the symbols that start with the bits `bs`. -/
def NavOk (T : Tree INode) (xs : List Word) (L : Nat) : Prop :=
  ∀ bs : List Bool, bs.length ≤ L → ∃ v, T.descend T.root bs = some v ∧ (T.isLeaf v = true ↔ bs.length = L) ∧ (T.sym v).toNat = pathVal bs ∧
    T.size v = (xs.filter (fun b => b.toNat / 2 ^ (L - bs.length) == pathVal bs)).length ∧
    ∀ k (hk : k < (xs.filter (fun b => b.toNat / 2 ^ (L - bs.length) == pathVal bs)).length),
      T.seq (L - bs.length + 1) v k = some (xs.filter (fun b => b.toNat / 2 ^ (L - bs.length) == pathVal bs))[k]

/-- `intersect`: the symbols that occur in at least `t` of the intervals (in all of them for `t = 0`), in ascending order, each with the number of its occurrences in them. -/
def IntersectOk (T : Tree INode) (xs : List Word) : Prop :=
  ∀ (R : List (Nat × Nat)) (t : Nat), (∀ p ∈ R, p.1 ≤ p.2 ∧ p.2 < xs.length) → t ≤ R.length → ∃ out, T.intersect R t = some out ∧ out.Pairwise (fun a b => a.1 < b.1) ∧
    ∀ c f, (c, f) ∈ out ↔ R ≠ [] ∧ (if t = 0 then R.length else t) ≤ (R.filter (fun p => decide (c ∈ slice xs p.1 p.2))).length ∧
      f = (R.map (fun p => (slice xs p.1 p.2).count c)).sum % 2 ^ 64

/-- `quantile_freq`: the symbol at index `q` of the sorted interval, and the number of its occurrences in the interval. -/
def QuantileOk (T : Tree INode) (xs : List Word) : Prop :=
  ∀ lb rb q, lb ≤ rb → rb < xs.length → q ≤ rb - lb → ∃ c, T.quantileFreq lb rb q = some (c, (slice xs lb rb).count c) ∧
    ∀ s : List Word, s.Perm (slice xs lb rb) → s.Pairwise (· ≤ ·) → s[q]? = some c

/-- `symbol_lte`: the greatest symbol of the sequence that is at most `c`. -/
def LteOk (T : Tree INode) (L : Nat) (xs : List Word) : Prop :=
  ∀ c, (∃ m ∈ xs, T.symbolLte L c = some (true, m) ∧ m ≤ c ∧ ∀ y ∈ xs, y ≤ c → y ≤ m) ∨ (T.symbolLte L c = some (false, 0#64) ∧ ∀ y ∈ xs, ¬ y ≤ c)

/-- `symbol_gte`: the smallest symbol of the sequence that is at least `c`. -/
def GteOk (T : Tree INode) (L : Nat) (xs : List Word) : Prop :=
  ∀ c, (∃ m ∈ xs, T.symbolGte L c = some (true, m) ∧ c ≤ m ∧ ∀ y ∈ xs, c ≤ y → m ≤ y) ∨ (T.symbolGte L c = some (false, 0#64) ∧ ∀ y ∈ xs, ¬ c ≤ y)

/-- `restricted_unique_range_values`: the distinct symbols from `[yi..yj]` at the indices `[xi..xj]`, in ascending order. -/
def UniqueOk (T : Tree INode) (L : Nat) (xs : List Word) : Prop :=
  ∀ xi xj yi yj, ∃ out, T.restrictedUnique xs.length (T.symbolGte L) (T.symbolLte L) (fun c => (L, c)) xi xj yi yj = some out ∧ out.Pairwise (· < ·) ∧
    ∀ c, c ∈ out ↔ c ∈ slice xs xi xj ∧ yi ≤ c ∧ c ≤ yj

/-- C55 for `wt_int` (partial: symbols below `2^63`, non-empty sequences; `t` at most the number of ranges in `intersect`, see `C55_intersect_undefined`). -/
theorem C55_wt_int_partial (maxLevel : Nat) (xs : List Word) (hne : xs ≠ []) (hn : xs.length < 2 ^ 64) (hm : maxLevel ≤ 63)
    (hlt : ∀ x ∈ xs, x.toNat < 2 ^ (if maxLevel = 0 then 63 else maxLevel)) :
    ∃ t, WtInt.new maxLevel xs = some t ∧ NavOk t.nav xs t.maxLevel ∧ IntersectOk t.nav xs ∧ QuantileOk t.nav xs ∧ LteOk t.nav t.maxLevel xs ∧ GteOk t.nav t.maxLevel xs ∧
      UniqueOk t.nav t.maxLevel xs := by
  obtain ⟨t, h1, h2, h3, h4⟩ := WtInt.new_spec hne hm hlt
  have F := h2.fixed hne hn
  exact ⟨t, h1, fun bs hb => F.nav_spec bs hb, fun R t hR ht => F.intersect_list hR ht, fun lb rb q e1 e2 e3 => F.quantile_list e1 e2 e3, F.symbolLte_spec h2.level, F.symbolGte_spec h2.level,
    F.unique_list h2.level⟩

/-- C55 for `wm_int`, for all 64-bit symbols: navigation, `intersect` (`t` at most the number of ranges), `quantile_freq` and `interval_symbols`, which reports all symbols of the
    interval in ascending order, each with its two ranks. -/
theorem C55_wm_int_partial (maxLevel : Nat) (xs : List Word) (hne : xs ≠ []) (hn : xs.length < 2 ^ 64) (hm : maxLevel ≤ 64) (hlt : maxLevel ≠ 0 → ∀ x ∈ xs, x.toNat < 2 ^ maxLevel) :
    ∃ t, WmInt.new maxLevel xs = some t ∧ NavOk t.nav xs t.maxLevel ∧ IntersectOk t.nav xs ∧ QuantileOk t.nav xs ∧
      (∀ i j, i ≤ j → j ≤ xs.length → ∃ l, t.nav.intervalSymbols t.inverseSelect i j = some l ∧ l.Pairwise (fun a b => a.1 < b.1) ∧
        ∀ c ri rj, (c, ri, rj) ∈ l ↔ c ∈ (xs.take j).drop i ∧ ri = (xs.take i).count c ∧ rj = (xs.take j).count c) := by
  obtain ⟨t, h1, h2, h3, h4⟩ := WmInt.new_spec hne hm hlt
  have F := h2.fixed hne hn
  exact ⟨t, h1, fun bs hb => F.nav_spec bs hb, fun R t hR ht => F.intersect_list hR ht, fun lb rb q e1 e2 e3 => F.quantile_list e1 e2 e3,
    fun i j hij hj => F.interval_list (fun i hi => WmInt.inverseSelect_spec h2 hi) hij hj⟩

/-- C55 for `wm_int` (partial: symbols below `2^63`): `symbol_lte`, `symbol_gte`, `restricted_unique_range_values`, and `range_search_2d`, which reports exactly the points in the box,
    by symbol and then by index, and counts them; the lower value bound must lie in the alphabet. -/
theorem C55_wm_int_order_partial (maxLevel : Nat) (xs : List Word) (hne : xs ≠ []) (hn : xs.length < 2 ^ 64) (hm : maxLevel ≤ 63)
    (hlt : ∀ x ∈ xs, x.toNat < 2 ^ (if maxLevel = 0 then 63 else maxLevel)) :
    ∃ t, WmInt.new maxLevel xs = some t ∧ LteOk t.nav t.maxLevel xs ∧ GteOk t.nav t.maxLevel xs ∧ UniqueOk t.nav t.maxLevel xs ∧
      ∀ lb rb vlb vrb, lb ≤ rb → rb < xs.length → vlb.toNat < 2 ^ t.maxLevel →
        ∃ pts, WmInt.rangeSearch2d t lb rb vlb vrb true = some (pts, pts.length) ∧ WmInt.rangeSearch2d t lb rb vlb vrb false = some ([], pts.length) ∧
          pts.Pairwise (fun a b => a.2 < b.2 ∨ (a.2 = b.2 ∧ a.1 < b.1)) ∧
          ∀ q v, (q, v) ∈ pts ↔ ∃ h : q < xs.length, lb ≤ q ∧ q ≤ rb ∧ xs[q].toNat = v ∧ vlb.toNat ≤ v ∧ v ≤ vrb.toNat := by
  obtain ⟨t, h1, h2, h3, h4⟩ := WmInt.new_spec hne (by omega : maxLevel ≤ 64) (fun h0 => by simpa [h0] using hlt)
  have hL : t.maxLevel ≤ 63 := by
    rw [h3]
    split
    · rename_i h0
      rw [if_pos h0] at hlt
      exact WtInt.autoLevel_le (by decide) hlt
    · exact hm
  have F := h2.fixed hne hn
  refine ⟨t, h1, F.symbolLte_spec hL, F.symbolGte_spec hL, F.unique_list hL, ?_⟩
  intro lb rb vlb vrb hlr hrb hv
  refine ⟨_, by rw [WmInt.rangeSearch2d_spec h2 hL hne hn true hlr hrb hv, if_pos rfl], by rw [WmInt.rangeSearch2d_spec h2 hL hne hn false hlr hrb hv, if_neg (by simp)], box_sorted _ _ _ _ _ _, ?_⟩
  intro q v
  rw [mem_box h2.lt (by omega)]
  constructor
  · rintro ⟨h, h5, h6, h7⟩; exact ⟨h, h5, by omega, h7⟩
  · rintro ⟨h, h5, h6, h7⟩; exact ⟨h, h5, by omega, h7⟩

/-- C55 fails for `intersect` when more occurrences are asked for than there are ranges: an iterator beyond the end is formed. -/
theorem C55_intersect_undefined : ∃ t, WmInt.new 0 wtSample = some t ∧ t.nav.intersect [(0, 4), (3, 8)] 3 = none := ⟨_, rfl, by decide +kernel⟩

/-- C55 fails for `range_search_2d` on a value interval that starts just above the alphabet, as for `wt_int`. -/
theorem C55_range_search_beyond_alphabet : ∃ t, WmInt.new 0 [3#64, 1#64, 0#64, 3#64] = some t ∧ WmInt.rangeSearch2d t 0 3 4#64 4#64 true = some ([(0, 3), (3, 3)], 2) :=
  ⟨_, rfl, by decide +kernel⟩

/-- C55 fails for symbols from `2^63` on: `symbol_gte` evaluates `1ULL << 64`. -/
theorem C55_symbol_gte_undefined (xs : List Word) (h : ∃ x ∈ xs, 2 ^ 63 ≤ x.toNat) : ∃ t, WmInt.new 0 xs = some t ∧ ∀ c, t.nav.symbolGte t.maxLevel c = none := by
  obtain ⟨x, hx, hx2⟩ := h
  obtain ⟨t, h1, h2, h3, h4⟩ := WmInt.new_spec (maxLevel := 0) (List.ne_nil_of_mem hx) (by omega) (fun h0 => absurd rfl h0)
  refine ⟨t, h1, fun c => ?_⟩
  have hL : t.maxLevel = 64 := by
    have h5 := h2.level
    have h6 := h2.lt x hx
    have h7 : ¬ t.maxLevel ≤ 63 := fun h8 => by
      have := Nat.pow_le_pow_right (n := 2) (by decide) h8
      omega
    omega
  rw [Tree.symbolGte, hL, shl, if_neg (by decide)]
  rfl

example : wtSample ≠ [] ∧ wtSample.length < 2 ^ 64 ∧ (∀ x ∈ wtSample, x.toNat < 2 ^ (if 0 = 0 then 63 else 0)) ∧ (5 ≠ 0 → ∀ x ∈ wtSample, x.toNat < 2 ^ 5) := by simp [wtSample]

example : (∀ p ∈ [(0, 4), (3, 8)], p.1 ≤ p.2 ∧ p.2 < wtSample.length) ∧ 2 ≤ [(0, 4), (3, 8)].length := by simp [wtSample]

example : (WmInt.new 0 wtSample).bind (fun t => t.nav.intersect [(0, 4), (3, 8)] 2) = some [(1#64, 3), (5#64, 3)] := by decide +kernel

example : (WtInt.new 0 wtSample).bind (fun t => t.nav.quantileFreq 1 8 4) = some (5#64, 2) := by decide +kernel

example : (WtInt.new 0 wtSample).bind (fun t => t.nav.symbolLte t.maxLevel 8#64) = some (true, 6#64) := by decide +kernel

example : (WmInt.new 0 wtSample).bind (fun t => t.nav.symbolGte t.maxLevel 7#64) = some (true, 9#64) := by decide +kernel

example : (WmInt.new 0 wtSample).bind (fun t => t.nav.restrictedUnique 10 (t.nav.symbolGte t.maxLevel) (t.nav.symbolLte t.maxLevel) (fun c => (t.maxLevel, c)) 1 8 2#64 5#64) = some [2#64, 4#64, 5#64] := by
  decide +kernel

example : (WmInt.new 0 wtSample).bind (fun t => WmInt.rangeSearch2d t 1 7 2#64 5#64 true) = some ([(6, 2), (2, 4), (4, 5)], 3) := by decide +kernel

example : (WmInt.new 0 wtSample).bind (fun t => (t.nav.descend t.nav.root [false, true]).bind (fun v => t.nav.seq 3 v 2)) = some 6#64 := by decide +kernel

end Sdsl.Props
