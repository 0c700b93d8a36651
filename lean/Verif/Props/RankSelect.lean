/-
  Properties of the rank and select supports of plain bit vectors (C18-C22).

  `occ pat m q` (SpecPat.lean) says that an occurrence of the pattern ends at bit `q`; `countTrue (occ pat m) i` is the number
  of occurrences that end before position `i`.
-/
import Verif.RankLemmas
import Verif.SelectFast

namespace Sdsl.Props

open Sdsl Sdsl.Spec Sdsl.Bits Sdsl.IntVec

/-! ## C18 rank_support_v -/

/-- C18: for each of the six patterns, construction succeeds on every bit vector, whatever the content of the fresh memory
    (`junk`) and of the unused bits of the last word, and `rank(i)` is the number of occurrences ending before `i`, for every
    `i ≤ size`. No access leaves the vector or the rank structure. -/
theorem C18_rank_v (pat : Pat) (junk : Nat → Word) (v : IntVec) (hv : v.WF) (hs : v.size < 2 ^ 64) :
    ∃ bb, Rank.V.build pat junk v = some bb ∧ ∀ i, i ≤ v.size →
      ∃ r, Rank.V.rank pat v bb i = some r ∧ r.toNat = countTrue (occ pat v.data) i := by
  obtain ⟨bb, h1, h2⟩ := Rank.V.build_ok pat junk hv.fit
  refine ⟨bb, h1, fun i hi => ⟨_, Rank.V.rank_ok hv.fit h2 hi, ?_⟩⟩
  have := countTrue_le (occ pat v.data) i
  rw [BitVec.toNat_ofNat, Nat.mod_eq_of_lt (by unfold Rank.R; omega)]

example : (Rank.V.build .p10 (fun _ => 0xBAD#64) ⟨130, [0x5#64, 0xF0F0#64, 0x2#64], 1⟩).bind (fun bb =>
      Rank.V.rank .p10 ⟨130, [0x5#64, 0xF0F0#64, 0x2#64], 1⟩ bb 130) = some 4#64 ∧
    countTrue (occ .p10 [0x5#64, 0xF0F0#64, 0x2#64]) 130 = 4 := by decide +kernel

/-! ## C19 rank_support_v5 -/

/-- C19, with the one restriction it needs: `rank(i)` is right for every `i ≤ size` such that word `i/64` is allocated.
    For `i < size`, and for `i = size` when `size` is not a multiple of 64, that is always so. Missing from the full claim:
    `i = size` when `size` is a multiple of 64 and the vector has no padding word (`C19_reads_past_end`). -/
theorem C19_rank_v5_partial (pat : Pat) (junk : Nat → Word) (v : IntVec) (hv : v.WF) (hs : v.size < 2 ^ 64) :
    ∃ bb, Rank.V5.build pat junk v = some bb ∧ ∀ i, i ≤ v.size → (i < v.size ∨ v.size % 64 ≠ 0 ∨ v.size / 64 < v.data.length) →
      ∃ r, Rank.V5.rank pat v bb i = some r ∧ r.toNat = countTrue (occ pat v.data) i := by
  obtain ⟨bb, h1, h2⟩ := Rank.V5.build_ok pat junk hv.fit
  have hf := hv.fit
  refine ⟨bb, h1, fun i hi hl => ⟨_, Rank.V5.rank_ok hv.fit h2 hi ?_, ?_⟩⟩
  · by_cases h : i < v.size
    · omega
    · have : i = v.size := by omega
      subst this; omega
  have := countTrue_le (occ pat v.data) i
  rw [BitVec.toNat_ofNat, Nat.mod_eq_of_lt (by unfold Rank.R; omega)]

/-- C19 fails without that restriction: `resize` (60 to 64 bits, see `C12_padding_word_missing`) gives a vector of 64 bits in
    a single word; `rank(64)`, the total count, then reads the word after the end of the allocation. -/
theorem C19_reads_past_end (junk : Nat → Word) :
    ∃ (v u : IntVec) (bb : Mem), v.WF ∧ v.size = 60 ∧ v.resize junk 64 = some u ∧ u.WF ∧ u.size = 64 ∧
      Rank.V5.build .p1 junk u = some bb ∧ Rank.V5.rank .p1 u bb 64 = none := by
  refine ⟨⟨60, [allSet], 1⟩, ⟨64, [allSet], 1⟩, [0#64, 0#64], ⟨by decide, by decide, by decide⟩, rfl, rfl,
    ⟨by decide, by decide, by decide⟩, rfl, ?_, by decide +kernel⟩
  rfl

example : (Rank.V5.build .p11 (fun _ => 0xBAD#64) ⟨130, [0x8000000000000007#64, 0xF0F1#64, 0x2#64], 1⟩).bind (fun bb =>
      Rank.V5.rank .p11 ⟨130, [0x8000000000000007#64, 0xF0F1#64, 0x2#64], 1⟩ bb 130) = some 9#64 ∧
    countTrue (occ .p11 [0x8000000000000007#64, 0xF0F1#64, 0x2#64]) 130 = 9 := by decide +kernel

/-! ## C20 rank_support_scan -/

/-- C20, with the same restriction as C19. -/
theorem C20_rank_scan_partial (pat : Pat) (v : IntVec) (hv : v.WF) (hs : v.size < 2 ^ 64) (i : Nat) (hi : i ≤ v.size)
    (hl : i < v.size ∨ v.size % 64 ≠ 0 ∨ v.size / 64 < v.data.length) :
    ∃ r, Rank.Scan.rank pat v i = some r ∧ r.toNat = countTrue (occ pat v.data) i := by
  have hf := hv.fit
  refine ⟨_, Rank.Scan.rank_ok ?_, ?_⟩
  · by_cases h : i < v.size
    · omega
    · have : i = v.size := by omega
      subst this; omega
  have := countTrue_le (occ pat v.data) i
  rw [BitVec.toNat_ofNat, Nat.mod_eq_of_lt (by unfold Rank.R; omega)]

/-- C20 fails without that restriction, on the same vector as C19. -/
theorem C20_reads_past_end (junk : Nat → Word) :
    ∃ v u : IntVec, v.WF ∧ v.size = 60 ∧ v.resize junk 64 = some u ∧ u.WF ∧ u.size = 64 ∧ Rank.Scan.rank .p1 u 64 = none :=
  ⟨⟨60, [allSet], 1⟩, ⟨64, [allSet], 1⟩, ⟨by decide, by decide, by decide⟩, rfl, rfl, ⟨by decide, by decide, by decide⟩, rfl,
    by decide +kernel⟩

example : Rank.Scan.rank .p00 ⟨130, [0x8000000000000007#64, 0xF0F1#64, 0x2#64], 1⟩ 100 = some 83#64 ∧
    countTrue (occ .p00 [0x8000000000000007#64, 0xF0F1#64, 0x2#64]) 100 = 83 := by decide +kernel

/-! ## C21 select_support_scan -/

/-- C21: `select(i)` is the position where the `i`-th occurrence of the pattern ends, for every `i` from 1 to the number of
    occurrences; no access leaves the vector. -/
theorem C21_select_scan (pat : Pat) (v : IntVec) (hv : v.WF) (i : Nat) (h1 : 1 ≤ i) (h2 : i ≤ countTrue (occ pat v.data) v.size) :
    ∃ p, Select.scanSelect pat v i = some p ∧ IsSelect (occ pat v.data) v.size i p :=
  Select.scanSelect_eq hv.fit h1 h2

example : Select.scanSelect .p01 ⟨190, [0x8000000000000005#64, 0xF0F1#64, 0x2#64], 1⟩ 4 = some 76 ∧
    IsSelect (occ .p01 [0x8000000000000005#64, 0xF0F1#64, 0x2#64]) 190 4 76 := by
  refine ⟨by decide +kernel, by decide, by decide +kernel, by decide +kernel⟩

/-! ## C22 select_support_mcl -/

/-- C22: for each of the six patterns, construction succeeds on every bit vector (by `init_slow` or `init_fast`, as the
    constructor chooses), whatever the content of the uninitialised `arg_position` array and of the unused bits of the last
    word; `select(i)` is the position where the `i`-th occurrence ends, for every `i` from 1 to the number of occurrences.
    No access leaves the vector or the tables. -/
theorem C22_select_mcl (pat : Pat) (junk : Nat → Nat) (v : IntVec) (hv : v.WF) (hs : v.size + 63 < 2 ^ 64) :
    ∃ s, Select.mclBuild pat junk v = some s ∧ s.argCnt = countTrue (occ pat v.data) v.size ∧
      ∀ i, 1 ≤ i → i ≤ countTrue (occ pat v.data) v.size →
        ∃ p, Select.mclSelect pat v s i = some p ∧ IsSelect (occ pat v.data) v.size i p := by
  obtain ⟨s, e, h1, h2⟩ := Select.mclBuild_ok (pat := pat) (junk := junk) hv.fit (by unfold IntVec.capWords; omega)
  refine ⟨s, e, h1, fun i hi1 hi2 => Select.mclSelect_eq hv.fit hi1 hi2 (h2 _ ?_)⟩
  unfold Rank.R
  omega

/-- C22: both construction routines are right, whatever the size of the vector (`init_fast` is used for one-bit patterns). -/
theorem C22_both_inits (pat : Pat) (junk : Nat → Nat) (v : IntVec) (hv : v.WF) (hs : v.size + 63 < 2 ^ 64) (i : Nat) (h1 : 1 ≤ i)
    (h2 : i ≤ countTrue (occ pat v.data) v.size) :
    (∃ s p, Select.initSlow pat junk v = some s ∧ Select.mclSelect pat v s i = some p ∧ IsSelect (occ pat v.data) v.size i p) ∧
    (pat = .p0 ∨ pat = .p1 →
      ∃ s p, Select.initFast pat junk v = some s ∧ Select.mclSelect pat v s i = some p ∧ IsSelect (occ pat v.data) v.size i p) := by
  have hcap : v.capWords * 64 < 2 ^ 64 := by unfold IntVec.capWords; omega
  have hlt : 4096 * ((i - 1) / 4096) < Rank.R pat v.data v.size := by unfold Rank.R; omega
  constructor
  · obtain ⟨s, e, -, h⟩ := Select.initSlow_ok (pat := pat) (junk := junk) hv.fit hcap
    obtain ⟨p, e', h'⟩ := Select.mclSelect_eq hv.fit h1 h2 (h _ hlt)
    exact ⟨s, p, e, e', h'⟩
  · intro hp
    obtain ⟨s, e, -, h⟩ := Select.initFast_ok (pat := pat) (junk := junk) hp hv.fit hcap
    obtain ⟨p, e', h'⟩ := Select.mclSelect_eq hv.fit h1 h2 (h _ hlt)
    exact ⟨s, p, e, e', h'⟩

example : (⟨190, [0x8000000000000005#64, 0xF0F1#64, 0x2#64], 1⟩ : IntVec).WF ∧
    (Select.initFast .p1 (fun _ => 0xBAD) ⟨190, [0x8000000000000005#64, 0xF0F1#64, 0x2#64], 1⟩).bind (fun s =>
      Select.mclSelect .p1 ⟨190, [0x8000000000000005#64, 0xF0F1#64, 0x2#64], 1⟩ s 5) = some 68 ∧
    IsSelect (occ .p1 [0x8000000000000005#64, 0xF0F1#64, 0x2#64]) 190 5 68 := by
  refine ⟨⟨by decide, by decide, by decide⟩, by decide +kernel, by decide, by decide +kernel, by decide +kernel⟩

end Sdsl.Props
