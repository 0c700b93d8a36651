import Verif.SerialSelect
import Verif.Props.Serial
import Verif.Props.RankSelect
import Verif.Props.BvBridge
import Verif.Props.SdVector

/-! # C92: supports that were built, written and read give the right answers

A bit vector and a support that was built for it are written to a stream and read into other objects; the support that was read, on the
vector that was read, gives the answers that the original vector asks for. -/
namespace Sdsl.Props
open Sdsl.Serial Sdsl.Spec
open IntVec (Byte)

/-- Writing a bit vector and reading it. -/
theorem bits_restored (junk : Nat → Word) {v : IntVec} (hv : okVec 1 v none) : ∃ o, (vec junk 1).ser v = some (o, o.length) ∧
    ∀ u rest, okVec 1 u none → ∃ w, (vec junk 1).load u none (o ++ rest) = some (w, rest) ∧ w.WF ∧ w.size = v.size ∧
      ∀ i, i < v.size → bitAt w.data i = bitAt v.data i := by
  obtain ⟨o, h1, h2⟩ := (vec_good junk 1).rt v none hv
  refine ⟨o, h1, fun u rest hu => ?_⟩
  obtain ⟨w, e, hw, hw'⟩ := h2 u none none rest hu (by simp)
  exact ⟨w, e, hw'.1, hw.2.1, fun i hi => bits_of_same (hv.2.2 (by decide)) hw hi⟩

/-- C92: `rank_support_v`. -/
theorem C92_rank_v (pat : Pat) (junk junk' : Nat → Word) {v : IntVec} (hv : okVec 1 v none) {x : RankSup} (hx : okVec 64 x.m_basic_block none)
    (hb : Rank.V.build pat junk v = some (wordsOf x.m_basic_block)) :
    ∃ o1 o2, (vec junk' 1).ser v = some (o1, o1.length) ∧ (rankV junk').ser x = some (o2, o2.length) ∧
      ∀ u s p rest, okVec 1 u none → okVec 64 s.m_basic_block none →
        ∃ w y, (vec junk' 1).load u none (o1 ++ (o2 ++ rest)) = some (w, o2 ++ rest) ∧
          (rankV junk').load s p (o2 ++ rest) = some (y, rest) ∧ y.m_v = p ∧
          ∀ i, i ≤ v.size → ∃ r, Rank.V.rank pat w (wordsOf y.m_basic_block) i = some r ∧ r.toNat = countTrue (occ pat v.data) i := by
  obtain ⟨o1, h1, h2⟩ := bits_restored junk' hv
  obtain ⟨o2, h3, h4⟩ := (rankV_good junk').rt x x.m_v ⟨rfl, hx⟩
  refine ⟨o1, o2, h1, h3, fun u s p rest hu hs => ?_⟩
  obtain ⟨w, e1, hw, hws, hwb⟩ := h2 u (o2 ++ rest) hu
  obtain ⟨y, e2, hy, hy'⟩ := h4 s none p rest ⟨s.m_v, rfl, hs⟩ (by simp)
  refine ⟨w, y, e1, e2, hy'.1, fun i hi => ?_⟩
  obtain ⟨bb, f1, f2⟩ := C18_rank_v pat junk v hv.1 hv.2.1
  rw [hb, Option.some.injEq] at f1
  have hf := hw.fit
  rw [hws] at hf
  rw [show wordsOf y.m_basic_block = bb by rw [← f1]; unfold wordsOf; rw [hy.2.2], V_rank_of_bits hwb bb hi hv.1.fit hf]
  exact f2 i hi

/-- C92: `rank_support_v5` (for `i = size()` see C19). -/
theorem C92_rank_v5 (pat : Pat) (junk junk' : Nat → Word) {v : IntVec} (hv : okVec 1 v none) {x : RankSup} (hx : okVec 64 x.m_basic_block none)
    (hb : Rank.V5.build pat junk v = some (wordsOf x.m_basic_block)) :
    ∃ o1 o2, (vec junk' 1).ser v = some (o1, o1.length) ∧ (rankV5 junk').ser x = some (o2, o2.length) ∧
      ∀ u s p rest, okVec 1 u none → okVec 64 s.m_basic_block none →
        ∃ w y, (vec junk' 1).load u none (o1 ++ (o2 ++ rest)) = some (w, o2 ++ rest) ∧
          (rankV5 junk').load s (some p) (o2 ++ rest) = some (y, rest) ∧ y.m_v = some p ∧
          ∀ i, i < v.size → ∃ r, Rank.V5.rank pat w (wordsOf y.m_basic_block) i = some r ∧ r.toNat = countTrue (occ pat v.data) i := by
  obtain ⟨o1, h1, h2⟩ := bits_restored junk' hv
  obtain ⟨o2, h3, h4⟩ := (rankV5_good junk').rt x x.m_v ⟨rfl, hx⟩
  refine ⟨o1, o2, h1, h3, fun u s p rest hu hs => ?_⟩
  obtain ⟨w, e1, hw, hws, hwb⟩ := h2 u (o2 ++ rest) hu
  obtain ⟨y, e2, hy, hy'⟩ := h4 s none (some p) rest ⟨s.m_v, rfl, hs⟩ (by simp)
  refine ⟨w, y, e1, e2, hy'.1, fun i hi => ?_⟩
  obtain ⟨bb, f1, f2⟩ := C19_rank_v5_partial pat junk v hv.1 hv.2.1
  rw [hb, Option.some.injEq] at f1
  have hf := hw.fit
  rw [hws] at hf
  rw [show wordsOf y.m_basic_block = bb by rw [← f1]; unfold wordsOf; rw [hy.2.2], V5_rank_of_bits hwb bb hi hv.1.fit hf]
  exact f2 i (Nat.le_of_lt hi) (.inl hi)

/-- The supports of three bits. -/
example : (Rank.V.build .p1 (fun _ => 0xBAD#64) exBits = some (wordsOf ⟨128, [0, 0x80000000000000], 64⟩) ∧
    Rank.V5.build .p1 (fun _ => 0xBAD#64) exBits = some (wordsOf ⟨128, [0, 0], 64⟩)) ∧ okVec 1 exBits none ∧
    okVec 64 ⟨128, [0, 0x80000000000000], 64⟩ none ∧ okVec 64 ⟨128, [0, 0], 64⟩ none :=
  ⟨by decide +kernel, exBits_ok, ⟨⟨by decide, by decide, by decide⟩, by decide, fun _ => rfl⟩,
   ⟨by decide, by decide, by decide⟩, by decide, fun _ => rfl⟩

/-- A support with the contents of one that was built for `v`, on a vector with the bits of `v`. -/
theorem select_loaded {pat : Pat} {junk : Nat → Nat} {v w : IntVec} (hv : v.WF) (hs : v.size + 4095 < 2 ^ 64) {x y : SelMcl}
    (hb : Select.mclBuild pat junk v = some x.toMcl) (hx : okParts x) (hw : w.WF) (hws : w.size = v.size)
    (hwb : ∀ i, i < v.size → bitAt w.data i = bitAt v.data i) : okSel x x.m_v ∧ (sameSel x y →
    ∀ i, 1 ≤ i → i ≤ countTrue (occ pat v.data) v.size →
      ∃ a, Select.mclSelect pat w y.toMcl i = some a ∧ IsSelect (occ pat v.data) v.size i a) := by
  obtain ⟨t, f1, f2, f3⟩ := Select.mclBuild_ok (pat := pat) (junk := junk) hv.fit (by unfold IntVec.capWords; omega)
  rw [hb, Option.some.injEq] at f1
  subst f1
  have hc : x.m_arg_cnt = countTrue (occ pat v.data) v.size := f2
  have hle := countTrue_le (occ pat v.data) v.size
  refine ⟨okSel_of_build hb hx (by omega), fun hy i hi1 hi2 => ?_⟩
  rw [select_of_same (by omega) hy hi1 (by omega)]
  have hblk := Blk_of_bits hwb (f3 ((i - 1) / 4096) (by unfold Rank.R; omega))
  have hR := R_of_bits hwb pat (Nat.le_refl v.size)
  have hR' : Rank.R pat w.data w.size = Rank.R pat v.data v.size := by rw [hws, hR]
  obtain ⟨a, q1, q2, q3, q4⟩ := Select.mclSelect_eq (s := x.toMcl) (i := i) hw.fit hi1 (by rw [hR']; exact hi2) (by rw [hR']; exact hblk)
  rw [hws] at q2
  refine ⟨a, q1, q2, by rw [← occ_of_bits hwb pat q2]; exact q3, ?_⟩
  rw [← q4, countTrue_congr (fun j hj => (occ_of_bits hwb pat (show j < v.size by omega)))]

/-- C92: `select_support_mcl`, for all patterns, with long and short superblocks. -/
theorem C92_select_mcl (pat : Pat) (junk : Nat → Nat) (junk' : Nat → Word) {v : IntVec} (hv : okVec 1 v none) (hs : v.size + 4095 < 2 ^ 64)
    {x : SelMcl} (hx : okParts x) (hb : Select.mclBuild pat junk v = some x.toMcl) :
    ∃ o1 o2, (vec junk' 1).ser v = some (o1, o1.length) ∧ (selMcl junk').ser x = some (o2, o2.length) ∧
      ∀ u s p rest, okVec 1 u none → (∃ q, okSel s q) →
        ∃ w y, (vec junk' 1).load u none (o1 ++ (o2 ++ rest)) = some (w, o2 ++ rest) ∧
          (selMcl junk').load s p (o2 ++ rest) = some (y, rest) ∧ y.m_v = p ∧
          ∀ i, 1 ≤ i → i ≤ countTrue (occ pat v.data) v.size →
            ∃ a, Select.mclSelect pat w y.toMcl i = some a ∧ IsSelect (occ pat v.data) v.size i a := by
  obtain ⟨o1, h1, h2⟩ := bits_restored junk' hv
  obtain ⟨o2, h3, h4⟩ := (selMcl_good junk').rt x x.m_v (select_loaded (y := x) hv.1 hs hb hx hv.1 rfl (fun _ _ => rfl)).1
  refine ⟨o1, o2, h1, h3, fun u s p rest hu hs' => ?_⟩
  obtain ⟨w, e1, hw, hws, hwb⟩ := h2 u (o2 ++ rest) hu
  obtain ⟨y, e2, hy, hy'⟩ := h4 s none p rest hs' (by simp)
  exact ⟨w, y, e1, e2, hy'.ptr, (select_loaded hv.1 hs hb hx hw hws hwb).2 hy⟩

/-- A select support of three bits. -/
def exSelBits : SelMcl := ⟨none, 2, ⟨7, [0], 7⟩, none, [⟨128, [0, 0], 2⟩]⟩

example : Select.mclBuild .p1 (fun _ => 3) exBits = some exSelBits.toMcl ∧ okParts exSelBits ∧ okVec 1 exBits none := by
  refine ⟨by decide +kernel, ⟨⟨⟨by decide, by decide, by decide⟩, by decide, by simp⟩, ?_, by simp [exSelBits]⟩, exBits_ok⟩
  intro y hy
  simp only [exSelBits, List.mem_singleton] at hy
  subst hy
  exact ⟨⟨⟨by decide, by decide, by decide⟩, by decide, by simp⟩, by decide⟩

/-! ### sd_vector -/

/-- An `sd_vector` by its elements and bits, as in Sd.lean. -/
def sdOf (x : SdVector IntVec SelMcl SelMcl) : Sd.Sd := ⟨x.m_size, x.m_wl, arrOf x.m_low, bitList x.m_high⟩

/-- The members of an `sd_vector` are possible objects, and the supports point to `m_high`. -/
structure okSdParts (x : SdVector IntVec SelMcl SelMcl) : Prop where
  size : x.m_size < 256 ^ 8
  wl : x.m_wl < 256
  low : okVec 0 x.m_low none
  high : okVec 1 x.m_high none
  highSize : x.m_high.size + 4095 < 2 ^ 64
  sel1 : okParts x.m_high_1_select
  sel0 : okParts x.m_high_0_select
  ptr1 : x.m_high_1_select.m_v = some "m_high"
  ptr0 : x.m_high_0_select.m_v = some "m_high"

theorem bitList_same {v w : IntVec} (h1 : v.width = 1) (h : sameVec v w) : bitList w = bitList v := by
  unfold bitList
  rw [h.2.1]
  refine List.map_congr_left (fun i hi => bits_of_same h1 h (List.mem_range.1 hi))

/-- C92: an `sd_vector` that was built for the bit vector `v`, written and read: all queries answer like `v`, and the select supports, which
    these queries use, answer for the upper parts that were read. -/
theorem C92_sd_vector (j1 j0 : Nat → Nat) (junk : Nat → Word) {v : IntVec} (hv : v.WF) (hs : v.size < 2 ^ 62)
    {x : SdVector IntVec SelMcl SelMcl} (hx : okSdParts x) (hb : Sd.ofBitVector v = some (sdOf x))
    (hb1 : Select.mclBuild .p1 j1 x.m_high = some x.m_high_1_select.toMcl)
    (hb0 : Select.mclBuild .p0 j0 x.m_high = some x.m_high_0_select.toMcl) :
    ∃ out, (sdVector junk (vec junk 1) (selMcl junk) (selMcl junk)).ser x = some (out, out.length) ∧
      ∀ u rest, okSdVector (okVec 1) (lax okSel) (lax okSel) u none →
        ∃ y, (sdVector junk (vec junk 1) (selMcl junk) (selMcl junk)).load u none (out ++ rest) = some (y, rest) ∧
          SdAnswers (sdOf y) v.size (bitAt v.data) ∧
          y.m_high_1_select.m_v = some "m_high" ∧ y.m_high_0_select.m_v = some "m_high" ∧
          (∀ i, 1 ≤ i → i ≤ Bv.cnt true (sdOf y).high (sdOf y).high.length →
            Select.mclSelect .p1 y.m_high y.m_high_1_select.toMcl i = Bv.select true (sdOf y).high i) ∧
          (∀ i, 1 ≤ i → i ≤ Bv.cnt false (sdOf y).high (sdOf y).high.length →
            Select.mclSelect .p0 y.m_high y.m_high_0_select.toMcl i = Bv.select false (sdOf y).high i) := by
  obtain ⟨b, f1, f2⟩ := C25_from_bit_vector v hv hs
  rw [hb, Option.some.injEq] at f1
  subst f1
  have hw1 : x.m_high.width = 1 := hx.high.2.2 (by decide)
  have k1 := (select_loaded (y := x.m_high_1_select) hx.high.1 hx.highSize hb1 hx.sel1 hx.high.1 rfl (fun _ _ => rfl)).1
  have k0 := (select_loaded (y := x.m_high_0_select) hx.high.1 hx.highSize hb0 hx.sel0 hx.high.1 rfl (fun _ _ => rfl)).1
  rw [hx.ptr1] at k1
  rw [hx.ptr0] at k0
  obtain ⟨out, h1, h2⟩ := (C91_bit_vectors junk).1 x none ⟨hx.size, hx.wl, hx.low, hx.high, k1, k0⟩
  refine ⟨out, h1, fun u rest hu => ?_⟩
  obtain ⟨y, e, hy, hy'⟩ := h2 u none none rest hu (by simp)
  have hbl := bitList_same hw1 hy.m_high
  have hsd : sdOf y = sdOf x := by
    unfold sdOf arrOf
    rw [hy.m_size, hy.m_wl, hy.m_low.1, hy.m_low.2.2, hbl]
  have hbits : ∀ i, i < x.m_high.size → bitAt y.m_high.data i = bitAt x.m_high.data i := fun i hi => bits_of_same hw1 hy.m_high hi
  have hsel : ∀ (tb : Bool) (j : Nat → Nat) (s t : SelMcl), Select.mclBuild (patOf tb) j x.m_high = some s.toMcl → okParts s → sameSel s t →
      ∀ i, 1 ≤ i → i ≤ Bv.cnt tb (sdOf x).high (sdOf x).high.length →
        Select.mclSelect (patOf tb) y.m_high t.toMcl i = Bv.select tb (sdOf x).high i := by
    intro tb j s t hbt hst hsame i hi1 hi2
    have hlen : (sdOf x).high.length = x.m_high.size := bitList_length _
    rw [hlen, show (sdOf x).high = bitList x.m_high from rfl, cnt_bitList tb _ (Nat.le_refl _), ← occ_fun] at hi2
    obtain ⟨a, q1, q2⟩ := (select_loaded hx.high.1 hx.highSize hbt hst hy'.m_high.1 hy.m_high.2.1 hbits).2 hsame i hi1 hi2
    rw [occ_fun] at q2
    rw [q1]
    exact (select_bitList q2).symm
  refine ⟨y, e, ?_⟩
  rw [hsd]
  exact ⟨f2, hy'.m_high_1_select.ptr, hy'.m_high_0_select.ptr, hsel true j1 _ _ hb1 hx.sel1 hy.m_high_1_select,
    hsel false j0 _ _ hb0 hx.sel0 hy.m_high_0_select⟩

/-- An `sd_vector` of twelve bits with its supports. -/
def exSd : SdVector IntVec SelMcl SelMcl :=
  ⟨12, 1, ⟨4, [8], 1⟩, ⟨12, [329], 1⟩, ⟨some "m_high", 4, ⟨7, [0], 7⟩, none, [⟨256, [0, 0, 0, 0], 4⟩]⟩,
    ⟨some "m_high", 8, ⟨7, [1], 7⟩, none, [⟨256, [0, 0, 0, 0], 4⟩]⟩⟩

example : Sd.ofBitVector ⟨12, [0x911], 1⟩ = some (sdOf exSd) ∧
    Select.mclBuild .p1 (fun _ => 3) exSd.m_high = some exSd.m_high_1_select.toMcl ∧
    Select.mclBuild .p0 (fun _ => 3) exSd.m_high = some exSd.m_high_0_select.toMcl ∧ okSdParts exSd := by
  have h : okWhole ⟨256, [0, 0, 0, 0], 4⟩ := ⟨⟨⟨by decide, by decide, by decide⟩, by decide, by simp⟩, by decide⟩
  have hp : ∀ p n w, okParts ⟨p, n, ⟨7, [w], 7⟩, none, [⟨256, [0, 0, 0, 0], 4⟩]⟩ := by
    intro p n w
    refine ⟨⟨⟨by simp, by simp, by simp⟩, by simp, by simp⟩, ?_, by simp⟩
    intro y hy
    simp only [List.mem_singleton] at hy
    subst hy
    exact h
  exact ⟨by decide +kernel, by decide +kernel, by decide +kernel, by simp [exSd], by simp [exSd],
    ⟨⟨by decide, by decide, by decide⟩, by decide, by simp⟩, ⟨⟨by decide, by decide, by decide⟩, by decide, fun _ => rfl⟩, by simp [exSd],
    hp _ _ _, hp _ _ _, rfl, rfl⟩

end Sdsl.Props
