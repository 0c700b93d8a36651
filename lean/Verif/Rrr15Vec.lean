/- Queries on a well-formed rrr_vector<15>. -/
import Verif.Rrr15Sum
import Verif.BitsSel

namespace Sdsl.Rrr15

open Sdsl.Spec Sdsl.Bv Sdsl.Rrr

/-- What a correctly built rrr_vector<15> stores. -/
structure Good (tk : Nat) (B : List Bool) (v : Vec) : Prop where
  size : v.size = B.length
  btLen : v.bt.xs.length = B.length / 15 + 1
  bt : ∀ j, j < B.length / 15 + 1 → v.bt.xs[j]? = some (wt (blk 15 B j))
  btnrpLen : v.btnrp.xs.length = B.length / (tk * 15) + 1
  btnrp : ∀ s, s * (tk * 15) < B.length → v.btnrp.xs[s]? = some (P 15 B (s * tk))
  rankLen : v.rank.xs.length = B.length / (tk * 15) + 1 + (if B.length % (tk * 15) > 0 then 1 else 0)
  rank : ∀ s, s < v.rank.xs.length → v.rank.xs[s]? = some (cnt true B (s * (tk * 15)))
  btnr : ∀ j, j * 15 < B.length → P 15 B (j + 1) ≤ v.btnr.length ∧
    fld v.btnr (P 15 B j) (sp 15 (wt (blk 15 B j))) = en (blk 15 B j)

variable {tk : Nat} {B : List Bool} {v : Vec} {T : Tab}

theorem Good.bt' (g : Good tk B v) {j : Nat} (hj : j * 15 ≤ B.length) : v.bt.get j = some (wt (blk 15 B j)) :=
  g.bt j (by omega)

theorem Good.getD (g : Good tk B v) {j : Nat} (hj : j * 15 ≤ B.length) : v.bt.xs.getD j 0 = wt (blk 15 B j) := by
  rw [List.getD_eq_getElem?_getD, g.bt j (by omega)]; rfl

theorem Good.le15 (g : Good tk B v) (t : Nat) : v.bt.xs.getD t 0 ≤ 15 := by
  by_cases h : t < B.length / 15 + 1
  · rw [g.getD (by omega)]; exact wt_blk_le 15 B t
  · rw [List.getD_eq_getElem?_getD, List.getElem?_eq_none (by rw [g.btLen]; omega)]; decide

theorem Good.byte (g : Good tk B v) {k : Nat} (hk : 2 * k * 15 ≤ B.length) : ∃ y, y ≤ 15 ∧
    byteAt v.bt k = some (wt (blk 15 B (2 * k)) + 16 * y) ∧ ((2 * k + 1) * 15 ≤ B.length → y = wt (blk 15 B (2 * k + 1))) := by
  refine ⟨v.bt.xs.getD (2 * k + 1) 0, g.le15 _, ?_, fun h => g.getD h⟩
  unfold byteAt
  rw [if_pos (by rw [g.btLen]; omega), g.getD hk]

theorem readType_eq (g : Good tk B v) {j : Nat} (hj : j * 15 ≤ B.length) : readType v.bt j = some (wt (blk 15 B j)) := by
  obtain ⟨y, h1, h2, h3⟩ := g.byte (k := j / 2) (by omega)
  have hw := wt_blk_le 15 B (2 * (j / 2))
  unfold readType
  rw [h2, sbind, and15, shr4]
  by_cases h : j % 2 = 1
  · rw [if_pos h, show (wt (blk 15 B (2 * (j / 2))) + 16 * y) / 16 = y by omega, h3 (by omega),
      show 2 * (j / 2) + 1 = j by omega]; rfl
  · rw [if_neg h, show (wt (blk 15 B (2 * (j / 2))) + 16 * y) % 16 = wt (blk 15 B (2 * (j / 2))) by omega,
      show 2 * (j / 2) = j by omega]; rfl

theorem pairLoop_eq (hT : TabOk T) (g : Good tk B v) {b : Nat} (hb : b * 15 ≤ B.length) : ∀ (fuel j r p : Nat), j % 2 = 0 → j ≤ b →
    b < j + fuel → pairLoop T v.bt b fuel j (j / 2) r p =
      some (r + (cnt true B (b * 15) - cnt true B (j * 15)), p + (P 15 B b - P 15 B j))
  | 0, j, r, p, _, _, h => by omega
  | fuel + 1, j, r, p, he, hjb, hf => by
    rw [pairLoop]
    have c1 := cnt_next (n := 15) B j
    have c2 := cnt_next (n := 15) B (j + 1)
    have p1 : P 15 B (j + 1) = P 15 B j + sp 15 (wt (blk 15 B j)) := rfl
    have p2 : P 15 B (j + 1 + 1) = P 15 B (j + 1) + sp 15 (wt (blk 15 B (j + 1))) := rfl
    have hw := wt_blk_le 15 B j
    have hw2 := wt_blk_le 15 B (j + 1)
    by_cases h1 : j + 1 < b
    · obtain ⟨y, y1, y2, y3⟩ := g.byte (k := j / 2) (by omega)
      rw [show 2 * (j / 2) = j by omega] at y2 y3
      have y3' := y3 (by omega)
      subst y3'
      rw [if_pos h1, y2, sbind, hT.pair _ _ hw2 hw, sbind, and15, shr4, show j / 2 + 1 = (j + 2) / 2 by omega,
        pairLoop_eq hT g hb fuel (j + 2) _ _ (by omega) (by omega) (by omega)]
      have c3 := cnt_mono true B (Nat.mul_le_mul_right 15 (show j + 2 ≤ b by omega))
      have p3 := P_mono (n := 15) B (show j + 2 ≤ b by omega)
      rw [show j + 1 + 1 = j + 2 by omega] at c2 p2
      congr 2 <;> omega
    · rw [if_neg h1]
      by_cases h2 : j < b
      · obtain ⟨y, y1, y2, y3⟩ := g.byte (k := j / 2) (by omega)
        rw [show 2 * (j / 2) = j by omega] at y2
        rw [if_pos h2, y2, sbind, and15, show (wt (blk 15 B j) + 16 * y) % 16 = wt (blk 15 B j) by omega, hT.sp _ hw, sbind,
          show b = j + 1 by omega, c1, p1]
        show some _ = some _
        congr 2 <;> omega
      · rw [if_neg h2, show b = j by omega, Nat.sub_self, Nat.sub_self]; rfl

theorem scan_eq (hT : TabOk T) (g : Good tk B v) {b j r p : Nat} (hb : b * 15 ≤ B.length) (hj : j ≤ b) :
    scan T v.bt b j r p = some (r + (cnt true B (b * 15) - cnt true B (j * 15)), p + (P 15 B b - P 15 B j)) := by
  unfold scan
  by_cases h : j % 2 = 1 ∧ j < b
  · obtain ⟨y, y1, y2, y3⟩ := g.byte (k := j / 2) (by omega)
    rw [show 2 * (j / 2) + 1 = j by omega] at y3
    have y3' := y3 (by omega)
    subst y3'
    have hw0 := wt_blk_le 15 B (2 * (j / 2))
    have c1 := cnt_next (n := 15) B j
    have p1 : P 15 B (j + 1) = P 15 B j + sp 15 (wt (blk 15 B j)) := rfl
    have c3 := cnt_mono true B (Nat.mul_le_mul_right 15 (show j + 1 ≤ b by omega))
    have p3 := P_mono (n := 15) B (show j + 1 ≤ b by omega)
    rw [if_pos h, y2, sbind, shr4, show (wt (blk 15 B (2 * (j / 2))) + 16 * wt (blk 15 B j)) / 16 = wt (blk 15 B j) by omega,
      hT.sp _ y1, sbind, show j / 2 + 1 = (j + 1) / 2 by omega,
      pairLoop_eq hT g hb (b + 1) (j + 1) _ _ (by omega) (by omega) (by omega)]
    congr 2 <;> omega
  · rw [if_neg h]
    by_cases h2 : j % 2 = 1
    · have e : j = b := by omega
      subst e
      rw [pairLoop, if_neg (by omega), if_neg (by omega), Nat.sub_self, Nat.sub_self]; rfl
    · exact pairLoop_eq hT g hb (b + 1) j r p (by omega) hj (by omega)

theorem sp15_le (k : Nat) : sp 15 k ≤ 15 := sp_le (by omega)

/-- The decoded block. -/
theorem decode_eq (hT : TabOk T) (g : Good tk B v) {j : Nat} (hj : j * 15 < B.length) :
    Bv.getInt v.btnr (P 15 B j) (sp 15 (wt (blk 15 B j))) = some (en (blk 15 B j)) ∧
      T.toBin (wt (blk 15 B j)) (en (blk 15 B j)) = some (val (blk 15 B j)) := by
  obtain ⟨g1, g2⟩ := g.btnr j hj
  have hP1 : P 15 B (j + 1) = P 15 B j + sp 15 (wt (blk 15 B j)) := rfl
  have := sp15_le (wt (blk 15 B j))
  exact ⟨by rw [getInt_of_le (by omega) (by omega), g2], hT.toBin _ (length_blk _ _ _)⟩

theorem access_eq (hT : TabOk T) (g : Good tk B v) {i : Nat} (hi : i < B.length) : access T tk v i = some (bit B i) := by
  have hsm : i / (tk * 15) * (tk * 15) ≤ i := super_mul_le
  have hsl : i / (tk * 15) * tk ≤ i / 15 := super_le
  have hw := wt_blk_le 15 B (i / 15)
  have hmod : i % 15 < 15 := Nat.mod_lt _ (by omega)
  have hib : bit B i = bit (blk 15 B (i / 15)) (i % 15) := by rw [bit_blk B _ hmod, Nat.mul_comm, Nat.div_add_mod]
  unfold access
  dsimp only
  rw [readType_eq g (by omega), sbind]
  by_cases h1 : wt (blk 15 B (i / 15)) = 0 ∨ wt (blk 15 B (i / 15)) = 15
  · rw [if_pos h1, hib]
    rcases h1 with h1 | h1
    · rw [h1, bit_of_wt_zero h1]; rfl
    · rw [wt_full (by rw [length_blk]; exact h1) _ (by rw [length_blk]; exact hmod), h1]; rfl
  · obtain ⟨d1, d2⟩ := decode_eq hT g (j := i / 15) (by omega)
    have hP := P_mono (n := 15) B hsl
    rw [if_neg h1, sp_tk, show v.btnrp.get (i / (tk * 15)) = _ from g.btnrp _ (by omega), sbind, scan_eq hT g (by omega) hsl, sbind]
    dsimp only
    rw [Nat.add_sub_cancel' hP, hT.sp _ hw, sbind, d1, sbind, d2, sbind, hib]
    have e : (val (blk 15 B (i / 15)) >>> (i % 15) &&& 1 != 0) = (val (blk 15 B (i / 15))).testBit (i % 15) := by
      rw [Nat.testBit, Nat.and_comm]
    rw [e, testBit_val]
    simp [hmod]

theorem addSpace_eq (hT : TabOk T) (g : Good tk B v) : ∀ (c j p : Nat), (j + c) * 15 ≤ B.length →
    addSpace T v.bt j c p = some (p + (P 15 B (j + c) - P 15 B j))
  | 0, j, p, _ => by rw [Nat.add_zero, Nat.sub_self]; rfl
  | c + 1, j, p, h => by
    have hw := wt_blk_le 15 B j
    have p1 : P 15 B (j + 1) = P 15 B j + sp 15 (wt (blk 15 B j)) := rfl
    have p3 := P_mono (n := 15) B (show j + 1 ≤ j + 1 + c by omega)
    rw [addSpace, g.bt' (by omega), sbind, hT.sp _ hw, sbind, addSpace_eq hT g c (j + 1) _ (by omega),
      show j + (c + 1) = j + 1 + c by omega]
    congr 1; omega

theorem getIntBlock_eq (hT : TabOk T) (g : Good tk B v) {i len : Nat} (h1l : 1 ≤ len)
    (h64 : len ≤ 64) (hi : i + len ≤ B.length) (hblk : i % 15 + len ≤ 15) : getIntBlock T tk v i len = some (fld B i len) := by
  have hsm : i / (tk * 15) * (tk * 15) ≤ i := super_mul_le
  have hsl : i / (tk * 15) * tk ≤ i / 15 := super_le
  have hw := wt_blk_le 15 B (i / 15)
  have hib : fld B i len = fld (blk 15 B (i / 15)) (i % 15) len := by
    apply fld_congr
    intro j hj
    rw [bit_blk B _ (by omega)]
    congr 1
    omega
  have h2l : (2 ^ len - 1) % 2 ^ 64 = 2 ^ len - 1 := by
    have : (2 : Nat) ^ len ≤ 2 ^ 64 := Nat.pow_le_pow_right (by omega) h64
    have := Nat.two_pow_pos len
    exact Nat.mod_eq_of_lt (by omega)
  unfold getIntBlock
  dsimp only
  rw [g.bt' (by omega), sbind]
  by_cases h1 : wt (blk 15 B (i / 15)) = 0
  · rw [if_pos h1, hib]
    show some _ = some _
    congr 1
    apply Nat.eq_of_testBit_eq
    intro j
    rw [testBit_fld, bit_of_wt_zero h1]; simp
  · rw [if_neg h1]
    by_cases h2 : wt (blk 15 B (i / 15)) = 15
    · rw [if_pos h2, Bits.loSet_eq h64, sbind, hib, BitVec.toNat_ofNat, h2l]
      show some _ = some _
      congr 1
      apply Nat.eq_of_testBit_eq
      intro j
      rw [testBit_fld, Nat.testBit_two_pow_sub_one]
      by_cases hj : j < len
      · rw [wt_full (by rw [length_blk]; exact h2) _ (by rw [length_blk]; omega)]; simp
      · simp [hj]
    · obtain ⟨d1, d2⟩ := decode_eq hT g (j := i / 15) (by omega)
      have hP := P_mono (n := 15) B hsl
      rw [if_neg h2, sp_tk, show v.btnrp.get (i / (tk * 15)) = _ from g.btnrp _ (by omega), sbind,
        addSpace_eq hT g _ _ _ (by rw [Nat.add_sub_cancel' hsl]; omega), sbind,
        Nat.add_sub_cancel' hsl, Nat.add_sub_cancel' hP, hT.sp _ hw, sbind, d1, sbind, d2, sbind, Bits.loSet_eq h64, sbind,
        BitVec.toNat_ofNat, h2l, hib]
      show some _ = some _
      congr 1
      apply Nat.eq_of_testBit_eq
      intro j
      rw [Nat.testBit_and, Nat.testBit_shiftRight, testBit_val, testBit_fld, Nat.testBit_two_pow_sub_one]
      by_cases hj : j < len
      · simp [hj, show i % 15 + j < 15 by omega]
      · simp [hj]

theorem getIntLoop_eq (hT : TabOk T) (g : Good tk B v) {idx0 len0 : Nat} (h64 : len0 ≤ 64)
    (hi : idx0 + len0 ≤ B.length) : ∀ (fuel len bLen sum : Nat), len < fuel → sum + len = len0 → 1 ≤ bLen → bLen ≤ len →
      (idx0 + sum) % 15 + bLen ≤ 15 → ((idx0 + sum) % 15 + bLen = 15 ∨ bLen = len) →
      getIntLoop T tk v fuel (idx0 + sum) len bLen sum (fld B idx0 sum) = some (fld B idx0 len0)
  | 0, _, _, _, h, _, _, _, _, _ => by omega
  | fuel + 1, len, bLen, sum, hf, hs, hb1, hb2, hm, hend => by
    have hs64 : sum < 64 := by omega
    have hlt := fld_lt B (idx0 + sum) bLen
    have hshift : fld B (idx0 + sum) bLen * 2 ^ sum < 2 ^ 64 := by
      calc fld B (idx0 + sum) bLen * 2 ^ sum < 2 ^ bLen * 2 ^ sum := Nat.mul_lt_mul_of_pos_right hlt (Nat.two_pow_pos _)
        _ = 2 ^ (bLen + sum) := by rw [Nat.pow_add]
        _ ≤ 2 ^ 64 := Nat.pow_le_pow_right (by omega) (by omega)
    have hor : fld B idx0 sum ||| fld B (idx0 + sum) bLen * 2 ^ sum = fld B idx0 (sum + bLen) := by
      rw [fld_add, Nat.mul_comm, Nat.or_comm, ← Nat.two_pow_add_eq_or_of_lt (fld_lt _ _ _), Nat.add_comm]
    rw [getIntLoop, getIntBlock_eq hT g hb1 (by omega) (by omega) hm, sbind, if_pos hs64, sbind,
      Nat.mod_eq_of_lt hshift]
    dsimp only
    rw [hor]
    by_cases h : len - bLen > 0
    · rw [if_pos h, show idx0 + sum + bLen = idx0 + (sum + bLen) by omega]
      exact getIntLoop_eq hT g h64 hi fuel (len - bLen) (min (len - bLen) 15) (sum + bLen) (by omega) (by omega) (by omega)
        (by omega) (by omega) (by omega)
    · rw [if_neg h, show sum + bLen = len0 by omega]; rfl

theorem getInt_eq (hT : TabOk T) (g : Good tk B v) {i len : Nat} (h1l : 1 ≤ len) (h64 : len ≤ 64)
    (hi : i + len ≤ B.length) : getInt T tk v i len = some (fld B i len) := by
  unfold getInt
  by_cases h : i / 15 = (i + len - 1) / 15
  · rw [if_pos h]
    exact getIntBlock_eq hT g h1l h64 hi (by omega)
  · rw [if_neg h]
    exact getIntLoop_eq hT g h64 hi (len + 1) len (15 - i % 15) 0 (by omega) (by omega) (by omega) (by omega)
      (by rw [Nat.add_zero]; omega) (by rw [Nat.add_zero]; omega)

/-! rank -/

theorem nsum_bt (g : Good tk B v) (a : Nat) : ∀ c, (a + c) * 15 ≤ B.length + 15 →
    cnt true B (a * 15) + nsum v.bt.xs a c = cnt true B ((a + c) * 15)
  | 0, _ => rfl
  | c + 1, h => by
    have ih := nsum_bt g a c (by omega)
    rw [nsum, g.getD (by omega), ← Nat.add_assoc, ← Nat.add_assoc, cnt_next, ih]

theorem lsb_val {b : List Bool} (hb : b.length = 15) {q : Nat} (hq : q < 64) : (BitVec.ofNat 64 (val b)).getLsbD q = bit b q := by
  rw [BitVec.getLsbD_ofNat, testBit_val]
  by_cases h : q < 15
  · simp [h, hq]
  · simp [h]
    rw [bit_of_ge (by omega)]

theorem popcount_le (x : Word) : popcount x ≤ 64 := countTrue_le _ _

theorem cnt_toNat (x : Word) : (Bits.cnt x).toNat = popcount x := by
  have := popcount_le x
  rw [Bits.cnt_eq, BitVec.toNat_ofNat, Nat.mod_eq_of_lt (by omega)]

theorem pop_val {b : List Bool} (hb : b.length = 15) : popcount (BitVec.ofNat 64 (val b)) = wt b := by
  unfold popcount
  rw [countTrue_congr (g := fun q => bit b q == true) (fun i hi => by rw [lsb_val hb hi]; simp)]
  exact cnt_all b (by omega)

theorem pop_mask {b : List Bool} (hb : b.length = 15) {k : Nat} (hk : k ≤ 15) :
    popcount (BitVec.ofNat 64 (val b) &&& BitVec.ofNat 64 (2 ^ k - 1)) = cnt true b k := by
  unfold popcount cnt
  rw [countTrue_congr (g := fun q => decide (q < k) && (bit b q == true)) (fun i hi => by
    rw [BitVec.getLsbD_and, lsb_val hb hi, BitVec.getLsbD_ofNat, Nat.testBit_two_pow_sub_one]
    simp [hi, Bool.and_comm])]
  have e := countTrue_add (fun q => decide (q < k) && (bit b q == true)) k (64 - k)
  rw [Nat.add_sub_cancel' (by omega)] at e
  rw [e, countTrue_congr (g := fun q => bit b q == true) (fun i hi => by simp [hi]),
    countTrue_congr (f := fun i => decide (k + i < k) && (bit b (k + i) == true)) (g := fun _ => false) (fun i hi => by
      rw [show decide (k + i < k) = false from decide_eq_false (by omega)]; rfl),
    countTrue_false]
  rfl

theorem rankScan_eq (hT : TabOk T) (g : Good tk B v) (tb : Bool) {i p : Nat} (hi : i ≤ B.length)
    (hp : i / (tk * 15) * (tk * 15) < B.length → p = P 15 B (i / (tk * 15) * tk)) :
    rankScan T tk v tb i p (cnt true B (i / (tk * 15) * (tk * 15))) = some (cnt tb B i) := by
  have hsm : i / (tk * 15) * (tk * 15) ≤ i := super_mul_le
  have hsl : i / (tk * 15) * tk ≤ i / 15 := super_le
  have hdm : i / 15 * 15 + i % 15 = i := by omega
  have hc := cnt_mono true B (Nat.mul_le_mul_right 15 hsl)
  have hsn := Nat.mul_le_mul_right 15 hsl
  rw [Nat.mul_assoc] at hsn
  have hcb := cnt_blk true B (i / 15) (n := 15) (off := i % 15) (by omega)
  rw [hdm] at hcb
  have hw := wt_blk_le 15 B (i / 15)
  unfold rankScan
  dsimp only
  rw [readType_eq g (by omega), sbind, sp_tk]
  by_cases h : wt (blk 15 B (i / 15)) = 0 ∨ wt (blk 15 B (i / 15)) = 15
  · have hns := nsum_bt g (i / (tk * 15) * tk) (i / 15 - i / (tk * 15) * tk) (by omega)
    rw [Nat.add_sub_cancel' hsl, Nat.mul_assoc] at hns
    rw [if_pos h, sumUniform_eq g.le15 hsl (by rw [g.btLen]; omega), sbind]
    have hr : (if wt (blk 15 B (i / 15)) = 15 then cnt true B (i / (tk * 15) * (tk * 15)) + i % 15
        else cnt true B (i / (tk * 15) * (tk * 15))) + nsum v.bt.xs (i / (tk * 15) * tk) (i / 15 - i / (tk * 15) * tk) =
        cnt true B i := by
      rcases h with h | h
      · have : cnt true (blk 15 B (i / 15)) (i % 15) = 0 := by
          have := cnt_mono true (blk 15 B (i / 15)) (show i % 15 ≤ (blk 15 B (i / 15)).length by rw [length_blk]; omega)
          have h' : cnt true (blk 15 B (i / 15)) (blk 15 B (i / 15)).length = 0 := h
          omega
        rw [if_neg (by omega)]
        omega
      · have : cnt true (blk 15 B (i / 15)) (i % 15) = i % 15 := by
          have h1 := cnt_step_le true (blk 15 B (i / 15)) (show i % 15 ≤ (blk 15 B (i / 15)).length by rw [length_blk]; omega)
          have h' : cnt true (blk 15 B (i / 15)) (blk 15 B (i / 15)).length = 15 := h
          have h2 := cnt_le true (blk 15 B (i / 15)) (i % 15)
          rw [length_blk] at h1 h'
          omega
        rw [if_pos h]
        omega
    rw [hr, adjust_eq]; rfl
  · rw [if_neg h, scan_eq hT g (by omega) hsl, sbind]
    dsimp only
    rw [Nat.mul_assoc] at hc
    rw [Nat.mul_assoc, Nat.add_sub_cancel' hc]
    by_cases h0 : i % 15 = 0
    · rw [if_pos h0, show i / 15 * 15 = i by omega, adjust_eq]; rfl
    · obtain ⟨d1, d2⟩ := decode_eq hT g (j := i / 15) (by omega)
      have hP := P_mono (n := 15) B hsl
      rw [if_neg h0, hT.sp _ hw, sbind, hp (by omega), Nat.add_sub_cancel' hP, d1, sbind, d2, sbind, Bits.loSet_eq (by omega), sbind,
        cnt_toNat, pop_mask (length_blk _ _ _) (by omega), ← hcb, adjust_eq]
      rfl

theorem rankQ_eq (hT : TabOk T) (g : Good tk B v) (htk : 1 ≤ tk) (tb : Bool) {i : Nat} (hi : i ≤ B.length) :
    rankQ T tk v tb i = some (cnt tb B i) := by
  have hM : 1 ≤ tk * 15 := Nat.mul_pos htk (by omega)
  have hsm : i / (tk * 15) * (tk * 15) ≤ i := super_mul_le
  have hss : i / (tk * 15) ≤ B.length / (tk * 15) := Nat.div_le_div_right hi
  have hlt : i < (i / (tk * 15) + 1) * (tk * 15) := by
    rw [Nat.mul_comm]; exact Nat.lt_mul_div_succ i hM
  have hbl : i / (tk * 15) < v.btnrp.xs.length := by rw [g.btnrpLen]; omega
  have hrl : i / (tk * 15) < v.rank.xs.length := by rw [g.rankLen]; omega
  have hb : v.btnrp.get (i / (tk * 15)) = some (v.btnrp.xs[i / (tk * 15)]) := List.getElem?_eq_getElem hbl
  have hscan := rankScan_eq hT g tb (p := v.btnrp.xs[i / (tk * 15)]) hi (fun h => by
    have h1 := g.btnrp _ h
    rw [List.getElem?_eq_getElem hbl] at h1
    exact Option.some.inj h1)
  unfold rankQ
  dsimp only
  rw [sp_tk, hb, sbind, show v.rank.get _ = _ from g.rank _ hrl, sbind]
  by_cases h1 : i / (tk * 15) + 1 < v.rank.xs.length
  · rw [if_pos h1, show v.rank.get _ = _ from g.rank _ h1, sbind]
    have c1 := cnt_mono true B hsm
    have c2 := cnt_mono true B (Nat.le_of_lt hlt)
    by_cases h2 : cnt true B ((i / (tk * 15) + 1) * (tk * 15)) - cnt true B (i / (tk * 15) * (tk * 15)) = 0
    · rw [if_pos h2, show cnt true B (i / (tk * 15) * (tk * 15)) = cnt true B i by omega, adjust_eq]; rfl
    · rw [if_neg h2]
      by_cases h3 : cnt true B ((i / (tk * 15) + 1) * (tk * 15)) - cnt true B (i / (tk * 15) * (tk * 15)) = 15 * tk
      · rw [if_pos h3]
        have s1 := cnt_step_le true B hsm
        have s2 := cnt_step_le true B (Nat.le_of_lt hlt)
        have e1 : (i / (tk * 15) + 1) * (tk * 15) = i / (tk * 15) * (tk * 15) + tk * 15 := Nat.succ_mul _ _
        have e2 : 15 * tk = tk * 15 := Nat.mul_comm _ _
        rw [Nat.mul_assoc, show cnt true B (i / (tk * 15) * (tk * 15)) + i - i / (tk * 15) * (tk * 15) = cnt true B i by omega,
          adjust_eq]
        rfl
      · rw [if_neg h3]; exact hscan
  · rw [if_neg h1]; exact hscan

/-! select -/

theorem selScan_eq (hT : TabOk T) (g : Good tk B v) (tb : Bool) {i p0 : Nat} (hmax : i ≤ cnt tb B B.length) {b : Nat}
    (hend : i ≤ cnt tb B ((b + 1) * (tk * 15))) :
    ∀ (fuel idx bt len : Nat), B.length / 15 + 2 ≤ fuel + idx → b * tk ≤ idx →
      (idx = b * tk ∨ (cnt tb B ((idx - 1) * 15) < i ∧ bt = wt (blk 15 B (idx - 1)) ∧ len = sp 15 (wt (blk 15 B (idx - 1))) ∧
        b * tk < idx)) →
      (idx = b * tk → cnt tb B (idx * 15) < i) →
      (P 15 B (b * tk) ≤ P 15 B idx) →
      ∃ idx', selScan T v tb i fuel idx bt (cnt tb B (idx * 15)) (p0 + (P 15 B idx - P 15 B (b * tk))) len =
        some (idx' + 1, wt (blk 15 B idx'), cnt tb B ((idx' + 1) * 15), p0 + (P 15 B (idx' + 1) - P 15 B (b * tk)),
          sp 15 (wt (blk 15 B idx'))) ∧ b * tk ≤ idx' ∧ cnt tb B (idx' * 15) < i ∧ i ≤ cnt tb B ((idx' + 1) * 15)
  | 0, idx, bt, len, hfu, hbi, hst, hst0, hPm => by
    exfalso
    rcases hst with h | ⟨h, _⟩
    · have h1 := hst0 h
      have h2 : idx * 15 < B.length := by
        apply Nat.lt_of_not_le
        intro hle
        have := cnt_mono tb B hle
        omega
      omega
    · have h2 : (idx - 1) * 15 < B.length := by
        apply Nat.lt_of_not_le
        intro hle
        have := cnt_mono tb B hle
        omega
      omega
  | fuel + 1, idx, bt, len, hfu, hbi, hst, hst0, hPm => by
    rw [selScan]
    by_cases h : i > cnt tb B (idx * 15)
    · rw [if_pos h]
      have h2 : idx * 15 < B.length := by
        apply Nat.lt_of_not_le
        intro hle
        have := cnt_mono tb B hle
        omega
      have hw := wt_blk_le 15 B idx
      rw [g.bt' (by omega), sbind, hT.sp _ hw, sbind]
      have hP1 : P 15 B (idx + 1) = P 15 B idx + sp 15 (wt (blk 15 B idx)) := rfl
      have e1 : cnt tb B (idx * 15) + (if tb = true then wt (blk 15 B idx) else 15 - wt (blk 15 B idx)) = cnt tb B ((idx + 1) * 15) := by
        cases tb
        · rw [cnt_next0]; rfl
        · rw [cnt_next]; rfl
      rw [e1, show p0 + (P 15 B idx - P 15 B (b * tk)) + sp 15 (wt (blk 15 B idx)) = p0 + (P 15 B (idx + 1) - P 15 B (b * tk)) by omega]
      exact selScan_eq hT g tb hmax hend fuel (idx + 1) _ _ (by omega) (by omega)
        (Or.inr ⟨by rw [Nat.add_sub_cancel]; exact h, by rw [Nat.add_sub_cancel], by rw [Nat.add_sub_cancel], by omega⟩)
        (fun h => by omega) (by omega)
    · rw [if_neg h]
      rcases hst with h1 | ⟨h1, h2, h3, h4⟩
      · exact absurd (hst0 h1) h
      · refine ⟨idx - 1, ?_, by omega, h1, ?_⟩
        · rw [Nat.sub_add_cancel (by omega), ← h3, ← h2]
        · rw [Nat.sub_add_cancel (by omega)]; omega

theorem rank_last (g : Good tk B v) (hM : 1 ≤ tk * 15) :
    B.length ≤ (v.rank.xs.length - 1) * (tk * 15) ∧
      (∀ s, s < v.rank.xs.length - 1 → s * (tk * 15) < B.length) ∧ 1 ≤ v.rank.xs.length := by
  have hl := g.rankLen
  have e := Nat.div_add_mod B.length (tk * 15)
  have hm := Nat.mod_lt B.length hM
  rw [Nat.mul_comm] at e
  generalize tk * 15 = M at *
  generalize B.length % M = r at *
  generalize B.length / M = d at *
  by_cases h : r > 0
  · rw [if_pos h] at hl
    rw [hl]
    refine ⟨?_, ?_, by omega⟩
    · rw [Nat.add_sub_cancel, Nat.succ_mul]; omega
    · intro s hs
      have : s ≤ d := by omega
      have := Nat.mul_le_mul_right M this
      omega
  · rw [if_neg h] at hl
    rw [hl]
    refine ⟨?_, ?_, by omega⟩
    · rw [Nat.add_zero, Nat.add_sub_cancel]; omega
    · intro s hs
      have : s + 1 ≤ d := by omega
      have := Nat.mul_le_mul_right M this
      rw [Nat.succ_mul] at this
      omega

theorem select1_eq (hT : TabOk T) (g : Good tk B v) (htk : 1 ≤ tk) {i : Nat} (h1 : 1 ≤ i)
    (h2 : i ≤ cnt true B B.length) : ∃ p, select1 T tk v i = some p ∧ IsSelect (fun p => bit B p == true) B.length i p := by
  have hM : 1 ≤ tk * 15 := Nat.mul_pos htk (by omega)
  obtain ⟨l1, l2, l3⟩ := rank_last g hM
  have hR : 1 ≤ v.rank.xs.length - 1 := by
    apply Nat.le_of_not_lt
    intro h
    have e : v.rank.xs.length - 1 = 0 := by omega
    rw [e] at l1
    have : B.length = 0 := by omega
    rw [this, cnt_zero] at h2
    omega
  unfold select1
  rw [show v.rank.get _ = _ from g.rank _ (show v.rank.xs.length - 1 < _ by omega), sbind, cnt_ge l1, if_neg (by omega)]
  obtain ⟨b, hb1, hb2, hb3, hb4⟩ := sampleSearch_eq (f := fun idx => v.rank.get idx) (F := fun s => cnt true B (s * (tk * 15)))
    (i := i) (hi := v.rank.xs.length - 1) (fun s hs => g.rank s (by omega)) v.rank.xs.length 0 (v.rank.xs.length - 1)
    (Nat.le_refl _) (by omega) (by omega) (by simp [cnt_zero]; omega) (by rw [cnt_ge l1]; exact h2)
  rw [hb1, sbind]
  dsimp only at hb3 hb4 ⊢
  have hbM := l2 b hb2
  unfold select1Tail
  rw [show v.rank.get _ = _ from g.rank b (by omega), sbind, show v.rank.get _ = _ from g.rank (b + 1) (by omega), sbind]
  have e1 : (b + 1) * (tk * 15) = b * (tk * 15) + tk * 15 := Nat.succ_mul _ _
  have e2 : 15 * tk = tk * 15 := Nat.mul_comm _ _
  by_cases h3 : cnt true B ((b + 1) * (tk * 15)) - cnt true B (b * (tk * 15)) = 15 * tk
  · rw [if_pos h3]
    have hrun := cnt_run (B := B) (tb := true) (show b * (tk * 15) ≤ (b + 1) * (tk * 15) by omega) (by omega) hb3 hb4
    refine ⟨_, rfl, ?_⟩
    rw [Nat.mul_assoc, show b * (tk * 15) + i - cnt true B (b * (tk * 15)) - 1 = b * (tk * 15) + (i - cnt true B (b * (tk * 15)) - 1) by omega]
    exact isSelect_of h2 hrun.1 hrun.2
  · rw [if_neg h3, show v.btnrp.get _ = _ from g.btnrp b hbM, sbind]
    obtain ⟨idx, hs1, hs2, hs3, hs4⟩ := selScan_eq hT g true (i := i) (p0 := P 15 B (b * tk)) h2 (b := b) hb4
      (v.bt.xs.length + 1) (b * tk) 0 0 (by rw [g.btLen]; omega) (Nat.le_refl _) (Or.inl rfl)
      (fun _ => by rw [Nat.mul_assoc]; exact hb3) (Nat.le_refl _)
    rw [Nat.sub_self, Nat.mul_assoc, Nat.add_zero (P 15 B (b * tk))] at hs1
    rw [hs1, sbind]
    dsimp only
    have hreal : idx * 15 < B.length := by
      apply Nat.lt_of_not_le
      intro hle
      have := cnt_mono true B hle
      omega
    obtain ⟨d1, d2⟩ := decode_eq hT g hreal
    have hP := P_mono (n := 15) B (show b * tk ≤ idx + 1 by omega)
    have hP1 : P 15 B (idx + 1) = P 15 B idx + sp 15 (wt (blk 15 B idx)) := rfl
    have hc := cnt_next (n := 15) B idx
    have hw := wt_blk_le 15 B idx
    have hpop := pop_val (length_blk 15 B idx)
    obtain ⟨p, hp1, hp2, hp3, hp4⟩ := Bits.sel_eq (x := BitVec.ofNat 64 (val (blk 15 B idx))) (i := i - cnt true B (idx * 15)) (by omega)
      (by omega)
    rw [show P 15 B (b * tk) + (P 15 B (idx + 1) - P 15 B (b * tk)) - sp 15 (wt (blk 15 B idx)) = P 15 B idx by omega,
      d1, sbind, d2, sbind,
      show cnt true B ((idx + 1) * 15) - wt (blk 15 B idx) = cnt true B (idx * 15) by omega, hp1, sbind]
    refine ⟨_, rfl, ?_⟩
    dsimp only at hp3
    rw [lsb_val (length_blk _ _ _) hp2] at hp3
    rw [countTrue_congr (g := fun q => bit (blk 15 B idx) q == true) (fun i hi => by rw [lsb_val (length_blk _ _ _) (by omega)]; simp)]
      at hp4
    have hp15 : p < 15 := by
      apply Nat.lt_of_not_le
      intro hle
      rw [bit_of_ge (by rw [length_blk]; exact hle)] at hp3
      cases hp3
    rw [Nat.add_sub_cancel]
    apply isSelect_of h2
    · rw [← bit_blk B idx hp15]; exact hp3
    · rw [cnt_blk true B idx (by omega)]
      have : cnt true (blk 15 B idx) p + 1 = i - cnt true B (idx * 15) := hp4
      omega

theorem select0_eq (hT : TabOk T) (g : Good tk B v) (htk : 1 ≤ tk) {i : Nat} (h1 : 1 ≤ i)
    (h2 : i ≤ cnt false B B.length) : ∃ p, select0 T tk v i = some p ∧ IsSelect (fun p => bit B p == false) B.length i p := by
  have hM : 1 ≤ tk * 15 := Nat.mul_pos htk (by omega)
  obtain ⟨l1, l2, l3⟩ := rank_last g hM
  have hR : 1 ≤ v.rank.xs.length - 1 := by
    apply Nat.le_of_not_lt
    intro h
    have e : v.rank.xs.length - 1 = 0 := by omega
    rw [e] at l1
    have : B.length = 0 := by omega
    rw [this, cnt_zero] at h2
    omega
  have hcomp := cnt_compl B B.length
  unfold select0
  rw [show v.rank.get _ = _ from g.rank _ (show v.rank.xs.length - 1 < _ by omega), sbind, cnt_ge l1, g.size, if_neg (by omega)]
  have hF : ∀ s, s * 15 * tk - cnt true B (s * (tk * 15)) = cnt false B (s * (tk * 15)) := by
    intro s
    have := cnt_compl B (s * (tk * 15))
    rw [Nat.mul_assoc, Nat.mul_comm 15 tk]; omega
  obtain ⟨b, hb1, hb2, hb3, hb4⟩ := sampleSearch_eq (f := fun idx => do let r ← v.rank.get idx; pure (idx * 15 * tk - r))
    (F := fun s => cnt false B (s * (tk * 15)))
    (i := i) (hi := v.rank.xs.length - 1) (fun s hs => by
      rw [show v.rank.get _ = _ from g.rank s (by omega), sbind, hF]; rfl) v.rank.xs.length 0 (v.rank.xs.length - 1)
    (Nat.le_refl _) (by omega) (by omega) (by simp [cnt_zero]; omega)
    (Nat.le_trans h2 (cnt_mono false B l1))
  rw [hb1, sbind]
  dsimp only at hb3 hb4 ⊢
  have hbM := l2 b hb2
  unfold select0Tail
  rw [show v.rank.get _ = _ from g.rank b (by omega), sbind, show v.rank.get _ = _ from g.rank (b + 1) (by omega), sbind]
  dsimp only
  rw [hF]
  have e1 : (b + 1) * (tk * 15) = b * (tk * 15) + tk * 15 := Nat.succ_mul _ _
  by_cases h3 : cnt true B ((b + 1) * (tk * 15)) = cnt true B (b * (tk * 15))
  · rw [if_pos h3]
    have ca := cnt_compl B (b * (tk * 15))
    have cb := cnt_compl B ((b + 1) * (tk * 15))
    have hrun := cnt_run (B := B) (tb := false) (show b * (tk * 15) ≤ (b + 1) * (tk * 15) by omega) (by omega) hb3 hb4
    refine ⟨_, rfl, ?_⟩
    rw [Nat.mul_assoc, show b * (tk * 15) + i - cnt false B (b * (tk * 15)) - 1 = b * (tk * 15) + (i - cnt false B (b * (tk * 15)) - 1) by omega]
    exact isSelect_of h2 hrun.1 hrun.2
  · rw [if_neg h3, show v.btnrp.get _ = _ from g.btnrp b hbM, sbind]
    obtain ⟨idx, hs1, hs2, hs3, hs4⟩ := selScan_eq hT g false (i := i) (p0 := P 15 B (b * tk)) h2 (b := b) hb4
      (v.bt.xs.length + 1) (b * tk) 0 0 (by rw [g.btLen]; omega) (Nat.le_refl _) (Or.inl rfl)
      (fun _ => by rw [Nat.mul_assoc]; exact hb3) (Nat.le_refl _)
    rw [Nat.sub_self, Nat.mul_assoc, Nat.add_zero (P 15 B (b * tk))] at hs1
    rw [hs1, sbind]
    dsimp only
    have hreal : idx * 15 < B.length := by
      apply Nat.lt_of_not_le
      intro hle
      have := cnt_mono false B hle
      omega
    obtain ⟨d1, d2⟩ := decode_eq hT g hreal
    have hP := P_mono (n := 15) B (show b * tk ≤ idx + 1 by omega)
    have hP1 : P 15 B (idx + 1) = P 15 B idx + sp 15 (wt (blk 15 B idx)) := rfl
    have hc := cnt_next0 (n := 15) B idx
    have hw := wt_blk_le 15 B idx
    have hlsb : ∀ q, q < 64 → (~~~ BitVec.ofNat 64 (val (blk 15 B idx))).getLsbD q = (bit (blk 15 B idx) q == false) := by
      intro q hq
      rw [BitVec.getLsbD_not, lsb_val (length_blk _ _ _) hq]
      cases bit (blk 15 B idx) q <;> simp [hq]
    have hcount : ∀ q, q ≤ 64 → countTrue (fun j => (~~~ BitVec.ofNat 64 (val (blk 15 B idx))).getLsbD j) q = cnt false (blk 15 B idx) q := by
      intro q hq
      exact countTrue_congr (fun j hj => hlsb j (by omega))
    have hcc := cnt_compl (blk 15 B idx) 15
    have hwt : cnt true (blk 15 B idx) 15 = wt (blk 15 B idx) := by
      have := cnt_all (blk 15 B idx) (q := 15) (by rw [length_blk]; omega)
      exact this
    have hpop : 15 - wt (blk 15 B idx) ≤ popcount (~~~ BitVec.ofNat 64 (val (blk 15 B idx))) := by
      have := hcount 64 (Nat.le_refl _)
      have h' := cnt_mono false (blk 15 B idx) (show 15 ≤ 64 by omega)
      unfold popcount
      omega
    obtain ⟨p, hp1, hp2, hp3, hp4⟩ := Bits.sel_eq (x := ~~~ BitVec.ofNat 64 (val (blk 15 B idx))) (i := i - cnt false B (idx * 15))
      (by omega) (by omega)
    dsimp only at hp3
    rw [hlsb p hp2] at hp3
    rw [hcount p (by omega)] at hp4
    rw [show P 15 B (b * tk) + (P 15 B (idx + 1) - P 15 B (b * tk)) - sp 15 (wt (blk 15 B idx)) = P 15 B idx by omega,
      d1, sbind, d2, sbind,
      show cnt false B ((idx + 1) * 15) - (15 - wt (blk 15 B idx)) = cnt false B (idx * 15) by omega, hp1, sbind]
    have hp15 : p < 15 := by
      apply Nat.lt_of_not_le
      intro hle
      have := cnt_mono false (blk 15 B idx) hle
      omega
    refine ⟨_, rfl, ?_⟩
    rw [Nat.add_sub_cancel]
    apply isSelect_of h2
    · rw [← bit_blk B idx hp15]; simpa using hp3
    · rw [cnt_blk false B idx (by omega)]; omega

theorem selectQ_none (g : Good tk B v) (htk : 1 ≤ tk) (tb : Bool) {i : Nat} (h : cnt tb B B.length < i) :
    selectQ T tk v tb i = some B.length := by
  have hM : 1 ≤ tk * 15 := Nat.mul_pos htk (by omega)
  obtain ⟨l1, l2, l3⟩ := rank_last g hM
  have hcomp := cnt_compl B B.length
  unfold selectQ
  cases tb
  · simp only [Bool.false_eq_true, if_false]
    unfold select0
    rw [show v.rank.get _ = _ from g.rank _ (show v.rank.xs.length - 1 < _ by omega), sbind, cnt_ge l1, g.size, if_pos (by omega)]
    rfl
  · simp only [if_true]
    unfold select1
    rw [show v.rank.get _ = _ from g.rank _ (show v.rank.xs.length - 1 < _ by omega), sbind, cnt_ge l1, g.size, if_pos (by omega)]
    rfl

end Sdsl.Rrr15
