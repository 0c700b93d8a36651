/-
  `hyb_vector`: access, rank and `get_int`.
-/
import Verif.HybBuild

namespace Sdsl.Hyb

open Bits Spec

theorem forward_spec {rate : Nat} (hr : 0 < rate) {v : IntVec} {nb : Nat} {sh trunk : List Nat} {S B sb : Nat} (h : ShOk rate v nb sh trunk S B) :
    ∀ (k i r : Nat), i + k ≤ rate → sb * rate + i + k ≤ B →
      forward sh k (sb * hs rate + 8 + i * 2) (T v (sb * rate + i)) r = some (sb * hs rate + 8 + (i + k) * 2, T v (sb * rate + i + k), r + (R v (sb * rate + i + k) - R v (sb * rate + i)))
  | 0, i, r, _, _ => by simp [forward]
  | k + 1, i, r, h1, h2 => by
    obtain ⟨y, y1, y2, y3⟩ := h.blocks (sb * rate + i) (by omega)
    have hp : hpos rate (sb * rate + i) = sb * hs rate + 8 + i * 2 := by
      rw [hpos, Nat.mul_comm sb rate, Nat.mul_add_div hr, Nat.div_eq_of_lt (by omega), Nat.mul_add_mod, Nat.mod_eq_of_lt (by omega), Nat.add_zero sb]
    rw [hp] at y1
    rw [forward, y1, hbind, show (2 : Nat) ^ 10 = 1024 from rfl, show (2 : Nat) ^ 9 = 512 from rfl, y3.enc, y3.ones]
    have ih := forward_spec hr (sb := sb) h k (i + 1) (r + countTrue (blk v (sb * rate + i)) 256) (by omega) (by omega)
    have hm := R_mono v (show sb * rate + i + 1 ≤ sb * rate + i + (k + 1) by omega)
    have hR := R_succ v (sb * rate + i)
    rw [show sb * hs rate + 8 + (i + 1) * 2 = sb * hs rate + 8 + i * 2 + 2 by omega, ← Nat.add_assoc (sb * rate) i 1, T, show sb * rate + i + 1 + k = sb * rate + i + (k + 1) by omega,
      show i + 1 + k = i + (k + 1) by omega] at ih
    rw [ih]
    congr 3
    omega

/-- The superblock of a block lies in one hblock. -/
theorem same_hblock {rate b nb : Nat} (hd : rate ∣ hRate ∨ nb ≤ hRate) (hb : b < nb) : b / rate * rate / hRate = b / hRate := by
  rcases hd with ⟨k, hk⟩ | hd
  · by_cases hr : rate = 0
    · rw [hr, Nat.zero_mul] at hk
      have := hRate_pos
      omega
    · rw [hk, ← Nat.div_div_eq_div_mul, Nat.mul_div_cancel _ (by omega), Nat.div_div_eq_div_mul]
  · have := div_le_mul b rate
    rw [Nat.div_eq_of_lt (show b / rate * rate < hRate by omega), Nat.div_eq_of_lt (show b < hRate by omega)]

/-- Everything the queries read for block `b`. -/
theorem lookups {rate : Nat} (hr : 0 < rate) {v : IntVec} {h : Hyb} (ok : Ok rate v h) (hd : rate ∣ hRate ∨ v.size ≤ 2 ^ 31) {b : Nat} (hb : 256 * b < v.size) :
    ∃ base hrk x sr y, h.hb[2 * (b / hRate)]? = some base ∧ h.hb[2 * (b / hRate) + 1]? = some hrk ∧ rd 4 h.sh (b / rate * hs rate) = some x ∧ rd 4 h.sh (b / rate * hs rate + 4) = some sr ∧
      hrk + sr = R v (b / rate * rate) ∧
      forward h.sh (b - b / rate * rate) (b / rate * hs rate + 8) (base + x % 2 ^ 30) 0 = some (hpos rate b, T v b, R v b - R v (b / rate * rate)) ∧ rd 2 h.sh (hpos rate b) = some y ∧
      Coded (blk v b) h.trunk (T v b) y (esz (blk v b)) ∧
      (x / 2 ^ 31 % 2 = 1 → ∃ u, h.sh[b / rate * hs rate + 9]? = some u ∧
        ((u % 2 = 0 ∧ R v (b / rate * rate + rate) = R v (b / rate * rate)) ∨ (u % 2 = 1 ∧ R v (b / rate * rate + rate) = R v (b / rate * rate) + 256 * rate))) := by
  have hbn : b < (v.size + 255) / 256 := by omega
  have hsame := same_hblock (rate := rate) (b := b) (nb := (v.size + 255) / 256) (by
    rcases hd with hd | hd
    · exact Or.inl hd
    · right; rw [hRate_eq]; omega) hbn
  have hle := div_le_mul b rate
  have hlt := lt_div_add b rate hr
  have hso := ok.sh.supers (b / rate) (by omega)
  have hhb := ok.hb.val (b / hRate) (by have := div_le_mul b hRate; omega)
  obtain ⟨x, x1, x2, x3, x4⟩ := hso.off
  have hrank := hso.rank
  rw [hsame] at x3 hrank
  obtain ⟨y, y1, y2, y3⟩ := ok.sh.blocks b hbn
  have hq : b / hRate * hRate ≤ b / rate * rate := by
    rw [← hsame]; exact div_le_mul _ _
  have m1 := T_mono v hq
  have m2 := R_mono v hq
  refine ⟨_, _, x, _, y, hhb.1, hhb.2, x1, hrank, by omega, ?_, y1, y3, ?_⟩
  · have hf := forward_spec hr (sb := b / rate) ok.sh (b - b / rate * rate) 0 0 (by omega) (by omega)
    rw [Nat.zero_mul, Nat.add_zero, Nat.add_zero (b / rate * rate), Nat.zero_add, Nat.zero_add, show b / rate * rate + (b - b / rate * rate) = b by omega] at hf
    have hp : b / rate * hs rate + 8 + (b - b / rate * rate) * 2 = hpos rate b := by
      have hdm := Nat.div_add_mod b rate
      rw [Nat.mul_comm] at hdm
      rw [hpos, show b - b / rate * rate = b % rate by omega]
    rw [hp] at hf
    rw [x3, show T v (b / hRate * hRate) + (T v (b / rate * rate) - T v (b / hRate * hRate)) = T v (b / rate * rate) by omega, hf]
  · intro hx
    obtain ⟨z1, z2⟩ := x4 hx
    obtain ⟨w, w1, w2, w3⟩ := ok.sh.blocks (b / rate * rate) (by omega)
    have hp0 : hpos rate (b / rate * rate) = b / rate * hs rate + 8 := by
      rw [hpos, Nat.mul_div_cancel _ hr, Nat.mul_mod_left, Nat.zero_mul, Nat.add_zero]
    rw [hp0] at w1
    have hu := rd_two w1 (fun a ha => ok.sh.bytes _ a ha)
    refine ⟨w / 256, hu, ?_⟩
    have ho := w3.ones
    have hR := R_succ v (b / rate * rate)
    have hcl := countTrue_le (blk v (b / rate * rate)) 256
    rcases z2 with z | z
    · left
      have := R_mono v (show b / rate * rate + 1 ≤ b / rate * rate + rate by omega)
      have hz : countTrue (blk v (b / rate * rate)) 256 = 0 := by omega
      rw [hz] at ho
      exact ⟨by omega, z⟩
    · right
      have := R_diff v (show b / rate * rate + 1 ≤ b / rate * rate + rate by omega)
      have hz : countTrue (blk v (b / rate * rate)) 256 = 256 := by omega
      rw [hz] at ho
      exact ⟨by omega, z⟩

/-- A stretch without ones. -/
theorem zeros_in {f : Nat → Bool} {a b : Nat} (h : countTrue f b = countTrue f a) {i : Nat} (h1 : a ≤ i) (h2 : i ≤ b) : countTrue f i = countTrue f a := by
  have := countTrue_mono f h1
  have := countTrue_mono f h2
  omega

theorem countTrue_diff (f : Nat → Bool) {a b : Nat} (h : a ≤ b) : countTrue f b ≤ countTrue f a + (b - a) := by
  have e := countTrue_add f a (b - a)
  rw [Nat.add_sub_cancel' h] at e
  have := countTrue_le (fun i => f (a + i)) (b - a)
  omega

/-- A stretch of ones. -/
theorem ones_in {f : Nat → Bool} {a b : Nat} (h : countTrue f b = countTrue f a + (b - a)) {i : Nat} (h1 : a ≤ i) (h2 : i ≤ b) : countTrue f i = countTrue f a + (i - a) := by
  have := countTrue_diff f h1
  have := countTrue_diff f h2
  omega

theorem rank1_spec {rate : Nat} (hr : 0 < rate) {v : IntVec} {h : Hyb} (ok : Ok rate v h) (hd : rate ∣ hRate ∨ v.size ≤ 2 ^ 31) {i : Nat} (hi : i ≤ v.size) : rank1 rate h i = some (countTrue (pb v) i) := by
  rw [rank1]
  by_cases c : i = 0
  · subst c; rfl
  · rw [if_neg c]
    obtain ⟨base, hrk, x, sr, y, e1, e2, e3, e4, e5, e6, e7, e8, e9⟩ := lookups hr ok hd (b := (i - 1) / 256) (by omega)
    generalize hb : (i - 1) / 256 = b at *
    dsimp only
    rw [e1, hbind, e2, hbind, e3, hbind, e4, hbind]
    have hle := div_le_mul b rate
    have hlt := lt_div_add b rate hr
    by_cases cf : x / 2 ^ 31 % 2 = 1
    · rw [if_pos cf]
      obtain ⟨u, u1, u2⟩ := e9 cf
      clear e9
      rw [u1, hbind, e5]
      show some _ = some _
      have hm : b / rate * (256 * rate) = 256 * (b / rate * rate) := by
        rw [Nat.mul_left_comm]
      rw [hm]
      congr 1
      rcases u2 with ⟨z1, z2⟩ | ⟨z1, z2⟩
      · rw [z1, Nat.zero_mul, Nat.add_zero]
        exact (zeros_in z2 (by omega) (by omega)).symm
      · rw [z1, Nat.one_mul]
        exact (ones_in (f := pb v) (a := 256 * (b / rate * rate)) (b := 256 * (b / rate * rate + rate)) (by
          rw [show 256 * (b / rate * rate + rate) - 256 * (b / rate * rate) = 256 * rate by omega]; exact z2) (by omega) (by omega)).symm
    · clear e9
      rw [if_neg cf, e6, hbind]
      dsimp only
      rw [e7, hbind, blockRank_spec e8 (by omega) (by omega), e5]
      have hm := R_mono v hle
      congr 1
      have := R_add v b (i - b * 256)
      rw [show 256 * b + (i - b * 256) = i by omega] at this
      omega

theorem access_spec {rate : Nat} (hr : 0 < rate) {v : IntVec} {h : Hyb} (ok : Ok rate v h) (hd : rate ∣ hRate ∨ v.size ≤ 2 ^ 31) {i : Nat} (hi : i < v.size) : access rate h i = some (bitAt v.data i) := by
  rw [access, access0, if_neg (Nat.succ_ne_zero i), Nat.add_sub_cancel]
  obtain ⟨base, hrk, x, sr, y, e1, e2, e3, e4, e5, e6, e7, e8, e9⟩ := lookups hr ok hd (b := i / 256) (by omega)
  have hpb : pb v i = bitAt v.data i := by rw [pb, decide_eq_true hi, Bool.true_and]
  generalize hb : i / 256 = b at *
  dsimp only
  rw [e1, hbind, e3, hbind]
  have hle := div_le_mul b rate
  have hlt := lt_div_add b rate hr
  by_cases cf : x / 2 ^ 31 % 2 = 1
  · rw [if_pos cf]
    obtain ⟨u, u1, u2⟩ := e9 cf
    clear e9
    rw [u1, hbind]
    show some _ = some _
    congr 1
    rw [← hpb]
    have hstep : countTrue (pb v) (i + 1) = countTrue (pb v) i + (pb v i).toNat := rfl
    rcases u2 with ⟨z1, z2⟩ | ⟨z1, z2⟩
    · have a1 := zeros_in z2 (i := i) (by omega) (by omega)
      have a2 := zeros_in z2 (i := i + 1) (by omega) (by omega)
      rw [decide_eq_false (by omega)]
      cases hp : pb v i with
      | false => rfl
      | true => rw [hp] at hstep; simp only [Bool.toNat_true] at hstep; omega
    · have z3 : countTrue (pb v) (256 * (b / rate * rate + rate)) = countTrue (pb v) (256 * (b / rate * rate)) + (256 * (b / rate * rate + rate) - 256 * (b / rate * rate)) := by
        rw [show 256 * (b / rate * rate + rate) - 256 * (b / rate * rate) = 256 * rate by omega]; exact z2
      have a1 := ones_in z3 (i := i) (by omega) (by omega)
      have a2 := ones_in z3 (i := i + 1) (by omega) (by omega)
      rw [decide_eq_true z1]
      cases hp : pb v i with
      | true => rfl
      | false => rw [hp] at hstep; simp only [Bool.toNat_false] at hstep; omega
  · clear e9
    rw [if_neg cf, e6, hbind]
    dsimp only
    rw [e7, hbind, blockAccess_spec e8 (by omega) (by omega)]
    congr 1
    rw [← hpb, show i + 1 - b * 256 - 1 = i - b * 256 by omega]
    show pb v (256 * b + (i - b * 256)) = _
    congr 1
    omega

theorem getLoop_spec {rate : Nat} (hr : 0 < rate) {v : IntVec} {h : Hyb} (ok : Ok rate v h) (hd : rate ∣ hRate ∨ v.size ≤ 2 ^ 31) {idx len : Nat} (hlen : len ≤ 64) (hi : idx + len ≤ v.size) :
    ∀ (k : Nat) (res : Word), k ≤ len → (∀ j, j < 64 → res.getLsbD j = (decide (j < len - k) && bitAt v.data (idx + k + j))) →
      ∃ w, getLoop rate h idx k res = some w ∧ ∀ j, j < 64 → w.getLsbD j = (decide (j < len) && bitAt v.data (idx + j))
  | 0, res, _, h2 => ⟨res, rfl, h2⟩
  | k + 1, res, h1, h2 => by
    rw [getLoop, access_spec hr ok hd (by omega), hbind]
    refine getLoop_spec hr ok hd hlen hi k _ (by omega) (fun j hj => ?_)
    rw [BitVec.getLsbD_or, BitVec.getLsbD_shiftLeft]
    by_cases c : j = 0
    · subst c
      have e : ∀ b : Bool, (if b then 1#64 else 0#64 : Word).getLsbD 0 = b := by intro b; cases b <;> rfl
      rw [e, decide_eq_true (show 0 < len - k by omega)]
      simp
    · have e : ∀ b : Bool, (if b then 1#64 else 0#64 : Word).getLsbD j = false := by
        intro b
        cases b
        · simp
        · rw [if_pos rfl, BitVec.getLsbD_one]; simp [c]
      rw [e, h2 (j - 1) (by omega), Bool.or_false, show idx + (k + 1) + (j - 1) = idx + k + j by omega]
      have e2 : decide (j - 1 < len - (k + 1)) = decide (j < len - k) := by
        by_cases d : j < len - k
        · rw [decide_eq_true d, decide_eq_true (by omega)]
        · rw [decide_eq_false d, decide_eq_false (by omega)]
      rw [e2, decide_eq_true hj, decide_eq_false (show ¬ j < 1 by omega)]
      rfl

theorem getInt_spec {rate : Nat} (hr : 0 < rate) {v : IntVec} {h : Hyb} (ok : Ok rate v h) (hd : rate ∣ hRate ∨ v.size ≤ 2 ^ 31) {idx len : Nat} (hlen : len ≤ 64) (hi : idx + len ≤ v.size) :
    ∃ w, getInt rate h idx len = some w ∧ w.toNat = field v.data idx len := by
  obtain ⟨w, w1, w2⟩ := getLoop_spec hr ok hd hlen hi len 0#64 (Nat.le_refl _) (fun j _ => by simp)
  refine ⟨w, w1, ?_⟩
  apply Nat.eq_of_testBit_eq
  intro j
  rw [testBit_field, BitVec.testBit_toNat]
  by_cases c : j < 64
  · exact w2 j c
  · rw [BitVec.getLsbD_of_ge _ _ (by omega), decide_eq_false (by omega), Bool.false_and]

end Sdsl.Hyb
