/-
  Lemmas about the wide integer types.
-/
import Verif.Wide
import Verif.UtilLemmas
import Verif.BitsSel
import Verif.BitsCount
import Verif.SpecLemmas

namespace Sdsl

open Bits Spec

namespace Wide

theorem lt_iff {a b : Word} : a < b ↔ a.toNat < b.toNat := BitVec.lt_def
theorem le_iff {a b : Word} : a ≤ b ↔ a.toNat ≤ b.toNat := BitVec.le_def

theorem ne_iff {a b : Word} : a ≠ b ↔ a.toNat ≠ b.toNat := by
  constructor
  · exact fun h e => h (BitVec.eq_of_toNat_eq e)
  · exact fun h e => h (by rw [e])

/-- Bits of a number given by two parts. -/
theorem testBit_cat {h l k : Nat} (hl : l < 2 ^ k) (j : Nat) : (2 ^ k * h + l).testBit j = if j < k then l.testBit j else h.testBit (j - k) :=
  Nat.testBit_two_pow_mul_add h hl j

theorem or_cat {h l h' l' k : Nat} (hl : l < 2 ^ k) (hl' : l' < 2 ^ k) : 2 ^ k * (h ||| h') + (l ||| l') = (2 ^ k * h + l) ||| (2 ^ k * h' + l') := by
  apply Nat.eq_of_testBit_eq
  intro j
  rw [testBit_cat (Nat.or_lt_two_pow hl hl'), Nat.testBit_or (2 ^ k * h + l), testBit_cat hl, testBit_cat hl']
  split <;> rw [Nat.testBit_or]

theorem and_cat {h l h' l' k : Nat} (hl : l < 2 ^ k) (hl' : l' < 2 ^ k) : 2 ^ k * (h &&& h') + (l &&& l') = (2 ^ k * h + l) &&& (2 ^ k * h' + l') := by
  apply Nat.eq_of_testBit_eq
  intro j
  rw [testBit_cat (Nat.and_lt_two_pow _ hl'), Nat.testBit_and (2 ^ k * h + l), testBit_cat hl, testBit_cat hl']
  split <;> rw [Nat.testBit_and]

theorem countTrue_cat {h l k : Nat} (hl : l < 2 ^ k) (m : Nat) :
    countTrue (fun j => (2 ^ k * h + l).testBit j) (k + m) = countTrue (fun j => l.testBit j) k + countTrue (fun j => h.testBit j) m := by
  rw [countTrue_add]
  congr 1
  · apply countTrue_congr
    intro j hj
    rw [testBit_cat hl, if_pos hj]
  · apply countTrue_congr
    intro j hj
    rw [testBit_cat hl, if_neg (by omega), show k + j - k = j by omega]

theorem getLsbD_testBit (w : Word) (j : Nat) : w.getLsbD j = w.toNat.testBit j := rfl

theorem cnt_toNat (w : Word) : (cnt w).toNat = countTrue (fun j => w.toNat.testBit j) 64 := by
  rw [cnt_eq, BitVec.toNat_ofNat]
  have : popcount w ≤ 64 := by unfold popcount; exact countTrue_le _ _
  rw [Nat.mod_eq_of_lt (by omega)]
  rfl

theorem sel_ok {w : Word} {i : Nat} (h1 : 1 ≤ i) (h2 : i ≤ countTrue (fun j => w.toNat.testBit j) 64) :
    ∃ p, sel w i = some p ∧ IsSelect (fun j => w.toNat.testBit j) 64 i p := sel_eq h1 h2

theorem hi_toNat (w : Word) : Bits.hi w = some w.toNat.log2 := hi_eq w

theorem log2_cat {h l k : Nat} (hl : l < 2 ^ k) (hh : h ≠ 0) : (2 ^ k * h + l).log2 = h.log2 + k := by
  have h1 := Nat.log2_self_le hh
  have h2 := Nat.lt_log2_self (n := h)
  have hp : 0 < 2 ^ k := Nat.two_pow_pos k
  have hne : 2 ^ k * h + l ≠ 0 := by
    have := Nat.mul_pos hp (Nat.pos_of_ne_zero hh)
    omega
  rw [Nat.log2_eq_iff hne]
  have e1 : 2 ^ (h.log2 + k) = 2 ^ k * 2 ^ h.log2 := by rw [Nat.pow_add, Nat.mul_comm]
  have e2 : 2 ^ (h.log2 + k + 1) = 2 ^ k * 2 ^ (h.log2 + 1) := by rw [show h.log2 + k + 1 = h.log2 + 1 + k by omega, Nat.pow_add, Nat.mul_comm]
  rw [e1, e2]
  have h3 := Nat.mul_le_mul_left (2 ^ k) h1
  have h4 : 2 ^ k * (h + 1) ≤ 2 ^ k * 2 ^ (h.log2 + 1) := Nat.mul_le_mul_left (2 ^ k) h2
  rw [Nat.mul_add] at h4
  constructor <;> omega

/-- Select in a number of two parts. -/
theorem select_lo {h l k m i p : Nat} (hl : l < 2 ^ k) (hs : IsSelect (fun j => l.testBit j) k i p) :
    IsSelect (fun j => (2 ^ k * h + l).testBit j) (k + m) i p := by
  obtain ⟨h1, h2, h3⟩ := hs
  refine ⟨by omega, ?_, ?_⟩
  · show Nat.testBit _ _ = true
    rw [testBit_cat hl, if_pos h1]; exact h2
  · rw [← h3]
    congr 1
    apply countTrue_congr
    intro j hj
    rw [testBit_cat hl, if_pos (by omega)]

theorem select_hi {h l k m i p : Nat} (hl : l < 2 ^ k) (hs : IsSelect (fun j => h.testBit j) m i p) :
    IsSelect (fun j => (2 ^ k * h + l).testBit j) (k + m) (i + countTrue (fun j => l.testBit j) k) (p + k) := by
  obtain ⟨h1, h2, h3⟩ := hs
  refine ⟨by omega, ?_, ?_⟩
  · show Nat.testBit _ _ = true
    rw [testBit_cat hl, if_neg (by omega), show p + k - k = p by omega]; exact h2
  · rw [Nat.add_comm p k, countTrue_cat hl]
    omega

end Wide

open Wide

namespace U128

/-- The number represented. -/
def val (x : U128) : Nat := 2 ^ 64 * x.hi.toNat + x.lo.toNat

theorem val_lt (x : U128) : x.val < 2 ^ 128 := by
  have := x.hi.isLt; have := x.lo.isLt
  unfold val
  omega

theorem add_val (x y : U128) : (x.add y).val = (x.val + y.val) % 2 ^ 128 := by
  have := x.hi.isLt; have := x.lo.isLt; have := y.hi.isLt; have := y.lo.isLt
  unfold add val
  dsimp only
  by_cases c : x.lo + y.lo < x.lo
  · rw [if_pos c]
    rw [lt_iff, BitVec.toNat_add] at c
    simp only [BitVec.toNat_add, BitVec.toNat_ofNat]
    omega
  · rw [if_neg c]
    rw [lt_iff, BitVec.toNat_add] at c
    simp only [BitVec.toNat_add, BitVec.toNat_ofNat]
    omega

theorem addWord_val (x : U128) (y : Word) : (x.addWord y).val = (x.val + y.toNat) % 2 ^ 128 := by
  have := x.hi.isLt; have := x.lo.isLt; have := y.isLt
  unfold addWord val
  dsimp only
  by_cases c : x.lo + y < x.lo
  · rw [if_pos c]
    rw [lt_iff, BitVec.toNat_add] at c
    simp only [BitVec.toNat_add, BitVec.toNat_ofNat]
    omega
  · rw [if_neg c]
    rw [lt_iff, BitVec.toNat_add] at c
    simp only [BitVec.toNat_add, BitVec.toNat_ofNat]
    omega

theorem sub_val (x y : U128) : (x.sub y).val = (x.val + (2 ^ 128 - y.val)) % 2 ^ 128 := by
  have := x.hi.isLt; have := x.lo.isLt; have := y.hi.isLt; have := y.lo.isLt
  unfold sub val
  dsimp only
  by_cases c : x.lo - y.lo > x.lo
  · rw [if_pos c]
    have c : x.lo.toNat < (x.lo - y.lo).toNat := lt_iff.1 c
    rw [BitVec.toNat_sub] at c
    simp only [BitVec.toNat_sub, BitVec.toNat_ofNat]
    omega
  · rw [if_neg c]
    have c : ¬x.lo.toNat < (x.lo - y.lo).toNat := fun h => c (lt_iff.2 h)
    rw [BitVec.toNat_sub] at c
    simp only [BitVec.toNat_sub, BitVec.toNat_ofNat]
    omega

theorem not_val (x : U128) : x.not.val = 2 ^ 128 - 1 - x.val := by
  have := x.hi.isLt; have := x.lo.isLt
  unfold not val
  simp only [BitVec.toNat_not]
  omega

theorem or_val (x y : U128) : (x.or y).val = x.val ||| y.val := by
  unfold or val
  simp only [BitVec.toNat_or]
  exact or_cat x.lo.isLt y.lo.isLt

theorem orWord_val (x : U128) (y : Word) : (x.orWord y).val = x.val ||| y.toNat := by
  unfold orWord val
  simp only [BitVec.toNat_or]
  have := or_cat (h := x.hi.toNat) (h' := 0) x.lo.isLt y.isLt
  rw [Nat.or_zero, Nat.mul_zero, Nat.zero_add] at this
  exact this

theorem and_val (x y : U128) : (x.and y).val = x.val &&& y.val := by
  unfold and val
  simp only [BitVec.toNat_and]
  exact and_cat x.lo.isLt y.lo.isLt

theorem testBit_val (x : U128) (j : Nat) : x.val.testBit j = if j < 64 then x.lo.getLsbD j else x.hi.getLsbD (j - 64) := testBit_cat x.lo.isLt j

theorem shl_val (x : U128) {n : Nat} (hn : n ≤ 128) : ∃ y, x.shl n = some y ∧ y.val = x.val * 2 ^ n % 2 ^ 128 := by
  have key : ∀ y : U128, (∀ j, j < 128 → (if j < 64 then y.lo.getLsbD j else y.hi.getLsbD (j - 64)) = (decide (n ≤ j) && x.val.testBit (j - n))) →
      y.val = x.val * 2 ^ n % 2 ^ 128 := by
    intro y h
    apply Nat.eq_of_testBit_eq
    intro j
    rw [Nat.testBit_mod_two_pow, Nat.testBit_mul_two_pow]
    by_cases c : j < 128
    · rw [testBit_val, h j c]
      simp [c]
    · rw [Nat.testBit_lt_two_pow (Nat.lt_of_lt_of_le y.val_lt (Nat.pow_le_pow_right (by omega) (by omega)))]
      simp [c]
  unfold shl
  by_cases c : n < 64
  · rw [if_pos c, shl_of_lt c, sbind, shr_of_lt (by omega), sbind, shr_of_lt (by omega), sbind, shl_of_lt c, sbind]
    refine ⟨_, rfl, key _ fun j hj => ?_⟩
    rw [testBit_val]
    dsimp only
    by_cases c1 : j < 64
    · rw [if_pos c1, BitVec.getLsbD_shiftLeft, if_pos (by omega)]
      by_cases c2 : j < n
      · rw [decide_eq_true c1, decide_eq_true c2, decide_eq_false (by omega : ¬n ≤ j)]; rfl
      · rw [decide_eq_true c1, decide_eq_false c2, decide_eq_true (by omega : n ≤ j)]; simp
    · rw [if_neg c1, BitVec.getLsbD_or, BitVec.getLsbD_shiftLeft, BitVec.getLsbD_ushiftRight, BitVec.getLsbD_ushiftRight, decide_eq_true (by omega : j - 64 < 64),
        decide_eq_true (by omega : n ≤ j)]
      by_cases c2 : j - 64 < n
      · rw [if_pos (by omega), decide_eq_true c2, show 63 - n + (1 + (j - 64)) = j - n by omega]; simp
      · rw [if_neg (by omega), decide_eq_false c2, BitVec.getLsbD_of_ge _ (63 - n + (1 + (j - 64))) (by omega), show j - n - 64 = j - 64 - n by omega]; simp
  · rw [if_neg c]
    by_cases c0 : n = 128
    · rw [if_pos c0, sbind]
      refine ⟨_, rfl, key _ fun j hj => ?_⟩
      rw [decide_eq_false (by omega)]
      simp
    · rw [if_neg c0, shl_of_lt (by omega), sbind]
      refine ⟨_, rfl, key _ fun j hj => ?_⟩
      rw [testBit_val]
      dsimp only
      by_cases c1 : j < 64
      · rw [if_pos c1, decide_eq_false (by omega : ¬n ≤ j)]; simp
      · rw [if_neg c1, BitVec.getLsbD_shiftLeft, if_pos (by omega), decide_eq_true (by omega : j - 64 < 64)]
        by_cases c2 : j < n
        · rw [decide_eq_true (by omega : j - 64 < n - 64), decide_eq_false (by omega : ¬n ≤ j)]; rfl
        · rw [decide_eq_false (by omega : ¬j - 64 < n - 64), decide_eq_true (by omega : n ≤ j), show j - 64 - (n - 64) = j - n by omega]; simp

theorem shr_val (x : U128) {n : Nat} (hn : n ≤ 128) : ∃ y, x.shr n = some y ∧ y.val = x.val / 2 ^ n := by
  have key : ∀ y : U128, (∀ j, j < 128 → (if j < 64 then y.lo.getLsbD j else y.hi.getLsbD (j - 64)) = x.val.testBit (n + j)) →
      y.val = x.val / 2 ^ n := by
    intro y h
    apply Nat.eq_of_testBit_eq
    intro j
    rw [Nat.testBit_div_two_pow, Nat.add_comm j n]
    by_cases c : j < 128
    · rw [testBit_val, h j c]
    · rw [Nat.testBit_lt_two_pow (Nat.lt_of_lt_of_le y.val_lt (Nat.pow_le_pow_right (by omega) (by omega))),
        Nat.testBit_lt_two_pow (Nat.lt_of_lt_of_le x.val_lt (Nat.pow_le_pow_right (by omega) (by omega)))]
  unfold shr
  by_cases c : n < 64
  · rw [if_pos c, shr_of_lt c, sbind, shl_of_lt (by omega), sbind, shl_of_lt (by omega), sbind, shr_of_lt c, sbind]
    refine ⟨_, rfl, key _ fun j hj => ?_⟩
    rw [testBit_val]
    dsimp only
    by_cases c1 : j < 64
    · rw [if_pos c1, BitVec.getLsbD_or, BitVec.getLsbD_shiftLeft, BitVec.getLsbD_shiftLeft, BitVec.getLsbD_ushiftRight, decide_eq_true c1]
      by_cases c2 : n + j < 64
      · rw [if_pos c2]
        by_cases c3 : j < 1
        · rw [decide_eq_true c3]; simp
        · rw [decide_eq_false c3, decide_eq_true (by omega : j - 1 < 64), decide_eq_true (by omega : j - 1 < 63 - n)]; simp
      · rw [if_neg c2, BitVec.getLsbD_of_ge x.lo _ (by omega), decide_eq_false (by omega : ¬j < 1), decide_eq_true (by omega : j - 1 < 64),
          decide_eq_false (by omega : ¬j - 1 < 63 - n), show j - 1 - (63 - n) = n + j - 64 by omega]; simp
    · rw [if_neg c1, BitVec.getLsbD_ushiftRight, if_neg (by omega), show n + (j - 64) = n + j - 64 by omega]
  · rw [if_neg c]
    by_cases c0 : n = 128
    · rw [if_pos c0, sbind]
      refine ⟨_, rfl, key _ fun j hj => ?_⟩
      rw [testBit_val, if_neg (by omega : ¬n + j < 64), BitVec.getLsbD_of_ge x.hi _ (by omega)]
      simp
    · rw [if_neg c0, shr_of_lt (by omega), sbind]
      refine ⟨_, rfl, key _ fun j hj => ?_⟩
      rw [testBit_val, if_neg (by omega : ¬n + j < 64)]
      dsimp only
      by_cases c1 : j < 64
      · rw [if_pos c1, BitVec.getLsbD_ushiftRight, show n - 64 + j = n + j - 64 by omega]
      · rw [if_neg c1, BitVec.getLsbD_of_ge x.hi _ (by omega)]; simp

theorem toNat_eq {a b : Word} (h : a.toNat = b.toNat) : a = b := BitVec.eq_of_toNat_eq h

theorem eq_val (x y : U128) : x.eq y = decide (x.val = y.val) := by
  have := x.hi.isLt; have := x.lo.isLt; have := y.hi.isLt; have := y.lo.isLt
  unfold eq val
  rw [Bool.eq_iff_iff, Bool.and_eq_true, beq_iff_eq, beq_iff_eq, decide_eq_true_iff]
  constructor
  · rintro ⟨h1, h2⟩; rw [h1, h2]
  · intro h
    exact ⟨toNat_eq (by omega), toNat_eq (by omega)⟩

theorem eqWord_val (x : U128) (y : Word) : x.eqWord y = decide (x.val = y.toNat) := by
  have := x.hi.isLt; have := x.lo.isLt; have := y.isLt
  unfold eqWord val
  rw [Bool.eq_iff_iff, Bool.and_eq_true, beq_iff_eq, beq_iff_eq, decide_eq_true_iff]
  constructor
  · rintro ⟨h1, h2⟩; rw [h1, h2]; simp
  · intro h
    exact ⟨toNat_eq (by omega), toNat_eq (by rw [BitVec.toNat_ofNat]; omega)⟩

theorem lt_val (x y : U128) : x.lt y = decide (x.val < y.val) := by
  have := x.hi.isLt; have := x.lo.isLt; have := y.hi.isLt; have := y.lo.isLt
  unfold lt val
  by_cases c : x.hi ≠ y.hi
  · rw [if_pos c, decide_eq_decide, lt_iff]
    rw [ne_iff] at c
    omega
  · rw [if_neg c, decide_eq_decide, lt_iff]
    rw [ne_iff] at c
    omega

theorem gt_val (x y : U128) : x.gt y = decide (y.val < x.val) := by
  rw [← lt_val]
  unfold gt lt
  by_cases c : x.hi = y.hi
  · rw [if_neg (by simp [c]), if_neg (by simp [c])]
  · rw [if_pos c, if_pos (Ne.symm c)]

theorem le_val (x y : U128) : x.le y = decide (x.val ≤ y.val) := by
  have := x.hi.isLt; have := x.lo.isLt; have := y.hi.isLt; have := y.lo.isLt
  unfold le val
  by_cases c : x.hi ≠ y.hi
  · rw [if_pos c, decide_eq_decide, lt_iff]
    rw [ne_iff] at c
    omega
  · rw [if_neg c, decide_eq_decide, le_iff]
    rw [ne_iff] at c
    omega

theorem ge_val (x y : U128) : x.ge y = decide (y.val ≤ x.val) := by
  rw [← le_val]
  unfold ge le
  by_cases c : x.hi = y.hi
  · rw [if_neg (by simp [c]), if_neg (by simp [c])]
  · rw [if_pos c, if_pos (Ne.symm c)]

theorem gtWord_val (x : U128) (y : Word) : x.gtWord y = decide (y.toNat < x.val) := by
  have := x.hi.isLt; have := x.lo.isLt; have := y.isLt
  unfold gtWord val
  by_cases c : x.hi > 0#64
  · rw [if_pos c, eq_comm, decide_eq_true_iff]
    have : 0 < x.hi.toNat := lt_iff.1 c
    omega
  · rw [if_neg c, decide_eq_decide]
    have h0 : ¬0 < x.hi.toNat := fun h => c (lt_iff.2 h)
    show y < x.lo ↔ _
    rw [lt_iff]
    omega

theorem popcount_val (x : U128) : x.popcount = countTrue (fun j => x.val.testBit j) 128 := by
  unfold popcount val
  rw [show (128 : Nat) = 64 + 64 from rfl, countTrue_cat x.lo.isLt, cnt_toNat, cnt_toNat]
  have h1 := countTrue_le (fun j => x.lo.toNat.testBit j) 64
  have h2 := countTrue_le (fun j => x.hi.toNat.testBit j) 64
  omega

theorem hiBit_val (x : U128) : x.hiBit = some x.val.log2 := by
  unfold hiBit val
  by_cases c : x.hi = 0#64
  · rw [if_pos c, hi_toNat, c]; simp
  · rw [if_neg c, hi_toNat, sbind, log2_cat x.lo.isLt (by
      intro h
      exact c (toNat_eq h))]
    rfl

theorem select_val (x : U128) {i : Nat} (h1 : 1 ≤ i) (h2 : i ≤ countTrue (fun j => x.val.testBit j) 128) :
    ∃ p, x.select i = some p ∧ IsSelect (fun j => x.val.testBit j) 128 i p := by
  have e : countTrue (fun j => x.val.testBit j) 128 = _ := countTrue_cat (h := x.hi.toNat) x.lo.isLt 64
  rw [e] at h2
  unfold select
  by_cases c : (cnt x.lo).toNat ≥ i
  · rw [if_pos c]
    rw [cnt_toNat] at c
    obtain ⟨p, hp1, hp2⟩ := sel_ok h1 c
    exact ⟨p, hp1, select_lo (m := 64) x.lo.isLt hp2⟩
  · rw [if_neg c]
    rw [cnt_toNat] at c ⊢
    obtain ⟨p, hp1, hp2⟩ := sel_ok (w := x.hi) (i := i - countTrue (fun j => x.lo.toNat.testBit j) 64) (by omega) (by omega)
    rw [hp1, sbind]
    refine ⟨_, rfl, ?_⟩
    have := select_hi (k := 64) x.lo.isLt hp2
    rw [Nat.sub_add_cancel (by omega)] at this
    exact this

end U128

end Sdsl
