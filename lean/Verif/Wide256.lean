/-
  Lemmas about `uint256_t`, for both representations of `uint128_t`.
-/
import Verif.WideLemmas

namespace Sdsl

open Bits Spec Wide

namespace Wide

theorem shl_cat {h l k n : Nat} (hl : l < 2 ^ k) (hn : n ≤ k) :
    2 ^ k * ((h * 2 ^ n % 2 ^ k) ||| (l / 2 ^ (k - n))) + l * 2 ^ n % 2 ^ k = (2 ^ k * h + l) * 2 ^ n % 2 ^ (k + k) := by
  apply Nat.eq_of_testBit_eq
  intro j
  rw [testBit_cat (Nat.mod_lt _ (Nat.two_pow_pos k)), Nat.testBit_mod_two_pow, Nat.testBit_mod_two_pow, Nat.testBit_or, Nat.testBit_mod_two_pow,
    Nat.testBit_mul_two_pow, Nat.testBit_mul_two_pow, Nat.testBit_mul_two_pow, Nat.testBit_div_two_pow, testBit_cat hl]
  by_cases c1 : j < k
  · rw [if_pos c1, decide_eq_true c1, decide_eq_true (by omega : j < k + k), if_pos (by omega)]
  · rw [if_neg c1]
    by_cases c2 : j < k + k
    · rw [decide_eq_true c2, decide_eq_true (by omega : j - k < k), decide_eq_true (by omega : n ≤ j)]
      by_cases c3 : j - n < k
      · rw [if_pos c3, decide_eq_false (by omega : ¬n ≤ j - k), show j - k + (k - n) = j - n by omega]; simp
      · rw [if_neg c3, decide_eq_true (by omega : n ≤ j - k), Nat.testBit_lt_two_pow (x := l) (i := j - k + (k - n))
          (Nat.lt_of_lt_of_le hl (Nat.pow_le_pow_right (by omega) (by omega))), show j - k - n = j - n - k by omega]; simp
    · rw [decide_eq_false c2, decide_eq_false (by omega : ¬j - k < k), Nat.testBit_lt_two_pow (x := l) (i := j - k + (k - n))
          (Nat.lt_of_lt_of_le hl (Nat.pow_le_pow_right (by omega) (by omega)))]; simp

theorem shl_cat_big {h l k n : Nat} (hl : l < 2 ^ k) (hn : k ≤ n) :
    2 ^ k * (l * 2 ^ (n - k) % 2 ^ k) = (2 ^ k * h + l) * 2 ^ n % 2 ^ (k + k) := by
  apply Nat.eq_of_testBit_eq
  intro j
  rw [Nat.testBit_two_pow_mul, Nat.testBit_mod_two_pow, Nat.testBit_mod_two_pow, Nat.testBit_mul_two_pow, Nat.testBit_mul_two_pow, testBit_cat hl]
  by_cases c1 : j < n
  · rw [decide_eq_false (by omega : ¬n ≤ j)]
    by_cases c0 : j < k
    · rw [decide_eq_false (by omega : ¬j ≥ k)]; simp
    · rw [decide_eq_false (by omega : ¬n - k ≤ j - k)]; simp
  · by_cases c2 : j < k + k
    · rw [decide_eq_true c2, decide_eq_true (by omega : n ≤ j), decide_eq_true (by omega : n - k ≤ j - k), decide_eq_true (by omega : j - k < k),
        decide_eq_true (by omega : j ≥ k), if_pos (by omega), show j - k - (n - k) = j - n by omega]; simp
    · rw [decide_eq_false c2, decide_eq_false (by omega : ¬j - k < k)]; simp

theorem shr_cat {h l k n : Nat} (hl : l < 2 ^ k) (hn : n < k) :
    2 ^ k * (h / 2 ^ n) + ((l / 2 ^ n) ||| (h * 2 ^ (k - 1 - n) % 2 ^ k * 2 ^ 1 % 2 ^ k)) = (2 ^ k * h + l) / 2 ^ n := by
  apply Nat.eq_of_testBit_eq
  intro j
  rw [testBit_cat (Nat.or_lt_two_pow (Nat.lt_of_le_of_lt (Nat.div_le_self _ _) hl) (Nat.mod_lt _ (Nat.two_pow_pos k))), Nat.testBit_or, Nat.testBit_div_two_pow,
    Nat.testBit_div_two_pow, Nat.testBit_div_two_pow, Nat.testBit_mod_two_pow, Nat.testBit_mul_two_pow, Nat.testBit_mod_two_pow, Nat.testBit_mul_two_pow, testBit_cat hl]
  by_cases c1 : j < k
  · rw [if_pos c1, decide_eq_true c1]
    by_cases c2 : j + n < k
    · rw [if_pos c2]
      by_cases c3 : 1 ≤ j
      · rw [decide_eq_false (by omega : ¬k - 1 - n ≤ j - 1)]; simp
      · rw [decide_eq_false c3]; simp
    · rw [if_neg c2, decide_eq_true (by omega : 1 ≤ j), decide_eq_true (by omega : j - 1 < k), decide_eq_true (by omega : k - 1 - n ≤ j - 1),
        Nat.testBit_lt_two_pow (x := l) (i := j + n) (Nat.lt_of_lt_of_le hl (Nat.pow_le_pow_right (by omega) (by omega))),
        show j - 1 - (k - 1 - n) = j + n - k by omega]; simp
  · rw [if_neg c1, if_neg (by omega), show j - k + n = j + n - k by omega]

theorem shr_cat_big {h l k n : Nat} (hl : l < 2 ^ k) (hn : k ≤ n) : h / 2 ^ (n - k) = (2 ^ k * h + l) / 2 ^ n := by
  apply Nat.eq_of_testBit_eq
  intro j
  rw [Nat.testBit_div_two_pow, Nat.testBit_div_two_pow, testBit_cat hl, if_neg (by omega), show j + (n - k) = j + n - k by omega]

theorem countTrue_128 {h l : Nat} (hl : l < 2 ^ 64) :
    countTrue (fun j => (2 ^ 64 * h + l).testBit j) 128 = countTrue (fun j => l.testBit j) 64 + countTrue (fun j => h.testBit j) 64 := countTrue_cat hl 64

end Wide

/-- The operations on `uint128_t` compute what they should; shifts by up to `mx`. -/
structure Lawful {α : Type} (o : Ops α) (val : α → Nat) (mx : Nat) : Prop where
  hmx : 127 ≤ mx ∧ mx ≤ 128
  lt : ∀ x, val x < 2 ^ 128
  ofWord : ∀ w, val (o.ofWord w) = w.toNat
  toWord : ∀ x, (o.toWord x).toNat = val x % 2 ^ 64
  add : ∀ x y, val (o.add x y) = (val x + val y) % 2 ^ 128
  addWord : ∀ x y, val (o.addWord x y) = (val x + y.toNat) % 2 ^ 128
  not : ∀ x, val (o.not x) = 2 ^ 128 - 1 - val x
  or : ∀ x y, val (o.or x y) = val x ||| val y
  orWord : ∀ x y, val (o.orWord x y) = val x ||| y.toNat
  and : ∀ x y, val (o.and x y) = val x &&& val y
  shl : ∀ x n, n ≤ mx → ∃ y, o.shl x n = some y ∧ val y = val x * 2 ^ n % 2 ^ 128
  shr : ∀ x n, n ≤ mx → ∃ y, o.shr x n = some y ∧ val y = val x / 2 ^ n
  eq : ∀ x y, o.eq x y = decide (val x = val y)
  ltb : ∀ x y, o.lt x y = decide (val x < val y)
  gt : ∀ x y, o.gt x y = decide (val y < val x)

theorem lawful_class : Lawful U128.ops U128.val 128 where
  hmx := by omega
  lt := U128.val_lt
  ofWord w := by simp [U128.ops, U128.val]
  toWord x := by
    have := x.lo.isLt
    show x.lo.toNat = (2 ^ 64 * x.hi.toNat + x.lo.toNat) % 2 ^ 64
    omega
  add := U128.add_val
  addWord := U128.addWord_val
  not := U128.not_val
  or := U128.or_val
  orWord := U128.orWord_val
  and := U128.and_val
  shl x _ h := U128.shl_val x h
  shr x _ h := U128.shr_val x h
  eq := U128.eq_val
  ltb := U128.lt_val
  gt := U128.gt_val

theorem lawful_native : Lawful nativeOps BitVec.toNat 127 where
  hmx := by omega
  lt x := x.isLt
  ofWord w := by
    have := w.isLt
    show (w.setWidth 128).toNat = _
    rw [BitVec.toNat_setWidth]; omega
  toWord x := by
    show (x.setWidth 64).toNat = _
    rw [BitVec.toNat_setWidth]
  add x y := BitVec.toNat_add x y
  addWord x y := by
    have := y.isLt
    show (x + y.setWidth 128).toNat = _
    rw [BitVec.toNat_add, BitVec.toNat_setWidth]; omega
  not x := BitVec.toNat_not
  or x y := BitVec.toNat_or x y
  orWord x y := by
    have := y.isLt
    show (x ||| y.setWidth 128).toNat = _
    rw [BitVec.toNat_or, BitVec.toNat_setWidth, Nat.mod_eq_of_lt (by omega)]
  and x y := BitVec.toNat_and x y
  shl x n h := ⟨x <<< n, if_pos (by omega), by rw [BitVec.toNat_shiftLeft, Nat.shiftLeft_eq]⟩
  shr x n h := ⟨x >>> n, if_pos (by omega), by rw [BitVec.toNat_ushiftRight, Nat.shiftRight_eq_div_pow]⟩
  eq x y := by
    show (x == y) = _
    rw [Bool.eq_iff_iff, beq_iff_eq, decide_eq_true_iff]
    exact ⟨fun h => by rw [h], BitVec.eq_of_toNat_eq⟩
  ltb x y := by
    show decide (x < y) = _
    rw [decide_eq_decide]; exact BitVec.lt_def
  gt x y := by
    show decide (y < x) = _
    rw [decide_eq_decide]; exact BitVec.lt_def

namespace U256

/-- The number represented. -/
def value {α : Type} (val : α → Nat) (x : U256 α) : Nat := 2 ^ 128 * val x.high + (2 ^ 64 * x.mid.toNat + x.lo.toNat)

variable {α : Type} {o : Ops α} {val : α → Nat} {mx : Nat} (L : Lawful o val mx)
include L

theorem value_lt (x : U256 α) : x.value val < 2 ^ 256 := by
  have := x.lo.isLt; have := x.mid.isLt; have := L.lt x.high
  unfold value
  omega

omit L in
theorem low_lt {lo mid : Word} : 2 ^ 64 * mid.toNat + lo.toNat < 2 ^ 128 := by
  have := lo.isLt; have := mid.isLt
  omega

theorem add_val (x y : U256 α) : ∃ z, add o x y = some z ∧ z.value val = (x.value val + y.value val) % 2 ^ 256 := by
  have := x.lo.isLt; have := x.mid.isLt; have := L.lt x.high
  have := y.lo.isLt; have := y.mid.isLt; have := L.lt y.high
  unfold add
  obtain ⟨a, a1, a2⟩ := L.shr (o.addWord (o.ofWord x.lo) y.lo) 64 (by have := L.hmx; omega)
  dsimp only
  rw [a1, sbind]
  obtain ⟨b, b1, b2⟩ := L.shr (o.add (o.addWord (o.ofWord x.mid) y.mid) a) 64 (by have := L.hmx; omega)
  rw [b1, sbind]
  refine ⟨_, rfl, ?_⟩
  unfold value
  dsimp only
  rw [L.toWord, L.toWord, L.add, L.add, b2, L.add, L.addWord, L.ofWord, a2, L.addWord, L.ofWord]
  omega

theorem addAssign_val (x y : U256 α) : ∃ z, addAssign o x y = some z ∧ z.value val = (x.value val + y.value val) % 2 ^ 256 := by
  have := x.lo.isLt; have := x.mid.isLt; have := L.lt x.high
  have := y.lo.isLt; have := y.mid.isLt; have := L.lt y.high
  unfold addAssign
  obtain ⟨a, a1, a2⟩ := L.shr (o.addWord (o.ofWord x.lo) y.lo) 64 (by have := L.hmx; omega)
  dsimp only
  rw [a1, sbind]
  obtain ⟨b, b1, b2⟩ := L.shr (o.add (o.addWord (o.ofWord x.mid) y.mid) a) 64 (by have := L.hmx; omega)
  rw [b1, sbind]
  refine ⟨_, rfl, ?_⟩
  unfold value
  dsimp only
  rw [L.toWord, L.toWord, L.add, L.add, b2, L.add, L.addWord, L.ofWord, a2, L.addWord, L.ofWord]
  omega

theorem sub_val (x y : U256 α) : ∃ z, sub o x y = some z ∧ z.value val = (x.value val + (2 ^ 256 - y.value val)) % 2 ^ 256 := by
  have := x.lo.isLt; have := x.mid.isLt; have := L.lt x.high
  have := y.lo.isLt; have := y.mid.isLt; have := L.lt y.high
  unfold sub
  obtain ⟨a, a1, a2⟩ := L.shr (o.add (o.addWord (o.ofWord x.lo) (~~~y.lo)) (o.ofWord 1#64)) 64 (by have := L.hmx; omega)
  dsimp only
  rw [a1, sbind]
  obtain ⟨b, b1, b2⟩ := L.shr (o.add (o.addWord (o.ofWord x.mid) (~~~y.mid)) a) 64 (by have := L.hmx; omega)
  rw [b1, sbind]
  refine ⟨_, rfl, ?_⟩
  unfold value
  dsimp only
  rw [L.toWord, L.toWord, L.add, L.add, L.add, L.not, b2, L.add, L.addWord, L.ofWord, a2, L.add, L.addWord, L.ofWord, L.ofWord, BitVec.toNat_not, BitVec.toNat_not,
    BitVec.toNat_ofNat]
  omega

theorem subAssign_val (x y : U256 α) : ∃ z, subAssign o x y = some z ∧ z.value val = (x.value val + (2 ^ 256 - y.value val)) % 2 ^ 256 := by
  have := x.lo.isLt; have := x.mid.isLt; have := L.lt x.high
  have := y.lo.isLt; have := y.mid.isLt; have := L.lt y.high
  unfold subAssign
  obtain ⟨a, a1, a2⟩ := L.shr (o.add (o.addWord (o.ofWord x.lo) (~~~y.lo)) (o.ofWord 1#64)) 64 (by have := L.hmx; omega)
  dsimp only
  rw [a1, sbind]
  obtain ⟨b, b1, b2⟩ := L.shr (o.add (o.addWord (o.ofWord x.mid) (~~~y.mid)) a) 64 (by have := L.hmx; omega)
  rw [b1, sbind]
  refine ⟨_, rfl, ?_⟩
  unfold value
  dsimp only
  rw [L.toWord, L.toWord, L.add, L.add, L.add, L.not, b2, L.add, L.addWord, L.ofWord, a2, L.add, L.addWord, L.ofWord, L.ofWord, BitVec.toNat_not, BitVec.toNat_not,
    BitVec.toNat_ofNat]
  omega

theorem or_val (x y : U256 α) : (or o x y).value val = x.value val ||| y.value val := by
  unfold or value
  dsimp only
  rw [L.or, BitVec.toNat_or, BitVec.toNat_or, or_cat x.lo.isLt y.lo.isLt, or_cat low_lt low_lt]

theorem and_val (x y : U256 α) : (and o x y).value val = x.value val &&& y.value val := by
  unfold and value
  dsimp only
  rw [L.and, BitVec.toNat_and, BitVec.toNat_and, and_cat x.lo.isLt y.lo.isLt, and_cat low_lt low_lt]

/-- `((uint128_t)m_mid<<64) | m_lo`. -/
theorem low_val (lo mid : Word) : ∃ a, o.shl (o.ofWord mid) 64 = some a ∧ val (o.orWord a lo) = 2 ^ 64 * mid.toNat + lo.toNat := by
  have := mid.isLt
  obtain ⟨a, a1, a2⟩ := L.shl (o.ofWord mid) 64 (by have := L.hmx; omega)
  refine ⟨a, a1, ?_⟩
  rw [L.orWord, a2, L.ofWord, Nat.two_pow_add_eq_or_of_lt lo.isLt, show mid.toNat * 2 ^ 64 % 2 ^ 128 = 2 ^ 64 * mid.toNat by omega]

/-- Splitting a 128-bit number into two words. -/
theorem split_val (low high : α) : ∃ b, o.shr low 64 = some b ∧ value val ⟨o.toWord low, o.toWord b, high⟩ = 2 ^ 128 * val high + val low := by
  have := L.lt low
  obtain ⟨b, b1, b2⟩ := L.shr low 64 (by have := L.hmx; omega)
  refine ⟨b, b1, ?_⟩
  unfold value
  dsimp only
  rw [L.toWord, L.toWord, b2]
  omega

theorem shl_val (x : U256 α) {n : Nat} (hn : n ≤ 128 + mx) (h0 : n = 0 → mx = 128) : ∃ z, shl o x n = some z ∧ z.value val = x.value val * 2 ^ n % 2 ^ 256 := by
  have hm := L.hmx
  obtain ⟨a, a1, a2⟩ := low_val L x.lo x.mid
  unfold shl
  by_cases c : n < 128
  · rw [if_pos c]
    obtain ⟨h, h1, h2⟩ := L.shl x.high n (by omega)
    obtain ⟨s, s1, s2⟩ := L.shr (o.orWord a x.lo) (128 - n) (by
      rcases Nat.eq_zero_or_pos n with e | e
      · have := h0 e; omega
      · omega)
    obtain ⟨l, l1, l2⟩ := L.shl (o.orWord a x.lo) n (by omega)
    obtain ⟨b, b1, b2⟩ := split_val L l (o.or h s)
    rw [h1, sbind, a1, sbind]
    dsimp only
    rw [s1, sbind, l1, sbind, b1, sbind]
    refine ⟨_, rfl, ?_⟩
    rw [b2, L.or, h2, s2, l2, a2, shl_cat low_lt (by omega)]
    rfl
  · rw [if_neg c, a1, sbind]
    obtain ⟨h, h1, h2⟩ := L.shl (o.orWord a x.lo) (n - 128) (by omega)
    rw [h1, sbind]
    refine ⟨_, rfl, ?_⟩
    have := shl_cat_big (h := val x.high) (k := 128) (n := n) (low_lt (lo := x.lo) (mid := x.mid)) (by omega)
    show 2 ^ 128 * val h + (2 ^ 64 * (0#64).toNat + (0#64).toNat) = _
    rw [h2, a2, this]
    rfl

theorem shr_val (x : U256 α) {n : Nat} (hn : n ≤ 128 + mx) : ∃ z, shr o x n = some z ∧ z.value val = x.value val / 2 ^ n := by
  have hm := L.hmx
  unfold shr
  by_cases c : n < 128
  · rw [if_pos c]
    obtain ⟨a, a1, a2⟩ := low_val L x.lo x.mid
    obtain ⟨l, l1, l2⟩ := L.shr (o.orWord a x.lo) n (by omega)
    obtain ⟨t, t1, t2⟩ := L.shl x.high (127 - n) (by omega)
    obtain ⟨u, u1, u2⟩ := L.shl t 1 (by omega)
    obtain ⟨h, h1, h2⟩ := L.shr x.high n (by omega)
    obtain ⟨b, b1, b2⟩ := split_val L (o.or l u) h
    rw [a1, sbind, l1, sbind, t1, sbind, u1, sbind]
    dsimp only
    rw [b1, sbind, h1, sbind]
    refine ⟨_, rfl, ?_⟩
    rw [b2, h2, L.or, l2, a2, u2, t2]
    exact shr_cat low_lt c
  · rw [if_neg c]
    obtain ⟨l, l1, l2⟩ := L.shr x.high (n - 128) (by omega)
    obtain ⟨b, b1, b2⟩ := split_val L l (o.ofWord 0#64)
    rw [l1, sbind, b1, sbind]
    refine ⟨_, rfl, ?_⟩
    rw [b2, L.ofWord, l2, shr_cat_big (low_lt (lo := x.lo) (mid := x.mid)) (by omega)]
    simp [value]

theorem eq_val (x y : U256 α) : eq o x y = decide (x.value val = y.value val) := by
  have := x.lo.isLt; have := x.mid.isLt; have := L.lt x.high
  have := y.lo.isLt; have := y.mid.isLt; have := L.lt y.high
  unfold eq value
  rw [L.eq, Bool.eq_iff_iff, Bool.and_eq_true, Bool.and_eq_true, beq_iff_eq, beq_iff_eq, decide_eq_true_iff, decide_eq_true_iff]
  constructor
  · rintro ⟨⟨h1, h2⟩, h3⟩; rw [h1, h2, h3]
  · intro h
    exact ⟨⟨BitVec.eq_of_toNat_eq (by omega), BitVec.eq_of_toNat_eq (by omega)⟩, by omega⟩

theorem lt_val (x y : U256 α) : lt o x y = decide (x.value val < y.value val) := by
  have := x.lo.isLt; have := x.mid.isLt; have := L.lt x.high
  have := y.lo.isLt; have := y.mid.isLt; have := L.lt y.high
  unfold lt value
  rw [L.eq, L.ltb]
  by_cases c : val x.high = val y.high
  · rw [decide_eq_true c, if_neg (by simp)]
    by_cases c2 : x.mid ≠ y.mid
    · rw [if_pos c2, decide_eq_decide, lt_iff]
      rw [ne_iff] at c2
      omega
    · rw [if_neg c2, decide_eq_decide, lt_iff]
      rw [ne_iff] at c2
      omega
  · rw [decide_eq_false c, if_pos (by rfl), decide_eq_decide]
    omega

theorem le_val (x y : U256 α) : le o x y = decide (x.value val ≤ y.value val) := by
  have := x.lo.isLt; have := x.mid.isLt; have := L.lt x.high
  have := y.lo.isLt; have := y.mid.isLt; have := L.lt y.high
  unfold le value
  rw [L.eq, L.ltb]
  by_cases c : val x.high = val y.high
  · rw [decide_eq_true c, if_neg (by simp)]
    by_cases c2 : x.mid ≠ y.mid
    · rw [if_pos c2, decide_eq_decide, lt_iff]
      rw [ne_iff] at c2
      omega
    · rw [if_neg c2, decide_eq_decide, le_iff]
      rw [ne_iff] at c2
      omega
  · rw [decide_eq_false c, if_pos (by rfl), decide_eq_decide]
    omega

theorem gt_val (x y : U256 α) : gt o x y = decide (y.value val < x.value val) := by
  have := x.lo.isLt; have := x.mid.isLt; have := L.lt x.high
  have := y.lo.isLt; have := y.mid.isLt; have := L.lt y.high
  unfold gt value
  rw [L.eq, L.gt]
  by_cases c : val x.high = val y.high
  · rw [decide_eq_true c, if_neg (by simp)]
    by_cases c2 : x.mid ≠ y.mid
    · rw [if_pos c2, decide_eq_decide]
      rw [ne_iff] at c2
      show y.mid < x.mid ↔ _
      rw [lt_iff]
      omega
    · rw [if_neg c2, decide_eq_decide]
      rw [ne_iff] at c2
      show y.lo < x.lo ↔ _
      rw [lt_iff]
      omega
  · rw [decide_eq_false c, if_pos (by rfl), decide_eq_decide]
    omega

theorem ge_val (x y : U256 α) : ge o x y = decide (y.value val ≤ x.value val) := by
  have := x.lo.isLt; have := x.mid.isLt; have := L.lt x.high
  have := y.lo.isLt; have := y.mid.isLt; have := L.lt y.high
  unfold ge value
  rw [L.eq, L.gt]
  by_cases c : val x.high = val y.high
  · rw [decide_eq_true c, if_neg (by simp)]
    by_cases c2 : x.mid ≠ y.mid
    · rw [if_pos c2, decide_eq_decide]
      rw [ne_iff] at c2
      show y.mid < x.mid ↔ _
      rw [lt_iff]
      omega
    · rw [if_neg c2, decide_eq_decide]
      rw [ne_iff] at c2
      show y.lo ≤ x.lo ↔ _
      rw [le_iff]
      omega
  · rw [decide_eq_false c, if_pos (by rfl), decide_eq_decide]
    omega

theorem gtWord_val (x : U256 α) (y : Word) : gtWord o x y = decide (y.toNat < x.value val) := by
  have := x.lo.isLt; have := x.mid.isLt; have := L.lt x.high; have := y.isLt
  unfold gtWord value
  rw [L.gt, L.ofWord]
  by_cases c : (0#64).toNat < val x.high
  · rw [decide_eq_true c, if_pos (by simp), eq_comm, decide_eq_true_iff]
    rw [BitVec.toNat_ofNat] at c
    omega
  · rw [decide_eq_false c]
    rw [BitVec.toNat_ofNat] at c
    by_cases c2 : x.mid > 0#64
    · rw [decide_eq_true c2, if_pos (by simp), eq_comm, decide_eq_true_iff]
      have : 0 < x.mid.toNat := lt_iff.1 c2
      omega
    · have h0 : ¬0 < x.mid.toNat := fun h => c2 (lt_iff.2 h)
      rw [decide_eq_false c2, if_neg (by simp), decide_eq_decide]
      show y < x.lo ↔ _
      rw [lt_iff]
      omega

/-- The upper 128 bits as two words. -/
theorem high_cat (h : α) : ∃ b, o.shr h 64 = some b ∧ val h = 2 ^ 64 * (o.toWord b).toNat + (o.toWord h).toNat := by
  have := L.lt h
  obtain ⟨b, b1, b2⟩ := L.shr h 64 (by have := L.hmx; omega)
  refine ⟨b, b1, ?_⟩
  rw [L.toWord, L.toWord, b2]
  omega

omit L in
theorem countTrue_256 (x : U256 α) {hh : Word} (e : val x.high = 2 ^ 64 * hh.toNat + (o.toWord x.high).toNat) :
    countTrue (fun j => (x.value val).testBit j) 256 =
      countTrue (fun j => x.lo.toNat.testBit j) 64 + countTrue (fun j => x.mid.toNat.testBit j) 64 +
        (countTrue (fun j => (o.toWord x.high).toNat.testBit j) 64 + countTrue (fun j => hh.toNat.testBit j) 64) := by
  unfold value
  rw [show (256 : Nat) = 128 + 128 from rfl, countTrue_cat low_lt, countTrue_128 x.lo.isLt, e,
    countTrue_128 (o.toWord x.high).isLt]

theorem popcount_val (x : U256 α) : popcount o x = some (countTrue (fun j => (x.value val).testBit j) 256) := by
  obtain ⟨b, b1, b2⟩ := high_cat L x.high
  unfold popcount
  rw [b1, sbind, countTrue_256 x b2, cnt_toNat, cnt_toNat, cnt_toNat, cnt_toNat]
  have h1 := countTrue_le (fun j => x.lo.toNat.testBit j) 64
  have h2 := countTrue_le (fun j => x.mid.toNat.testBit j) 64
  have h3 := countTrue_le (fun j => (o.toWord x.high).toNat.testBit j) 64
  have h4 := countTrue_le (fun j => (o.toWord b).toNat.testBit j) 64
  show some _ = some _
  congr 1
  omega

theorem hiBit_val (x : U256 α) : hiBit o x = some (x.value val).log2 := by
  unfold hiBit value
  rw [L.eq, L.ofWord]
  by_cases c : val x.high = (0#64).toNat
  · rw [decide_eq_true c, if_pos rfl, c, BitVec.toNat_ofNat, Nat.zero_mod, Nat.mul_zero, Nat.zero_add]
    by_cases c2 : x.mid ≠ 0#64
    · rw [if_pos c2, hi_toNat, sbind, log2_cat x.lo.isLt (by simpa using ne_iff.1 c2)]
      rfl
    · have h0 : x.mid.toNat = 0 := by
        rw [ne_iff] at c2
        simpa using c2
      rw [if_neg c2, hi_toNat, h0, Nat.mul_zero, Nat.zero_add]
  · rw [decide_eq_false c, if_neg (by simp)]
    rw [BitVec.toNat_ofNat] at c
    obtain ⟨b, b1, b2⟩ := high_cat L x.high
    rw [b1, sbind]
    dsimp only
    rw [log2_cat low_lt (by omega), b2]
    by_cases c2 : o.toWord b ≠ 0#64
    · rw [if_pos c2, hi_toNat, sbind, log2_cat (o.toWord x.high).isLt (by simpa using ne_iff.1 c2)]
      rfl
    · have h0 : (o.toWord b).toNat = 0 := by
        rw [ne_iff] at c2
        simpa using c2
      rw [if_neg c2, hi_toNat, sbind, h0, Nat.mul_zero, Nat.zero_add]
      rfl

theorem select_val (x : U256 α) {i : Nat} (h1 : 1 ≤ i) (h2 : i ≤ countTrue (fun j => (x.value val).testBit j) 256) :
    ∃ p, select o x i = some p ∧ IsSelect (fun j => (x.value val).testBit j) 256 i p := by
  obtain ⟨b, b1, b2⟩ := high_cat L x.high
  rw [countTrue_256 x b2] at h2
  have hlow : ∀ i p, IsSelect (fun j => (2 ^ 64 * x.mid.toNat + x.lo.toNat).testBit j) 128 i p → IsSelect (fun j => (x.value val).testBit j) 256 i p :=
    fun i p h => select_lo (m := 128) low_lt h
  have hhigh : ∀ i p, IsSelect (fun j => (val x.high).testBit j) 128 i p →
      IsSelect (fun j => (x.value val).testBit j) 256 (i + (countTrue (fun j => x.lo.toNat.testBit j) 64 + countTrue (fun j => x.mid.toNat.testBit j) 64)) (p + 128) := by
    intro i p h
    have := select_hi (k := 128) (l := 2 ^ 64 * x.mid.toNat + x.lo.toNat) low_lt h
    rw [countTrue_128 x.lo.isLt] at this
    exact this
  have s1 := @select_lo x.mid.toNat x.lo.toNat 64 64
  have s2 := @select_hi x.mid.toNat x.lo.toNat 64 64
  have s3 := @select_lo (o.toWord b).toNat (o.toWord x.high).toNat 64 64
  have s4 := @select_hi (o.toWord b).toNat (o.toWord x.high).toNat 64 64
  rw [← b2] at s3 s4
  have k1 := @sel_ok x.lo
  have k2 := @sel_ok x.mid
  have k3 := @sel_ok (o.toWord x.high)
  have k4 := @sel_ok (o.toWord b)
  unfold select
  simp only [cnt_toNat]
  generalize countTrue (fun j => x.lo.toNat.testBit j) 64 = cl at *
  generalize countTrue (fun j => x.mid.toNat.testBit j) 64 = cm at *
  generalize countTrue (fun j => (o.toWord x.high).toNat.testBit j) 64 = ch at *
  by_cases c : cl ≥ i
  · rw [if_pos c]
    obtain ⟨p, hp1, hp2⟩ := k1 h1 c
    exact ⟨p, hp1, hlow _ _ (s1 x.lo.isLt hp2)⟩
  · rw [if_neg c]
    by_cases c2 : cm ≥ i - cl
    · rw [if_pos c2]
      obtain ⟨p, hp1, hp2⟩ := k2 (by omega) c2
      rw [hp1, sbind]
      refine ⟨_, rfl, hlow _ _ ?_⟩
      have := s2 x.lo.isLt hp2
      rw [Nat.sub_add_cancel (by omega)] at this
      exact this
    · rw [if_neg c2, b1, sbind]
      by_cases c3 : ch ≥ i - cl - cm
      · rw [if_pos c3]
        obtain ⟨p, hp1, hp2⟩ := k3 (by omega) c3
        rw [hp1, sbind]
        refine ⟨_, rfl, ?_⟩
        have := hhigh _ _ (s3 (o.toWord x.high).isLt hp2)
        rw [show i - cl - cm + (cl + cm) = i by omega] at this
        exact this
      · rw [if_neg c3]
        obtain ⟨p, hp1, hp2⟩ := k4 (i := i - cl - cm - ch) (by omega) (by omega)
        rw [hp1, sbind]
        refine ⟨_, rfl, ?_⟩
        have := hhigh _ _ (s4 (o.toWord x.high).isLt hp2)
        rw [show i - cl - cm - ch + ch + (cl + cm) = i by omega] at this
        exact this

end U256

/-! ### Output -/

/-- The number written with the given hexadecimal digits. -/
def hexVal : List Nat → Nat
  | [] => 0
  | d :: l => d * 16 ^ l.length + hexVal l

theorem hexVal_append (a b : List Nat) : hexVal (a ++ b) = hexVal a * 16 ^ b.length + hexVal b := by
  induction a with
  | nil => simp [hexVal]
  | cons d a ih =>
    rw [List.cons_append, hexVal, hexVal, ih, List.length_append, Nat.pow_add, Nat.add_mul, Nat.mul_assoc]
    omega

theorem hexLoop_length : ∀ k x, (hexLoop k x).length = k
  | 0, _ => rfl
  | k + 1, x => by rw [hexLoop, List.length_cons, hexLoop_length k]

theorem hexLoop_digit : ∀ k x, ∀ d ∈ hexLoop k x, d < 16
  | 0, _, d, h => by simp [hexLoop] at h
  | k + 1, x, d, h => by
    rw [hexLoop, List.mem_cons] at h
    rcases h with rfl | h
    · rw [BitVec.toNat_and]
      exact Nat.lt_of_le_of_lt Nat.and_le_right (by decide)
    · exact hexLoop_digit k _ d h

/-- The digits are those of the `k` topmost nibbles. -/
theorem hexLoop_val : ∀ k x, k ≤ 16 → hexVal (hexLoop k x) * 2 ^ (64 - 4 * k) = x.toNat - x.toNat % 2 ^ (64 - 4 * k)
  | 0, x, _ => by
    have := x.isLt
    rw [hexLoop, hexVal, Nat.zero_mul, show 64 - 4 * 0 = 64 from rfl, Nat.mod_eq_of_lt x.isLt, Nat.sub_self]
  | k + 1, x, h => by
    have hx := x.isLt
    have ih := hexLoop_val k (x <<< 4) (by omega)
    rw [hexLoop, hexVal, hexLoop_length, Nat.add_mul]
    have e1 : ((x >>> 60) &&& 0xF#64).toNat = x.toNat / 2 ^ 60 := by
      rw [BitVec.toNat_and, BitVec.toNat_ushiftRight, Nat.shiftRight_eq_div_pow, show (0xF#64).toNat = 2 ^ 4 - 1 from rfl, Nat.and_two_pow_sub_one_eq_mod]
      omega
    have e2 : (x <<< 4).toNat = x.toNat % 2 ^ 60 * 2 ^ 4 := by
      rw [BitVec.toNat_shiftLeft, Nat.shiftLeft_eq]
      omega
    rw [e2] at ih
    rw [e1]
    generalize hV : hexVal (hexLoop k (x <<< 4)) = V at *
    have e3 : (2 : Nat) ^ (64 - 4 * k) = 2 ^ (64 - 4 * (k + 1)) * 2 ^ 4 := by
      rw [← Nat.pow_add]; congr 1; omega
    have e4 : (16 : Nat) ^ k * 2 ^ (64 - 4 * (k + 1)) = 2 ^ 60 := by
      rw [show (16 : Nat) = 2 ^ 4 from rfl, ← Nat.pow_mul, ← Nat.pow_add]; congr 1; omega
    rw [Nat.mul_assoc, e4]
    have e5 : (2 : Nat) ^ 60 = 2 ^ (64 - 4 * (k + 1)) * 2 ^ (4 * k) := by
      rw [← Nat.pow_add]; congr 1; omega
    rw [e3, Nat.mul_mod_mul_right, ← Nat.mul_assoc] at ih
    have e6 : x.toNat % 2 ^ 60 % 2 ^ (64 - 4 * (k + 1)) = x.toNat % 2 ^ (64 - 4 * (k + 1)) := Nat.mod_mod_of_dvd _ ⟨_, e5⟩
    rw [e6] at ih
    have hle : x.toNat % 2 ^ (64 - 4 * (k + 1)) ≤ x.toNat % 2 ^ 60 := by
      rw [← e6]; exact Nat.mod_le _ _
    have hmd := Nat.div_add_mod x.toNat (2 ^ 60)
    generalize x.toNat % 2 ^ (64 - 4 * (k + 1)) = r at *
    generalize V * 2 ^ (64 - 4 * (k + 1)) = W at *
    omega

theorem hexLoop_word (x : Word) : hexVal (hexLoop 16 x) = x.toNat := by
  have := hexLoop_val 16 x (by omega)
  simpa [Nat.mod_one] using this

theorem U128.print_val (x : U128) : ∃ l, x.print = some l ∧ l.length = 32 ∧ (∀ d ∈ l, d < 16) ∧ hexVal l = x.val := by
  obtain ⟨a, h1, h2⟩ := U256.high_cat lawful_class x
  unfold U128.print
  rw [show x.shr 64 = some a from h1, sbind]
  refine ⟨_, rfl, by simp [hexLoop_length], ?_, ?_⟩
  · intro d hd
    rw [List.mem_append] at hd
    rcases hd with hd | hd
    · exact hexLoop_digit _ _ _ hd
    · exact hexLoop_digit _ _ _ hd
  · rw [hexVal_append, hexLoop_word, hexLoop_word, hexLoop_length, h2]
    omega

theorem U256.print_val {α : Type} {o : Ops α} {val : α → Nat} {mx : Nat} (L : Lawful o val mx) (x : U256 α) :
    ∃ l, x.print o = some l ∧ l.length = 64 ∧ (∀ d ∈ l, d < 16) ∧ hexVal l = x.value val := by
  obtain ⟨a, h1, h2⟩ := U256.high_cat L x.high
  unfold U256.print
  rw [h1, sbind]
  refine ⟨_, rfl, by simp [hexLoop_length], ?_, ?_⟩
  · intro d hd
    rw [List.mem_append, List.mem_append, List.mem_append] at hd
    rcases hd with ((hd | hd) | hd) | hd <;> exact hexLoop_digit _ _ _ hd
  · rw [hexVal_append, hexVal_append, hexVal_append, hexLoop_word, hexLoop_word, hexLoop_word, hexLoop_word, hexLoop_length, hexLoop_length, hexLoop_length]
    unfold U256.value
    rw [h2]
    omega

end Sdsl
