/-
  Lemmas about the Fibonacci encoder.
-/
import Verif.Fib
import Verif.SpecFib
import Verif.CoderVec

namespace Sdsl.Fib

open Bits Spec Coder

theorem fibN_succ (k : Nat) : fibN (k + 2) = fibN k + fibN (k + 1) := rfl

theorem fibN_succ' (k : Nat) : fibN (k + 1 + 1) = fibN k + fibN (k + 1) := rfl

theorem fibN_pos (k : Nat) : 0 < fibN k ∧ fibN k < fibN (k + 1) := by
  induction k with
  | zero => decide
  | succ k ih => rw [fibN_succ]; omega

theorem fibN_le_pow (k : Nat) : fibN k ≤ 2 ^ k ∧ fibN (k + 1) ≤ 2 ^ (k + 1) := by
  induction k with
  | zero => decide
  | succ k ih => refine ⟨ih.2, ?_⟩; rw [fibN_succ, Nat.pow_succ, Nat.pow_succ]; omega

theorem fibN_mono {a b : Nat} (h : a ≤ b) : fibN a ≤ fibN b := by
  induction h with
  | refl => exact Nat.le_refl _
  | @step m _ ih => exact Nat.le_trans ih (Nat.le_of_lt (fibN_pos m).2)

theorem ltFib_all : ∀ k : Fin 92, ltFib[k.val]? = some (BitVec.ofNat 64 (fibN k.val)) ∧ fibN k.val < 2 ^ 64 := by
  decide +kernel

theorem ltFib_get {k : Nat} (h : k < 92) : ltFib[k]? = some (BitVec.ofNat 64 (fibN k)) := (ltFib_all ⟨k, h⟩).1

theorem ltFib_getD {k : Nat} (h : k < 92) : ltFib.getD k 0#64 = BitVec.ofNat 64 (fibN k) := by
  rw [List.getD_eq_getElem?_getD, ltFib_get h]; rfl

theorem fibN_lt {k : Nat} (h : k < 92) : fibN k < 2 ^ 64 := (ltFib_all ⟨k, h⟩).2

theorem fibN_92 : 2 ^ 64 < fibN 92 := by decide +kernel

theorem toNat_fib {k : Nat} (h : k < 92) : (BitVec.ofNat 64 (fibN k)).toNat = fibN k := by
  rw [BitVec.toNat_ofNat, Nat.mod_eq_of_lt (fibN_lt h)]

/-! ### Greedy digits -/

theorem zeck_lt (k x : Nat) : zeck k x < 2 ^ k := by
  induction k generalizing x with
  | zero => simp [zeck]
  | succ k ih =>
    unfold zeck
    rw [Nat.pow_succ]
    split
    · have := ih (x - fibN k); omega
    · have := ih x; omega

theorem zeck_stable {k x : Nat} (h : x < fibN k) (j : Nat) : zeck (k + j) x = zeck k x := by
  induction j with
  | zero => rfl
  | succ j ih =>
    rw [← Nat.add_assoc]
    conv => lhs; unfold zeck
    rw [if_neg (by have := fibN_mono (show k ≤ k + j by omega); omega), ih]

theorem zeck_zero (k : Nat) : zeck k 0 = 0 := by
  induction k with
  | zero => rfl
  | succ k ih => unfold zeck; rw [if_neg (by have := (fibN_pos k).1; omega), ih]

theorem fibSum_congr {f g : Nat → Bool} {n : Nat} (h : ∀ i, i < n → f i = g i) : fibSum f n = fibSum g n := by
  induction n with
  | zero => rfl
  | succ n ih => unfold fibSum; rw [ih (fun i hi => h i (by omega)), h n (by omega)]

/-- The greedy digits represent the number and have no two adjacent ones. -/
theorem zeck_spec {k x : Nat} (h : x < fibN k) :
    fibSum (fun i => (zeck k x).testBit i) k = x ∧
    ∀ i, ¬ ((zeck k x).testBit i = true ∧ (zeck k x).testBit (i + 1) = true) := by
  induction k using Nat.strongRecOn generalizing x with
  | ind k ih =>
    cases k with
    | zero =>
      have : fibN 0 = 1 := rfl
      obtain rfl : x = 0 := by omega
      simp [zeck, fibSum]
    | succ k =>
      by_cases c : fibN k ≤ x
      · have hz : zeck (k + 1) x = 2 ^ k + zeck k (x - fibN k) := by conv => lhs; unfold zeck
                                                                     rw [if_pos c]
        have hlt := zeck_lt k (x - fibN k)
        have hb : ∀ i, i < k → (zeck (k + 1) x).testBit i = (zeck k (x - fibN k)).testBit i := by
          intro i hi
          rw [hz, Nat.testBit_two_pow_add_gt hi]
        have ht : (zeck (k + 1) x).testBit k = true := by
          rw [hz, Nat.testBit_two_pow_add_eq, Nat.testBit_lt_two_pow hlt]; rfl
        have hhi : ∀ i, k < i → (zeck (k + 1) x).testBit i = false := by
          intro i hi
          exact Nat.testBit_lt_two_pow (Nat.lt_of_lt_of_le (zeck_lt _ _) (Nat.pow_le_pow_right (by decide) hi))
        have hx' : x - fibN k < fibN k := by
          cases k with
          | zero => have : fibN 1 = 2 := rfl; have : fibN 0 = 1 := rfl; simp at h; omega
          | succ k => have := fibN_succ' k; have := (fibN_pos k).2; omega
        obtain ⟨i1, i2⟩ := ih k (by omega) hx'
        constructor
        · unfold fibSum
          rw [if_pos ht, fibSum_congr hb, i1]; omega
        · intro i
          by_cases ci : i + 1 < k
          · rw [hb i (by omega), hb _ ci]; exact i2 i
          · by_cases ci2 : i + 1 = k
            · -- the digit below the leading one
              have : (zeck (k + 1) x).testBit i = false := by
                rw [hb i (by omega)]
                subst ci2
                have := fibN_succ' i
                have := zeck_stable (k := i) (x := x - fibN (i + 1)) (by omega) 1
                rw [this]
                exact Nat.testBit_lt_two_pow (zeck_lt _ _)
              simp [this]
            · rw [hhi (i + 1) (by omega)]; simp
      · have hz : zeck (k + 1) x = zeck k x := by conv => lhs; unfold zeck
                                                  rw [if_neg c]
        obtain ⟨i1, i2⟩ := ih k (by omega) (show x < fibN k by omega)
        rw [hz]
        refine ⟨?_, i2⟩
        unfold fibSum
        rw [i1, if_neg]
        · rfl
        · rw [Nat.testBit_lt_two_pow (zeck_lt _ _)]; simp

/-! ### `encoding_length` -/

/-- `L` is the number of digits of `x`. -/
def IsLen (x L : Nat) : Prop := x < fibN L ∧ ∀ j, j < L → fibN j ≤ x

theorem lenLoop_eq (w : Word) (f len : Nat) (hf : 92 ≤ len + f) (hlen : len < 92) (h : fibN len ≤ w.toNat) :
    IsLen w.toNat (lenLoop w f len) ∧ lenLoop w f len ≤ 92 ∧ 1 ≤ lenLoop w f len := by
  induction f generalizing len with
  | zero => omega
  | succ f ih =>
    unfold lenLoop
    by_cases c : len + 1 < 92 ∧ (ltFib.getD (len + 1) 0#64).toNat ≤ w.toNat
    · rw [if_pos c]
      obtain ⟨c1, c2⟩ := c
      rw [ltFib_getD c1, toNat_fib c1] at c2
      exact ih (len + 1) (by omega) c1 c2
    · rw [if_neg c]
      refine ⟨⟨?_, fun j hj => Nat.le_trans (fibN_mono (by omega)) h⟩, by omega, by omega⟩
      by_cases c1 : len + 1 < 92
      · have c2 : ¬ (ltFib.getD (len + 1) 0#64).toNat ≤ w.toNat := fun h => c ⟨c1, h⟩
        rw [ltFib_getD c1, toNat_fib c1] at c2; omega
      · rw [show len + 1 = 92 by omega]; have := fibN_92; have := w.isLt; omega

theorem encLen_eq (w : Word) : ∃ L, encLen w = some (L + 1) ∧ IsLen (fibNum w) L ∧ 1 ≤ L ∧ L ≤ 92 := by
  unfold encLen fibNum
  by_cases hw : w = 0#64
  · rw [if_pos hw, if_pos hw]
    refine ⟨92, rfl, ⟨fibN_92, fun j hj => Nat.le_of_lt (fibN_lt hj)⟩, by decide, by decide⟩
  · rw [if_neg hw, if_neg hw, hi_eq, sbind]
    have h0 : w.toNat ≠ 0 := fun h => hw (BitVec.eq_of_toNat_eq (by simpa using h))
    have h1 := Nat.log2_self_le h0
    have h2 : w.toNat.log2 < 64 := (Nat.log2_lt h0).2 w.isLt
    have h3 := (fibN_le_pow w.toNat.log2).1
    have := lenLoop_eq w 92 w.toNat.log2 (by omega) (by omega) (by omega)
    exact ⟨_, rfl, this.1, this.2.2, this.2.1⟩

theorem IsLen.unique {x L L' : Nat} (h : IsLen x L) (h' : IsLen x L') : L = L' := by
  obtain ⟨a, b⟩ := h
  obtain ⟨a', b'⟩ := h'
  rcases Nat.lt_trichotomy L L' with c | c | c
  · have := b' _ c; omega
  · exact c
  · have := b _ c; omega

/-! ### The digit loops -/

theorem shl_ofNat (a k : Nat) : (BitVec.ofNat 64 a) <<< k = BitVec.ofNat 64 (a * 2 ^ k) := by
  apply BitVec.eq_of_toNat_eq
  simp [Nat.shiftLeft_eq, Nat.mod_mul_mod]

theorem or_one (a : Nat) : (BitVec.ofNat 64 (a * 2)) ||| 1#64 = BitVec.ofNat 64 (a * 2 + 1) := by
  apply BitVec.eq_of_toNat_eq
  simp only [BitVec.toNat_or, BitVec.toNat_ofNat]
  rw [show (1 : Nat) % 2 ^ 64 = 1 from rfl, show a * 2 % 2 ^ 64 = 2 ^ 1 * (a % 2 ^ 63) by omega,
    ← Nat.two_pow_add_eq_or_of_lt (by decide)]
  omega

theorem four (f y : Nat) : (f * 2 + 1) * 2 * y = 4 * (f * y) + 2 * y := by
  rw [Nat.mul_assoc, Nat.add_mul, Nat.one_mul, Nat.mul_assoc f 2, ← Nat.mul_assoc 2 2 y, Nat.mul_left_comm f]

theorem four' (f k : Nat) : f * 2 ^ (k + 1 + 1) = 4 * (f * 2 ^ k) := by
  rw [Nat.pow_succ, Nat.pow_succ, Nat.mul_assoc (2 ^ k), Nat.mul_comm (2 ^ k), Nat.mul_left_comm f]

theorem lowLoop_eq (k : Nat) (fl x : Nat) (hk : k ≤ 65) (h : x < fibN k) (h64 : x < fibN 64) :
    lowLoop k false (BitVec.ofNat 64 fl) (BitVec.ofNat 64 x) = some (BitVec.ofNat 64 (fl * 2 ^ k + zeck k x)) := by
  induction k using Nat.strongRecOn generalizing fl x with
  | ind k ih =>
    cases k with
    | zero => simp [lowLoop, zeck]
    | succ k =>
      have hx64 : x < 2 ^ 64 := Nat.lt_trans h64 (fibN_lt (by decide))
      have hp := (fibN_pos k).1
      unfold lowLoop zeck
      dsimp only
      rw [ltFib_get (by omega), sbind, toNat_fib (by omega), BitVec.toNat_ofNat, Nat.mod_eq_of_lt hx64, shl_ofNat, Nat.pow_one,
        or_one, shl_ofNat, Nat.pow_one]
      by_cases c : fibN k ≤ x
      · have hk64 : k < 64 := by
          apply Nat.lt_of_not_le
          intro h'
          have := fibN_mono h'; omega
        have e : BitVec.ofNat 64 x - BitVec.ofNat 64 (fibN k) = BitVec.ofNat 64 (x - fibN k) := by
          apply BitVec.eq_of_toNat_eq
          have := fibN_lt (show k < 92 by omega)
          simp only [BitVec.toNat_sub, BitVec.toNat_ofNat]; omega
        rw [if_pos c, if_pos c, e]
        by_cases c2 : x - fibN k = 0
        · rw [if_neg (by rw [c2]; simp), c2, zeck_zero, shl_of_lt (by omega), shl_ofNat, Nat.pow_succ]
          refine congrArg some (congrArg (BitVec.ofNat 64) ?_)
          rw [Nat.add_mul, Nat.mul_assoc, Nat.mul_comm 2]; omega
        · rw [if_pos (by
            intro h'
            have := congrArg BitVec.toNat h'
            simp at this; omega)]
          cases k with
          | zero => have : fibN 1 = 2 := rfl; have : fibN 0 = 1 := rfl; simp at h; omega
          | succ k =>
            have := fibN_succ' k
            have := fibN_mono (show k ≤ 64 by omega)
            unfold lowLoop
            rw [ih k (by omega) ((fl * 2 + 1) * 2) _ (by omega) (by omega) (by omega), zeck_stable (k := k) (by omega) 1]
            refine congrArg some (congrArg (BitVec.ofNat 64) ?_)
            have : ((fl * 2 + 1) * 2) * 2 ^ k = fl * 2 ^ (k + 1 + 1) + 2 ^ (k + 1) := by
              rw [four, four', Nat.pow_succ]; omega
            omega
      · rw [if_neg c, if_neg c, ih k (by omega) _ _ (by omega) (by omega) h64]
        refine congrArg some (congrArg (BitVec.ofNat 64) ?_)
        rw [Nat.pow_succ, Nat.mul_assoc, Nat.mul_comm 2]

theorem hiLoop_eq (c : Nat) (fh x : Nat) (hc : c ≤ 28) (h : x < fibN (64 + c)) (hx64 : x < 2 ^ 64)
    (hg : x = 0 ∨ zeck (64 + c) x % 2 ^ 65 ≠ 0) :
    ∃ y, hiLoop c false (BitVec.ofNat 64 fh) (BitVec.ofNat 64 x) =
        some (BitVec.ofNat 64 (fh * 2 ^ c + zeck (64 + c) x / 2 ^ 64), BitVec.ofNat 64 y) ∧
      y < fibN 64 ∧ zeck 64 y = zeck (64 + c) x % 2 ^ 64 := by
  induction c using Nat.strongRecOn generalizing fh x with
  | ind c ih =>
    cases c with
    | zero =>
      refine ⟨x, ?_, h, ?_⟩
      · unfold hiLoop
        rw [Nat.add_zero, Nat.div_eq_of_lt (zeck_lt _ _)]; simp
      · rw [Nat.add_zero, Nat.mod_eq_of_lt (zeck_lt _ _)]
    | succ c =>
      have hp := (fibN_pos (64 + c)).1
      have hz : zeck (64 + (c + 1)) x = if fibN (64 + c) ≤ x then 2 ^ (64 + c) + zeck (64 + c) (x - fibN (64 + c)) else zeck (64 + c) x := by
        conv => lhs; rw [← Nat.add_assoc]; unfold zeck
      unfold hiLoop
      dsimp only
      rw [ltFib_get (by omega), sbind, toNat_fib (by omega), BitVec.toNat_ofNat, Nat.mod_eq_of_lt hx64, shl_ofNat, Nat.pow_one,
        or_one, shl_ofNat, Nat.pow_one]
      by_cases ct : fibN (64 + c) ≤ x
      · rw [if_pos ct] at hz
        have e : BitVec.ofNat 64 x - BitVec.ofNat 64 (fibN (64 + c)) = BitVec.ofNat 64 (x - fibN (64 + c)) := by
          apply BitVec.eq_of_toNat_eq
          have := fibN_lt (show 64 + c < 92 by omega)
          simp only [BitVec.toNat_sub, BitVec.toNat_ofNat]; omega
        have hne : x - fibN (64 + c) ≠ 0 → BitVec.ofNat 64 (x - fibN (64 + c)) ≠ 0#64 := by
          intro h1 h2
          have := congrArg BitVec.toNat h2
          simp at this; omega
        rw [if_pos ct, e]
        cases c with
        | zero =>
          have := fibN_succ' 63
          have hf := (fibN_pos 63).2
          simp only [Nat.zero_add, Nat.add_zero, Nat.reduceAdd] at *
          rw [if_neg (by omega), if_pos trivial]
          refine ⟨x - fibN 64, ?_, by omega, ?_⟩
          · rw [hz]
            have := zeck_lt 64 (x - fibN 64)
            refine congrArg some (Prod.ext (congrArg (BitVec.ofNat 64) ?_) rfl)
            show fh * 2 + 1 = _
            omega
          · rw [hz]
            have := zeck_lt 64 (x - fibN 64)
            omega
        | succ c =>
          have hs := fibN_succ (64 + c)
          rw [show 64 + (c + 1 + 1) = 64 + c + 2 from rfl] at h hz hg ⊢
          rw [show 64 + (c + 1) = 64 + c + 1 from rfl] at *
          have hlt : x - fibN (64 + c + 1) < fibN (64 + c) := by omega
          rw [zeck_stable (k := 64 + c) hlt 1] at hz
          have hpow : (2 : Nat) ^ (64 + c + 1) = 2 ^ 65 * 2 ^ c := by rw [← Nat.pow_add]; congr 1; omega
          have hx' : x - fibN (64 + c + 1) ≠ 0 := by
            intro h0
            rw [h0, zeck_zero, hpow] at hz
            rcases hg with hg | hg
            · omega
            · rw [hz] at hg; omega
          rw [if_pos ⟨hne hx', by omega⟩]
          unfold hiLoop
          obtain ⟨y, h1, h2, h3⟩ := ih c (by omega) ((fh * 2 + 1) * 2) (x - fibN (64 + c + 1)) (by omega) hlt (by omega) (by
            right
            rcases hg with hg | hg
            · omega
            · rw [hz, hpow] at hg; omega)
          refine ⟨y, ?_, h2, ?_⟩
          · rw [h1, hz]
            have hq := four' fh c
            have hq2 := four fh (2 ^ c)
            refine congrArg some (Prod.ext (congrArg (BitVec.ofNat 64) ?_) rfl)
            rw [hq, hq2]
            omega
          · rw [h3, hz]; omega
      · rw [if_neg ct] at hz
        rw [if_neg ct]
        obtain ⟨y, h1, h2, h3⟩ := ih c (by omega) (fh * 2) x (by omega) (by omega) hx64 (by rw [hz] at hg; exact hg)
        refine ⟨y, ?_, h2, by rw [hz]; exact h3⟩
        rw [h1, hz, Nat.pow_succ (m := c), Nat.mul_assoc, Nat.mul_comm 2 (2 ^ c)]

/-! ### The encoder -/

theorem fibNum_pos (w : Word) : 0 < fibNum w ∧ fibNum w ≤ 2 ^ 64 := by
  unfold fibNum
  split
  · decide
  · have := w.isLt
    have : w.toNat ≠ 0 := fun h => by rename_i hw; exact hw (BitVec.eq_of_toNat_eq (by simpa using h))
    omega

theorem zeck_len {x L : Nat} (h : IsLen x L) (h1 : 1 ≤ L) (h92 : L ≤ 92) :
    zeck 93 x = zeck L x ∧ Nat.log2 (zeck L x) + 1 = L ∧ 2 ^ (L - 1) ≤ zeck L x := by
  have e := zeck_stable h.1 (93 - L)
  rw [show L + (93 - L) = 93 by omega] at e
  have hle : 2 ^ (L - 1) ≤ zeck L x := by
    obtain ⟨k, rfl⟩ : ∃ k, L = k + 1 := ⟨L - 1, by omega⟩
    conv => rhs; unfold zeck
    rw [if_pos (h.2 k (by omega))]
    simp
  have hlt := zeck_lt L x
  refine ⟨e, ?_, hle⟩
  have h0 : zeck L x ≠ 0 := by have := Nat.two_pow_pos (L - 1); omega
  have a : (zeck L x).log2 < L := (Nat.log2_lt h0).2 hlt
  have b : L - 1 ≤ (zeck L x).log2 := (Nat.le_log2 h0).2 hle
  omega

theorem fibBits_eq {w : Word} {L : Nat} (h : IsLen (fibNum w) L) (h1 : 1 ≤ L) (h92 : L ≤ 92) :
    fibBits w = lowBits (2 ^ L + zeck L (fibNum w)) (L + 1) := by
  obtain ⟨a, b, -⟩ := zeck_len h h1 h92
  unfold fibBits
  dsimp only
  rw [a, b]
  apply List.ext_getElem
  · simp [lowBits]
  · intro i h2 h3
    have hz := zeck_lt L (fibNum w)
    simp only [length_lowBits] at h3
    simp only [List.getElem_append, lowBits, List.length_map, List.length_range, List.getElem_map, List.getElem_range]
    by_cases c : i < L
    · rw [dif_pos c, Nat.testBit_two_pow_add_gt c]
    · obtain rfl : i = L := by omega
      rw [dif_neg c, Nat.testBit_two_pow_add_eq, Nat.testBit_lt_two_pow hz]; simp

theorem length_fibBits {w : Word} {L : Nat} (h : IsLen (fibNum w) L) (h1 : 1 ≤ L) (h92 : L ≤ 92) :
    (fibBits w).length = L + 1 := by rw [fibBits_eq h h1 h92, length_lowBits]

theorem encLen_bits (w : Word) : encLen w = some (fibBits w).length := by
  obtain ⟨L, h1, h2, h3, h4⟩ := encLen_eq w
  rw [h1, length_fibBits h2 h3 h4]

theorem isFibCode_bits (w : Word) : IsFibCode (fibNum w) (fibBits w) := by
  obtain ⟨L, -, h2, h3, h4⟩ := encLen_eq w
  obtain ⟨a, b, c⟩ := zeck_len h2 h3 h4
  have hz := zeck_lt L (fibNum w)
  have hs := zeck_spec h2.1
  have e : ∀ i, i < L → (fibBits w).getD i false = (zeck L (fibNum w)).testBit i := by
    intro i hi
    rw [fibBits_eq h2 h3 h4, getD_lowBits (by omega), Nat.testBit_two_pow_add_gt hi]
  have hlen := length_fibBits h2 h3 h4
  refine ⟨by omega, ?_, ?_, ?_, ?_⟩
  · rw [hlen, Nat.add_sub_cancel, fibBits_eq h2 h3 h4, getD_lowBits (by omega), Nat.testBit_two_pow_add_eq,
      Nat.testBit_lt_two_pow hz]; rfl
  · rw [hlen, e _ (by omega)]
    have := Nat.testBit_two_pow_add_eq (zeck L (fibNum w) - 2 ^ (L - 1)) (L - 1)
    rw [show 2 ^ (L - 1) + (zeck L (fibNum w) - 2 ^ (L - 1)) = zeck L (fibNum w) by omega] at this
    rw [show L + 1 - 2 = L - 1 by omega, this, Nat.testBit_lt_two_pow]; rfl
    have : 2 ^ L = 2 * 2 ^ (L - 1) := by
      obtain ⟨k, rfl⟩ : ∃ k, L = k + 1 := ⟨L - 1, by omega⟩
      rw [Nat.pow_succ, Nat.add_sub_cancel]; omega
    omega
  · intro i hi
    rw [hlen] at hi
    rw [e i (by omega), e (i + 1) (by omega)]
    exact hs.2 i
  · rw [hlen, Nat.add_sub_cancel, fibSum_congr e, hs.1]

theorem lowBits_append (x a b : Nat) : lowBits x (a + b) = lowBits x a ++ lowBits (x / 2 ^ a) b := by
  apply List.ext_getElem
  · simp [lowBits]
  · intro i h1 h2
    simp only [lowBits, List.getElem_map, List.getElem_range, List.getElem_append, List.length_map, List.length_range]
    by_cases c : i < a
    · rw [dif_pos c]
    · rw [dif_neg c, Nat.testBit_div_two_pow]; congr 1; omega

theorem lowBits_mod (x n k : Nat) (h : n ≤ k) : lowBits (x % 2 ^ k) n = lowBits x n := by
  apply List.ext_getElem
  · simp [lowBits]
  · intro i h1 h2
    simp only [length_lowBits] at h2
    simp only [lowBits, List.getElem_map, List.getElem_range, Nat.testBit_mod_two_pow]
    simp; omega

theorem ofNat_toNat_word (w : Word) : BitVec.ofNat 64 w.toNat = w := by simp

/-- The greedy digits have a one at position 64 or below. -/
def LowDigit (w : Word) : Prop := zeck 93 (fibNum w) % 2 ^ 65 ≠ 0

theorem encHigh_eq {x : Word} {L : Nat} (h2 : IsLen (fibNum x) L) (h1 : 64 ≤ L) (h92 : L ≤ 92)
    (hg : zeck L (fibNum x) % 2 ^ 65 ≠ 0) :
    ∃ y, encHigh x L = some (BitVec.ofNat 64 (2 ^ (L - 64) + zeck L (fibNum x) / 2 ^ 64), BitVec.ofNat 64 y) ∧
      y < fibN 64 ∧ zeck 64 y = zeck L (fibNum x) % 2 ^ 64 := by
  unfold encHigh
  by_cases hx : x = 0#64
  · have hn : fibNum x = 2 ^ 64 := by unfold fibNum; rw [if_pos hx]
    obtain rfl : L = 92 := by
      refine h2.unique (x := fibNum x) ⟨by rw [hn]; exact fibN_92, fun j hj => ?_⟩
      rw [hn]; exact Nat.le_of_lt (fibN_lt hj)
    rw [if_pos hx, ltFib_get (by decide), sbind, hn, hx]
    have e0 : 0#64 - BitVec.ofNat 64 (fibN (92 - 1)) = BitVec.ofNat 64 (2 ^ 64 - fibN 91) := by decide +kernel
    have e1 : zeck 92 (2 ^ 64) = 2 ^ 91 + zeck 90 (2 ^ 64 - fibN 91) := by decide +kernel
    have e2 : zeck 90 (2 ^ 64 - fibN 91) % 2 ^ 65 ≠ 0 := by decide +kernel
    obtain ⟨y, a, b, c⟩ := hiLoop_eq 26 6 (2 ^ 64 - fibN 91) (by decide) (by decide +kernel) (by decide +kernel) (Or.inr e2)
    rw [e0]
    rw [show (64 + 26 : Nat) = 90 from rfl] at *
    rw [show (92 - 66 : Nat) = 26 from rfl, show (6#64 : Word) = BitVec.ofNat 64 6 from rfl, a, e1]
    refine ⟨y, congrArg some (Prod.ext (congrArg (BitVec.ofNat 64) ?_) rfl), b, by rw [c]; omega⟩
    rw [show (92 - 64 : Nat) = 28 from rfl]; omega
  · have hn : fibNum x = x.toNat := by unfold fibNum; rw [if_neg hx]
    rw [if_neg hx]
    rw [hn] at h2 hg ⊢
    obtain ⟨c, rfl⟩ : ∃ c, L = 64 + c := ⟨L - 64, by omega⟩
    have := hiLoop_eq c 1 x.toNat (by omega) h2.1 x.isLt (Or.inr hg)
    rwa [ofNat_toNat_word, Nat.one_mul, show c = 64 + c - 64 by omega, show 64 + (64 + c - 64) = 64 + c by omega] at this

theorem encode1_eq {m : Mem} {pos : Nat} {w : Word} (hg : LowDigit w) (hroom : pos + (fibBits w).length ≤ 64 * m.length) :
    ∃ m', encode1 m (pos / 64) (pos % 64) w =
        some (m', (pos + (fibBits w).length) / 64, (pos + (fibBits w).length) % 64) ∧ WB m m' pos (fibBits w) := by
  obtain ⟨L, h1, h2, h3, h4⟩ := encLen_eq w
  have hlen := length_fibBits h2 h3 h4
  have hb := fibBits_eq h2 h3 h4
  obtain ⟨hz, -, hle⟩ := zeck_len h2 h3 h4
  have hlt := zeck_lt L (fibNum w)
  unfold LowDigit at hg
  rw [hz] at hg
  unfold encode1
  rw [h1, sbind]
  dsimp only
  rw [Nat.add_sub_cancel]
  rw [hlen] at hroom ⊢
  by_cases c : 64 ≤ L
  · obtain ⟨y, a1, a2, a3⟩ := encHigh_eq h2 c h4 hg
    rw [if_pos c, a1, sbind]
    dsimp only
    have a4 := lowLoop_eq 65 1 y (by omega) (Nat.lt_trans a2 (fibN_pos 64).2) a2
    rw [show (1#64 : Word) = BitVec.ofNat 64 1 from rfl, a4, sbind, zeck_stable (k := 64) a2 1, a3]
    obtain ⟨m1, b1, b2⟩ := wim (m := m) (pos := pos) (len := 64)
      (x := BitVec.ofNat 64 (1 * 2 ^ 65 + zeck L (fibNum w) % 2 ^ 64)) (by omega) (by omega) (by omega)
    rw [b1, sbind]
    dsimp only
    obtain ⟨m2, c1, c2⟩ := wim (m := m1) (pos := pos + 64) (len := L - 63)
      (x := BitVec.ofNat 64 (2 ^ (L - 64) + zeck L (fibNum w) / 2 ^ 64)) (by omega) (by omega) (by rw [b2.length]; omega)
    rw [c1, show pos + 64 + (L - 63) = pos + (L + 1) by omega]
    refine ⟨m2, rfl, ?_⟩
    have hp : (2 : Nat) ^ L = 2 ^ 64 * 2 ^ (L - 64) := by rw [← Nat.pow_add]; congr 1; omega
    have := b2.append (by rw [length_lowBits]; exact c2)
    rw [hb, show L + 1 = 64 + (L - 63) by omega, lowBits_append]
    have e1 : lowBits (BitVec.ofNat 64 (1 * 2 ^ 65 + zeck L (fibNum w) % 2 ^ 64)).toNat 64 =
        lowBits (2 ^ L + zeck L (fibNum w)) 64 := by
      rw [← lowBits_mod (2 ^ L + zeck L (fibNum w)) 64 64 (Nat.le_refl _), BitVec.toNat_ofNat]
      congr 1
      rw [hp]; omega
    have e2 : lowBits (BitVec.ofNat 64 (2 ^ (L - 64) + zeck L (fibNum w) / 2 ^ 64)).toNat (L - 63) =
        lowBits ((2 ^ L + zeck L (fibNum w)) / 2 ^ 64) (L - 63) := by
      rw [BitVec.toNat_ofNat, lowBits_mod _ _ _ (by omega)]
      congr 1
      rw [hp]; omega
    rw [e1, e2] at this
    exact this
  · rw [if_neg c]
    have hn : fibNum w = w.toNat := by
      unfold fibNum
      rw [if_neg]
      rintro rfl
      have : fibN 64 < 2 ^ 64 := fibN_lt (by decide)
      have := h2.1
      have := fibN_mono (show L ≤ 64 by omega)
      have : fibNum 0#64 = 2 ^ 64 := by decide
      omega
    have hlt64 : w.toNat < fibN 64 := by
      have := h2.1
      have := fibN_mono (show L ≤ 64 by omega)
      omega
    have a4 := lowLoop_eq L 1 w.toNat (by omega) (by rw [← hn]; exact h2.1) hlt64
    rw [ofNat_toNat_word] at a4
    rw [show (1#64 : Word) = BitVec.ofNat 64 1 from rfl, a4, sbind]
    obtain ⟨m1, b1, b2⟩ := wim (m := m) (pos := pos) (len := L + 1)
      (x := BitVec.ofNat 64 (1 * 2 ^ L + zeck L w.toNat)) (by omega) (by omega) (by omega)
    refine ⟨m1, b1, ?_⟩
    rw [hb, hn]
    rwa [BitVec.toNat_ofNat, lowBits_mod _ _ _ (by omega), Nat.one_mul] at b2

end Sdsl.Fib
