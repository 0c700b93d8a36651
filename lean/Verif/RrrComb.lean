/-
  Binomial coefficients and the enumerative code of a block used by rrr_vector: `enc s` is the rank of the bit list `s` among the
  lists of the same length with the same number of ones (lists starting with `false` first).
-/
import Verif.Bv

namespace Sdsl.Spec

/-- Binomial coefficient. -/
def binom : Nat → Nat → Nat
  | _, 0 => 1
  | 0, _ + 1 => 0
  | n + 1, k + 1 => binom n k + binom n (k + 1)

end Sdsl.Spec

namespace Sdsl.Rrr

open Sdsl.Spec Sdsl.Bv

theorem binom_zero (n : Nat) : binom n 0 = 1 := by cases n <;> rfl

theorem binom_succ (n k : Nat) : binom (n + 1) (k + 1) = binom n k + binom n (k + 1) := rfl

theorem binom_gt : ∀ (n k : Nat), n < k → binom n k = 0
  | 0, _ + 1, _ => rfl
  | n + 1, k + 1, h => by rw [binom_succ, binom_gt n k (by omega), binom_gt n (k + 1) (by omega)]

theorem binom_self : ∀ n : Nat, binom n n = 1
  | 0 => rfl
  | n + 1 => by rw [binom_succ, binom_self n, binom_gt n (n + 1) (by omega)]

theorem binom_one : ∀ n : Nat, binom n 1 = n
  | 0 => rfl
  | n + 1 => by rw [binom_succ, binom_zero, binom_one n]; omega

theorem binom_pos : ∀ (n k : Nat), k ≤ n → 0 < binom n k
  | n, 0, _ => by rw [binom_zero]; omega
  | n + 1, k + 1, h => by have := binom_pos n k (by omega); rw [binom_succ]; omega

theorem binom_le_succ (n k : Nat) : binom n k ≤ binom (n + 1) k := by
  cases k with
  | zero => rw [binom_zero, binom_zero]; omega
  | succ k => rw [binom_succ]; omega

theorem binom_mono {n m : Nat} (k : Nat) (h : n ≤ m) : binom n k ≤ binom m k := by
  induction h with
  | refl => omega
  | step _ ih => exact Nat.le_trans ih (binom_le_succ _ _)

theorem binom_symm' : ∀ (s a b : Nat), a + b = s → binom s a = binom s b
  | 0, a, b, h => by
    obtain rfl : a = 0 := by omega
    obtain rfl : b = 0 := by omega
    rfl
  | s + 1, 0, b, h => by
    obtain rfl : b = s + 1 := by omega
    rw [binom_zero, binom_self]
  | s + 1, a + 1, 0, h => by
    obtain rfl : a = s := by omega
    rw [binom_zero, binom_self]
  | s + 1, a + 1, b + 1, h => by
    rw [binom_succ, binom_succ, binom_symm' s a (b + 1) (by omega), binom_symm' s (a + 1) b (by omega)]; omega

theorem binom_symm {n k : Nat} (h : k ≤ n) : binom n (n - k) = binom n k := binom_symm' n _ _ (by omega)

theorem binom_two_le : ∀ n k : Nat, binom n k + binom n (k + 1) ≤ 2 ^ n
  | 0, 0 => by decide
  | 0, k + 1 => by rw [binom_gt 0 _ (by omega), binom_gt 0 _ (by omega)]; decide
  | n + 1, 0 => by
    have h1 := binom_two_le n 0
    have h2 : 1 ≤ 2 ^ n := Nat.one_le_two_pow
    rw [binom_zero] at h1
    rw [binom_zero, binom_succ, binom_zero, Nat.pow_succ]; omega
  | n + 1, k + 1 => by
    have h1 := binom_two_le n k
    have h2 := binom_two_le n (k + 1)
    rw [binom_succ, binom_succ, Nat.pow_succ]; omega

theorem binom_le (n k : Nat) : binom n k ≤ 2 ^ n := by
  have := binom_two_le n k; omega

theorem binom_lt {n : Nat} (k : Nat) (h : 1 ≤ n) : binom n k < 2 ^ n := by
  have h1 : 1 < 2 ^ n := Nat.one_lt_two_pow (by omega)
  cases k with
  | zero => rw [binom_zero]; exact h1
  | succ k =>
    by_cases hk : k ≤ n
    · have := binom_two_le n k
      have := binom_pos n k hk
      omega
    · rw [binom_gt n (k + 1) (by omega)]; omega

/-- Number of ones in a list of bits. -/
def wt (s : List Bool) : Nat := cnt true s s.length

theorem wt_nil : wt [] = 0 := rfl

theorem wt_cons (b : Bool) (s : List Bool) : wt (b :: s) = b.toNat + wt s := by
  have := cnt_cons true b s s.length
  unfold wt
  rw [List.length_cons, this]
  cases b <;> rfl

theorem wt_le (s : List Bool) : wt s ≤ s.length := cnt_le _ _ _

/-- Rank of `s` among the bit lists with the same length and the same number of ones. -/
def enc : List Bool → Nat
  | [] => 0
  | b :: s => (if b then binom s.length (wt (b :: s)) else 0) + enc s

theorem enc_true (s : List Bool) : enc (true :: s) = binom s.length (wt s + 1) + enc s := by
  simp only [enc, wt_cons, Bool.toNat_true, if_true]
  rw [Nat.add_comm 1]

theorem enc_false (s : List Bool) : enc (false :: s) = enc s := by
  simp [enc]

theorem enc_lt : ∀ s : List Bool, enc s < binom s.length (wt s)
  | [] => by decide
  | true :: s => by
    have := enc_lt s
    rw [enc_true, wt_cons, List.length_cons, Bool.toNat_true, Nat.add_comm 1, binom_succ]
    omega
  | false :: s => by
    have := enc_lt s
    have := binom_le_succ s.length (wt s)
    rw [enc_false, wt_cons, List.length_cons, Bool.toNat_false, Nat.zero_add]
    omega

/-- The test of every decoder: the next bit is set iff the code is at least the binomial coefficient. -/
theorem enc_ge_iff (b : Bool) (s : List Bool) : binom s.length (wt (b :: s)) ≤ enc (b :: s) ↔ b = true := by
  have := enc_lt s
  cases b with
  | true => rw [enc_true, wt_cons, Bool.toNat_true, Nat.add_comm 1]; simp
  | false => rw [enc_false, wt_cons, Bool.toNat_false, Nat.zero_add]; simp; omega

theorem enc_of_wt_zero : ∀ s : List Bool, wt s = 0 → enc s = 0
  | [], _ => rfl
  | true :: s, h => by rw [wt_cons] at h; simp at h
  | false :: s, h => by rw [wt_cons] at h; rw [enc_false]; exact enc_of_wt_zero s (by simpa using h)

theorem bit_of_wt_zero {s : List Bool} (h : wt s = 0) (q : Nat) : bit s q = false := by
  by_cases hq : q < s.length
  · have := countTrue_eq_zero (f := fun q => bit s q == true) h hq
    simpa using this
  · exact bit_of_ge (by omega)

/-- Code of a list with exactly one one: the number of positions after the one. -/
theorem enc_of_wt_one : ∀ s : List Bool, wt s = 1 → ∃ p, p < s.length ∧ enc s + p + 1 = s.length ∧
    ∀ q, bit s q = decide (q = p)
  | [], h => by rw [wt_nil] at h; omega
  | true :: s, h => by
    rw [wt_cons, Bool.toNat_true] at h
    have hz : wt s = 0 := by omega
    refine ⟨0, by simp, ?_, ?_⟩
    · rw [enc_true, hz, enc_of_wt_zero s hz, binom_one, List.length_cons]
    · intro q
      cases q with
      | zero => rw [bit_cons_zero]; simp
      | succ q => rw [bit_cons_succ, bit_of_wt_zero hz]; simp
  | false :: s, h => by
    rw [wt_cons, Bool.toNat_false, Nat.zero_add] at h
    obtain ⟨p, h1, h2, h3⟩ := enc_of_wt_one s h
    refine ⟨p + 1, by simpa using h1, ?_, ?_⟩
    · rw [enc_false, List.length_cons]; omega
    · intro q
      cases q with
      | zero => rw [bit_cons_zero]; simp
      | succ q => rw [bit_cons_succ, h3]; simp

/-- A list with a one: leading zeros, the first one, the rest. -/
theorem split_first : ∀ s : List Bool, 1 ≤ wt s → ∃ (j : Nat) (r : List Bool), s = List.replicate j false ++ true :: r
  | [], h => by rw [wt_nil] at h; omega
  | true :: s, _ => ⟨0, s, rfl⟩
  | false :: s, h => by
    rw [wt_cons] at h
    obtain ⟨j, r, rfl⟩ := split_first s (by simpa using h)
    exact ⟨j + 1, r, by simp [List.replicate_succ]⟩

theorem wt_zeros (j : Nat) (s : List Bool) : wt (List.replicate j false ++ s) = wt s := by
  induction j with
  | zero => simp
  | succ j ih => rw [List.replicate_succ, List.cons_append, wt_cons, ih]; simp

theorem enc_zeros (j : Nat) (s : List Bool) : enc (List.replicate j false ++ s) = enc s := by
  induction j with
  | zero => simp
  | succ j ih => rw [List.replicate_succ, List.cons_append, enc_false, ih]

theorem bit_zeros_lt {j q : Nat} (s : List Bool) (h : q < j) : bit (List.replicate j false ++ s) q = false := by
  unfold bit
  rw [List.getD_eq_getElem?_getD, List.getElem?_append_left (by simpa using h), List.getElem?_replicate]
  simp [h]

theorem bit_zeros_ge {j q : Nat} (s : List Bool) (h : j ≤ q) : bit (List.replicate j false ++ s) q = bit s (q - j) := by
  unfold bit
  rw [List.getD_eq_getElem?_getD, List.getElem?_append_right (by simpa using h), List.getD_eq_getElem?_getD]
  simp

theorem cnt_zeros (j q : Nat) (s : List Bool) : cnt true (List.replicate j false ++ s) q = cnt true s (q - j) := by
  induction q with
  | zero => rw [Nat.zero_sub]; rfl
  | succ q ih =>
    rw [cnt_succ, ih]
    by_cases h : q < j
    · rw [bit_zeros_lt s h, show q - j = 0 by omega, show q + 1 - j = 0 by omega]; rfl
    · rw [bit_zeros_ge s (by omega), show q + 1 - j = (q - j) + 1 by omega, cnt_succ]

theorem cnt_all (s : List Bool) {q : Nat} (h : s.length ≤ q) : cnt true s q = wt s := by
  obtain ⟨d, rfl⟩ := Nat.exists_eq_add_of_le h
  unfold wt cnt
  rw [countTrue_add]
  have h1 : countTrue (fun i => bit s (s.length + i) == true) d = 0 := by
    rw [countTrue_congr (g := fun _ => false) (fun i _ => by rw [bit_of_ge (by omega)]; rfl), countTrue_false]
  rw [h1]; rfl

theorem wt_full {s : List Bool} (h : wt s = s.length) : ∀ q, q < s.length → bit s q = true := by
  intro q hq
  have h0 := cnt_compl s s.length
  have h1 : cnt false s s.length = 0 := by unfold wt at h; omega
  have := countTrue_eq_zero (f := fun q => bit s q == false) h1 hq
  simpa using this

end Sdsl.Rrr
