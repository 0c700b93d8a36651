/-
  Excess values, and what the lookup tables of `excess::impl` contain.
-/
import Verif.Bp

namespace Sdsl.Bp

open Spec

/-- Excess of the first `n` parentheses: openings minus closings. -/
def exc (b : Nat → Bool) : Nat → Int
  | 0 => 0
  | n + 1 => exc b n + sgn (b n)

theorem sgn_cases (b : Bool) : (b = true ∧ sgn b = 1) ∨ (b = false ∧ sgn b = -1) := by cases b <;> simp [sgn]

theorem exc_congr {b c : Nat → Bool} {n : Nat} (h : ∀ k, k < n → b k = c k) : exc b n = exc c n := by
  induction n with
  | zero => rfl
  | succ n ih => rw [exc, exc, ih (fun k hk => h k (by omega)), h n (by omega)]

theorem exc_add (b : Nat → Bool) (m n : Nat) : exc b (m + n) = exc b m + exc (fun k => b (m + k)) n := by
  induction n with
  | zero => simp [exc]
  | succ n ih => rw [show m + (n + 1) = m + n + 1 by omega, exc, exc, ih]; omega

/-! ### Reading -/

theorem bit_eq {mem : Mem} {j : Nat} (h : j < 64 * mem.length) : bit mem j = some (bitAt mem j) := by
  have h1 : j / 64 < mem.length := by omega
  rw [bit, bitAt, List.getElem?_eq_getElem h1]
  rfl

theorem byte_eq {mem : Mem} {j : Nat} (h : j < 64 * mem.length) (h8 : j % 8 = 0) :
    ∃ w, byte mem j = some w ∧ w < 256 ∧ ∀ q, q < 8 → w.testBit q = bitAt mem (j + q) := by
  have h1 : j / 64 < mem.length := by omega
  refine ⟨_, by rw [byte, List.getElem?_eq_getElem h1]; rfl, Nat.mod_lt _ (by omega), fun q hq => ?_⟩
  rw [show (256 : Nat) = 2 ^ 8 by rfl, Nat.testBit_mod_two_pow, Nat.testBit_div_two_pow, bitAt, show (j + q) / 64 = j / 64 by omega, List.getElem?_eq_getElem h1]
  show (decide (q < 8) && _) = (mem[j / 64]).getLsbD ((j + q) % 64)
  rw [show (j + q) % 64 = j % 64 + q by omega, BitVec.getLsbD, decide_eq_true hq, Bool.true_and, Nat.add_comm]

theorem byte_exc {mem : Mem} {j w : Nat} (h : ∀ q, q < 8 → w.testBit q = bitAt mem (j + q)) {q : Nat} (hq : q ≤ 8) :
    exc w.testBit q = exc (bitAt mem) (j + q) - exc (bitAt mem) j := by
  have := exc_add (bitAt mem) j q
  have h2 : exc w.testBit q = exc (fun k => bitAt mem (j + k)) q := exc_congr (fun k hk => h k (by omega))
  omega

/-! ### The tables -/

theorem tab_sum : ∀ w, w < 256 → wordSum w = exc w.testBit 8 := by decide +kernel

theorem tab_min : ∀ w, w < 256 → minPosMax w < 8 ∧ exc w.testBit (minPosMax w + 1) = minTab w ∧ (∀ q, q < 8 → minTab w ≤ exc w.testBit (q + 1)) ∧
    ∀ q, q < 8 → minPosMax w < q → minTab w < exc w.testBit (q + 1) := by decide +kernel

theorem tab_match : ∀ w, w < 256 → ∀ x, x < 8 →
    (nib (minMatchPacked w) x < 9 → nib (minMatchPacked w) x < 8 ∧ exc w.testBit (nib (minMatchPacked w) x + 1) = -((x : Int) + 1) ∧
      ∀ q, q < nib (minMatchPacked w) x → exc w.testBit (q + 1) ≠ -((x : Int) + 1)) ∧
    (¬ nib (minMatchPacked w) x < 9 → ∀ q, q < 8 → exc w.testBit (q + 1) ≠ -((x : Int) + 1)) := by decide +kernel

set_option synthInstance.maxHeartbeats 400000 in
set_option synthInstance.maxSize 2000 in
theorem tab_maxMatch : ∀ w, w < 256 → ∀ x, x < 8 →
    (nib (maxMatchPacked w) x < 9 → nib (maxMatchPacked w) x < 8 ∧ exc w.testBit 8 - exc w.testBit (nib (maxMatchPacked w) x) = (x : Int) + 1 ∧
      ∀ q, q < 8 → nib (maxMatchPacked w) x < q → exc w.testBit 8 - exc w.testBit q ≠ (x : Int) + 1) ∧
    (¬ nib (maxMatchPacked w) x < 9 → ∀ q, q < 8 → exc w.testBit 8 - exc w.testBit q ≠ (x : Int) + 1) := by decide +kernel

set_option synthInstance.maxHeartbeats 400000 in
set_option synthInstance.maxSize 2000 in
theorem tab_fwd : ∀ w, w < 256 → ∀ x : Nat, x < 16 →
    (fwdTab ((x : Int) - 8) w 8 0 0 < 8 → exc w.testBit (fwdTab ((x : Int) - 8) w 8 0 0 + 1) = (x : Int) - 8 ∧
      ∀ q, q < fwdTab ((x : Int) - 8) w 8 0 0 → exc w.testBit (q + 1) ≠ (x : Int) - 8) ∧
    (¬ fwdTab ((x : Int) - 8) w 8 0 0 < 8 → ∀ q, q < 8 → exc w.testBit (q + 1) ≠ (x : Int) - 8) := by decide +kernel

set_option synthInstance.maxHeartbeats 400000 in
set_option synthInstance.maxSize 2000 in
theorem tab_bwd : ∀ w, w < 256 → ∀ x : Nat, x < 16 →
    (bwdTab ((x : Int) - 8) w 8 0 < 8 → exc w.testBit (bwdTab ((x : Int) - 8) w 8 0) - exc w.testBit 8 = (x : Int) - 8 ∧
      ∀ q, q < 8 → bwdTab ((x : Int) - 8) w 8 0 < q → exc w.testBit q - exc w.testBit 8 ≠ (x : Int) - 8) ∧
    (¬ bwdTab ((x : Int) - 8) w 8 0 < 8 → ∀ q, q < 8 → exc w.testBit q - exc w.testBit 8 ≠ (x : Int) - 8) := by decide +kernel

set_option synthInstance.maxHeartbeats 400000 in
set_option synthInstance.maxSize 2000 in
/-- The minimal excess at an opening parenthesis, its last position, the number of openings. -/
theorem tab_open : ∀ w, w < 256 →
    exc w.testBit 8 = 2 * ((minOpenInfo w / 2 ^ 12 : Nat) : Int) - 8 ∧
    (minOpenInfo w / 2 ^ 12 = 0 → ∀ q, q < 8 → w.testBit q = false) ∧
    (minOpenInfo w / 2 ^ 12 ≠ 0 → minOpenInfo w / 256 % 16 < 8 ∧ w.testBit (minOpenInfo w / 256 % 16) = true ∧
      exc w.testBit (minOpenInfo w / 256 % 16 + 1) = ((minOpenInfo w % 256 : Nat) : Int) - 8 ∧
      (∀ q, q < 8 → w.testBit q = true → ((minOpenInfo w % 256 : Nat) : Int) - 8 ≤ exc w.testBit (q + 1)) ∧
      ∀ q, q < 8 → minOpenInfo w / 256 % 16 < q → w.testBit q = true → ((minOpenInfo w % 256 : Nat) : Int) - 8 < exc w.testBit (q + 1)) := by decide +kernel

end Sdsl.Bp
