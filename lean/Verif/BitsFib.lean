/-
  Lemmas about `cnt11`, `sel11`, `hi11` (Fibonacci terminators), `cnt32` and the intrinsic variants of `sel`.
-/
import Verif.BitsScan

namespace Sdsl.Bits
open Sdsl.Spec

/-- `ex11`. -/
def ex11 (x : Word) : Word := (x &&& (x >>> 1)) &&& 0x5555555555555555#64
/-- `ex11|(ex11<<1)`. -/
def exA (x : Word) : Word := ex11 x ||| (ex11 x <<< 1)
/-- `ex10or01`. -/
def exS (x : Word) : Word := exA x ^^^ x
/-- second summand of `t`. -/
def exB (x c : Word) : Word := ((exS x <<< 1) &&& 0x5555555555555555#64) ||| c

theorem mask5 : ∀ i : Fin 64, (0x5555555555555555#64).getLsbD i.val = decide (i.val % 2 = 0) := by decide +kernel

theorem getLsbD_mask5 {i : Nat} (hi : i < 64) : (0x5555555555555555#64).getLsbD i = decide (i % 2 = 0) := mask5 ⟨i, hi⟩

theorem ex11_even (x : Word) {k : Nat} (hk : k < 32) :
    (ex11 x).getLsbD (2 * k) = (x.getLsbD (2 * k) && x.getLsbD (2 * k + 1)) := by
  unfold ex11
  rw [BitVec.getLsbD_and, BitVec.getLsbD_and, BitVec.getLsbD_ushiftRight, getLsbD_mask5 (by omega)]
  simp [Nat.add_comm]

theorem ex11_odd (x : Word) {k : Nat} (hk : k < 32) : (ex11 x).getLsbD (2 * k + 1) = false := by
  unfold ex11
  rw [BitVec.getLsbD_and, getLsbD_mask5 (by omega)]
  simp

theorem exA_even (x : Word) {k : Nat} (hk : k < 32) :
    (exA x).getLsbD (2 * k) = (x.getLsbD (2 * k) && x.getLsbD (2 * k + 1)) := by
  unfold exA
  rw [BitVec.getLsbD_or, BitVec.getLsbD_shiftLeft, ex11_even x hk]
  by_cases h : k = 0
  · subst h; simp
  · have := ex11_odd x (k := k - 1) (by omega)
    rw [show 2 * (k - 1) + 1 = 2 * k - 1 by omega] at this
    rw [this]; simp

theorem exA_odd (x : Word) {k : Nat} (hk : k < 32) :
    (exA x).getLsbD (2 * k + 1) = (x.getLsbD (2 * k) && x.getLsbD (2 * k + 1)) := by
  unfold exA
  rw [BitVec.getLsbD_or, BitVec.getLsbD_shiftLeft, ex11_odd x hk, Nat.add_sub_cancel, ex11_even x hk]
  have : 2 * k + 1 < 64 := by omega
  simp [this]

theorem exS_getLsbD (x : Word) (i : Nat) : (exS x).getLsbD i = ((exA x).getLsbD i ^^ x.getLsbD i) := by
  unfold exS; rw [BitVec.getLsbD_xor]

theorem exB_odd (x : Word) {c : Bool} {k : Nat} (hk : k < 32) :
    (exB x (BitVec.ofNat 64 c.toNat)).getLsbD (2 * k + 1) = false := by
  unfold exB
  rw [BitVec.getLsbD_or, BitVec.getLsbD_and, getLsbD_mask5 (by omega)]
  cases c <;> simp

theorem exB_zero (x : Word) {c : Bool} : (exB x (BitVec.ofNat 64 c.toNat)).getLsbD 0 = c := by
  unfold exB
  rw [BitVec.getLsbD_or, BitVec.getLsbD_and, BitVec.getLsbD_shiftLeft]
  cases c <;> simp

theorem exB_even (x : Word) {c : Bool} {k : Nat} (hk : k + 1 < 32) :
    (exB x (BitVec.ofNat 64 c.toNat)).getLsbD (2 * (k + 1)) = (!x.getLsbD (2 * k) && x.getLsbD (2 * k + 1)) := by
  unfold exB
  rw [BitVec.getLsbD_or, BitVec.getLsbD_and, BitVec.getLsbD_shiftLeft, getLsbD_mask5 (by omega), exS_getLsbD,
    show 2 * (k + 1) - 1 = 2 * k + 1 by omega, exA_odd x (by omega)]
  have h1 : 2 * (k + 1) < 64 := by omega
  have h2 : ¬ (2 * (k + 1) < 1) := by omega
  have h3 : (BitVec.ofNat 64 c.toNat).getLsbD (2 * (k + 1)) = false := by
    cases c <;> simp
  rw [h3]
  simp [h1]
  cases x.getLsbD (2 * k) <;> cases x.getLsbD (2 * k + 1) <;> rfl

/-- State of the scan and state of the addition at a block boundary agree. -/
theorem carry_inv (x : Word) (c : Bool) {k : Nat} (hk : k < 32) :
    let f := fun i => x.getLsbD i
    let A := exA x
    let B := exB x (BitVec.ofNat 64 c.toNat)
    pending f c (2 * k) = (B.getLsbD (2 * k) || BitVec.carry (2 * k) A B false) ∧
    (B.getLsbD (2 * k) && BitVec.carry (2 * k) A B false) = false := by
  intro f A B
  induction k with
  | zero =>
    rw [Nat.mul_zero, BitVec.carry_zero, exB_zero]; simp [pending]
  | succ k ih =>
    obtain ⟨h1, h2⟩ := ih (by omega)
    have hc : BitVec.carry (2 * (k + 1)) A B false =
        ((x.getLsbD (2 * k) && x.getLsbD (2 * k + 1)) && (B.getLsbD (2 * k) || BitVec.carry (2 * k) A B false)) := by
      rw [show 2 * (k + 1) = 2 * k + 1 + 1 by omega, BitVec.carry_succ, BitVec.carry_succ]
      rw [exA_even x (by omega), exA_odd x (by omega), exB_odd x (by omega)]
      revert h2
      generalize B.getLsbD (2 * k) = b
      generalize BitVec.carry (2 * k) A B false = d
      cases x.getLsbD (2 * k) <;> cases x.getLsbD (2 * k + 1) <;> cases b <;> cases d <;> decide
    have hp : pending f c (2 * (k + 1)) = (f (2 * k + 1) && !(f (2 * k) && !pending f c (2 * k))) := by
      rw [show 2 * (k + 1) = 2 * k + 1 + 1 by omega]; rfl
    rw [hp, hc, h1, exB_even x (by omega)]
    simp only [f]
    generalize B.getLsbD (2 * k) = b
    generalize BitVec.carry (2 * k) A B false = d
    cases x.getLsbD (2 * k) <;> cases x.getLsbD (2 * k + 1) <;> cases b <;> cases d <;> decide

theorem t_even (x : Word) (c : Bool) {k : Nat} (hk : k < 32) :
    (exA x + exB x (BitVec.ofNat 64 c.toNat)).getLsbD (2 * k) =
      ((x.getLsbD (2 * k) && x.getLsbD (2 * k + 1)) ^^ pending (fun i => x.getLsbD i) c (2 * k)) := by
  obtain ⟨h1, h2⟩ := carry_inv x c hk
  rw [BitVec.getLsbD_add (by omega), exA_even x hk, h1]
  revert h2
  generalize (exB x (BitVec.ofNat 64 c.toNat)).getLsbD (2 * k) = b
  generalize BitVec.carry (2 * k) _ _ false = d
  cases x.getLsbD (2 * k) <;> cases x.getLsbD (2 * k + 1) <;> cases b <;> cases d <;> decide

/-- Carry out of the addition. -/
theorem carry_out (x : Word) (c : Bool) :
    (decide (exA x + exB x (BitVec.ofNat 64 c.toNat) < exA x)) = BitVec.carry 64 (exA x) (exB x (BitVec.ofNat 64 c.toNat)) false := by
  unfold BitVec.carry
  rw [decide_eq_decide, BitVec.lt_def, BitVec.toNat_add]
  generalize exA x = A
  generalize exB x _ = B
  have := A.isLt
  have := B.isLt
  simp only [Bool.toNat_false]
  omega

theorem pending_64 (x : Word) (c : Bool) :
    pending (fun i => x.getLsbD i) c 64 =
      ((exS x >>> 63 != 0#64) || decide (exA x + exB x (BitVec.ofNat 64 c.toNat) < exA x)) := by
  rw [carry_out]
  obtain ⟨h1, h2⟩ := carry_inv x c (k := 31) (by omega)
  have hc : BitVec.carry 64 (exA x) (exB x (BitVec.ofNat 64 c.toNat)) false =
      ((x.getLsbD 62 && x.getLsbD 63) && pending (fun i => x.getLsbD i) c 62) := by
    refine (show _ = BitVec.carry (2 * 31 + 1 + 1) (exA x) (exB x (BitVec.ofNat 64 c.toNat)) false from rfl).trans ?_
    rw [BitVec.carry_succ, BitVec.carry_succ]
    rw [exA_even x (by omega), exA_odd x (by omega), exB_odd x (by omega), h1]
    revert h2
    generalize (exB x (BitVec.ofNat 64 c.toNat)).getLsbD (2 * 31) = b
    generalize BitVec.carry (2 * 31) _ _ false = d
    cases x.getLsbD (2 * 31) <;> cases x.getLsbD (2 * 31 + 1) <;> cases b <;> cases d <;> decide
  rw [hc, shr63, exS_getLsbD]
  have ho := exA_odd x (k := 31) (by omega)
  rw [show 2 * 31 + 1 = 63 by omega, show 2 * 31 = 62 by omega] at ho
  rw [ho]
  have hp : pending (fun i => x.getLsbD i) c 64 =
      (x.getLsbD 63 && !(x.getLsbD 62 && !pending (fun i => x.getLsbD i) c 62)) := rfl
  rw [hp]
  generalize pending _ _ _ = d
  cases x.getLsbD 62 <;> cases x.getLsbD 63 <;> cases d <;> decide

/-- The word whose ones are counted by `cnt11`. -/
def exY (x c : Word) : Word := ex11 x ||| ((exA x + exB x c) &&& (exS x &&& 0x5555555555555555#64))

theorem exY_odd (x c : Word) {k : Nat} (hk : k < 32) : (exY x c).getLsbD (2 * k + 1) = false := by
  unfold exY
  rw [BitVec.getLsbD_or, BitVec.getLsbD_and, BitVec.getLsbD_and, getLsbD_mask5 (by omega), ex11_odd x hk]
  simp

theorem exY_even (x : Word) (c : Bool) {k : Nat} (hk : k < 32) :
    (exY x (BitVec.ofNat 64 c.toNat)).getLsbD (2 * k) =
      (cut (fun i => x.getLsbD i) c (2 * k) || cut (fun i => x.getLsbD i) c (2 * k + 1)) := by
  unfold exY
  rw [BitVec.getLsbD_or, BitVec.getLsbD_and, BitVec.getLsbD_and, getLsbD_mask5 (by omega), ex11_even x hk, t_even x c hk,
    exS_getLsbD, exA_even x hk]
  simp only [cut, pending]
  have : 2 * k % 2 = 0 := by omega
  simp only [this, decide_true]
  generalize pending _ _ _ = d
  cases x.getLsbD (2 * k) <;> cases x.getLsbD (2 * k + 1) <;> cases d <;> decide

theorem popcount_exY (x : Word) (c : Bool) :
    popcount (exY x (BitVec.ofNat 64 c.toNat)) = countTrue (cut (fun i => x.getLsbD i) c) 64 := by
  have : ∀ k, k ≤ 32 → countTrue (fun i => (exY x (BitVec.ofNat 64 c.toNat)).getLsbD i) (2 * k) =
      countTrue (cut (fun i => x.getLsbD i) c) (2 * k) := by
    intro k
    induction k with
    | zero => intro; rfl
    | succ k ih =>
      intro hk
      rw [show 2 * (k + 1) = 2 * k + 1 + 1 by omega]
      simp only [countTrue]
      rw [ih (by omega), exY_even x c (by omega), exY_odd x _ (by omega)]
      simp only [cut, pending]
      generalize pending _ _ _ = d
      cases x.getLsbD (2 * k) <;> cases x.getLsbD (2 * k + 1) <;> cases d <;> simp
  exact this 32 (by omega)

/-- Without ones at odd positions the first step of `cnt` does nothing. -/
theorem cntPairs_eq {y : Word} (h : ∀ k, k < 32 → y.getLsbD (2 * k + 1) = false) :
    cntPairs y = BitVec.ofNat 64 (popcount y) := by
  have hz : (y >>> 1) &&& 0x5555555555555555#64 = 0#64 := by
    rw [word_zero_iff]
    intro i hi
    rw [BitVec.getLsbD_and, BitVec.getLsbD_ushiftRight, getLsbD_mask5 hi]
    by_cases he : i % 2 = 0
    · have := h (i / 2) (by omega)
      rw [show 2 * (i / 2) + 1 = 1 + i by omega] at this
      simp [this]
    · simp [he]
  rw [← cnt_eq]
  unfold cnt
  rw [hz]
  simp only [BitVec.sub_zero]
  rfl

theorem cnt11c_eq (x : Word) (c : Bool) :
    cnt11c x (BitVec.ofNat 64 c.toNat) =
      (BitVec.ofNat 64 (countTrue (cut (fun i => x.getLsbD i) c) 64),
       BitVec.ofNat 64 (pending (fun i => x.getLsbD i) c 64).toNat) := by
  rw [← popcount_exY, ← cntPairs_eq (fun k hk => exY_odd x _ hk), pending_64]
  have e : cnt11c x (BitVec.ofNat 64 c.toNat) = (cntPairs (exY x (BitVec.ofNat 64 c.toNat)),
    if ((exS x >>> 63 != 0#64) || decide (exA x + exB x (BitVec.ofNat 64 c.toNat) < exA x)) = true then 1#64 else 0#64) := rfl
  rw [e]
  congr 1
  cases ((exS x >>> 63 != 0#64) || decide (exA x + exB x (BitVec.ofNat 64 c.toNat) < exA x)) <;> rfl

theorem cnt11_eq (x : Word) : cnt11 x = BitVec.ofNat 64 (countTrue (cut (fun i => x.getLsbD i) false) 64) := by
  rw [← popcount_exY, ← cntPairs_eq (fun k hk => exY_odd x _ hk)]
  have e : cnt11 x = cntPairs (ex11 x ||| ((exA x + ((exS x <<< 1) &&& 0x5555555555555555#64)) &&& (exS x &&& 0x5555555555555555#64))) := rfl
  rw [e]
  unfold exY exB
  congr 1
  simp

/-- `ends11` marks exactly the cuts. -/
theorem ends11_getLsbD (x : Word) (c : Bool) {i : Nat} (hi : i < 64) :
    (ends11 x (BitVec.ofNat 64 c.toNat)).getLsbD i = cut (fun i => x.getLsbD i) c i := by
  have e : ends11 x (BitVec.ofNat 64 c.toNat) =
      ex11 x + ((exA x + exB x (BitVec.ofNat 64 c.toNat)) &&& ((exS x &&& 0x5555555555555555#64) ||| ex11 x)) := rfl
  rw [e]
  generalize hU : ((exA x + exB x (BitVec.ofNat 64 c.toNat)) &&& ((exS x &&& 0x5555555555555555#64) ||| ex11 x)) = U
  have hodd : ∀ k, k < 32 → U.getLsbD (2 * k + 1) = false := by
    intro k hk
    rw [← hU, BitVec.getLsbD_and, BitVec.getLsbD_or, BitVec.getLsbD_and, getLsbD_mask5 (by omega), ex11_odd x hk]
    simp
  have heven : ∀ k, k < 32 → U.getLsbD (2 * k) =
      (((x.getLsbD (2 * k) && x.getLsbD (2 * k + 1)) ^^ pending (fun i => x.getLsbD i) c (2 * k)) && x.getLsbD (2 * k)) := by
    intro k hk
    rw [← hU, BitVec.getLsbD_and, BitVec.getLsbD_or, BitVec.getLsbD_and, getLsbD_mask5 (by omega), t_even x c hk,
      exS_getLsbD, exA_even x hk, ex11_even x hk]
    have : 2 * k % 2 = 0 := by omega
    simp only [this, decide_true]
    generalize pending _ _ _ = d
    cases x.getLsbD (2 * k) <;> cases x.getLsbD (2 * k + 1) <;> cases d <;> decide
  have hcar : ∀ k, k ≤ 32 → BitVec.carry (2 * k) (ex11 x) U false = false := by
    intro k
    induction k with
    | zero => intro; exact BitVec.carry_zero
    | succ k ih =>
      intro hk
      rw [show 2 * (k + 1) = 2 * k + 1 + 1 by omega, BitVec.carry_succ, BitVec.carry_succ, hodd k (by omega),
        ex11_odd x (by omega)]
      cases (Bool.atLeastTwo ((ex11 x).getLsbD (2 * k)) (U.getLsbD (2 * k)) (BitVec.carry (2 * k) (ex11 x) U false)) <;> rfl
  rw [BitVec.getLsbD_add hi]
  have hk : i / 2 < 32 := by omega
  generalize hkk : i / 2 = k at hk
  rcases (show i = 2 * k ∨ i = 2 * k + 1 by omega) with rfl | rfl
  · rw [hcar k (by omega), heven k hk, ex11_even x hk]
    simp only [cut]
    generalize pending _ _ _ = d
    cases x.getLsbD (2 * k) <;> cases x.getLsbD (2 * k + 1) <;> cases d <;> decide
  · rw [BitVec.carry_succ, hcar k (by omega), heven k hk, hodd k hk, ex11_even x hk, ex11_odd x hk]
    simp only [cut, pending]
    generalize pending _ _ _ = d
    cases x.getLsbD (2 * k) <;> cases x.getLsbD (2 * k + 1) <;> cases d <;> decide

/-! ### the intrinsic variants of `sel` -/

theorem ctzll_of_isLo {x : Word} {p : Nat} (h : IsLo x p) : ctzll x = some p := by
  unfold ctzll
  rw [List.find?_eq_some_iff_append]
  refine ⟨h.2.1, List.range p, (List.range (63 - p)).map (p + 1 + ·), ?_, ?_⟩
  · have h1 := h.1
    rw [show 64 = p + (1 + (63 - p)) by omega, List.range_add, List.range_add]
    simp
    intro a ha; omega
  · intro a ha
    have := h.2.2 a (by simpa using ha)
    simp [this]

theorem mask80 : ∀ i : Fin 64, (0x8080808080808080#64).getLsbD i.val = decide (i.val % 8 = 7) := by decide +kernel

theorem selSse_eq {x : Word} {i : Nat} (h1 : 1 ≤ i) (h2 : i ≤ popcount x) :
    ∃ p, selSse x i = some p ∧ IsSelect (fun i => x.getLsbD i) 64 i p := by
  have hp : popcount x = psum x 7 := by unfold popcount psum; rfl
  have h64 : i ≤ 64 := Nat.le_trans h2 (by rw [hp]; exact psum_le x 7 (by omega))
  obtain ⟨o, ho, ht⟩ := sel_overflow x h1 h64
  -- the first byte whose cumulative sum reaches `i`
  obtain ⟨r, hr, hr1, hr2⟩ : ∃ r, r < 8 ∧ i ≤ psum x r ∧ ∀ j, j < r → psum x j < i := by
    have : ∀ n, i ≤ psum x n → ∃ r, r ≤ n ∧ i ≤ psum x r ∧ ∀ j, j < r → psum x j < i := by
      intro n
      induction n with
      | zero => intro h; exact ⟨0, by omega, h, by intro j hj; omega⟩
      | succ n ih =>
        intro h
        by_cases hn : i ≤ psum x n
        · obtain ⟨r, a, b, c⟩ := ih hn; exact ⟨r, by omega, b, c⟩
        · refine ⟨n + 1, by omega, h, ?_⟩
          intro j hj
          have : psum x j ≤ psum x n := countTrue_mono _ (by omega)
          omega
    obtain ⟨r, a, b, c⟩ := this 7 (by omega)
    exact ⟨r, by omega, b, c⟩
  have hlo : IsLo ((selSums x + o) &&& 0x8080808080808080#64) (8 * r + 7) := by
    have hbit : ∀ j, j < 8 → ((selSums x + o).getLsbD (8 * j + 7) = true ↔ i ≤ psum x j) := by
      intro j hj; rw [← and_twoPow_ne_zero (by omega)]; exact ht j hj
    refine ⟨by omega, ?_, ?_⟩
    · rw [BitVec.getLsbD_and, (hbit r hr).2 hr1, mask80 ⟨8 * r + 7, by omega⟩]
      simp
    · intro q hq
      rw [BitVec.getLsbD_and, mask80 ⟨q, by omega⟩]
      by_cases hq8 : q % 8 = 7
      · have hh := hbit (q / 8) (by omega)
        rw [show 8 * (q / 8) + 7 = q by omega] at hh
        have := hr2 (q / 8) (by omega)
        have : (selSums x + o).getLsbD q = false := by
          cases hc : (selSums x + o).getLsbD q
          · rfl
          · have := hh.1 hc; omega
        simp [this]
      · simp [hq8]
  unfold selSse
  simp only [ho, ctzll_of_isLo hlo, Option.bind_eq_bind, Option.bind_some]
  have e3 : (8 * r + 7) >>> 3 = r := by rw [Nat.shiftRight_eq_div_pow]; omega
  have e4 : r <<< 3 = 8 * r := by rw [Nat.shiftLeft_eq]; omega
  rw [e3, e4]
  -- subtrahend
  have hS : ((selSums x <<< 8) >>> (8 * r) &&& 0xFF#64).toNat = countTrue (fun i => x.getLsbD i) (8 * r) := by
    rw [shr_and255]
    rcases Nat.eq_zero_or_pos r with h0 | h0
    · subst h0
      rw [byte, BitVec.toNat_shiftLeft, Nat.shiftLeft_eq]
      simp only [countTrue, Nat.pow_zero, Nat.div_one]
      omega
    · have hb := byte_selSums x (j := r - 1) (by omega)
      have e : psum x (r - 1) = countTrue (fun i => x.getLsbD i) (8 * r) := by
        unfold psum; congr 1; omega
      rw [← e, ← hb, byte, byte, BitVec.toNat_shiftLeft, Nat.shiftLeft_eq]
      have hl := (selSums x).isLt
      generalize (selSums x).toNat = n at *
      have : r = 1 ∨ r = 2 ∨ r = 3 ∨ r = 4 ∨ r = 5 ∨ r = 6 ∨ r = 7 := by omega
      rcases this with rfl | rfl | rfl | rfl | rfl | rfl | rfl <;> simp only [Nat.reduceSub, Nat.reducePow] <;> omega
  generalize hSS : countTrue (fun i => x.getLsbD i) (8 * r) = S at *
  have hSi : S < i := by
    rcases Nat.eq_zero_or_pos r with h0 | h0
    · subst h0; simp [countTrue] at hSS; omega
    · have := hr2 (r - 1) (by omega)
      have e : psum x (r - 1) = countTrue (fun i => x.getLsbD i) (8 * r) := by unfold psum; congr 1; omega
      omega
  have hle : i ≤ S + pop8 (byte x r) := by
    have : psum x r = S + pop8 (byte x r) := by
      rw [← hSS, ← countTrue_byte]; unfold psum
      rw [show 8 * (r + 1) = 8 * r + 8 by omega, countTrue_add]
    omega
  generalize (selSums x <<< 8) >>> (8 * r) &&& 0xFF#64 = d at *
  have h8 := pop8_le (byte x r)
  have hbl := byte_lt x r
  have hi1 : (BitVec.ofNat 32 i - d.setWidth 32).toNat = i - S := by
    rw [BitVec.toNat_sub_of_le]
    · rw [BitVec.toNat_ofNat, BitVec.toNat_setWidth, hS]; omega
    · rw [BitVec.le_def, BitVec.toNat_ofNat, BitVec.toNat_setWidth, hS]; omega
  generalize BitVec.ofNat 32 i - d.setWidth 32 = i' at *
  have hj : (((i' - 1#32) <<< 8).setWidth 64 + (x >>> (8 * r) &&& 0xFF#64)).toNat = 256 * (i - 1 - S) + byte x r := by
    have hle1 : 1#32 ≤ i' := by rw [BitVec.le_def, hi1]; simp; omega
    rw [BitVec.toNat_add, shr_and255, BitVec.toNat_setWidth, BitVec.toNat_shiftLeft, BitVec.toNat_sub_of_le hle1, hi1,
      Nat.shiftLeft_eq]
    simp only [BitVec.toNat_ofNat]
    omega
  rw [hj]
  obtain ⟨p, e1, hs⟩ := ltSel_eq hbl (show i - 1 - S < pop8 (byte x r) by omega)
  refine ⟨8 * r + p, ?_, isSelect_of_byte hr hSS hSi hs⟩
  simp only [e1, Option.bind_some, Option.pure_def]

theorem shl_one_bit {k t : Nat} (ht : t < 64) : (1#64 <<< k).getLsbD t = decide (t = k) := by
  rw [BitVec.getLsbD_shiftLeft]
  simp only [ht, decide_true, Bool.true_and]
  by_cases e : t = k
  · subst e; simp
  · by_cases e2 : t < k
    · simp [e, e2]
    · simp [e, e2]; omega

theorem pdep_bit {x : Word} {i j : Nat} (hj : j < 64) : (pdep (1#64 <<< (i - 1)) x).getLsbD j =
      (x.getLsbD j && decide (countTrue (fun i => x.getLsbD i) j = i - 1)) := by
  unfold pdep
  have := countTrue_le (fun i => x.getLsbD i) j
  rw [BitVec.getLsbD_ofNat, testBit_bitsVal, shl_one_bit (by omega)]
  simp only [hj, decide_true, Bool.true_and]

theorem selBmi2_eq {x : Word} {i : Nat} (h1 : 1 ≤ i) (h2 : i ≤ popcount x) :
    ∃ p, selBmi2 x i = some p ∧ IsSelect (fun i => x.getLsbD i) 64 i p := by
  unfold popcount at h2
  have h64 : i ≤ 64 := Nat.le_trans h2 (countTrue_le _ _)
  obtain ⟨p, hp⟩ := IsSelect.exists (n := 64) h1 h2
  refine ⟨p, ?_, hp⟩
  unfold selBmi2
  rw [shl_of_lt (show i - 1 < 64 by omega), Option.bind_eq_bind, Option.bind_some]
  have hb := fun j hj => @pdep_bit x i j hj
  obtain ⟨hp1, hp2, hp3⟩ := hp
  apply ctzll_of_isLo
  refine ⟨hp1, ?_, ?_⟩
  · rw [hb p hp1, show x.getLsbD p = true from hp2]; simp; omega
  · intro q hq
    rw [hb q (by omega)]
    cases hx : x.getLsbD q
    · rfl
    · have := countTrue_lt_of_true (f := fun i => x.getLsbD i) hq hx
      simp; omega

/-! ### `cnt32` -/

/-- Byte `k` of a 32-bit word. -/
def byte32 (x : BitVec 32) (k : Nat) : Nat := x.toNat / 256 ^ k % 256

theorem byte32_lt (x : BitVec 32) (k : Nat) : byte32 x k < 256 := Nat.mod_lt _ (by omega)

def bytes32 (x : BitVec 32) : List Nat := [byte32 x 0, byte32 x 1, byte32 x 2, byte32 x 3]

theorem ofBytes_bytes32 (x : BitVec 32) : ofBytes (bytes32 x) = x.toNat := by
  have := x.isLt
  simp only [bytes32, byte32, ofBytes]
  omega

/-- The pair and nibble sums of one byte. -/
def nib2 (b : Nat) : Nat :=
  let y := b - ((b >>> 1) &&& 0x55)
  (y &&& 0x33) + ((y >>> 2) &&& 0x33)

theorem nib2_tab : ∀ b : Fin 256, nib2 b.val % 16 + nib2 b.val / 16 = pop8 b.val ∧ nib2 b.val / 16 ≤ 4 ∧ nib2 b.val % 16 ≤ 4 ∧
    (nib2 b.val % 16 = 4 ↔ b.val &&& 0x0F = 0x0F) ∧ (nib2 b.val / 16 = 4 ↔ b.val &&& 0xF0 = 0xF0) := by decide +kernel

def sums32 (x : BitVec 32) : BitVec 32 :=
  let x := x - ((x >>> 1) &&& 0x55555555#32)
  (x &&& 0x33333333#32) + ((x >>> 2) &&& 0x33333333#32)

theorem sums32_toNat (x : BitVec 32) : (sums32 x).toNat = ofBytes ((bytes32 x).map nib2) := by
  have hb : ∀ b ∈ bytes32 x, b < 256 := by simp [bytes32, byte32_lt]
  have hl : (bytes32 x).length = 4 := rfl
  have r5 : rep 0x55 4 = 0x55555555 := by decide
  have r3 : rep 0x33 4 = 0x33333333 := by decide
  have e1 : ((x >>> 1) &&& 0x55555555#32).toNat = ofBytes ((bytes32 x).map (fun b => (b >>> 1) &&& 0x55)) := by
    rw [BitVec.toNat_and, BitVec.toNat_ushiftRight, ← ofBytes_bytes32, ← ofBytes_shr_and (by omega) (by omega) hb, hl, r5]; rfl
  have hle : ∀ b ∈ bytes32 x, ((b >>> 1) &&& 0x55) ≤ b := by
    intro b _
    exact Nat.le_trans Nat.and_le_left (by rw [Nat.shiftRight_eq_div_pow]; omega)
  have h2 := ofBytes_sub_map (bs := bytes32 x) (fun b => b) (fun b => (b >>> 1) &&& 0x55) hle
  have e2 : (x - ((x >>> 1) &&& 0x55555555#32)).toNat =
      ofBytes ((bytes32 x).map (fun b => b - ((b >>> 1) &&& 0x55))) := by
    rw [BitVec.toNat_sub_of_le, e1, ← h2.2]
    · simp [ofBytes_bytes32]
    · rw [BitVec.le_def, e1]; have := h2.1; simpa [ofBytes_bytes32] using this
  unfold sums32
  simp only
  generalize (x - ((x >>> 1) &&& 0x55555555#32)) = y at *
  have hyb : ∀ b ∈ (bytes32 x).map (fun b => b - ((b >>> 1) &&& 0x55)), b < 256 := by
    intro b hb'
    obtain ⟨a, ha, rfl⟩ := List.mem_map.1 hb'
    have := hb a ha; omega
  have e3 : (y &&& 0x33333333#32).toNat = ofBytes ((bytes32 x).map (fun b => (b - ((b >>> 1) &&& 0x55)) &&& 0x33)) := by
    rw [BitVec.toNat_and, e2]
    have := ofBytes_and (m := 0x33) (by omega) hyb
    rw [List.length_map, hl, r3, List.map_map] at this
    exact this
  have e4 : ((y >>> 2) &&& 0x33333333#32).toNat =
      ofBytes ((bytes32 x).map (fun b => ((b - ((b >>> 1) &&& 0x55)) >>> 2) &&& 0x33)) := by
    rw [BitVec.toNat_and, BitVec.toNat_ushiftRight, e2]
    have := ofBytes_shr_and (m := 0x33) (s := 2) (by omega) (by omega) hyb
    rw [List.length_map, hl, r3, List.map_map] at this
    exact this
  rw [BitVec.toNat_add, e3, e4, ofBytes_add_map, Nat.mod_eq_of_lt]
  · rfl
  · have : ∀ b ∈ (bytes32 x).map (fun b => nib2 b), b < 256 := by
      intro b hb'
      obtain ⟨a, ha, rfl⟩ := List.mem_map.1 hb'
      have := nib2_tab ⟨a, hb a ha⟩
      simp only at this; omega
    refine Nat.lt_of_lt_of_eq (ofBytes_lt this) ?_
    rw [List.length_map, hl]

theorem countTrue_bytes32 (x : BitVec 32) :
    countTrue (fun i => x.getLsbD i) 32 = pop8 (byte32 x 0) + pop8 (byte32 x 1) + pop8 (byte32 x 2) + pop8 (byte32 x 3) := by
  obtain ⟨f, hf⟩ : ∃ f : Nat → Bool, f = fun i => x.getLsbD i := ⟨_, rfl⟩
  have hbyte : ∀ k, countTrue (fun i => f (8 * k + i)) 8 = pop8 (byte32 x k) := by
    intro k
    apply countTrue_congr
    intro i hi
    rw [byte32, show 256 = 2 ^ 8 from rfl, ← Nat.pow_mul, Nat.testBit_mod_two_pow, Nat.testBit_div_two_pow]
    simp [hf, hi, BitVec.getLsbD, Nat.add_comm]
  rw [← hbyte 0, ← hbyte 1, ← hbyte 2, ← hbyte 3, ← hf]
  have := countTrue_add f 8 24
  have h2 := countTrue_add (fun i => f (8 + i)) 8 16
  have h3 := countTrue_add (fun i => f (8 + (8 + i))) 8 8
  simp only [Nat.reduceAdd, Nat.reduceMul, Nat.zero_add, ← Nat.add_assoc] at *
  have h0 : countTrue (fun i => f i) 8 = countTrue f 8 := rfl
  omega

theorem digits4 {d0 d1 d2 d3 e : Nat} (h0 : d0 ≤ e) (h1 : d1 ≤ e) (h2 : d2 ≤ e) (h3 : d3 ≤ e) (he : e < 256) :
    d0 + 256 * (d1 + 256 * (d2 + 256 * (d3 + 256 * 0))) = e + 256 * (e + 256 * (e + 256 * e)) ↔
      d0 = e ∧ d1 = e ∧ d2 = e ∧ d3 = e := by
  constructor
  · intro h
    have a0 : d0 = e := by omega
    have a1 : d1 = e := by omega
    have a2 : d2 = e := by omega
    exact ⟨a0, a1, a2, by omega⟩
  · rintro ⟨rfl, rfl, rfl, rfl⟩; rfl

theorem cnt32_arith1 {p0 p1 p2 p3 q0 q1 q2 q3 : Nat} (h : p0 ≤ 4 ∧ p1 ≤ 4 ∧ p2 ≤ 4 ∧ p3 ≤ 4 ∧ q0 ≤ 4 ∧ q1 ≤ 4 ∧ q2 ≤ 4 ∧ q3 ≤ 4) :
    269488144 * (p0 + 16 * q0 + 256 * (p1 + 16 * q1 + 256 * (p2 + 16 * q2 + 256 * (p3 + 16 * q3 + 256 * 0)))) % 4294967296 / 268435456
      = (p0 + p1 + p2 + p3) % 16 := by
  obtain ⟨u, hu, e⟩ : ∃ u, u < 268435456 ∧ ∃ v, 269488144 * (p0 + 16 * q0 + 256 * (p1 + 16 * q1 + 256 * (p2 + 16 * q2 + 256 * (p3 + 16 * q3 + 256 * 0)))) =
      268435456 * (p0 + p1 + p2 + p3) + u + 4294967296 * v := by
    refine ⟨16777216 * (q0 + q1 + q2) + 1048576 * (p0 + p1 + p2) + 65536 * (q0 + q1) + 4096 * (p0 + p1) + 256 * q0 + 16 * p0,
      by omega, (q0 + q1 + q2 + q3 + 16 * (p1 + p2 + p3) + 256 * (q1 + q2 + q3) + 4096 * (p2 + p3) + 65536 * (q2 + q3) + 1048576 * p3 + 16777216 * q3), by omega⟩
  obtain ⟨v, e⟩ := e
  rw [e, Nat.add_mul_mod_self_left]
  generalize p0 + p1 + p2 + p3 = P
  clear e h
  omega

theorem cnt32_arith2 {p0 p1 p2 p3 q0 q1 q2 q3 : Nat} (h : p0 ≤ 4 ∧ p1 ≤ 4 ∧ p2 ≤ 4 ∧ p3 ≤ 4 ∧ q0 ≤ 4 ∧ q1 ≤ 4 ∧ q2 ≤ 4 ∧ q3 ≤ 4) :
    16843009 * (p0 + 16 * q0 + 256 * (p1 + 16 * q1 + 256 * (p2 + 16 * q2 + 256 * (p3 + 16 * q3 + 256 * 0)))) % 4294967296 / 268435456
      = (q0 + q1 + q2 + q3 + (p0 + p1 + p2 + p3) / 16) % 16 := by
  obtain ⟨u, hu, e⟩ : ∃ u, u < 16777216 ∧ ∃ v, 16843009 * (p0 + 16 * q0 + 256 * (p1 + 16 * q1 + 256 * (p2 + 16 * q2 + 256 * (p3 + 16 * q3 + 256 * 0)))) =
      268435456 * (q0 + q1 + q2 + q3) + 16777216 * (p0 + p1 + p2 + p3) + u + 4294967296 * v := by
    refine ⟨1048576 * (q0 + q1 + q2) + 65536 * (p0 + p1 + p2) + 4096 * (q0 + q1) + 256 * (p0 + p1) + 16 * q0 + p0,
      by omega, ((p1 + p2 + p3) + 16 * (q1 + q2 + q3) + 256 * (p2 + p3) + 4096 * (q2 + q3) + 65536 * p3 + 1048576 * q3), by omega⟩
  obtain ⟨v, e⟩ := e
  rw [e, Nat.add_mul_mod_self_left]
  generalize p0 + p1 + p2 + p3 = P
  generalize q0 + q1 + q2 + q3 = Q
  clear e h
  omega

theorem cnt32_def (x : BitVec 32) : cnt32 x = ((0x10101010#32 * sums32 x) >>> 28) + ((0x01010101#32 * sums32 x) >>> 28) := rfl

theorem cnt32_toNat (x : BitVec 32) :
    ∃ e o, e + o = countTrue (fun i => x.getLsbD i) 32 ∧ e ≤ 16 ∧ o ≤ 16 ∧
      (e = 16 ↔ x &&& 0x0F0F0F0F#32 = 0x0F0F0F0F#32) ∧ (o = 16 ↔ x &&& 0xF0F0F0F0#32 = 0xF0F0F0F0#32) ∧
      (cnt32 x).toNat = e % 16 + (o + e / 16) % 16 := by
  have hs := sums32_toNat x
  have t0 := nib2_tab ⟨byte32 x 0, byte32_lt _ _⟩
  have t1 := nib2_tab ⟨byte32 x 1, byte32_lt _ _⟩
  have t2 := nib2_tab ⟨byte32 x 2, byte32_lt _ _⟩
  have t3 := nib2_tab ⟨byte32 x 3, byte32_lt _ _⟩
  simp only at t0 t1 t2 t3
  have hb : ∀ b ∈ bytes32 x, b < 256 := by simp [bytes32, byte32_lt]
  have ha : (x &&& 0x0F0F0F0F#32).toNat = ofBytes ((bytes32 x).map (fun b => b &&& 0x0F)) := by
    rw [BitVec.toNat_and, ← ofBytes_bytes32]
    have := ofBytes_and (m := 0x0F) (by omega) hb
    rw [show (bytes32 x).length = 4 from rfl, show rep 0x0F 4 = 0x0F0F0F0F by decide] at this
    exact this
  have ho : (x &&& 0xF0F0F0F0#32).toNat = ofBytes ((bytes32 x).map (fun b => b &&& 0xF0)) := by
    rw [BitVec.toNat_and, ← ofBytes_bytes32]
    have := ofBytes_and (m := 0xF0) (by omega) hb
    rw [show (bytes32 x).length = 4 from rfl, show rep 0xF0 4 = 0xF0F0F0F0 by decide] at this
    exact this
  have l0 : ∀ b, b &&& 0x0F ≤ 0x0F := fun b => Nat.and_le_right
  have l1 : ∀ b, b &&& 0xF0 ≤ 0xF0 := fun b => Nat.and_le_right
  simp only [bytes32, List.map_cons, List.map_nil, ofBytes] at hs ha ho
  refine ⟨nib2 (byte32 x 0) % 16 + nib2 (byte32 x 1) % 16 + nib2 (byte32 x 2) % 16 + nib2 (byte32 x 3) % 16,
    nib2 (byte32 x 0) / 16 + nib2 (byte32 x 1) / 16 + nib2 (byte32 x 2) / 16 + nib2 (byte32 x 3) / 16, ?_, by omega, by omega, ?_, ?_, ?_⟩
  · rw [countTrue_bytes32]; omega
  · have := digits4 (l0 (byte32 x 0)) (l0 (byte32 x 1)) (l0 (byte32 x 2)) (l0 (byte32 x 3)) (by omega)
    rw [← BitVec.toNat_inj (x := x &&& 0x0F0F0F0F#32), ha, BitVec.toNat_ofNat]
    simp only [Nat.reduceMul, Nat.reduceAdd, Nat.reduceMod, Nat.reducePow, Nat.mul_zero, Nat.add_zero] at this ⊢
    rw [this, ← t0.2.2.2.1, ← t1.2.2.2.1, ← t2.2.2.2.1, ← t3.2.2.2.1]
    omega
  · have := digits4 (l1 (byte32 x 0)) (l1 (byte32 x 1)) (l1 (byte32 x 2)) (l1 (byte32 x 3)) (by omega)
    rw [← BitVec.toNat_inj (x := x &&& 0xF0F0F0F0#32), ho, BitVec.toNat_ofNat]
    simp only [Nat.reduceMul, Nat.reduceAdd, Nat.reduceMod, Nat.reducePow, Nat.mul_zero, Nat.add_zero] at this ⊢
    rw [this, ← t0.2.2.2.2, ← t1.2.2.2.2, ← t2.2.2.2.2, ← t3.2.2.2.2]
    omega
  · rw [cnt32_def]
    simp only [BitVec.toNat_add, BitVec.toNat_ushiftRight, BitVec.toNat_mul, hs, Nat.shiftRight_eq_div_pow, BitVec.toNat_ofNat]
    simp only [Nat.reduceMod, Nat.reducePow]
    have n : ∀ k, nib2 (byte32 x k) = nib2 (byte32 x k) % 16 + 16 * (nib2 (byte32 x k) / 16) := by intro k; omega
    have hh : nib2 (byte32 x 0) % 16 ≤ 4 ∧ nib2 (byte32 x 1) % 16 ≤ 4 ∧ nib2 (byte32 x 2) % 16 ≤ 4 ∧ nib2 (byte32 x 3) % 16 ≤ 4 ∧
      nib2 (byte32 x 0) / 16 ≤ 4 ∧ nib2 (byte32 x 1) / 16 ≤ 4 ∧ nib2 (byte32 x 2) / 16 ≤ 4 ∧ nib2 (byte32 x 3) / 16 ≤ 4 := by omega
    have a1 := cnt32_arith1 hh
    have a2 := cnt32_arith2 hh
    rw [← n 0, ← n 1, ← n 2, ← n 3] at a1 a2
    rw [a1, a2]
    generalize nib2 (byte32 x 0) % 16 + nib2 (byte32 x 1) % 16 + nib2 (byte32 x 2) % 16 + nib2 (byte32 x 3) % 16 = P
    generalize nib2 (byte32 x 0) / 16 + nib2 (byte32 x 1) / 16 + nib2 (byte32 x 2) / 16 + nib2 (byte32 x 3) / 16 = Q
    omega
end Sdsl.Bits
