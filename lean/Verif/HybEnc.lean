/-
  `hyb_vector`: the byte memory, counting of ones and runs, and the encoders.
-/
import Verif.HybDec
import Verif.IntVecLemmas

namespace Sdsl.Hyb

open Bits Spec

/-! ### Byte memory -/

theorem rd_congr : ∀ {k : Nat} {m m' : List Nat} {p : Nat}, (∀ i, i < k → m'[p + i]? = m[p + i]?) → rd k m' p = rd k m p
  | 0, _, _, _, _ => rfl
  | k + 1, m, m', p, h => by
    rw [rd, rd, rd_congr (k := k) (m := m) (fun i hi => by have := h (i + 1) (by omega); rwa [← Nat.add_assoc, Nat.add_right_comm] at this)]
    have := h 0 (by omega)
    rw [Nat.add_zero] at this
    rw [this]

theorem wr_spec : ∀ (k : Nat) (m : List Nat) (p x : Nat), p + k ≤ m.length →
    ∃ m', wr k m p x = some m' ∧ m'.length = m.length ∧ rd k m' p = some (x % 256 ^ k) ∧ ∀ q, q < p ∨ p + k ≤ q → m'[q]? = m[q]?
  | 0, m, p, x, _ => ⟨m, rfl, rfl, by simp [rd, Nat.mod_one], fun _ _ => rfl⟩
  | k + 1, m, p, x, h => by
    obtain ⟨m', e1, e2, e3, e4⟩ := wr_spec k (m.set p (x % 256)) (p + 1) (x / 256) (by rw [List.length_set]; omega)
    refine ⟨m', ?_, by rw [e2, List.length_set], ?_, ?_⟩
    · rw [wr, setList_of_lt (by omega), hbind, e1]
    · rw [rd, e4 p (by omega), List.getElem?_set_self (by omega), hbind, e3, hbind]
      show some _ = some _
      congr 1
      rw [Nat.pow_succ, Nat.mul_comm (256 ^ k) 256, Nat.mod_mul]
    · intro q hq
      rw [e4 q (by omega), List.getElem?_set_ne (by omega)]

/-- One byte of a number that was read. -/
theorem rd_two {m : List Nat} {p y : Nat} (h : rd 2 m p = some y) (hb : ∀ x, m[p]? = some x → x < 256) : m[p + 1]? = some (y / 256) := by
  rw [rd] at h
  cases h1 : m[p]? with
  | none => rw [h1] at h; cases h
  | some a =>
    rw [h1, hbind, rd] at h
    cases h2 : m[p + 1]? with
    | none => rw [h2] at h; cases h
    | some b =>
      rw [h2, hbind, rd, hbind] at h
      have h3 : a + 256 * (b + 256 * 0) = y := by simpa using h
      have := hb a h1
      congr 1
      omega

/-! ### The table -/

/-- Number of changes in a 16-bit number. -/
def c15 (i : Nat) : Nat := countTrue (fun j => i.testBit j != i.testBit (j + 1)) 15

theorem testBit_half (i j : Nat) : (i / 2).testBit j = i.testBit (j + 1) := by
  rw [Nat.testBit_succ]

theorem c15_step {i : Nat} (hi : i < 65536) : c15 i + (i.testBit 15).toNat = (i.testBit 0 != i.testBit 1).toNat + c15 (i / 2) := by
  have h1 : c15 i = (i.testBit 0 != i.testBit 1).toNat + countTrue (fun j => i.testBit (1 + j) != i.testBit (1 + j + 1)) 14 := by
    unfold c15
    rw [show (15 : Nat) = 1 + 14 from rfl, countTrue_add]
    simp [countTrue]
  have h2 : c15 (i / 2) = countTrue (fun j => i.testBit (1 + j) != i.testBit (1 + j + 1)) 14 + (i.testBit 15 != i.testBit 16).toNat := by
    unfold c15
    rw [show (15 : Nat) = 14 + 1 from rfl, countTrue]
    rw [testBit_half, testBit_half]
    congr 1
  have h3 : i.testBit 16 = false := Nat.testBit_lt_two_pow (by omega)
  rw [h1, h2, h3]
  cases i.testBit 15 <;> simp <;> omega

theorem testBit_15 {i : Nat} (hi : i < 65536) : i.testBit 15 = decide (32768 ≤ i) := by
  rw [Nat.testBit_eq_decide_div_mod_eq]
  by_cases c : 32768 ≤ i
  · rw [decide_eq_true c, decide_eq_true (by omega)]
  · rw [decide_eq_false c, decide_eq_false (by omega)]

theorem testBit_01 (i : Nat) : (i.testBit 0 != i.testBit 1).toNat = if i % 2 ≠ i / 2 % 2 then 1 else 0 := by
  rw [← testBit_half i 0, Nat.testBit_zero, Nat.testBit_zero]
  rcases Nat.mod_two_eq_zero_or_one i with a | a <;> rcases Nat.mod_two_eq_zero_or_one (i / 2) with b | b <;> simp [a, b]

theorem c15_le (i : Nat) : c15 i ≤ 15 := countTrue_le _ _

theorem lookLoop_spec : ∀ (k i : Nat) (t : List Nat), 1 ≤ i → i + k = 65536 → t.length = 65536 → (∀ x, x < i → t[x]? = some (c15 x)) →
    ∃ t', lookLoop k i t = some t' ∧ ∀ x, x < 65536 → t'[x]? = some (c15 x)
  | 0, i, t, _, h2, _, h4 => ⟨t, rfl, fun x hx => h4 x (by omega)⟩
  | k + 1, i, t, h1, h2, h3, h4 => by
    have hst : lookStep t i = some (t.set i (c15 i)) := by
      rw [lookStep, h4 _ (by omega), hbind]
      dsimp only
      rw [setList_of_lt (by omega)]
      congr 2
      have hs := c15_step (i := i) (by omega)
      rw [testBit_15 (by omega), testBit_01] at hs
      have l1 := c15_le i
      have l2 := c15_le (i / 2)
      by_cases c : 32768 ≤ i
      · rw [decide_eq_true c] at hs
        rw [if_pos c]
        by_cases d : i % 2 ≠ i / 2 % 2
        · rw [if_pos d] at hs; rw [if_pos d]; simp only [Bool.toNat_true] at hs; omega
        · rw [if_neg d] at hs; rw [if_neg d]; simp only [Bool.toNat_true] at hs; omega
      · rw [decide_eq_false c] at hs
        rw [if_neg c]
        by_cases d : i % 2 ≠ i / 2 % 2
        · rw [if_pos d] at hs; rw [if_pos d]; simp only [Bool.toNat_false] at hs; omega
        · rw [if_neg d] at hs; rw [if_neg d]; simp only [Bool.toNat_false] at hs; omega
    rw [lookLoop, hst, hbind]
    refine lookLoop_spec k (i + 1) _ (by omega) (by omega) (by rw [List.length_set]; exact h3) (fun x hx => ?_)
    by_cases c : x = i
    · subst c; exact List.getElem?_set_self (by omega)
    · rw [List.getElem?_set_ne (Ne.symm c)]; exact h4 x (by omega)

theorem lookup_spec : ∃ t, lookup = some t ∧ ∀ x, x < 65536 → t[x]? = some (c15 x) := by
  rw [lookup]
  refine lookLoop_spec 65535 1 _ (by omega) (by omega) (List.length_replicate ..) (fun x hx => ?_)
  obtain rfl : x = 0 := by omega
  rw [List.getElem?_replicate, if_pos (by omega)]
  congr 1

/-- A table that counts changes. -/
def TabOk (tab : Nat → Option Nat) : Prop := ∀ x, x < 65536 → tab x = some (c15 x)

/-! ### Counting a block -/

/-- The bits of block `b`, padded with zeros. -/
def blk (v : IntVec) (b j : Nat) : Bool := decide (256 * b + j < v.size) && bitAt v.data (256 * b + j)

theorem pad_spec {v : IntVec} (hv : v.size ≤ 64 * v.data.length) (i : Nat) : pad v i = some (decide (i < v.size) && bitAt v.data i) := by
  rw [pad]
  by_cases c : i < v.size
  · rw [if_pos c, IntVec.get1_eq (by omega), decide_eq_true c, Bool.true_and]
  · rw [if_neg c, decide_eq_false c, Bool.false_and]

theorem pad_blk {v : IntVec} (hv : v.size ≤ 64 * v.data.length) {b i q : Nat} (h : i = 256 * b + q) : pad v i = some (blk v b q) := by
  rw [pad_spec hv, blk, h]

/-- The words of a full block. -/
theorem ld_blk {v : IntVec} (hv : v.size ≤ 64 * v.data.length) {b k : Nat} (hb : b * 256 + 256 ≤ v.size) (hk : k < 4) :
    ∃ w, ld v.data (4 * b + k) = some w ∧ ∀ j, j < 64 → w.getLsbD j = blk v b (64 * k + j) := by
  have hl : 4 * b + k < v.data.length := by omega
  refine ⟨v.data[4 * b + k], ld_of_lt hl, fun j hj => ?_⟩
  rw [blk, decide_eq_true (by omega), Bool.true_and, ← bitAt_mul_add hj hl]
  congr 1
  omega

theorem onesLoop_spec {v : IntVec} (hv : v.size ≤ 64 * v.data.length) {b : Nat} (hb : b * 256 + 256 ≤ v.size) :
    ∀ (k i : Nat), i + k ≤ 4 → onesLoop v.data k (4 * b + i) (countTrue (blk v b) (64 * i)) = some (countTrue (blk v b) (64 * (i + k)))
  | 0, _, _ => rfl
  | k + 1, i, h => by
    obtain ⟨w, e1, e2⟩ := ld_blk hv hb (show i < 4 by omega)
    rw [onesLoop, e1, hbind, cnt_toNat]
    have e : countTrue (blk v b) (64 * i) + popcount w = countTrue (blk v b) (64 * (i + 1)) := by
      rw [Nat.mul_succ, countTrue_add]
      rw [show popcount w = countTrue (fun i => w.getLsbD i) 64 from rfl, countTrue_congr e2]
    rw [e, Nat.add_assoc, onesLoop_spec hv hb k (i + 1) (by omega), Nat.add_right_comm, Nat.add_assoc]

/-- The changes inside a word whose bits are `f (base + j)`. -/
theorem tab_word {tab : Nat → Option Nat} (ht : TabOk tab) {f : Nat → Bool} {base : Nat} {w : Word} (hw : ∀ j, j < 64 → w.getLsbD j = f (base + j)) {j : Nat} (hj : j < 4) :
    tab ((w >>> (16 * j)) &&& 0xffff#64).toNat = some (countTrue (fun i => chg f (base + 16 * j + i)) 15) := by
  have hlt : ((w >>> (16 * j)) &&& 0xffff#64).toNat < 65536 := by
    rw [BitVec.toNat_and]
    exact Nat.lt_of_le_of_lt Nat.and_le_right (by decide)
  rw [ht _ hlt, c15]
  congr 1
  have hb : ∀ i, i < 16 → ((w >>> (16 * j)) &&& 0xffff#64).toNat.testBit i = f (base + 16 * j + i) := by
    intro i hi
    rw [BitVec.testBit_toNat, BitVec.getLsbD_and, BitVec.getLsbD_ushiftRight, hw _ (by omega), show (0xffff#64 : Word) = BitVec.ofNat 64 (2 ^ 16 - 1) from rfl, BitVec.getLsbD_ofNat, Nat.testBit_two_pow_sub_one,
      decide_eq_true hi, decide_eq_true (show i < 64 by omega), Bool.and_self, Bool.and_true, Nat.add_assoc]
  refine countTrue_congr (fun i hi => ?_)
  rw [hb i (by omega), hb (i + 1) (by omega), chg]
  rfl

theorem shift_one (w : Word) (j : Nat) : (w >>> j) &&& 1#64 = if w.getLsbD j then 1#64 else 0#64 := by
  have h := bit_shift w j
  cases c : w.getLsbD j with
  | false =>
    rw [c] at h
    simpa using h
  | true =>
    apply BitVec.eq_of_getLsbD_eq
    intro i hi
    rw [BitVec.getLsbD_and, BitVec.getLsbD_ushiftRight, if_pos rfl, BitVec.getLsbD_one]
    by_cases d : i = 0
    · subst d; simp [c]
    · simp [d]

theorem low_one (w : Word) : w &&& 1#64 = if w.getLsbD 0 then 1#64 else 0#64 := by
  have := shift_one w 0
  rwa [BitVec.ushiftRight_zero] at this

theorem xor_bits (a b : Bool) : (((if a then 1#64 else 0#64) ^^^ (if b then 1#64 else 0#64) : Word)).toNat = (a != b).toNat := by
  cases a <;> cases b <;> rfl

theorem ne_bits (a b : Bool) : ((if a then 1#64 else 0#64 : Word) != (if b then 1#64 else 0#64)) = (a != b) := by
  cases a <;> cases b <;> rfl

theorem eq_bits (a b : Bool) : ((if a then 1#64 else 0#64 : Word) == (if b then 1#64 else 0#64)) = (a == b) := by
  cases a <;> cases b <;> rfl

theorem word_runs {tab : Nat → Option Nat} (ht : TabOk tab) {f : Nat → Bool} {base : Nat} {w : Word} (hw : ∀ j, j < 64 → w.getLsbD j = f (base + j)) (a : Nat) :
    ∃ x, runs16 tab w 4 0 a = some x ∧ cross16 w 3 0 x = a + countTrue (fun i => chg f (base + i)) 63 := by
  have hx : ∀ j, j < 63 → (((w >>> j) &&& 1#64) ^^^ ((w >>> (j + 1)) &&& 1#64)).toNat = (chg f (base + j)).toNat := by
    intro j hj
    rw [shift_one, shift_one, xor_bits, hw j (by omega), hw (j + 1) (by omega), chg]
    rfl
  simp only [runs16]
  rw [tab_word ht hw (by omega), hbind, tab_word ht hw (by omega), hbind, tab_word ht hw (by omega), hbind, tab_word ht hw (by omega), hbind]
  refine ⟨_, rfl, ?_⟩
  simp only [cross16]
  rw [hx _ (by omega), hx _ (by omega), hx _ (by omega)]
  have hs : ∀ n, countTrue (fun i => chg f (base + i)) (n + 16) = countTrue (fun i => chg f (base + i)) n + countTrue (fun i => chg f (base + n + i)) 15 + (chg f (base + (n + 15))).toNat := by
    intro n
    rw [show n + 16 = n + 15 + 1 from rfl, countTrue, countTrue_add]
    simp only [Nat.add_assoc]
  have h0 := hs 0
  have h1 := hs 16
  have h2 := hs 32
  have h3 : countTrue (fun i => chg f (base + i)) 63 = countTrue (fun i => chg f (base + i)) 48 + countTrue (fun i => chg f (base + 48 + i)) 15 := by
    rw [show (63 : Nat) = 48 + 15 from rfl, countTrue_add]
    simp only [Nat.add_assoc]
  simp only [Nat.mul_zero, Nat.zero_add, Nat.mul_one, show countTrue (fun i => chg f (base + i)) 0 = 0 from rfl, Nat.reduceAdd, Nat.reduceMul] at h0 h1 h2 h3 ⊢
  omega

theorem countFast_spec {tab : Nat → Option Nat} (ht : TabOk tab) {v : IntVec} (hv : v.size ≤ 64 * v.data.length) {b : Nat} (hb : b * 256 + 256 ≤ v.size) :
    countFast tab v.data (4 * b) = some (countTrue (blk v b) 256, countTrue (chg (blk v b)) 255 + 1) := by
  obtain ⟨w0, a0, b0⟩ := ld_blk hv hb (show 0 < 4 by omega)
  obtain ⟨w1, a1, b1⟩ := ld_blk hv hb (show 1 < 4 by omega)
  obtain ⟨w2, a2, b2⟩ := ld_blk hv hb (show 2 < 4 by omega)
  obtain ⟨w3, a3, b3⟩ := ld_blk hv hb (show 3 < 4 by omega)
  have ho := onesLoop_spec hv hb 4 0 (by omega)
  have hz : countTrue (blk v b) (64 * 0) = 0 := rfl
  rw [hz, Nat.add_zero] at ho
  rw [countFast, ho, hbind]
  rw [Nat.add_zero] at a0
  simp only [runsWords, cross64, Nat.add_assoc, Nat.reduceAdd]
  obtain ⟨x0, c0, d0⟩ := word_runs ht b0 0
  rw [a0, hbind, c0, hbind, d0]
  obtain ⟨x1, c1, d1⟩ := word_runs ht b1 (0 + countTrue (fun i => chg (blk v b) (64 * 0 + i)) 63)
  rw [a1, hbind, c1, hbind, d1]
  obtain ⟨x2, c2, d2⟩ := word_runs ht b2 (0 + countTrue (fun i => chg (blk v b) (64 * 0 + i)) 63 + countTrue (fun i => chg (blk v b) (64 * 1 + i)) 63)
  rw [a2, hbind, c2, hbind, d2]
  obtain ⟨x3, c3, d3⟩ := word_runs ht b3 (0 + countTrue (fun i => chg (blk v b) (64 * 0 + i)) 63 + countTrue (fun i => chg (blk v b) (64 * 1 + i)) 63 + countTrue (fun i => chg (blk v b) (64 * 2 + i)) 63)
  rw [a3, hbind, c3, hbind, d3]
  simp only [hbind]
  rw [shift_one, shift_one, shift_one, low_one, low_one, low_one, xor_bits, xor_bits, xor_bits, b0 63 (by omega), b1 63 (by omega), b2 63 (by omega), b1 0 (by omega), b2 0 (by omega), b3 0 (by omega)]
  show some _ = some _
  congr 2
  have hs : ∀ n, countTrue (chg (blk v b)) (n + 64) = countTrue (chg (blk v b)) n + countTrue (fun i => chg (blk v b) (n + i)) 63 + (blk v b (n + 63) != blk v b (n + 64)).toNat := by
    intro n
    rw [show n + 64 = n + 63 + 1 from rfl, countTrue, countTrue_add]
    rfl
  have h0 := hs 0
  have h1 := hs 64
  have h2 := hs 128
  have h3 : countTrue (chg (blk v b)) 255 = countTrue (chg (blk v b)) 192 + countTrue (fun i => chg (blk v b) (192 + i)) 63 := by
    rw [show (255 : Nat) = 192 + 63 from rfl, countTrue_add]
  have h4 : countTrue (chg (blk v b)) 0 = 0 := rfl
  simp only [Nat.mul_zero, Nat.zero_add, Nat.mul_one, Nat.reduceAdd, Nat.reduceMul] at h0 h1 h2 h3 ⊢
  omega

theorem slowLoop_spec {v : IntVec} (hv : v.size ≤ 64 * v.data.length) {b : Nat} : ∀ (k q : Nat), slowLoop v k (b * 256 + q) (if q = 0 then none else some (blk v b (q - 1))) (countTrue (blk v b) q)
    (if q = 0 then 0 else countTrue (chg (blk v b)) (q - 1) + 1) = some (countTrue (blk v b) (q + k), if q + k = 0 then 0 else countTrue (chg (blk v b)) (q + k - 1) + 1)
  | 0, q => rfl
  | k + 1, q => by
    rw [slowLoop, pad_blk (b := b) (q := q) hv (by omega), hbind]
    have ih := slowLoop_spec hv (b := b) k (q + 1)
    rw [if_neg (Nat.succ_ne_zero q), if_neg (Nat.succ_ne_zero q), Nat.add_sub_cancel, countTrue] at ih
    have e1 : (if blk v b q then countTrue (blk v b) q + 1 else countTrue (blk v b) q) = countTrue (blk v b) q + (blk v b q).toNat := by
      cases blk v b q <;> rfl
    have e2 : (if some (blk v b q) ≠ (if q = 0 then none else some (blk v b (q - 1))) then (if q = 0 then 0 else countTrue (chg (blk v b)) (q - 1) + 1) + 1 else (if q = 0 then 0 else countTrue (chg (blk v b)) (q - 1) + 1)) =
        countTrue (chg (blk v b)) q + 1 := by
      by_cases c : q = 0
      · subst c; simp [countTrue]
      · rw [if_neg c, if_neg c]
        obtain ⟨n, rfl⟩ : ∃ n, q = n + 1 := ⟨q - 1, by omega⟩
        rw [Nat.add_sub_cancel, countTrue, chg]
        cases blk v b n <;> cases blk v b (n + 1) <;> simp
    rw [e1, e2, Nat.add_assoc, ih, Nat.add_right_comm, Nat.add_assoc]

theorem count_spec {tab : Nat → Option Nat} (ht : TabOk tab) {v : IntVec} (hv : v.size ≤ 64 * v.data.length) (b : Nat) :
    count tab v b = some (countTrue (blk v b) 256, countTrue (chg (blk v b)) 255 + 1) := by
  rw [count]
  by_cases c : b * 256 + 256 ≤ v.size
  · rw [if_pos c, countFast_spec ht hv c]
  · rw [if_neg c]
    have := slowLoop_spec hv (b := b) 256 0
    rw [if_pos rfl, if_pos rfl, Nat.zero_add, if_neg (by omega), Nat.add_zero, countTrue, show 256 - 1 = 255 from rfl] at this
    exact this

end Sdsl.Hyb
