/- Proofs about the block codec of rrr_vector (`rrr_helper`). -/
import Verif.Rrr
import Verif.SelectLemmas

namespace Sdsl.Rrr

open Sdsl.Spec Sdsl.Bv

theorem maxSize_ge {n : Nat} (h : n ≤ 256) : n ≤ maxSize n := by
  unfold maxSize maxLog
  split
  · exact h
  · split
    · show n ≤ 128; omega
    · show n ≤ 64; omega

theorem maxSize_pos (n : Nat) : 1 ≤ maxSize n := Nat.one_le_two_pow

theorem binom_lt_pow {nn B k : Nat} (h : nn ≤ B) (hB : 1 ≤ B) : binom nn k < 2 ^ B := by
  by_cases h0 : nn = 0
  · subst h0
    have h1 : 1 < 2 ^ B := Nat.one_lt_two_pow (by omega)
    have := binom_le 0 k
    omega
  · exact Nat.lt_of_lt_of_le (binom_lt k (by omega)) (Nat.pow_le_pow_right (by omega) h)

theorem length_row (N B nn : Nat) : (row N B nn).length = N + 1 := by
  induction nn with
  | zero => simp [row]
  | succ nn ih => simp [row, ih]

theorem row_get {N B : Nat} (hB : 1 ≤ B) : ∀ (nn k : Nat), nn ≤ B → k ≤ N → (row N B nn)[k]? = some (binom nn k)
  | 0, k, _, hk => by
    cases k with
    | zero => rfl
    | succ k =>
      have : k < N := by omega
      simp [row, this]
      exact (binom_gt 0 (k + 1) (by omega)).symm
  | nn + 1, k, hn, hk => by
    cases k with
    | zero => simp [row, binom_zero]
    | succ k =>
      have h1 := row_get (N := N) hB nn k (by omega) (by omega)
      have h2 := row_get (N := N) hB nn (k + 1) (by omega) hk
      have h3 : binom nn k + binom nn (k + 1) < 2 ^ B := by
        rw [← binom_succ]; exact binom_lt_pow hn hB
      simp only [row, List.getElem?_cons_succ]
      rw [List.getElem?_zipWith, h1, List.getElem?_tail, h2]
      simp only [Option.some.injEq]
      rw [Nat.mod_eq_of_lt h3, binom_succ]

theorem tbl_eq {n nn k : Nat} (h256 : n ≤ 256) (h1 : 1 ≤ nn) (h2 : nn ≤ n + 1) (hk : k ≤ n) : tbl n nn k = some (binom (nn - 1) k) := by
  have := maxSize_ge h256
  unfold tbl
  rw [if_neg (by omega)]
  exact row_get (maxSize_pos n) _ _ (by omega) (by omega)

theorem space_eq {n k : Nat} (h256 : n ≤ 256) (hk : k ≤ n) :
    space n k = some (if binom n k = 1 then 0 else Nat.log2 (binom n k) + 1) := by
  unfold space
  rw [row_get (maxSize_pos n) n k (maxSize_ge h256) hk]
  rfl

/-- Code length of a block with `k` ones. -/
def sp (n k : Nat) : Nat := if binom n k = 1 then 0 else Nat.log2 (binom n k) + 1

theorem sp_symm {n k : Nat} (h : k ≤ n) : sp n (n - k) = sp n k := by unfold sp; rw [binom_symm h]

theorem lt_sp {n k x : Nat} (h : x < binom n k) : x < 2 ^ sp n k := by
  unfold sp
  split
  · omega
  · exact Nat.lt_trans h (Nat.lt_log2_self)

theorem sp_le {n k : Nat} (h1 : 1 ≤ n) : sp n k ≤ n := by
  unfold sp
  split
  · omega
  · by_cases h0 : binom n k = 0
    · rw [h0]; simp [Nat.log2_zero]; exact h1
    · have := (Nat.log2_lt h0).2 (binom_lt k h1); omega

theorem sp_zero (n : Nat) : sp n 0 = 0 := by unfold sp; rw [binom_zero]; rfl

theorem sp_self (n : Nat) : sp n n = 0 := by unfold sp; rw [binom_self]; rfl

/-! The number `n - nr - 1` -/

theorem lastPos_eq {n nr : Nat} (h256 : n ≤ 256) (h : nr < n) : lastPos n nr = n - nr - 1 := by
  unfold lastPos
  have h1 := maxSize_ge h256
  have h2 : n < 2 ^ maxSize n := Nat.lt_of_le_of_lt h1 Nat.lt_two_pow_self
  generalize 2 ^ maxSize n = M at *
  rw [show n + M - nr + (M - 1) = (n - nr - 1) + M * 2 by omega, Nat.add_mul_mod_self_left, Nat.mod_eq_of_lt (by omega)]

theorem lastPos_wt_one {n : Nat} {s : List Bool} (h256 : n ≤ 256) (hw : wt s = 1) (hl : s.length ≤ n) :
    ∃ p, p < s.length ∧ lastPos n (enc s) = (n - s.length) + p ∧ ∀ q, bit s q = decide (q = p) := by
  obtain ⟨p, h1, h2, h3⟩ := enc_of_wt_one s hw
  exact ⟨p, h1, by rw [lastPos_eq h256 (by omega)]; omega, h3⟩

/-! `bin_to_nr` -/

/-- The low `n` bits of a number as a list. -/
def bitsOf (x n : Nat) : List Bool := (List.range n).map (fun i => x.testBit i)

theorem length_bitsOf (x n : Nat) : (bitsOf x n).length = n := by simp [bitsOf]

theorem bit_bitsOf (x n q : Nat) : bit (bitsOf x n) q = (decide (q < n) && x.testBit q) := by
  unfold bit bitsOf
  rw [List.getD_eq_getElem?_getD, List.getElem?_map]
  by_cases h : q < n
  · rw [List.getElem?_range h]; simp [h]
  · rw [List.getElem?_eq_none (by simpa using h)]; simp [h]

theorem list_ext_bit {s t : List Bool} (hl : s.length = t.length) (h : ∀ q, q < s.length → bit s q = bit t q) : s = t := by
  apply List.ext_getElem hl
  intro q h1 h2
  rw [← bit_of_lt h1, ← bit_of_lt h2]
  exact h q h1

theorem bitsOf_succ (x n : Nat) : bitsOf x (n + 1) = (decide (x % 2 = 1)) :: bitsOf (x / 2) n := by
  apply list_ext_bit (by simp [length_bitsOf])
  intro q hq
  rw [bit_bitsOf]
  cases q with
  | zero => rw [bit_cons_zero]; simp [Nat.testBit_zero]
  | succ q => rw [bit_cons_succ, bit_bitsOf, Nat.testBit_succ]; simp

theorem bitsOf_zero (n : Nat) : bitsOf 0 n = List.replicate n false := by
  apply list_ext_bit (by simp [length_bitsOf])
  intro q hq
  rw [bit_bitsOf, bit_replicate]; simp

theorem wt_false (n : Nat) : wt (List.replicate n false) = 0 := by
  have := wt_zeros n []
  rw [List.append_nil, wt_nil] at this
  exact this

theorem binLoop_eq {n : Nat} (h256 : n ≤ 256) : ∀ (nn bin nr : Nat), nn ≤ n → bin < 2 ^ nn →
    nr + binom nn (wt (bitsOf bin nn)) ≤ 2 ^ maxSize n →
    binLoop n nn bin (wt (bitsOf bin nn)) nr = some (nr + enc (bitsOf bin nn))
  | 0, bin, nr, _, hb, _ => by
    have : bin = 0 := by simpa using hb
    subst this
    simp [binLoop, bitsOf, enc]
  | nn + 1, bin, nr, hn, hb, hov => by
    by_cases h0 : bin = 0
    · subst h0
      rw [binLoop, if_pos rfl, bitsOf_zero, enc_of_wt_zero _ (wt_false _)]; rfl
    · rw [binLoop, if_neg h0]
      have hb2 : bin / 2 < 2 ^ nn := by rw [Nat.pow_succ] at hb; omega
      have hw := wt_le (bitsOf (bin / 2) nn)
      rw [length_bitsOf] at hw
      by_cases h1 : bin % 2 = 1
      · have hs : bitsOf bin (nn + 1) = true :: bitsOf (bin / 2) nn := by rw [bitsOf_succ]; simp [h1]
        rw [if_pos h1, hs, wt_cons, Bool.toNat_true, if_neg (by omega), tbl_eq h256 (by omega) (by omega) (by omega), sbind]
        rw [hs, wt_cons, Bool.toNat_true, Nat.add_comm 1, binom_succ] at hov
        have := binom_pos nn _ hw
        rw [Nat.add_sub_cancel, Nat.add_comm 1, Nat.add_sub_cancel, Nat.mod_eq_of_lt (by omega),
          binLoop_eq h256 nn (bin / 2) _ (by omega) hb2 (by omega), enc_true, length_bitsOf, Nat.add_assoc]
      · have hs : bitsOf bin (nn + 1) = false :: bitsOf (bin / 2) nn := by rw [bitsOf_succ]; simp [h1]
        rw [if_neg h1, hs, wt_cons, Bool.toNat_false, Nat.zero_add, enc_false]
        apply binLoop_eq h256 nn (bin / 2) nr (by omega) hb2
        rw [hs, wt_cons, Bool.toNat_false, Nat.zero_add] at hov
        exact Nat.le_trans (Nat.add_le_add_left (binom_le_succ _ _) _) hov

theorem popBig_eq {n x : Nat} (h256 : n ≤ 256) (hx : x < 2 ^ n) : popBig n x = wt (bitsOf x n) := by
  have hm := maxSize_ge h256
  have e : popBig n x = cnt true (bitsOf x n) (maxSize n) := by
    unfold popBig cnt
    apply countTrue_congr
    intro i _
    rw [bit_bitsOf]
    by_cases h : i < n
    · simp [h]
    · simp [h]
      apply Nat.testBit_lt_two_pow
      exact Nat.lt_of_lt_of_le hx (Nat.pow_le_pow_right (by omega) (by omega))
  rw [e, cnt_all _ (by rw [length_bitsOf]; exact hm)]

theorem enc_full : ∀ s : List Bool, wt s = s.length → enc s = 0
  | [], _ => rfl
  | true :: s, h => by
    rw [wt_cons, List.length_cons, Bool.toNat_true] at h
    rw [enc_true, binom_gt _ _ (by omega), enc_full s (by omega)]
  | false :: s, h => by
    have := wt_le s
    rw [wt_cons, List.length_cons, Bool.toNat_false] at h; omega

theorem binToNr_eq {n bin : Nat} (h256 : n ≤ 256) (hb : bin < 2 ^ n) : binToNr n bin = some (enc (bitsOf bin n)) := by
  unfold binToNr
  by_cases h : bin = 0 ∨ bin = 2 ^ n - 1
  · rw [if_pos h]
    rcases h with h | h
    · subst h; rw [bitsOf_zero, enc_of_wt_zero _ (wt_false _)]
    · congr 1
      symm
      apply enc_full
      have hall : ∀ q, q < n → bit (bitsOf bin n) q = true := by
        intro q hq
        rw [bit_bitsOf, h, Nat.testBit_two_pow_sub_one]; simp [hq]
      unfold wt cnt
      rw [length_bitsOf]
      rw [countTrue_congr (g := fun _ => true) (fun i hi => by rw [hall i hi]; rfl), countTrue_true]
  · rw [if_neg h, popBig_eq h256 hb, binLoop_eq h256 n bin 0 (by omega) hb, Nat.zero_add]
    rw [Nat.zero_add]
    have := binom_lt_pow (k := wt (bitsOf bin n)) (maxSize_ge h256) (maxSize_pos n)
    omega

/-! Linear decoders -/

theorem cons_of_wt {s : List Bool} {nn : Nat} (hl : s.length = nn + 1) : ∃ b t, s = b :: t ∧ t.length = nn := by
  cases s with
  | nil => simp at hl
  | cons b t => exact ⟨b, t, rfl, by simpa using hl⟩

theorem bitLin_eq {n off : Nat} (h256 : n ≤ 256) : ∀ (nn i : Nat) (s : List Bool), s.length = nn → i + nn = n → 1 ≤ wt s →
    bitLin n off nn (wt s) (enc s) i = some (if off < i then false else bit s (off - i))
  | 0, i, s, hl, _, hw => by have := wt_le s; omega
  | nn + 1, i, s, hl, hi, hw => by
    rw [bitLin]
    by_cases h1 : wt s > 1
    · rw [if_pos h1]
      by_cases h2 : i > off
      · rw [if_pos h2, if_pos (by omega)]
      · rw [if_neg h2, if_neg (by omega)]
        obtain ⟨b, t, rfl, ht⟩ := cons_of_wt hl
        have hwl := wt_le (b :: t)
        have hiff := enc_ge_iff b t
        rw [ht] at hiff
        rw [tbl_eq h256 (by omega) (by omega) (by omega), sbind, Nat.add_sub_cancel]
        cases b with
        | true =>
          rw [if_pos (hiff.2 rfl)]
          by_cases h3 : i = off
          · rw [if_pos h3, h3, Nat.sub_self, bit_cons_zero]
          · have hwt : wt (true :: t) - 1 = wt t := by rw [wt_cons]; simp
            have henc : enc (true :: t) - binom nn (wt (true :: t)) = enc t := by
              rw [enc_true, wt_cons, ht, Bool.toNat_true, Nat.add_comm 1, Nat.add_sub_cancel_left]
            rw [if_neg h3, hwt, henc, bitLin_eq h256 nn (i + 1) t ht (by omega) (by rw [wt_cons] at h1; simp at h1; omega),
              if_neg (by omega), show off - i = (off - (i + 1)) + 1 by omega, bit_cons_succ]
        | false =>
          have hwt : wt (false :: t) = wt t := by rw [wt_cons]; simp
          rw [if_neg (fun h => by have := hiff.1 h; contradiction), hwt, enc_false,
            bitLin_eq h256 nn (i + 1) t ht (by omega) (by omega)]
          by_cases h3 : off < i + 1
          · rw [if_pos h3, show off - i = 0 by omega, bit_cons_zero]
          · rw [if_neg h3, show off - i = (off - (i + 1)) + 1 by omega, bit_cons_succ]
    · rw [if_neg h1]
      obtain ⟨p, hp1, hp2, hp3⟩ := lastPos_wt_one h256 (s := s) (n := n) (by omega) (by omega)
      rw [hp2, hp3, show n - s.length = i by omega]
      congr 1
      by_cases h : off < i
      · rw [if_pos h]; simp; omega
      · rw [if_neg h]
        by_cases h2 : off - i = p
        · have : i + p = off := by omega
          simp [this, h2]
        · have : ¬ i + p = off := by omega
          simp [this, h2]

theorem cnt_one {s : List Bool} {p : Nat} (h : ∀ q, bit s q = decide (q = p)) {m : Nat} : cnt true s m = (decide (p < m)).toNat := by
  induction m with
  | zero => simp [cnt_zero]
  | succ m ih =>
    rw [cnt_succ, ih, h]
    by_cases h1 : m = p
    · subst h1; simp
    · by_cases h2 : p < m
      · simp [h1, h2, show p < m + 1 by omega]
      · simp [h1, h2, show ¬ p < m + 1 by omega]

theorem popLin_eq {n off : Nat} (h256 : n ≤ 256) : ∀ (nn i res : Nat) (s : List Bool), s.length = nn → i + nn = n → 1 ≤ wt s →
    popLin n off nn (wt s) (enc s) i res = some (res + cnt true s (off - i))
  | 0, i, res, s, hl, _, hw => by have := wt_le s; omega
  | nn + 1, i, res, s, hl, hi, hw => by
    rw [popLin]
    by_cases h1 : wt s > 1
    · rw [if_pos h1]
      by_cases h2 : i ≥ off
      · rw [if_pos h2, show off - i = 0 by omega, cnt_zero, Nat.add_zero]
      · rw [if_neg h2]
        obtain ⟨b, t, rfl, ht⟩ := cons_of_wt hl
        have hwl := wt_le (b :: t)
        have hiff := enc_ge_iff b t
        rw [ht] at hiff
        rw [tbl_eq h256 (by omega) (by omega) (by omega), sbind, Nat.add_sub_cancel]
        have hc := cnt_cons true b t (off - (i + 1))
        rw [show off - i = (off - (i + 1)) + 1 by omega, hc]
        cases b with
        | true =>
          have hwt : wt (true :: t) - 1 = wt t := by rw [wt_cons]; simp
          have henc : enc (true :: t) - binom nn (wt (true :: t)) = enc t := by
            rw [enc_true, wt_cons, ht, Bool.toNat_true, Nat.add_comm 1, Nat.add_sub_cancel_left]
          rw [if_pos (hiff.2 rfl), hwt, henc, popLin_eq h256 nn (i + 1) _ t ht (by omega) (by rw [wt_cons] at h1; simp at h1; omega)]
          simp; omega
        | false =>
          have hwt : wt (false :: t) = wt t := by rw [wt_cons]; simp
          rw [if_neg (fun h => by have := hiff.1 h; contradiction), hwt, enc_false,
            popLin_eq h256 nn (i + 1) _ t ht (by omega) (by omega)]
          simp
    · rw [if_neg h1]
      obtain ⟨p, hp1, hp2, hp3⟩ := lastPos_wt_one h256 (s := s) (n := n) (by omega) (by omega)
      rw [hp2, show n - s.length = i by omega, cnt_one hp3]
      congr 2
      by_cases h : p < off - i
      · have : i + p < off := by omega
        simp [h, this]
      · have : ¬ i + p < off := by omega
        simp [h, this]

theorem selLin_eq {n : Nat} (h256 : n ≤ 256) : ∀ (nn i sel : Nat) (s : List Bool), s.length = nn → i + nn = n → 1 ≤ sel →
    sel ≤ wt s → ∃ p, selLin n nn (wt s) (enc s) sel i = some (i + p) ∧ p < s.length ∧ bit s p = true ∧ cnt true s p + 1 = sel
  | 0, i, sel, s, hl, _, h1, hw => by have := wt_le s; omega
  | nn + 1, i, sel, s, hl, hi, h1, hw => by
    rw [selLin, if_pos (by omega)]
    obtain ⟨b, t, rfl, ht⟩ := cons_of_wt hl
    have hwl := wt_le (b :: t)
    have hiff := enc_ge_iff b t
    rw [ht] at hiff
    rw [tbl_eq h256 (by omega) (by omega) (by omega), sbind, Nat.add_sub_cancel]
    cases b with
    | true =>
      have hwt : wt (true :: t) - 1 = wt t := by rw [wt_cons]; simp
      have henc : enc (true :: t) - binom nn (wt (true :: t)) = enc t := by
        rw [enc_true, wt_cons, ht, Bool.toNat_true, Nat.add_comm 1, Nat.add_sub_cancel_left]
      rw [if_pos (hiff.2 rfl), hwt, henc]
      by_cases h2 : sel = 1
      · refine ⟨0, ?_, by simp, bit_cons_zero _ _, by rw [cnt_zero]; omega⟩
        subst h2
        cases nn with
        | zero => simp [selLin]
        | succ nn => rw [selLin, if_neg (by omega)]; rfl
      · obtain ⟨p, hp1, hp2, hp3, hp4⟩ := selLin_eq h256 nn (i + 1) (sel - 1) t ht (by omega) (by omega)
          (by rw [wt_cons] at hw; simp at hw; omega)
        refine ⟨p + 1, ?_, by simpa using hp2, by rw [bit_cons_succ]; exact hp3, ?_⟩
        · rw [hp1]; congr 1; omega
        · rw [cnt_cons]; simp; omega
    | false =>
      have hwt : wt (false :: t) = wt t := by rw [wt_cons]; simp
      rw [if_neg (fun h => by have := hiff.1 h; contradiction), hwt, enc_false]
      obtain ⟨p, hp1, hp2, hp3, hp4⟩ := selLin_eq h256 nn (i + 1) sel t ht (by omega) h1 (by omega)
      refine ⟨p + 1, ?_, by simpa using hp2, by rw [bit_cons_succ]; exact hp3, ?_⟩
      · rw [hp1]; congr 1; omega
      · rw [cnt_cons]; simp; omega

theorem selZero_eq {n : Nat} (h256 : n ≤ 256) : ∀ (nn i sel : Nat) (s : List Bool), s.length = nn → i + nn = n → 1 ≤ sel →
    sel ≤ nn - wt s → ∃ p, selZero n nn (wt s) (enc s) sel i = some (i + p) ∧ p < s.length ∧ bit s p = false ∧
      cnt false s p + 1 = sel
  | 0, i, sel, s, hl, _, h1, hw => by omega
  | nn + 1, i, sel, s, hl, hi, h1, hw => by
    rw [selZero, if_pos (by omega)]
    obtain ⟨b, t, rfl, ht⟩ := cons_of_wt hl
    have hwl := wt_le (b :: t)
    have hiff := enc_ge_iff b t
    rw [ht] at hiff
    rw [tbl_eq h256 (by omega) (by omega) (by omega), sbind, Nat.add_sub_cancel]
    cases b with
    | true =>
      have hwt : wt (true :: t) - 1 = wt t := by rw [wt_cons]; simp
      have henc : enc (true :: t) - binom nn (wt (true :: t)) = enc t := by
        rw [enc_true, wt_cons, ht, Bool.toNat_true, Nat.add_comm 1, Nat.add_sub_cancel_left]
      rw [if_pos (hiff.2 rfl), hwt, henc]
      obtain ⟨p, hp1, hp2, hp3, hp4⟩ := selZero_eq h256 nn (i + 1) sel t ht (by omega) h1
          (by rw [wt_cons] at hw; simp at hw; omega)
      refine ⟨p + 1, ?_, by simpa using hp2, by rw [bit_cons_succ]; exact hp3, ?_⟩
      · rw [hp1]; congr 1; omega
      · rw [cnt_cons]; simp; omega
    | false =>
      have hwt : wt (false :: t) = wt t := by rw [wt_cons]; simp
      rw [if_neg (fun h => by have := hiff.1 h; contradiction), hwt, enc_false]
      by_cases h2 : sel = 1
      · refine ⟨0, ?_, by simp, bit_cons_zero _ _, by rw [cnt_zero]; omega⟩
        subst h2
        cases nn with
        | zero => simp [selZero]
        | succ nn => rw [selZero, if_neg (by omega)]; rfl
      · obtain ⟨p, hp1, hp2, hp3, hp4⟩ := selZero_eq h256 nn (i + 1) (sel - 1) t ht (by omega) (by omega)
          (by rw [hwt] at hw; omega)
        refine ⟨p + 1, ?_, by simpa using hp2, by rw [bit_cons_succ]; exact hp3, ?_⟩
        · rw [hp1]; congr 1; omega
        · rw [cnt_cons]; simp; omega

/-- Bits of the block suffix `s` (starting at block position `i`) that fall into the window `[off, off+len)`, as a number. -/
theorem intLast_eq {n off len i res : Nat} {s : List Bool} (h256 : n ≤ 256) (hs : i + s.length = n) (hw : wt s = 1) (h1 : 1 ≤ len)
    (h64 : len ≤ 64) : ∃ r, intLast n (enc s) off len res = some r ∧
      ∀ j, r.testBit j = (res.testBit j || (decide (j < len) && decide (i ≤ off + j) && bit s (off + j - i))) := by
  obtain ⟨p, hp1, hp2, hp3⟩ := lastPos_wt_one h256 (s := s) (n := n) hw (by omega)
  unfold intLast
  rw [hp2, show n - s.length = i by omega]
  by_cases h : i + p ≥ off ∧ i + p ≤ off + len - 1
  · rw [if_pos h]
    unfold one64
    rw [if_pos (by omega), sbind]
    refine ⟨_, rfl, ?_⟩
    intro j
    rw [Nat.testBit_or, Nat.testBit_two_pow, hp3]
    congr 1
    by_cases hj : i + p - off = j
    · simp [hj, show j < len by omega, show i ≤ off + j by omega, show off + j - i = p by omega]
    · by_cases h3 : i ≤ off + j
      · simp [hj, show ¬ off + j - i = p by omega]
      · simp [hj, h3]
  · rw [if_neg h]
    refine ⟨_, rfl, ?_⟩
    intro j
    rw [hp3]
    by_cases hj : j < len
    · by_cases h3 : i ≤ off + j
      · simp [show ¬ off + j - i = p by omega]
      · simp [h3]
    · simp [hj]

theorem intLin_eq {n off len : Nat} (h256 : n ≤ 256) (h1 : 1 ≤ len) (h64 : len ≤ 64) : ∀ (nn i res : Nat) (s : List Bool),
    s.length = nn → i + nn = n → 1 ≤ wt s → ∃ r, intLin n off len nn (wt s) (enc s) i res = some r ∧
      ∀ j, r.testBit j = (res.testBit j || (decide (j < len) && decide (i ≤ off + j) && bit s (off + j - i)))
  | 0, i, res, s, hl, _, hw => by have := wt_le s; omega
  | nn + 1, i, res, s, hl, hi, hw => by
    rw [intLin]
    by_cases hk : wt s > 1
    · rw [if_pos hk]
      by_cases h2 : i > off + len - 1
      · rw [if_pos h2]
        refine ⟨_, rfl, ?_⟩
        intro j
        by_cases hj : j < len
        · simp [show ¬ i ≤ off + j by omega]
        · simp [hj]
      · rw [if_neg h2]
        obtain ⟨b, t, rfl, ht⟩ := cons_of_wt hl
        have hwl := wt_le (b :: t)
        have hiff := enc_ge_iff b t
        rw [ht] at hiff
        rw [tbl_eq h256 (by omega) (by omega) (by omega), sbind, Nat.add_sub_cancel]
        have hbit : ∀ j, (decide (i ≤ off + j) && bit (b :: t) (off + j - i)) =
            ((decide (i = off + j) && b) || (decide (i + 1 ≤ off + j) && bit t (off + j - (i + 1)))) := by
          intro j
          by_cases h3 : i = off + j
          · rw [show off + j - i = 0 by omega, bit_cons_zero]
            simp [h3, show ¬ off + j + 1 ≤ off + j by omega]
          · by_cases h4 : i + 1 ≤ off + j
            · rw [show off + j - i = (off + j - (i + 1)) + 1 by omega, bit_cons_succ]
              simp [h3, h4, show i ≤ off + j by omega]
            · simp [h3, h4, show ¬ i ≤ off + j by omega]
        cases b with
        | true =>
          have hwt : wt (true :: t) - 1 = wt t := by rw [wt_cons]; simp
          have henc : enc (true :: t) - binom nn (wt (true :: t)) = enc t := by
            rw [enc_true, wt_cons, ht, Bool.toNat_true, Nat.add_comm 1, Nat.add_sub_cancel_left]
          have hwt1 : 1 ≤ wt t := by rw [wt_cons] at hk; simp at hk; omega
          rw [if_pos (hiff.2 rfl), hwt, henc]
          by_cases h5 : i ≥ off
          · rw [if_pos h5]
            unfold one64
            rw [if_pos (by omega), sbind]
            obtain ⟨r, hr, hrb⟩ := intLin_eq h256 h1 h64 nn (i + 1) (res ||| 2 ^ (i - off)) t ht (by omega) hwt1
            refine ⟨r, hr, ?_⟩
            intro j
            rw [hrb, Bool.and_assoc, Bool.and_assoc, hbit, Nat.testBit_or, Nat.testBit_two_pow]
            by_cases h6 : i = off + j
            · simp [h6, show j < len by omega]
            · simp [h6, show ¬ i - off = j by omega]
          · rw [if_neg h5]
            obtain ⟨r, hr, hrb⟩ := intLin_eq h256 h1 h64 nn (i + 1) res t ht (by omega) hwt1
            refine ⟨r, hr, ?_⟩
            intro j
            rw [hrb, Bool.and_assoc, Bool.and_assoc, hbit]
            simp [show ¬ i = off + j by omega]
        | false =>
          have hwt : wt (false :: t) = wt t := by rw [wt_cons]; simp
          rw [if_neg (fun h => by have := hiff.1 h; contradiction), hwt, enc_false]
          obtain ⟨r, hr, hrb⟩ := intLin_eq h256 h1 h64 nn (i + 1) res t ht (by omega) (by omega)
          refine ⟨r, hr, ?_⟩
          intro j
          rw [hrb, Bool.and_assoc, Bool.and_assoc, hbit]
          simp
    · rw [if_neg hk]
      exact intLast_eq h256 (by omega) (by omega) h1 h64

/-! Binary-search decoders -/

theorem bsearch_eq {n k nr x : Nat} (h256 : n ≤ 256) (hk : k ≤ n) (hx : binom x k ≤ nr) (hx2 : nr < binom (x + 1) k) :
    ∀ (fuel lb rb : Nat), rb - lb < fuel → 1 ≤ lb → lb ≤ x + 2 → x + 2 ≤ rb → rb ≤ n + 1 →
      bsearch n k nr fuel lb rb = some (x + 2)
  | 0, _, _, h, _, _, _, _ => by omega
  | fuel + 1, lb, rb, hf, h1, h2, h3, h4 => by
    rw [bsearch]
    by_cases h : lb < rb
    · rw [if_pos h]
      dsimp only
      rw [tbl_eq h256 (by omega) (by omega) hk, sbind]
      by_cases hc : binom ((lb + rb) / 2 - 1) k ≤ nr
      · have hle : (lb + rb) / 2 - 1 ≤ x := by
          apply Nat.le_of_not_lt
          intro hlt
          have := binom_mono k (show x + 1 ≤ (lb + rb) / 2 - 1 by omega)
          omega
        simp only [if_pos hc]
        exact bsearch_eq h256 hk hx hx2 fuel _ _ (by omega) (by omega) (by omega) h3 h4
      · have hgt : x < (lb + rb) / 2 - 1 := by
          apply Nat.lt_of_not_le
          intro hle
          have := binom_mono k hle
          omega
        simp only [if_neg hc]
        exact bsearch_eq h256 hk hx hx2 fuel _ _ (by omega) h1 h2 (by omega) (by omega)
    · rw [if_neg h]
      congr 1; omega

/-- The binary search for the first one of a block suffix. -/
theorem bsearch_first {n nn j : Nat} {r : List Bool} (h256 : n ≤ 256) (hl : j + 1 + r.length = nn) (hn : nn ≤ n)
    {k nr : Nat} (hk : k = wt r + 1) (hnr : nr = binom r.length k + enc r) :
    bsearch n k nr (nn + 2) k (nn + 1) = some (r.length + 2) := by
  have h1 := wt_le r
  have h2 := enc_lt r
  apply bsearch_eq h256 (by omega) (x := r.length)
  · omega
  · rw [hk, binom_succ]; rw [hk] at hnr; omega
  · omega
  · omega
  · omega
  · omega
  · omega

theorem bitBs_eq {n off : Nat} (h256 : n ≤ 256) : ∀ (k nn : Nat) (s : List Bool), s.length = nn → nn ≤ n → wt s = k → 1 ≤ k →
    n - nn ≤ off → bitBs n off k nn (enc s) = some (bit s (off - (n - nn)))
  | 0, _, _, _, _, _, h, _ => by omega
  | 1, nn, s, hl, hn, hw, _, ho => by
    obtain ⟨p, hp1, hp2, hp3⟩ := lastPos_wt_one h256 (s := s) (n := n) hw (by omega)
    rw [bitBs, hp2, hp3, hl]
    congr 1
    by_cases h : off - (n - nn) = p
    · simp [h]; omega
    · simp [h]; omega
  | k + 2, nn, s, hl, hn, hw, _, ho => by
    obtain ⟨j, r, rfl⟩ := split_first s (by omega)
    rw [wt_zeros, wt_cons, Bool.toNat_true] at hw
    simp only [List.length_append, List.length_replicate, List.length_cons] at hl
    rw [enc_zeros, enc_true, bitBs, bsearch_first (j := j) (r := r) h256 (by omega) hn (by omega) (by rw [show wt r + 1 = k + 2 by omega]), sbind]
    dsimp only
    rw [show r.length + 2 - 1 = r.length + 1 by omega]
    by_cases h1 : n - (r.length + 1) ≥ off
    · rw [if_pos h1]
      by_cases h2 : n - (r.length + 1) = off
      · rw [bit_zeros_ge _ (by omega), show off - (n - nn) - j = 0 by omega, bit_cons_zero]
        simp [h2]
      · rw [bit_zeros_lt _ (by omega)]
        simp [h2]
    · rw [if_neg h1, tbl_eq h256 (by omega) (by omega) (by have := wt_le r; omega), sbind, Nat.add_sub_cancel]
      rw [show wt r + 1 = k + 2 by omega, Nat.add_sub_cancel_left]
      rw [bitBs_eq h256 (k + 1) r.length r rfl (by omega) (by omega) (by omega) (by omega), bit_zeros_ge _ (by omega),
        show off - (n - nn) - j = (off - (n - r.length)) + 1 by omega, bit_cons_succ]

theorem popBs_eq {n off : Nat} (h256 : n ≤ 256) : ∀ (k nn res : Nat) (s : List Bool), s.length = nn → nn ≤ n → wt s = k → 1 ≤ k →
    n - nn ≤ off → popBs n off k nn (enc s) res = some (res + cnt true s (off - (n - nn)))
  | 0, _, _, _, _, _, _, h, _ => by omega
  | 1, nn, res, s, hl, hn, hw, _, ho => by
    obtain ⟨p, hp1, hp2, hp3⟩ := lastPos_wt_one h256 (s := s) (n := n) hw (by omega)
    rw [popBs, hp2, cnt_one hp3, hl]
    congr 2
    by_cases h : p < off - (n - nn)
    · have : n - nn + p < off := by omega
      simp [h, this]
    · have : ¬ n - nn + p < off := by omega
      simp [h, this]
  | k + 2, nn, res, s, hl, hn, hw, _, ho => by
    obtain ⟨j, r, rfl⟩ := split_first s (by omega)
    rw [wt_zeros, wt_cons, Bool.toNat_true] at hw
    simp only [List.length_append, List.length_replicate, List.length_cons] at hl
    rw [enc_zeros, enc_true, popBs, bsearch_first (j := j) (r := r) h256 (by omega) hn (by omega) (by rw [show wt r + 1 = k + 2 by omega]), sbind]
    dsimp only
    rw [show r.length + 2 - 1 = r.length + 1 by omega, cnt_zeros]
    by_cases h1 : n - (r.length + 1) ≥ off
    · rw [if_pos h1, show off - (n - nn) - j = 0 by omega, cnt_zero]; rfl
    · rw [if_neg h1, tbl_eq h256 (by omega) (by omega) (by have := wt_le r; omega), sbind, Nat.add_sub_cancel]
      rw [show wt r + 1 = k + 2 by omega, Nat.add_sub_cancel_left]
      rw [popBs_eq h256 (k + 1) r.length _ r rfl (by omega) (by omega) (by omega) (by omega),
        show off - (n - nn) - j = (off - (n - r.length)) + 1 by omega, cnt_cons]
      simp; omega

theorem selBs_eq {n : Nat} (h256 : n ≤ 256) : ∀ (sel nn : Nat) (s : List Bool), s.length = nn → nn ≤ n → 1 ≤ sel → sel ≤ wt s →
    ∃ p, selBs n sel (wt s) nn (enc s) = some (n - nn + p) ∧ p < nn ∧ bit s p = true ∧ cnt true s p + 1 = sel
  | 0, _, _, _, _, h, _ => by omega
  | sel + 1, nn, s, hl, hn, _, hw => by
    obtain ⟨j, r, rfl⟩ := split_first s (by omega)
    rw [wt_zeros, wt_cons, Bool.toNat_true] at hw
    simp only [List.length_append, List.length_replicate, List.length_cons] at hl
    rw [wt_zeros, wt_cons, Bool.toNat_true, Nat.add_comm 1, enc_zeros, enc_true, selBs,
      bsearch_first (j := j) (r := r) h256 (by omega) hn rfl rfl, sbind]
    dsimp only
    rw [show r.length + 2 - 1 = r.length + 1 by omega]
    rw [tbl_eq h256 (by omega) (by omega) (by have := wt_le r; omega), sbind, Nat.add_sub_cancel, Nat.add_sub_cancel,
      Nat.add_sub_cancel_left]
    by_cases h1 : sel = 0
    · subst h1
      refine ⟨j, ?_, by omega, ?_, ?_⟩
      · rw [selBs]; congr 1; omega
      · rw [bit_zeros_ge _ (Nat.le_refl _), Nat.sub_self, bit_cons_zero]
      · rw [cnt_zeros, Nat.sub_self, cnt_zero]
    · obtain ⟨p, hp1, hp2, hp3, hp4⟩ := selBs_eq h256 sel r.length r rfl (by omega) (by omega) (by omega)
      refine ⟨j + 1 + p, ?_, by omega, ?_, ?_⟩
      · rw [hp1]; congr 1; omega
      · rw [bit_zeros_ge _ (by omega), show j + 1 + p - j = p + 1 by omega, bit_cons_succ, hp3]
      · rw [cnt_zeros, show j + 1 + p - j = p + 1 by omega, cnt_cons]; simp; omega

/-! The decoders applied to a whole block -/

variable {n : Nat} {s : List Bool}

theorem decodeBit_eq (h256 : n ≤ 256) (hl : s.length = n) {off : Nat} (ho : off < n) :
    decodeBit n (wt s) (enc s) off = some (bit s off) := by
  unfold decodeBit
  by_cases h1 : wt s = n
  · rw [if_pos h1, wt_full (by omega) off (by omega)]
  · rw [if_neg h1]
    by_cases h2 : wt s = 0
    · rw [if_pos h2, bit_of_wt_zero h2]
    · rw [if_neg h2]
      by_cases h3 : wt s = 1
      · rw [if_pos h3]
        obtain ⟨p, hp1, hp2, hp3⟩ := lastPos_wt_one h256 (s := s) (n := n) h3 (by omega)
        rw [hp2, hp3, hl, Nat.sub_self, Nat.zero_add]
        congr 1
        by_cases h : off = p
        · simp [h]
        · simp [h]; omega
      · rw [if_neg h3]
        by_cases h4 : wt s < threshold n
        · rw [if_pos h4, bitBs_eq h256 (wt s) n s hl (by omega) rfl (by omega) (by omega), Nat.sub_self, Nat.sub_zero]
        · rw [if_neg h4, bitLin_eq h256 n 0 s hl (by omega) (by omega), if_neg (by omega), Nat.sub_zero]

theorem decodePopcount_eq (h256 : n ≤ 256) (hl : s.length = n) {off : Nat} (ho : off ≤ n) :
    decodePopcount n (wt s) (enc s) off = some (cnt true s off) := by
  unfold decodePopcount
  by_cases h1 : wt s = n
  · rw [if_pos h1]
    congr 1
    have hall := wt_full (s := s) (by omega)
    unfold cnt
    rw [countTrue_congr (g := fun _ => true) (fun i hi => by rw [hall i (by omega)]; rfl), countTrue_true]
  · rw [if_neg h1]
    by_cases h2 : wt s = 0
    · rw [if_pos h2]
      congr 1
      unfold cnt
      rw [countTrue_congr (g := fun _ => false) (fun i hi => by rw [bit_of_wt_zero h2]; rfl), countTrue_false]
    · rw [if_neg h2]
      by_cases h3 : wt s = 1
      · rw [if_pos h3]
        obtain ⟨p, hp1, hp2, hp3⟩ := lastPos_wt_one h256 (s := s) (n := n) h3 (by omega)
        rw [hp2, cnt_one hp3, hl, Nat.sub_self, Nat.zero_add]
      · rw [if_neg h3]
        by_cases h4 : wt s < threshold n
        · rw [if_pos h4, popBs_eq h256 (wt s) n 0 s hl (by omega) rfl (by omega) (by omega), Nat.sub_self, Nat.sub_zero,
            Nat.zero_add]
        · rw [if_neg h4, popLin_eq h256 n 0 0 s hl (by omega) (by omega), Nat.sub_zero, Nat.zero_add]

theorem decodeSelect_eq (h256 : n ≤ 256) (hl : s.length = n) {sel : Nat} (h1 : 1 ≤ sel) (h2 : sel ≤ wt s) :
    ∃ p, decodeSelect n (wt s) (enc s) sel = some p ∧ p < n ∧ bit s p = true ∧ cnt true s p + 1 = sel := by
  unfold decodeSelect
  by_cases h3 : wt s = n
  · rw [if_pos h3]
    have hall := wt_full (s := s) (by omega)
    refine ⟨_, rfl, by omega, hall _ (by omega), ?_⟩
    unfold cnt
    rw [countTrue_congr (g := fun _ => true) (fun i hi => by rw [hall i (by omega)]; rfl), countTrue_true]
    omega
  · rw [if_neg h3]
    by_cases h4 : wt s = 1 ∧ sel = 1
    · rw [if_pos h4]
      obtain ⟨p, hp1, hp2, hp3⟩ := lastPos_wt_one h256 (s := s) (n := n) h4.1 (by omega)
      refine ⟨p, ?_, by omega, by rw [hp3]; simp, ?_⟩
      · rw [hp2]; congr 1; omega
      · rw [cnt_one hp3]; simp; omega
    · rw [if_neg h4]
      by_cases h5 : sel < threshold n
      · rw [if_pos h5]
        obtain ⟨p, hp1, hp2, hp3, hp4⟩ := selBs_eq h256 sel n s hl (by omega) h1 h2
        exact ⟨p, by rw [hp1]; congr 1; omega, hp2, hp3, hp4⟩
      · rw [if_neg h5]
        obtain ⟨p, hp1, hp2, hp3, hp4⟩ := selLin_eq h256 n 0 sel s hl (by omega) h1 h2
        exact ⟨p, by rw [hp1]; congr 1; omega, by omega, hp3, hp4⟩

theorem decodeInt_eq (h256 : n ≤ 256) (hl : s.length = n) {off len : Nat} (h1 : 1 ≤ len) (h64 : len ≤ 64) (ho : off + len ≤ n) :
    decodeInt n (wt s) (enc s) off len = some (fld s off len) := by
  have key : ∀ r : Nat, (∀ j, r.testBit j = (decide (j < len) && bit s (off + j))) → r = fld s off len := by
    intro r hr
    apply Nat.eq_of_testBit_eq
    intro j
    rw [hr, testBit_fld]
  unfold decodeInt
  by_cases h3 : wt s = n
  · rw [if_pos h3, if_pos h64]
    have hall := wt_full (s := s) (by omega)
    congr 1
    apply key
    intro j
    rw [Nat.testBit_two_pow_sub_one]
    by_cases hj : j < len
    · simp [hj, hall (off + j) (by omega)]
    · simp [hj]
  · rw [if_neg h3]
    by_cases h2 : wt s = 0
    · rw [if_pos h2]
      congr 1
      apply key
      intro j
      rw [bit_of_wt_zero h2]; simp
    · rw [if_neg h2]
      by_cases h4 : wt s = 1
      · rw [if_pos h4]
        obtain ⟨r, hr, hrb⟩ := intLast_eq (off := off) (len := len) (i := 0) (res := 0) h256 (by omega : 0 + s.length = n) h4 h1 h64
        rw [hr]
        congr 1
        apply key
        intro j
        rw [hrb]; simp
      · rw [if_neg h4]
        obtain ⟨r, hr, hrb⟩ := intLin_eq (off := off) h256 h1 h64 n 0 0 s hl (by omega) (by omega)
        rw [hr]
        congr 1
        apply key
        intro j
        rw [hrb]; simp

/-! Reading and writing wide numbers -/

theorem maxLog_cases (n : Nat) (h256 : n ≤ 256) : (maxLog n = 6 ∧ n ≤ 64) ∨ (maxLog n = 7 ∧ n ≤ 128) ∨ (maxLog n = 8 ∧ n ≤ 256) := by
  unfold maxLog
  split
  · omega
  · split <;> omega

theorem decodeBtnr_eq (h256 : n ≤ 256) {B : List Bool} {pos len : Nat} (hp : pos + len ≤ B.length) (hl : len ≤ n) :
    decodeBtnr n B pos len = some (fld B pos len) := by
  have h0 := maxLog_cases n h256
  unfold decodeBtnr
  by_cases h1 : len ≤ 64 ∨ maxLog n = 6
  · rw [if_pos h1, getInt_of_le hp (by omega)]
  · rw [if_neg h1]
    have e64 : fld B pos len = fld B pos 64 + 2 ^ 64 * fld B (pos + 64) (len - 64) := by
      rw [← fld_add, show 64 + (len - 64) = len by omega]
    by_cases h2 : maxLog n = 7
    · rw [if_pos h2, getInt_of_le (by omega) (by omega), sbind, getInt_of_le (by omega) (by omega), sbind]
      show some _ = some _
      congr 1
      rw [Nat.mul_comm, Nat.add_comm, ← e64]
      apply Nat.mod_eq_of_lt
      exact Nat.lt_of_lt_of_le (fld_lt _ _ _) (Nat.pow_le_pow_right (by omega) (by omega))
    · rw [if_neg h2]
      by_cases h3 : len ≤ 128
      · rw [if_pos h3, getInt_of_le (by omega) (by omega), sbind, getInt_of_le (by omega) (by omega), sbind, e64]; rfl
      · rw [if_neg h3]
        have e128 : fld B (pos + 64) (len - 64) = fld B (pos + 64) 64 + 2 ^ 64 * fld B (pos + 128) (len - 128) := by
          rw [show len - 64 = 64 + (len - 128) by omega, fld_add]
        by_cases h4 : len ≤ 192
        · rw [if_pos h4, getInt_of_le (by omega) (by omega), sbind, getInt_of_le (by omega) (by omega), sbind,
            getInt_of_le (by omega) (by omega), sbind, e64, e128]
          refine congrArg some ?_
          omega
        · have e192 : fld B (pos + 128) (len - 128) = fld B (pos + 128) 64 + 2 ^ 64 * fld B (pos + 192) (len - 192) := by
            rw [show len - 128 = 64 + (len - 192) by omega, fld_add]
          rw [if_neg h4, getInt_of_le (by omega) (by omega), sbind, getInt_of_le (by omega) (by omega), sbind,
            getInt_of_le (by omega) (by omega), sbind, getInt_of_le (by omega) (by omega), sbind, e64, e128, e192]
          refine congrArg some ?_
          omega

/-- Effect of `set_bt`: exactly the bits of the field change. -/
theorem setBt_eq (h256 : n ≤ 256) {B : List Bool} {pos x len : Nat} (hp : pos + len ≤ B.length) (hl : len ≤ n) (hx : x < 2 ^ len) :
    ∃ B', setBt n B pos x len = some B' ∧ B'.length = B.length ∧
      ∀ q, bit B' q = if pos ≤ q ∧ q < pos + len then x.testBit (q - pos) else bit B q := by
  have h0 := maxLog_cases n h256
  unfold setBt
  by_cases h1 : len ≤ 64 ∨ maxLog n = 6
  · rw [if_pos h1, setInt_of_le hp (by omega)]
    refine ⟨_, rfl, length_wr hp, ?_⟩
    intro q
    rw [bit_wr hp, Nat.mod_eq_of_lt (Nat.lt_of_lt_of_le hx (Nat.pow_le_pow_right (by omega) (by omega)))]
  · rw [if_neg h1]
    have tb : ∀ d j, (x / 2 ^ d % 2 ^ 64).testBit j = (decide (j < 64) && x.testBit (d + j)) := by
      intro d j
      rw [Nat.testBit_mod_two_pow, Nat.testBit_div_two_pow, Nat.add_comm]
    have tb0 : ∀ j, (x % 2 ^ 64).testBit j = (decide (j < 64) && x.testBit j) := fun j => Nat.testBit_mod_two_pow _ _ _
    by_cases h2 : maxLog n = 7 ∨ len ≤ 128
    · rw [if_pos h2, setInt_of_le (by omega) (by omega), sbind,
        setInt_of_le (by rw [length_wr (by omega)]; omega) (by omega)]
      refine ⟨_, rfl, by rw [length_wr (by rw [length_wr (by omega)]; omega), length_wr (by omega)], ?_⟩
      intro q
      rw [bit_wr (by rw [length_wr (by omega)]; omega), bit_wr (by omega), tb, tb0]
      by_cases c0 : pos ≤ q ∧ q < pos + len
      · rw [if_pos c0]
        by_cases c1 : q < pos + 64
        · rw [if_neg (by omega), if_pos (by omega)]; simp; omega
        · rw [if_pos (by omega), show 64 + (q - (pos + 64)) = q - pos by omega]; simp; omega
      · rw [if_neg c0, if_neg (by omega), if_neg (by omega)]
    · rw [if_neg h2]
      by_cases h3 : len ≤ 192
      · have l1 : (wr B pos (x % 2 ^ 64) 64).length = B.length := length_wr (by omega)
        have l2 : (wr (wr B pos (x % 2 ^ 64) 64) (pos + 64) (x / 2 ^ 64 % 2 ^ 64) 64).length = B.length := by
          rw [length_wr (by omega), l1]
        rw [if_pos h3, setInt_of_le (by omega) (by omega), sbind, setInt_of_le (by omega) (by omega), sbind,
          setInt_of_le (by omega) (by omega)]
        refine ⟨_, rfl, by rw [length_wr (by omega), l2], ?_⟩
        intro q
        rw [bit_wr (by omega), bit_wr (by omega), bit_wr (by omega), tb, tb, tb0]
        by_cases c0 : pos ≤ q ∧ q < pos + len
        · rw [if_pos c0]
          by_cases c1 : q < pos + 64
          · rw [if_neg (by omega), if_neg (by omega), if_pos (by omega)]; simp; omega
          · by_cases c2 : q < pos + 128
            · rw [if_neg (by omega), if_pos (by omega), show 64 + (q - (pos + 64)) = q - pos by omega]; simp; omega
            · rw [if_pos (by omega), show 128 + (q - (pos + 128)) = q - pos by omega]; simp; omega
        · rw [if_neg c0, if_neg (by omega), if_neg (by omega), if_neg (by omega)]
      · have l1 : (wr B pos (x % 2 ^ 64) 64).length = B.length := length_wr (by omega)
        have l2 : (wr (wr B pos (x % 2 ^ 64) 64) (pos + 64) (x / 2 ^ 64 % 2 ^ 64) 64).length = B.length := by
          rw [length_wr (by omega), l1]
        have l3 : (wr (wr (wr B pos (x % 2 ^ 64) 64) (pos + 64) (x / 2 ^ 64 % 2 ^ 64) 64) (pos + 128)
            (x / 2 ^ 128 % 2 ^ 64) 64).length = B.length := by rw [length_wr (by omega), l2]
        rw [if_neg h3, setInt_of_le (by omega) (by omega), sbind, setInt_of_le (by omega) (by omega), sbind,
          setInt_of_le (by omega) (by omega), sbind, setInt_of_le (by omega) (by omega)]
        refine ⟨_, rfl, by rw [length_wr (by omega), l3], ?_⟩
        intro q
        rw [bit_wr (by omega), bit_wr (by omega), bit_wr (by omega), bit_wr (by omega), tb, tb, tb, tb0]
        by_cases c0 : pos ≤ q ∧ q < pos + len
        · rw [if_pos c0]
          by_cases c1 : q < pos + 64
          · rw [if_neg (by omega), if_neg (by omega), if_neg (by omega), if_pos (by omega)]; simp; omega
          · by_cases c2 : q < pos + 128
            · rw [if_neg (by omega), if_neg (by omega), if_pos (by omega), show 64 + (q - (pos + 64)) = q - pos by omega]
              simp; omega
            · by_cases c3 : q < pos + 192
              · rw [if_neg (by omega), if_pos (by omega), show 128 + (q - (pos + 128)) = q - pos by omega]; simp; omega
              · rw [if_pos (by omega), show 192 + (q - (pos + 192)) = q - pos by omega]; simp; omega
        · rw [if_neg c0, if_neg (by omega), if_neg (by omega), if_neg (by omega), if_neg (by omega)]

end Sdsl.Rrr
