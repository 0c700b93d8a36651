/- Reading and summing the 4-bit block types of rrr_vector<15>. -/
import Verif.Rrr15Tab
import Verif.BitsCount
import Verif.BitsRW

namespace Sdsl.Rrr15

open Sdsl.Spec Sdsl.Bv Sdsl.Rrr Sdsl.Bits

/-- Sum of the last `k` hexadecimal digits. -/
def ds : Nat → Nat → Nat
  | 0, _ => 0
  | k + 1, x => x % 16 + ds k (x / 16)

theorem ds_pair (k x : Nat) : ds (k + 2) x = x % 256 % 16 + x % 256 / 16 + ds k (x / 256) := by
  rw [ds, ds, Nat.div_div_eq_div_mul, show 16 * 16 = 256 from rfl]
  omega

theorem ds16 (x : Nat) : ds 16 x =
    (x / 256 ^ 0 % 256 % 16 + x / 256 ^ 0 % 256 / 16) + (x / 256 ^ 1 % 256 % 16 + x / 256 ^ 1 % 256 / 16) +
    (x / 256 ^ 2 % 256 % 16 + x / 256 ^ 2 % 256 / 16) + (x / 256 ^ 3 % 256 % 16 + x / 256 ^ 3 % 256 / 16) +
    (x / 256 ^ 4 % 256 % 16 + x / 256 ^ 4 % 256 / 16) + (x / 256 ^ 5 % 256 % 16 + x / 256 ^ 5 % 256 / 16) +
    (x / 256 ^ 6 % 256 % 16 + x / 256 ^ 6 % 256 / 16) + (x / 256 ^ 7 % 256 % 16 + x / 256 ^ 7 % 256 / 16) := by
  have h0 := ds_pair 14 x
  have h (k j : Nat) : ds (k + 2) (x / 256 ^ j) = x / 256 ^ j % 256 % 16 + x / 256 ^ j % 256 / 16 + ds k (x / 256 ^ (j + 1)) := by
    rw [ds_pair, Nat.div_div_eq_div_mul, ← Nat.pow_succ]
  have h0 := h 14 0; have h1 := h 12 1; have h2 := h 10 2; have h3 := h 8 3
  have h4 := h 6 4; have h5 := h 4 5; have h6 := h 2 6; have h7 := h 0 7
  rw [Nat.pow_zero, Nat.div_one] at h0
  rw [Nat.pow_zero, Nat.div_one]
  rw [show ds 16 x = _ from h0, show ds 14 _ = _ from h1, show ds 12 _ = _ from h2, show ds 10 _ = _ from h3,
    show ds 8 _ = _ from h4, show ds 6 _ = _ from h5, show ds 4 _ = _ from h6, show ds 2 _ = _ from h7, ds]
  simp only [Nat.add_assoc, Nat.add_zero]

theorem mul_ones30 (s : Word) (b0 b1 b2 b3 b4 b5 b6 b7 : Nat)
    (h : s.toNat = ofBytes [b0, b1, b2, b3, b4, b5, b6, b7])
    (hb : b0 ≤ 30 ∧ b1 ≤ 30 ∧ b2 ≤ 30 ∧ b3 ≤ 30 ∧ b4 ≤ 30 ∧ b5 ≤ 30 ∧ b6 ≤ 30 ∧ b7 ≤ 30) :
    ((0x0101010101010101#64 * s) >>> 56).toNat = b0 + b1 + b2 + b3 + b4 + b5 + b6 + b7 := by
  have e : (0x0101010101010101#64 * s).toNat = ofBytes [b0, b0 + b1, b0 + b1 + b2, b0 + b1 + b2 + b3,
      b0 + b1 + b2 + b3 + b4, b0 + b1 + b2 + b3 + b4 + b5, b0 + b1 + b2 + b3 + b4 + b5 + b6,
      b0 + b1 + b2 + b3 + b4 + b5 + b6 + b7] := by
    rw [BitVec.toNat_mul, h, BitVec.toNat_ofNat]
    simp only [ofBytes]
    omega
  rw [BitVec.toNat_ushiftRight, e, Nat.shiftRight_eq_div_pow]
  have hlt : ∀ b ∈ [b0, b0 + b1, b0 + b1 + b2, b0 + b1 + b2 + b3,
      b0 + b1 + b2 + b3 + b4, b0 + b1 + b2 + b3 + b4 + b5, b0 + b1 + b2 + b3 + b4 + b5 + b6,
      b0 + b1 + b2 + b3 + b4 + b5 + b6 + b7], b < 256 := by
    intro b hm
    simp only [List.mem_cons, List.not_mem_nil, or_false] at hm
    omega
  have h1 := ofBytes_digit hlt 7
  have h2 := ofBytes_lt hlt
  rw [show (2 : Nat) ^ 56 = 256 ^ 7 by decide]
  rw [Nat.mod_eq_of_lt] at h1
  · exact h1
  · apply Nat.div_lt_of_lt_mul
    rw [show (256 : Nat) ^ 7 * 256 = 256 ^ 8 by decide]
    exact h2

theorem sumNib_eq (w : Word) : sumNib w = ds 16 w.toNat := by
  have hb := bytes_lt w
  have hl : (bytes w).length = 8 := rfl
  have e1 : (w &&& 0x0f0f0f0f0f0f0f0f#64).toNat = ofBytes ((bytes w).map (fun b => b &&& 0x0f)) := by
    rw [← ofBytes_and (by omega) hb, hl, rep0f, BitVec.toNat_and, ofBytes_bytes, BitVec.toNat_ofNat]
  have e2 : ((w >>> 4) &&& 0x0f0f0f0f0f0f0f0f#64).toNat = ofBytes ((bytes w).map (fun b => (b >>> 4) &&& 0x0f)) := by
    rw [← ofBytes_shr_and (by omega) (by decide) hb, ofBytes_bytes, hl, rep0f, BitVec.toNat_and,
      BitVec.toNat_ushiftRight, BitVec.toNat_ofNat]
  have e3 := ofBytes_add_map (bs := bytes w) (fun b => b &&& 0x0f) (fun b => (b >>> 4) &&& 0x0f)
  have hf : ∀ b, b < 256 → (b &&& 0x0f) + ((b >>> 4) &&& 0x0f) = b % 16 + b / 16 := by
    intro b hb
    rw [and15, and15, shr4]
    omega
  have e4 : (bytes w).map (fun b => (b &&& 0x0f) + ((b >>> 4) &&& 0x0f)) = (bytes w).map (fun b => b % 16 + b / 16) :=
    List.map_congr_left (fun b h => hf b (hb b h))
  have hbd : ∀ k, byte w k % 16 + byte w k / 16 ≤ 30 := fun k => by have := byte_lt w k; omega
  have e5 : ((w &&& 0x0f0f0f0f0f0f0f0f#64) + ((w >>> 4) &&& 0x0f0f0f0f0f0f0f0f#64)).toNat
      = ofBytes ((bytes w).map (fun b => b % 16 + b / 16)) := by
    rw [BitVec.toNat_add, e1, e2, e3, e4]
    apply Nat.mod_eq_of_lt
    have := ofBytes_lt (bs := (bytes w).map (fun b => b % 16 + b / 16)) (by
      intro c hc
      obtain ⟨b, hb', rfl⟩ := List.mem_map.1 hc
      have := hb b hb'
      omega)
    rw [List.length_map, hl] at this
    exact this
  unfold sumNib
  rw [mul_ones30 _ _ _ _ _ _ _ _ _ e5 ⟨hbd 0, hbd 1, hbd 2, hbd 3, hbd 4, hbd 5, hbd 6, hbd 7⟩]
  rw [ds16]
  rfl

theorem nibVal_add (xs : List Nat) (p : Nat) : ∀ (m c : Nat), nibVal xs p (m + c) = nibVal xs p m + 16 ^ m * nibVal xs (p + m) c
  | m, 0 => by simp [nibVal]
  | m, c + 1 => by
    rw [← Nat.add_assoc, nibVal, nibVal_add xs p m c, nibVal, Nat.pow_add, Nat.mul_add, Nat.add_assoc, Nat.add_assoc p]
    congr 2
    rw [Nat.mul_left_comm, Nat.mul_comm (16 ^ m)]

variable {xs : List Nat}

theorem nibVal_lt (hx : ∀ t, xs.getD t 0 ≤ 15) (p : Nat) : ∀ c, nibVal xs p c < 16 ^ c
  | 0 => by simp [nibVal]
  | c + 1 => by
    have h1 := nibVal_lt hx p c
    have h2 := Nat.mul_le_mul_right (16 ^ c) (hx (p + c))
    rw [nibVal, Nat.pow_succ]
    omega

theorem nibVal_div (hx : ∀ t, xs.getD t 0 ≤ 15) (p m c : Nat) : nibVal xs p (m + c) / 16 ^ m = nibVal xs (p + m) c := by
  have := nibVal_lt hx p m
  rw [nibVal_add, Nat.add_mul_div_left _ _ (Nat.pow_pos (by omega)), Nat.div_eq_of_lt this, Nat.zero_add]

theorem nibVal_mod (hx : ∀ t, xs.getD t 0 ≤ 15) (p m c : Nat) : nibVal xs p (m + c) % 16 ^ m = nibVal xs p m := by
  have := nibVal_lt hx p m
  rw [nibVal_add, Nat.add_mul_mod_self_left, Nat.mod_eq_of_lt this]

/-- Sum of `c` block types from `p`. -/
def nsum (xs : List Nat) (p : Nat) : Nat → Nat
  | 0 => 0
  | c + 1 => nsum xs p c + xs.getD (p + c) 0

theorem nsum_add (xs : List Nat) (p m : Nat) : ∀ c, nsum xs p (m + c) = nsum xs p m + nsum xs (p + m) c
  | 0 => rfl
  | c + 1 => by
    rw [← Nat.add_assoc, nsum, nsum_add xs p m c, nsum, Nat.add_assoc, Nat.add_assoc p]

theorem ds_zero : ∀ k, ds k 0 = 0
  | 0 => rfl
  | k + 1 => by rw [ds, Nat.zero_div, ds_zero k]

theorem ds_nibVal (hx : ∀ t, xs.getD t 0 ≤ 15) : ∀ (c e p : Nat), ds (c + e) (nibVal xs p c) = nsum xs p c
  | 0, e, p => by rw [nibVal, ds_zero]; rfl
  | c + 1, e, p => by
    have h1 := nibVal_div hx p 1 c
    have h2 := nibVal_mod hx p 1 c
    rw [Nat.pow_one] at h1 h2
    rw [show c + 1 + e = (c + e) + 1 by omega, ds, Nat.add_comm c 1, h1, h2, ds_nibVal hx c e (p + 1), nsum_add]
    simp [nibVal, nsum]

theorem ds_shift : ∀ (m k x : Nat), ds (m + k) (16 ^ m * x) = ds k x
  | 0, k, x => by rw [Nat.zero_add, Nat.pow_zero, Nat.one_mul]
  | m + 1, k, x => by
    rw [show m + 1 + k = (m + k) + 1 by omega, ds, Nat.pow_succ, Nat.mul_comm (16 ^ m) 16, Nat.mul_assoc, Nat.mul_mod_right,
      Nat.mul_div_cancel_left _ (by omega), ds_shift m k x, Nat.zero_add]

variable {bt : Arr}

theorem word_toNat (hx : ∀ t, bt.xs.getD t 0 ≤ 15) {k : Nat} : (BitVec.ofNat 64 (nibVal bt.xs (16 * k) 16)).toNat = nibVal bt.xs (16 * k) 16 := by
  have := nibVal_lt hx (16 * k) 16
  rw [BitVec.toNat_ofNat, Nat.mod_eq_of_lt (by rw [show (2 : Nat) ^ 64 = 16 ^ 16 by decide]; exact this)]

theorem pow16 (m : Nat) : (2 : Nat) ^ (4 * m) = 16 ^ m := by rw [Nat.pow_mul]

/-- The digits `m, …, 15` of a word. -/
theorem sum_high (hx : ∀ t, bt.xs.getD t 0 ≤ 15) {k m : Nat} (hm : m ≤ 16) :
    sumNib ((BitVec.ofNat 64 (nibVal bt.xs (16 * k) 16)) >>> (4 * m)) = nsum bt.xs (16 * k + m) (16 - m) := by
  rw [sumNib_eq, BitVec.toNat_ushiftRight, word_toNat hx, Nat.shiftRight_eq_div_pow, pow16]
  have h := nibVal_div hx (16 * k) m (16 - m)
  rw [Nat.add_sub_cancel' hm] at h
  have h2 := ds_nibVal hx (16 - m) m (16 * k + m)
  rw [Nat.sub_add_cancel hm] at h2
  rw [h, h2]

/-- The digits `m, …, m+c-1` of a word. -/
theorem sum_mid (hx : ∀ t, bt.xs.getD t 0 ≤ 15) {k m c : Nat} (hm : m + c ≤ 16) :
    sumNib ((BitVec.ofNat 64 (nibVal bt.xs (16 * k) 16)) >>> (4 * m) &&& BitVec.ofNat 64 (2 ^ (4 * c) - 1)) =
      nsum bt.xs (16 * k + m) c := by
  have hc : 2 ^ (4 * c) - 1 < 2 ^ 64 := by
    have : (2 : Nat) ^ (4 * c) ≤ 2 ^ 64 := Nat.pow_le_pow_right (by omega) (by omega)
    have := Nat.two_pow_pos (4 * c)
    omega
  have h := nibVal_div hx (16 * k) m (16 - m)
  rw [Nat.add_sub_cancel' (by omega)] at h
  have h1 := nibVal_mod hx (16 * k + m) c (16 - m - c)
  rw [Nat.add_sub_cancel' (by omega)] at h1
  have h2 := ds_nibVal hx c (16 - c) (16 * k + m)
  rw [Nat.add_sub_cancel' (by omega)] at h2
  rw [sumNib_eq, BitVec.toNat_and, BitVec.toNat_ushiftRight, word_toNat hx, Nat.shiftRight_eq_div_pow, BitVec.toNat_ofNat,
    Nat.mod_eq_of_lt hc, Nat.and_two_pow_sub_one_eq_mod, pow16, pow16, h, h1, h2]

/-- The digits `0, …, c-1` of a word. -/
theorem sum_low (hx : ∀ t, bt.xs.getD t 0 ≤ 15) {k c : Nat} (hc : c ≤ 16) :
    sumNib ((BitVec.ofNat 64 (nibVal bt.xs (16 * k) 16)) <<< (64 - 4 * c)) = nsum bt.xs (16 * k) c := by
  have h1 := nibVal_mod hx (16 * k) c (16 - c)
  rw [Nat.add_sub_cancel' hc] at h1
  have h2 := ds_nibVal hx c 0 (16 * k)
  have h3 := ds_shift (16 - c) c (nibVal bt.xs (16 * k) c)
  rw [Nat.sub_add_cancel hc] at h3
  have e : (2 : Nat) ^ 64 = 16 ^ c * 16 ^ (16 - c) := by rw [← Nat.pow_add, Nat.add_sub_cancel' hc]
  rw [sumNib_eq, BitVec.toNat_shiftLeft, word_toNat hx, Nat.shiftLeft_eq, show 64 - 4 * c = 4 * (16 - c) by omega, pow16, e,
    Nat.mul_mod_mul_right, h1, Nat.mul_comm, h3]
  exact h2

theorem wordAt_eq {k : Nat} (h : 16 * k < bt.xs.length) : wordAt bt k = some (BitVec.ofNat 64 (nibVal bt.xs (16 * k) 16)) := by
  unfold wordAt; rw [if_pos h]

theorem wordLoop_eq (hx : ∀ t, bt.xs.getD t 0 ≤ 15) : ∀ (c k r : Nat), 16 * (k + c) ≤ bt.xs.length →
    wordLoop bt k c r = some (r + nsum bt.xs (16 * k) (16 * c))
  | 0, k, r, _ => rfl
  | c + 1, k, r, h => by
    have h0 := sum_high hx (k := k) (m := 0) (by omega)
    rw [Nat.mul_zero, BitVec.ushiftRight_zero, Nat.add_zero, Nat.sub_zero] at h0
    rw [wordLoop, wordAt_eq (by omega), sbind, h0, wordLoop_eq hx c (k + 1) _ (by omega),
      show 16 * (c + 1) = 16 + 16 * c by omega, nsum_add, show 16 * (k + 1) = 16 * k + 16 by omega]
    congr 1; omega

theorem sumUniform_eq (hx : ∀ t, bt.xs.getD t 0 ≤ 15) {a b r : Nat} (hab : a ≤ b) (hb : b < bt.xs.length) :
    sumUniform bt (a * 4) (b * 4) r = some (r + nsum bt.xs a (b - a)) := by
  unfold sumUniform
  by_cases h0 : b * 4 = a * 4
  · have : b = a := by omega
    rw [if_pos h0, this, Nat.sub_self]; rfl
  · rw [if_neg h0]
    by_cases h1 : a * 4 / 64 = b * 4 / 64
    · have e1 := sum_mid hx (k := a / 16) (m := a % 16) (c := b - a) (by omega)
      rw [if_pos h1, wordAt_eq (by omega), sbind, loSet_eq (by omega), sbind, show a * 4 / 64 = a / 16 by omega,
        show a * 4 % 64 = 4 * (a % 16) by omega, show b * 4 % 64 - 4 * (a % 16) = 4 * (b - a) by omega, e1,
        show 16 * (a / 16) + a % 16 = a by omega]
      rfl
    · have e1 := sum_high hx (k := a / 16) (m := a % 16) (by omega)
      rw [show 16 * (a / 16) + a % 16 = a by omega] at e1
      have e2 := wordLoop_eq hx (b / 16 - (a / 16 + 1)) (a / 16 + 1) (r + nsum bt.xs a (16 - a % 16)) (by omega)
      have e3 := nsum_add bt.xs a (16 - a % 16) (16 * (b / 16 - (a / 16 + 1)))
      rw [show a + (16 - a % 16) = 16 * (a / 16 + 1) by omega] at e3
      rw [if_neg h1, wordAt_eq (by omega), sbind, show a * 4 / 64 = a / 16 by omega, show b * 4 / 64 = b / 16 by omega,
        show a * 4 % 64 = 4 * (a % 16) by omega, e1, e2, sbind]
      by_cases h2 : b * 4 % 64 > 0
      · have e4 := sum_low hx (k := b / 16) (c := b % 16) (by omega)
        have e5 := nsum_add bt.xs a (16 - a % 16 + 16 * (b / 16 - (a / 16 + 1))) (b % 16)
        rw [show 16 - a % 16 + 16 * (b / 16 - (a / 16 + 1)) + b % 16 = b - a by omega,
          show a + (16 - a % 16 + 16 * (b / 16 - (a / 16 + 1))) = 16 * (b / 16) by omega, e3] at e5
        rw [if_pos h2, wordAt_eq (by omega), sbind, show b * 4 % 64 = 4 * (b % 16) by omega, e4, e5]
        show some _ = some _
        congr 1; omega
      · rw [if_neg h2, show b - a = 16 - a % 16 + 16 * (b / 16 - (a / 16 + 1)) by omega, e3]
        show some _ = some _
        congr 1; omega

end Sdsl.Rrr15
