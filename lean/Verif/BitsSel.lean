/-
  Helper lemmas: `hi`, `lo`, `sel`, table popcount.
-/
import Verif.BitsCount

namespace Sdsl.Bits
open Sdsl.Spec

/-! ### hi -/

theorem ltHi_tab : ∀ b : Fin 256, ltHi[b.val]? = some (Nat.log2 b.val) := by decide +kernel

theorem ltHi_eq {b : Nat} (h : b < 256) : ltHi[b]? = some (Nat.log2 b) := ltHi_tab ⟨b, h⟩

theorem log2_shr {n s : Nat} (h : n >>> s ≠ 0) : Nat.log2 n = s + Nat.log2 (n >>> s) := by
  have hn : n ≠ 0 := by rintro rfl; simp at h
  rw [Nat.log2_eq_iff hn]
  have h1 := (Nat.log2_eq_iff h).1 rfl
  rw [Nat.shiftRight_eq_div_pow] at h1 ⊢
  generalize Nat.log2 (n / 2 ^ s) = k at *
  have hp : 0 < 2 ^ s := Nat.pow_pos (by omega)
  constructor
  · rw [Nat.pow_add, Nat.mul_comm]
    exact (Nat.le_div_iff_mul_le hp).1 h1.1
  · rw [Nat.add_assoc, Nat.pow_add, Nat.mul_comm]
    exact (Nat.div_lt_iff_lt_mul hp).1 h1.2

theorem bne_zero_iff {x : Word} : (x != 0#64) = true ↔ x.toNat ≠ 0 := by
  simp only [bne_iff_ne, ne_eq, ← BitVec.toNat_inj, BitVec.toNat_ofNat, Nat.zero_mod]

theorem hi_eq (x : Word) : hi x = some (Nat.log2 x.toNat) := by
  have hx := x.isLt
  unfold hi
  simp only [bne_zero_iff, BitVec.toNat_ushiftRight]
  generalize x.toNat = n at *
  have e : ∀ a b : Nat, n >>> a >>> b = n >>> (a + b) := fun a b => by rw [Nat.shiftRight_add]
  simp only [e, Nat.reduceAdd]
  have hlt : ∀ s, n >>> s < 2 ^ 64 / 2 ^ s + 1 := by
    intro s; rw [Nat.shiftRight_eq_div_pow]
    exact Nat.lt_succ_of_le (Nat.div_le_div_right (by omega))
  have key : ∀ s, n >>> s ≠ 0 → n >>> s < 256 → (ltHi[n >>> s]?).map (s + ·) = some (Nat.log2 n) := by
    intro s h1 h2; rw [ltHi_eq h2, log2_shr h1]; rfl
  have sh : ∀ s, n >>> s = n / 2 ^ s := fun s => Nat.shiftRight_eq_div_pow _ _
  by_cases c1 : n >>> 32 ≠ 0
  · rw [if_pos c1]
    by_cases c2 : n >>> 48 ≠ 0
    · rw [if_pos c2]
      by_cases c3 : n >>> 56 ≠ 0
      · rw [if_pos c3]; exact key 56 c3 (by rw [sh]; omega)
      · rw [if_neg c3]; exact key 48 c2 (by rw [sh] at *; omega)
    · rw [if_neg c2]
      by_cases c3 : n >>> 40 ≠ 0
      · rw [if_pos c3]; exact key 40 c3 (by rw [sh] at *; omega)
      · rw [if_neg c3]; exact key 32 c1 (by rw [sh] at *; omega)
  · rw [if_neg c1]
    by_cases c2 : n >>> 16 ≠ 0
    · rw [if_pos c2]
      by_cases c3 : n >>> 24 ≠ 0
      · rw [if_pos c3]; exact key 24 c3 (by rw [sh] at *; omega)
      · rw [if_neg c3]; exact key 16 c2 (by rw [sh] at *; omega)
    · rw [if_neg c2]
      by_cases c3 : n >>> 8 ≠ 0
      · rw [if_pos c3]; exact key 8 c3 (by rw [sh] at *; omega)
      · rw [if_neg c3]; exact ltHi_eq (by rw [sh] at *; omega)

/-- `p` is the most significant one bit. -/
theorem log2_isHi {x : Word} (hx : x ≠ 0#64) :
    Nat.log2 x.toNat < 64 ∧ x.getLsbD (Nat.log2 x.toNat) = true ∧
      ∀ q, Nat.log2 x.toNat < q → x.getLsbD q = false := by
  have hn : x.toNat ≠ 0 := by
    intro h; apply hx; apply BitVec.eq_of_toNat_eq; simpa using h
  have h1 := (Nat.log2_eq_iff hn).1 rfl
  have hlt := x.isLt
  refine ⟨(Nat.log2_lt hn).2 hlt, ?_, ?_⟩
  · rw [BitVec.getLsbD]; exact Nat.testBit_log2 hn
  · intro q hq
    rw [BitVec.getLsbD]
    apply Nat.testBit_lt_two_pow
    exact Nat.lt_of_lt_of_le h1.2 (Nat.pow_le_pow_right (by omega) hq)

/-! ### lo -/

/-- `p` is the least significant one bit of `x`. -/
def IsLo (x : Word) (p : Nat) : Prop := p < 64 ∧ x.getLsbD p = true ∧ ∀ q, q < p → x.getLsbD q = false

theorem exists_isLo {x : Word} (hx : x ≠ 0#64) : ∃ p, IsLo x p := by
  have : ∃ i, i < 64 ∧ x.getLsbD i = true := by
    false_or_by_contra; rename_i h
    apply hx
    apply BitVec.eq_of_getLsbD_eq
    intro i hi
    simp only [BitVec.getLsbD_zero]
    cases hb : x.getLsbD i
    · rfl
    · exact absurd ⟨i, hi, hb⟩ h
  obtain ⟨i, hi, hb⟩ := this
  induction i using Nat.strongRecOn with
  | _ i ih =>
    by_cases h : ∃ q, q < i ∧ x.getLsbD q = true
    · obtain ⟨q, h1, h2⟩ := h; exact ih q h1 (by omega) h2
    · refine ⟨i, hi, hb, fun q hq => ?_⟩
      cases hc : x.getLsbD q
      · rfl
      · exact absurd ⟨q, hq, hc⟩ h

theorem IsLo.unique {x : Word} {p q : Nat} (hp : IsLo x p) (hq : IsLo x q) : p = q := by
  rcases Nat.lt_trichotomy p q with h | h | h
  · have := hq.2.2 p h; rw [hp.2.1] at this; contradiction
  · exact h
  · have := hp.2.2 q h; rw [hq.2.1] at this; contradiction

theorem and_neg_eq {x : Word} {p : Nat} (h : IsLo x p) : x &&& (-x) = BitVec.twoPow 64 p := by
  apply BitVec.eq_of_getLsbD_eq
  intro i hi
  rw [BitVec.getLsbD_and, BitVec.getLsbD_neg, BitVec.getLsbD_twoPow]
  rcases Nat.lt_trichotomy i p with h1 | h1 | h1
  · rw [h.2.2 i h1]; simp; omega
  · subst h1
    have : ¬ ∃ j, j < i ∧ x.getLsbD j = true := by
      rintro ⟨j, hj, hb⟩; rw [h.2.2 j hj] at hb; contradiction
    simp [h.2.1, hi, this]
  · have : ∃ j, j < i ∧ x.getLsbD j = true := ⟨p, h1, h.2.1⟩
    have h2 : ¬ p = i := by omega
    simp [hi, this, h2]

theorem deBruijn_tab : ∀ p : Fin 64,
    ltDeBruijnToIdx[((BitVec.twoPow 64 p.val * 0x0218A392CD3D5DBF#64) >>> 58).toNat]? = some p.val := by
  decide +kernel

/-- Least significant one of a byte. -/
theorem ltLo_tab : ∀ b : Fin 256, b.val ≠ 0 → ∃ k : Fin 8, ltLo[b.val]? = some k.val ∧ b.val.testBit k.val = true ∧
    ∀ j : Fin 8, j.val < k.val → b.val.testBit j.val = false := by
  decide +kernel

theorem and_mask_ne_zero {x : Word} {k : Nat} (hk : k ≤ 64) :
    ((x &&& BitVec.ofNat 64 (2 ^ k - 1)) != 0#64) = true ↔ ∃ i, i < k ∧ x.getLsbD i = true := by
  rw [bne_iff_ne]
  constructor
  · intro h
    obtain ⟨p, hp⟩ := exists_isLo h
    have := hp.2.1
    rw [BitVec.getLsbD_and, getLsbD_ones] at this
    simp at this
    exact ⟨p, this.2.2, this.1⟩
  · rintro ⟨i, hi, hb⟩ h
    have : (x &&& BitVec.ofNat 64 (2 ^ k - 1)).getLsbD i = (0#64).getLsbD i := by rw [h]
    rw [BitVec.getLsbD_and, getLsbD_ones, hb] at this
    simp at this; omega

theorem lo_isLo {x : Word} (hx : x ≠ 0#64) : ∃ p, lo x = some p ∧ IsLo x p := by
  obtain ⟨p, hp⟩ := exists_isLo hx
  refine ⟨p, ?_, hp⟩
  have hm := fun k (hk : k ≤ 64) => @and_mask_ne_zero x k hk
  have hm' : ∀ k, k ≤ 64 → (((x &&& BitVec.ofNat 64 (2 ^ k - 1)) != 0#64) = true ↔ p < k) := by
    intro k hk
    rw [hm k hk]
    constructor
    · rintro ⟨i, hi, hb⟩
      false_or_by_contra
      have := hp.2.2 i (by omega); rw [hb] at this; contradiction
    · intro h; exact ⟨p, h, hp.2.1⟩
  have m1 := hm' 1 (by omega); have m2 := hm' 2 (by omega); have m3 := hm' 3 (by omega)
  have m11 := hm' 11 (by omega)
  simp only [Nat.reducePow, Nat.add_one_sub_one] at m1 m2 m3 m11
  unfold lo
  by_cases c1 : p < 1
  · rw [if_pos (m1.2 c1)]; congr 1; omega
  · rw [if_neg (fun h => c1 (m1.1 h))]
    by_cases c2 : p < 2
    · rw [if_pos (m2.2 c2)]; congr 1; omega
    · rw [if_neg (fun h => c2 (m2.1 h))]
      by_cases c3 : p < 3
      · rw [if_pos (m3.2 c3)]; congr 1; omega
      · rw [if_neg (fun h => c3 (m3.1 h))]
        by_cases c4 : p < 11
        · rw [if_pos (m11.2 c4)]
          generalize hv : ((x &&& 2047#64) >>> 3).toNat = v
          have hbit : ∀ j, v.testBit j = (decide (j < 8) && x.getLsbD (3 + j)) := by
            intro j
            rw [← hv]
            have := @BitVec.getLsbD_ushiftRight _ (x &&& 2047#64) 3 j
            rw [BitVec.getLsbD, BitVec.getLsbD_and, show 2047#64 = BitVec.ofNat 64 (2 ^ 11 - 1) from rfl,
              getLsbD_ones] at this
            rw [show 2047#64 = BitVec.ofNat 64 (2 ^ 11 - 1) from rfl, this]
            by_cases h8 : j < 8
            · have h64 : 3 + j < 64 := by omega
              have h11 : 3 + j < 11 := by omega
              simp [h8, h64, h11]
            · have h11 : ¬ 3 + j < 11 := by omega
              simp [h8, h11]
          have hv256 : v < 2 ^ 8 := by
            apply Nat.lt_pow_two_of_testBit
            intro j hj; rw [hbit]; simp; omega
          have hb : v.testBit (p - 3) = true := by
            rw [hbit]; simp
            refine ⟨by omega, ?_⟩
            rw [show 3 + (p - 3) = p by omega]; exact hp.2.1
          have hv0 : v ≠ 0 := by rintro rfl; simp at hb
          obtain ⟨k, e1, e2, e3⟩ := ltLo_tab ⟨v, hv256⟩ hv0
          simp only at e1 e2 e3
          have : k.val = p - 3 := by
            rcases Nat.lt_trichotomy k.val (p - 3) with h | h | h
            · rw [hbit] at e2
              have := hp.2.2 (3 + k.val) (by omega)
              simp [this] at e2
            · exact h
            · have := e3 ⟨p - 3, by omega⟩ h
              simp only at this; rw [hb] at this; contradiction
          rw [e1, this]; simp; omega
        · rw [if_neg (fun h => c4 (m11.1 h)), and_neg_eq hp]
          exact deBruijn_tab ⟨p, hp.1⟩

theorem lo_zero : lo 0#64 = some 0 := by decide +kernel

/-! ### table popcount -/

theorem ltCnt_tab : ∀ b : Fin 256, ltCnt[b.val]? = some (pop8 b.val) := by decide +kernel

theorem and255_toNat (x : Word) : (x &&& 0xFF#64).toNat = x.toNat % 256 := by
  rw [BitVec.toNat_and, BitVec.toNat_ofNat]
  exact @Nat.and_two_pow_sub_one_eq_mod x.toNat 8

theorem shr_and255 (x : Word) (k : Nat) : ((x >>> (8 * k)) &&& 0xFF#64).toNat = byte x k := by
  rw [and255_toNat, BitVec.toNat_ushiftRight, Nat.shiftRight_eq_div_pow, byte, Nat.pow_mul]

theorem cntTL_eq (x : Word) : cntTL x = some (popcount x) := by
  have h : ∀ k, ltCntByte x (8 * k) = some (pop8 (byte x k)) := by
    intro k; unfold ltCntByte; rw [shr_and255]; exact ltCnt_tab ⟨_, byte_lt x k⟩
  have h0 : ltCnt[(x &&& 0xFF#64).toNat]? = some (pop8 (byte x 0)) := by
    have := shr_and255 x 0
    simp only [Nat.mul_zero, BitVec.ushiftRight_zero] at this
    rw [this]; exact ltCnt_tab ⟨_, byte_lt x 0⟩
  have h1 := h 1; have h2 := h 2; have h3 := h 3; have h4 := h 4; have h5 := h 5; have h6 := h 6; have h7 := h 7
  simp only [Nat.reduceMul] at h1 h2 h3 h4 h5 h6 h7
  unfold cntTL
  rw [h0, h1, h2, h3, h4, h5, h6, h7, popcount_eq_bytes]
  rfl

/-! ### sel -/

theorem countTrue_testBit_mod (b k : Nat) : countTrue (fun i => b.testBit i) k = countTrue (fun i => (b % 2 ^ k).testBit i) k := by
  apply countTrue_congr; intro i hi; rw [Nat.testBit_mod_two_pow]; simp [hi]

/-- Decidable check of one entry of `lt_sel`. -/
def ltSelOk (b j p : Nat) : Bool :=
  Nat.ble (pop8 b) j || (Nat.blt p 8 && (b.testBit p && Nat.beq (countTrue (fun i => b.testBit i) p) j))

/-- Checks all entries of a table tail that starts at index `k`. -/
def ltSelCheck : List Nat → Nat → Bool
  | [], _ => true
  | p :: ps, k => ltSelOk (k % 256) (k / 256) p && ltSelCheck ps (k + 1)

theorem ltSelCheck_get {l : List Nat} {k : Nat} (h : ltSelCheck l k = true) (i : Nat) (hi : i < l.length) :
    ltSelOk ((k + i) % 256) ((k + i) / 256) l[i] = true := by
  induction l generalizing k i with
  | nil => simp at hi
  | cons p ps ih =>
    simp only [ltSelCheck, Bool.and_eq_true] at h
    cases i with
    | zero => simpa using h.1
    | succ i =>
      have := ih h.2 i (by simpa using hi)
      rw [show k + (i + 1) = k + 1 + i by omega]
      simpa using this

theorem ltSel_check : ltSelCheck ltSel 0 = true := by decide +kernel
theorem ltSel_length : ltSel.length = 2048 := by decide +kernel

theorem ltSel_eq {b j : Nat} (hb : b < 256) (hj : j < pop8 b) :
    ∃ p, ltSel[256 * j + b]? = some p ∧ IsSelect (fun i => b.testBit i) 8 (j + 1) p := by
  have hj8 : j < 8 := Nat.lt_of_lt_of_le hj (pop8_le b)
  have hlen : 256 * j + b < ltSel.length := by rw [ltSel_length]; omega
  have := ltSelCheck_get ltSel_check (256 * j + b) hlen
  rw [show (0 + (256 * j + b)) % 256 = b by omega, show (0 + (256 * j + b)) / 256 = j by omega] at this
  refine ⟨ltSel[256 * j + b], List.getElem?_eq_getElem hlen, ?_⟩
  generalize ltSel[256 * j + b] = p at *
  simp only [ltSelOk, Bool.or_eq_true, Bool.and_eq_true, Nat.ble_eq, Nat.beq_eq, Nat.blt_eq] at this
  rcases this with h | ⟨h1, h2, h3⟩
  · omega
  · exact ⟨h1, h2, by omega⟩

/-- Prefix sum of byte popcounts: ones in bytes `0..j`. -/
def psum (x : Word) (j : Nat) : Nat := countTrue (fun i => x.getLsbD i) (8 * (j + 1))

theorem countTrue_byte (x : Word) (k : Nat) : countTrue (fun i => x.getLsbD (8 * k + i)) 8 = pop8 (byte x k) := by
  apply countTrue_congr
  intro i hi
  rw [byte, show 256 = 2 ^ 8 from rfl, ← Nat.pow_mul, Nat.testBit_mod_two_pow, Nat.testBit_div_two_pow]
  simp [hi, BitVec.getLsbD, Nat.add_comm]

theorem psum_zero (x : Word) : psum x 0 = pop8 (byte x 0) := by
  have := countTrue_byte x 0
  simpa [psum] using this

theorem psum_succ (x : Word) (j : Nat) : psum x (j + 1) = psum x j + pop8 (byte x (j + 1)) := by
  unfold psum
  rw [show 8 * (j + 1 + 1) = 8 * (j + 1) + 8 by omega, countTrue_add, countTrue_byte]

theorem psum_le (x : Word) (j : Nat) (hj : j < 8) : psum x j ≤ 64 := by
  have := countTrue_le (fun i => x.getLsbD i) (8 * (j + 1))
  unfold psum; omega

theorem selSums_toNat (x : Word) : (selSums x).toNat =
    ofBytes [psum x 0, psum x 1, psum x 2, psum x 3, psum x 4, psum x 5, psum x 6, psum x 7] := by
  have e : selSums x = 0x0101010101010101#64 * swar x := rfl
  have hs := swar_toNat x
  simp only [bytes, List.map_cons, List.map_nil] at hs
  have hb := fun k => pop8_le (byte x k)
  rw [e, mul_ones_toNat _ _ _ _ _ _ _ _ _ hs ⟨hb 0, hb 1, hb 2, hb 3, hb 4, hb 5, hb 6, hb 7⟩]
  simp only [psum_succ, psum_zero]

theorem byte_of_ofBytes {w : Word} {bs : List Nat} (h : w.toNat = ofBytes bs) (hb : ∀ b ∈ bs, b < 256) (k : Nat) :
    byte w k = bs.getD k 0 := by
  rw [byte, h, ofBytes_digit hb]

theorem byte_selSums (x : Word) {j : Nat} (hj : j < 8) : byte (selSums x) j = psum x j := by
  rw [byte_of_ofBytes (selSums_toNat x)]
  · match j, hj with
    | 0, _ | 1, _ | 2, _ | 3, _ | 4, _ | 5, _ | 6, _ | 7, _ => rfl
  · have h := fun j hj => psum_le x j hj
    have := h 0; have := h 1; have := h 2; have := h 3; have := h 4; have := h 5; have := h 6; have := h 7
    simp; omega

theorem selB_toNat (x : Word) {i : Nat} (h1 : 1 ≤ i) (h2 : i ≤ 64) :
    (selSums x + BitVec.ofNat 64 ((128 - i) * 0x0101010101010101)).toNat =
      ofBytes [psum x 0 + (128 - i), psum x 1 + (128 - i), psum x 2 + (128 - i), psum x 3 + (128 - i),
        psum x 4 + (128 - i), psum x 5 + (128 - i), psum x 6 + (128 - i), psum x 7 + (128 - i)] := by
  rw [BitVec.toNat_add, selSums_toNat, BitVec.toNat_ofNat]
  have h := fun j hj => psum_le x j hj
  have := h 0; have := h 1; have := h 2; have := h 3; have := h 4; have := h 5; have := h 6; have := h 7
  simp only [ofBytes]
  omega

theorem selB_byte (x : Word) {i j : Nat} (h1 : 1 ≤ i) (h2 : i ≤ 64) (hj : j < 8) :
    byte (selSums x + BitVec.ofNat 64 ((128 - i) * 0x0101010101010101)) j = psum x j + (128 - i) := by
  rw [byte_of_ofBytes (selB_toNat x h1 h2)]
  · match j, hj with
    | 0, _ | 1, _ | 2, _ | 3, _ | 4, _ | 5, _ | 6, _ | 7, _ => rfl
  · have h := fun j hj => psum_le x j hj
    have := h 0; have := h 1; have := h 2; have := h 3; have := h 4; have := h 5; have := h 6; have := h 7
    simp; omega

theorem and_twoPow_ne_zero {b : Word} {k : Nat} (hk : k < 64) :
    ((b &&& BitVec.twoPow 64 k) != 0#64) = true ↔ b.getLsbD k = true := by
  rw [bne_iff_ne]
  constructor
  · intro h
    obtain ⟨p, hp⟩ := exists_isLo h
    have := hp.2.1
    rw [BitVec.getLsbD_and, BitVec.getLsbD_twoPow] at this
    simp at this
    rw [this.2.2]; exact this.1
  · intro h e
    have : (b &&& BitVec.twoPow 64 k).getLsbD k = (0#64).getLsbD k := by rw [e]
    rw [BitVec.getLsbD_and, BitVec.getLsbD_twoPow, h] at this
    simp at this; omega

theorem getLsbD_byte7 (b : Word) (j : Nat) : b.getLsbD (8 * j + 7) = decide (128 ≤ byte b j) := by
  have h := byte_lt b j
  have : (byte b j).testBit 7 = b.getLsbD (8 * j + 7) := by
    rw [byte, show 256 = 2 ^ 8 from rfl, ← Nat.pow_mul, Nat.testBit_mod_two_pow, Nat.testBit_div_two_pow]
    simp [BitVec.getLsbD, Nat.add_comm]
  rw [← this]
  rw [Nat.testBit_eq_decide_div_mod_eq]
  congr 1
  apply propext
  omega

theorem sel_test (x : Word) {i j : Nat} (h1 : 1 ≤ i) (h2 : i ≤ 64) (hj : j < 8) :
    (((selSums x + BitVec.ofNat 64 ((128 - i) * 0x0101010101010101)) &&& BitVec.twoPow 64 (8 * j + 7)) != 0#64) = true
      ↔ i ≤ psum x j := by
  rw [and_twoPow_ne_zero (by omega), getLsbD_byte7, selB_byte x h1 h2 hj]
  simp; omega

theorem and_ff00 (n : Nat) : n &&& 0xFF00 = n / 256 % 256 * 256 := by
  have e1 : n = n % 256 + 256 * (n / 256) := by omega
  have e2 : (0xFF00 : Nat) = 0 + 256 * 255 := rfl
  rw [e1, e2, and_bytes (by omega) (by omega)]
  have := @Nat.and_two_pow_sub_one_eq_mod (n / 256) 8
  simp only [Nat.reducePow, Nat.add_one_sub_one] at this
  rw [this]; simp; omega

/-- One leaf of the decision tree of `_sel`. -/
theorem ltSelAt_eq {x i d : Word} {k S : Nat} (r : Nat) (hi : i.toNat = 256 * k) (hd : d.toNat = 256 * S)
    (hk : k < 64) (hS : S ≤ k) (hlt : k - S < pop8 (byte x r)) :
    ∃ p, ltSelAt (x >>> (8 * r)) i d = some p ∧ IsSelect (fun i => (byte x r).testBit i) 8 (k - S + 1) p := by
  have h8 := pop8_le (byte x r)
  have hb := byte_lt x r
  have e : (((x >>> (8 * r) &&& 0xFF#64) + i - d) &&& 0x7FF#64).toNat = 256 * (k - S) + byte x r := by
    have hd' : d ≤ (x >>> (8 * r) &&& 0xFF#64) + i := by
      rw [BitVec.le_def, BitVec.toNat_add, shr_and255, hi, hd]; omega
    rw [BitVec.toNat_and, BitVec.toNat_sub_of_le hd', BitVec.toNat_add, shr_and255, hi, hd, BitVec.toNat_ofNat]
    have := fun n => @Nat.and_two_pow_sub_one_eq_mod n 11
    simp only [Nat.reducePow, Nat.add_one_sub_one] at this
    rw [show 0x7FF % 2 ^ 64 = 2047 from rfl, this]
    omega
  unfold ltSelAt
  rw [e]
  exact ltSel_eq hb hlt

/-- Turns a select inside byte `r` into a select in the word. -/
theorem isSelect_of_byte {x : Word} {i r p : Nat} {S : Nat} (hr : r < 8)
    (hS : countTrue (fun i => x.getLsbD i) (8 * r) = S) (hi : S < i)
    (h : IsSelect (fun i => (byte x r).testBit i) 8 (i - 1 - S + 1) p) :
    IsSelect (fun i => x.getLsbD i) 64 i (8 * r + p) := by
  obtain ⟨h1, h2, h3⟩ := h
  have hb : ∀ j, j < 8 → (byte x r).testBit j = x.getLsbD (8 * r + j) := by
    intro j hj
    rw [byte, show 256 = 2 ^ 8 from rfl, ← Nat.pow_mul, Nat.testBit_mod_two_pow, Nat.testBit_div_two_pow]
    simp [hj, BitVec.getLsbD, Nat.add_comm]
  refine ⟨by omega, ?_, ?_⟩
  · show x.getLsbD (8 * r + p) = true
    rw [← hb p h1]; exact h2
  · rw [countTrue_add, hS]
    have : countTrue (fun i => x.getLsbD (8 * r + i)) p = countTrue (fun i => (byte x r).testBit i) p :=
      countTrue_congr (fun j hj => (hb j (by omega)).symm)
    rw [this]; omega

theorem sel_i_toNat {i : Nat} (h1 : 1 ≤ i) (h2 : i ≤ 64) :
    ((((BitVec.ofNat 32 i) - 1#32) <<< 8).setWidth 64).toNat = 256 * (i - 1) := by
  have hle : 1#32 ≤ BitVec.ofNat 32 i := by
    rw [BitVec.le_def, BitVec.toNat_ofNat, BitVec.toNat_ofNat]; omega
  rw [BitVec.toNat_setWidth, BitVec.toNat_shiftLeft, BitVec.toNat_sub_of_le hle, BitVec.toNat_ofNat,
    BitVec.toNat_ofNat, Nat.shiftLeft_eq]
  omega

theorem sel_overflow {i : Nat} (x : Word) (h1 : 1 ≤ i) (h64 : i ≤ 64) :
    ∃ o, psOverflow i = some o ∧ ∀ j, j < 8 →
      (((selSums x + o) &&& BitVec.twoPow 64 (8 * j + 7) != 0#64) = true ↔ i ≤ psum x j) := by
  exact ⟨_, psOverflow_eq h64, fun j hj => sel_test x h1 h64 hj⟩

theorem sel_eq {x : Word} {i : Nat} (h1 : 1 ≤ i) (h2 : i ≤ popcount x) :
    ∃ p, sel x i = some p ∧ IsSelect (fun i => x.getLsbD i) 64 i p := by
  have hp : popcount x = psum x 7 := by unfold popcount psum; rfl
  have h64 : i ≤ 64 := Nat.le_trans h2 (by rw [hp]; exact psum_le x 7 (by omega))
  obtain ⟨o, ho, ht⟩ := sel_overflow x h1 h64
  unfold sel
  rw [ho]
  simp only [Option.bind_eq_bind, Option.bind_some]
  have t0 := ht 0 (by omega); have t1 := ht 1 (by omega); have t2 := ht 2 (by omega); have t3 := ht 3 (by omega)
  have t4 := ht 4 (by omega); have t5 := ht 5 (by omega); have t6 := ht 6 (by omega)
  have hi := sel_i_toNat h1 h64
  rw [show BitVec.twoPow 64 (8 * 0 + 7) = 0x80#64 by decide] at t0
  rw [show BitVec.twoPow 64 (8 * 1 + 7) = 0x8000#64 by decide] at t1
  rw [show BitVec.twoPow 64 (8 * 2 + 7) = 0x800000#64 by decide] at t2
  rw [show BitVec.twoPow 64 (8 * 3 + 7) = 0x80000000#64 by decide] at t3
  rw [show BitVec.twoPow 64 (8 * 4 + 7) = 0x8000000000#64 by decide] at t4
  rw [show BitVec.twoPow 64 (8 * 5 + 7) = 0x800000000000#64 by decide] at t5
  rw [show BitVec.twoPow 64 (8 * 6 + 7) = 0x80000000000000#64 by decide] at t6
  have s0 := psum_zero x; have s1 := psum_succ x 0; have s2 := psum_succ x 1; have s3 := psum_succ x 2
  have s4 := psum_succ x 3; have s5 := psum_succ x 4; have s6 := psum_succ x 5; have s7 := psum_succ x 6
  simp only [Nat.reduceAdd, Nat.zero_add] at s1 s2 s3 s4 s5 s6 s7
  generalize hb : selSums x + o = b at *
  generalize hiw : (((BitVec.ofNat 32 i) - 1#32) <<< 8).setWidth 64 = iw at *
  -- the subtrahend in each leaf
  have hd : ∀ r, 2 ≤ r → r < 8 → ((selSums x >>> (8 * (r - 2))) &&& 0xFF00#64).toNat = 256 * psum x (r - 1) := by
    intro r hr2 hr
    rw [BitVec.toNat_and, BitVec.toNat_ushiftRight, BitVec.toNat_ofNat, show 0xFF00 % 2 ^ 64 = 0xFF00 from rfl,
      and_ff00, Nat.shiftRight_eq_div_pow, Nat.div_div_eq_div_mul, ← byte_selSums x (by omega), byte]
    rw [show (256 : Nat) ^ (r - 1) = 2 ^ (8 * (r - 2)) * 256 by
      rw [Nat.pow_mul, show (2:Nat)^8 = 256 by rfl, ← Nat.pow_succ]; congr 1; omega]
    omega
  have hd2 := hd 2 (by omega) (by omega)
  have hd3 := hd 3 (by omega) (by omega)
  have hd4 := hd 4 (by omega) (by omega)
  have hd5 := hd 5 (by omega) (by omega)
  have hd6 := hd 6 (by omega) (by omega)
  have hd7 := hd 7 (by omega) (by omega)
  simp only [Nat.reduceSub, Nat.reduceMul, BitVec.ushiftRight_zero] at hd2 hd3 hd4 hd5 hd6 hd7
  have leaf : ∀ r s (d : Word), s = 8 * r → 1 ≤ r → r < 8 → d.toNat = 256 * psum x (r - 1) →
      psum x (r - 1) < i → i ≤ psum x (r - 1) + pop8 (byte x r) →
      ∃ p, ((ltSelAt (x >>> s) iw d).bind fun a => some (s + a)) = some p ∧
        IsSelect (fun i => x.getLsbD i) 64 i p := by
    intro r s d hsr hr1 hr hd hlt hle
    subst hsr
    have hS : countTrue (fun i => x.getLsbD i) (8 * r) = psum x (r - 1) := by
      unfold psum; congr 1; omega
    obtain ⟨p, e, hs⟩ := ltSelAt_eq (x := x) (k := i - 1) r hi hd (by omega) (by omega) (by omega)
    exact ⟨8 * r + p, by rw [e]; rfl, isSelect_of_byte hr hS hlt hs⟩
  by_cases c3 : i ≤ psum x 3
  · rw [if_pos (t3.2 c3)]
    by_cases c1 : i ≤ psum x 1
    · rw [if_pos (t1.2 c1)]
      by_cases c0 : i ≤ psum x 0
      · rw [if_pos (t0.2 c0)]
        have hx0 := and255_toNat x
        have e : ((x &&& 0xFF#64) + iw).toNat = 256 * (i - 1) + byte x 0 := by
          rw [BitVec.toNat_add, hx0, hi]; simp only [byte]; omega
        rw [e]
        obtain ⟨p, e1, hs⟩ := ltSel_eq (byte_lt x 0) (show i - 1 < pop8 (byte x 0) by omega)
        refine ⟨p, by rw [e1], ?_⟩
        have := isSelect_of_byte (x := x) (i := i) (r := 0) (p := p) (S := 0) (by omega) rfl (by omega) (by simpa using hs)
        simpa using this
      · rw [if_neg (fun h => c0 (t0.1 h))]
        refine leaf 1 8 _ rfl (by omega) (by omega) ?_ (by simp only [Nat.reduceSub]; omega) (by simp only [Nat.reduceSub]; omega)
        simp only [Nat.reduceSub]
        rw [BitVec.toNat_shiftLeft, and255_toNat, Nat.shiftLeft_eq]
        have := byte_selSums x (j := 0) (by omega)
        rw [byte] at this
        have := psum_le x 0 (by omega)
        omega
    · rw [if_neg (fun h => c1 (t1.1 h))]
      by_cases c2 : i ≤ psum x 2
      · rw [if_pos (t2.2 c2)]
        exact leaf 2 16 _ rfl (by omega) (by omega) (hd2) (by simp only [Nat.reduceSub]; omega) (by simp only [Nat.reduceSub]; omega)
      · rw [if_neg (fun h => c2 (t2.1 h))]
        exact leaf 3 24 _ rfl (by omega) (by omega) hd3 (by simp only [Nat.reduceSub]; omega) (by simp only [Nat.reduceSub]; omega)
  · rw [if_neg (fun h => c3 (t3.1 h))]
    by_cases c5 : i ≤ psum x 5
    · rw [if_pos (t5.2 c5)]
      by_cases c4 : i ≤ psum x 4
      · rw [if_pos (t4.2 c4)]
        exact leaf 4 32 _ rfl (by omega) (by omega) hd4 (by simp only [Nat.reduceSub]; omega) (by simp only [Nat.reduceSub]; omega)
      · rw [if_neg (fun h => c4 (t4.1 h))]
        exact leaf 5 40 _ rfl (by omega) (by omega) hd5 (by simp only [Nat.reduceSub]; omega) (by simp only [Nat.reduceSub]; omega)
    · rw [if_neg (fun h => c5 (t5.1 h))]
      by_cases c6 : i ≤ psum x 6
      · rw [if_pos (t6.2 c6)]
        exact leaf 6 48 _ rfl (by omega) (by omega) hd6 (by simp only [Nat.reduceSub]; omega) (by simp only [Nat.reduceSub]; omega)
      · rw [if_neg (fun h => c6 (t6.1 h))]
        exact leaf 7 56 _ rfl (by omega) (by omega) hd7 (by simp only [Nat.reduceSub]; omega) (by simp only [Nat.reduceSub]; omega)

end Sdsl.Bits
