/-
  Lemmas about bit strings in memory and the single-value functions of the Elias coders.
-/
import Verif.Coder
import Verif.SpecCode
import Verif.BitsScan
import Verif.SelectLemmas

namespace Sdsl.Coder

open Bits Spec

theorem length_lowBits (x n : Nat) : (lowBits x n).length = n := by simp [lowBits]

theorem getD_lowBits {x n k : Nat} (h : k < n) : (lowBits x n).getD k false = x.testBit k := by
  simp [lowBits, h]

theorem At.append {m : Mem} {pos : Nat} {a b : List Bool} :
    At m pos (a ++ b) ↔ At m pos a ∧ At m (pos + a.length) b := by
  unfold At
  simp only [List.length_append]
  constructor
  · rintro ⟨h1, h2⟩
    refine ⟨⟨by omega, fun k hk => ?_⟩, by omega, fun k hk => ?_⟩
    · rw [h2 k (by omega)]; simp [List.getD_eq_getElem?_getD, List.getElem?_append, hk]
    · rw [Nat.add_assoc, h2 _ (by omega)]
      simp [List.getD_eq_getElem?_getD, List.getElem?_append, show ¬ a.length + k < a.length by omega]
  · rintro ⟨⟨h1, h2⟩, h3, h4⟩
    refine ⟨by omega, fun k hk => ?_⟩
    by_cases c : k < a.length
    · rw [h2 k c]; simp [List.getD_eq_getElem?_getD, List.getElem?_append, c]
    · have := h4 (k - a.length) (by omega)
      rw [show pos + a.length + (k - a.length) = pos + k by omega] at this
      rw [this]; simp [List.getD_eq_getElem?_getD, List.getElem?_append, c]

theorem at_nil {m : Mem} {pos : Nat} : At m pos [] ↔ pos ≤ 64 * m.length := by
  constructor
  · rintro ⟨h, _⟩; exact h
  · intro h; exact ⟨h, fun k hk => absurd hk (by simp)⟩

/-- `m'` is `m` with the bit string `l` written at `pos`. -/
structure WB (m m' : Mem) (pos : Nat) (l : List Bool) : Prop where
  length : m'.length = m.length
  bits : ∀ q, bitAt m' q = if pos ≤ q ∧ q < pos + l.length then l.getD (q - pos) false else bitAt m q

theorem WB.nil (m : Mem) (pos : Nat) : WB m m pos [] := ⟨rfl, fun q => by rw [if_neg (by simp)]⟩

theorem WB.append {m m1 m2 : Mem} {pos : Nat} {a b : List Bool} (h1 : WB m m1 pos a) (h2 : WB m1 m2 (pos + a.length) b) :
    WB m m2 pos (a ++ b) := by
  refine ⟨h2.length.trans h1.length, fun q => ?_⟩
  rw [h2.bits, h1.bits]
  simp only [List.length_append]
  by_cases c1 : pos ≤ q ∧ q < pos + a.length
  · rw [if_neg (by omega), if_pos c1, if_pos (by omega)]
    simp [List.getD_eq_getElem?_getD, List.getElem?_append, show q - pos < a.length by omega]
  · by_cases c2 : pos + a.length ≤ q ∧ q < pos + a.length + b.length
    · rw [if_pos c2, if_pos (by omega)]
      simp [List.getD_eq_getElem?_getD, List.getElem?_append, show ¬ q - pos < a.length by omega]
      rw [show q - pos - a.length = q - (pos + a.length) by omega]
    · rw [if_neg c2, if_neg c1, if_neg (by omega)]

theorem WB.at {m m' : Mem} {pos : Nat} {l : List Bool} (h : WB m m' pos l) (hl : pos + l.length ≤ 64 * m.length) :
    At m' pos l := by
  refine ⟨by rw [h.length]; exact hl, fun k hk => ?_⟩
  rw [h.bits, if_pos (by omega), Nat.add_sub_cancel_left]

theorem WB.at_other {m m' : Mem} {pos q : Nat} {l b : List Bool} (h : WB m m' pos l)
    (hd : q + b.length ≤ pos ∨ pos + l.length ≤ q) (hb : At m q b) : At m' q b := by
  refine ⟨by rw [h.length]; exact hb.1, fun k hk => ?_⟩
  rw [h.bits, if_neg (by omega), hb.2 k hk]

theorem WB.of_written {m m' : Mem} {pos len : Nat} {x : Word} (h : Written m m' pos len x) :
    WB m m' pos (lowBits x.toNat len) := by
  refine ⟨h.length, fun q => ?_⟩
  rw [h.bits, length_lowBits]
  split
  · rw [getD_lowBits (by omega)]; rfl
  · rfl

theorem lowBits_pow (l : Nat) : lowBits (2 ^ l) (l + 1) = List.replicate l false ++ [true] := by
  apply List.ext_getElem
  · simp [lowBits]
  · intro i h1 h2
    simp [lowBits] at h1
    simp only [lowBits, List.getElem_map, List.getElem_range, Nat.testBit_two_pow, List.getElem_append, List.length_replicate,
      List.getElem_replicate]
    by_cases c : i < l
    · rw [dif_pos c]; simp; omega
    · rw [dif_neg c]; simp; omega

theorem field_low {m : Mem} {pos x n : Nat} (h : At m pos (lowBits x n)) : field m pos n = x % 2 ^ n := by
  rw [← bitsVal_testBit]
  apply bitsVal_congr
  intro i hi
  rw [h.2 i (by rw [length_lowBits]; exact hi), getD_lowBits hi]

theorem ri {m : Mem} {pos len : Nat} (hl : len ≤ 64) (h : pos + len ≤ 64 * m.length) (hp : pos < 64 * m.length) :
    readInt m (pos / 64) (pos % 64) len = some (BitVec.ofNat 64 (field m pos len)) := by
  have := readInt_eq (m := m) (p := pos / 64) (off := pos % 64) (len := len) (by omega) hl (by omega) (by omega)
  rwa [show 64 * (pos / 64) + pos % 64 = pos by omega] at this

theorem rim {m : Mem} {pos len : Nat} (hl : len ≤ 64) (h : pos + len ≤ 64 * m.length) (hp : pos < 64 * m.length) :
    readIntAndMove m (pos / 64) (pos % 64) len = some (BitVec.ofNat 64 (field m pos len), (pos + len) / 64, (pos + len) % 64) := by
  have := readIntAndMove_eq (m := m) (p := pos / 64) (off := pos % 64) (len := len) (by omega) hl (by omega) (by omega)
  rwa [show 64 * (pos / 64) + pos % 64 = pos by omega] at this

theorem wim {m : Mem} {pos len : Nat} {x : Word} (hl : len ≤ 64) (h0 : 0 < len) (h : pos + len ≤ 64 * m.length) :
    ∃ m', writeIntAndMove m (pos / 64) x (pos % 64) len = some (m', (pos + len) / 64, (pos + len) % 64) ∧
      WB m m' pos (lowBits x.toNat len) := by
  obtain ⟨m', h1, h2⟩ := writeIntAndMove_eq (m := m) (p := pos / 64) (off := pos % 64) (len := len) (x := x) (by omega) hl
    (by omega) (by omega)
  rw [show 64 * (pos / 64) + pos % 64 = pos by omega] at h1 h2
  exact ⟨m', h1, WB.of_written h2⟩

theorem isNext_at {m : Mem} {pos l : Nat} (h : At m pos (List.replicate l false ++ [true])) : IsNext m pos (pos + l) := by
  rw [At.append] at h
  obtain ⟨h1, h2⟩ := h
  refine ⟨by omega, ?_, fun j h3 h4 => ?_⟩
  · have := h2.2 0 (by simp); simpa using this
  · have := h1.2 (j - pos) (by simp; omega)
    rw [show pos + (j - pos) = j by omega] at this
    rw [this]
    simp [List.getD_eq_getElem?_getD, List.getElem?_replicate]
    split <;> rfl

theorem rum {m : Mem} {pos l : Nat} (h : At m pos (List.replicate l false ++ [true])) :
    readUnaryAndMove m (pos / 64) (pos % 64) = some (l, (pos + l + 1) / 64, (pos + l + 1) % 64) := by
  have := readUnaryAndMove_eq (m := m) (p := pos / 64) (off := pos % 64) (r := pos + l) (by omega)
    (by rw [show 64 * (pos / 64) + pos % 64 = pos by omega]; exact isNext_at h)
  rw [this]
  refine congrArg some (Prod.ext ?_ rfl)
  show pos + l - (64 * (pos / 64) + pos % 64) = l
  omega

theorem mvr {pos len : Nat} (hl : len ≤ 64) :
    (moveRight ((pos / 64 : Nat) : Int) (pos % 64) len).1.toNat = (pos + len) / 64 ∧
      (moveRight ((pos / 64 : Nat) : Int) (pos % 64) len).2 = (pos + len) % 64 := by
  have := moveRight_eq (p := ((pos / 64 : Nat) : Int)) (off := pos % 64) (len := len) (by omega) hl
  omega

/-- Position of the leading one; 64 for 0, which stands for `2^64`. -/
def lg (w : Word) : Nat := if w = 0#64 then 64 else Nat.log2 w.toNat

theorem toNat_pos {w : Word} (h : w ≠ 0#64) : w.toNat ≠ 0 := by
  intro h0; exact h (BitVec.eq_of_toNat_eq h0)

theorem lg_le (w : Word) : lg w ≤ 64 := by
  unfold lg
  split
  · omega
  · rename_i h
    have := (Nat.log2_lt (toNat_pos h)).2 w.isLt
    omega

theorem lg_lt {w : Word} (h : w ≠ 0#64) : lg w < 64 := by
  unfold lg
  rw [if_neg h]
  exact (Nat.log2_lt (toNat_pos h)).2 w.isLt

theorem lg_hi (w : Word) : hiOr64 w = some (lg w) := by
  unfold hiOr64 lg
  by_cases h : w = 0#64
  · simp [h]
  · rw [if_pos h, if_neg h, hi_eq]

/-- Low bits plus leading one give back the value. -/
theorem leading_add {sh : Option Word} {w : Word} (h : sh ≠ none ∨ w ≠ 0#64) :
    ∃ y, leading sh (lg w) = some y ∧ BitVec.ofNat 64 (w.toNat % 2 ^ lg w) + y = w := by
  by_cases hw : w = 0#64
  · subst hw
    obtain ⟨u, hu⟩ : ∃ u, sh = some u := by
      cases sh with
      | none => simp at h
      | some u => exact ⟨u, rfl⟩
    subst hu
    exact ⟨0#64, by simp [leading, lg], by simp⟩
  · have hl := lg_lt hw
    refine ⟨1#64 <<< lg w, by simp [leading, hl], ?_⟩
    have h0 := toNat_pos hw
    have e : lg w = Nat.log2 w.toNat := by simp [lg, hw]
    have h1 := Nat.log2_self_le h0
    have h2 := Nat.lt_log2_self (n := w.toNat)
    rw [← e] at h1 h2
    have h3 : w.toNat % 2 ^ lg w + 2 ^ lg w = w.toNat := by
      rw [Nat.mod_eq_sub_mod h1, Nat.mod_eq_of_lt (by rw [Nat.pow_succ] at h2; omega)]; omega
    have h4 : (1#64 <<< lg w) = BitVec.ofNat 64 (2 ^ lg w) := by
      apply BitVec.eq_of_toNat_eq; simp [BitVec.toNat_shiftLeft, Nat.shiftLeft_eq]
    rw [h4, ← BitVec.ofNat_add, h3, BitVec.ofNat_toNat, BitVec.setWidth_eq]

theorem shl_one {l : Nat} (h : l < 64) : shl 1#64 l = some (BitVec.ofNat 64 (2 ^ l)) := by
  rw [shl_of_lt h]
  congr 1
  apply BitVec.eq_of_toNat_eq; simp [BitVec.toNat_shiftLeft, Nat.shiftLeft_eq]

theorem gammaBits_eq (w : Word) : gammaBits w = List.replicate (lg w) false ++ [true] ++ lowBits w.toNat (lg w) := by
  simp [gammaBits, lg]

theorem length_gammaBits (w : Word) : (gammaBits w).length = 2 * lg w + 1 := by
  rw [gammaBits_eq]; simp [length_lowBits]; omega

theorem gamma_encLen (w : Word) : gammaEncLen w = some (gammaBits w).length := by
  have := lg_le w
  unfold gammaEncLen
  rw [lg_hi, sbind, length_gammaBits]
  refine congrArg some ?_; omega

theorem gamma_encode1 {m : Mem} {pos : Nat} {w : Word} (h : pos + (gammaBits w).length ≤ 64 * m.length) :
    ∃ m', gammaEncode1 m (pos / 64) (pos % 64) w =
        some (m', (pos + (gammaBits w).length) / 64, (pos + (gammaBits w).length) % 64) ∧ WB m m' pos (gammaBits w) := by
  rw [length_gammaBits] at h ⊢
  unfold gammaEncode1
  by_cases hw : w = 0#64
  · subst hw
    rw [if_pos rfl]
    have e : lg 0#64 = 64 := by simp [lg]
    rw [e] at h ⊢
    obtain ⟨m1, a1, b1⟩ := wim (m := m) (pos := pos) (len := 64) (x := 0#64) (by omega) (by omega) (by omega)
    obtain ⟨m2, a2, b2⟩ := wim (m := m1) (pos := pos + 64) (len := 1) (x := 1#64) (by omega) (by omega)
      (by rw [b1.length]; omega)
    obtain ⟨m3, a3, b3⟩ := wim (m := m2) (pos := pos + 64 + 1) (len := 64) (x := 0#64) (by omega) (by omega)
      (by rw [b2.length, b1.length]; omega)
    rw [a1, sbind]; dsimp only
    rw [a2, sbind]; dsimp only
    rw [a3]
    refine ⟨m3, by rw [show pos + 64 + 1 + 64 = pos + (2 * 64 + 1) by omega], ?_⟩
    have := (b1.append (b := lowBits (1#64).toNat 1) (by rw [length_lowBits]; exact b2)).append
      (b := lowBits (0#64).toNat 64) (by simpa [length_lowBits, Nat.add_assoc] using b3)
    rw [gammaBits_eq, e]
    have e2 : lowBits (0#64).toNat 64 ++ lowBits (1#64).toNat 1 = List.replicate 64 false ++ [true] := by decide +kernel
    rw [← e2]; exact this
  · rw [if_neg hw]
    have hl := lg_lt hw
    have hh : hi w = some (lg w) := by have := lg_hi w; unfold hiOr64 at this; rwa [if_pos hw] at this
    rw [hh, sbind, shl_one hl, sbind]
    obtain ⟨m1, a1, b1⟩ := wim (m := m) (pos := pos) (len := lg w + 1) (x := BitVec.ofNat 64 (2 ^ lg w)) (by omega) (by omega)
      (by omega)
    rw [a1, sbind]; dsimp only
    have e1 : (BitVec.ofNat 64 (2 ^ lg w)).toNat = 2 ^ lg w := by
      rw [BitVec.toNat_ofNat, Nat.mod_eq_of_lt (Nat.pow_lt_pow_right (by omega) hl)]
    rw [e1, lowBits_pow] at b1
    by_cases h0 : lg w = 0
    · rw [if_neg (by omega)]
      refine ⟨m1, by rw [h0]; rfl, ?_⟩
      rw [gammaBits_eq]
      simpa [h0, lowBits] using b1
    · rw [if_pos h0]
      obtain ⟨m2, a2, b2⟩ := wim (m := m1) (pos := pos + (lg w + 1)) (len := lg w) (x := w) (by omega) (by omega)
        (by rw [b1.length]; omega)
      rw [a2]
      refine ⟨m2, by rw [show pos + (lg w + 1) + lg w = pos + (2 * lg w + 1) by omega], ?_⟩
      rw [gammaBits_eq]
      exact b1.append (by simpa using b2)

theorem gamma_decS {sh : Option Word} {m : Mem} {pos : Nat} {w : Word} (hs : sh ≠ none ∨ w ≠ 0#64) (h : At m pos (gammaBits w))
    (hp : pos + (gammaBits w).length < 64 * m.length) :
    gammaDecS sh m (pos / 64) (pos % 64) =
      some (w, (pos + (gammaBits w).length) / 64, (pos + (gammaBits w).length) % 64) := by
  rw [length_gammaBits] at hp ⊢
  rw [gammaBits_eq, At.append] at h
  unfold gammaDecS
  have hl := lg_le w
  obtain ⟨y, hy1, hy2⟩ := leading_add hs
  have h2 := h.2
  simp only [List.length_append, List.length_replicate, List.length_singleton] at h2
  rw [rum h.1, sbind]; dsimp only
  rw [rim hl (by omega) (by omega), sbind]; dsimp only
  rw [hy1, sbind, Nat.add_assoc, field_low h2, hy2, show pos + (lg w + 1) + lg w = pos + (2 * lg w + 1) by omega]
  rfl

theorem gamma_dec1 {sh : Option Word} {m : Mem} {pos : Nat} {w : Word} (hs : sh ≠ none ∨ w ≠ 0#64) (h : At m pos (gammaBits w)) :
    gammaDec1 sh m (pos / 64) (pos % 64) =
      some (w, (pos + (gammaBits w).length) / 64, (pos + (gammaBits w).length) % 64) := by
  have hp := h.1
  rw [length_gammaBits] at hp ⊢
  rw [gammaBits_eq, At.append] at h
  unfold gammaDec1
  have hl := lg_le w
  obtain ⟨y, hy1, hy2⟩ := leading_add hs
  have h2 := h.2
  simp only [List.length_append, List.length_replicate, List.length_singleton] at h2
  rw [rum h.1, sbind]; dsimp only
  by_cases h0 : lg w = 0
  · rw [if_pos h0]
    rw [h0] at hy1 hy2 ⊢
    have : y = 1#64 := by simpa [leading] using hy1.symm
    rw [this] at hy2
    rw [← hy2, Nat.pow_zero, Nat.mod_one]; rfl
  · rw [if_neg h0]
    rw [rim hl (by omega) (by omega), sbind]; dsimp only
    rw [hy1, sbind, Nat.add_assoc, field_low h2, hy2, show pos + (lg w + 1) + lg w = pos + (2 * lg w + 1) by omega]
    rfl

theorem gamma_skip {m : Mem} {pos : Nat} {w : Word} (h : At m pos (gammaBits w)) :
    gammaSkip m (pos / 64) (pos % 64) = some ((pos + (gammaBits w).length) / 64, (pos + (gammaBits w).length) % 64) := by
  rw [length_gammaBits]
  rw [gammaBits_eq, At.append] at h
  unfold gammaSkip
  have hl := lg_le w
  rw [rum h.1, sbind]; dsimp only
  by_cases h0 : lg w = 0
  · rw [if_neg (by omega), h0]; rfl
  · rw [if_pos h0]
    have := mvr (pos := pos + lg w + 1) hl
    rw [this.1, this.2, show pos + lg w + 1 + lg w = pos + (2 * lg w + 1) by omega]; rfl

/-! ### delta -/

/-- Position of the leading one of the length. -/
def lg2 (w : Word) : Nat := Nat.log2 (lg w + 1)

theorem lg2_le (w : Word) : lg2 w ≤ 6 := by
  have := lg_le w
  have := (Nat.log2_lt (n := lg w + 1) (k := 7) (by omega)).2 (by omega)
  unfold lg2; omega

theorem lg2_eq_zero (w : Word) : lg2 w = 0 ↔ lg w = 0 := by
  unfold lg2
  constructor
  · intro h
    have h1 := Nat.lt_log2_self (n := lg w + 1)
    rw [h] at h1; omega
  · intro h; rw [h]; decide

theorem deltaBits_eq (w : Word) :
    deltaBits w = List.replicate (lg2 w) false ++ [true] ++ lowBits (lg w + 1) (lg2 w) ++ lowBits w.toNat (lg w) := by
  have e : (if w = 0#64 then 65 else Nat.log2 w.toNat + 1) = lg w + 1 := by unfold lg; split <;> rfl
  simp only [deltaBits, e, lg2]
  simp

theorem length_deltaBits (w : Word) : (deltaBits w).length = 2 * lg2 w + 1 + lg w := by
  rw [deltaBits_eq]; simp [length_lowBits]; omega

theorem hi_len (w : Word) : hi (BitVec.ofNat 64 (lg w + 1)) = some (lg2 w) := by
  have := lg_le w
  rw [hi_eq, BitVec.toNat_ofNat, Nat.mod_eq_of_lt (by omega)]; rfl

theorem delta_encLen (w : Word) : deltaEncLen w = some (deltaBits w).length := by
  have := lg_le w
  have := lg2_le w
  unfold deltaEncLen
  rw [lg_hi, sbind, hi_len, sbind, length_deltaBits]
  refine congrArg some ?_; omega

theorem lowBits_mod {x n k : Nat} (h : n ≤ k) : lowBits (x % 2 ^ k) n = lowBits x n := by
  unfold lowBits
  apply List.map_congr_left
  intro j hj
  have : j < n := by simpa using hj
  rw [Nat.testBit_mod_two_pow]; simp; omega

theorem delta_encode1 {m : Mem} {pos : Nat} {w : Word} (h : pos + (deltaBits w).length ≤ 64 * m.length) :
    ∃ m', deltaEncode1 m (pos / 64) (pos % 64) w =
        some (m', (pos + (deltaBits w).length) / 64, (pos + (deltaBits w).length) % 64) ∧ WB m m' pos (deltaBits w) := by
  rw [length_deltaBits] at h ⊢
  have hl := lg_le w
  have hl2 := lg2_le w
  unfold deltaEncode1
  rw [lg_hi, sbind]; dsimp only
  rw [hi_len, sbind, shl_one (by omega), sbind]
  obtain ⟨m1, a1, b1⟩ := wim (m := m) (pos := pos) (len := lg2 w + 1) (x := BitVec.ofNat 64 (2 ^ lg2 w)) (by omega) (by omega)
    (by omega)
  rw [a1, sbind]; dsimp only
  have e1 : (BitVec.ofNat 64 (2 ^ lg2 w)).toNat = 2 ^ lg2 w := by
    rw [BitVec.toNat_ofNat, Nat.mod_eq_of_lt (Nat.pow_lt_pow_right (by omega) (by omega))]
  rw [e1, lowBits_pow] at b1
  by_cases h0 : lg2 w = 0
  · have h00 := (lg2_eq_zero w).1 h0
    rw [if_neg (by omega)]
    refine ⟨m1, by rw [h0, h00]; rfl, ?_⟩
    rw [deltaBits_eq]
    simpa [h0, h00, lowBits] using b1
  · have h00 : lg w ≠ 0 := fun hc => h0 ((lg2_eq_zero w).2 hc)
    rw [if_pos h0]
    obtain ⟨m2, a2, b2⟩ := wim (m := m1) (pos := pos + (lg2 w + 1)) (len := lg2 w) (x := BitVec.ofNat 64 (lg w + 1)) (by omega)
      (by omega) (by rw [b1.length]; omega)
    obtain ⟨m3, a3, b3⟩ := wim (m := m2) (pos := pos + (lg2 w + 1) + lg2 w) (len := lg w) (x := w) (by omega)
      (by omega) (by rw [b2.length, b1.length]; omega)
    rw [a2, sbind]; dsimp only
    rw [Nat.add_sub_cancel, a3]
    refine ⟨m3, by rw [show pos + (lg2 w + 1) + lg2 w + lg w = pos + (2 * lg2 w + 1 + lg w) by omega], ?_⟩
    rw [deltaBits_eq]
    rw [BitVec.toNat_ofNat, lowBits_mod (by omega)] at b2
    exact (b1.append (by simpa using b2)).append (by
      simp only [List.length_append, List.length_replicate, List.length_singleton, length_lowBits]
      rwa [Nat.add_assoc pos] at b3)

theorem readLen_eq {m : Mem} {pos : Nat} {w : Word} (h : At m pos (lowBits (lg w + 1) (lg2 w))) (hp : pos < 64 * m.length) :
    readLen m (pos / 64) (pos % 64) (lg2 w) = some (lg w + 1, (pos + lg2 w) / 64, (pos + lg2 w) % 64) := by
  have hl := lg_le w
  have hl2 := lg2_le w
  have h1 := h.1
  rw [length_lowBits] at h1
  unfold readLen
  rw [rim (by omega) h1 hp, sbind, shl_one (by omega), sbind]; dsimp only
  rw [field_low h, ← BitVec.ofNat_add]
  have h1 := Nat.log2_self_le (n := lg w + 1) (by omega)
  have h2 := Nat.lt_log2_self (n := lg w + 1)
  have e : Nat.log2 (lg w + 1) = lg2 w := rfl
  rw [e] at h1 h2
  have h3 : (lg w + 1) % 2 ^ lg2 w + 2 ^ lg2 w = lg w + 1 := by
    rw [Nat.mod_eq_sub_mod h1, Nat.mod_eq_of_lt (by rw [Nat.pow_succ] at h2; omega)]; omega
  rw [h3, BitVec.toNat_ofNat, Nat.mod_eq_of_lt (by omega)]; rfl

theorem delta_at {m : Mem} {pos : Nat} {w : Word} (h : At m pos (deltaBits w)) :
    At m pos (List.replicate (lg2 w) false ++ [true]) ∧ At m (pos + lg2 w + 1) (lowBits (lg w + 1) (lg2 w)) ∧
      At m (pos + lg2 w + 1 + lg2 w) (lowBits w.toNat (lg w)) := by
  rw [deltaBits_eq, At.append, At.append] at h
  obtain ⟨⟨h1, h2⟩, h3⟩ := h
  simp only [List.length_append, List.length_replicate, List.length_singleton, length_lowBits] at h2 h3
  refine ⟨h1, by simpa [Nat.add_assoc] using h2, ?_⟩
  rwa [show pos + lg2 w + 1 + lg2 w = pos + (lg2 w + 1 + lg2 w) by omega]

theorem delta_decS {sh : Option Word} {m : Mem} {pos : Nat} {w : Word} (hs : sh ≠ none ∨ w ≠ 0#64) (h : At m pos (deltaBits w))
    (hp : pos + (deltaBits w).length < 64 * m.length) :
    deltaDecS sh m (pos / 64) (pos % 64) =
      some (w, (pos + (deltaBits w).length) / 64, (pos + (deltaBits w).length) % 64) := by
  rw [length_deltaBits] at hp ⊢
  obtain ⟨h1, h2, h3⟩ := delta_at h
  unfold deltaDecS
  have hl := lg_le w
  obtain ⟨y, hy1, hy2⟩ := leading_add hs
  rw [rum h1, sbind]; dsimp only
  rw [readLen_eq h2 (by omega), sbind]; dsimp only
  rw [Nat.add_sub_cancel, rim hl (by omega) (by omega), sbind]; dsimp only
  rw [hy1, sbind, field_low h3, hy2, show pos + lg2 w + 1 + lg2 w + lg w = pos + (2 * lg2 w + 1 + lg w) by omega]
  rfl

theorem delta_dec1 {sh : Option Word} {m : Mem} {pos : Nat} {w : Word} (hs : sh ≠ none ∨ w ≠ 0#64) (h : At m pos (deltaBits w)) :
    deltaDec1 sh m (pos / 64) (pos % 64) =
      some (w, (pos + (deltaBits w).length) / 64, (pos + (deltaBits w).length) % 64) := by
  have hp := h.1
  rw [length_deltaBits] at hp ⊢
  obtain ⟨h1, h2, h3⟩ := delta_at h
  unfold deltaDec1
  have hl := lg_le w
  obtain ⟨y, hy1, hy2⟩ := leading_add hs
  rw [rum h1, sbind]; dsimp only
  by_cases h0 : lg2 w = 0
  · have h00 := (lg2_eq_zero w).1 h0
    rw [if_pos h0]
    rw [h00] at hy1 hy2
    rw [h00, h0]
    have : y = 1#64 := by simpa [leading] using hy1.symm
    rw [this] at hy2
    rw [← hy2, Nat.pow_zero, Nat.mod_one]; rfl
  · have h00 : lg w ≠ 0 := fun hc => h0 ((lg2_eq_zero w).2 hc)
    rw [if_neg h0, readLen_eq h2 (by omega), sbind]; dsimp only
    rw [Nat.add_sub_cancel, rim hl (by omega) (by omega), sbind]; dsimp only
    rw [hy1, sbind, field_low h3, hy2, show pos + lg2 w + 1 + lg2 w + lg w = pos + (2 * lg2 w + 1 + lg w) by omega]
    rfl

theorem delta_skip {m : Mem} {pos : Nat} {w : Word} (h : At m pos (deltaBits w)) :
    deltaSkip m (pos / 64) (pos % 64) = some ((pos + (deltaBits w).length) / 64, (pos + (deltaBits w).length) % 64) := by
  have hp := h.1
  rw [length_deltaBits] at hp ⊢
  obtain ⟨h1, h2, h3⟩ := delta_at h
  unfold deltaSkip
  have hl := lg_le w
  rw [rum h1, sbind]; dsimp only
  by_cases h0 : lg2 w = 0
  · have h00 := (lg2_eq_zero w).1 h0
    rw [if_neg (by omega), h0, h00]; rfl
  · have h00 : lg w ≠ 0 := fun hc => h0 ((lg2_eq_zero w).2 hc)
    rw [if_pos h0, readLen_eq h2 (by omega), sbind]; dsimp only
    have := mvr (pos := pos + lg2 w + 1 + lg2 w) hl
    rw [Nat.add_sub_cancel, this.1, this.2, show pos + lg2 w + 1 + lg2 w + lg w = pos + (2 * lg2 w + 1 + lg w) by omega]; rfl

end Sdsl.Coder
