/-
  `get_int` / `set_int` on abstract bit vectors (module `Bv`), undefined when the field leaves the vector or is longer than 64
  bits (include/sdsl/int_vector.hpp:1330-1356). Props/BvBridge shows that the word-level bit vector behaves like these functions.
-/
import Verif.Bv

namespace Sdsl.Bv

open Sdsl.Spec

/-- The number in the bits `[pos, pos+len)` of `B`, least significant bit first. -/
def fld (B : List Bool) (pos len : Nat) : Nat := bitsVal (fun j => bit B (pos + j)) len

/-- `B.get_int(pos, len)`. -/
def getInt (B : List Bool) (pos len : Nat) : Option Nat :=
  if pos + len ≤ B.length ∧ len ≤ 64 then some (fld B pos len) else none

/-- The bits `[pos, pos+len)` replaced by the low bits of `x`. -/
def wr (B : List Bool) (pos x len : Nat) : List Bool :=
  B.take pos ++ ((List.range len).map (fun j => x.testBit j) ++ B.drop (pos + len))

/-- `B.set_int(pos, x, len)`. -/
def setInt (B : List Bool) (pos x len : Nat) : Option (List Bool) :=
  if pos + len ≤ B.length ∧ len ≤ 64 then some (wr B pos x len) else none

theorem getInt_of_le {B : List Bool} {pos len : Nat} (h : pos + len ≤ B.length) (h2 : len ≤ 64) :
    getInt B pos len = some (fld B pos len) := by simp [getInt, h, h2]

theorem setInt_of_le {B : List Bool} {pos x len : Nat} (h : pos + len ≤ B.length) (h2 : len ≤ 64) :
    setInt B pos x len = some (wr B pos x len) := by simp [setInt, h, h2]

theorem length_wr {B : List Bool} {pos x len : Nat} (h : pos + len ≤ B.length) : (wr B pos x len).length = B.length := by
  unfold wr; simp; omega

theorem bit_wr {B : List Bool} {pos x len : Nat} (h : pos + len ≤ B.length) (q : Nat) :
    bit (wr B pos x len) q = if pos ≤ q ∧ q < pos + len then x.testBit (q - pos) else bit B q := by
  unfold bit wr
  have hp : (B.take pos).length = pos := by rw [List.length_take]; omega
  rw [List.getD_eq_getElem?_getD, List.getD_eq_getElem?_getD]
  by_cases h1 : q < pos
  · rw [List.getElem?_append_left (by omega), List.getElem?_take_of_lt h1, if_neg (by omega)]
  · rw [List.getElem?_append_right (by omega), hp]
    by_cases h2 : q < pos + len
    · rw [List.getElem?_append_left (by simp; omega), if_pos (by omega)]
      rw [List.getElem?_map, List.getElem?_range (by omega)]; rfl
    · rw [List.getElem?_append_right (by simp; omega), if_neg (by omega), List.length_map, List.length_range,
        List.getElem?_drop, show pos + len + (q - pos - len) = q by omega]

theorem fld_lt (B : List Bool) (pos len : Nat) : fld B pos len < 2 ^ len := bitsVal_lt _ _

theorem testBit_fld (B : List Bool) (pos len i : Nat) :
    (fld B pos len).testBit i = (decide (i < len) && bit B (pos + i)) := testBit_bitsVal _ _ _

theorem fld_congr {B B' : List Bool} {p p' len : Nat} (h : ∀ j, j < len → bit B (p + j) = bit B' (p' + j)) :
    fld B p len = fld B' p' len := bitsVal_congr h

theorem fld_wr_self {B : List Bool} {pos x len : Nat} (h : pos + len ≤ B.length) : fld (wr B pos x len) pos len = x % 2 ^ len := by
  apply Nat.eq_of_testBit_eq
  intro i
  rw [testBit_fld, Nat.testBit_mod_two_pow, bit_wr h]
  by_cases hi : i < len
  · rw [if_pos (by omega)]; simp [hi]
  · simp [hi]

theorem fld_wr_other {B : List Bool} {pos x len p l : Nat} (h : pos + len ≤ B.length) (hd : p + l ≤ pos ∨ pos + len ≤ p) :
    fld (wr B pos x len) p l = fld B p l :=
  fld_congr (fun j hj => by rw [bit_wr h, if_neg (by omega)])

/-- Two adjacent fields read as one. -/
theorem fld_add (B : List Bool) (p a b : Nat) : fld B p (a + b) = fld B p a + 2 ^ a * fld B (p + a) b := by
  apply Nat.eq_of_testBit_eq
  intro i
  have hlt := fld_lt B p a
  rw [Nat.add_comm (fld B p a), Nat.testBit_two_pow_mul_add _ hlt, testBit_fld, testBit_fld, testBit_fld]
  by_cases hi : i < a
  · simp [hi, show i < a + b by omega]
  · rw [if_neg hi, show p + a + (i - a) = p + i by omega]
    by_cases h2 : i < a + b
    · simp [h2, show i - a < b by omega]
    · simp [h2, show ¬ i - a < b by omega]

end Sdsl.Bv
