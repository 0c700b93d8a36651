/-
  Lemmas about `int_vector_buffer`: bytes of files and memory, blocks.
-/
import Verif.IntVecBuf
import Verif.IntVecIO
import Verif.UtilLemmas

namespace Sdsl.Ivb

open Spec Bits IntVec

/-! ### Bytes -/

/-- Bit `q` of a file, bit 0 being the least significant bit of byte 0; `false` beyond the end. -/
def fbit (f : List Byte) (q : Nat) : Bool := (f.getD (q / 8) 0#8).getLsbD (q % 8)

theorem fbit_congr {f g : List Byte} {p q : Nat} (hm : p % 8 = q % 8) (h : f.getD (p / 8) 0#8 = g.getD (q / 8) 0#8) :
    fbit f p = fbit g q := by
  unfold fbit; rw [h, hm]

theorem fbit_ge {f : List Byte} {q : Nat} (h : 8 * f.length ≤ q) : fbit f q = false := by
  unfold fbit
  rw [List.getD_eq_getElem?_getD, List.getElem?_eq_none (by omega)]
  simp

theorem fbit_drop (f : List Byte) (n q : Nat) : fbit (f.drop n) q = fbit f (8 * n + q) := by
  apply fbit_congr (by omega)
  rw [List.getD_eq_getElem?_getD, List.getD_eq_getElem?_getD, List.getElem?_drop]
  congr 2; omega

theorem fbit_take {f : List Byte} {n q : Nat} (h : q < 8 * n) : fbit (f.take n) q = fbit f q := by
  apply fbit_congr rfl
  rw [List.getD_eq_getElem?_getD, List.getD_eq_getElem?_getD, List.getElem?_take, if_pos (by omega)]

theorem fbit_cons_lt (b : Byte) (f : List Byte) {q : Nat} (h : q < 8) : fbit (b :: f) q = b.getLsbD q := by
  unfold fbit
  rw [show q / 8 = 0 by omega, show q % 8 = q by omega]; rfl

theorem fbit_cons_ge (b : Byte) (f : List Byte) {q : Nat} (h : 8 ≤ q) : fbit (b :: f) q = fbit f (q - 8) := by
  apply fbit_congr (by omega)
  rw [show q / 8 = (q - 8) / 8 + 1 by omega]; rfl

theorem fbit_append (f g : List Byte) (q : Nat) :
    fbit (f ++ g) q = if q < 8 * f.length then fbit f q else fbit g (q - 8 * f.length) := by
  by_cases h : q < 8 * f.length
  · rw [if_pos h]
    apply fbit_congr rfl
    rw [List.getD_eq_getElem?_getD, List.getD_eq_getElem?_getD, List.getElem?_append_left (by omega)]
  · rw [if_neg h]
    apply fbit_congr (by omega)
    rw [List.getD_eq_getElem?_getD, List.getD_eq_getElem?_getD, List.getElem?_append_right (by omega)]
    congr 2; omega

theorem fbit_zeros (n q : Nat) : fbit (List.replicate n 0#8) q = false := by
  unfold fbit
  rw [List.getD_eq_getElem?_getD, List.getElem?_replicate]
  split <;> simp

/-- Files are equal if they have the same length and the same bits. -/
theorem file_ext {f g : List Byte} (hl : f.length = g.length) (hb : ∀ q, q < 8 * f.length → fbit f q = fbit g q) : f = g := by
  apply List.ext_getElem hl
  intro i h1 h2
  apply BitVec.eq_of_getLsbD_eq
  intro k hk
  have := hb (8 * i + k) (by omega)
  unfold fbit at this
  rw [show (8 * i + k) / 8 = i by omega, show (8 * i + k) % 8 = k by omega] at this
  rwa [List.getD_eq_getElem?_getD, List.getD_eq_getElem?_getD, List.getElem?_eq_getElem h1, List.getElem?_eq_getElem h2] at this

theorem seekWrite_length {f : List Byte} {pos : Nat} {bs : List Byte} (h : bs ≠ []) :
    (seekWrite f pos bs).length = max f.length (pos + bs.length) := by
  unfold seekWrite
  rw [if_neg h]
  simp only [List.length_append, List.length_take, List.length_replicate, List.length_drop]
  omega

theorem fbit_seekWrite (f : List Byte) (pos : Nat) (bs : List Byte) (q : Nat) :
    fbit (seekWrite f pos bs) q =
      if 8 * pos ≤ q ∧ q < 8 * (pos + bs.length) then fbit bs (q - 8 * pos) else fbit f q := by
  unfold seekWrite
  by_cases h : bs = []
  · subst h; rw [if_pos rfl, if_neg (by simp only [List.length_nil]; omega)]
  rw [if_neg h]
  have hl : ((f ++ List.replicate (pos - f.length) 0#8).take pos).length = pos := by
    simp only [List.length_append, List.length_take, List.length_replicate]; omega
  rw [List.append_assoc, fbit_append, hl]
  by_cases h1 : q < 8 * pos
  · rw [if_pos h1, if_neg (by omega), fbit_take h1, fbit_append]
    by_cases h2 : q < 8 * f.length
    · rw [if_pos h2]
    · rw [if_neg h2, fbit_zeros, fbit_ge (by omega)]
  · rw [if_neg h1, fbit_append]
    by_cases h2 : q - 8 * pos < 8 * bs.length
    · rw [if_pos h2, if_pos (by omega)]
    · rw [if_neg h2, if_neg (by omega), fbit_drop]
      congr 1; omega

theorem outBytes_eq (m : Mem) (n : Nat) : ∀ p, 8 * (p + n) ≤ 64 * m.length →
    ∃ bs, outBytes m p n = some bs ∧ bs.length = n ∧ ∀ q, q < 8 * n → fbit bs q = bitAt m (8 * p + q) := by
  induction n with
  | zero => intro p _; exact ⟨[], rfl, rfl, fun q h => by omega⟩
  | succ n ih =>
    intro p h
    obtain ⟨bs, h1, h2, h3⟩ := ih (p + 1) (by omega)
    refine ⟨(BitVec.ofNat 64 (field m (64 * (p / 8) + 8 * (p % 8)) 8)).setWidth 8 :: bs, ?_, ?_, ?_⟩
    · unfold outBytes
      rw [readInt_eq (by omega) (by omega) (by omega) (by omega), sbind, h1, sbind]
      rfl
    · rw [List.length_cons, h2]
    · intro q hq
      by_cases hq8 : q < 8
      · rw [fbit_cons_lt _ _ hq8, BitVec.getLsbD_setWidth, BitVec.getLsbD_ofNat, testBit_field]
        simp only [hq8, decide_true, Bool.true_and, show q < 64 by omega]
        congr 1; omega
      · rw [fbit_cons_ge _ _ (by omega), h3 _ (by omega)]
        congr 1; omega

theorem inBytes_eq (bs : List Byte) : ∀ (m : Mem) (p : Nat), 8 * (p + bs.length) ≤ 64 * m.length →
    ∃ d, inBytes m p bs = some d ∧ d.length = m.length ∧
      ∀ q, bitAt d q = if 8 * p ≤ q ∧ q < 8 * (p + bs.length) then fbit bs (q - 8 * p) else bitAt m q := by
  induction bs with
  | nil => intro m p _; exact ⟨m, rfl, rfl, fun q => by rw [if_neg (by simp only [List.length_nil]; omega)]⟩
  | cons b bs ih =>
    intro m p h
    rw [List.length_cons] at h
    obtain ⟨m1, h1, h2, h3⟩ := writeInt_eq (m := m) (p := p / 8) (off := 8 * (p % 8)) (len := 8) (x := b.setWidth 64)
      (by omega) (by omega) (by omega) (by omega)
    obtain ⟨d, g1, g2, g3⟩ := ih m1 (p + 1) (by omega)
    refine ⟨d, ?_, by omega, ?_⟩
    · unfold inBytes
      rw [h1, sbind, g1]
    · intro q
      rw [g3, h3, List.length_cons]
      by_cases c1 : 8 * (p + 1) ≤ q ∧ q < 8 * (p + 1 + bs.length)
      · rw [if_pos c1, if_pos (by omega), fbit_cons_ge _ _ (by omega)]
        congr 1
      · rw [if_neg c1]
        by_cases c2 : 8 * p ≤ q ∧ q < 8 * p + 8
        · rw [if_pos (by omega), if_pos (by omega), fbit_cons_lt _ _ (by omega), BitVec.getLsbD_setWidth]
          simp only [show q - (64 * (p / 8) + 8 * (p % 8)) < 64 by omega, decide_true, Bool.true_and]
          congr 1; omega
        · rw [if_neg (by omega), if_neg (by omega)]

theorem fbit_wordBytes (w : Word) (q : Nat) (h : q < 64) : fbit (wordBytes w) q = w.getLsbD q := by
  unfold fbit wordBytes
  rw [List.getD_eq_getElem?_getD, List.getElem?_map, List.getElem?_range (by omega)]
  simp only [Option.map_some, Option.getD_some, BitVec.getLsbD_setWidth, BitVec.getLsbD_ushiftRight]
  simp only [show q % 8 < 8 by omega, decide_true, Bool.true_and]
  congr 1; omega

theorem fbit_bytesOf (ws : List Word) : ∀ q, fbit (bytesOf ws) q = bitAt ws q := by
  induction ws with
  | nil => intro q; rw [fbit_ge (by simp [bytesOf]), bitAt_of_ge (by simp)]
  | cons w ws ih =>
    intro q
    rw [bytesOf_cons, fbit_append, wordBytes_length]
    by_cases h : q < 64
    · rw [if_pos (by omega), fbit_wordBytes _ _ h]
      unfold bitAt
      rw [show q / 64 = 0 by omega, show q % 64 = q by omega]; rfl
    · rw [if_neg (by omega), ih]
      unfold bitAt
      rw [show q / 64 = (q - 8 * 8) / 64 + 1 by omega, show (q - 8 * 8) % 64 = q % 64 by omega]; rfl

theorem exists_words (n : Nat) : ∀ bs : List Byte, bs.length = 8 * n → ∃ ws : List Word, bytesOf ws = bs ∧ ws.length = n := by
  intro bs h
  let ws : List Word := (List.range n).map fun i => BitVec.ofNat 64 (bitsVal (fun k => fbit bs (64 * i + k)) 64)
  have hl : ws.length = n := by simp [ws]
  refine ⟨ws, ?_, hl⟩
  apply file_ext (by rw [bytesOf_length, hl, h])
  intro q hq
  rw [bytesOf_length, hl] at hq
  rw [fbit_bytesOf]
  have hi : q / 64 < ws.length := by omega
  rw [bitAt_of_lt hi]
  have : ws[q / 64] = BitVec.ofNat 64 (bitsVal (fun k => fbit bs (64 * (q / 64) + k)) 64) := by simp [ws]
  rw [this, BitVec.getLsbD_ofNat, testBit_bitsVal]
  simp only [show q % 64 < 64 by omega, decide_true, Bool.true_and]
  congr 1; omega

end Sdsl.Ivb
