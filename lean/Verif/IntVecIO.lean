/-
  Lemmas about `int_vector::serialize` and `int_vector::load`.
-/
import Verif.IntVecOps

namespace Sdsl

open Spec Bits

namespace IntVec

theorem blockSize_pos : 0 < blockSize := Nat.two_pow_pos 22

attribute [local irreducible] blockSize

theorem wordBytes_eq (w : Word) : wordBytes w =
    [w.setWidth 8, (w >>> 8).setWidth 8, (w >>> 16).setWidth 8, (w >>> 24).setWidth 8, (w >>> 32).setWidth 8,
     (w >>> 40).setWidth 8, (w >>> 48).setWidth 8, (w >>> 56).setWidth 8] := by
  unfold wordBytes
  rw [show List.range 8 = [0, 1, 2, 3, 4, 5, 6, 7] from rfl]
  simp only [List.map_cons, List.map_nil, Nat.mul_zero, BitVec.ushiftRight_zero]

theorem wordBytes_length (w : Word) : (wordBytes w).length = 8 := by simp [wordBytes]

theorem byte_part (w : Word) (k i : Nat) (hi : i < 64) :
    (((w >>> k).setWidth 8).setWidth 64 <<< k).getLsbD i = (decide (k ≤ i) && decide (i < k + 8) && w.getLsbD i) := by
  rw [BitVec.getLsbD_shiftLeft, BitVec.getLsbD_setWidth, BitVec.getLsbD_setWidth, BitVec.getLsbD_ushiftRight]
  by_cases h : k ≤ i
  · rw [show k + (i - k) = i by omega]
    by_cases h2 : i < k + 8
    · simp [hi, h, h2, show i - k < 8 by omega, show i - k < 64 by omega]
    · simp [hi, h, h2, show ¬ i - k < 8 by omega]
  · simp [h]

theorem bytesWord_wordBytes (w : Word) : bytesWord (wordBytes w) = some w := by
  rw [wordBytes_eq]
  simp only [bytesWord]
  congr 1
  apply BitVec.eq_of_getLsbD_eq
  intro i hi
  have h0 := byte_part w 0 i hi
  rw [BitVec.ushiftRight_zero, BitVec.shiftLeft_zero] at h0
  simp only [BitVec.getLsbD_or, byte_part w _ i hi, h0]
  cases w.getLsbD i
  · simp
  · simp only [Bool.and_true]
    have : i < 8 ∨ (8 ≤ i ∧ i < 16) ∨ (16 ≤ i ∧ i < 24) ∨ (24 ≤ i ∧ i < 32) ∨ (32 ≤ i ∧ i < 40) ∨ (40 ≤ i ∧ i < 48) ∨
      (48 ≤ i ∧ i < 56) ∨ (56 ≤ i ∧ i < 64) := by omega
    simp only [Bool.or_eq_true, Bool.and_eq_true, decide_eq_true_eq]
    omega

/-- The bytes of a sequence of words. -/
def bytesOf (ws : List Word) : List Byte := ws.flatMap wordBytes

theorem bytesOf_cons (w : Word) (ws : List Word) : bytesOf (w :: ws) = wordBytes w ++ bytesOf ws := by simp [bytesOf]

theorem bytesOf_append (a b : List Word) : bytesOf (a ++ b) = bytesOf a ++ bytesOf b := by simp [bytesOf]

theorem bytesOf_length (ws : List Word) : (bytesOf ws).length = 8 * ws.length := by
  induction ws with
  | nil => rfl
  | cons w ws ih => rw [bytesOf_cons, List.length_append, wordBytes_length, ih, List.length_cons]; omega

theorem drop_take_cons {m : Mem} {p n : Nat} (h : p < m.length) :
    (m.drop p).take (n + 1) = m[p] :: (m.drop (p + 1)).take n := by
  rw [List.drop_eq_getElem_cons h, List.take_succ_cons]

theorem outWords_eq (m : Mem) (n : Nat) : ∀ p, p + n ≤ m.length → outWords m p n = some (bytesOf ((m.drop p).take n)) := by
  induction n with
  | zero => intro p _; simp [outWords, bytesOf]
  | succ n ih =>
    intro p h
    simp only [outWords, ld_of_lt (show p < m.length by omega), Option.bind_eq_bind, Option.bind_some, ih (p + 1) (by omega)]
    rw [drop_take_cons (by omega), bytesOf_cons]; rfl

theorem writeDataLoop_eq (m : Mem) (cap : Nat) (hc : cap ≤ m.length) (idx : Nat) (hi : idx ≤ cap) :
    writeDataLoop m cap idx = some (bytesOf ((m.drop idx).take (cap - idx)), (cap - idx) * 8) := by
  rw [writeDataLoop]
  have hb := blockSize_pos
  split <;> rename_i h
  · rw [outWords_eq m _ _ (by omega), writeDataLoop_eq m cap hc (idx + blockSize) (by omega)]
    simp only [Option.bind_eq_bind, Option.bind_some, pure]
    congr 2
    · rw [← bytesOf_append]
      congr 1
      have : cap - idx = blockSize + (cap - (idx + blockSize)) := by omega
      rw [this, List.take_add, List.drop_drop]
    · omega
  · rw [outWords_eq m _ _ (by omega)]; rfl
termination_by cap - idx
decreasing_by have := blockSize_pos; omega

theorem take_append_wordBytes (w : Word) (s : List Byte) : (wordBytes w ++ s).take 8 = wordBytes w := by
  rw [List.take_append_of_le_length (by rw [wordBytes_length]; omega), List.take_of_length_le (by rw [wordBytes_length]; omega)]

theorem drop_append_wordBytes (w : Word) (s : List Byte) : (wordBytes w ++ s).drop 8 = s := by
  have := List.drop_left (l₁ := wordBytes w) (l₂ := s)
  rwa [wordBytes_length] at this

theorem inWords_eq (ws : List Word) : ∀ (m : Mem) (p : Nat) (rest : List Byte), p + ws.length ≤ m.length →
    ∃ d, inWords m (bytesOf ws ++ rest) p ws.length = some (d, rest) ∧ d.length = m.length ∧
      ∀ j, d[j]? = if p ≤ j ∧ j < p + ws.length then ws[j - p]? else m[j]? := by
  induction ws with
  | nil => intro m p rest _; exact ⟨m, rfl, rfl, fun j => by rw [if_neg (by rw [List.length_nil]; omega)]⟩
  | cons w ws ih =>
    intro m p rest h
    rw [List.length_cons] at h
    obtain ⟨d, h1, h2, h3⟩ := ih (m.set p w) (p + 1) rest (by rw [List.length_set]; omega)
    refine ⟨d, ?_, by rw [h2, List.length_set], ?_⟩
    · rw [List.length_cons, bytesOf_cons, List.append_assoc]
      simp only [inWords, take_append_wordBytes, bytesWord_wordBytes, drop_append_wordBytes, Option.bind_eq_bind,
        Option.bind_some, st_of_lt (show p < m.length by omega)]
      exact h1
    · intro j
      rw [h3, List.length_cons]
      by_cases e : j = p
      · subst e
        rw [if_neg (by omega), if_pos (by omega), List.getElem?_set, if_pos rfl, if_pos (by omega), Nat.sub_self]; rfl
      · rw [List.getElem?_set, if_neg (Ne.symm e)]
        by_cases hj : p ≤ j ∧ j < p + (ws.length + 1)
        · rw [if_pos (by omega), if_pos hj]
          rw [show j - p = (j - (p + 1)) + 1 by omega, List.getElem?_cons_succ]
        · rw [if_neg (by omega), if_neg hj]

theorem loadLoop_eq (ws : List Word) (rest : List Byte) (cap idx : Nat) (m : Mem) (hi : idx + ws.length = cap)
    (hc : cap ≤ m.length) :
    ∃ d, loadLoop m (bytesOf ws ++ rest) cap idx = some (d, rest) ∧ d.length = m.length ∧
      ∀ j, d[j]? = if idx ≤ j ∧ j < cap then ws[j - idx]? else m[j]? := by
  rw [loadLoop]
  have hb := blockSize_pos
  split <;> rename_i h
  · have hsplit : ws = ws.take blockSize ++ ws.drop blockSize := (List.take_append_drop _ _).symm
    have hl : (ws.take blockSize).length = blockSize := by rw [List.length_take]; omega
    obtain ⟨d, h1, h2, h3⟩ := inWords_eq (ws.take blockSize) m idx (bytesOf (ws.drop blockSize) ++ rest) (by omega)
    rw [hl] at h1 h3
    obtain ⟨d2, g1, g2, g3⟩ := loadLoop_eq (ws.drop blockSize) rest cap (idx + blockSize) d
      (by rw [List.length_drop]; omega) (by omega)
    refine ⟨d2, ?_, by omega, ?_⟩
    · rw [← List.append_assoc, ← bytesOf_append, ← hsplit] at h1
      rw [h1, Option.bind_eq_bind, Option.bind_some]; exact g1
    · intro j
      rw [g3, h3]
      by_cases hj : idx + blockSize ≤ j ∧ j < cap
      · rw [if_pos hj, if_pos (by omega), List.getElem?_drop]; congr 1; omega
      · rw [if_neg hj]
        by_cases hj2 : idx ≤ j ∧ j < idx + blockSize
        · rw [if_pos hj2, if_pos (by omega), List.getElem?_take, if_pos (by omega)]
        · rw [if_neg hj2, if_neg (by omega)]
  · rw [show cap - idx = ws.length by omega]
    obtain ⟨d, h1, h2, h3⟩ := inWords_eq ws m idx rest (by omega)
    exact ⟨d, h1, h2, fun j => by rw [h3, hi]⟩
termination_by cap - idx
decreasing_by have := blockSize_pos; omega

theorem serialize_eq {tw : Nat} {v : IntVec} (hv : (v.size + 63) / 64 ≤ v.data.length) (fav : Bool) :
    v.serialize tw fav = some
      ((if tw = 0 then wordBytes (BitVec.ofNat 64 v.size) ++ [BitVec.ofNat 8 v.width]
        else if fav then wordBytes (BitVec.ofNat 64 v.size) ++ [BitVec.ofNat 8 tw]
        else wordBytes (BitVec.ofNat 64 v.size)) ++ bytesOf (v.data.take v.capWords),
       (if tw = 0 ∨ fav = true then 9 else 8) + v.capWords * 8) := by
  unfold serialize writeData
  rw [writeDataLoop_eq v.data v.capWords hv 0 (by omega)]
  simp only [Option.bind_eq_bind, Option.bind_some, List.drop_zero, Nat.sub_zero, pure]
  congr 1
  by_cases h : tw = 0
  · subst h; simp [writeHeader]
  · cases fav
    · simp [writeHeader, h]
    · have : tw > 0 := by omega
      simp [writeHeader, h, this]

theorem load_eq {tw : Nat} (junk : Nat → Word) {u : IntVec} (hu : (u.size + 63) / 64 ≤ u.data.length)
    {size width : Nat} (hs : size < 2 ^ 64) (hw : width < 256) (ws : List Word) (hws : ws.length = (size + 63) / 64)
    (rest : List Byte) (htw : tw ≠ 0 → u.width = width) :
    ∃ d, load tw junk u ((if tw = 0 then wordBytes (BitVec.ofNat 64 size) ++ [BitVec.ofNat 8 width]
        else wordBytes (BitVec.ofNat 64 size)) ++ bytesOf ws ++ rest) = some (⟨size, d, width⟩, rest) ∧
      (size + 63) / 64 ≤ d.length ∧ ∀ j, j < (size + 63) / 64 → d[j]? = ws[j]? := by
  have hsz : (BitVec.ofNat 64 size).toNat = size := by rw [BitVec.toNat_ofNat]; exact Nat.mod_eq_of_lt hs
  have hwd : (BitVec.ofNat 8 width).toNat = width := by rw [BitVec.toNat_ofNat]; exact Nat.mod_eq_of_lt hw
  obtain ⟨d0, r1, r2, -, -, -, -⟩ := bitResize_eq junk { u with width := width } hu size
  obtain ⟨d, l1, l2, l3⟩ := loadLoop_eq ws rest ((size + 63) / 64) 0 d0 (by omega) r2
  refine ⟨d, ?_, by omega, ?_⟩
  · unfold load
    by_cases h : tw = 0
    · simp only [h, if_true]
      rw [List.append_assoc, List.append_assoc, take_append_wordBytes, bytesWord_wordBytes, drop_append_wordBytes]
      simp only [Option.bind_eq_bind, Option.bind_some, List.cons_append, List.nil_append, hsz, hwd]
      simp only [] at r1
      rw [r1]
      simp only [Option.bind_some, capWords]
      rw [l1]; rfl
    · simp only [h, if_false]
      rw [List.append_assoc, take_append_wordBytes, bytesWord_wordBytes, drop_append_wordBytes]
      simp only [Option.bind_eq_bind, Option.bind_some, hsz]
      have e : u.width = width := htw h
      subst e
      simp only [] at r1
      rw [r1]
      simp only [Option.bind_some, capWords]
      rw [l1]; rfl
  · intro j hj
    rw [l3, if_pos (by omega)]; rfl

theorem load_bits {v : IntVec} {d : Mem} (h : ∀ j, j < (v.size + 63) / 64 → d[j]? = (v.data.take v.capWords)[j]?) :
    ∀ q, q < v.size → bitAt d q = bitAt v.data q := by
  intro q hq
  apply bitAt_of_getElem?
  rw [h _ (by omega), List.getElem?_take, if_pos (by unfold capWords; omega)]

end IntVec
end Sdsl
