/-
  Helper lemmas: bit-field reads and writes of `sdsl::bits`.
-/
import Verif.Bits
import Verif.SpecLemmas

namespace Sdsl.Bits
open Sdsl.Spec

theorem loSet_tab : ∀ k : Fin 65, loSetTab[k.val]? = some (BitVec.ofNat 64 (2 ^ k.val - 1)) := by
  decide +kernel

theorem loSet_eq {k : Nat} (h : k ≤ 64) : loSet k = some (BitVec.ofNat 64 (2 ^ k - 1)) :=
  loSet_tab ⟨k, by omega⟩

theorem getLsbD_ones {k i : Nat} : (BitVec.ofNat 64 (2 ^ k - 1)).getLsbD i = (decide (i < 64) && decide (i < k)) := by
  rw [BitVec.getLsbD_ofNat, Nat.testBit_two_pow_sub_one]

theorem psOverflow_tab : ∀ k : Fin 65,
    psOverflowTab[k.val]? = some (BitVec.ofNat 64 ((128 - k.val) * 0x0101010101010101)) := by
  decide +kernel

theorem psOverflow_eq {k : Nat} (h : k ≤ 64) :
    psOverflow k = some (BitVec.ofNat 64 ((128 - k) * 0x0101010101010101)) :=
  psOverflow_tab ⟨k, by omega⟩

@[simp] theorem getLsbD_allSet {i : Nat} : allSet.getLsbD i = decide (i < 64) := by
  unfold allSet; exact BitVec.getLsbD_allOnes

/-- A word equals the field it should hold if all bits agree. -/
theorem eq_ofNat_field {w : Word} {m : Mem} {p len : Nat}
    (h : ∀ i, i < 64 → w.getLsbD i = (decide (i < len) && bitAt m (p + i))) :
    w = BitVec.ofNat 64 (field m p len) := by
  apply BitVec.eq_of_getLsbD_eq
  intro i hi
  rw [h i hi, BitVec.getLsbD_ofNat, testBit_field]
  simp [hi]

theorem readInt_eq {m : Mem} {p off len : Nat} (ho : off < 64) (hl : len ≤ 64)
    (hp : p < m.length) (hp1 : off + len > 64 → p + 1 < m.length) :
    readInt m p off len = some (BitVec.ofNat 64 (field m (64 * p + off) len)) := by
  unfold readInt
  rw [ld_of_lt hp]
  simp only [Option.bind_eq_bind, Option.bind_some, shr_of_lt ho]
  by_cases hc : off + len > 64
  · rw [if_pos hc, ld_of_lt (hp1 hc), loSet_eq (show (off + len) % 64 ≤ 64 by omega)]
    have h64 : 64 - off < 64 := by omega
    simp only [Option.bind_some, shl_of_lt h64, Option.pure_def, Option.some.injEq]
    apply eq_ofNat_field
    intro i hi
    by_cases h1 : i < 64 - off
    · have e : 64 * p + off + i = 64 * p + (off + i) := by omega
      rw [e, bitAt_mul_add (by omega) hp]
      simp [h1]; intro _; omega
    · have e : 64 * p + off + i = 64 * (p + 1) + (i - (64 - off)) := by omega
      rw [e, bitAt_mul_add (by omega) (hp1 hc)]
      have e3 : m[p].getLsbD (off + i) = false := BitVec.getLsbD_of_ge _ _ (by omega)
      have e4 : i - (64 - off) < 64 := by omega
      have e5 : (i - (64 - off) < (off + len) % 64) = (i < len) := by
        apply propext; omega
      rw [BitVec.getLsbD_or, BitVec.getLsbD_ushiftRight, e3, BitVec.getLsbD_shiftLeft,
        BitVec.getLsbD_and, getLsbD_ones]
      simp [hi, h1, e4, e5, Bool.and_comm]
  · rw [if_neg hc, loSet_eq hl]
    simp only [Option.bind_some, Option.pure_def, Option.some.injEq]
    apply eq_ofNat_field
    intro i hi
    rw [BitVec.getLsbD_and, getLsbD_ones, BitVec.getLsbD_ushiftRight]
    by_cases h1 : i < len
    · have e : 64 * p + off + i = 64 * p + (off + i) := by omega
      rw [e, bitAt_mul_add (by omega) hp]
      simp [h1, hi]
    · simp [h1]

/-- The contents after writing the `len` low bits of `x` at bit position `pos`. -/
structure Written (m m' : Mem) (pos len : Nat) (x : Word) : Prop where
  length : m'.length = m.length
  bits : ∀ q, bitAt m' q = if pos ≤ q ∧ q < pos + len then x.getLsbD (q - pos) else bitAt m q

theorem Written.field_self {m m' : Mem} {pos len : Nat} {x : Word} (h : Written m m' pos len x) :
    field m' pos len = x.toNat % 2 ^ len := by
  rw [← bitsVal_testBit]
  apply bitsVal_congr
  intro i hi
  rw [h.bits]
  have : pos ≤ pos + i ∧ pos + i < pos + len := by omega
  simp [this, BitVec.getLsbD]

theorem Written.field_other {m m' : Mem} {pos len : Nat} {x : Word} (h : Written m m' pos len x)
    {q l : Nat} (hd : q + l ≤ pos ∨ pos + len ≤ q) : field m' q l = field m q l := by
  apply field_congr
  intro j hj
  rw [h.bits, if_neg (by omega)]

theorem Written.unique {m m1 m2 : Mem} {pos len : Nat} {x : Word} (h1 : Written m m1 pos len x)
    (h2 : Written m m2 pos len x) : m1 = m2 :=
  mem_ext (h1.length.trans h2.length.symm) (fun q => by rw [h1.bits, h2.bits])

theorem writeInt_eq {m : Mem} {p off len : Nat} {x : Word} (ho : off < 64) (hl : len ≤ 64)
    (hp : p < m.length) (hp1 : off + len > 64 → p + 1 < m.length) :
    ∃ m', writeInt m p x off len = some m' ∧ Written m m' (64 * p + off) len x := by
  unfold writeInt
  rw [loSet_eq hl]
  simp only [Option.bind_eq_bind, Option.bind_some]
  by_cases hc : off + len < 64
  · rw [if_pos hc, loSet_eq (show off ≤ 64 by omega)]
    simp only [ld_of_lt hp, Option.bind_some, shl_of_lt hc, st_of_lt hp]
    have hp' : ∀ w, p < (m.set p w).length := fun w => by simpa using hp
    simp only [ld_of_lt (hp' _), Option.bind_some, shl_of_lt ho, st_of_lt (hp' _)]
    refine ⟨_, rfl, by simp, ?_⟩
    intro q
    rw [bitAt_set (hp' _)]
    by_cases e : q / 64 = p
    · rw [if_pos e]
      have hq : q % 64 < 64 := by omega
      have hb : bitAt m q = m[p].getLsbD (q % 64) := by subst e; rw [bitAt_of_lt hp]
      rw [hb]
      simp only [List.getElem_set_self, BitVec.getLsbD_or, BitVec.getLsbD_and, BitVec.getLsbD_shiftLeft,
        getLsbD_ones, getLsbD_allSet]
      by_cases h1 : q % 64 < off
      · rw [if_neg (by omega)]; simp [h1, hq]
      · by_cases h2 : q % 64 < off + len
        · rw [if_pos (by omega)]
          have e1 : q - (64 * p + off) = q % 64 - off := by omega
          have e2 : q % 64 - off < len := by omega
          have e3 : q % 64 - off < 64 := by omega
          simp [h1, h2, hq, e1, e2, e3]
        · rw [if_neg (by omega)]
          have e2 : ¬ q % 64 - off < len := by omega
          have e4 : q % 64 - (off + len) < 64 := by omega
          simp [h1, h2, hq, e2, e4]
    · rw [if_neg e, bitAt_set hp, if_neg e, if_neg (by omega)]
  · rw [if_neg hc, loSet_eq (show off ≤ 64 by omega)]
    have hp' : ∀ w, p < (m.set p w).length := fun w => by simpa using hp
    simp only [ld_of_lt hp, Option.bind_some, st_of_lt hp, ld_of_lt (hp' _), shl_of_lt ho, st_of_lt (hp' _)]
    -- bits of word p after the first two stores
    have key : ∀ q, q / 64 = p →
        (m[p] &&& BitVec.ofNat 64 (2 ^ off - 1) ||| (x &&& BitVec.ofNat 64 (2 ^ len - 1)) <<< off).getLsbD (q % 64)
          = if off ≤ q % 64 then x.getLsbD (q % 64 - off) else bitAt m q := by
      intro q e
      have hq : q % 64 < 64 := by omega
      have hb : bitAt m q = m[p].getLsbD (q % 64) := by subst e; rw [bitAt_of_lt hp]
      rw [hb]
      simp only [BitVec.getLsbD_or, BitVec.getLsbD_and, BitVec.getLsbD_shiftLeft, getLsbD_ones]
      by_cases h1 : off ≤ q % 64
      · have e2 : q % 64 - off < len := by omega
        have e3 : q % 64 - off < 64 := by omega
        have e4 : ¬ q % 64 < off := by omega
        simp [h1, hq, e2, e3, e4]
      · have e4 : q % 64 < off := by omega
        simp [h1, hq, e4]
    by_cases hz : (off + len) % 64 = 0
    · rw [if_neg (by simpa using hz)]
      refine ⟨_, rfl, by simp, ?_⟩
      intro q
      rw [bitAt_set (hp' _)]
      by_cases e : q / 64 = p
      · rw [if_pos e]
        simp only [List.getElem_set_self]
        rw [key q e]
        by_cases h1 : off ≤ q % 64
        · rw [if_pos h1, if_pos (by omega)]; congr 1; omega
        · rw [if_neg h1, if_neg (by omega)]
      · rw [if_neg e, bitAt_set hp, if_neg e, if_neg (by omega)]
    · rw [if_pos (by simpa using hz)]
      have hp1' := hp1 (by omega)
      rw [loSet_eq (show (off + len) % 64 ≤ 64 by omega)]
      have hp2 : ∀ w w', p + 1 < ((m.set p w).set p w').length := fun w w' => by simpa using hp1'
      have hp3 : ∀ w w' w'', p + 1 < (((m.set p w).set p w').set (p+1) w'').length :=
        fun w w' w'' => by simpa using hp1'
      have hs : len - (off + len) % 64 < 64 := by omega
      simp only [ld_of_lt (hp2 _ _), Option.bind_some, st_of_lt (hp2 _ _), ld_of_lt (hp3 _ _ _),
        st_of_lt (hp3 _ _ _), shr_of_lt hs]
      refine ⟨_, rfl, by simp, ?_⟩
      intro q
      rw [bitAt_set (hp3 _ _ _)]
      by_cases e1 : q / 64 = p + 1
      · rw [if_pos e1]
        have hq : q % 64 < 64 := by omega
        have hb : bitAt m q = m[p+1].getLsbD (q % 64) := by
          rw [bitAt_of_lt (by omega)]; simp [e1]
        rw [hb]
        simp only [List.getElem_set_self, BitVec.getLsbD_or, BitVec.getLsbD_and, BitVec.getLsbD_not,
          BitVec.getLsbD_ushiftRight, getLsbD_ones]
        rw [List.getElem_set_ne (by omega), List.getElem_set_ne (by omega)]
        by_cases h1 : q % 64 < (off + len) % 64
        · rw [if_pos (by omega)]
          have e2 : len - (off + len) % 64 + q % 64 = q - (64 * p + off) := by omega
          have e3 : q - (64 * p + off) < len := by omega
          have e4 : q - (64 * p + off) < 64 := by omega
          simp [h1, hq, e2, e3, e4]
        · rw [if_neg (by omega)]
          have e2 : ¬ len - (off + len) % 64 + q % 64 < len := by omega
          simp [h1, hq, e2]
      · rw [if_neg e1, bitAt_set (hp2 _ _), if_neg e1, bitAt_set (hp' _)]
        by_cases e : q / 64 = p
        · rw [if_pos e]
          simp only [List.getElem_set_self]
          rw [key q e]
          by_cases h1 : off ≤ q % 64
          · rw [if_pos h1, if_pos (by omega)]; congr 1; omega
          · rw [if_neg h1, if_neg (by omega)]
        · rw [if_neg e, bitAt_set hp, if_neg e, if_neg (by omega)]

theorem readIntAndMove_eq {m : Mem} {p off len : Nat} (ho : off < 64) (hl : len ≤ 64)
    (hp : p < m.length) (hp1 : off + len > 64 → p + 1 < m.length) :
    readIntAndMove m p off len =
      some (BitVec.ofNat 64 (field m (64 * p + off) len), (64 * p + off + len) / 64, (64 * p + off + len) % 64) := by
  have h := readInt_eq ho hl hp hp1
  unfold readInt at h
  unfold readIntAndMove
  rw [ld_of_lt hp] at h ⊢
  simp only [Option.bind_eq_bind, Option.bind_some, shr_of_lt ho] at h ⊢
  have e256 : (off + len) % 256 = off + len := Nat.mod_eq_of_lt (by omega)
  rw [e256]
  by_cases hc : off + len > 64
  · rw [if_pos hc, ld_of_lt (hp1 hc), loSet_eq (show (off + len) % 64 ≤ 64 by omega)] at h
    rw [if_pos (show off + len ≥ 64 by omega), if_neg (show ¬ off + len = 64 by omega), ld_of_lt (hp1 hc),
      loSet_eq (show (off + len) % 64 ≤ 64 by omega)]
    have e : len - (off + len) % 64 = 64 - off := by omega
    have e1 : p + 1 = (64 * p + off + len) / 64 := by omega
    have e2 : (off + len) % 64 = (64 * p + off + len) % 64 := by omega
    have h64 : 64 - off < 64 := by omega
    simp only [Option.bind_some, shl_of_lt h64, Option.pure_def, Option.some.injEq, e] at h ⊢
    rw [h]; simp; omega
  · rw [if_neg hc, loSet_eq hl] at h
    by_cases hd : off + len = 64
    · rw [if_pos (show off + len ≥ 64 by omega), if_pos hd]
      simp only [Option.bind_some, Option.pure_def, Option.some.injEq] at h ⊢
      rw [← h]
      simp only [Prod.mk.injEq]
      refine ⟨?_, by omega, by omega⟩
      apply BitVec.eq_of_getLsbD_eq
      intro i hi
      rw [BitVec.getLsbD_and, getLsbD_ones, BitVec.getLsbD_ushiftRight]
      by_cases h1 : i < len
      · simp [h1, hi]
      · rw [BitVec.getLsbD_of_ge _ _ (by omega)]; simp
    · rw [if_neg (show ¬ off + len ≥ 64 by omega), loSet_eq hl]
      simp only [Option.bind_some, Option.pure_def, Option.some.injEq] at h ⊢
      rw [h]; simp; omega

theorem writeIntAndMove_eq {m : Mem} {p off len : Nat} {x : Word} (ho : off < 64) (hl : len ≤ 64)
    (hp : p < m.length) (hp1 : off + len > 64 → p + 1 < m.length) :
    ∃ m', writeIntAndMove m p x off len = some (m', (64 * p + off + len) / 64, (64 * p + off + len) % 64) ∧
      Written m m' (64 * p + off) len x := by
  obtain ⟨m', h, hw⟩ := writeInt_eq (x := x) ho hl hp hp1
  refine ⟨m', ?_, hw⟩
  unfold writeInt at h
  unfold writeIntAndMove
  rw [loSet_eq hl] at h ⊢
  simp only [Option.bind_eq_bind, Option.bind_some] at h ⊢
  have e256 : (off + len) % 256 = off + len := Nat.mod_eq_of_lt (by omega)
  rw [e256]
  have hp' : ∀ w, p < (m.set p w).length := fun w => by simpa using hp
  by_cases hc : off + len < 64
  · rw [if_pos hc, loSet_eq (show off ≤ 64 by omega)] at h ⊢
    simp only [ld_of_lt hp, Option.bind_some, shl_of_lt hc, st_of_lt hp, ld_of_lt (hp' _), shl_of_lt ho,
      st_of_lt (hp' _), Option.some.injEq, Option.pure_def] at h ⊢
    rw [h]; simp; omega
  · rw [if_neg hc, loSet_eq (show off ≤ 64 by omega)] at h ⊢
    simp only [ld_of_lt hp, Option.bind_some, st_of_lt hp, ld_of_lt (hp' _), shl_of_lt ho, st_of_lt (hp' _)] at h ⊢
    by_cases hz : (off + len) % 64 = 0
    · rw [if_neg (by simpa using hz)] at h
      rw [if_neg (by omega)]
      simp only [Option.pure_def, Option.some.injEq] at h ⊢
      rw [h]; simp; omega
    · rw [if_pos (by simpa using hz)] at h
      rw [if_pos (by omega)]
      have hp1' := hp1 (by omega)
      rw [loSet_eq (show (off + len) % 64 ≤ 64 by omega)] at h ⊢
      have hp2 : ∀ w w', p + 1 < ((m.set p w).set p w').length := fun w w' => by simpa using hp1'
      have hp3 : ∀ w w' w'', p + 1 < (((m.set p w).set p w').set (p+1) w'').length :=
        fun w w' w'' => by simpa using hp1'
      have hs : len - (off + len) % 64 < 64 := by omega
      simp only [ld_of_lt (hp2 _ _), Option.bind_some, st_of_lt (hp2 _ _), ld_of_lt (hp3 _ _ _),
        st_of_lt (hp3 _ _ _), shr_of_lt hs, Option.some.injEq, Option.pure_def] at h ⊢
      rw [h]; simp; omega

end Sdsl.Bits
