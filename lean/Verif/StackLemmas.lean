/-
  The block structure of the succinct stacks represents a decreasing list.
-/
import Verif.Stack
import Verif.BitsSel
import Verif.SpecLemmas
import Verif.UtilLemmas

namespace Sdsl.Stack

open Bits

/-- The block of number `b` when the numbers `S` (decreasing, ending in 0) are stored. -/
def rep : List Nat → Nat → Word
  | [] => fun _ => 0#64
  | x :: S => fun b =>
    if b = x / 63 then rep S b ^^^ 1#64 <<< (x % 63)
    else if b + 1 = x / 63 ∧ rep S b = 0#64 then 0x8000000000000000#64 ||| BitVec.ofNat 64 (S.headD 0)
    else rep S b

/-- Strictly decreasing, ending in 0. -/
inductive Dec : List Nat → Prop
  | zero : Dec [0]
  | cons {x t : Nat} {S : List Nat} : t < x → Dec (t :: S) → Dec (x :: t :: S)

theorem Dec.ne {S : List Nat} (h : Dec S) : S ≠ [] := by cases h <;> simp

structure Fact (t : Nat) (S : List Nat) : Prop where
  above : ∀ b, t / 63 < b → rep S b = 0#64
  ne : rep S (t / 63) ≠ 0#64
  log : Nat.log2 (rep S (t / 63)).toNat = t % 63
  below : 0 < t / 63 → rep S (t / 63 - 1) ≠ 0#64

theorem toNat_pos {w : Word} (h : w ≠ 0#64) : 0 < w.toNat :=
  Nat.pos_of_ne_zero (fun h0 => h (BitVec.eq_of_toNat_eq (by simpa using h0)))

theorem Fact.lt {t : Nat} {S : List Nat} (h : Fact t S) : (rep S (t / 63)).toNat < 2 ^ (t % 63 + 1) := by
  have := Nat.lt_log2_self (n := (rep S (t / 63)).toNat)
  rwa [h.log] at this

/-- Setting a bit above all others. -/
theorem xor_top {w : Word} {k : Nat} (hk : k < 64) (hw : w.toNat < 2 ^ k) : (w ^^^ 1#64 <<< k).toNat = w.toNat + 2 ^ k := by
  have h1 : (1#64 <<< k).toNat = 2 ^ k := by
    rw [BitVec.toNat_shiftLeft, Nat.shiftLeft_eq]
    show 1 % 2 ^ 64 * 2 ^ k % 2 ^ 64 = 2 ^ k
    rw [Nat.mod_eq_of_lt (by decide : 1 < 2 ^ 64), Nat.one_mul, Nat.mod_eq_of_lt (Nat.pow_lt_pow_right (by decide) hk)]
  rw [BitVec.toNat_xor, h1]
  have : w.toNat ^^^ 2 ^ k = 2 ^ k ||| w.toNat := by
    apply Nat.eq_of_testBit_eq
    intro i
    rw [Nat.testBit_xor, Nat.testBit_or, Nat.testBit_two_pow]
    by_cases c : k = i
    · subst c
      rw [Nat.testBit_lt_two_pow hw]; simp
    · simp [c]
  rw [this]
  have := Nat.two_pow_add_eq_or_of_lt hw 1
  rw [Nat.mul_one] at this
  omega

theorem ptr_ne (t : Nat) : 0x8000000000000000#64 ||| BitVec.ofNat 64 t ≠ 0#64 := by
  intro h
  have := congrArg (fun x => BitVec.getLsbD x 63) h
  simp at this

theorem log2_add {a k : Nat} (h : a < 2 ^ k) : Nat.log2 (a + 2 ^ k) = k := by
  rw [Nat.log2_eq_iff (by have := Nat.two_pow_pos k; omega)]
  rw [Nat.pow_succ]; omega

theorem fact {t : Nat} {S : List Nat} (h : Dec (t :: S)) : Fact t (t :: S) := by
  generalize hS : t :: S = L at h
  induction h generalizing t S with
  | zero =>
    obtain ⟨rfl, rfl⟩ := List.cons.inj hS
    refine ⟨?_, by decide, by decide, by decide⟩
    intro b hb
    unfold rep
    rw [if_neg (by omega), if_neg (by omega)]; rfl
  | @cons x t' S' hlt _ ih =>
    obtain ⟨rfl, rfl⟩ := List.cons.inj hS
    have f := ih rfl
    have hdiv : t' / 63 ≤ t / 63 := Nat.div_le_div_right (by omega)
    have hm := Nat.mod_lt t (show 63 > 0 by decide)
    have hbn : (rep (t' :: S') (t / 63)).toNat < 2 ^ (t % 63) := by
      by_cases c : t' / 63 = t / 63
      · rw [← c]
        refine Nat.lt_of_lt_of_le f.lt (Nat.pow_le_pow_right (by decide) ?_)
        have := Nat.div_add_mod t 63
        have := Nat.div_add_mod t' 63
        omega
      · rw [f.above _ (by omega)]; exact Nat.two_pow_pos _
    have e := xor_top (by omega) hbn
    refine ⟨fun b hb => ?_, fun h0 => ?_, ?_, fun hp => ?_⟩
    · unfold rep
      rw [if_neg (by omega), if_neg (by omega)]
      exact f.above b (by omega)
    · unfold rep at h0
      rw [if_pos rfl] at h0
      rw [h0] at e
      have := Nat.two_pow_pos (t % 63)
      simp at e; omega
    · conv => lhs; unfold rep
      rw [if_pos rfl, e, log2_add hbn]
    · unfold rep
      rw [if_neg (by omega)]
      by_cases c : rep (t' :: S') (t / 63 - 1) = 0#64
      · rw [if_pos ⟨by omega, c⟩]; exact ptr_ne _
      · rw [if_neg (fun h => c h.2)]; exact c

/-- The memory represents `S`. -/
structure Rep (m : Mem) (S : List Nat) : Prop where
  dec : Dec S
  words : ∀ b, b < m.length → m[b]? = some (rep S b)
  small : S.headD 0 < 63 * m.length

theorem Rep.ld {m : Mem} {S : List Nat} (h : Rep m S) {b : Nat} (hb : b < m.length) : ld m b = some (rep S b) := h.words b hb

theorem init_rep {k : Nat} (hk : 0 < k) : ∃ m, init k = some m ∧ Rep m [0] ∧ m.length = k := by
  refine ⟨_, st_of_lt (by simpa using hk), ⟨.zero, fun b hb => ?_, by simp; omega⟩, by simp⟩
  simp only [List.length_set, List.length_replicate] at hb
  rw [List.getElem?_set]
  unfold rep
  by_cases c : b = 0
  · subst c; simp [hk, rep]
  · rw [if_neg (fun h => c h.symm), if_neg (by simpa using c), if_neg (by omega)]
    simp [hb, rep]

theorem blockPush_eq {m : Mem} {t x : Nat} {S : List Nat} (h : Rep m (t :: S)) (hlt : t < x) (hx : x < 63 * m.length) :
    ∃ m', blockPush m t x = some m' ∧ Rep m' (x :: t :: S) ∧ m'.length = m.length := by
  have hb : x / 63 < m.length := by omega
  have hmod := Nat.mod_lt x (show 63 > 0 by decide)
  unfold blockPush
  rw [h.ld hb, sbind, shl_of_lt (by omega), sbind, st_of_lt hb, sbind]
  have hdec := Dec.cons hlt h.dec
  have hw : ∀ b, b < m.length → (m.set (x / 63) (rep (t :: S) (x / 63) ^^^ 1#64 <<< (x % 63)))[b]? =
      some (if b = x / 63 then rep (t :: S) b ^^^ 1#64 <<< (x % 63) else rep (t :: S) b) := by
    intro b hb'
    rw [List.getElem?_set]
    by_cases c : x / 63 = b
    · subst c; simp [hb']
    · rw [if_neg c, if_neg (fun h => c h.symm), h.words b hb']
  by_cases c : x / 63 > 0
  · rw [if_pos c]
    have hl : ld (m.set (x / 63) (rep (t :: S) (x / 63) ^^^ 1#64 <<< (x % 63))) (x / 63 - 1) = some (rep (t :: S) (x / 63 - 1)) := by
      unfold Sdsl.ld
      rw [hw _ (by omega), if_neg (by omega)]
    rw [hl, sbind]
    by_cases c2 : rep (t :: S) (x / 63 - 1) = 0#64
    · rw [if_pos c2, st_of_lt (by simp; omega)]
      refine ⟨_, rfl, ⟨hdec, fun b hb' => ?_, by simp; omega⟩, by simp⟩
      simp only [List.length_set] at hb'
      rw [List.getElem?_set]
      conv => rhs; unfold rep
      by_cases c3 : x / 63 - 1 = b
      · subst c3
        rw [if_pos rfl, if_pos (by simpa using hb'), if_neg (by omega), if_pos ⟨by omega, c2⟩]; rfl
      · rw [if_neg c3, hw b hb']
        by_cases c4 : b = x / 63
        · rw [if_pos c4, if_pos c4]
        · rw [if_neg c4, if_neg c4, if_neg (by omega)]
    · rw [if_neg c2]
      refine ⟨_, rfl, ⟨hdec, fun b hb' => ?_, by simp; omega⟩, by simp⟩
      simp only [List.length_set] at hb'
      rw [hw b hb']
      conv => rhs; unfold rep
      by_cases c4 : b = x / 63
      · rw [if_pos c4, if_pos c4]
      · rw [if_neg c4, if_neg c4, if_neg]
        rintro ⟨h1, h2⟩
        apply c2
        rw [show x / 63 - 1 = b by omega]; exact h2
  · rw [if_neg c]
    refine ⟨_, rfl, ⟨hdec, fun b hb' => ?_, by simp; omega⟩, by simp⟩
    simp only [List.length_set] at hb'
    rw [hw b hb']
    conv => rhs; unfold rep
    by_cases c4 : b = x / 63
    · rw [if_pos c4, if_pos c4]
    · rw [if_neg c4, if_neg c4, if_neg (by omega)]

theorem xor_xor (a b : Word) : a ^^^ b ^^^ b = a := by
  rw [BitVec.xor_assoc, BitVec.xor_self, BitVec.xor_zero]

theorem blockPop_eq {m : Mem} {t x : Nat} {S : List Nat} (h : Rep m (x :: t :: S)) (h63 : x < 2 ^ 63) :
    ∃ m', blockPop m x = some (m', t) ∧ Rep m' (t :: S) ∧ m'.length = m.length := by
  have hx : x < 63 * m.length := h.small
  have hb : x / 63 < m.length := by omega
  have hmod := Nat.mod_lt x (show 63 > 0 by decide)
  obtain ⟨hlt, hdec⟩ : t < x ∧ Dec (t :: S) := by
    have := h.dec
    cases this with | cons a b => exact ⟨a, b⟩
  have f := fact hdec
  have hdt := Nat.div_add_mod t 63
  have hdx := Nat.div_add_mod x 63
  have hdiv : t / 63 ≤ x / 63 := Nat.div_le_div_right (by omega)
  have hx1 : rep (x :: t :: S) (x / 63) = rep (t :: S) (x / 63) ^^^ 1#64 <<< (x % 63) := by
    conv => lhs; unfold rep
    rw [if_pos rfl]
  unfold blockPop
  rw [h.ld hb, sbind, shl_of_lt (by omega), sbind, st_of_lt hb, sbind, hx1, xor_xor]
  have hw : ∀ b, b < m.length → (m.set (x / 63) (rep (t :: S) (x / 63)))[b]? =
      some (if b = x / 63 then rep (t :: S) b else rep (x :: t :: S) b) := by
    intro b hb'
    rw [List.getElem?_set]
    by_cases c : x / 63 = b
    · subst c; simp [hb']
    · rw [if_neg c, if_neg (fun h => c h.symm), h.words b hb']
  have hsmall : ∀ m' : Mem, m'.length = m.length → (t :: S).headD 0 < 63 * m'.length := by
    intro m' hm; rw [hm]; show t < _; omega
  -- away from the pointer block nothing else differs
  have hoff : ∀ b, b ≠ x / 63 → ¬(b + 1 = x / 63 ∧ rep (t :: S) b = 0#64) → rep (x :: t :: S) b = rep (t :: S) b := by
    intro b h1 h2
    conv => lhs; unfold rep
    rw [if_neg h1, if_neg h2]
  by_cases c : t / 63 = x / 63
  · have hne : rep (t :: S) (x / 63) ≠ 0#64 := by rw [← c]; exact f.ne
    rw [if_pos (toNat_pos hne), hi_eq, sbind]
    refine ⟨m.set (x / 63) (rep (t :: S) (x / 63)), ?_, ⟨hdec, fun b hb' => ?_, hsmall _ (List.length_set ..)⟩, List.length_set ..⟩
    · show some (_, _) = _
      congr 2
      rw [← c, f.log]; omega
    · simp only [List.length_set] at hb'
      rw [hw b hb']
      by_cases c4 : b = x / 63
      · rw [if_pos c4]
      · rw [if_neg c4, hoff b c4]
        rintro ⟨h1, h2⟩
        have := f.below (by omega)
        rw [c, show x / 63 - 1 = b by omega] at this
        exact this h2
  · have h0 : rep (t :: S) (x / 63) = 0#64 := f.above _ (by omega)
    rw [if_neg (by rw [h0]; simp), if_neg (by omega)]
    have hl : ld (m.set (x / 63) (rep (t :: S) (x / 63))) (x / 63 - 1) = some (rep (x :: t :: S) (x / 63 - 1)) := by
      unfold Sdsl.ld
      rw [hw _ (by omega), if_neg (by omega)]
    rw [hl, sbind]
    by_cases c2 : t / 63 = x / 63 - 1
    · have hne : rep (t :: S) (x / 63 - 1) ≠ 0#64 := by rw [← c2]; exact f.ne
      have hv := hoff (x / 63 - 1) (by omega) (fun h => hne h.2)
      have hlt63 : (rep (t :: S) (x / 63 - 1)).toNat < 2 ^ 63 := by
        rw [← c2]
        exact Nat.lt_of_lt_of_le f.lt (Nat.pow_le_pow_right (by decide) (by omega))
      rw [hv, if_pos (by
        apply BitVec.eq_of_toNat_eq
        rw [BitVec.toNat_ushiftRight, Nat.shiftRight_eq_div_pow, Nat.div_eq_of_lt hlt63]; rfl), hi_eq, sbind]
      refine ⟨m.set (x / 63) (rep (t :: S) (x / 63)), ?_, ⟨hdec, fun b hb' => ?_, hsmall _ (List.length_set ..)⟩, List.length_set ..⟩
      · show some (_, _) = _
        congr 2
        rw [← c2, f.log]; omega
      · simp only [List.length_set] at hb'
        rw [hw b hb']
        by_cases c4 : b = x / 63
        · rw [if_pos c4]
        · rw [if_neg c4, hoff b c4]
          rintro ⟨h1, h2⟩
          rw [show b = x / 63 - 1 by omega] at h2
          exact hne h2
    · have hz : rep (t :: S) (x / 63 - 1) = 0#64 := f.above _ (by omega)
      have hv : rep (x :: t :: S) (x / 63 - 1) = 0x8000000000000000#64 ||| BitVec.ofNat 64 t := by
        conv => lhs; unfold rep
        rw [if_neg (by omega), if_pos ⟨by omega, hz⟩]; rfl
      have ht64 : (BitVec.ofNat 64 t).toNat = t := by rw [BitVec.toNat_ofNat, Nat.mod_eq_of_lt (by omega)]
      have hpt : (0x8000000000000000#64 ||| BitVec.ofNat 64 t).getLsbD 63 = true := by simp
      rw [hv, if_neg (by
        intro h0
        have := congrArg (fun x => BitVec.getLsbD x 0) h0
        simp only [BitVec.getLsbD_ushiftRight] at this
        rw [show 63 + 0 = 63 from rfl, hpt] at this
        simp at this), st_of_lt (by simp; omega), sbind]
      refine ⟨(m.set (x / 63) (rep (t :: S) (x / 63))).set (x / 63 - 1) 0#64, ?_, ⟨hdec, fun b hb' => ?_, hsmall _ ((List.length_set ..).trans (List.length_set ..))⟩, (List.length_set ..).trans (List.length_set ..)⟩
      · show some (_, _) = _
        congr 2
        have : (0x8000000000000000#64 ||| BitVec.ofNat 64 t) &&& 0x7FFFFFFFFFFFFFFF#64 = BitVec.ofNat 64 t := by
          apply BitVec.eq_of_getLsbD_eq
          intro i hi
          rw [BitVec.getLsbD_and, BitVec.getLsbD_or]
          have tab : ∀ i : Fin 64, (0x8000000000000000#64).getLsbD i.val = decide (i.val = 63) ∧ (0x7FFFFFFFFFFFFFFF#64).getLsbD i.val = decide (i.val < 63) := by
            decide
          rw [(tab ⟨i, hi⟩).1, (tab ⟨i, hi⟩).2]
          by_cases c : i < 63
          · have : i ≠ 63 := by omega
            simp [c, this]
          · have : i = 63 := by omega
            subst this
            have : (BitVec.ofNat 64 t).getLsbD 63 = false := by
              rw [BitVec.getLsbD, ht64]
              exact Nat.testBit_lt_two_pow (by omega)
            rw [this]; simp
        rw [this, ht64]
      · simp only [List.length_set] at hb'
        rw [List.getElem?_set]
        by_cases c3 : x / 63 - 1 = b
        · subst c3
          rw [if_pos rfl, if_pos (by simpa using hb'), hz]
        · rw [if_neg c3, hw b hb']
          by_cases c4 : b = x / 63
          · rw [if_pos c4]
          · rw [if_neg c4, hoff b c4 (by omega)]

end Sdsl.Stack
