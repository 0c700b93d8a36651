/-
  Lemmas about `read_unary*`, `next`, `prev`, `rev`, `map10`/`map01` and the cursor moves of `bits.hpp`.
-/
import Verif.BitsRW
import Verif.BitsSel

namespace Sdsl.Bits
open Sdsl.Spec

theorem IsNext.word_lt {m : Mem} {q r : Nat} (h : IsNext m q r) : r / 64 < m.length := by
  false_or_by_contra; rename_i hc
  have := bitAt_of_ge (m := m) (p := r) (by omega)
  rw [h.2.1] at this; contradiction

theorem word_zero_iff {w : Word} : w = 0#64 ↔ ∀ i, i < 64 → w.getLsbD i = false := by
  constructor
  · rintro rfl i _; simp
  · intro h; apply BitVec.eq_of_getLsbD_eq; intro i hi; simp [h i hi]

theorem lo_of_isLo {w : Word} {p : Nat} (h : IsLo w p) : lo w = some p := by
  have hw : w ≠ 0#64 := by rintro rfl; have := h.2.1; simp at this
  obtain ⟨q, h1, h2⟩ := lo_isLo hw
  rw [h1, h.unique h2]

/-- In word `k` the first one bit of the array at or after position `q` shows as the lowest one. -/
theorem isLo_word {m : Mem} {q r k : Nat} (h : IsNext m q r) (hk : k = r / 64) (hq : q ≤ 64 * k) (hl : k < m.length) :
    IsLo m[k] (r % 64) := by
  subst hk
  refine ⟨by omega, ?_, ?_⟩
  · have := h.2.1; rwa [bitAt_of_lt hl] at this
  · intro j hj
    have := h.2.2 (64 * (r / 64) + j) (by omega) (by omega)
    rwa [bitAt_mul_add (by omega) hl] at this

theorem word_zero_of_next {m : Mem} {q r k : Nat} (h : IsNext m q r) (hq : q ≤ 64 * k) (hk : k < r / 64)
    (hl : k < m.length) : m[k] = 0#64 := by
  rw [word_zero_iff]
  intro j hj
  have := h.2.2 (64 * k + j) (by omega) (by omega)
  rwa [bitAt_mul_add hj hl] at this

theorem skipZeroWords_eq {m : Mem} {q r p : Nat} (h : IsNext m q r) (hq : q ≤ 64 * p) (hp : p ≤ r / 64) :
    ∃ hl : r / 64 < m.length, skipZeroWords m p = some (m[r / 64], r / 64, r / 64 - p) := by
  have hl := IsNext.word_lt h
  refine ⟨hl, ?_⟩
  obtain ⟨d, hd⟩ : ∃ d, r / 64 = p + d := ⟨r / 64 - p, by omega⟩
  induction d generalizing p with
  | zero =>
    have e : p = r / 64 := by omega
    subst e
    unfold skipZeroWords
    have hlo := isLo_word h rfl hq hl
    have hne : m[r / 64] ≠ 0#64 := by
      intro h0; have := hlo.2.1; rw [h0] at this; simp at this
    simp [hl, hne]
  | succ d ih =>
    unfold skipZeroWords
    have hpl : p < m.length := by omega
    rw [dif_pos hpl, if_pos (word_zero_of_next h hq (by omega) hpl), ih (by omega) (by omega) (by omega)]
    simp; omega

theorem shr_isLo {m : Mem} {p off r : Nat} (h : IsNext m (64 * p + off) r) (hr : r / 64 = p)
    (hp : p < m.length) : IsLo (m[p] >>> off) (r - (64 * p + off)) := by
  obtain ⟨h1, h2, h3⟩ := h
  have e : ∀ j, j < 64 → (m[p] >>> off).getLsbD j = (decide (off + j < 64) && bitAt m (64 * p + off + j)) := by
    intro j hj
    rw [BitVec.getLsbD_ushiftRight]
    by_cases hh : off + j < 64
    · have := bitAt_mul_add hh hp
      rw [Nat.add_assoc, this]; simp [hh]
    · simp [hh]
      apply BitVec.getLsbD_of_ge; omega
  refine ⟨by omega, ?_, ?_⟩
  · rw [e _ (by omega), show 64 * p + off + (r - (64 * p + off)) = r by omega, h2]
    simp; omega
  · intro j hj
    rw [e _ (by omega), h3 _ (by omega) (by omega)]; simp

theorem shr_zero_of_next {m : Mem} {p off r : Nat} (h : IsNext m (64 * p + off) r) (hr : p < r / 64)
    (hp : p < m.length) : m[p] >>> off = 0#64 := by
  rw [word_zero_iff]
  intro j hj
  rw [BitVec.getLsbD_ushiftRight]
  by_cases hh : off + j < 64
  · have := h.2.2 (64 * p + (off + j)) (by omega) (by omega)
    rwa [bitAt_mul_add hh hp] at this
  · apply BitVec.getLsbD_of_ge; omega

theorem isLo_ne {w : Word} {p : Nat} (h : IsLo w p) : w ≠ 0#64 := by
  intro h0; have := h.2.1; rw [h0] at this; simp at this

theorem readUnary_eq {m : Mem} {p off r : Nat} (ho : off < 64) (h : IsNext m (64 * p + off) r) :
    readUnary m p off = some (r - (64 * p + off)) := by
  have hl := IsNext.word_lt h
  have hpr : p ≤ r / 64 := by have := h.1; omega
  have hp : p < m.length := by omega
  unfold readUnary
  rw [ld_of_lt hp]
  simp only [Option.bind_eq_bind, Option.bind_some, shr_of_lt ho]
  by_cases c0 : r / 64 = p
  · have hlo := shr_isLo h c0 hp
    rw [if_pos (isLo_ne hlo), lo_of_isLo hlo]
  · rw [if_neg (by rw [shr_zero_of_next h (by omega) hp]; simp)]
    have hp1 : p + 1 < m.length := by omega
    rw [ld_of_lt hp1]
    simp only [Option.bind_some]
    by_cases c1 : r / 64 = p + 1
    · have hlo := isLo_word h (k := p + 1) c1.symm (by omega) hp1
      rw [if_pos (isLo_ne hlo), lo_of_isLo hlo]
      simp; omega
    · rw [if_neg (by rw [word_zero_of_next h (k := p + 1) (by omega) (by omega) hp1]; simp)]
      obtain ⟨_, e⟩ := skipZeroWords_eq h (p := p + 2) (by omega) (by omega)
      have hlo := isLo_word h (k := r / 64) rfl (by omega) hl
      rw [e]
      simp only [Option.bind_some, lo_of_isLo hlo]
      simp; omega

theorem readUnaryAndMove_eq {m : Mem} {p off r : Nat} (ho : off < 64) (h : IsNext m (64 * p + off) r) :
    readUnaryAndMove m p off = some (r - (64 * p + off), (r + 1) / 64, (r + 1) % 64) := by
  have hl := IsNext.word_lt h
  have hpr : p ≤ r / 64 := by have := h.1; omega
  have hp : p < m.length := by omega
  have h1 := h.1
  unfold readUnaryAndMove
  rw [ld_of_lt hp]
  simp only [Option.bind_eq_bind, Option.bind_some, shr_of_lt ho]
  by_cases c0 : r / 64 = p
  · have hlo := shr_isLo h c0 hp
    rw [if_pos (isLo_ne hlo), lo_of_isLo hlo]
    simp only [Option.bind_some, Option.pure_def, Option.some.injEq, Prod.mk.injEq]
    refine ⟨by omega, ?_, by omega⟩
    split <;> omega
  · rw [if_neg (by rw [shr_zero_of_next h (by omega) hp]; simp)]
    have hp1 : p + 1 < m.length := by omega
    rw [ld_of_lt hp1]
    simp only [Option.bind_some]
    by_cases c1 : r / 64 = p + 1
    · have hlo := isLo_word h (k := p + 1) c1.symm (by omega) hp1
      rw [if_pos (isLo_ne hlo), lo_of_isLo hlo]
      simp only [Option.bind_some, Option.pure_def, Option.some.injEq, Prod.mk.injEq]
      refine ⟨by omega, ?_, by omega⟩
      split <;> omega
    · rw [if_neg (by rw [word_zero_of_next h (k := p + 1) (by omega) (by omega) hp1]; simp)]
      obtain ⟨_, e⟩ := skipZeroWords_eq h (p := p + 1 + 1) (by omega) (by omega)
      have hlo := isLo_word h (k := r / 64) rfl (by omega) hl
      rw [e]
      simp only [Option.bind_some, lo_of_isLo hlo]
      simp only [Option.pure_def, Option.some.injEq, Prod.mk.injEq]
      refine ⟨by omega, ?_, by omega⟩
      split <;> omega

/-! ### `next` and `prev` -/

theorem nextLoop_eq {m : Mem} {q r p : Nat} (h : IsNext m q r) (hq : q ≤ 64 * p) (hp : p ≤ r / 64) :
    nextLoop m p (64 * p) = some r := by
  have hl := IsNext.word_lt h
  obtain ⟨d, hd⟩ : ∃ d, r / 64 = p + d := ⟨r / 64 - p, by omega⟩
  induction d generalizing p with
  | zero =>
    have e : p = r / 64 := by omega
    subst e
    unfold nextLoop
    have hlo := isLo_word h rfl hq hl
    simp [hl, isLo_ne hlo, lo_of_isLo hlo]; omega
  | succ d ih =>
    unfold nextLoop
    have hpl : p < m.length := by omega
    rw [dif_pos hpl, if_pos (word_zero_of_next h hq (by omega) hpl)]
    exact ih (p := p + 1) (by omega) (by omega) (by omega)

theorem getLsbD_andnot {w : Word} {k j : Nat} (hj : j < 64) :
    (w &&& ~~~(BitVec.ofNat 64 (2 ^ k - 1))).getLsbD j = (decide (k ≤ j) && w.getLsbD j) := by
  rw [BitVec.getLsbD_and, BitVec.getLsbD_not, getLsbD_ones]
  by_cases h : k ≤ j
  · have : ¬ j < k := by omega
    simp [hj, h, this]
  · have : j < k := by omega
    simp [hj, h, this]

theorem next_eq {m : Mem} {q r : Nat} (h : IsNext m q r) : next m q = some r := by
  have hl := IsNext.word_lt h
  have h1 := h.1
  have hp : q / 64 < m.length := by omega
  unfold next
  simp only [ld_of_lt hp, loSet_eq (show q % 64 ≤ 64 by omega), Option.bind_eq_bind, Option.bind_some]
  by_cases c : r / 64 = q / 64
  · have hlo : IsLo (m[q / 64] &&& ~~~(BitVec.ofNat 64 (2 ^ (q % 64) - 1))) (r % 64) := by
      refine ⟨by omega, ?_, ?_⟩
      · rw [getLsbD_andnot (by omega)]
        have := h.2.1
        rw [bitAt_of_lt hl] at this
        simp only [c] at this
        rw [this]; simp; omega
      · intro j hj
        rw [getLsbD_andnot (by omega)]
        by_cases hj2 : q % 64 ≤ j
        · have := h.2.2 (64 * (q / 64) + j) (by omega) (by omega)
          rw [bitAt_mul_add (by omega) hp] at this
          rw [this]; simp
        · simp [hj2]
    rw [if_pos (isLo_ne hlo), lo_of_isLo hlo]
    simp; omega
  · have hz : m[q / 64] &&& ~~~(BitVec.ofNat 64 (2 ^ (q % 64) - 1)) = 0#64 := by
      rw [word_zero_iff]
      intro j hj
      rw [getLsbD_andnot (by omega)]
      by_cases hj2 : q % 64 ≤ j
      · have := h.2.2 (64 * (q / 64) + j) (by omega) (by omega)
        rw [bitAt_mul_add (by omega) hp] at this
        rw [this]; simp
      · simp [hj2]
    rw [if_neg (by rw [hz]; simp)]
    have := nextLoop_eq h (p := q / 64 + 1) (by omega) (by omega)
    rw [← this]; congr 1; omega

/-- `p` is the highest one of `w`. -/
def IsHi (w : Word) (p : Nat) : Prop := p < 64 ∧ w.getLsbD p = true ∧ ∀ q, p < q → w.getLsbD q = false

theorem hi_of_isHi {w : Word} {p : Nat} (h : IsHi w p) : hi w = some p := by
  have hw : w ≠ 0#64 := by rintro rfl; have := h.2.1; simp at this
  have h2 := log2_isHi hw
  rw [hi_eq]
  congr 1
  rcases Nat.lt_trichotomy (Nat.log2 w.toNat) p with c | c | c
  · have := h2.2.2 p c; rw [h.2.1] at this; contradiction
  · exact c
  · have := h.2.2 _ c; rw [h2.2.1] at this; contradiction

theorem isHi_ne {w : Word} {p : Nat} (h : IsHi w p) : w ≠ 0#64 := by
  intro h0; have := h.2.1; rw [h0] at this; simp at this

theorem prevLoop_eq {m : Mem} {q r p : Nat} (h : IsPrev m q r) (hq : 64 * p ≤ q + 1) (hp : r / 64 < p)
    (hl : p ≤ m.length) : prevLoop m p = some r := by
  induction p with
  | zero => omega
  | succ p ih =>
    have hpl : p < m.length := by omega
    unfold prevLoop
    rw [ld_of_lt hpl]
    simp only [Option.bind_eq_bind, Option.bind_some]
    by_cases c : r / 64 = p
    · have hhi : IsHi m[p] (r % 64) := by
        refine ⟨by omega, ?_, ?_⟩
        · have := h.2.1
          rw [bitAt_of_lt (by omega)] at this; simp only [c] at this; exact this
        · intro j hj
          by_cases hj2 : j < 64
          · have := h.2.2 (64 * p + j) (by omega) (by omega)
            rwa [bitAt_mul_add hj2 hpl] at this
          · apply BitVec.getLsbD_of_ge; omega
      rw [if_neg (isHi_ne hhi), hi_of_isHi hhi]
      simp; omega
    · have hz : m[p] = 0#64 := by
        rw [word_zero_iff]
        intro j hj
        have := h.2.2 (64 * p + j) (by omega) (by omega)
        rwa [bitAt_mul_add hj hpl] at this
      rw [if_pos hz]
      exact ih (by omega) (by omega) (by omega)

theorem getLsbD_andmask {w : Word} {k j : Nat} (hj : j < 64) :
    (w &&& (BitVec.ofNat 64 (2 ^ k - 1))).getLsbD j = (decide (j < k) && w.getLsbD j) := by
  rw [BitVec.getLsbD_and, getLsbD_ones]
  simp [hj, Bool.and_comm]

theorem prev_eq {m : Mem} {q r : Nat} (hq : q / 64 < m.length) (h : IsPrev m q r) : prev m q = some r := by
  have h1 := h.1
  unfold prev
  simp only [ld_of_lt hq, loSet_eq (show q % 64 + 1 ≤ 64 by omega), Option.bind_eq_bind, Option.bind_some]
  by_cases c : r / 64 = q / 64
  · have hhi : IsHi (m[q / 64] &&& (BitVec.ofNat 64 (2 ^ (q % 64 + 1) - 1))) (r % 64) := by
      refine ⟨by omega, ?_, ?_⟩
      · rw [getLsbD_andmask (by omega)]
        have := h.2.1
        rw [bitAt_of_lt (by omega)] at this
        simp only [c] at this
        rw [this]; simp; omega
      · intro j hj
        by_cases hj3 : j < 64
        · rw [getLsbD_andmask (by omega)]
          by_cases hj2 : j < q % 64 + 1
          · have := h.2.2 (64 * (q / 64) + j) (by omega) (by omega)
            rw [bitAt_mul_add (by omega) hq] at this
            rw [this]; simp
          · simp [hj2]
        · apply BitVec.getLsbD_of_ge; omega
    rw [if_pos (isHi_ne hhi), hi_of_isHi hhi]
    simp; omega
  · have hz : m[q / 64] &&& (BitVec.ofNat 64 (2 ^ (q % 64 + 1) - 1)) = 0#64 := by
      rw [word_zero_iff]
      intro j hj
      rw [getLsbD_andmask (by omega)]
      by_cases hj2 : j < q % 64 + 1
      · have := h.2.2 (64 * (q / 64) + j) (by omega) (by omega)
        rw [bitAt_mul_add (by omega) hq] at this
        rw [this]; simp
      · simp [hj2]
    rw [if_neg (by rw [hz]; simp)]
    exact prevLoop_eq h (by omega) (by omega) (by omega)

/-! ### cursor moves -/

theorem moveRight_eq {p : Int} {off len : Nat} (ho : off < 64) (hl : len ≤ 64) :
    (moveRight p off len).2 < 64 ∧
    64 * (moveRight p off len).1 + (moveRight p off len).2 = 64 * p + off + len := by
  unfold moveRight
  have h : ∀ s : Fin 128, ((s.val &&& 0xC0 ≠ 0) ↔ 64 ≤ s.val) ∧ (s.val &&& 0x3F) = s.val % 64 := by decide +kernel
  have := h ⟨(off + len) % 256, by omega⟩
  simp only at this
  simp only [this.1, this.2]
  split <;> constructor <;> simp <;> omega

theorem moveLeft_eq {p : Int} {off len : Nat} (ho : off < 64) (hl : len ≤ 64) :
    (moveLeft p off len).2 < 64 ∧
    64 * (moveLeft p off len).1 + (moveLeft p off len).2 = 64 * p + off - len := by
  unfold moveLeft
  have h : ∀ s : Fin 256, ((s.val &&& 0xC0 ≠ 0) ↔ 64 ≤ s.val) ∧ (s.val &&& 0x3F) = s.val % 64 := by decide +kernel
  have := h ⟨(off + 256 - len) % 256, by omega⟩
  simp only at this
  simp only [this.1, this.2]
  split <;> constructor <;> simp <;> omega

/-! ### `rev` -/

/-- One exchange step of `rev`. -/
theorem swap_step {x M N : Word} {k : Nat} (hM : ∀ i, i < 64 → M.getLsbD i = !(i.testBit k))
    (hN : ∀ i, i < 64 → N.getLsbD i = i.testBit k) (hk : k < 6) {i : Nat} (hi : i < 64) :
    (((x &&& M) <<< 2 ^ k) ||| ((x &&& N) >>> 2 ^ k)).getLsbD i =
      x.getLsbD (if i.testBit k then i - 2 ^ k else i + 2 ^ k) := by
  have hf : ∀ (k : Fin 6) (i : Fin 64),
      (i.val.testBit k.val = true → 2 ^ k.val ≤ i.val ∧ (i.val - 2 ^ k.val).testBit k.val = false ∧
        (i.val + 2 ^ k.val < 64 → (i.val + 2 ^ k.val).testBit k.val = false)) ∧
      (i.val.testBit k.val = false → i.val + 2 ^ k.val < 64 ∧ (i.val + 2 ^ k.val).testBit k.val = true ∧
        (2 ^ k.val ≤ i.val → (i.val - 2 ^ k.val).testBit k.val = true)) := by
    decide +kernel
  have := hf ⟨k, hk⟩ ⟨i, hi⟩
  simp only at this
  generalize 2 ^ k = s at *
  rw [BitVec.getLsbD_or, BitVec.getLsbD_shiftLeft, BitVec.getLsbD_ushiftRight, BitVec.getLsbD_and, BitVec.getLsbD_and]
  by_cases hb : i.testBit k = true
  · obtain ⟨h1, h2, h3⟩ := this.1 hb
    have hM' := hM (i - s) (by omega)
    rw [hM', h2]
    by_cases hlt : i + s < 64
    · have hN' := hN (s + i) (by omega)
      rw [hN', show s + i = i + s by omega, h3 hlt]
      simp [hb, hi, h1]
    · have : x.getLsbD (s + i) = false := BitVec.getLsbD_of_ge _ _ (by omega)
      rw [this]
      simp [hb, hi, h1]
  · have hb' : i.testBit k = false := by simpa using hb
    obtain ⟨h1, h2, h3⟩ := this.2 hb'
    have hN' := hN (s + i) (by omega)
    rw [hN', show s + i = i + s by omega, h2]
    by_cases hlt : s ≤ i
    · have hM' := hM (i - s) (by omega)
      rw [hM', h3 hlt]
      simp [hb']
    · have : i < s := by omega
      simp [hb', this]

theorem rev_getLsbD (x : Word) {i : Nat} (hi : i < 64) : (rev x).getLsbD i = x.getLsbD (63 - i) := by
  have m0 : ∀ i : Fin 64, (0x5555555555555555#64).getLsbD i.val = !(i.val.testBit 0) := by decide +kernel
  have n0 : ∀ i : Fin 64, (0xAAAAAAAAAAAAAAAA#64).getLsbD i.val = (i.val.testBit 0) := by decide +kernel
  have m1 : ∀ i : Fin 64, (0x3333333333333333#64).getLsbD i.val = !(i.val.testBit 1) := by decide +kernel
  have n1 : ∀ i : Fin 64, (0xCCCCCCCCCCCCCCCC#64).getLsbD i.val = (i.val.testBit 1) := by decide +kernel
  have m2 : ∀ i : Fin 64, (0x0F0F0F0F0F0F0F0F#64).getLsbD i.val = !(i.val.testBit 2) := by decide +kernel
  have n2 : ∀ i : Fin 64, (0xF0F0F0F0F0F0F0F0#64).getLsbD i.val = (i.val.testBit 2) := by decide +kernel
  have m3 : ∀ i : Fin 64, (0x00FF00FF00FF00FF#64).getLsbD i.val = !(i.val.testBit 3) := by decide +kernel
  have n3 : ∀ i : Fin 64, (0xFF00FF00FF00FF00#64).getLsbD i.val = (i.val.testBit 3) := by decide +kernel
  have m4 : ∀ i : Fin 64, (0x0000FFFF0000FFFF#64).getLsbD i.val = !(i.val.testBit 4) := by decide +kernel
  have n4 : ∀ i : Fin 64, (0xFFFF0000FFFF0000#64).getLsbD i.val = (i.val.testBit 4) := by decide +kernel
  have m5 : ∀ i : Fin 64, (0x00000000FFFFFFFF#64).getLsbD i.val = !(i.val.testBit 5) := by decide +kernel
  have n5 : ∀ i : Fin 64, (0xFFFFFFFF00000000#64).getLsbD i.val = (i.val.testBit 5) := by decide +kernel
  let σ := fun k i => if Nat.testBit i k then i - 2 ^ k else i + 2 ^ k
  have hs : ∀ (k : Fin 6) (i : Fin 64), (if Nat.testBit i.val k.val then i.val - 2 ^ k.val else i.val + 2 ^ k.val) < 64 := by
    decide +kernel
  have hlt : ∀ k, k < 6 → ∀ i, i < 64 → σ k i < 64 := fun k hk i hi => hs ⟨k, hk⟩ ⟨i, hi⟩
  have hall : ∀ i : Fin 64, (let σ := fun k i => if Nat.testBit i k then i - 2 ^ k else i + 2 ^ k
      σ 0 (σ 1 (σ 2 (σ 3 (σ 4 (σ 5 i.val)))))) = 63 - i.val := by decide +kernel
  have hall' : σ 0 (σ 1 (σ 2 (σ 3 (σ 4 (σ 5 i))))) = 63 - i := hall ⟨i, hi⟩
  unfold rev
  simp only
  have l5 := hlt 5 (by omega) i hi
  have l4 := hlt 4 (by omega) _ l5
  have l3 := hlt 3 (by omega) _ l4
  have l2 := hlt 2 (by omega) _ l3
  have l1 := hlt 1 (by omega) _ l2
  rw [← hall']
  refine (swap_step (k := 5) (fun i hi => m5 ⟨i, hi⟩) (fun i hi => n5 ⟨i, hi⟩) (by omega) hi).trans ?_
  refine (swap_step (k := 4) (fun i hi => m4 ⟨i, hi⟩) (fun i hi => n4 ⟨i, hi⟩) (by omega) l5).trans ?_
  refine (swap_step (k := 3) (fun i hi => m3 ⟨i, hi⟩) (fun i hi => n3 ⟨i, hi⟩) (by omega) l4).trans ?_
  refine (swap_step (k := 2) (fun i hi => m2 ⟨i, hi⟩) (fun i hi => n2 ⟨i, hi⟩) (by omega) l3).trans ?_
  refine (swap_step (k := 1) (fun i hi => m1 ⟨i, hi⟩) (fun i hi => n1 ⟨i, hi⟩) (by omega) l2).trans ?_
  exact (swap_step (k := 0) (fun i hi => m0 ⟨i, hi⟩) (fun i hi => n0 ⟨i, hi⟩) (by omega) l1)

/-! ### `map10` / `map01` -/

/-- Bit `i-1` of `x`, the carry `c` standing for bit `-1`. -/
theorem getLsbD_shl1_or {x c : Word} (hc : c = 0#64 ∨ c = 1#64) {i : Nat} (hi : i < 64) :
    ((x <<< 1) ||| c).getLsbD i = (if i = 0 then c == 1#64 else x.getLsbD (i - 1)) := by
  rw [BitVec.getLsbD_or, BitVec.getLsbD_shiftLeft]
  rcases hc with rfl | rfl
  · by_cases h : i = 0
    · subst h; simp
    · simp [h, hi]
  · by_cases h : i = 0
    · subst h; simp
    · simp [h, hi]

theorem shr63 (x : Word) : x >>> 63 = if x.getLsbD 63 then 1#64 else 0#64 := by
  apply BitVec.eq_of_getLsbD_eq
  intro i hi
  rw [BitVec.getLsbD_ushiftRight]
  by_cases h : i = 0
  · subst h; cases hx : x.getLsbD 63 <;> simp
  · have : x.getLsbD (63 + i) = false := BitVec.getLsbD_of_ge _ _ (by omega)
    rw [this]
    cases hx : x.getLsbD 63 <;> simp [h]
end Sdsl.Bits
