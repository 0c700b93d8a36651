/-
  Lemmas about whole-vector operations of `int_vector`: resizing, copying, comparing, bitwise updates.
-/
import Verif.IntVecLemmas

namespace Sdsl

open Spec Bits

namespace IntVec

theorem reallocMem_length (junk : Nat → Word) (d : Mem) (n : Nat) : (reallocMem junk d n).length = n := by
  simp [reallocMem]; omega

theorem bitAt_reallocMem (junk : Nat → Word) (d : Mem) (n q : Nat) (h1 : q / 64 < n) (h2 : q / 64 < d.length) :
    bitAt (reallocMem junk d n) q = bitAt d q := by
  unfold bitAt reallocMem
  rw [List.getElem?_append_left (by simp; omega), List.getElem?_take, if_pos h1]

theorem bitResize_eq (junk : Nat → Word) (v : IntVec) (hf : (v.size + 63) / 64 ≤ v.data.length) (n : Nat) :
    ∃ d, bitResize junk v n = some { v with size := n, data := d } ∧ (n + 63) / 64 ≤ d.length ∧ d ≠ [] ∧
      (∀ q, q < v.size → q < n → bitAt d q = bitAt v.data q) ∧
      ((v.size + 63) / 64 ≠ (n + 63) / 64 ∨ v.data = [] →
        d.length = (n + 64) / 64 ∧ ∀ q, n ≤ q → bitAt d q = false) ∧
      ((v.size + 63) / 64 = (n + 63) / 64 → v.data ≠ [] → d = v.data) := by
  unfold bitResize
  by_cases hc : (v.size + 63) / 64 * 8 ≠ (n + 63) / 64 * 8 ∨ v.data = []
  · simp only [hc, if_true]
    have hl := reallocMem_length junk v.data ((n + 64) / 64)
    have hb := fun q h1 h2 => bitAt_reallocMem junk v.data ((n + 64) / 64) q h1 h2
    generalize reallocMem junk v.data ((n + 64) / 64) = m at *
    by_cases hn : n % 64 = 0
    · have h1 : ¬ n < (n + 63) / 64 * 64 := by omega
      rw [if_neg h1, Option.bind_eq_bind]
      simp only [pure, Option.bind_some, hn, if_true]
      rw [st_of_lt (by omega)]
      refine ⟨m.set (n / 64) 0#64, rfl, by rw [List.length_set]; omega, ?_, ?_, ?_, ?_⟩
      · intro h; have := congrArg List.length h; rw [List.length_set, List.length_nil] at this; omega
      · intro q h2 h3
        rw [bitAt_set (by omega), if_neg (by omega), hb q (by omega) (by omega)]
      · intro _
        refine ⟨by rw [List.length_set]; omega, ?_⟩
        intro q hq
        rw [bitAt_set (by omega)]
        split
        · simp
        · rw [bitAt_of_ge (by omega)]
      · intro h2 h3; rcases hc with hc | hc
        · omega
        · exact absurd hc h3
    · have h1 : n < (n + 63) / 64 * 64 := by omega
      rw [if_pos h1]
      obtain ⟨m', hm', hw⟩ := writeInt_eq (m := m) (p := n / 64) (off := n % 64) (len := (n + 63) / 64 * 64 - n)
        (x := 0#64) (by omega) (by omega) (by omega) (by omega)
      rw [hm', Option.bind_eq_bind, Option.bind_some, if_neg hn]
      have hl' := hw.length
      refine ⟨m', rfl, by omega, ?_, ?_, ?_, ?_⟩
      · rintro rfl; simp at hl'; omega
      · intro q h2 h3
        rw [hw.bits, if_neg (by omega), hb q (by omega) (by omega)]
      · intro _
        refine ⟨by omega, ?_⟩
        intro q hq
        rw [hw.bits]
        split
        · simp
        · rw [bitAt_of_ge (by omega)]
      · intro h2 h3; rcases hc with hc | hc
        · omega
        · exact absurd hc h3
  · simp only [hc, if_false]
    have hc' := hc
    rw [not_or] at hc'
    refine ⟨v.data, rfl, by omega, hc'.2, fun _ _ _ => rfl, ?_, fun _ _ => rfl⟩
    rintro (h | h)
    · omega
    · exact absurd h hc'.2

theorem elem_congr {v u : IntVec} (hw : u.width = v.width) {i : Nat}
    (hb : ∀ q, i * v.width ≤ q → q < i * v.width + v.width → bitAt u.data q = bitAt v.data q) : u.elem i = v.elem i := by
  unfold elem
  rw [hw]
  apply field_congr
  intro j hj
  exact hb _ (by omega) (by omega)

theorem fits_mul {n w i : Nat} (hi : i < n / w) : i * w + w ≤ n := by
  have := Nat.div_mul_le_self n w
  have h2 : (i + 1) * w ≤ n / w * w := Nat.mul_le_mul_right _ hi
  rw [Nat.add_mul] at h2; omega

/-! ### word loops -/

theorem memcpy_eq {src : Mem} (k : Nat) : ∀ (dst : Mem) (i : Nat), i + k ≤ dst.length → i + k ≤ src.length →
    ∃ d, memcpy dst src i k = some d ∧ d.length = dst.length ∧
      ∀ j, d[j]? = if i ≤ j ∧ j < i + k then src[j]? else dst[j]? := by
  induction k with
  | zero => intro dst i _ _; exact ⟨dst, rfl, rfl, fun j => by rw [if_neg (by omega)]⟩
  | succ k ih =>
    intro dst i h1 h2
    obtain ⟨d, hd, hl, hj⟩ := ih (dst.set i src[i]) (i + 1) (by simp; omega) (by omega)
    refine ⟨d, ?_, by simpa using hl, ?_⟩
    · simp only [memcpy, ld_of_lt (show i < src.length by omega), Option.bind_eq_bind, Option.bind_some,
        st_of_lt (show i < dst.length by omega)]
      exact hd
    · intro j
      rw [hj]
      by_cases e : j = i
      · subst e
        rw [if_neg (by omega), if_pos (by omega), List.getElem?_set, if_pos rfl, if_pos (by omega),
          List.getElem?_eq_getElem]
      · rw [List.getElem?_set, if_neg (Ne.symm e)]
        by_cases h : i ≤ j ∧ j < i + (k + 1)
        · rw [if_pos (by omega), if_pos h]
        · rw [if_neg (by omega), if_neg h]

theorem bitAt_of_getElem? {d src : Mem} {q : Nat} (h : d[q / 64]? = src[q / 64]?) : bitAt d q = bitAt src q := by
  unfold bitAt; rw [h]

theorem fillLoop_eq {f : Nat → Word → Option Word} {g : Nat → Word → Word} (hf : ∀ i w, f i w = some (g i w)) (k : Nat) :
    ∀ (m : Mem) (i : Nat), i + k ≤ m.length →
    ∃ d, fillLoop f m i k = some d ∧ d.length = m.length ∧
      ∀ j, d[j]? = if i ≤ j ∧ j < i + k then m[j]?.map (g j) else m[j]? := by
  induction k with
  | zero => intro m i _; exact ⟨m, rfl, rfl, fun j => by rw [if_neg (by omega)]⟩
  | succ k ih =>
    intro m i h1
    obtain ⟨d, hd, hl, hj⟩ := ih (m.set i (g i m[i])) (i + 1) (by simp; omega)
    refine ⟨d, ?_, by simpa using hl, ?_⟩
    · simp only [fillLoop, ld_of_lt (show i < m.length by omega), Option.bind_eq_bind, Option.bind_some, hf,
        st_of_lt (show i < m.length by omega)]
      exact hd
    · intro j
      rw [hj]
      by_cases e : j = i
      · subst e
        rw [if_neg (by omega), if_pos (by omega), List.getElem?_set, if_pos rfl, if_pos (by omega),
          List.getElem?_eq_getElem (by omega)]; rfl
      · rw [List.getElem?_set, if_neg (Ne.symm e)]
        by_cases h : i ≤ j ∧ j < i + (k + 1)
        · rw [if_pos (by omega), if_pos h]
        · rw [if_neg (by omega), if_neg h]

theorem zipLoop_eq {f : Word → Word → Word} {b : Mem} (k : Nat) : ∀ (m : Mem) (i : Nat), i + k ≤ m.length →
    i + k ≤ b.length → ∃ d, zipLoop f m b i k = some d ∧ d.length = m.length ∧
      ∀ j, d[j]? = if i ≤ j ∧ j < i + k then (m[j]?.bind fun x => b[j]?.map fun y => f x y) else m[j]? := by
  induction k with
  | zero => intro m i _ _; exact ⟨m, rfl, rfl, fun j => by rw [if_neg (by omega)]⟩
  | succ k ih =>
    intro m i h1 h2
    obtain ⟨d, hd, hl, hj⟩ := ih (m.set i (f m[i] b[i])) (i + 1) (by simp; omega) (by omega)
    refine ⟨d, ?_, by simpa using hl, ?_⟩
    · simp only [zipLoop, ld_of_lt (show i < m.length by omega), ld_of_lt (show i < b.length by omega),
        Option.bind_eq_bind, Option.bind_some, st_of_lt (show i < m.length by omega)]
      exact hd
    · intro j
      rw [hj]
      by_cases e : j = i
      · subst e
        rw [if_neg (by omega), if_pos (by omega), List.getElem?_set, if_pos rfl, if_pos (by omega),
          List.getElem?_eq_getElem (by omega), List.getElem?_eq_getElem (show j < b.length by omega)]; rfl
      · rw [List.getElem?_set, if_neg (Ne.symm e)]
        by_cases h : i ≤ j ∧ j < i + (k + 1)
        · rw [if_pos (by omega), if_pos h]
        · rw [if_neg (by omega), if_neg h]

theorem zipLoop_bits {f : Word → Word → Word} {g : Bool → Bool → Bool}
    (hfg : ∀ x y j, j < 64 → (f x y).getLsbD j = g (x.getLsbD j) (y.getLsbD j)) {a b : Mem} {k : Nat}
    (h1 : k ≤ a.length) (h2 : k ≤ b.length) :
    ∃ d, zipLoop f a b 0 k = some d ∧ d.length = a.length ∧
      ∀ q, bitAt d q = if q < 64 * k then g (bitAt a q) (bitAt b q) else bitAt a q := by
  obtain ⟨d, hd, hl, hj⟩ := zipLoop_eq (f := f) (b := b) k a 0 (by omega) (by omega)
  refine ⟨d, hd, hl, ?_⟩
  intro q
  have := hj (q / 64)
  by_cases hq : q < 64 * k
  · rw [if_pos (by omega)] at this
    rw [List.getElem?_eq_getElem (show q / 64 < a.length by omega), List.getElem?_eq_getElem (show q / 64 < b.length by omega)] at this
    rw [if_pos hq, bitAt_of_lt (show q / 64 < a.length by omega), bitAt_of_lt (show q / 64 < b.length by omega)]
    simp only [Option.bind_some, Option.map_some] at this
    unfold bitAt
    rw [this]
    exact hfg _ _ _ (by omega)
  · rw [if_neg (by omega)] at this
    rw [if_neg hq]
    exact bitAt_of_getElem? this

/-! ### equality -/

theorem wordsEq_eq {a b : Mem} (k : Nat) : ∀ i, i + k ≤ a.length → i + k ≤ b.length →
    ∃ r, wordsEq a b i k = some r ∧ (r = true ↔ ∀ j, i ≤ j → j < i + k → a[j]? = b[j]?) := by
  induction k with
  | zero => intro i _ _; exact ⟨true, rfl, by simp; intro j h1 h2; omega⟩
  | succ k ih =>
    intro i h1 h2
    simp only [wordsEq, ld_of_lt (show i < a.length by omega), ld_of_lt (show i < b.length by omega),
      Option.bind_eq_bind, Option.bind_some]
    by_cases e : a[i] = b[i]
    · simp only [e, ne_eq, not_true, if_false]
      obtain ⟨r, hr, hr2⟩ := ih (i + 1) (by omega) (by omega)
      refine ⟨r, hr, hr2.trans ?_⟩
      constructor
      · intro h j h3 h4
        by_cases e2 : j = i
        · subst e2; rw [List.getElem?_eq_getElem (by omega), List.getElem?_eq_getElem (by omega), e]
        · exact h j (by omega) (by omega)
      · intro h j h3 h4; exact h j (by omega) (by omega)
    · simp only [ne_eq, e, not_false_eq_true, if_true]
      refine ⟨false, rfl, ?_⟩
      simp only [Bool.false_eq_true, false_iff]
      intro h
      have := h i (by omega) (by omega)
      rw [List.getElem?_eq_getElem (by omega), List.getElem?_eq_getElem (by omega)] at this
      exact e (Option.some.inj this)

theorem word_eq_iff {a b : Mem} {j : Nat} (ha : j < a.length) (hb : j < b.length) :
    a[j]? = b[j]? ↔ ∀ t, t < 64 → bitAt a (64 * j + t) = bitAt b (64 * j + t) := by
  rw [List.getElem?_eq_getElem ha, List.getElem?_eq_getElem hb, Option.some_inj]
  constructor
  · intro h t ht; rw [bitAt_mul_add ht ha, bitAt_mul_add ht hb, h]
  · intro h; apply BitVec.eq_of_getLsbD_eq; intro t ht
    have := h t ht
    rwa [bitAt_mul_add ht ha, bitAt_mul_add ht hb] at this

theorem masked_eq_iff {x y : Word} {l : Nat} :
    (x &&& BitVec.ofNat 64 (2 ^ l - 1) == y &&& BitVec.ofNat 64 (2 ^ l - 1)) = true ↔
      ∀ t, t < 64 → t < l → x.getLsbD t = y.getLsbD t := by
  rw [beq_iff_eq]
  constructor
  · intro h t ht hl
    have := congrArg (fun z : Word => z.getLsbD t) h
    simp only [BitVec.getLsbD_and, getLsbD_ones, ht, hl, decide_true, Bool.and_true] at this
    exact this
  · intro h
    apply BitVec.eq_of_getLsbD_eq
    intro t ht
    simp only [BitVec.getLsbD_and, getLsbD_ones]
    by_cases hl : t < l
    · rw [h t ht hl]
    · simp [hl]

theorem eqv_eq {v w : IntVec} (hv : (v.size + 63) / 64 ≤ v.data.length) (hw : (w.size + 63) / 64 ≤ w.data.length) :
    ∃ b, v.eqv w = some b ∧ (b = true ↔ v.size = w.size ∧ ∀ q, q < v.size → bitAt v.data q = bitAt w.data q) := by
  unfold eqv capWords
  by_cases h1 : (v.size + 63) / 64 * 64 ≠ (w.size + 63) / 64 * 64
  · rw [if_pos h1]; refine ⟨false, rfl, ?_⟩; simp; intro h; rw [h] at h1; exact absurd rfl h1
  rw [if_neg h1]
  by_cases h2 : v.size ≠ w.size
  · rw [if_pos h2]; exact ⟨false, rfl, by simp; intro h; exact absurd h h2⟩
  rw [if_neg h2]
  have h2 : v.size = w.size := by omega
  by_cases h3 : v.size = 0
  · rw [if_pos h3]; exact ⟨true, rfl, by simp [h2.symm, h3]⟩
  rw [if_neg h3]
  rw [← h2] at hw
  obtain ⟨r, hr, hr2⟩ := wordsEq_eq (a := w.data) (b := v.data) ((v.size + 63) / 64 - 1) 0 (by omega) (by omega)
  rw [hr, Option.bind_eq_bind, Option.bind_some]
  have hk : (v.size + 63) / 64 - 1 < v.data.length := by omega
  have hk' : (v.size + 63) / 64 - 1 < w.data.length := by omega
  cases r with
  | true =>
    have hall := hr2.mp rfl
    rw [if_neg (by simp)]
    rw [ld_of_lt hk', ld_of_lt hk]
    simp only [loSet_eq (show 64 - ((v.size + 63) / 64 * 64 - v.size) ≤ 64 by omega), Option.bind_eq_bind, Option.bind_some]
    refine ⟨_, rfl, ?_⟩
    rw [masked_eq_iff]
    constructor
    · intro h
      refine ⟨h2, ?_⟩
      intro q hq
      by_cases hlast : q / 64 = (v.size + 63) / 64 - 1
      · have := h (q % 64) (by omega) (by omega)
        rw [bitAt_of_lt (by omega), bitAt_of_lt (by omega)]
        simp only [hlast]
        exact this.symm
      · have := hall (q / 64) (by omega) (by omega)
        exact (bitAt_of_getElem? this).symm
    · rintro ⟨-, h⟩ t ht hl
      have := h (64 * ((v.size + 63) / 64 - 1) + t) (by omega)
      rw [bitAt_mul_add ht hk, bitAt_mul_add ht hk'] at this
      exact this.symm
  | false =>
    rw [if_pos rfl]
    refine ⟨false, rfl, ?_⟩
    simp only [Bool.false_eq_true, false_iff]
    rintro ⟨-, h⟩
    refine absurd (hr2.mpr ?_) (by simp)
    intro j _ hj
    rw [word_eq_iff (by omega) (by omega)]
    intro t ht
    exact (h (64 * j + t) (by omega)).symm

end IntVec
end Sdsl
