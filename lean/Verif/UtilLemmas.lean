/-
  Lemmas about the vector utilities of include/sdsl/util.hpp: width changes, bulk fills, bit scans, bit counts.
-/
import Verif.IntVecIter

namespace Sdsl

open Spec Bits IntVec

theorem sbind {α β : Type} (a : α) (f : α → Option β) : (some a >>= f) = f a := rfl

namespace Util

/-! ### width changes -/

theorem maxElem_eq {v : IntVec} (hv : v.WF) (k : Nat) (hk : k ≤ v.size / v.width) :
    ∃ M, maxElem v k = some (BitVec.ofNat 64 M) ∧ M < 2 ^ 64 ∧ (∀ i, i < k → v.elem i ≤ M) ∧
      (M = 0 ∨ ∃ i, i < k ∧ v.elem i = M) := by
  induction k with
  | zero => exact ⟨0, rfl, by omega, fun i hi => by omega, Or.inl rfl⟩
  | succ k ih =>
    obtain ⟨M, h1, h2, h3, h4⟩ := ih (by omega)
    have hlt := elem_lt64 hv k
    simp only [maxElem]
    rw [h1, get_eq hv (by omega), sbind, sbind]
    have hu : (BitVec.ofNat 64 M).ult (BitVec.ofNat 64 (v.elem k)) = decide (M < v.elem k) := by
      rw [BitVec.ult, toNat_ofNat_elem hv, BitVec.toNat_ofNat, Nat.mod_eq_of_lt h2]
    rw [hu]
    by_cases hc : M < v.elem k
    · rw [if_pos (by simpa using hc)]
      refine ⟨v.elem k, rfl, hlt, ?_, Or.inr ⟨k, by omega, rfl⟩⟩
      intro i hi
      by_cases e : i = k
      · subst e; omega
      · have := h3 i (by omega); omega
    · rw [if_neg (by simpa using hc)]
      refine ⟨M, rfl, h2, ?_, ?_⟩
      · intro i hi
        by_cases e : i = k
        · subst e; omega
        · exact h3 i (by omega)
      · rcases h4 with h4 | ⟨i, h5, h6⟩
        · exact Or.inl h4
        · exact Or.inr ⟨i, by omega, h6⟩

theorem div_mod_64 (b : Nat) : 64 * (b / 64) + b % 64 = b := by omega

theorem compressLoop_eq {oldW newW n : Nat} (hw : newW ≤ oldW) (h64 : oldW ≤ 64) (h1 : 1 ≤ newW) (e : Nat → Nat)
    (he : ∀ j, j < n → e j < 2 ^ newW) : ∀ (k i : Nat) (m : Mem), i + k = n → n * oldW ≤ 64 * m.length →
      (∀ j, j < i → field m (j * newW) newW = e j) → (∀ j, i ≤ j → j < n → field m (j * oldW) oldW = e j) →
      ∃ d, compressLoop oldW newW k m (i * oldW / 64) (i * oldW % 64) (i * newW / 64) (i * newW % 64) = some d ∧
        d.length = m.length ∧ ∀ j, j < n → field d (j * newW) newW = e j := by
  intro k
  induction k with
  | zero => intro i m hi _ hl _; exact ⟨m, rfl, rfl, fun j hj => hl j (by omega)⟩
  | succ k ih =>
    intro i m hi hfit hlo hhi
    have a1 : (i + 1) * oldW ≤ n * oldW := Nat.mul_le_mul_right _ (by omega)
    have a2 : (i + 1) * newW ≤ (i + 1) * oldW := Nat.mul_le_mul_left _ hw
    rw [Nat.add_mul, Nat.one_mul] at a1 a2
    rw [Nat.add_mul, Nat.one_mul] at a2
    have hr := readIntAndMove_eq (m := m) (p := i * oldW / 64) (off := i * oldW % 64) (len := oldW) (by omega) h64
      (by omega) (by omega)
    rw [div_mod_64, hhi i (by omega) (by omega)] at hr
    obtain ⟨m', hm', hwr⟩ := writeIntAndMove_eq (m := m) (p := i * newW / 64) (off := i * newW % 64) (len := newW)
      (x := BitVec.ofNat 64 (e i)) (by omega) (by omega) (by omega) (by omega)
    rw [div_mod_64] at hm' hwr
    have hlen := hwr.length
    obtain ⟨d, g1, g2, g3⟩ := ih (i + 1) m' (by omega) (by omega) (by
          intro j hj
          by_cases ej : j = i
          · subst ej
            rw [hwr.field_self, BitVec.toNat_ofNat, mod_pow64 (by omega), Nat.mod_eq_of_lt (he j (by omega))]
          · rw [hwr.field_other (disjoint_elems ej), hlo j (by omega)]) (by
          intro j hj1 hj2
          have b1 : (i + 1) * oldW ≤ j * oldW := Nat.mul_le_mul_right _ hj1
          rw [Nat.add_mul, Nat.one_mul] at b1
          rw [hwr.field_other (by omega), hhi j (by omega) hj2])
    refine ⟨d, ?_, by omega, g3⟩
    simp only [compressLoop]
    rw [hr, sbind]
    simp only
    rw [hm', sbind]
    rw [Nat.add_mul, Nat.one_mul, Nat.add_mul, Nat.one_mul] at g1
    exact g1

theorem expandLoop_eq {oldW newW n : Nat} (hw : oldW ≤ newW) (h64 : newW ≤ 64) (h1 : 1 ≤ oldW) (e : Nat → Nat)
    (he : ∀ j, j < n → e j < 2 ^ oldW) : ∀ (k : Nat) (v : IntVec), k ≤ n → n * newW ≤ 64 * v.data.length →
      (∀ j, j < k → field v.data (j * oldW) oldW = e j) → (∀ j, k ≤ j → j < n → field v.data (j * newW) newW = e j) →
      ∃ d, expandLoop oldW newW k v = some { v with data := d } ∧
        d.length = v.data.length ∧ ∀ j, j < n → field d (j * newW) newW = e j := by
  intro k
  induction k with
  | zero => intro v _ _ _ hl; exact ⟨v.data, rfl, rfl, fun j hj => hl j (by omega) hj⟩
  | succ k ih =>
    intro v hk hfit hlo hhi
    have a1 : (k + 1) * newW ≤ n * newW := Nat.mul_le_mul_right _ (by omega)
    have a2 : k * oldW ≤ k * newW := Nat.mul_le_mul_left _ hw
    rw [Nat.add_mul, Nat.one_mul] at a1
    have hr := readInt_eq (m := v.data) (p := k * oldW / 64) (off := k * oldW % 64) (len := oldW) (by omega) (by omega)
      (by omega) (by omega)
    rw [div_mod_64, hlo k (by omega)] at hr
    obtain ⟨m', hm', hwr⟩ := writeInt_eq (m := v.data) (p := k * newW / 64) (off := k * newW % 64) (len := newW)
      (x := BitVec.ofNat 64 (e k)) (by omega) (by omega) (by omega) (by omega)
    rw [div_mod_64] at hwr
    have hlen := hwr.length
    obtain ⟨d, g1, g2, g3⟩ := ih { v with data := m' } (by omega) (by show n * newW ≤ 64 * m'.length; omega) (by
          intro j hj
          have b1 : (j + 1) * oldW ≤ k * oldW := Nat.mul_le_mul_right _ hj
          rw [Nat.add_mul, Nat.one_mul] at b1
          show field m' _ _ = _
          rw [hwr.field_other (by omega), hlo j (by omega)]) (by
          intro j hj1 hj2
          show field m' _ _ = _
          by_cases ej : j = k
          · subst ej
            have := Nat.lt_of_lt_of_le (he j hj2) (Nat.pow_le_pow_right (by omega) hw)
            rw [hwr.field_self, BitVec.toNat_ofNat, mod_pow64 (by omega), Nat.mod_eq_of_lt this]
          · rw [hwr.field_other (disjoint_elems ej), hhi j (by omega) hj2])
    refine ⟨d, ?_, g2.trans hlen, g3⟩
    simp only [expandLoop, getInt, setInt]
    rw [hr, sbind, hm', Option.map_some, sbind]
    exact g1

/-- The smallest width holding `M`. -/
theorem log2_width (M : Nat) : M < 2 ^ (Nat.log2 M + 1) ∧ (Nat.log2 M = 0 ∨ 2 ^ Nat.log2 M ≤ M) := by
  refine ⟨Nat.lt_log2_self, ?_⟩
  by_cases h : M = 0
  · left; subst h; rfl
  · right; exact Nat.log2_self_le h

theorem numElems_mul_le (v : IntVec) : v.numElems * v.width ≤ v.size := Nat.div_mul_le_self _ _

theorem bitCompress_eq (junk : Nat → Word) {v : IntVec} (hv : v.WF) :
    ∃ u M, bitCompress 0 junk v = some u ∧ u.WF ∧ u.elems = v.elems ∧
      (∀ i, i < v.size / v.width → v.elem i ≤ M) ∧ (M = 0 ∨ ∃ i, i < v.size / v.width ∧ v.elem i = M) ∧
      u.width = min v.width (Nat.log2 M + 1) := by
  obtain ⟨M, h1, h2, h3, h4⟩ := maxElem_eq hv (v.size / v.width) (Nat.le_refl _)
  have hM : (BitVec.ofNat 64 M).toNat = M := by rw [BitVec.toNat_ofNat]; exact Nat.mod_eq_of_lt h2
  have hw64 : Nat.log2 M < 64 := by
    by_cases hz : M = 0
    · subst hz; decide
    · exact (Nat.log2_lt hz).mpr h2
  have ⟨hl1, hl2⟩ := log2_width M
  unfold bitCompress
  unfold numElems
  rw [h1, sbind, hi_eq, sbind, hM]
  by_cases hc : v.width > Nat.log2 M + 1
  · simp only [hc, if_true]
    have hfit : v.size / v.width * v.width ≤ 64 * v.data.length := by
      have := numElems_mul_le v; unfold numElems at this; have := hv.bits_le; omega
    obtain ⟨d, c1, c2, c3⟩ := compressLoop_eq (oldW := v.width) (newW := Nat.log2 M + 1) (n := v.size / v.width)
      (by omega) hv.w64 (by omega) v.elem (fun j hj => Nat.lt_of_le_of_lt (h3 j hj) hl1) (v.size / v.width) 0 v.data
      (by omega) hfit (fun j hj => by omega) (fun j _ _ => rfl)
    simp only [Nat.zero_mul, Nat.zero_div, Nat.zero_mod] at c1
    rw [c1, sbind]
    have hf := hv.fit
    obtain ⟨d2, r1, r2, -, r4, -, -⟩ := bitResize_eq junk { v with data := d } (by show _ ≤ d.length; rw [c2]; exact hf)
      (v.size / v.width * (Nat.log2 M + 1))
    simp only at r1 r2 r4
    rw [r1]
    simp only [sbind, clampWidth]
    rw [if_pos (by omega)]
    have hle : v.size / v.width * (Nat.log2 M + 1) ≤ v.size := by
      have a := Nat.mul_le_mul_left (v.size / v.width) (Nat.le_of_lt hc)
      have := numElems_mul_le v; unfold numElems at this; omega
    refine ⟨_, M, rfl, ⟨by simp, by simp; omega, r2⟩, ?_, h3, h4, by simp only; omega⟩
    apply List.ext_getElem?
    intro i
    rw [elems_get?, elems_get?]
    simp only [Nat.mul_div_cancel _ (show 0 < Nat.log2 M + 1 by omega)]
    by_cases hi : i < v.size / v.width
    · rw [if_pos hi, if_pos hi]
      congr 1
      rw [← c3 i hi]
      unfold elem
      apply field_congr
      intro j hj
      have : (i + 1) * (Nat.log2 M + 1) ≤ v.size / v.width * (Nat.log2 M + 1) := Nat.mul_le_mul_right _ hi
      rw [Nat.add_mul i] at this
      simp only at hj ⊢
      exact r4 _ (by omega) (by omega)
    · rw [if_neg hi, if_neg hi]
  · simp only [hc, if_false]
    exact ⟨v, M, rfl, hv, rfl, h3, h4, by omega⟩

theorem expandWidth_eq (junk : Nat → Word) {v : IntVec} (hv : v.WF) {newW : Nat} (h64 : newW ≤ 64) :
    ∃ u, expandWidth junk v newW = some u ∧ u.WF ∧ u.width = max v.width newW ∧
      u.elems = v.elems := by
  have hw1 := hv.w1
  unfold expandWidth
  by_cases hc : newW > v.width
  · simp only [hc, if_true]
    by_cases hn : v.numElems > 0
    · simp only [hn, if_true]
      obtain ⟨d, r1, r2, -, r4, -, -⟩ := bitResize_eq junk v hv.fit (v.numElems * newW)
      have hle : v.numElems * v.width ≤ v.numElems * newW := Nat.mul_le_mul_left _ (by omega)
      have hns := numElems_mul_le v
      obtain ⟨d2, e1, e2, e3⟩ := expandLoop_eq (oldW := v.width) (newW := newW) (n := v.numElems) (by omega) h64 hw1
        v.elem (fun j _ => v.elem_lt j) v.numElems ⟨v.numElems * newW, d, v.width⟩ (Nat.le_refl _)
        (by show v.numElems * newW ≤ 64 * d.length; omega) (by
            intro j hj
            apply field_congr
            intro t ht
            have : (j + 1) * v.width ≤ v.numElems * v.width := Nat.mul_le_mul_right _ hj
            rw [Nat.add_mul] at this
            exact r4 _ (by omega) (by omega)) (fun j _ _ => by omega)
      rw [r1, sbind, e1]
      simp only [sbind, clampWidth]
      rw [if_pos (by omega)]
      refine ⟨_, rfl, ⟨by simp only; omega, h64, ?_⟩, by simp only; omega, ?_⟩
      · simp only at e2 ⊢; omega
      · apply List.ext_getElem?
        intro i
        rw [elems_get?, elems_get?]
        simp only [Nat.mul_div_cancel _ (show 0 < newW by omega)]
        by_cases hi : i < v.numElems
        · rw [if_pos hi, if_pos (show i < v.size / v.width from hi), ← e3 i hi]; rfl
        · rw [if_neg hi, if_neg (show ¬ i < v.size / v.width from hi)]
    · simp only [hn, if_false]
      refine ⟨_, rfl, ⟨?_, ?_, hv.fit⟩, ?_, ?_⟩
      · simp only [clampWidth]; rw [if_pos (by omega)]; omega
      · simp only [clampWidth]; rw [if_pos (by omega)]; omega
      · simp only [clampWidth]; rw [if_pos (by omega)]; omega
      · have h1 : v.size / v.width = 0 := by unfold numElems at hn; exact Nat.eq_zero_of_not_pos hn
        have h2 : v.size / newW = 0 := by
          have := Nat.div_le_div_left (a := v.size) (Nat.le_of_lt hc) (by omega)
          rw [h1] at this
          exact Nat.le_zero.mp this
        simp only [clampWidth, elems]
        rw [if_pos (by omega), h1, h2]
        rfl
  · simp only [hc, if_false]
    exact ⟨v, rfl, hv, by omega, rfl⟩

/-! ### bulk fills -/

theorem fill_bits {f : Nat → Word → Option Word} {g : Nat → Word → Word} (hf : ∀ i w, f i w = some (g i w)) {m : Mem}
    {i k : Nat} (h : i + k ≤ m.length) : ∃ d, fillLoop f m i k = some d ∧ d.length = m.length ∧
      (∀ q, q / 64 < i ∨ i + k ≤ q / 64 → bitAt d q = bitAt m q) ∧
      (∀ q (_ : i ≤ q / 64) (_ : q / 64 < i + k), bitAt d q = (g (q / 64) (m[q / 64])).getLsbD (q % 64)) := by
  obtain ⟨d, h1, h2, h3⟩ := fillLoop_eq hf k m i h
  refine ⟨d, h1, h2, ?_, ?_⟩
  · intro q hq
    apply bitAt_of_getElem?
    rw [h3, if_neg (by omega)]
  · intro q hq hq2
    have := h3 (q / 64)
    rw [if_pos ⟨hq, hq2⟩, List.getElem?_eq_getElem (l := m) (by omega)] at this
    unfold bitAt
    rw [this]; rfl

theorem flip_eq {v : IntVec} (hf : (v.size + 63) / 64 ≤ v.data.length) :
    ∃ d, v.flip = some { v with data := d } ∧ d.length = v.data.length ∧
      ∀ q, q < v.size → bitAt d q = !bitAt v.data q := by
  unfold IntVec.flip
  by_cases h : v.size = 0
  · rw [if_pos h]; exact ⟨v.data, rfl, rfl, fun q hq => by omega⟩
  · rw [if_neg h]
    obtain ⟨d, h1, h2, h3, h4⟩ := fill_bits (f := fun _ w => some (~~~w)) (g := fun _ w => ~~~w) (fun _ _ => rfl) (m := v.data)
      (i := 0) (k := v.capWords) (by unfold capWords; omega)
    refine ⟨d, by rw [h1]; rfl, h2, ?_⟩
    intro q hq
    rw [h4 q (by omega) (by unfold capWords; omega), BitVec.getLsbD_not, bitAt_of_lt (by omega)]
    simp [Nat.mod_lt]

theorem setAll_eq (w : Word) {v : IntVec} (hf : (v.size + 63) / 64 ≤ v.data.length) :
    ∃ d, setAll w v = some { v with data := d } ∧ d.length = v.data.length ∧
      ∀ q, q < v.size → bitAt d q = w.getLsbD (q % 64) := by
  unfold setAll
  by_cases h : v.size = 0
  · rw [if_pos h]; exact ⟨v.data, rfl, rfl, fun q hq => by omega⟩
  · rw [if_neg h, st_of_lt (by omega)]
    obtain ⟨d, h1, h2, h3, h4⟩ := fill_bits (f := fun _ _ => some w) (g := fun _ _ => w) (fun _ _ => rfl) (m := v.data.set 0 w)
      (i := 1) (k := v.capWords - 1) (by rw [List.length_set]; unfold capWords; omega)
    refine ⟨d, by rw [sbind, h1]; rfl, by rw [h2, List.length_set], ?_⟩
    intro q hq
    by_cases h0 : q / 64 = 0
    · rw [h3 q (by omega), bitAt_set (by omega), if_pos h0]
    · rw [h4 q (by omega) (by unfold capWords; omega)]

theorem elems_replicate {v : IntVec} (hv : v.WF) {x : Nat} (hb : ∀ q, q < v.size → bitAt v.data q = x.testBit (q % v.width)) :
    v.elems = List.replicate (v.size / v.width) (x % 2 ^ v.width) := by
  apply List.ext_getElem?
  intro i
  rw [elems_get?]
  by_cases hi : i < v.size / v.width
  · rw [if_pos hi, List.getElem?_replicate, if_pos hi]
    congr 1
    rw [← bitsVal_testBit]
    apply bitsVal_congr
    intro j hj
    have := hv.end_le hi
    rw [hb _ (by omega), Nat.add_comm, Nat.add_mul_mod_self_right, Nat.mod_eq_of_lt hj]
  · rw [if_neg hi, List.getElem?_replicate, if_neg hi]

theorem shrUB_of_lt {ub : Option Word} {w : Word} {k : Nat} (h : k < 64) : shrUB ub w k = some (w >>> k) := by
  simp [shrUB, h]

/-- Bits written by one iteration of the pattern loop. -/
theorem patternLoop_eq {ub : Option Word} {width : Nat} {k : Word} (hw1 : 1 ≤ width) (hw : width ≤ 64)
    (hub : width < 64 ∨ ∃ x, ub = some x) (hk : ∀ i, width ≤ i → k.getLsbD i = false) :
    ∀ (f s : Nat) (vec : Mem) (n off : Nat), s + f = 64 → 1 ≤ f → off < 64 → 64 * n + off = s * width →
      (off = 0 → s = 0) → vec.length = 67 → (∀ q, q < s * width → bitAt vec q = k.getLsbD (q % width)) →
      (∀ q, s * width ≤ q → q / 64 = n → bitAt vec q = false) →
      ∃ vec' n' s', patternLoop ub width k f vec n off = some (vec', n') ∧ 1 ≤ n' ∧ 64 * n' = s' * width ∧
        n' < vec'.length ∧ ∀ q, q < 64 * n' → bitAt vec' q = k.getLsbD (q % width) := by
  intro f
  induction f with
  | zero => intro s vec n off h1 h2; omega
  | succ f ih =>
    intro s vec n off hs _ ho hpos _ hl hlo hhi
    have hsw : s * width ≤ s * 64 := Nat.mul_le_mul_left _ hw
    have hn : n < vec.length := by omega
    have hn1 : n + 1 < vec.length := by omega
    have hsucc : (s + 1) * width = s * width + width := by rw [Nat.add_mul, Nat.one_mul]
    -- the low part
    let v1 := vec.set n (vec[n] ||| (k <<< off))
    have hv1 : ∀ q, bitAt v1 q = if q / 64 = n then (bitAt vec q || (decide (off ≤ q % 64) && k.getLsbD (q % 64 - off))) else bitAt vec q := by
      intro q
      show bitAt (vec.set n _) q = _
      rw [bitAt_set hn]
      split
      · rename_i e
        rw [BitVec.getLsbD_or, BitVec.getLsbD_shiftLeft, bitAt_of_lt (by omega)]
        subst e
        by_cases h : off ≤ q % 64
        · have h2 : ¬ q % 64 < off := by omega
          simp [h, h2, Nat.mod_lt]
        · simp [h]
      · rfl
    have hmodw : ∀ q, s * width ≤ q → q < s * width + width → q % width = q - s * width := by
      intro q h1 h2
      have : q = (q - s * width) + s * width := by omega
      rw [this, Nat.add_mul_mod_self_right, Nat.mod_eq_of_lt (by omega)]; omega
    have hlow : ∀ q, q < s * width + width → q < 64 * n + 64 → bitAt v1 q = k.getLsbD (q % width) := by
      intro q hq hq2
      rw [hv1]
      by_cases h : q < s * width
      · split
        · rw [hlo q h]
          have : ¬ off ≤ q % 64 := by omega
          simp [this]
        · exact hlo q h
      · rw [if_pos (by omega), hhi q (by omega) (by omega), hmodw q (by omega) hq]
        have : off ≤ q % 64 := by omega
        have e : q % 64 - off = q - s * width := by omega
        simp [this, e]
    have hzero : ∀ q, s * width + width ≤ q → q / 64 = n → bitAt v1 q = false := by
      intro q hq hq2
      rw [hv1, if_pos hq2, hhi q (by omega) hq2]
      rw [hk _ (by omega)]; simp
    simp only [patternLoop]
    rw [ld_of_lt hn, sbind, shl_of_lt ho, sbind, st_of_lt hn, sbind]
    have hoff : (off + width) % 256 = off + width := by omega
    have hv1l : v1.length = 67 := by show (vec.set n _).length = 67; rw [List.length_set, hl]
    rw [hoff]
    show ∃ vec' n' s', (if off + width ≥ 64 then _ else _) = _ ∧ _
    by_cases hc : off + width ≥ 64
    · simp only [hc, if_true]
      have hx : ∃ x, shrUB ub k (width - (off + width - 64)) = some x ∧
          (off + width - 64 ≠ 0 → x = k >>> (width - (off + width - 64))) := by
        by_cases hlt : width - (off + width - 64) < 64
        · exact ⟨_, shrUB_of_lt hlt, fun _ => rfl⟩
        · rcases hub with hub | ⟨x, hub⟩
          · omega
          · refine ⟨x, by simp [shrUB, hlt, hub], fun h => by omega⟩
      obtain ⟨x, hx1, hx2⟩ := hx
      have e1 : st v1 (n + 1) 0#64 = some (v1.set (n + 1) 0#64) := st_of_lt (by omega)
      have e2 : st (v1.set (n + 1) 0#64) (n + 1) x = some (v1.set (n + 1) x) := by
        rw [st_of_lt (by rw [List.length_set]; omega), List.set_set]
      have e1' := e1
      show ∃ vec' n' s', (st v1 (n + 1) 0#64 >>= _) = _ ∧ _
      rw [e1, sbind, hx1, sbind, e2, sbind]
      have hb2 : ∀ q, bitAt (v1.set (n + 1) x) q = if q / 64 = n + 1 then x.getLsbD (q % 64) else bitAt v1 q :=
        fun q => bitAt_set (by omega) q
      by_cases hz : off + width - 64 = 0
      · simp only [hz, ne_eq, not_true, if_false]
        refine ⟨_, _, s + 1, rfl, by omega, by omega, by rw [List.length_set]; omega, ?_⟩
        intro q hq
        rw [hb2, if_neg (by omega)]
        exact hlow q (by omega) (by omega)
      · rw [if_pos hz]
        have hf1 : 1 ≤ f := by
          false_or_by_contra
          have : s + 1 = 64 := by omega
          rw [this] at hsucc
          omega
        obtain ⟨vec', n', s', g1, g2, g3, g4, g5⟩ := ih (s + 1) (v1.set (n + 1) x) (n + 1) (off + width - 64) (by omega)
          hf1 (by omega) (by omega) (by omega) (by rw [List.length_set]; omega) (by
              intro q hq
              rw [hb2]
              by_cases e : q / 64 = n + 1
              · rw [if_pos e, hx2 hz, BitVec.getLsbD_ushiftRight, hmodw q (by omega) (by omega)]
                congr 1; omega
              · rw [if_neg e]; exact hlow q (by omega) (by omega)) (by
              intro q hq e
              rw [hb2, if_pos e, hx2 hz, BitVec.getLsbD_ushiftRight]
              exact hk _ (by omega))
        exact ⟨vec', n', s', g1, g2, g3, g4, g5⟩
    · simp only [hc, if_false]
      rw [if_pos (by omega)]
      have hf1 : 1 ≤ f := by
        false_or_by_contra
        have : s + 1 = 64 := by omega
        rw [this] at hsucc
        omega
      obtain ⟨vec', n', s', g1, g2, g3, g4, g5⟩ := ih (s + 1) v1 n (off + width) (by omega) hf1 (by omega) (by omega) (by omega) hv1l
        (fun q hq => hlow q (by omega) (by omega)) (fun q hq e => hzero q (by omega) e)
      exact ⟨vec', n', s', g1, g2, g3, g4, g5⟩

theorem cycleInner_eq {vec : Mem} {n n64 : Nat} (hn : n ≤ vec.length) (m : Mem) (ii i : Nat) (hm : n64 ≤ m.length)
    (hii : ii ≤ n) (hi : i ≤ n64) :
    ∃ d, cycleInner vec n n64 m ii i = some (d, min (i + (n - ii)) n64) ∧ d.length = m.length ∧
      ∀ j, d[j]? = if i ≤ j ∧ j < min (i + (n - ii)) n64 then vec[ii + (j - i)]? else m[j]? := by
  rw [cycleInner]
  split <;> rename_i h
  · rw [ld_of_lt (show ii < vec.length by omega), sbind, st_of_lt (by omega), sbind]
    obtain ⟨d, h1, h2, h3⟩ := cycleInner_eq hn (m.set i vec[ii]) (ii + 1) (i + 1) (by rw [List.length_set]; omega) (by omega) (by omega)
    have e : min (i + 1 + (n - (ii + 1))) n64 = min (i + (n - ii)) n64 := by omega
    rw [e] at h1 h3
    refine ⟨d, h1, by rw [h2, List.length_set], ?_⟩
    intro j
    rw [h3]
    by_cases ej : j = i
    · subst ej
      rw [if_neg (by omega), if_pos (by omega), List.getElem?_set, if_pos rfl, if_pos (by omega), Nat.sub_self, Nat.add_zero,
        List.getElem?_eq_getElem]
    · rw [List.getElem?_set, if_neg (Ne.symm ej)]
      by_cases hj : i ≤ j ∧ j < min (i + (n - ii)) n64
      · rw [if_pos (by omega), if_pos hj]; congr 1; omega
      · rw [if_neg (by omega), if_neg hj]
  · have e : min (i + (n - ii)) n64 = i := by omega
    exact ⟨m, by rw [e], rfl, fun j => by rw [if_neg (by omega)]⟩
termination_by n64 - i

theorem cycleOuter_eq {vec : Mem} {n n64 : Nat} (hn : n ≤ vec.length) (hn1 : 1 ≤ n) : ∀ (f : Nat) (m : Mem) (i : Nat),
    n64 ≤ m.length → n64 - i < f → (i % n = 0 ∨ n64 ≤ i) →
    ∃ d, cycleOuter vec n n64 f m i = some d ∧ d.length = m.length ∧
      ∀ j, d[j]? = if i ≤ j ∧ j < n64 then vec[j % n]? else m[j]? := by
  intro f
  induction f with
  | zero => intro m i _ h; omega
  | succ f ih =>
    intro m i hm hf hi
    simp only [cycleOuter]
    by_cases h : i < n64
    · rw [if_pos h]
      have hi0 : i % n = 0 := by omega
      obtain ⟨d, h1, h2, h3⟩ := cycleInner_eq hn m 0 i hm (by omega) (by omega)
      simp only [Nat.sub_zero] at h1 h3
      rw [h1, sbind]
      obtain ⟨d2, g1, g2, g3⟩ := ih d (min (i + n) n64) (by omega) (by omega) (by
        by_cases hh : i + n ≤ n64
        · left; rw [Nat.min_eq_left hh, Nat.add_mod_right]; exact hi0
        · right; omega)
      refine ⟨d2, g1, by omega, ?_⟩
      intro j
      rw [g3, h3]
      by_cases a : min (i + n) n64 ≤ j ∧ j < n64
      · rw [if_pos a, if_pos (by omega)]
      · rw [if_neg a]
        by_cases b : i ≤ j ∧ j < n64
        · rw [if_pos (by omega), if_pos b]
          congr 1
          have e : j = (j - i) + i := by omega
          conv => rhs; rw [e]
          rw [Nat.add_mod, hi0, Nat.add_zero, Nat.mod_mod, Nat.mod_eq_of_lt (by omega)]; omega
        · rw [if_neg (by omega), if_neg b]
    · rw [if_neg h]
      exact ⟨m, rfl, rfl, fun j => by rw [if_neg (by omega)]⟩

theorem mod_mod_mul (q n w s : Nat) (h : 64 * n = s * w) : (64 * (q / 64 % n) + q % 64) % w = q % w := by
  have h1 : 64 * (q / 64 % n) + q % 64 = q % (64 * n) := by rw [Nat.mod_mul]; omega
  rw [h1, h, Nat.mod_mod_of_dvd _ (Nat.dvd_mul_left w s)]

theorem getLsbD_mask_width {k : Word} {w i : Nat} (hw : w ≤ 64) (hw1 : 1 ≤ w) :
    (k &&& (allSet >>> (64 - w))).getLsbD i = (decide (i < w) && k.getLsbD i) := by
  rw [BitVec.getLsbD_and, BitVec.getLsbD_ushiftRight, getLsbD_allSet, Bool.and_comm]
  congr 1
  rw [decide_eq_decide]; omega

theorem setToValue_eq (ub : Option Word) {v : IntVec} (hv : v.WF) (k : Word)
    (hub : v.width < 64 ∨ k = 0#64 ∨ k = allSet ∨ ∃ x, ub = some x) :
    ∃ d, setToValue ub v k = some { v with data := d } ∧ d.length = v.data.length ∧
      ∀ q, q < v.size → bitAt d q = k.getLsbD (q % v.width) := by
  have hw1 := hv.w1
  have hw64 := hv.w64
  unfold setToValue
  by_cases h0 : v.size = 0
  · rw [if_pos h0]; exact ⟨v.data, rfl, rfl, fun q hq => by omega⟩
  rw [if_neg h0]
  by_cases hk0 : k = 0#64
  · rw [if_pos hk0]
    obtain ⟨d, h1, h2, h3⟩ := setAll_eq 0#64 hv.fit
    exact ⟨d, h1, h2, fun q hq => by rw [h3 q hq, hk0]; simp⟩
  rw [if_neg hk0, loSet_eq hw64, sbind]
  by_cases hk1 : BitVec.ofNat 64 (2 ^ v.width - 1) = k
  · rw [if_pos hk1]
    obtain ⟨d, h1, h2, h3⟩ := setAll_eq allSet hv.fit
    refine ⟨d, h1, h2, fun q hq => ?_⟩
    rw [h3 q hq, ← hk1, getLsbD_ones, getLsbD_allSet]
    have : q % v.width < v.width := Nat.mod_lt _ (by omega)
    simp [Nat.mod_lt, this]; omega
  rw [if_neg hk1, shr_of_lt (by omega), sbind]
  have hallne : v.width = 64 → k ≠ allSet := by
    intro h e
    apply hk1
    rw [h, e]; decide
  obtain ⟨vec, n, s, p1, p2, p3, p4, p5⟩ := patternLoop_eq (ub := ub) (k := k &&& (allSet >>> (64 - v.width))) hw1 hw64
    (by
      rcases hub with h | h | h | h
      · exact Or.inl h
      · exact absurd h hk0
      · left; false_or_by_contra; exact hallne (by omega) h
      · exact Or.inr h)
    (fun i hi => by rw [getLsbD_mask_width hw64 hw1]; simp; omega)
    64 0 (List.replicate 67 0#64) 0 0 (by omega) (by omega) (by omega) (by omega) (by omega) (by simp)
    (fun q hq => by omega) (fun q _ hq => by
      unfold bitAt; rw [hq, List.getElem?_replicate, if_pos (by omega)]; simp)
  have p1' := p1
  show ∃ d, (patternLoop ub v.width (k &&& (allSet >>> (64 - v.width))) 64 (List.replicate 67 0#64) 0 0 >>= _) = _ ∧ _
  rw [p1, sbind]
  have hf := hv.fit
  obtain ⟨d, c1, c2, c3⟩ := cycleOuter_eq (vec := vec) (n := n) (n64 := v.capWords) (by omega) p2 (v.capWords + 1) v.data 0
    hf (by omega) (Or.inl (Nat.zero_mod _))
  simp only
  rw [c1, sbind]
  refine ⟨d, rfl, c2, ?_⟩
  intro q hq
  have hn := Nat.mod_lt (q / 64) (show n > 0 by omega)
  have e1 : bitAt d q = bitAt vec (64 * (q / 64 % n) + q % 64) := by
    have hd := c3 (q / 64)
    rw [if_pos (by unfold capWords; omega)] at hd
    have a1 : (64 * (q / 64 % n) + q % 64) / 64 = q / 64 % n := by omega
    have a2 : (64 * (q / 64 % n) + q % 64) % 64 = q % 64 := by omega
    unfold bitAt
    rw [hd, a1, a2]
  have hlt : q % v.width < v.width := Nat.mod_lt _ (by omega)
  rw [e1, p5 _ (by omega), mod_mod_mul q n v.width s p3, getLsbD_mask_width hw64 hw1]
  simp [hlt]

/-- Strict reading: for width 64 and a value other than 0 and all-ones the pattern loop shifts by 64. -/
theorem setToValue_ub {v : IntVec} (h0 : v.size ≠ 0) (hw : v.width = 64) {k : Word} (hk0 : k ≠ 0#64) (hk1 : k ≠ allSet) :
    setToValue none v k = none := by
  unfold setToValue
  rw [if_neg h0, if_neg hk0, hw, loSet_eq (by omega), sbind, if_neg]
  · rw [shr_of_lt (by omega), sbind]
    simp [patternLoop, ld, st, shl, shrUB]
  · intro h; apply hk1; rw [← h]; decide

theorem iotaLoop_eq {v : IntVec} (hv : v.WF) : ∀ (f i : Nat) (m : Mem) (it : It), i ≤ v.size / v.width →
    v.size / v.width - i < f → it.off < 64 → it.len = v.width → it.pos = (i * v.width : Nat) → v.size ≤ 64 * m.length →
    ∃ d, iotaLoop f m it v.itEnd (BitVec.ofNat 64 i) = some d ∧ d.length = m.length ∧
      (∀ j, i ≤ j → j < v.size / v.width → field d (j * v.width) v.width = j % 2 ^ v.width) ∧
      (∀ j, j < i → field d (j * v.width) v.width = field m (j * v.width) v.width) := by
  have ⟨e1, e2, e3⟩ := v.itAt_spec (v.numElems * v.width)
  intro f
  induction f with
  | zero => intro i m it _ h; omega
  | succ f ih =>
    intro i m it hi hf ho hl hp hm
    simp only [iotaLoop]
    have hp' := It.eq_spec ho e1
    rw [e3, hp] at hp'
    unfold itEnd
    rw [hp']
    have hw1 := hv.w1
    by_cases hin : i = v.size / v.width
    · rw [if_pos (by subst hin; simp [numElems])]
      exact ⟨m, rfl, rfl, fun j h1 h2 => by omega, fun j _ => rfl⟩
    · have hlt : i * v.width < v.size / v.width * v.width := Nat.mul_lt_mul_of_pos_right (by omega) (by omega)
      rw [if_neg (by
        intro h; have := Int.ofNat.inj (of_decide_eq_true h); unfold numElems at this; omega)]
      have hi1 : i < v.size / v.width := by omega
      have b1 := hv.end_le hi1
      obtain ⟨d, hd, hwr⟩ := It.store_spec (m := m) (x := BitVec.ofNat 64 i) ho (by rw [hl]; exact hv.w64)
        (by rw [hl]; exact hv.w1) hp (by rw [hl]; omega)
      rw [hl] at hwr
      obtain ⟨n1, n2, n3⟩ := It.next_spec (it := it) ho (by rw [hl]; exact hv.w64)
      have hlen := hwr.length
      obtain ⟨d2, g1, g2, g3, g4⟩ := ih (i + 1) d it.next (by omega) (by omega) n1 (n2.trans hl)
        (by rw [n3, hp, hl, Nat.add_mul]; omega) (by omega)
      refine ⟨d2, ?_, by omega, ?_, ?_⟩
      · rw [hd, sbind, ← BitVec.ofNat_add]
        exact g1
      · intro j h1 h2
        by_cases e : j = i
        · subst e; rw [g4 j (by omega), hwr.field_self, BitVec.toNat_ofNat, mod_pow64 hv.w64]
        · exact g3 j (by omega) h2
      · intro j hj
        rw [g4 j (by omega), hwr.field_other (disjoint_elems (by omega))]

theorem setToId_eq {v : IntVec} (hv : v.WF) : ∃ d, setToId v = some { v with data := d } ∧ d.length = v.data.length ∧
    ∀ i, i < v.size / v.width → elem { v with data := d } i = i % 2 ^ v.width := by
  obtain ⟨b1, b2, b3⟩ := v.itAt_spec 0
  obtain ⟨d, h1, h2, h3, -⟩ := iotaLoop_eq hv (v.size / v.width + 1) 0 v.data (v.itAt 0) (Nat.zero_le _) (Nat.lt_succ_self _) b1 b2
    (by rw [b3]; simp) hv.bits_le
  refine ⟨d, ?_, h2, fun i hi => h3 i (by omega) hi⟩
  unfold setToId itBegin numElems
  rw [h1]; rfl

theorem modLoop_eq {m : Word} (hm : m ≠ 0#64) (k : Nat) : ∀ (i : Nat) (v : IntVec), v.WF → i + k = v.size / v.width →
    ∃ u, modLoop m i k v = some u ∧ u.WF ∧ u.size = v.size ∧ u.width = v.width ∧
      ∀ j, u.elem j = if i ≤ j ∧ j < i + k then v.elem j % m.toNat else v.elem j := by
  induction k with
  | zero => intro i v hv _; exact ⟨v, rfl, hv, rfl, rfl, fun j => by rw [if_neg (by omega)]⟩
  | succ k ih =>
    intro i v hv hi
    have hi1 : i < v.size / v.width := by omega
    simp only [modLoop, hm, if_false]
    obtain ⟨d, hd, hwr⟩ := set_eq hv hi1 (BitVec.ofNat 64 (v.elem i) % m)
    obtain ⟨u, g1, g2, g3, g4, g5⟩ := ih (i + 1) { v with data := d } (hv.written hwr) (by show i + 1 + k = v.size / v.width; omega)
    refine ⟨u, ?_, g2, g3, g4, ?_⟩
    · rw [get_eq hv hi1, sbind, hd, sbind]; exact g1
    · intro j
      rw [g5, elem_written hwr]
      by_cases e : j = i
      · subst e
        rw [if_neg (by omega), if_pos rfl, if_pos (by omega), BitVec.toNat_umod, toNat_ofNat_elem hv]
        exact Nat.mod_eq_of_lt (Nat.lt_of_le_of_lt (Nat.mod_le _ _) (v.elem_lt j))
      · rw [if_neg e]
        by_cases h : i ≤ j ∧ j < i + (k + 1)
        · rw [if_pos (by omega), if_pos h]
        · rw [if_neg (by omega), if_neg h]

end Util
end Sdsl
