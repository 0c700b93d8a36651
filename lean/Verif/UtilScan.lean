/-
  Lemmas about the bit counts and bit scans of include/sdsl/util.hpp.
-/
import Verif.UtilLemmas
import Verif.Props.Words

namespace Sdsl

open Spec Bits IntVec

namespace Util

/-! ### counts -/

theorem loUnset_tab : ∀ k : Fin 65, loUnsetTab[k.val]? = some (~~~(BitVec.ofNat 64 (2 ^ k.val - 1))) := by
  decide +kernel

theorem loUnset_eq {k : Nat} (h : k ≤ 64) : loUnset k = some (~~~(BitVec.ofNat 64 (2 ^ k - 1))) :=
  loUnset_tab ⟨k, by omega⟩

theorem getLsbD_unset {k i : Nat} (hi : i < 64) : (~~~(BitVec.ofNat 64 (2 ^ k - 1))).getLsbD i = decide (k ≤ i) := by
  rw [BitVec.getLsbD_not, getLsbD_ones]
  by_cases h : i < k
  · simp [h, hi]
  · simp [h, hi]; omega

theorem countTrue_word {g : Nat → Bool} {w : Word} {i : Nat} (h : ∀ j, j < 64 → w.getLsbD j = g (64 * i + j)) :
    countTrue g (64 * (i + 1)) = countTrue g (64 * i) + (cnt w).toNat := by
  rw [Props.C01_cnt, show 64 * (i + 1) = 64 * i + 64 by omega, countTrue_add]
  congr 1
  exact (countTrue_congr (f := fun j => w.getLsbD j) h).symm

theorem countTrue_tail (h : Nat → Bool) (s n : Nat) (hs : s ≤ n) :
    countTrue (fun i => decide (s ≤ i) && h i) n + countTrue h s = countTrue h n := by
  obtain ⟨d, rfl⟩ : ∃ d, n = s + d := ⟨n - s, by omega⟩
  rw [countTrue_add h, countTrue_add (fun i => decide (s ≤ i) && h i)]
  have e1 : countTrue (fun i => decide (s ≤ i) && h i) s = 0 := by
    rw [countTrue_congr (g := fun _ => false), countTrue_false]
    intro i hi
    simp; omega
  have e2 : countTrue (fun i => decide (s ≤ s + i) && h (s + i)) d = countTrue (fun i => h (s + i)) d :=
    countTrue_congr fun i _ => by simp
  rw [e1, e2]; omega

/-- Removing the count of the bits beyond `size` in the last word. -/
theorem count_cut {g : Nat → Bool} {x : Word} {size : Nat} (hs : size % 64 ≠ 0)
    (hx : ∀ i, i < 64 → x.getLsbD i = (decide (size % 64 ≤ i) && g (64 * ((size + 63) / 64 - 1) + i))) :
    countTrue g (64 * ((size + 63) / 64)) - (cnt x).toNat = countTrue g size := by
  rw [Props.C01_cnt]
  have e : popcount x = countTrue (fun i => decide (size % 64 ≤ i) && g (64 * ((size + 63) / 64 - 1) + i)) 64 :=
    countTrue_congr hx
  have t := countTrue_tail (fun i => g (64 * ((size + 63) / 64 - 1) + i)) (size % 64) 64 (by omega)
  rw [e]
  have a := countTrue_add g (64 * ((size + 63) / 64 - 1)) 64
  have b := countTrue_add g (64 * ((size + 63) / 64 - 1)) (size % 64)
  rw [show 64 * ((size + 63) / 64 - 1) + 64 = 64 * ((size + 63) / 64) by omega] at a
  rw [show 64 * ((size + 63) / 64 - 1) + size % 64 = size by omega] at b
  omega

theorem cntLoop_eq {m : Mem} (k : Nat) : ∀ i, i + k ≤ m.length →
    cntLoop m i k (countTrue (bitAt m) (64 * i)) = some (countTrue (bitAt m) (64 * (i + k))) := by
  induction k with
  | zero => intro i _; rfl
  | succ k ih =>
    intro i h
    simp only [cntLoop]
    rw [ld_of_lt (show i < m.length by omega), sbind,
      ← countTrue_word (g := bitAt m) (fun j hj => (bitAt_mul_add hj (by omega)).symm), ih (i + 1) (by omega)]
    rw [show i + 1 + k = i + (k + 1) by omega]

theorem cntOneBits_eq {v : IntVec} (hf : (v.size + 63) / 64 ≤ v.data.length) :
    cntOneBits v = some (countTrue (bitAt v.data) v.size) := by
  unfold cntOneBits
  by_cases h : v.size = 0
  · rw [if_pos h, h]; rfl
  rw [if_neg h, ld_of_lt (show 0 < v.data.length by omega), sbind]
  have e0 := countTrue_word (g := bitAt v.data) (w := v.data[0]'(by omega)) (i := 0)
    (fun j hj => (bitAt_mul_add hj (by omega)).symm)
  have e0' : (cnt (v.data[0]'(by omega))).toNat = countTrue (bitAt v.data) (64 * 1) := by
    rw [e0]; simp [countTrue]
  rw [e0', cntLoop_eq (v.capWords - 1) 1 (by unfold capWords; omega), sbind]
  have hc : 1 + (v.capWords - 1) = (v.size + 63) / 64 := by unfold capWords; omega
  rw [hc]
  by_cases h1 : v.size % 64 ≠ 0
  · have hl : v.capWords - 1 < v.data.length := by unfold capWords; omega
    rw [if_pos h1, ld_of_lt hl, sbind, loSet_eq (by omega), sbind, count_cut (g := bitAt v.data) h1]
    · rfl
    · intro i hi
      rw [BitVec.getLsbD_and, getLsbD_unset hi, Bool.and_comm]
      congr 1
      exact (bitAt_mul_add hi hl).symm
  · rw [if_neg h1]
    have : 64 * ((v.size + 63) / 64) = v.size := by omega
    rw [this]; rfl

/-- The bit before position `q`, `c` before position 0. -/
def before (m : Mem) (c : Bool) (q : Nat) : Bool := if q = 0 then c else bitAt m (q - 1)

theorem prevBit_before {m : Mem} {c : Bool} {i j : Nat} (hi : i < m.length) (hj : j < 64) :
    Props.prevBit m[i] (before m c (64 * i)) j = before m c (64 * i + j) := by
  unfold Props.prevBit before
  by_cases h : j = 0
  · subst h; simp
  · rw [if_neg h, if_neg (by omega), show 64 * i + j - 1 = 64 * i + (j - 1) by omega, bitAt_mul_add (by omega) hi]

theorem top_before {m : Mem} {c : Bool} {i : Nat} (hi : i < m.length) :
    (if m[i].getLsbD 63 then 1#64 else 0#64) = BitVec.ofNat 64 (before m c (64 * (i + 1))).toNat := by
  have e : before m c (64 * (i + 1)) = m[i].getLsbD 63 := by
    unfold before
    rw [if_neg (show ¬ 64 * (i + 1) = 0 by omega), show 64 * (i + 1) - 1 = 64 * i + 63 by omega, bitAt_mul_add (by omega) hi]
  rw [e]
  cases m[i].getLsbD 63 <;> rfl

/-- What the word functions `cnt10`, `cnt01` have in common. -/
structure PairFn (f : Word → Word → Word × Word) (sel : Bool → Bool → Bool) (mp : Word → Word → Word) : Prop where
  map : ∀ x (c : Bool) i, i < 64 → (mp x (BitVec.ofNat 64 c.toNat)).getLsbD i = sel (Props.prevBit x c i) (x.getLsbD i)
  fst : ∀ x c, (f x c).1 = cnt (mp x c)
  snd : ∀ x c, (f x c).2 = if x.getLsbD 63 then 1#64 else 0#64

theorem pair10 : PairFn cnt10 (fun a b => a && !b) map10 :=
  ⟨fun x c i hi => Props.C10_map10 x c i hi, fun _ _ => rfl, fun x _ => shr63 x⟩

theorem pair01 : PairFn cnt01 (fun a b => !a && b) map01 :=
  ⟨fun x c i hi => Props.C10_map01 x c i hi, fun _ _ => rfl, fun x _ => shr63 x⟩

theorem PairFn.word {f sel mp} (h : PairFn f sel mp) {m : Mem} (c : Bool) {i : Nat} (hi : i < m.length) {j : Nat} (hj : j < 64) :
    (mp m[i] (BitVec.ofNat 64 (before m c (64 * i)).toNat)).getLsbD j =
      sel (before m c (64 * i + j)) (bitAt m (64 * i + j)) := by
  rw [h.map _ _ _ hj, prevBit_before hi hj, bitAt_mul_add hj hi]

theorem cntPairLoop_eq {f sel mp} (hp : PairFn f sel mp) {m : Mem} (c : Bool) (k : Nat) : ∀ i, 1 ≤ i → i + k ≤ m.length →
    cntPairLoop f m i k (countTrue (fun q => sel (before m c q) (bitAt m q)) (64 * i))
      (BitVec.ofNat 64 (before m c (64 * i)).toNat) (BitVec.ofNat 64 (before m c (64 * (i - 1))).toNat) =
    some (countTrue (fun q => sel (before m c q) (bitAt m q)) (64 * (i + k)),
      BitVec.ofNat 64 (before m c (64 * (i + k - 1))).toNat) := by
  induction k with
  | zero => intro i _ _; rfl
  | succ k ih =>
    intro i h1 h
    have hi : i < m.length := by omega
    have e := ih (i + 1) (by omega) (by omega)
    rw [countTrue_word (fun j hj => hp.word c hi hj), ← hp.fst, ← top_before hi, ← hp.snd _ (BitVec.ofNat 64 (before m c (64 * i)).toNat)] at e
    simp only [cntPairLoop]
    rw [ld_of_lt hi, sbind]
    simp only [Nat.add_sub_cancel] at e
    rw [e, show i + 1 + k = i + (k + 1) by omega]

theorem cntPair_eq {f sel mp} (hp : PairFn f sel mp) {v : IntVec} (hf : (v.size + 63) / 64 ≤ v.data.length) (h : v.size ≠ 0) (c : Bool) :
    (do let t := f (← ld v.data 0) (BitVec.ofNat 64 c.toNat)
        let r ← cntPairLoop f v.data 1 (v.capWords - 1) t.1.toNat t.2 (BitVec.ofNat 64 c.toNat)
        if v.size % 64 ≠ 0 then
          pure (r.1 - (cnt (mp (← ld v.data (v.capWords - 1)) r.2 &&& (← loUnset (v.size % 64)))).toNat)
        else pure r.1 : Option Nat) =
    some (countTrue (fun q => sel (before v.data c q) (bitAt v.data q)) v.size) := by
  have h0 : 0 < v.data.length := by omega
  rw [ld_of_lt h0, sbind]
  have e0 := countTrue_word (g := fun q => sel (before v.data c q) (bitAt v.data q)) (i := 0) (fun j hj => hp.word c h0 hj)
  have eb : before v.data c (64 * 0) = c := rfl
  rw [eb, ← hp.fst] at e0
  have e0' : (f (v.data[0]) (BitVec.ofNat 64 c.toNat)).1.toNat =
      countTrue (fun q => sel (before v.data c q) (bitAt v.data q)) (64 * 1) := by
    rw [e0]; simp [countTrue]
  have e1 : (f (v.data[0]) (BitVec.ofNat 64 c.toNat)).2 = BitVec.ofNat 64 (before v.data c (64 * 1)).toNat := by
    rw [hp.snd, top_before (c := c) h0]
  have := cntPairLoop_eq hp c (v.capWords - 1) 1 (by omega) (show _ ≤ v.data.length by unfold capWords; omega)
  simp only [e0', e1]
  rw [show 64 * (1 - 1) = 64 * 0 from rfl, eb] at this
  rw [this, sbind]
  have hc : 1 + (v.capWords - 1) = (v.size + 63) / 64 := by unfold capWords; omega
  rw [hc]
  simp only
  by_cases h1 : v.size % 64 ≠ 0
  · have hl : v.capWords - 1 < v.data.length := by unfold capWords; omega
    rw [if_pos h1, ld_of_lt hl, sbind, loUnset_eq (by omega), sbind,
      count_cut (g := fun q => sel (before v.data c q) (bitAt v.data q)) h1]
    · rfl
    · intro i hi
      rw [BitVec.getLsbD_and, getLsbD_unset hi, Bool.and_comm]
      congr 1
      exact hp.word c hl hi
  · rw [if_neg h1]
    have : 64 * ((v.size + 63) / 64) = v.size := by omega
    rw [this]; rfl

theorem cntOneZeroBits_eq {v : IntVec} (hf : (v.size + 63) / 64 ≤ v.data.length) :
    cntOneZeroBits v = some (countTrue (fun q => before v.data false q && !bitAt v.data q) v.size) := by
  unfold cntOneZeroBits
  by_cases h : v.size = 0
  · rw [if_pos h, h]; rfl
  · rw [if_neg h]; exact cntPair_eq pair10 hf h false

theorem cntZeroOneBits_eq {v : IntVec} (hf : (v.size + 63) / 64 ≤ v.data.length) :
    cntZeroOneBits v = some (countTrue (fun q => !before v.data true q && bitAt v.data q) v.size) := by
  unfold cntZeroOneBits
  by_cases h : v.size = 0
  · rw [if_pos h, h]; rfl
  · rw [if_neg h]; exact cntPair_eq pair01 hf h true

/-! ### scans -/

theorem mul64_or {p b : Nat} (hb : b < 64) : p * 64 ||| b = 64 * p + b := by
  have := Nat.two_pow_add_eq_or_of_lt (i := 6) hb p
  rw [show (2 : Nat) ^ 6 = 64 from rfl] at this
  rw [Nat.mul_comm p 64]; exact this.symm

theorem nextBitLoop_eq {v : IntVec} (hf : (v.size + 63) / 64 ≤ v.data.length) (pos : Nat) :
    ∃ r, nextBitLoop v pos = some r ∧ ((IsNext v.data (64 * pos) r ∧ r / 64 < (v.size + 63) / 64) ∨
      (r = v.size ∧ ∀ j, 64 * pos ≤ j → j / 64 < (v.size + 63) / 64 → bitAt v.data j = false)) := by
  rw [nextBitLoop]
  by_cases h : pos * 64 < v.size
  · have hl : pos < v.data.length := by omega
    rw [if_pos h, ld_of_lt hl, sbind]
    by_cases hz : v.data[pos] = 0#64
    · rw [if_neg (by simpa using hz)]
      obtain ⟨r, h1, h2⟩ := nextBitLoop_eq hf (pos + 1)
      have hzb : ∀ j, 64 * pos ≤ j → j < 64 * (pos + 1) → bitAt v.data j = false := by
        intro j a b
        have : j / 64 = pos := by omega
        rw [bitAt_of_lt (by omega)]
        subst this
        rw [hz]; simp
      refine ⟨r, h1, ?_⟩
      rcases h2 with ⟨⟨a, b, c⟩, d⟩ | ⟨a, b⟩
      · left
        refine ⟨⟨by omega, b, ?_⟩, d⟩
        intro j h3 h4
        by_cases h5 : j < 64 * (pos + 1)
        · exact hzb j h3 h5
        · exact c j (by omega) h4
      · right
        refine ⟨a, ?_⟩
        intro j h3 h4
        by_cases h5 : j < 64 * (pos + 1)
        · exact hzb j h3 h5
        · exact b j (by omega) h4
    · rw [if_pos hz]
      obtain ⟨b, hb1, hb2⟩ := lo_isLo hz
      rw [hb1, sbind, mul64_or hb2.1]
      refine ⟨_, rfl, Or.inl ⟨⟨by omega, ?_, ?_⟩, by have := hb2.1; omega⟩⟩
      · rw [bitAt_mul_add hb2.1 hl]; exact hb2.2.1
      · intro j h3 h4
        have := hb2.1
        rw [show j = 64 * pos + (j - 64 * pos) by omega, bitAt_mul_add (by omega) hl]
        exact hb2.2.2 _ (by omega)
  · rw [if_neg h]
    exact ⟨_, rfl, Or.inr ⟨rfl, fun j h1 h2 => by omega⟩⟩
termination_by v.size - pos * 64

theorem nextBit_eq {v : IntVec} (hf : (v.size + 63) / 64 ≤ v.data.length) {idx : Nat} (hi : idx < v.size) :
    ∃ r, nextBit v idx = some r ∧ ((IsNext v.data idx r ∧ r / 64 < (v.size + 63) / 64) ∨
      (r = v.size ∧ ∀ j, idx ≤ j → j / 64 < (v.size + 63) / 64 → bitAt v.data j = false)) := by
  have hl : idx / 64 < v.data.length := by omega
  unfold nextBit
  rw [ld_of_lt hl, sbind, shr_of_lt (Nat.mod_lt _ (by omega)), sbind]
  have hb : ∀ j, idx % 64 + j < 64 → (v.data[idx / 64] >>> (idx % 64)).getLsbD j = bitAt v.data (idx + j) := by
    intro j hj
    rw [BitVec.getLsbD_ushiftRight, ← bitAt_mul_add hj hl]; congr 1; omega
  by_cases hz : v.data[idx / 64] >>> (idx % 64) = 0#64
  · rw [if_neg (by simpa using hz)]
    obtain ⟨r, h1, h2⟩ := nextBitLoop_eq hf (idx / 64 + 1)
    have hzb : ∀ j, idx ≤ j → j < 64 * (idx / 64 + 1) → bitAt v.data j = false := by
      intro j a b
      have := hb (j - idx) (by omega)
      rw [hz, show idx + (j - idx) = j by omega] at this
      rw [← this]; simp
    refine ⟨r, h1, ?_⟩
    rcases h2 with ⟨⟨a, b, c⟩, d⟩ | ⟨a, b⟩
    · left
      refine ⟨⟨by omega, b, ?_⟩, d⟩
      intro j h3 h4
      by_cases h5 : j < 64 * (idx / 64 + 1)
      · exact hzb j h3 h5
      · exact c j (by omega) h4
    · right
      refine ⟨a, ?_⟩
      intro j h3 h4
      by_cases h5 : j < 64 * (idx / 64 + 1)
      · exact hzb j h3 h5
      · exact b j (by omega) h4
  · rw [if_pos hz]
    obtain ⟨b, hb1, hb2⟩ := lo_isLo hz
    rw [hb1, sbind]
    have hlt : idx % 64 + b < 64 := by
      false_or_by_contra
      have := hb2.2.1
      rw [BitVec.getLsbD_ushiftRight, BitVec.getLsbD_of_ge _ _ (by omega)] at this
      contradiction
    refine ⟨_, rfl, Or.inl ⟨⟨by omega, ?_, ?_⟩, by omega⟩⟩
    · rw [← hb b hlt]; exact hb2.2.1
    · intro j h3 h4
      rw [show j = idx + (j - idx) by omega, ← hb _ (by omega)]
      exact hb2.2.2 _ (by omega)

theorem prevBitLoop_eq {v : IntVec} (hf : (v.size + 63) / 64 ≤ v.data.length) (p : Nat) (hp : p * 64 < v.size + 64) :
    ∃ r, prevBitLoop v p = some r ∧ ((r < 64 * p ∧ bitAt v.data r = true ∧ ∀ j, r < j → j < 64 * p → bitAt v.data j = false) ∨
      (r = v.size ∧ ∀ j, j < 64 * p → bitAt v.data j = false)) := by
  induction p with
  | zero => exact ⟨_, rfl, Or.inr ⟨rfl, fun j h => by omega⟩⟩
  | succ p ih =>
    have hl : p < v.data.length := by omega
    simp only [prevBitLoop]
    rw [if_pos (by omega), ld_of_lt hl, sbind]
    by_cases hz : v.data[p] = 0#64
    · rw [if_neg (by simpa using hz)]
      obtain ⟨r, h1, h2⟩ := ih (by omega)
      have hzb : ∀ j, 64 * p ≤ j → j < 64 * (p + 1) → bitAt v.data j = false := by
        intro j a b
        have : j / 64 = p := by omega
        rw [bitAt_of_lt (by omega)]
        subst this
        rw [hz]; simp
      refine ⟨r, h1, ?_⟩
      rcases h2 with ⟨a, b, c⟩ | ⟨a, b⟩
      · left
        refine ⟨by omega, b, fun j h3 h4 => ?_⟩
        by_cases h5 : j < 64 * p
        · exact c j h3 h5
        · exact hzb j (by omega) h4
      · right
        refine ⟨a, fun j h4 => ?_⟩
        by_cases h5 : j < 64 * p
        · exact b j h5
        · exact hzb j (by omega) h4
    · rw [if_pos hz, hi_eq, sbind]
      have hh := log2_isHi hz
      rw [mul64_or hh.1]
      have := hh.1
      refine ⟨_, rfl, Or.inl ⟨by omega, ?_, ?_⟩⟩
      · rw [bitAt_mul_add hh.1 hl]; exact hh.2.1
      · intro j h3 h4
        rw [show j = 64 * p + (j - 64 * p) by omega, bitAt_mul_add (by omega) hl]
        exact hh.2.2 _ (by omega)

theorem prevBit_eq {v : IntVec} (hf : (v.size + 63) / 64 ≤ v.data.length) {idx : Nat} (hi : idx < v.size) :
    ∃ r, prevBit v idx = some r ∧ (IsPrev v.data idx r ∨ (r = v.size ∧ ∀ j, j ≤ idx → bitAt v.data j = false)) := by
  have hl : idx / 64 < v.data.length := by omega
  unfold prevBit
  rw [ld_of_lt hl, sbind, shl_of_lt (show 63 - idx % 64 < 64 by omega), sbind]
  have hb : ∀ j, j < 64 → (v.data[idx / 64] <<< (63 - idx % 64)).getLsbD j =
      (decide (63 - idx % 64 ≤ j) && bitAt v.data (64 * (idx / 64) + (j - (63 - idx % 64)))) := by
    intro j hj
    rw [BitVec.getLsbD_shiftLeft, bitAt_mul_add (by omega) hl]
    by_cases h : 63 - idx % 64 ≤ j
    · simp [h, hj, Nat.not_lt.mpr h]
    · simp [h, Nat.lt_of_not_le h]
  by_cases hz : v.data[idx / 64] <<< (63 - idx % 64) = 0#64
  · rw [if_neg (by simpa using hz)]
    obtain ⟨r, h1, h2⟩ := prevBitLoop_eq hf (idx / 64) (by omega)
    have hzb : ∀ j, 64 * (idx / 64) ≤ j → j ≤ idx → bitAt v.data j = false := by
      intro j a b
      have := hb (j - 64 * (idx / 64) + (63 - idx % 64)) (by omega)
      rw [hz] at this
      have e : 64 * (idx / 64) + (j - 64 * (idx / 64) + (63 - idx % 64) - (63 - idx % 64)) = j := by omega
      rw [e] at this
      simp at this
      exact this
    refine ⟨r, h1, ?_⟩
    rcases h2 with ⟨a, b, c⟩ | ⟨a, b⟩
    · left
      refine ⟨by omega, b, fun j h3 h4 => ?_⟩
      by_cases h5 : j < 64 * (idx / 64)
      · exact c j h3 h5
      · exact hzb j (by omega) h4
    · right
      refine ⟨a, fun j h4 => ?_⟩
      by_cases h5 : j < 64 * (idx / 64)
      · exact b j h5
      · exact hzb j (by omega) h4
  · rw [if_pos hz, hi_eq, sbind]
    have hh := log2_isHi hz
    generalize (v.data[idx / 64] <<< (63 - idx % 64)).toNat.log2 = b at hh
    have h1 := hh.1
    have h2 := hh.2.1
    rw [hb b h1, Bool.and_eq_true, decide_eq_true_eq] at h2
    refine ⟨_, rfl, Or.inl ⟨by omega, ?_, ?_⟩⟩
    · rw [← h2.2]; congr 1; omega
    · intro j h3 h4
      have := hh.2.2 (j - 64 * (idx / 64) + (63 - idx % 64)) (by omega)
      rw [hb _ (by omega)] at this
      have e : 64 * (idx / 64) + (j - 64 * (idx / 64) + (63 - idx % 64) - (63 - idx % 64)) = j := by omega
      rw [e] at this
      simp at this
      exact this

end Util
end Sdsl
