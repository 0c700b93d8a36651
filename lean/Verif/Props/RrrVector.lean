/-
  Properties of the H0-compressed bit vector `rrr_vector` (C24): the generic template and the specialisation for blocks of 15 bits.
-/
import Verif.RrrBuild
import Verif.Rrr15Build

namespace Sdsl.Props

open Sdsl Sdsl.Spec

/-- The rrr_vector `v` (block size `n`, `tk` blocks per sample) answers every query like the bit sequence `f 0, ..., f (m-1)`:
    size, `operator[]`, `get_int`, `rank_support_rrr<0/1>`, `select_support_rrr<0/1>`. In particular no query is undefined. -/
def RrrAnswers (n tk : Nat) (v : Rrr.Vec) (m : Nat) (f : Nat → Bool) : Prop :=
  v.size = m ∧
  (∀ i, i < m → Rrr.access n tk v i = some (f i)) ∧
  (∀ idx len, 1 ≤ len → len ≤ 64 → idx + len ≤ m → Rrr.getInt n tk v idx len = some (bitsVal (fun k => f (idx + k)) len)) ∧
  (∀ tb i, i ≤ m → Rrr.rankQ n tk v tb i = some (countTrue (fun q => f q == tb) i)) ∧
  (∀ tb i, 1 ≤ i → i ≤ countTrue (fun q => f q == tb) m →
    ∃ p, Rrr.selectQ n tk v tb i = some p ∧ IsSelect (fun q => f q == tb) m i p) ∧
  (∀ tb i, countTrue (fun q => f q == tb) m < i → Rrr.selectQ n tk v tb i = some m)

/-- C24: for every block size from 1 to 256, every sampling rate and every bit sequence the construction succeeds and all queries
    answer like the bit sequence. -/
theorem C24_rrr_generic (n tk : Nat) (hn : 1 ≤ n) (h256 : n ≤ 256) (htk : 1 ≤ tk) (B : List Bool) (hB : B.length + n < 2 ^ 64) :
    ∃ v, Rrr.build n tk B = some v ∧ RrrAnswers n tk v B.length (fun i => B.getD i false) := by
  obtain ⟨v, e, g⟩ := Rrr.build_good h256 hn htk hB
  refine ⟨v, e, g.size, fun i hi => Rrr.access_eq g h256 hn htk hi, fun idx len h1 h2 h3 => Rrr.getInt_eq g h256 hn htk h1 h2 h3,
    fun tb i hi => Rrr.rankQ_eq g h256 hn htk tb hi, fun tb i h1 h2 => ?_, fun tb i h => Rrr.selectQ_none g hn htk tb h⟩
  cases tb
  · exact Rrr.select0_eq g h256 hn htk h1 h2
  · exact Rrr.select1_eq g h256 hn htk h1 h2

/-- A sample run: 150 bits, blocks of 63 bits, two blocks per sample; the second block is inverted in the type array. -/
example : (Rrr.build 63 2 ((List.range 150).map (fun i => i % 7 != 0 || i < 30))).bind (fun v => do
      let a ← Rrr.access 63 2 v 35
      let g ← Rrr.getInt 63 2 v 20 64
      let r ← Rrr.rankQ 63 2 v true 140
      let s0 ← Rrr.selectQ 63 2 v false 3
      let s1 ← Rrr.selectQ 63 2 v true 100
      let s2 ← Rrr.selectQ 63 2 v true 133
      let s3 ← Rrr.selectQ 63 2 v true 134
      pure (a, [g, r, s0, s1, s2, s3])) = some (false, [18301494120373256191, 125, 49, 110, 149, 150]) := by decide +kernel

/-- The same with blocks of 200 bits. -/
example : (Rrr.build 200 3 ((List.range 250).map (fun i => i % 3 == 0))).bind (fun v => do
      let r ← Rrr.rankQ 200 3 v true 200
      let s0 ← Rrr.selectQ 200 3 v false 150
      pure (r, s0)) = some (67, 224) := by decide +kernel

/-- The rrr_vector<15> `v` (lookup tables `T`, `tk` blocks per sample) answers every query like the bit sequence
    `f 0, ..., f (m-1)`. -/
def Rrr15Answers (T : Rrr15.Tab) (tk : Nat) (v : Rrr15.Vec) (m : Nat) (f : Nat → Bool) : Prop :=
  v.size = m ∧
  (∀ i, i < m → Rrr15.access T tk v i = some (f i)) ∧
  (∀ idx len, 1 ≤ len → len ≤ 64 → idx + len ≤ m → Rrr15.getInt T tk v idx len = some (bitsVal (fun k => f (idx + k)) len)) ∧
  (∀ tb i, i ≤ m → Rrr15.rankQ T tk v tb i = some (countTrue (fun q => f q == tb) i)) ∧
  (∀ tb i, 1 ≤ i → i ≤ countTrue (fun q => f q == tb) m →
    ∃ p, Rrr15.selectQ T tk v tb i = some p ∧ IsSelect (fun q => f q == tb) m i p) ∧
  (∀ tb i, countTrue (fun q => f q == tb) m < i → Rrr15.selectQ T tk v tb i = some m)

/-- C24, block size 15: the static lookup tables are built without an undefined access, and with them the construction succeeds for
    every sampling rate and every bit sequence and all queries answer like the bit sequence. -/
theorem C24_rrr15 : ∃ T, Rrr15.impl = some T ∧ ∀ (tk : Nat), 1 ≤ tk → ∀ (B : List Bool), B.length + 15 < 2 ^ 64 →
    ∃ v, Rrr15.build T tk B = some v ∧ Rrr15Answers T tk v B.length (fun i => B.getD i false) := by
  obtain ⟨T, e, hT⟩ := Rrr15.impl_ok
  refine ⟨T, e, fun tk htk B hB => ?_⟩
  obtain ⟨v, e, g⟩ := Rrr15.build_good hT htk hB
  refine ⟨v, e, g.size, fun i hi => Rrr15.access_eq hT g hi, fun idx len h1 h2 h3 => Rrr15.getInt_eq hT g h1 h2 h3,
    fun tb i hi => Rrr15.rankQ_eq hT g htk tb hi, fun tb i h1 h2 => ?_, fun tb i h => Rrr15.selectQ_none g htk tb h⟩
  cases tb
  · exact Rrr15.select0_eq hT g htk h1 h2
  · exact Rrr15.select1_eq hT g htk h1 h2

/-- The code of a block within its class of 15-bit blocks is its place in the lexicographic order (last bit most significant): decoding
    inverts encoding, both through the tables, and a code needs no more than `space_for_bt` bits. -/
theorem C24_rrr15_codec : ∃ T, Rrr15.impl = some T ∧ ∀ x, x < 2 ^ 15 →
    ∃ nr s, T.toNr x = some nr ∧ T.toBin (countTrue (fun i => x.testBit i) 15) nr = some x ∧
      T.sp (countTrue (fun i => x.testBit i) 15) = some s ∧ nr < 2 ^ s := by
  obtain ⟨T, e, hT⟩ := Rrr15.impl_ok
  refine ⟨T, e, fun x hx => ?_⟩
  have hl : (Rrr.bitsOf x 15).length = 15 := Rrr.length_bitsOf _ _
  have hb : ∀ q, q < 15 → Bv.bit (Rrr.bitsOf x 15) q = x.testBit q := by
    intro q hq
    rw [Rrr.bit_bitsOf]; simp [hq]
  have hv : Rrr15.val (Rrr.bitsOf x 15) = x := by
    apply Nat.eq_of_testBit_eq
    intro q
    rw [Rrr15.testBit_val]
    by_cases hq : q < 15
    · rw [hb q hq]; simp [hq]
    · rw [Nat.testBit_lt_two_pow (Nat.lt_of_lt_of_le hx (Nat.pow_le_pow_right (by omega) (by omega)))]; simp [hq]
  have hw : Rrr.wt (Rrr.bitsOf x 15) = countTrue (fun i => x.testBit i) 15 := by
    rw [← Rrr15.pop_val hl, hv]
    unfold popcount
    have e := countTrue_add (fun i => (BitVec.ofNat 64 x).getLsbD i) 15 49
    rw [show (15 : Nat) + 49 = 64 from rfl] at e
    rw [e, countTrue_congr (g := fun i => x.testBit i) (fun i hi => by
      rw [BitVec.getLsbD_ofNat]; simp [show i < 64 by omega]),
      countTrue_congr (f := fun i => (BitVec.ofNat 64 x).getLsbD (15 + i)) (g := fun _ => false) (fun i hi => by
        rw [BitVec.getLsbD_ofNat, Nat.testBit_lt_two_pow (Nat.lt_of_lt_of_le hx (Nat.pow_le_pow_right (by omega) (by omega)))]
        simp), countTrue_false, Nat.add_zero]
  have h1 := hT.toNr _ hl
  have h2 := hT.toBin _ hl
  rw [hv] at h1 h2
  rw [hw] at h2
  have h3 := Rrr15.en_lt hl
  rw [hw] at h3
  exact ⟨_, _, h1, h2, hT.sp _ (by have := countTrue_le (fun i => x.testBit i) 15; omega), Rrr.lt_sp h3⟩

/-- The arrangements of three ones in five places, in the order in which the tables number them. -/
example : Rrr15.nextPerm [false, true, true, false, true] = some [false, true, true, true, false] ∧
    Rrr15.nextPerm [false, true, true, true, false] = some [true, false, false, true, true] ∧
    Rrr15.nextPerm [true, true, true, false, false] = none := by decide +kernel

/-- The theorem applied to 100 bits with three blocks per sample. -/
example : ∃ T v, Rrr15.impl = some T ∧ Rrr15.build T 3 ((List.range 100).map (fun i => i % 7 != 0 || i < 30)) = some v ∧
    Rrr15.access T 3 v 35 = some false ∧ Rrr15.getInt T 3 v 20 30 = some 532643839 ∧ Rrr15.rankQ T 3 v true 50 = some 47 ∧
    Rrr15.selectQ T 3 v true 91 = some 100 := by
  obtain ⟨T, h1, h2⟩ := C24_rrr15
  obtain ⟨v, h3, _, h4, h5, h6, _, h8⟩ := h2 3 (by decide) ((List.range 100).map (fun i => i % 7 != 0 || i < 30)) (by decide +kernel)
  refine ⟨T, v, h1, h3, ?_, ?_, ?_, ?_⟩
  · rw [h4 35 (by decide +kernel)]; decide +kernel
  · rw [h5 20 30 (by decide) (by decide) (by decide +kernel)]; decide +kernel
  · rw [h6 true 50 (by decide +kernel)]; decide +kernel
  · rw [h8 true 91 (by decide +kernel)]; decide +kernel

end Sdsl.Props
