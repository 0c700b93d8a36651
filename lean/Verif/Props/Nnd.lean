/-
  C75: nearest neighbour dictionary (include/sdsl/nearest_neighbour_dictionary.hpp).
-/
import Verif.NndLemmas

namespace Sdsl.Props

open Spec

/-- Bit `i` of the supported vector. -/
abbrev bitOf (v : List Bool) (i : Nat) : Bool := v.getD i false

theorem cnt_bitOf (v : List Bool) (i : Nat) : Nnd.C v i = countTrue (bitOf v) i := by
  rw [Nnd.C, Bv.cnt]
  exact countTrue_congr (fun i _ => by rw [beq_true]; rfl)

/-- **C75** For every bit vector and every sample density the dictionary is constructed, and it answers `size`, `ones`, `rank`, `select`, `prev` and `next` exactly. -/
theorem C75_nnd (t : Nat) (ht : 1 ≤ t) (v : List Bool) (hn : v.length + t ≤ 2 ^ 64) : ∃ d, Nnd.new t v = some d ∧ d.size = v.length ∧ d.ones = countTrue (bitOf v) v.length ∧
    (∀ idx, idx ≤ v.length → Nnd.rank t d idx = some (countTrue (bitOf v) idx)) ∧
    (∀ i, 1 ≤ i → i ≤ countTrue (bitOf v) v.length → ∃ p, Nnd.select t d i = some p ∧ IsSelect (bitOf v) v.length i p) ∧
    (∀ i, i < v.length → (∃ j, j ≤ i ∧ bitOf v j = true) → ∃ p, Nnd.prev t d i = some p ∧ p ≤ i ∧ bitOf v p = true ∧ ∀ j, p < j → j ≤ i → bitOf v j = false) ∧
    (∀ i, i < v.length → (∃ j, i ≤ j ∧ bitOf v j = true) → ∃ p, Nnd.next t d i = some p ∧ i ≤ p ∧ bitOf v p = true ∧ ∀ j, i ≤ j → j < p → bitOf v j = false) := by
  obtain ⟨d, h1, h2⟩ := Nnd.new_ok (v := v) (t := t) (by omega) hn
  have hsel : ∀ i, 1 ≤ i → i ≤ countTrue (bitOf v) v.length → ∃ p, Nnd.select t d i = some p ∧ IsSelect (bitOf v) v.length i p := by
    intro i i1 i2
    rw [← cnt_bitOf] at i2
    obtain ⟨g1, g2, g3⟩ := Nnd.P_spec i1 i2
    refine ⟨_, Nnd.select_ok (by omega) h2 i2, g1, g2, ?_⟩
    rw [← cnt_bitOf]; exact g3
  have hrank : ∀ idx, idx ≤ v.length → Nnd.rank t d idx = some (countTrue (bitOf v) idx) := by
    intro idx hi
    rw [Nnd.rank_ok (by omega) h2 hi, cnt_bitOf]
  have hlt : ∀ j, bitOf v j = true → j < v.length := by
    intro j hj
    by_contra g
    simp [bitOf, List.getElem?_eq_none (show v.length ≤ j by omega)] at hj
  have hcs : ∀ j, countTrue (bitOf v) (j + 1) = countTrue (bitOf v) j + (bitOf v j).toNat := fun _ => rfl
  refine ⟨d, h1, h2.size, by rw [h2.ones, cnt_bitOf], hrank, hsel, ?_, ?_⟩
  · rintro i hi ⟨j, j1, j2⟩
    have c1 := hcs j
    rw [j2] at c1
    simp only [Bool.toNat_true] at c1
    have c2 := countTrue_mono (bitOf v) (show j + 1 ≤ i + 1 by omega)
    have c3 := countTrue_mono (bitOf v) (show i + 1 ≤ v.length by omega)
    obtain ⟨p, p1, p2, p3, p4⟩ := hsel (countTrue (bitOf v) (i + 1)) (by omega) c3
    have c4 := hcs p
    rw [p3] at c4
    simp only [Bool.toNat_true] at c4
    refine ⟨p, by rw [Nnd.prev, hrank _ (by omega), sbind, p1], ?_, p3, fun k k1 k2 => ?_⟩
    · by_contra g
      have := countTrue_mono (bitOf v) (show i + 1 ≤ p by omega)
      omega
    · by_contra g
      have c5 := hcs k
      rw [Bool.eq_true_of_not_eq_false g] at c5
      simp only [Bool.toNat_true] at c5
      have := countTrue_mono (bitOf v) (show p + 1 ≤ k by omega)
      have := countTrue_mono (bitOf v) (show k + 1 ≤ i + 1 by omega)
      omega
  · rintro i hi ⟨j, j1, j2⟩
    have c1 := hcs j
    rw [j2] at c1
    simp only [Bool.toNat_true] at c1
    have c2 := countTrue_mono (bitOf v) j1
    have c3 := countTrue_mono (bitOf v) (show j + 1 ≤ v.length from hlt j j2)
    obtain ⟨p, p1, p2, p3, p4⟩ := hsel (countTrue (bitOf v) i + 1) (by omega) (by omega)
    refine ⟨p, by rw [Nnd.next, hrank _ (by omega), sbind, p1], ?_, p3, fun k k1 k2 => ?_⟩
    · have c4 := hcs p
      rw [p3] at c4
      simp only [Bool.toNat_true] at c4
      by_contra g
      have := countTrue_mono (bitOf v) (show p + 1 ≤ i by omega)
      omega
    · by_contra g
      have c5 := hcs k
      rw [Bool.eq_true_of_not_eq_false g] at c5
      simp only [Bool.toNat_true] at c5
      have := countTrue_mono (bitOf v) (show i ≤ k by omega)
      have := countTrue_mono (bitOf v) (show k + 1 ≤ p by omega)
      omega

/-- A bit vector for the examples. -/
def exV : List Bool := [false, true, true, false, false, false, true, true, true, false, true, false, false]

example : 1 ≤ 3 ∧ exV.length + 3 ≤ 2 ^ 64 ∧ 3 ≤ countTrue (bitOf exV) exV.length := by decide
example : (Nnd.new 3 exV).bind (fun d => Nnd.rank 3 d 8) = some 4 := by decide +kernel
example : (Nnd.new 3 exV).bind (fun d => Nnd.select 3 d 5) = some 8 := by decide +kernel
example : (Nnd.new 3 exV).bind (fun d => Nnd.prev 3 d 5) = some 2 := by decide +kernel
example : (Nnd.new 3 exV).bind (fun d => Nnd.next 3 d 3) = some 6 := by decide +kernel
example : (∃ j, j ≤ 5 ∧ bitOf exV j = true) ∧ ∃ j, 3 ≤ j ∧ bitOf exV j = true := ⟨⟨1, by decide⟩, 6, by decide⟩

end Sdsl.Props
