/-
  Properties of the interleaved bit vector `bit_vector_il` (C23). The block size is `t_bs = 64 * sr`.
-/
import Verif.IlLemmas

namespace Sdsl.Props

open Sdsl Sdsl.Spec Sdsl.Bits Sdsl.IntVec

/-- C23, for bit vectors whose word `size/64` is allocated (all vectors whose size is not a multiple of 64, and all others that
    have their padding word): construction succeeds; `operator[]`, `get_int`, `rank_support_il` and `select_support_il`
    for both bits agree with the plain bit sequence, and no access leaves the interleaved array or the rank samples.
    Missing from the full claim: vectors without padding word (`C23_construction_reads_past_end`). -/
theorem C23_il_partial (sr : Nat) (hsr : 0 < sr) (v : IntVec) (hv : v.WF) (hpad : v.size % 64 ≠ 0 ∨ v.size / 64 < v.data.length)
    (hs : v.size + 64 * sr < 2 ^ 64) :
    ∃ b, Il.build sr v = some b ∧ b.size = v.size ∧
      (∀ i, i < v.size → Il.access sr b i = some (if bitAt v.data i then 1#64 else 0#64)) ∧
      (∀ idx len, 1 ≤ len → len ≤ 64 → idx + len ≤ v.size →
        Il.getInt sr b idx len = some (BitVec.ofNat 64 (field v.data idx len))) ∧
      (∀ tb i, i ≤ v.size → Il.rank tb sr b i = some (countTrue (fun q => bitAt v.data q == tb) i)) ∧
      (∀ tb i, 1 ≤ i → i ≤ countTrue (fun q => bitAt v.data q == tb) v.size →
        ∃ p, Il.select tb sr b i = some p ∧ IsSelect (fun q => bitAt v.data q == tb) v.size i p) := by
  have hf := hv.fit
  have hl : v.size / 64 < v.data.length := by omega
  have hle : v.size / (64 * sr) ≤ v.size / 64 := by rw [Il.div_bs]; exact Nat.div_le_self _ _
  obtain ⟨b, e, h⟩ := Il.build_ok (sr := sr) hsr hl (by omega)
  refine ⟨b, e, h.size, fun i hi => ?_, fun idx len h1 h2 h3 => Il.getInt_ok h hl h1 h2 h3,
    fun tb i hi => Il.rank_ok hsr h hl (by omega) hi, fun tb i h1 h2 => Il.select_ok hsr h hl hs h1 h2⟩
  rw [Il.access_ok h hl hi]
  cases bitAt v.data i <;> rfl

/-- C23 fails for the vector of `C12_padding_word_missing`: the constructor reads the word behind the allocation. -/
theorem C23_construction_reads_past_end (junk : Nat → Word) (sr : Nat) :
    ∃ v u : IntVec, v.WF ∧ v.size = 60 ∧ v.resize junk 64 = some u ∧ u.WF ∧ u.size = 64 ∧ Il.build sr u = none := by
  refine ⟨⟨60, [allSet], 1⟩, ⟨64, [allSet], 1⟩, ⟨by decide, by decide, by decide⟩, rfl, rfl, ⟨by decide, by decide, by decide⟩, rfl, ?_⟩
  have key : ∀ (w : Word) (c j n : Nat) (sum : Word) (d : Mem), Il.buildLoop sr [w] 1 (n + 1) c j sum d = none := by
    intro w c j n sum d
    simp only [Il.buildLoop]
    split
    · cases st d j sum <;> rfl
    · rfl
  unfold Il.build
  dsimp only
  have hb : Il.buildLoop sr [allSet] 0 ((64 + 64) / 64) sr 0 0#64 (List.replicate ((64 + 64) / 64 + (64 + 64 * sr) / (64 * sr) + 1) 0#64) = none := by
    simp only [show (64 + 64) / 64 = 1 + 1 from rfl, Il.buildLoop, if_true, Option.bind_eq_bind]
    generalize List.replicate (1 + 1 + (64 + 64 * sr) / (64 * sr) + 1) 0#64 = d
    cases st d 0 0#64 with
    | none => rfl
    | some d1 =>
      cases ld [allSet] 0 with
      | none => rfl
      | some w =>
        simp only [Option.bind_some]
        cases st d1 (0 + 1) w with
        | none => rfl
        | some d2 => exact key _ _ _ 0 _ _
  rw [hb]; rfl

example : (⟨190, [0x8000000000000005#64, 0xF0F1#64, 0x2#64], 1⟩ : IntVec).WF ∧
    (Il.build 2 ⟨190, [0x8000000000000005#64, 0xF0F1#64, 0x2#64], 1⟩).bind (fun b => Il.select false 2 b 100) = some 111 ∧
    (Il.build 2 ⟨190, [0x8000000000000005#64, 0xF0F1#64, 0x2#64], 1⟩).bind (fun b => Il.rank true 2 b 130) = some 13 ∧
    (Il.build 1 ⟨190, [0x8000000000000005#64, 0xF0F1#64, 0x2#64], 1⟩).bind (fun b => Il.getInt 1 b 60 10) = some 0x318#64 := by
  refine ⟨⟨by decide, by decide, by decide⟩, by decide +kernel, by decide +kernel, by decide +kernel⟩

end Sdsl.Props
