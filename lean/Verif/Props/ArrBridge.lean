/-
  The abstraction of `int_vector` to `Arr`, used by the models of the higher-level structures: creating, reading and
  writing concrete `int_vector`s (`IntVec`, word level) corresponds step by step to the operations on `Arr`.
-/
import Verif.Props.IntVectors
import Verif.Arr

namespace Sdsl.Props

open Sdsl Sdsl.Spec Sdsl.Bits Sdsl.IntVec

/-- The word-level vector `v` holds the array `a`. -/
def Holds (v : IntVec) (a : Arr) : Prop := v.WF ∧ v.width = a.width ∧ v.elems = a.xs

/-- C11: `int_vector<0>(n, 0, w)` holds `Arr.new n 0 w` for every requested width. -/
theorem arr_new (junk : Nat → Word) (n w : Nat) (hw : 1 ≤ w ∧ w ≤ 64) :
    ∃ v, Util.ctor 0 junk none n 0#64 w = some v ∧ Holds v (Arr.new n 0 w) := by
  obtain ⟨v, h1, h2, h3, h4, h5⟩ := C11_ctor 0 junk none n 0#64 w (by omega) (fun _ => hw) (Or.inr (Or.inl rfl))
  rw [if_pos rfl] at h3
  have hc : clampWidth w = w := by unfold clampWidth; rw [if_pos (by omega)]
  refine ⟨v, h1, h2, by rw [h3]; exact hc.symm, ?_⟩
  rw [h5, h3]
  unfold Arr.new
  rw [hc]
  simp

/-- C11: reading is the same at both levels, including which indices are valid. -/
theorem arr_get (v : IntVec) (a : Arr) (h : Holds v a) (i : Nat) (hi : i < a.xs.length) :
    ∃ x, a.get i = some x ∧ x < 2 ^ a.width ∧ v.get i = some (BitVec.ofNat 64 x) := by
  obtain ⟨h1, h2, h3⟩ := h
  have hl : i < v.size / v.width := by
    rw [← h3] at hi
    simpa [elems] using hi
  obtain ⟨x, e1, e2, e3⟩ := C11_get v h1 i hl
  refine ⟨x, ?_, h2 ▸ e2, e3⟩
  unfold Arr.get
  rw [← h3]; exact e1

/-- C11: writing is the same at both levels. -/
theorem arr_set (v : IntVec) (a : Arr) (h : Holds v a) (i : Nat) (x : Word) (hi : i < a.xs.length) :
    ∃ v' a', v.set i x = some v' ∧ a.set i x.toNat = some a' ∧ Holds v' a' := by
  obtain ⟨h1, h2, h3⟩ := h
  have hl : i < v.size / v.width := by
    rw [← h3] at hi
    simpa [elems] using hi
  obtain ⟨v', e1, e2, -, e4, -, e6⟩ := C11_history v h1 [.assign i x] (by
    intro op hop j hj
    simp only [List.mem_singleton] at hop
    subst hop
    simp only [ElemOp.idxs, List.mem_singleton] at hj
    subst hj; exact hl)
  refine ⟨v', _, ?_, Arr.set_of_lt hi, e2, by rw [e4]; exact h2, ?_⟩
  · simpa [IntVec.run, IntVec.step] using e1
  · rw [e6, h3]
    simp only [List.foldl_cons, List.foldl_nil, ElemOp.apply, h2]

example : Holds ⟨21, [0x1FFFFF#64], 7⟩ ⟨7, [127, 127, 127]⟩ ∧ (⟨7, [127, 127, 127]⟩ : Arr).set 1 300 = some ⟨7, [127, 44, 127]⟩ := by
  refine ⟨⟨⟨by decide, by decide, by decide⟩, rfl, by decide +kernel⟩, by decide⟩

end Sdsl.Props
