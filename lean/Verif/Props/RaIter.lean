import Verif.RaIter

/-! # C96: `random_access_const_iterator` -/
namespace Sdsl.Props
open Sdsl.RaIter

/-- C96: `it + i`, `it - i` and `it[i]` for positions of 64 bits and all distances but the smallest one. -/
theorem C96_arith_partial {α : Type} (get : Nat → Option α) (it : It) (i : Int) (h1 : -2 ^ 63 < i) (h2 : i < 2 ^ 63) :
    (0 ≤ it.idx.toNat + i → it.idx.toNat + i < 2 ^ 64 →
      (∃ it', addAssign it i = some it' ∧ it'.rac = it.rac ∧ (it'.idx.toNat : Int) = it.idx.toNat + i) ∧ at' get it i = get (it.idx.toNat + i).toNat) ∧
    (0 ≤ it.idx.toNat - i → it.idx.toNat - i < 2 ^ 64 →
      ∃ it', subAssign it i = some it' ∧ it'.rac = it.rac ∧ (it'.idx.toNat : Int) = it.idx.toNat - i) := by
  refine ⟨fun h3 h4 => ?_, fun h3 h4 => ?_⟩
  · obtain ⟨it', e, h5, h6⟩ := addAssign_eq it h1 h2
    rw [Int.emod_eq_of_lt h3 h4] at h6
    refine ⟨⟨it', e, h5, h6⟩, ?_⟩
    unfold at'
    rw [e, Option.bind_some]
    unfold deref
    rw [← h6, Int.toNat_natCast]
  · obtain ⟨it', e, h5, h6⟩ := subAssign_eq it h1 h2
    rw [Int.emod_eq_of_lt h3 h4] at h6
    exact ⟨it', e, h5, h6⟩

/-- Position 10 and distance -3. -/
example : let it : It := ⟨1, 10⟩; -2 ^ 63 < (-3 : Int) ∧ (-3 : Int) < 2 ^ 63 ∧ 0 ≤ (it.idx.toNat : Int) + -3 ∧ (it.idx.toNat : Int) + -3 < 2 ^ 64 ∧
    0 ≤ (it.idx.toNat : Int) - -3 ∧ (it.idx.toNat : Int) - -3 < 2 ^ 64 ∧ addAssign it (-3) = some ⟨1, 7⟩ ∧ subAssign it (-3) = some ⟨1, 13⟩ := by decide

/-- C96 is false for the smallest distance: `-i` is undefined, also if the result would be a position. -/
theorem C96_smallest_wrong (it : It) : addAssign it (-2 ^ 63) = none ∧ subAssign it (-2 ^ 63) = none := by
  unfold addAssign subAssign neg
  simp

/-- C96: the difference of two iterators, for positions below 2^63: `x + (y - x)` is `y`. -/
theorem C96_diff (x y : It) (hr : x.rac = y.rac) (hx : x.idx.toNat < 2 ^ 63) (hy : y.idx.toNat < 2 ^ 63) :
    ∃ d, diff y x = some d ∧ d = (y.idx.toNat : Int) - x.idx.toNat ∧ addAssign x d = some y ∧ subAssign y d = some x := by
  refine ⟨(y.idx.toNat : Int) - x.idx.toNat, ?_, rfl, ?_, ?_⟩
  · unfold diff
    simp only [toInt_small hx, toInt_small hy]
    rw [if_pos (by omega)]
  · obtain ⟨it', e, h5, h6⟩ := addAssign_eq x (i := (y.idx.toNat : Int) - x.idx.toNat) (by omega) (by omega)
    rw [e]
    cases it'
    cases y
    simp only at *
    rw [h5, hr]
    congr 2
    exact BitVec.eq_of_toNat_eq (by omega)
  · obtain ⟨it', e, h5, h6⟩ := subAssign_eq y (i := (y.idx.toNat : Int) - x.idx.toNat) (by omega) (by omega)
    rw [e]
    cases it'
    cases x
    simp only at *
    rw [h5, ← hr]
    congr 2
    exact BitVec.eq_of_toNat_eq (by omega)

example : let x : It := ⟨1, 10⟩; let y : It := ⟨1, 4⟩; x.rac = y.rac ∧ x.idx.toNat < 2 ^ 63 ∧ y.idx.toNat < 2 ^ 63 ∧ diff y x = some (-6) := by decide

/-- C96: steps and comparisons. Increments and decrements undo each other for all iterators; exactly one of `x < y`, `x == y`, `x > y` holds for
iterators of one container, and `<=`, `>=` are what they should be. -/
theorem C96_order (x y : It) (hr : x.rac = y.rac) :
    dec (inc x) = x ∧ inc (dec x) = x ∧ postInc x = (x, inc x) ∧ postDec x = (x, dec x) ∧ (x.idx.toNat + 1 < 2 ^ 64 → lt x (inc x) = true) ∧
    (lt x y = true ↔ x.idx.toNat < y.idx.toNat) ∧ (gt x y = lt y x) ∧ (RaIter.eq x y = true ↔ x = y) ∧
    (le x y = true ↔ lt x y = true ∨ RaIter.eq x y = true) ∧ (ge x y = true ↔ lt y x = true ∨ RaIter.eq x y = true) := by
  have e := eq_iff x y
  refine ⟨?_, ?_, rfl, rfl, fun h => ?_, by simp [lt], rfl, ?_, ?_, ?_⟩
  · unfold dec inc
    simp only [BitVec.add_sub_cancel]
  · unfold dec inc
    simp only [BitVec.sub_add_cancel]
  · unfold lt; rw [inc_toNat h]; simp
  · rw [e]
    refine ⟨fun h => ?_, fun h => by rw [h]; exact ⟨rfl, rfl⟩⟩
    cases x; cases y
    simp only at *
    rw [hr, BitVec.eq_of_toNat_eq h.2]
  · rw [e]
    unfold le gt lt
    simp only [Bool.not_eq_true', decide_eq_false_iff_not, decide_eq_true_eq]
    omega
  · rw [e]
    unfold ge lt
    simp only [Bool.not_eq_true', decide_eq_false_iff_not, decide_eq_true_eq]
    omega

example : (⟨1, 10⟩ : It).rac = (⟨1, 11⟩ : It).rac ∧ lt ⟨1, 10⟩ ⟨1, 11⟩ = true ∧ le ⟨1, 11⟩ ⟨1, 10⟩ = false := by decide

/-- C96: the loop from `begin()` to `end()` visits all elements of a container in order. -/
theorem C96_loop {α : Type} (l : List α) (rac : Nat) (hl : l.length < 2 ^ 64) (fuel : Nat) (hf : l.length < fuel) :
    loop (l[·]?) ⟨rac, BitVec.ofNat 64 l.length⟩ fuel ⟨rac, 0⟩ = some l := by
  cases l with
  | nil =>
    obtain ⟨fuel, rfl⟩ : ∃ m, fuel = m + 1 := ⟨fuel - 1, by simp only [List.length_nil] at hf; omega⟩
    simp [loop, RaIter.eq]
  | cons a t =>
    have hn : (BitVec.ofNat 64 (a :: t).length).toNat = (a :: t).length := by rw [BitVec.toNat_ofNat]; exact Nat.mod_eq_of_lt hl
    rw [loop_eq (fun j => (a :: t).getD j a) (a :: t).length (it := ⟨rac, 0⟩) (last := ⟨rac, BitVec.ofNat 64 (a :: t).length⟩) rfl
      (by simp only; rw [hn]; exact Nat.zero_add _) (fun j _ h2 => ?_) fuel hf]
    · rw [show (0 : BitVec 64).toNat = 0 from rfl, Option.some.injEq]
      refine List.ext_getElem (by simp) (fun i h1 h2 => ?_)
      rw [List.getElem_map, List.getElem_range', List.getD_eq_getElem?_getD, Nat.zero_add, Nat.one_mul, List.getElem?_eq_getElem h2]
      rfl
    · simp only at h2
      rw [hn] at h2
      rw [List.getD_eq_getElem?_getD, List.getElem?_eq_getElem h2]
      rfl

example : loop ([3, 1, 2][·]?) ⟨7, 3⟩ 4 ⟨7, 0⟩ = some [3, 1, 2] := by decide

end Sdsl.Props
