/-
  C32: directly addressable codes (`dac_vector`, `dac_vector_dp`).
-/
import Verif.DacLemmas
import Verif.DacDpLemmas

namespace Sdsl.Props

open Bits Spec Dac

/-- C32: for every block width `0 < t_b < 64` (the range accepted by the class) and every container, building a `dac_vector` succeeds, `size()` is the number of values and `operator[]` returns the container's value at
    every index. -/
theorem C32_dac_vector (b junk : Nat) (hb : 0 < b) (hb64 : b < 64) (xs : List Word) :
    ∃ d, Dac.new b junk xs = some d ∧ d.size = some xs.length ∧ ∀ i (h : i < xs.length), d.get b i = some xs[i] := by
  by_cases hn : 0 < xs.length
  · obtain ⟨d, M, L, h1, h2⟩ := new_spec (xs := xs) hb junk hn
    refine ⟨d, h1, size_spec h2, ?_⟩
    intro i hi
    rw [get_spec h2 hb64 hi]; simp [hi]
  · have : xs = [] := List.eq_nil_of_length_eq_zero (by omega)
    subst this
    exact ⟨_, rfl, rfl, by intro i h; simp at h⟩

/-- Three levels of 2 bits; the last value uses all of them. -/
example : ((Dac.new 2 0 [3#64, 0#64, 9#64, 63#64, 17#64]).bind fun d => (List.range 5).mapM (d.get 2)) = some [3#64, 0#64, 9#64, 63#64, 17#64] := by
  decide +kernel

example : ((Dac.new 1 0 [0x8000000000000000#64, 1#64]).bind fun d => (List.range 2).mapM (d.get 1)) = some [0x8000000000000000#64, 1#64] := by
  decide +kernel

example : ((Dac.new 63 0 [0xFFFFFFFFFFFFFFFF#64, 1#64]).bind fun d => (List.range 2).mapM (d.get 63)) = some [0xFFFFFFFFFFFFFFFF#64, 1#64] := by
  decide +kernel

/-- C32: for every level layout in which every value fits into some level, `dac_vector_dp` answers `size()` and `operator[]` as the container, has one level per entry of the
    layout, and `load` recomputes the same size. The initial contents of the temporary overflow vector do not matter. -/
theorem C32_dac_vector_dp_layout (junk : Nat → Bool) (bs : List Nat) (xs : List Word) (hbs : ∀ x ∈ xs, ∃ bn ∈ bs, Nat.log2 x.toNat < bn) :
    ∃ d, Dp.build junk bs xs = some d ∧ d.size = xs.length ∧ d.data.length = bs.length ∧ d.loadSize = xs.length ∧
      ∀ i (h : i < xs.length), d.get i = some xs[i].toNat := by
  obtain ⟨d, h1, h2, h3, h4, h5⟩ := Dp.build_spec junk bs xs
  refine ⟨d, h1, h2, h4, ?_, ?_⟩
  · have := Dp.loadSize_spec bs xs 0 0 0 h5 (by omega) hbs
    rw [List.drop_zero, Nat.zero_add] at this
    exact this
  · intro i hi
    exact Dp.getLoop_spec d bs xs 0 0 i _ hi h5 (by omega) (hbs _ (List.getElem_mem hi))

example : ((Dp.build (fun i => i % 2 == 0) [1, 4, 7] [3#64, 0#64, 9#64, 100#64, 17#64]).bind fun d => (List.range 5).mapM d.get) =
    some [3, 0, 9, 100, 17] := by
  decide +kernel

/-- C32: whatever the costs are (as long as the arithmetic is that of finite floating point numbers and infinity, `Cost.Ok`), the dynamic program finds a layout with at most
    `max_levels` strictly increasing bit sizes the last of which is sufficient for every value; so `dac_vector_dp` represents every container. -/
theorem C32_dac_vector_dp (K : Dp.Cost) (fin : K.F → Prop) (hK : K.Ok fin) (ml : Nat) (hml : 0 < ml) (junk : Nat → Bool) (xs : List Word) :
    ∃ bs d, Dp.layout K ml xs = some bs ∧ bs.length ≤ ml ∧ bs.Pairwise (· < ·) ∧ Dp.new K ml junk xs = some d ∧ d.size = xs.length ∧
      d.data.length = bs.length ∧ d.loadSize = xs.length ∧ ∀ i (h : i < xs.length), d.get i = some xs[i].toNat := by
  obtain ⟨bs, h1, h2, h3, _, b, h5, h6⟩ := Dp.layout_spec hK hml xs
  obtain ⟨d, g1, g2⟩ := C32_dac_vector_dp_layout junk bs xs (fun x hx => ⟨b, List.mem_of_getLast? h5, h6 x hx⟩)
  exact ⟨bs, d, h1, h2, h3, by rw [Dp.new, h1, sbind]; exact g1, g2⟩

/-- An arithmetic that meets the hypotheses: natural numbers with infinity, 10 units for every level. -/
def natCost : Dp.Cost where
  F := Option Nat
  zero := some 0
  inf := none
  add x y := do pure ((← x) + (← y))
  lt x y := match x, y with
    | some a, some b => decide (a < b)
    | some _, none => true
    | none, _ => false
  w cnt b b2 := some (b2 * (cnt.getD b 0 - cnt.getD b2 0) + 10)

theorem natCost_ok : natCost.Ok (fun x => x.isSome = true) where
  zero := rfl
  w _ _ _ := rfl
  add x y hx hy := by
    cases x with
    | none => exact absurd hx Bool.false_ne_true
    | some x => cases y with
      | none => exact absurd hy Bool.false_ne_true
      | some y => rfl
  lt_inf x hx := by
    cases x with
    | none => exact absurd hx Bool.false_ne_true
    | some x => rfl
  inf_lt x y := by cases x <;> cases y <;> rfl

example : Dp.layout natCost 3 [3#64, 0#64, 9#64, 100#64, 17#64, 1#64, 1#64, 2#64, 1#64, 1#64] = some [2, 7] ∧
    ((Dp.new natCost 3 (fun _ => true) [3#64, 0#64, 9#64, 100#64, 17#64, 1#64, 1#64, 2#64, 1#64, 1#64]).bind fun d => (List.range 10).mapM d.get) =
      some [3, 0, 9, 100, 17, 1, 1, 2, 1, 1] := by
  decide +kernel

end Sdsl.Props
