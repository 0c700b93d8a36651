/-
  The nearest neighbour dictionary `nearest_neighbour_dictionary` (include/sdsl/nearest_neighbour_dictionary.hpp), used by the balanced parentheses supports.
  `t` is the template parameter `t_sample_dens`, the supported bit vector is a list of bits, and `m_contains_abs_sample` with its rank support is used by
  contract (`Bv`; C18). Serialization, copy, move and swap are not modelled.
-/
import Verif.Csa

namespace Sdsl.Nnd

open Csa

/-- The first loop of the constructor, nearest_neighbour_dictionary.hpp:89-97: the largest distance of two ones (the first one from position -1), and the number of ones. -/
def gap : List Bool → Nat → Nat → Nat → Nat → Nat × Nat
  | [], _, _, mx, ones => (mx, ones)
  | b :: bs, i, last, mx, ones =>
    if b then gap bs (i + 1) (i + 1) (if i + 1 - last > mx then i + 1 - last else mx) (ones + 1)
    else gap bs (i + 1) last mx ones

/-- `m_abs_samples`, `m_differences`, `m_contains_abs_sample`. -/
structure Tab where
  abs : Arr
  diff : Arr
  cont : List Bool

/-- The second loop, nearest_neighbour_dictionary.hpp:107-119. -/
def fill (t : Nat) : List Bool → Nat → Nat → Nat → Tab → Option Tab
  | [], _, _, _, d => some d
  | b :: bs, i, last, ones, d =>
    if b then
      if (ones + 1) % t = 0 then do
        let a ← d.abs.set ((ones + 1) / t) i
        let c ← Bv.set d.cont (i / t) true
        fill t bs (i + 1) i (ones + 1) { d with abs := a, cont := c }
      else do
        let a ← d.diff.set (ones + 1 - (ones + 1) / t - 1) (i - last)
        fill t bs (i + 1) i (ones + 1) { d with diff := a }
    else fill t bs (i + 1) last ones d

/-- The members, nearest_neighbour_dictionary.hpp:53-60. -/
structure Obj where
  tab : Tab
  ones : Nat
  size : Nat

/-- The constructor, nearest_neighbour_dictionary.hpp:83-121. -/
def new (t : Nat) (v : List Bool) : Option Obj := do
  let (mx, ones) := gap v 0 0 0 0
  let wa ← hiW v.length
  let wd ← hiW mx
  let d ← fill t v 0 0 0 ⟨Arr.new (ones / t + 1) 0 wa, Arr.new (ones - ones / t) 0 wd, List.replicate (sub64 (add64 v.length t) 1 / t) false⟩
  pure ⟨d, ones, v.length⟩

/-- The position of the one number `res` from that of the one before it, nearest_neighbour_dictionary.hpp:179-183. -/
def stepOne (t : Nat) (d : Obj) (res i : Nat) : Option Nat :=
  if res % t = 0 then d.tab.abs.get (res / t) else do
    let x ← d.tab.diff.get (res - res / t - 1)
    pure (i + x)

/-- The loop of `rank`, nearest_neighbour_dictionary.hpp:178-187; `m_ones + 1` iterations suffice. -/
def rankLoop (t : Nat) (d : Obj) (idx : Nat) : Nat → Nat → Nat → Option Nat
  | 0, _, _ => none
  | f + 1, res, i =>
    if res + 1 ≤ d.ones then do
      let i ← stepOne t d (res + 1) i
      if i ≥ idx then pure res else rankLoop t d idx f (res + 1) i
    else some res

/-- `rank(idx)`, nearest_neighbour_dictionary.hpp:173-189. -/
def rank (t : Nat) (d : Obj) (idx : Nat) : Option Nat := do
  let r ← Bv.rank true d.tab.cont (idx / t)
  let i ← d.tab.abs.get r
  rankLoop t d idx (d.ones + 1) (r * t) i

/-- `for (; j < end; ++j) result += m_differences[j];`, nearest_neighbour_dictionary.hpp:200-202, `k` iterations. -/
def sumLoop (d : Obj) : Nat → Nat → Nat → Option Nat
  | 0, _, res => some res
  | k + 1, j, res => do
    let x ← d.tab.diff.get j
    sumLoop d k (j + 1) (res + x)

/-- `select(i)`, nearest_neighbour_dictionary.hpp:195-204. -/
def select (t : Nat) (d : Obj) (i : Nat) : Option Nat := do
  let r ← d.tab.abs.get (i / t)
  sumLoop d (i % t) (i / t * t - i / t) r

/-- `prev(i)`, nearest_neighbour_dictionary.hpp:212-216. -/
def prev (t : Nat) (d : Obj) (i : Nat) : Option Nat := do
  let r ← rank t d (i + 1)
  select t d r

/-- `next(i)`, nearest_neighbour_dictionary.hpp:223-227. -/
def next (t : Nat) (d : Obj) (i : Nat) : Option Nat := do
  let r ← rank t d i
  select t d (r + 1)

end Sdsl.Nnd
