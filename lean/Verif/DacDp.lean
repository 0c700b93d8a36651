/-
  Model of `dac_vector_dp`: include/sdsl/dac_vector.hpp:37-318.

  The costs are `double`s in the source. The model is parametric in the arithmetic of the costs (`Cost`); what is used of it is stated in `Cost.Ok`.
  `bit_compress` keeps the elements and chooses the smallest width (C15), so it is `compress` on abstract vectors.
-/
import Verif.Dac

namespace Sdsl.Dac.Dp

open Bits Spec

/-! ### The layout -/

/-- The arithmetic of the cost estimate: `double` with `0.0`, infinity, `+` and `<`; `w cnt b b2` is `b2*(cnt[b] - cnt[b2]) + cost(cnt[b], cnt[b2])`,
    dac_vector.hpp:161-172 and :207. -/
structure Cost where
  F : Type
  zero : F
  inf : F
  add : F → F → F
  lt : F → F → Bool
  w : List Nat → Nat → Nat → F

/-- One row of `f` and `nxt`, dac_vector.hpp:197-198. `nxt[b][lvl]` is `none` as long as it is uninitialised, `some none` for `-1`. -/
abbrev Row (K : Cost) := List (K.F × Option (Option Nat))

/-- The loop over `b2` for fixed `b` and `lvl`, dac_vector.hpp:206-212. `rows` are the rows `b2`, …, `max_msb + 1`. -/
def relax (K : Cost) (cnt : List Nat) (b lvl : Nat) : List (Row K) → Nat → K.F × Option (Option Nat) → Option (K.F × Option (Option Nat))
  | [], _, best => some best
  | row :: rows, b2, best => do
    let e ← row[lvl - 1]?
    let v := K.add (K.w cnt b b2) e.1
    relax K cnt b lvl rows (b2 + 1) (if K.lt v best.1 then (v, some (some b2)) else best)

/-- The loop over `lvl`, dac_vector.hpp:205-213; `c` iterations remain, `row` is the part of row `b` that has been computed. -/
def fillRow (K : Cost) (cnt : List Nat) (b : Nat) (rows : List (Row K)) : Nat → Nat → Row K → Option (Row K)
  | 0, _, row => some row
  | c + 1, lvl, row => do
    let e ← relax K cnt b lvl rows (b + 1) (K.inf, none)
    fillRow K cnt b rows c (lvl + 1) (row ++ [e])

/-- The loop over `b`, dac_vector.hpp:199-214: the next row to compute is `b - 1`. -/
def fillRows (K : Cost) (cnt : List Nat) (ml : Nat) : Nat → List (Row K) → Option (List (Row K))
  | 0, rows => some rows
  | b + 1, rows => do
    let row ← fillRow K cnt b rows ml 1 [(K.inf, none)]
    fillRows K cnt ml b (row :: rows)

/-- The loop that collects `bit_sizes`, dac_vector.hpp:216-221. -/
def collect (K : Cost) (rows : List (Row K)) : Nat → Nat → Nat → Option (List Nat)
  | 0, _, _ => none
  | fuel + 1, b, lvl => do
    let row ← rows[b]?
    let e ← row[lvl]?
    match ← e.2 with
    | none => some []
    | some b2 =>
      if lvl = 0 then none
      else do pure (b2 :: (← collect K rows fuel b2 (lvl - 1)))

/-- The `while` loop of dac_vector.hpp:188-193. -/
def countBits : Nat → Nat → Nat → List Nat → Nat → Option (List Nat × Nat)
  | fuel, x, lvl, cnt, mx =>
    if x = 0 then some (cnt, mx)
    else match fuel with
      | 0 => none
      | fuel + 1 => do countBits fuel (x / 2) (lvl + 1) (← incr cnt lvl) (max mx lvl)
termination_by structural fuel => fuel

/-- dac_vector.hpp:185-194. -/
def countAll : List Word → List Nat → Nat → Option (List Nat × Nat)
  | [], cnt, mx => some (cnt, mx)
  | x :: xs, cnt, mx => do
    let r ← countBits 64 (x.toNat / 2) 1 cnt mx
    countAll xs r.1 r.2

/-- The computation of `bit_sizes`, dac_vector.hpp:182-221. -/
def layout (K : Cost) (ml : Nat) (xs : List Word) : Option (List Nat) := do
  let r ← countAll xs ((List.replicate 128 0).set 0 xs.length) 0
  let rows ← fillRows K r.1 ml (r.2 + 1) [List.replicate (ml + 1) (K.zero, some none)]
  collect K rows (ml + 1) 0 ml

/-! ### The levels -/

/-- `dac_vector_dp`, dac_vector.hpp:64-69. -/
structure Dp where
  size : Nat
  ov : List Bool
  data : List Arr
  offsets : List Nat
deriving DecidableEq, Repr

/-- The first loop of `construct_level`, dac_vector.hpp:95-104. Returns `m_overflow_tmp`, `max_msb` and `overflows`. -/
def mark (bn off : Nat) : List Word → Nat → List Bool → Nat → Nat → Option (List Bool × Nat × Nat)
  | [], _, ov, mx, o => some (ov, mx, o)
  | x :: c, i, ov, mx, o => do
    let msb ← hi x
    if bn ≤ msb then mark bn off c (i + 1) (← setList ov (off + i) true) (max mx msb) (o + 1)
    else mark bn off c (i + 1) (← setList ov (off + i) false) (max mx msb) o

/-- The second loop of `construct_level`, dac_vector.hpp:111-117. Returns `data` and `recurse`. -/
def split (off : Nat) (ov : List Bool) : List Word → Nat → Nat → Nat → Arr → Arr → Option (Arr × Arr)
  | [], _, _, _, data, rec => some (data, rec)
  | x :: c, i, id, ir, data, rec => do
    if ← ov[off + i]? then split off ov c (i + 1) id (ir + 1) data (← rec.set ir x.toNat)
    else split off ov c (i + 1) (id + 1) ir (← data.set id x.toNat) rec

/-- `util::bit_compress`. -/
def compress (a : Arr) : Arr := ⟨Nat.log2 (a.xs.foldl max 0) + 1, a.xs⟩

/-- `construct_level`, dac_vector.hpp:71-128; the recursion is over the remaining entries of `bit_sizes`. -/
def levels : List Nat → Nat → List Word → Dp → Option Dp
  | [], _, _, d => some d
  | bn :: bs, off, c, d => do
    let r ← mark bn off c 0 d.ov 0 0
    let s ← split off r.1 c 0 0 0 (Arr.new (c.length - r.2.2) 0 64) (Arr.new r.2.2 0 (r.2.1 + 1))
    levels bs (off + c.length) (s.2.xs.map (BitVec.ofNat 64)) ⟨d.size, r.1, d.data ++ [compress s.1], d.offsets ++ [off]⟩

/-- The `while` loop of dac_vector.hpp:229-232, on the remaining entries of `bit_sizes`. -/
def slots (msb : Nat) : List Nat → Nat
  | [] => 0
  | bn :: bs => if bn ≤ msb then slots msb bs + 1 else 0

/-- `total_overflow_size`, dac_vector.hpp:224-233. -/
def totalSlots (bs : List Nat) : List Word → Nat → Option Nat
  | [], t => some t
  | x :: c, t => do
    let msb ← hi x
    totalSlots bs c (t + 1 + slots msb bs)

/-- Everything after the choice of `bit_sizes`, dac_vector.hpp:224-237. `junk` is the content of `m_overflow_tmp` after `resize`. -/
def build (junk : Nat → Bool) (bs : List Nat) (xs : List Word) : Option Dp := do
  let t ← totalSlots bs xs 0
  levels bs 0 xs ⟨xs.length, (List.range t).map junk, [], []⟩

/-- Constructor, dac_vector.hpp:178-238. -/
def new (K : Cost) (ml : Nat) (junk : Nat → Bool) (xs : List Word) : Option Dp := do
  let bs ← layout K ml xs
  build junk bs xs

/-- `operator[]`, dac_vector.hpp:265-275. -/
def getLoop (d : Dp) : Nat → Nat → Nat → Option Nat
  | 0, _, _ => none
  | fuel + 1, level, i => do
    let offset ← d.offsets[level]?
    if ← d.ov[offset + i]? then getLoop d fuel (level + 1) (rank d.ov (offset + i) - rank d.ov offset)
    else do
      let i := i - (rank d.ov (offset + i) - rank d.ov offset)
      (← d.data[level]?).get i

/-- `operator[](i)`; at most one round per level. -/
def Dp.get (d : Dp) (i : Nat) : Option Nat := getLoop d d.offsets.length 0 i

/-- `m_size` as recomputed by `load`, dac_vector.hpp:305-308. -/
def Dp.loadSize (d : Dp) : Nat := d.data.foldl (fun s a => s + a.xs.length) 0

end Sdsl.Dac.Dp
