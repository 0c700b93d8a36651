/-
  Model of `rmq_support_sparse_table`: include/sdsl/rmq_support_sparse_table.hpp, with `min_max_trait` of include/sdsl/rmq_support.hpp.

  The supported container is a list of integers (signed or unsigned values); the tables are abstract `int_vector`s (`Arr`).
-/
import Verif.Arr
import Verif.Bits

namespace Sdsl.Rmq

open Bits

/-- `mm_trait::compare`, rmq_support.hpp:31-33 and 41-43. -/
def cmp (tmin : Bool) (a b : Int) : Bool := if tmin then decide (a ≤ b) else decide (a ≥ b)

/-- `m_table[i][j]`. -/
def tget (T : List Arr) (i j : Nat) : Option Nat := do (← T[i]?).get j

/-- `m_table[i][j] = x`. -/
def tset (T : List Arr) (i j x : Nat) : Option (List Arr) := do
  let a ← (← T[i]?).set j x
  setList T i a

/-- `while (2*(1ULL<<k) < n) ++k;`, rmq_support_sparse_table.hpp:85. The shift is undefined for `k ≥ 64`. -/
def kLoop (n : Nat) : Nat → Nat → Option Nat
  | 0, _ => none
  | fuel + 1, k =>
    if k < 64 then
      if 2 * 2 ^ k % 2 ^ 64 < n then kLoop n fuel (k + 1) else some k
    else none

/-- `for (size_type i=0; i<n-1; ++i) if (!compare(v[i], v[i+1])) m_table[0][i] = 1;`, rmq_support_sparse_table.hpp:91-94; `c` iterations remain. -/
def row0 (t : Bool) (v : List Int) : Nat → Nat → List Arr → Option (List Arr)
  | 0, _, T => some T
  | c + 1, i, T => do
    let a ← v[i]?
    let b ← v[i + 1]?
    if !cmp t a b then do
      let T ← tset T 0 i 1
      row0 t v c (i + 1) T
    else row0 t v c (i + 1) T

/-- The value assigned in rmq_support_sparse_table.hpp:97. -/
def best (t : Bool) (v : List Int) (T : List Arr) (i j : Nat) : Option Nat := do
  let x ← tget T (i - 1) j
  let y ← tget T (i - 1) (j + 2 ^ i)
  let a ← v[j + x]?
  let b ← v[j + 2 ^ i + y]?
  pure (if cmp t a b then x else 2 ^ i + y)

/-- The inner loop, rmq_support_sparse_table.hpp:96-98; `c` iterations remain. -/
def rowLoop (t : Bool) (v : List Int) (i : Nat) : Nat → Nat → List Arr → Option (List Arr)
  | 0, _, T => some T
  | c + 1, j, T => do
    let T ← tset T i j (← best t v T i j)
    rowLoop t v i c (j + 1) T

/-- The outer loop, rmq_support_sparse_table.hpp:95-99; `c` iterations remain. -/
def rows (t : Bool) (v : List Int) : Nat → Nat → List Arr → Option (List Arr)
  | 0, _, T => some T
  | c + 1, i, T => do
    let a ← T[i]?
    let T ← rowLoop t v i a.xs.length 0 T
    rows t v c (i + 1) T

/-- Constructor, rmq_support_sparse_table.hpp:77-100: the tables (`m_k` is their number). -/
def new (t : Bool) (v : List Int) : Option (List Arr) :=
  let n := v.length
  if n < 2 then some []
  else do
    let k ← kLoop n 65 0
    let T := (List.range k).map fun i => Arr.new (n - 2 ^ (i + 1) + 1) 0 (i + 1)
    let T ← row0 t v (n - 1) 0 T
    rows t v (k - 1) 1 T

/-- `operator()(l, r)`, rmq_support_sparse_table.hpp:156-166. -/
def query (t : Bool) (v : List Int) (T : List Arr) (l r : Nat) : Option Nat :=
  if l = r then some l
  else if l + 1 = r then do
    let a ← v[l]?
    let b ← v[r]?
    pure (if cmp t a b then l else r)
  else do
    let k ← hi (BitVec.ofNat 64 (r - l))
    let rr := r - 2 ^ k + 1
    if k = 0 then none else do
      let x ← tget T (k - 1) l
      let y ← tget T (k - 1) rr
      let a ← v[l + x]?
      let b ← v[rr + y]?
      pure (if cmp t a b then l + x else rr + y)

end Sdsl.Rmq
