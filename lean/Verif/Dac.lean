/-
  Model of `dac_vector` and `dac_vector_dp`: include/sdsl/dac_vector.hpp.

  The rank supports over the overflow bit vector are the mathematical rank (C18-C20, C23-C25 for the concrete ones); `int_vector<64>` is a list of numbers, `m_data`
  an abstract `int_vector` (`Arr`).
-/
import Verif.Arr
import Verif.Bits
import Verif.Spec

namespace Sdsl.Dac

open Bits Spec

/-- `++v[i]`. -/
def incr (v : List Nat) (i : Nat) : Option (List Nat) := do setList v i ((← v[i]?) + 1)

/-- The rank support of a bit vector. -/
def rank (ov : List Bool) (i : Nat) : Nat := countTrue (fun p => ov.getD p false) i

/-- The `while` loop of step (1), dac_vector.hpp:509-515. `fuel` bounds the number of iterations; `level_x_2` is a `uint8_t`. Returns the counters and `max_level_x_2`. -/
def countVal (b : Nat) : Nat → Nat → Nat → List Nat → Nat → Option (List Nat × Nat)
  | fuel, val, lev, cnt, mx =>
    if val = 0 then some (cnt, mx)
    else match fuel with
      | 0 => none
      | fuel + 1 => do
        let cnt ← incr cnt lev
        let lev := (lev + 2) % 256
        countVal b fuel (val / 2 ^ b) lev cnt (max mx lev)
termination_by structural fuel => fuel

/-- Step (1), dac_vector.hpp:505-516. -/
def countAll (b : Nat) : List Word → List Nat → Nat → Option (List Nat × Nat)
  | [], cnt, mx => some (cnt, mx)
  | x :: xs, cnt, mx => do
    let r ← countVal b 64 (x.toNat / 2 ^ b) 2 cnt mx
    countAll b xs r.1 r.2

/-- State of step (2): `m_level_pointer_and_rank`, `m_max_level`, `sum_blocks`, `last_block_size`. -/
structure PS where
  lpr : List Nat
  maxLevel : Nat
  sum : Nat
  last : Nat
deriving DecidableEq, Repr

/-- Step (2), dac_vector.hpp:521-529; `c` iterations remain. -/
def prefixSums : Nat → Nat → PS → Option PS
  | 0, _, s => some s
  | c + 1, i, s => do
    let x ← s.lpr[i]?
    let lpr ← setList s.lpr i s.sum
    if s.sum + x > s.sum then prefixSums c (i + 2) ⟨lpr, (s.maxLevel + 1) % 256, s.sum + x, s.sum + x - s.sum⟩
    else prefixSums c (i + 2) ⟨lpr, s.maxLevel, s.sum + x, s.last⟩

/-- State of step (3): `m_data`, `m_overflow`, `cnt`. -/
structure ES where
  data : Arr
  ov : List Bool
  cnt : List Nat
deriving DecidableEq, Repr

/-- The `while` loop of step (3), dac_vector.hpp:545-552. -/
def enterVal (b : Nat) : Nat → Nat → Nat → Nat → ES → Option ES
  | fuel, val, lev, j, s =>
    if val = 0 then some s
    else match fuel with
      | 0 => none
      | fuel + 1 => do
        let ov ← setList s.ov j true
        let j ← s.cnt[lev]?
        let cnt ← incr s.cnt lev
        let data ← s.data.set j (val &&& (2 ^ b - 1))
        enterVal b fuel (val / 2 ^ b) ((lev + 2) % 256) j ⟨data, ov, cnt⟩
termination_by structural fuel => fuel

/-- Step (3), dac_vector.hpp:539-553. -/
def enterAll (b : Nat) : List Word → ES → Option ES
  | [], s => some s
  | x :: xs, s => do
    let j ← s.cnt[0]?
    let cnt ← incr s.cnt 0
    let data ← s.data.set j (x.toNat &&& (2 ^ b - 1))
    let s ← enterVal b 64 (x.toNat / 2 ^ b) 2 j ⟨data, s.ov, cnt⟩
    enterAll b xs s

/-- Step (4), dac_vector.hpp:558-562; `fuel` bounds the number of iterations. -/
def fillRanks (ov : List Bool) : Nat → Nat → List Nat → Option (List Nat)
  | 0, i, lpr => if 2 * i < lpr.length ∧ lpr.getD (2 * i) 0 < ov.length then none else some lpr
  | fuel + 1, i, lpr =>
    if 2 * i < lpr.length ∧ lpr.getD (2 * i) 0 < ov.length then do
      let lpr ← setList lpr (2 * i + 1) (rank ov (lpr.getD (2 * i) 0))
      fillRanks ov fuel (i + 1) lpr
    else some lpr

/-- `dac_vector<t_b>`, dac_vector.hpp:343-347. -/
structure Dac where
  data : Arr
  ov : List Bool
  lpr : List Nat
  maxLevel : Nat
deriving DecidableEq, Repr

/-- Constructor, dac_vector.hpp:489-564 (and :566-640 from an `int_vector_buffer`, whose text is the same). `m_max_level` is not initialised for an empty container: it is
    the parameter `junk`. -/
def new (b junk : Nat) (xs : List Word) : Option Dac :=
  if xs.length = 0 then some ⟨⟨b, []⟩, [], [0, 0, 0, 0], junk⟩
  else do
    let r ← countAll b xs ((List.replicate 128 0).set 0 xs.length) 4
    let p ← prefixSums (r.2 / 2) 0 ⟨r.1.take r.2, 0, 0, 0⟩
    let s ← enterAll b xs ⟨⟨b, List.replicate p.sum 0⟩, List.replicate (p.sum - p.last) false, p.lpr⟩
    let lpr ← fillRanks s.ov p.lpr.length 0 p.lpr
    pure ⟨s.data, s.ov, lpr, p.maxLevel⟩

/-- `size()`, dac_vector.hpp:411-414. -/
def Dac.size (d : Dac) : Option Nat := d.lpr[2]?

/-- The loop of `operator[]`, dac_vector.hpp:463-469; `p` is the index the pointer `p` refers to. -/
def getLoop (b : Nat) (d : Dac) : Nat → Nat → Nat → Nat → Nat → Word → Option Word
  | 0, _, _, _, _, _ => none
  | fuel + 1, level, offset, p, ppi, result =>
    if level < d.maxLevel then do
      let o ← d.ov[ppi]?
      if o then do
        let q ← d.lpr[p + 2]?
        let r ← d.lpr[p + 1]?
        let ppi := q + (rank d.ov ppi - r)
        let y ← d.data.get ppi
        let z ← shl (BitVec.ofNat 64 y) offset
        getLoop b d fuel (level + 1) ((offset + b) % 256) (p + 2) ppi (result ||| z)
      else some result
    else some result

/-- `operator[](i)`, dac_vector.hpp:456-471. -/
def Dac.get (b : Nat) (d : Dac) (i : Nat) : Option Word := do
  let x ← d.data.get i
  let q ← d.lpr[0]?
  getLoop b d 65 1 b 0 (q + i) (BitVec.ofNat 64 x)

end Sdsl.Dac
