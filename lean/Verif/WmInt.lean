/-
  Model of `wm_int`, the wavelet matrix: include/sdsl/wm_int.hpp.

  Bit vector, rank and select by their contracts (`Bv`); the bits written word by word to a temporary file are an appended list; `zero_buf` is an appended list of values.
-/
import Verif.Arr
import Verif.Bits
import Verif.Bv
import Verif.WtInt
import Verif.WtRange

namespace Sdsl.Wt

open Bits

/-- `wm_int`, wm_int.hpp:89-97. -/
structure WmInt where
  size : Nat
  sigma : Nat
  tree : List Bool
  maxLevel : Nat
  zeroCnt : List Nat
  rankLevel : List Nat
deriving DecidableEq, Repr

namespace WmInt

/-! ### Construction -/

/-- The loop over `rac` of one level, wm_int.hpp:183-196; returns `rac`, the bits, `zeros` and the contents of `zero_buf`. -/
def scan (mask : Word) : Nat → Nat → Nat → List Word → List Word → List Bool → Option (List Word × List Bool × Nat × List Word)
  | 0, i, zeros, rac, ones, bits => if i < rac.length then none else some (rac, bits, zeros, ones)
  | fuel + 1, i, zeros, rac, ones, bits =>
    if i < rac.length then do
      let x ← rac[i]?
      if x &&& mask ≠ 0#64 then scan mask fuel (i + 1) zeros rac (ones ++ [x]) (bits ++ [true])
      else do
        let rac ← setList rac zeros x
        scan mask fuel (i + 1) (zeros + 1) rac ones (bits ++ [false])
    else some (rac, bits, zeros, ones)

/-- `for (size_t i=zeros; i<m_size; ++i) rac[i] = zero_buf[i-zeros];`, wm_int.hpp:198-200; `cnt` iterations remain. -/
def writeBack (zeros : Nat) (ones : List Word) : Nat → Nat → List Word → Option (List Word)
  | 0, _, rac => some rac
  | cnt + 1, i, rac => do writeBack zeros ones cnt (i + 1) (← setList rac i (← ones[i - zeros]?))

/-- The loop over the levels, wm_int.hpp:177-201; `c` levels remain. Returns `rac`, the bits and `m_zero_cnt`. -/
def levels : Nat → List Word → List Bool → List Nat → Option (List Word × List Bool × List Nat)
  | 0, rac, bits, zc => some (rac, bits, zc)
  | c + 1, rac, bits, zc => do
    let mask ← shl 1#64 c
    let r ← scan mask rac.length 0 0 rac [] bits
    let zeros := r.2.2.1
    let rac ← writeBack zeros r.2.2.2 (rac.length - zeros) zeros r.1
    levels c rac r.2.1 (zc ++ [zeros])

/-- `std::unique(rac.begin(), rac.end()) - rac.begin()`: the number of runs of equal values, wm_int.hpp:207. -/
def runs : List Word → Nat
  | [] => 0
  | [_] => 1
  | x :: y :: l => (if x = y then 0 else 1) + runs (y :: l)

/-- `m_rank_level[k] = m_tree_rank(k*m_size)`, wm_int.hpp:216-219; `cnt` levels remain. -/
def rankLevels (tree : List Bool) (n : Nat) : Nat → Nat → Option (List Nat)
  | 0, _ => some []
  | cnt + 1, k => do
    let r ← Bv.rank true tree (k * n)
    let rs ← rankLevels tree n cnt (k + 1)
    pure (r :: rs)

/-- Constructor, wm_int.hpp:137-220, for the first `size` values `xs` of the buffer. `maxLevel = 0` means automatic. -/
def new (maxLevel : Nat) (xs : List Word) : Option WmInt :=
  if xs.length = 0 then some ⟨0, 0, [], 0, [], []⟩
  else do
    let L ← if maxLevel = 0 then do pure ((← hi (WtInt.maxVal xs)) + 1) else some maxLevel
    let r ← levels L xs [] []
    let rl ← rankLevels r.2.1 xs.length L 0
    pure ⟨xs.length, runs r.1, r.2.1, L, r.2.2, rl⟩

/-! ### Queries -/

/-- The loop of `operator[]`, wm_int.hpp:301-311; `c` levels remain, `k` is the level. -/
def getLoop (t : WmInt) : Nat → Nat → Nat → Word → Option Word
  | 0, _, _, res => some res
  | c + 1, k, i, res => do
    let ri ← Bv.rank true t.tree i
    let rl ← t.rankLevel[k]?
    let ones := ri - rl
    if ← Bv.get t.tree i then do
      let z ← t.zeroCnt[k]?
      getLoop t c (k + 1) ((k + 1) * t.size + z + ones) (res <<< 1 ||| 1#64)
    else getLoop t c (k + 1) ((k + 1) * t.size + ((i - k * t.size) - ones)) (res <<< 1)

/-- `operator[](i)`, wm_int.hpp:297-313. -/
def get (t : WmInt) (i : Nat) : Option Word := getLoop t t.maxLevel 0 i 0#64

/-- The next start position `b` of the interval, wm_int.hpp:337-343, 368-375, 403-409. -/
def nextB (t : WmInt) (k b rb : Nat) (one : Bool) : Option Nat := do
  let rl ← t.rankLevel[k]?
  let onesP := rb - rl
  if one then do
    let z ← t.zeroCnt[k]?
    pure ((k + 1) * t.size + z + onesP)
  else pure ((k + 1) * t.size + (b - k * t.size - onesP))

/-- The loop of `rank`, wm_int.hpp:333-345; it also ends when `i` becomes 0. -/
def rankLoop (t : WmInt) (a : Word) : Nat → Nat → Nat → Nat → Word → Option Nat
  | 0, _, _, i, _ => some i
  | c + 1, k, b, i, mask =>
    if i = 0 then some 0
    else do
      let rb ← Bv.rank true t.tree b
      let ri ← Bv.rank true t.tree (b + i)
      let ones := ri - rb
      let b' ← nextB t k b rb (decide (a &&& mask ≠ 0#64))
      rankLoop t a c (k + 1) b' (if a &&& mask ≠ 0#64 then ones else i - ones) (mask >>> 1)

/-- `1ULL << (m_max_level-1)`: undefined for `m_max_level = 0`, where the amount is `2^32-1`. -/
def topMask (t : WmInt) : Option Word := if t.maxLevel = 0 then none else shl 1#64 (t.maxLevel - 1)

/-- `rank(i, c)`, wm_int.hpp:325-347. -/
def rank (t : WmInt) (i : Nat) (a : Word) : Option Nat := do
  if (← shl 1#64 t.maxLevel) ≤ a then pure 0
  else do
    let mask ← topMask t
    rankLoop t a t.maxLevel 0 0 i mask

/-- The loop of `inverse_select`, wm_int.hpp:363-377. -/
def invLoop (t : WmInt) : Nat → Nat → Nat → Nat → Word → Option (Nat × Word)
  | 0, _, _, i, res => some (i, res)
  | c + 1, k, b, i, res => do
    let rb ← Bv.rank true t.tree b
    let ri ← Bv.rank true t.tree (b + i)
    let ones := ri - rb
    let x ← Bv.get t.tree (b + i)
    let b' ← nextB t k b rb x
    invLoop t c (k + 1) b' (if x then ones else i - ones) (if x then res <<< 1 ||| 1#64 else res <<< 1)

/-- `inverse_select(i)`, wm_int.hpp:357-379. -/
def inverseSelect (t : WmInt) (i : Nat) : Option (Nat × Word) := do
  let _ ← topMask t
  invLoop t t.maxLevel 0 0 i 0#64

/-- The first loop of `select`, wm_int.hpp:399-413, for `i ≠ 0`; the recorded pairs (`m_path_off[k]`, `m_path_rank_off[k]`), the deepest first. -/
def selDown (t : WmInt) (a : Word) : Nat → Nat → Nat → Nat → Word → List (Nat × Nat) → Option (List (Nat × Nat))
  | 0, _, _, _, _, path => some path
  | c + 1, k, b, r, mask, path => do
    let rb ← Bv.rank true t.tree b
    let rr ← Bv.rank true t.tree (b + r)
    let ones := rr - rb
    let b' ← nextB t k b rb (decide (a &&& mask ≠ 0#64))
    selDown t a c (k + 1) b' (if a &&& mask ≠ 0#64 then ones else r - ones) (mask >>> 1) ((b, rb) :: path)

/-- The second loop of `select`, wm_int.hpp:415-424. -/
def selUp (t : WmInt) (a : Word) : List (Nat × Nat) → Word → Nat → Option Nat
  | [], _, i => some i
  | (b, rb) :: path, mask, i =>
    if a &&& mask ≠ 0#64 then do
      let p ← Bv.select true t.tree (rb + i)
      selUp t a path (mask <<< 1) (p - b + 1)
    else do
      let p ← Bv.select false t.tree (b - rb + i)
      selUp t a path (mask <<< 1) (p - b + 1)

/-- `select(i, c)`, wm_int.hpp:390-426, for `i ≥ 1` (its precondition). -/
def select (t : WmInt) (i : Nat) (a : Word) : Option Nat := do
  let mask ← topMask t
  let path ← selDown t a t.maxLevel 0 0 i mask []
  let i ← selUp t a path 1#64 i
  pure (i - 1)

end WmInt

end Sdsl.Wt
