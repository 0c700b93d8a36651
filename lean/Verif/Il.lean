/-
  Model of `bit_vector_il`, `rank_support_il` and `select_support_il` (include/sdsl/bit_vector_il.hpp).

  The template parameter `t_bs` is `64 * sr`. It is a power of two (static_assert), so that shifting by `bits::hi(t_bs)` is
  multiplication by `t_bs` and shifting by `bits::hi(t_bs>>6)` multiplication by `sr`; the model multiplies (and holds for every
  `sr > 0`). Positions and counts are `Nat`, the stored words are words. Simplified: `NOSELCACHE` is not defined;
  serialisation is not modelled here.
-/
import Verif.Bits
import Verif.IntVec

namespace Sdsl.Il

open Bits

/-- Members of `bit_vector_il`, bit_vector_il.hpp:79-84 (`m_block_shift` is determined by the template parameter). -/
structure Il where
  size : Nat
  superblocks : Nat
  data : Mem
  samples : Mem
deriving DecidableEq, Repr

/-- Loop of the constructor, bit_vector_il.hpp:135-144: `n` iterations from `i`. -/
def buildLoop (sr : Nat) (bvp : Mem) : Nat → Nat → Nat → Nat → Word → Mem → Option (Nat × Word × Mem)
  | _, 0, _, j, sum, d => some (j, sum, d)
  | i, n + 1, c, j, sum, d =>
    if c = sr then do
      let d ← st d j sum
      let w ← ld bvp i
      let d ← st d (j + 1) w
      buildLoop sr bvp (i + 1) n 1 (j + 2) (sum + cnt w) d
    else do
      let w ← ld bvp i
      let d ← st d j w
      buildLoop sr bvp (i + 1) n (c + 1) (j + 1) (sum + cnt w) d

/-- Loop of `init_rank_samples`, bit_vector_il.hpp:94-105; the queues `lbs` and `rbs` always have the same length and are one
    list of pairs. The first number bounds the iterations. -/
def samplesLoop (sr : Nat) (d : Mem) : Nat → Nat → List (Nat × Nat) → Mem → Option Mem
  | _, _, [], s => some s
  | 0, _, _ :: _, _ => none
  | f + 1, idx, (lb, rb) :: q, s =>
    if idx < s.length then do
      let mid := lb + (rb - lb) / 2
      let s ← st s idx (← ld d (mid * sr + mid))
      samplesLoop sr d f (idx + 1) (q ++ [(lb, mid), (mid + 1, rb)]) s
    else samplesLoop sr d f idx q s

/-- Number of rank samples, bit_vector_il.hpp:147-152. -/
def numSamples (mem superblocks : Nat) : Option Nat :=
  if mem > 1024 * 64 then do pure (min 1024 (2 ^ (← hi (BitVec.ofNat 64 superblocks)))) else some 0

/-- Constructor, bit_vector_il.hpp:114-154. -/
def build (sr : Nat) (v : IntVec) : Option Il := do
  let superblocks := (v.size + 64 * sr) / (64 * sr)
  let blocks := (v.size + 64) / 64
  let mem := blocks + superblocks + 1
  let r ← buildLoop sr v.data 0 blocks sr 0 0#64 (List.replicate mem 0#64)
  let d ← st r.2.2 r.1 r.2.1
  let ns ← numSamples mem superblocks
  let s ← samplesLoop sr d (2 * ns + 1) 0 [(0, superblocks)] (List.replicate ns 0#64)
  pure ⟨v.size, superblocks, d, s⟩

/-- `operator[]`, bit_vector_il.hpp:162-168. -/
def access (sr : Nat) (b : Il) (i : Nat) : Option Word := do
  pure ((← shr (← ld b.data (i / (64 * sr) + i / 64 + 1)) (i % 64)) &&& 1#64)

/-- `get_int`, bit_vector_il.hpp:178-193. -/
def getInt (sr : Nat) (b : Il) (idx len : Nat) : Option Word := do
  let bb := idx / (64 * sr) + idx / 64 + 1
  let eb := (idx + len - 1) / (64 * sr) + (idx + len - 1) / 64 + 1
  if bb = eb then pure ((← shr (← ld b.data bb) (idx % 64)) &&& (← loSet len))
  else do
    let bl := 64 - idx % 64
    pure ((← shr (← ld b.data bb) (idx % 64)) ||| (← shl ((← ld b.data eb) &&& (← loSet (len - bl))) bl))

/-- The word as `rank1`/`select1` (`tb = true`) or `rank0`/`select0` see it. -/
def view (tb : Bool) (w : Word) : Word := if tb then w else ~~~w

/-- The loop of `rank1` and `rank0`, bit_vector_il.hpp:276-279, 294-297: `n = bits/64` iterations from word `p`. -/
def rankLoop (tb : Bool) (d : Mem) : Nat → Nat → Nat → Option (Nat × Nat)
  | 0, p, r => some (p, r)
  | n + 1, p, r => do rankLoop tb d n (p + 1) (r + (cnt (view tb (← ld d p))).toNat)

/-- The number before superblock `s` derived from the stored sample: `m_data[..]` in `rank1`, `(s << shift) - m_data[..]` in
    `rank0`. The subtraction cannot wrap because a sample never exceeds the number of bits before the superblock. -/
def before (tb : Bool) (sr s : Nat) (w : Word) : Nat := if tb then w.toNat else s * (64 * sr) - w.toNat

/-- `rank1(i)` and `rank0(i)`, bit_vector_il.hpp:267-302. -/
def rank (tb : Bool) (sr : Nat) (b : Il) (i : Nat) : Option Nat := do
  let s := i / (64 * sr)
  let p := s * sr + s
  let r := before tb sr s (← ld b.data p)
  let q ← rankLoop tb b.data ((i % (64 * sr) - i % 64) / 64) (p + 1) r
  pure (q.2 + (cnt (view tb (← ld b.data q.1) &&& (← loSet (i % 64)))).toNat)

/-- Binary search over the superblocks in `select1` and `select0`, bit_vector_il.hpp:386-414, 438-466; gives the final `rb`.
    The first number bounds the iterations. -/
def selSearch (tb : Bool) (sr : Nat) (b : Il) (i : Nat) : Nat → Nat → Nat → Nat → Option Nat
  | 0, _, _, _ => none
  | f + 1, lb, rb, idx =>
    if lb < rb then
      let mid := (lb + rb) / 2
      if idx < b.samples.length then do
        if before tb sr mid (← ld b.samples idx) ≥ i then selSearch tb sr b i f lb mid (2 * idx + 1)
        else selSearch tb sr b i f (mid + 1) rb (2 * idx + 2)
      else do
        if before tb sr mid (← ld b.data (mid * sr + mid)) ≥ i then selSearch tb sr b i f lb mid idx
        else selSearch tb sr b i f (mid + 1) rb idx
    else some rb

/-- The word loop of `select1` and `select0` and the final `sel`, bit_vector_il.hpp:420-429, 473-482. The first number bounds the
    iterations. -/
def selScan (tb : Bool) (d : Mem) : Nat → Nat → Nat → Nat → Option Nat
  | 0, _, _, _ => none
  | f + 1, p, i, res => do
    let w := view tb (← ld d p)
    if (cnt w).toNat < i then selScan tb d f (p + 1) (i - (cnt w).toNat) (res + 64)
    else do pure (res + (← sel w i))

/-- `select1(i)` and `select0(i)`, bit_vector_il.hpp:377-483. `rb-1` for `rb = 0` would wrap: undefined. -/
def select (tb : Bool) (sr : Nat) (b : Il) (i : Nat) : Option Nat := do
  let rb ← selSearch tb sr b i (b.superblocks + 1) 0 b.superblocks 0
  if rb = 0 then none
  else do
    let p := (rb - 1) * sr + (rb - 1)
    let i := i - before tb sr (rb - 1) (← ld b.data p)
    selScan tb b.data (b.data.length + 1) (p + 1) i ((rb - 1) * (64 * sr))

end Sdsl.Il
