/-
  Model of `select_0_support_sd` (include/sdsl/sd_vector.hpp:650-834), on the model of `sd_vector` (Sd.lean).

  `m_pointer` and `m_rank1` are abstract int_vectors (Arr.lean). The high part is a plain `bit_vector` here (`get_int` is applied
  to it); the word-wise reads are modelled by `word`: the constructor of the sd_vector sets all words of `high` to 0 first, so that
  the bits after the end are 0. Numbers are `Nat`s with explicit wrap-around modulo 2^64. `swap`, copy and serialisation are not
  modelled.
-/
import Verif.Sd

namespace Sdsl.Sd

open Bits

/-- `a * b` on `uint64_t`. -/
def mul64 (a b : Nat) : Nat := a * b % 2 ^ 64

/-- The members of the support, sd_vector.hpp:667-669 (without the pointer to the vector). -/
structure Sel0 where
  pointer : Arr
  rank1 : Arr
deriving DecidableEq, Repr

/-- `high.get_int(i, 64)` for a multiple `i` of 64; the word must exist. -/
def word (B : List Bool) (i : Nat) : Option Word :=
  if i < B.length then some (BitVec.ofNat 64 (Spec.bitsVal (fun k => Bv.bit B (i + k)) 64)) else none

/-- The number of zeros of the vector that precede the position represented by position `j` of the high part, when `rank1` ones of
    the high part precede it and `one` tells whether the last bit before `j` is a one: sd_vector.hpp:687-693 (with `rank_0` of line
    686), 711-717, 722-728 and 740-746. -/
def zerosAt (b : Sd) (bs j rank1 : Nat) (one : Bool) : Option Nat :=
  if rank1 > 0 ∧ one then do
    let l ← b.low.get (rank1 - 1)
    let pos := add64 (mul64 (sub64 j rank1) bs) l
    pure (sub64 (add64 pos 1) rank1)
  else pure (sub64 (mul64 (sub64 j rank1) bs) rank1)

/-- `a / b`, undefined for `b = 0`. -/
def div64 (a b : Nat) : Option Nat := if b = 0 then none else some (a / b)

/-- `while (sel0 <= z and sel0 <= zeros)`, sd_vector.hpp:694-698; `blk` is `i/64`, `step` is `64*bs`. Result: `sel0` and the
    members. The fuel bounds the iterations. -/
def storeLoop (z zeros step blk oldRank1 : Nat) : Nat → Nat → Sel0 → Option (Nat × Sel0)
  | 0, sel0, t => if sel0 ≤ z ∧ sel0 ≤ zeros then none else some (sel0, t)
  | fuel + 1, sel0, t =>
    if sel0 ≤ z ∧ sel0 ≤ zeros then do
      let k ← div64 (sub64 sel0 1) step
      let p ← t.pointer.set k blk
      let k ← div64 (sub64 sel0 1) step
      let r ← t.rank1.set k oldRank1
      storeLoop z zeros step blk oldRank1 fuel (add64 sel0 step) ⟨p, r⟩
    else some (sel0, t)

/-- The loop over the words of the high part, sd_vector.hpp:682-699: `c` words starting with position `i`. -/
def buildLoop (b : Sd) (bs zeros : Nat) : Nat → Nat → Nat → Nat → Sel0 → Option Sel0
  | 0, _, _, _, t => some t
  | c + 1, i, rank1, sel0, t => do
    let w ← word b.high i
    let r := add64 rank1 (cnt w).toNat
    let z ← zerosAt b bs (add64 i 64) r (w.getLsbD 63)
    let (sel0, t) ← storeLoop z zeros (mul64 64 bs) (i / 64) rank1 (zeros + 1) sel0 t
    buildLoop b bs zeros c (i + 64) r sel0 t

/-- The constructor, sd_vector.hpp:671-701. -/
def Sel0.new (b : Sd) : Option Sel0 := do
  let bs ← shl64 1 b.wl
  let ones ← rank true b b.size
  let zeros := sub64 b.size ones
  let q ← div64 zeros (mul64 64 bs)
  let h1 ← hi (BitVec.ofNat 64 (b.high.length / 64))
  let h2 ← hi (BitVec.ofNat 64 b.high.length)
  let p := Arr.new (q + 1) 0 (h1 + 1)
  buildLoop b bs zeros ((b.high.length + 63) / 64) 0 0 1 ⟨p, Arr.new p.xs.length 0 (h2 + 1)⟩

/-- The first loop of `select`: skip words, sd_vector.hpp:719-737. Result: `j`, `w` and `rank1`. -/
def wordSkip (b : Sd) (bs i : Nat) : Nat → Nat → Word → Nat → Option (Nat × Word × Nat)
  | 0, _, _, _ => none
  | fuel + 1, j, w, rank1 => do
    let r := add64 rank1 (cnt w).toNat
    let r0 ← zerosAt b bs (add64 j 64) r (w.getLsbD 63)
    if r0 < i then do
      let j := add64 j 64
      let w ← word b.high j
      wordSkip b bs i fuel j w r
    else pure (j, w, rank1)

/-- The second loop of `select`: skip bytes, sd_vector.hpp:739-756. -/
def byteSkip (b : Sd) (bs i : Nat) : Nat → Nat → Word → Nat → Option (Nat × Word × Nat)
  | 0, _, _, _ => none
  | fuel + 1, j, w, rank1 => do
    let c ← ltCnt[(w &&& 0xFF#64).toNat]?
    let r := add64 rank1 c
    let r0 ← zerosAt b bs (add64 j 8) r (w.getLsbD 7)
    if r0 < i then byteSkip b bs i fuel (add64 j 8) (w >>> 8) r
    else pure (j, w, rank1)

/-- The third loop of `select`: bit by bit, sd_vector.hpp:758-783. -/
def bitScan (b : Sd) (bs i : Nat) : Nat → Nat → Word → Nat → Option Nat
  | 0, _, _, _ => none
  | fuel + 1, j, w, rank1 =>
    let bit := w.getLsbD 0
    let w := w >>> 1
    let j := add64 j 1
    let next := fun rank1 => do
      let w ← if j % 64 = 0 then word b.high j else pure w
      bitScan b bs i fuel j w rank1
    if bit = false then
      let pos := mul64 (sub64 j rank1) bs
      let zeros := sub64 pos rank1
      if zeros ≥ i then some (sub64 (sub64 pos (sub64 zeros i)) 1) else next rank1
    else do
      let pos := mul64 (sub64 (sub64 j 1) rank1) bs
      let l ← b.low.get rank1
      let onePos := add64 pos l
      let rank1 := add64 rank1 1
      let zeros := sub64 (add64 onePos 1) rank1
      if zeros ≥ i then pure (sub64 (sub64 onePos (sub64 zeros i)) 1) else next rank1

/-- `select(i)`, sd_vector.hpp:704-785. The number of zeros at the start (lines 711-717) is computed but not used. -/
def Sel0.select (t : Sel0) (b : Sd) (i : Nat) : Option Nat := do
  let bs ← shl64 1 b.wl
  let k ← div64 (sub64 i 1) (mul64 64 bs)
  let j ← t.pointer.get k
  let j := mul64 j 64
  let rank1 ← t.rank1.get k
  let one ← if rank1 > 0 then Bv.get b.high (sub64 j 1) else pure false
  let _ ← zerosAt b bs j rank1 one
  let w ← word b.high j
  let (j, w, rank1) ← wordSkip b bs i (b.high.length + 1) j w rank1
  let (j, w, rank1) ← byteSkip b bs i 9 j w rank1
  bitScan b bs i 65 j w rank1

end Sdsl.Sd
