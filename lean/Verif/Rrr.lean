/-
  Model of rrr_vector (block sizes 3..256 except the specialisation for 15) with its rank and select supports.
  include/sdsl/rrr_helper.hpp, include/sdsl/rrr_vector.hpp.

  Conventions and simplifications: the input bit vector, `m_btnr` and `m_invert` are abstract bit vectors (`Bv`), `m_btnrp`,
  `m_rank` and the block types are `Arr`s (`t_rac = int_vector<>`; `m_bt = bt_array`). `number_type` (uint64_t, uint128_t,
  uint256_t for block sizes up to 64, 128, 256) is `Nat` with explicit reduction modulo `2^64`, `2^128`, `2^256`; `trait::hi` and
  `trait::popcount` are the mathematical functions (C01, C02, C45 cover the implementations), `uint16_t` counters are `Nat`s.
  The optimised code paths are modelled (`RRR_NO_OPT` and `RRR_NO_BS` undefined).
-/
import Verif.RrrComb
import Verif.BvInt
import Verif.Arr

namespace Sdsl.Rrr

open Sdsl.Spec Sdsl.Bv

/-- `MAX_LOG`; include/sdsl/rrr_helper.hpp:234. -/
def maxLog (n : Nat) : Nat := if n > 128 then 8 else if n > 64 then 7 else 6

/-- `MAX_SIZE`, which is also the number of bits of `number_type`; include/sdsl/rrr_helper.hpp:44-45, 88-89, 127-128, 235-237. -/
def maxSize (n : Nat) : Nat := 2 ^ maxLog n

/-- Row `nn` of `binomial_table<N, B-bit number>::impl::table` (columns 0..N); include/sdsl/rrr_helper.hpp:181-197.
    The loops assign every entry of a row from the row before, except the first row and the first column. -/
def row (N B : Nat) : Nat → List Nat
  | 0 => 1 :: List.replicate N 0
  | nn + 1 => 1 :: List.zipWith (fun a b => (a + b) % 2 ^ B) (row N B nn) (row N B nn).tail

/-- `binomial::data.table[nn-1][k]`; include/sdsl/rrr_helper.hpp:241. Index `-1` and indices behind the table are undefined. -/
def tbl (n nn k : Nat) : Option Nat :=
  if nn = 0 ∨ nn - 1 > maxSize n then none else (row (maxSize n) (maxSize n) (nn - 1))[k]?

/-- `space_for_bt(k)`; include/sdsl/rrr_helper.hpp:251-256, 282-284. -/
def space (n k : Nat) : Option Nat := do
  let c ← (row n (maxSize n) n)[k]?
  pure (if c = 1 then 0 else Nat.log2 c + 1)

/-- `trait::get_int` = `decode_btnr`; include/sdsl/rrr_helper.hpp:58-62, 99-107, 134-148, 287-290. -/
def decodeBtnr (n : Nat) (B : List Bool) (pos len : Nat) : Option Nat :=
  if len ≤ 64 ∨ maxLog n = 6 then getInt B pos len
  else if maxLog n = 7 then do
    let h ← getInt B (pos + 64) (len - 64)
    let l ← getInt B pos 64
    pure ((h * 2 ^ 64 + l) % 2 ^ 128)
  else if len ≤ 128 then do
    let l ← getInt B pos 64
    let m ← getInt B (pos + 64) (len - 64)
    pure (l + 2 ^ 64 * m)
  else if len ≤ 192 then do
    let l ← getInt B pos 64
    let m ← getInt B (pos + 64) 64
    let h ← getInt B (pos + 128) (len - 128)
    pure (l + 2 ^ 64 * m + 2 ^ 128 * h)
  else do
    let l ← getInt B pos 64
    let m ← getInt B (pos + 64) 64
    let hh ← getInt B (pos + 192) (len - 192)
    let h ← getInt B (pos + 128) 64
    pure (l + 2 ^ 64 * m + 2 ^ 128 * (2 ^ 64 * hh + h))

/-- `trait::set_int` = `set_bt`; include/sdsl/rrr_helper.hpp:72-75, 110-118, 151-166, 293-296. -/
def setBt (n : Nat) (B : List Bool) (pos x len : Nat) : Option (List Bool) :=
  if len ≤ 64 ∨ maxLog n = 6 then setInt B pos (x % 2 ^ 64) len
  else if maxLog n = 7 ∨ len ≤ 128 then do
    let B1 ← setInt B pos (x % 2 ^ 64) 64
    setInt B1 (pos + 64) (x / 2 ^ 64 % 2 ^ 64) (len - 64)
  else if len ≤ 192 then do
    let B1 ← setInt B pos (x % 2 ^ 64) 64
    let B2 ← setInt B1 (pos + 64) (x / 2 ^ 64 % 2 ^ 64) 64
    setInt B2 (pos + 128) (x / 2 ^ 128 % 2 ^ 64) (len - 128)
  else do
    let B1 ← setInt B pos (x % 2 ^ 64) 64
    let B2 ← setInt B1 (pos + 64) (x / 2 ^ 64 % 2 ^ 64) 64
    let B3 ← setInt B2 (pos + 128) (x / 2 ^ 128 % 2 ^ 64) 64
    setInt B3 (pos + 192) (x / 2 ^ 192 % 2 ^ 64) (len - 192)

/-- `trait::popcount`; include/sdsl/rrr_helper.hpp:81-83, 120-122, 168-170. -/
def popBig (n x : Nat) : Nat := countTrue (fun i => x.testBit i) (maxSize n)

/-- `get_bt(bv, pos, block_size)`; include/sdsl/rrr_helper.hpp:299-302. -/
def getBt (n : Nat) (B : List Bool) (pos len : Nat) : Option Nat := do
  pure (popBig n (← decodeBtnr n B pos len))

/-- Loop of `bin_to_nr`; include/sdsl/rrr_helper.hpp:311-318. -/
def binLoop (n : Nat) : Nat → Nat → Nat → Nat → Option Nat
  | 0, bin, _, nr => if bin = 0 then some nr else none
  | nn + 1, bin, k, nr =>
    if bin = 0 then some nr
    else if bin % 2 = 1 then
      if k = 0 then none
      else do
        let c ← tbl n (nn + 1) k
        binLoop n nn (bin / 2) (k - 1) ((nr + c) % 2 ^ maxSize n)
    else binLoop n nn (bin / 2) k nr

/-- `bin_to_nr`; include/sdsl/rrr_helper.hpp:304-320. `L1Mask[n]` is `2^n - 1`, see lines 198-207. -/
def binToNr (n bin : Nat) : Option Nat :=
  if bin = 0 ∨ bin = 2 ^ n - 1 then some 0 else binLoop n n bin (popBig n bin) 0

/-- `n - nr - 1` in `number_type`. -/
def lastPos (n nr : Nat) : Nat := (n + 2 ^ maxSize n - nr + (2 ^ maxSize n - 1)) % 2 ^ maxSize n

/-- `BINARY_SEARCH_THRESHOLD`; include/sdsl/rrr_helper.hpp:244. -/
def threshold (n : Nat) : Nat := n / maxLog n

/-- The binary search inside the decoders: final value of `nn_lb`; include/sdsl/rrr_helper.hpp:338-346, 427-435, 477-485. -/
def bsearch (n k nr : Nat) : Nat → Nat → Nat → Option Nat
  | 0, lb, rb => if lb < rb then none else some lb
  | fuel + 1, lb, rb =>
    if lb < rb then do
      let mid := (lb + rb) / 2
      let c ← tbl n mid k
      if c ≤ nr then bsearch n k nr fuel (mid + 1) rb else bsearch n k nr fuel lb mid
    else some lb

/-- Binary-search branch of `decode_bit`; include/sdsl/rrr_helper.hpp:337-354. Recursion over `k`. -/
def bitBs (n off : Nat) : Nat → Nat → Nat → Option Bool
  | 0, _, nr => some (lastPos n nr == off)
  | 1, _, nr => some (lastPos n nr == off)
  | k + 2, nn, nr => do
    let lb ← bsearch n (k + 2) nr (nn + 2) (k + 2) (nn + 1)
    let nn' := lb - 1
    if n - nn' ≥ off then pure (n - nn' == off)
    else do
      let c ← tbl n nn' (k + 2)
      bitBs n off (k + 1) (nn' - 1) (nr - c)

/-- Linear branch of `decode_bit`; include/sdsl/rrr_helper.hpp:356-369. Recursion over `nn`; the loop needs `nn ≥ 1` to read the
    table. -/
def bitLin (n off : Nat) : Nat → Nat → Nat → Nat → Option Bool
  | 0, k, nr, _ => if k > 1 then none else some (lastPos n nr == off)
  | nn + 1, k, nr, i =>
    if k > 1 then
      if i > off then some false
      else do
        let c ← tbl n (nn + 1) k
        if c ≤ nr then (if i = off then some true else bitLin n off nn (k - 1) (nr - c) (i + 1))
        else bitLin n off nn k nr (i + 1)
    else some (lastPos n nr == off)

/-- `decode_bit(k, nr, off)`; include/sdsl/rrr_helper.hpp:323-371. -/
def decodeBit (n k nr off : Nat) : Option Bool :=
  if k = n then some true
  else if k = 0 then some false
  else if k = 1 then some (lastPos n nr == off)
  else if k < threshold n then bitBs n off k n nr
  else bitLin n off n k nr 0

/-- `1ULL << j`. -/
def one64 (j : Nat) : Option Nat := if j < 64 then some (2 ^ j) else none

/-- Last step of `decode_int`; include/sdsl/rrr_helper.hpp:381-384, 404-406. -/
def intLast (n nr off len res : Nat) : Option Nat :=
  if lastPos n nr ≥ off ∧ lastPos n nr ≤ off + len - 1 then do
    let b ← one64 (lastPos n nr - off)
    pure (res ||| b)
  else some res

/-- Loop of `decode_int`; include/sdsl/rrr_helper.hpp:389-406. -/
def intLin (n off len : Nat) : Nat → Nat → Nat → Nat → Nat → Option Nat
  | 0, k, nr, _, res => if k > 1 then none else intLast n nr off len res
  | nn + 1, k, nr, i, res =>
    if k > 1 then
      if i > off + len - 1 then some res
      else do
        let c ← tbl n (nn + 1) k
        if c ≤ nr then
          if i ≥ off then do
            let b ← one64 (i - off)
            intLin n off len nn (k - 1) (nr - c) (i + 1) (res ||| b)
          else intLin n off len nn (k - 1) (nr - c) (i + 1) res
        else intLin n off len nn k nr (i + 1) res
    else intLast n nr off len res

/-- `decode_int(k, nr, off, len)`; include/sdsl/rrr_helper.hpp:374-408. -/
def decodeInt (n k nr off len : Nat) : Option Nat :=
  if k = n then (if len ≤ 64 then some (2 ^ len - 1) else none)
  else if k = 0 then some 0
  else if k = 1 then intLast n nr off len 0
  else intLin n off len n k nr 0 0

/-- Binary-search branch of `decode_popcount`; include/sdsl/rrr_helper.hpp:426-444. -/
def popBs (n off : Nat) : Nat → Nat → Nat → Nat → Option Nat
  | 0, _, nr, res => some (res + (decide (lastPos n nr < off)).toNat)
  | 1, _, nr, res => some (res + (decide (lastPos n nr < off)).toNat)
  | k + 2, nn, nr, res => do
    let lb ← bsearch n (k + 2) nr (nn + 2) (k + 2) (nn + 1)
    let nn' := lb - 1
    if n - nn' ≥ off then pure res
    else do
      let c ← tbl n nn' (k + 2)
      popBs n off (k + 1) (nn' - 1) (nr - c) (res + 1)

/-- Linear branch of `decode_popcount`; include/sdsl/rrr_helper.hpp:446-459. -/
def popLin (n off : Nat) : Nat → Nat → Nat → Nat → Nat → Option Nat
  | 0, k, nr, _, res => if k > 1 then none else some (res + (decide (lastPos n nr < off)).toNat)
  | nn + 1, k, nr, i, res =>
    if k > 1 then
      if i ≥ off then some res
      else do
        let c ← tbl n (nn + 1) k
        if c ≤ nr then popLin n off nn (k - 1) (nr - c) (i + 1) (res + 1)
        else popLin n off nn k nr (i + 1) res
    else some (res + (decide (lastPos n nr < off)).toNat)

/-- `decode_popcount(k, nr, off)`; include/sdsl/rrr_helper.hpp:411-460. -/
def decodePopcount (n k nr off : Nat) : Option Nat :=
  if k = n then some off
  else if k = 0 then some 0
  else if k = 1 then some (decide (lastPos n nr < off)).toNat
  else if k < threshold n then popBs n off k n nr 0
  else popLin n off n k nr 0 0

/-- Binary-search branch of `decode_select`; include/sdsl/rrr_helper.hpp:475-493. Recursion over `sel`. -/
def selBs (n : Nat) : Nat → Nat → Nat → Nat → Option Nat
  | 0, _, nn, _ => some (n - nn - 1)
  | sel + 1, k, nn, nr => do
    let lb ← bsearch n k nr (nn + 2) k (nn + 1)
    let nn' := lb - 1
    let c ← tbl n nn' k
    selBs n sel (k - 1) (nn' - 1) (nr - c)

/-- Linear branch of `decode_select`; include/sdsl/rrr_helper.hpp:495-505. -/
def selLin (n : Nat) : Nat → Nat → Nat → Nat → Nat → Option Nat
  | 0, _, _, sel, i => if sel > 0 then none else some (i - 1)
  | nn + 1, k, nr, sel, i =>
    if sel > 0 then do
      let c ← tbl n (nn + 1) k
      if c ≤ nr then selLin n nn (k - 1) (nr - c) (sel - 1) (i + 1)
      else selLin n nn k nr sel (i + 1)
    else some (i - 1)

/-- `decode_select(k, nr, sel)`; include/sdsl/rrr_helper.hpp:464-506. -/
def decodeSelect (n k nr sel : Nat) : Option Nat :=
  if k = n then some (sel - 1)
  else if k = 1 ∧ sel = 1 then some (lastPos n nr)
  else if sel < threshold n then selBs n sel k n nr
  else selLin n n k nr sel 0

/-- `decode_select_bitpattern<0,1>(k, nr, sel)`; include/sdsl/rrr_helper.hpp:510-537 with `len = 1`: every decoded bit is compared
    with the pattern `0`. -/
def selZero (n : Nat) : Nat → Nat → Nat → Nat → Nat → Option Nat
  | 0, _, _, sel, i => if sel > 0 then none else some (i - 1)
  | nn + 1, k, nr, sel, i =>
    if sel > 0 then do
      let c ← tbl n (nn + 1) k
      if c ≤ nr then selZero n nn (k - 1) (nr - c) sel (i + 1)
      else selZero n nn k nr (sel - 1) (i + 1)
    else some (i - 1)

/-- `rrr_vector<t_bs, int_vector<>, t_k>`; include/sdsl/rrr_vector.hpp:101-110. -/
structure Vec where
  size : Nat
  bt : Arr
  btnr : List Bool
  btnrp : Arr
  rank : Arr
  invert : List Bool

/-- Pass (1): block types, total rank and total code length; include/sdsl/rrr_vector.hpp:155-170. `cnt` full blocks remain. -/
def pass1 (n : Nat) (B : List Bool) : Nat → Arr → Nat → Nat → Nat → Nat → Option (Arr × Nat × Nat)
  | 0, bt, pos, i, sum, btnrPos =>
    if pos < B.length then do
      let x ← getBt n B pos (B.length - pos)
      let bt' ← bt.set i x
      let s ← space n x
      pure (bt', sum + x, btnrPos + s)
    else some (bt, sum, btnrPos)
  | c + 1, bt, pos, i, sum, btnrPos => do
    let x ← getBt n B pos n
    let bt' ← bt.set i x
    let s ← space n x
    pass1 n B c bt' (pos + n) (i + 1) (sum + x) (btnrPos + s)

/-- Number of blocks `j` in `[j, j+cnt)` with more than half of the bits set; include/sdsl/rrr_vector.hpp:193-197. -/
def gtHalf (n : Nat) (bt : Arr) : Nat → Nat → Option Nat
  | _, 0 => some 0
  | j, c + 1 => do
    let x ← bt.get j
    let r ← gtHalf n bt (j + 1) c
    pure ((if x > n / 2 then 1 else 0) + r)

/-- `bt_array[j] = t_bs - bt_array[j]` for `cnt` blocks; include/sdsl/rrr_vector.hpp:200-202. -/
def flipTypes (n : Nat) : Arr → Nat → Nat → Option Arr
  | bt, _, 0 => some bt
  | bt, j, c + 1 => do
    let x ← bt.get j
    let bt' ← bt.set j (n - x)
    flipTypes n bt' (j + 1) c

/-- State of pass (2). -/
structure St where
  bt : Arr
  btnr : List Bool
  btnrp : Arr
  rank : Arr
  inv : List Bool
  pos : Nat
  i : Nat
  btnrPos : Nat
  sum : Nat
  invert : Bool

/-- Start of a superblock in the loop over full blocks; include/sdsl/rrr_vector.hpp:187-210. -/
def superStart (n tk : Nat) (s : St) : Option St :=
  if s.i % tk = 0 then do
    let btnrp ← s.btnrp.set (s.i / tk) s.btnrPos
    let rank ← s.rank.set (s.i / tk) s.sum
    if s.i + tk ≤ s.bt.xs.length then do
      let g ← gtHalf n s.bt s.i tk
      if g > tk / 2 then do
        let inv ← Bv.set s.inv (s.i / tk) true
        let bt ← flipTypes n s.bt s.i tk
        pure { s with btnrp := btnrp, rank := rank, inv := inv, bt := bt, invert := true }
      else pure { s with btnrp := btnrp, rank := rank, invert := false }
    else pure { s with btnrp := btnrp, rank := rank, invert := false }
  else some s

/-- Start of a superblock at the last, incomplete block; include/sdsl/rrr_vector.hpp:225-230. -/
def superLast (tk : Nat) (s : St) : Option St :=
  if s.i % tk = 0 then do
    let btnrp ← s.btnrp.set (s.i / tk) s.btnrPos
    let rank ← s.rank.set (s.i / tk) s.sum
    let inv ← Bv.set s.inv (s.i / tk) false
    pure { s with btnrp := btnrp, rank := rank, inv := inv, invert := false }
  else some s

/-- Encode one block of `len` bits; include/sdsl/rrr_vector.hpp:211-220, 231-241. -/
def encBlock (n : Nat) (B : List Bool) (len : Nat) (s : St) : Option St := do
  let x ← s.bt.get s.i
  let sp ← space n x
  let btnr ← if sp ≠ 0 then do
      let bin ← decodeBtnr n B s.pos len
      let nr ← binToNr n bin
      setBt n s.btnr s.btnrPos nr sp
    else some s.btnr
  pure { s with btnr := btnr, i := s.i + 1, sum := s.sum + (if s.invert then n - x else x), btnrPos := s.btnrPos + sp }

/-- Pass (2) with `cnt` full blocks remaining; include/sdsl/rrr_vector.hpp:182-245. -/
def pass2 (n tk : Nat) (B : List Bool) : Nat → St → Option St
  | 0, s =>
    if s.pos < B.length then do
      let s1 ← superLast tk s
      encBlock n B (B.length - s.pos) s1
    else some s
  | c + 1, s => do
    let s1 ← superStart n tk s
    let s2 ← encBlock n B n s1
    pass2 n tk B c { s2 with pos := s2.pos + n }

/-- `rrr_vector(const bit_vector& bv)`; include/sdsl/rrr_vector.hpp:145-249. -/
def build (n tk : Nat) (B : List Bool) : Option Vec := do
  let bt0 := Arr.new ((B.length + n) / n) 0 (Nat.log2 n + 1)
  let (bt, sum, btnrPos) ← pass1 n B (B.length / n) bt0 0 0 0 0
  let nsb := (bt.xs.length + tk - 1) / tk
  let s ← pass2 n tk B (B.length / n)
    { bt := bt, btnr := List.replicate (max btnrPos 64) false, btnrp := Arr.new nsb 0 (Nat.log2 btnrPos + 1),
      rank := Arr.new (nsb + (if B.length % (tk * n) > 0 then 1 else 0)) 0 (Nat.log2 sum + 1),
      inv := List.replicate nsb false, pos := 0, i := 0, btnrPos := 0, sum := 0, invert := false }
  let rank ← s.rank.set (s.rank.xs.length - 1) s.sum
  pure { size := B.length, bt := s.bt, btnr := s.btnr, btnrp := s.btnrp, rank := rank, invert := s.inv }

/-- Sum of `space_for_bt(m_bt[j])` for `cnt` blocks from `j`; include/sdsl/rrr_vector.hpp:270-272. -/
def addSpace (n : Nat) (v : Vec) : Nat → Nat → Nat → Option Nat
  | _, 0, btnrp => some btnrp
  | j, c + 1, btnrp => do
    let r ← v.bt.get j
    let s ← space n r
    addSpace n v (j + 1) c (btnrp + s)

/-- `operator[]`; include/sdsl/rrr_vector.hpp:257-277. -/
def access (n tk : Nat) (v : Vec) (i : Nat) : Option Bool := do
  let btIdx := i / n
  let x ← v.bt.get btIdx
  let sp := btIdx / tk
  let inv ← Bv.get v.invert sp
  let bt := if inv then n - x else x
  if bt = 0 ∨ bt = n then pure (decide (bt > 0))
  else do
    let p0 ← v.btnrp.get sp
    let btnrp ← addSpace n v (sp * tk) (btIdx - sp * tk) p0
    let len ← space n bt
    let nr ← decodeBtnr n v.btnr btnrp len
    decodeBit n bt nr (i % n)

/-- `get_int` inside one block; include/sdsl/rrr_vector.hpp:293-311. -/
def getIntBlock (n tk : Nat) (v : Vec) (idx len : Nat) : Option Nat := do
  let bb := idx / n
  let x ← v.bt.get bb
  let sp := bb / tk
  let inv ← Bv.get v.invert sp
  let bt := if inv then n - x else x
  if bt = 0 then pure 0
  else if bt = n ∧ n ≤ 64 then (if len ≤ 64 then some (2 ^ len - 1) else none)
  else do
    let p0 ← v.btnrp.get sp
    let btnrp ← addSpace n v (sp * tk) (bb - sp * tk) p0
    let l ← space n bt
    let nr ← decodeBtnr n v.btnr btnrp l
    decodeInt n bt nr (idx % n) len

/-- Loop over the blocks of `get_int`; include/sdsl/rrr_vector.hpp:312-323. The recursive calls stay inside one block. -/
def getIntLoop (n tk : Nat) (v : Vec) : Nat → Nat → Nat → Nat → Nat → Nat → Option Nat
  | 0, _, _, _, _, _ => none
  | fuel + 1, idx, len, bLen, sum, res => do
    let y ← getIntBlock n tk v idx bLen
    let b ← if sum < 64 then some (y * 2 ^ sum % 2 ^ 64) else none
    let res' := res ||| b
    let len' := len - bLen
    if len' > 0 then getIntLoop n tk v fuel (idx + bLen) len' (min len' n) (sum + bLen) res' else pure res'

/-- `get_int(idx, len)`; include/sdsl/rrr_vector.hpp:287-326. -/
def getInt (n tk : Nat) (v : Vec) (idx len : Nat) : Option Nat :=
  if idx / n = (idx + len - 1) / n then getIntBlock n tk v idx len
  else getIntLoop n tk v (len + 1) idx len (n - idx % n) 0 0

/-- Loop of `rank`; include/sdsl/rrr_vector.hpp:466-470. -/
def rankLoop (n : Nat) (v : Vec) (inv : Bool) : Nat → Nat → Nat → Nat → Option (Nat × Nat)
  | _, 0, rank, btnrp => some (rank, btnrp)
  | j, c + 1, rank, btnrp => do
    let r ← v.bt.get j
    let s ← space n r
    rankLoop n v inv (j + 1) c (rank + (if inv then n - r else r)) (btnrp + s)

/-- `adjust_rank`; include/sdsl/rrr_vector.hpp:386-402. -/
def adjust (tb : Bool) (r i : Nat) : Nat := if tb then r else i - r

/-- `rank(i)` after the shortcut; include/sdsl/rrr_vector.hpp:465-482. -/
def rankScan (n tk : Nat) (v : Vec) (tb : Bool) (i btnrp rank : Nat) : Option Nat := do
  let btIdx := i / n
  let sp := btIdx / tk
  let inv ← Bv.get v.invert sp
  let (rank', btnrp') ← rankLoop n v inv (sp * tk) (btIdx - sp * tk) rank btnrp
  if i % n = 0 then pure (adjust tb rank' i)
  else do
    let x ← v.bt.get btIdx
    let bt := if inv then n - x else x
    let len ← space n bt
    let nr ← decodeBtnr n v.btnr btnrp' len
    let pc ← decodePopcount n bt nr (i % n)
    pure (adjust tb (rank' + pc) i)

/-- `rank_support_rrr<t_b>::rank(i)`; include/sdsl/rrr_vector.hpp:445-482. -/
def rankQ (n tk : Nat) (v : Vec) (tb : Bool) (i : Nat) : Option Nat := do
  let sp := i / n / tk
  let btnrp ← v.btnrp.get sp
  let rank ← v.rank.get sp
  if sp + 1 < v.rank.xs.length then do
    let nx ← v.rank.get (sp + 1)
    if nx - rank = 0 then pure (adjust tb rank i)
    else if nx - rank = n * tk then pure (adjust tb (rank + i - sp * tk * n) i)
    else rankScan n tk v tb i btnrp rank
  else rankScan n tk v tb i btnrp rank

/-- Binary search of `select1`/`select0` over the rank samples, `f idx` the value compared with `i`;
    include/sdsl/rrr_vector.hpp:556-568, 597-609. -/
def sampleSearch (f : Nat → Option Nat) (i : Nat) : Nat → Nat → Nat → Option (Nat × Nat)
  | 0, b, e => if e - b > 1 then none else some (b, e)
  | fuel + 1, b, e =>
    if e - b > 1 then do
      let idx := (b + e) / 2
      let r ← f idx
      if r ≥ i then sampleSearch f i fuel b idx else sampleSearch f i fuel idx e
    else some (b, e)

/-- Block scan of `select1` (`tb = true`) and `select0`: final `idx`, `bt`, `rank`, `btnrp`, `btnrlen`;
    include/sdsl/rrr_vector.hpp:579-586, 619-626. -/
def selScan (n : Nat) (v : Vec) (inv tb : Bool) (i : Nat) : Nat → Nat → Nat → Nat → Nat → Nat → Option (Nat × Nat × Nat × Nat × Nat)
  | 0, idx, bt, rank, btnrp, len => if i > rank then none else some (idx, bt, rank, btnrp, len)
  | fuel + 1, idx, bt, rank, btnrp, len =>
    if i > rank then do
      let x ← v.bt.get idx
      let bt' := if inv then n - x else x
      let l ← space n bt'
      selScan n v inv tb i fuel (idx + 1) bt' (rank + (if tb then bt' else n - bt')) (btnrp + l) l
    else some (idx, bt, rank, btnrp, len)

/-- Part (2) of `select1`; include/sdsl/rrr_vector.hpp:569-589. -/
def select1Tail (n tk : Nat) (v : Vec) (i b e : Nat) : Option Nat := do
  let rank ← v.rank.get b
  let re ← v.rank.get e
  if re - rank = n * tk then pure (b * tk * n + i - rank - 1)
  else do
    let inv ← Bv.get v.invert b
    let p0 ← v.btnrp.get b
    let (idx, bt, r, btnrp, len) ← selScan n v inv true i (v.bt.xs.length + 1) (b * tk) 0 rank p0 0
    let nr ← decodeBtnr n v.btnr (btnrp - len) len
    let p ← decodeSelect n bt nr (i - (r - bt))
    pure ((idx - 1) * n + p)

/-- `select1(i)`; include/sdsl/rrr_vector.hpp:552-590. -/
def select1 (n tk : Nat) (v : Vec) (i : Nat) : Option Nat := do
  let total ← v.rank.get (v.rank.xs.length - 1)
  if total < i then pure v.size
  else do
    let (b, e) ← sampleSearch (fun idx => v.rank.get idx) i v.rank.xs.length 0 (v.rank.xs.length - 1)
    select1Tail n tk v i b e

/-- Part (2) of `select0`; include/sdsl/rrr_vector.hpp:610-629. -/
def select0Tail (n tk : Nat) (v : Vec) (i b e : Nat) : Option Nat := do
  let rb ← v.rank.get b
  let re ← v.rank.get e
  let rank := b * n * tk - rb
  if re = rb then pure (b * tk * n + i - rank - 1)
  else do
    let inv ← Bv.get v.invert b
    let p0 ← v.btnrp.get b
    let (idx, bt, r, btnrp, len) ← selScan n v inv false i (v.bt.xs.length + 1) (b * tk) 0 rank p0 0
    let nr ← decodeBtnr n v.btnr (btnrp - len) len
    let p ← selZero n n bt nr (i - (r - (n - bt))) 0
    pure ((idx - 1) * n + p)

/-- `select0(i)`; include/sdsl/rrr_vector.hpp:592-630. -/
def select0 (n tk : Nat) (v : Vec) (i : Nat) : Option Nat := do
  let total ← v.rank.get (v.rank.xs.length - 1)
  if v.size - total < i then pure v.size
  else do
    let (b, e) ← sampleSearch (fun idx => do let r ← v.rank.get idx; pure (idx * n * tk - r)) i v.rank.xs.length 0
      (v.rank.xs.length - 1)
    select0Tail n tk v i b e

/-- `select_support_rrr<t_b>::select(i)`; include/sdsl/rrr_vector.hpp:639-642. -/
def selectQ (n tk : Nat) (v : Vec) (tb : Bool) (i : Nat) : Option Nat := if tb then select1 n tk v i else select0 n tk v i

end Sdsl.Rrr
