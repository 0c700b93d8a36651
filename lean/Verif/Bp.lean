/-
  Balanced parentheses: the lookup tables and block-local scans of include/sdsl/bp_support_algorithm.hpp and lib/bp_support_algorithm.cpp.

  A parentheses sequence is a `bit_vector`: its words `mem` (1 = opening). Reading a bit or a byte outside of the allocated words is undefined behaviour (`none`); reading behind
  `size()` within the last word is not. Excess values (`difference_type`, 64-bit signed) are integers: they are bounded by the number of parentheses, except for the caller's `rel`.
  Positions are natural numbers; where the code returns `i-1`, `j-1` or `-1` the result wraps modulo 2^64.
-/
import Verif.Arr
import Verif.UtilLemmas

namespace Sdsl.Bp

/-- `bp[j]`, int_vector.hpp (`int_vector<1>::operator[] const`): `((*(m_data+(i>>6)))>>(i&0x3F))&1`. -/
def bit (mem : Mem) (j : Nat) : Option Bool := do
  let w ← mem[j / 64]?
  some (w.getLsbD (j % 64))

/-- `((*(b+(j>>6)))>>(j&0x3F))&0xFF`. -/
def byte (mem : Mem) (j : Nat) : Option Nat := do
  let w ← mem[j / 64]?
  some (w.toNat / 2 ^ (j % 64) % 256)

/-! ### The tables, `excess::impl`, bp_support_algorithm.hpp:35-150 -/

/-- `1-2*((w&(1<<p))==0)`. -/
def sgn (b : Bool) : Int := if b then 1 else -1

/-- The loop for `near_fwd_pos`, lines 93-101: `k` positions are left from `p`. -/
def fwdTab (x : Int) (w : Nat) : Nat → Nat → Int → Nat
  | 0, _, _ => 8
  | k + 1, p, e => if e + sgn (w.testBit p) = x then p else fwdTab x w k (p + 1) (e + sgn (w.testBit p))

/-- `near_fwd_pos[i]`: an array of `16*256` entries (line 42), entry `(x+8)<<8|w` for `-8 ≤ x < 8`. Reading outside is undefined behaviour. -/
def nearFwdPos (i : Nat) : Option Nat := if i < 16 * 256 then some (fwdTab ((i / 256 : Nat) - 8) (i % 256) 8 0 0) else none

/-- The loop for `near_bwd_pos`, lines 103-113; the argument `p + 1` is the position above. -/
def bwdTab (x : Int) (w : Nat) : Nat → Int → Nat
  | 0, _ => 8
  | p + 1, e => if e - sgn (w.testBit p) = x then p else bwdTab x w p (e - sgn (w.testBit p))

/-- `near_bwd_pos[i]` (line 49, `16*256` entries). -/
def nearBwdPos (i : Nat) : Option Nat := if i < 16 * 256 then some (bwdTab ((i / 256 : Nat) - 8) (i % 256) 8 0) else none

/-- The values of one word `w` while its 8 bits are scanned (lines 118-140). -/
structure WordTab where
  excess : Int := 0
  revExcess : Int := 0
  minOpen : Nat := 17
  minOpenPos : Nat := 0
  ones : Nat := 0
  min : Int := 8
  minPosMax : Nat := 0
  mins : List Nat := List.replicate 8 9
  maxs : List Nat := List.replicate 8 9
deriving DecidableEq, Repr

/-- One iteration, lines 127-145. The packed vectors of width 4 are lists of eight numbers. -/
def wordStep (w p : Nat) (t : WordTab) : WordTab :=
  let b := w.testBit p
  let ones := if b then t.ones + 1 else t.ones
  let e := t.excess + sgn b
  let t1 := if e ≤ t.min then { t with min := e, minPosMax := p } else t
  let mins := if e < 0 ∧ t1.mins[(-e - 1).toNat]? = some 9 then t1.mins.set (-e - 1).toNat p else t1.mins
  let open_ := b && decide (e + 8 ≤ t1.minOpen)
  let re := t1.revExcess - sgn (w.testBit (7 - p))
  let maxs := if re < 0 ∧ t1.maxs[(-re - 1).toNat]? = some 9 then t1.maxs.set (-re - 1).toNat (7 - p) else t1.maxs
  { t1 with
    excess := e, revExcess := re, ones := ones, mins := mins, maxs := maxs,
    minOpen := if open_ then (e + 8).toNat else t1.minOpen,
    minOpenPos := if open_ then p else t1.minOpenPos }

def wordTab (w : Nat) : WordTab := (List.range 8).foldl (fun t p => wordStep w p t) {}

/-- The 32-bit number of eight 4-bit fields (`packed_mins.width(32)`). -/
def pack : List Nat → Nat
  | [] => 0
  | a :: r => a + 16 * pack r

def wordSum (w : Nat) : Int := (wordTab w).excess
def minTab (w : Nat) : Int := (wordTab w).min
def minPosMax (w : Nat) : Nat := (wordTab w).minPosMax
def minMatchPacked (w : Nat) : Nat := pack (wordTab w).mins
def maxMatchPacked (w : Nat) : Nat := pack (wordTab w).maxs

/-- `min_open_excess_info`, lines 147-149 (`uint16_t`). -/
def minOpenInfo (w : Nat) : Nat := ((wordTab w).minOpen ||| ((wordTab w).minOpenPos <<< 8) ||| ((wordTab w).ones <<< 12)) % 2 ^ 16

/-- `(x >> (s<<2))&0xF` -/
def nib (x s : Nat) : Nat := x / 2 ^ (4 * s) % 16

/-! ### Scans to the right -/

/-- Result of a scan: the position that is returned, or the excess after the last position. -/
abbrev Scan := Except Nat Int

/-- The loops over single positions in `near_find_close` (lib/bp_support_algorithm.cpp:93-102, 116-125; there `succ = 0`) and `near_find_closing` (:141-150, :163-172). -/
def closeBits (mem : Mem) (succ : Int) : Nat → Nat → Int → Option Scan
  | 0, _, e => some (.ok e)
  | k + 1, j, e => do
    let b ← bit mem j
    if b then closeBits mem succ k (j + 1) (e + 1)
    else if e - 1 = succ then some (.error j)
    else closeBits mem succ k (j + 1) (e - 1)

/-- The loop over bytes, :104-115 and :152-162. Shifting a 32-bit number by a negative amount is undefined behaviour. -/
def closeBytes (mem : Mem) (succ : Int) : Nat → Nat → Int → Option Scan
  | 0, _, e => some (.ok e)
  | k + 1, j, e => do
    let w ← byte mem j
    if e - succ ≤ 8 then
      if e - succ ≤ 0 then none
      else
        let p := nib (minMatchPacked w) (e - succ - 1).toNat
        if p < 9 then some (.error (j + p)) else closeBytes mem succ k (j + 8) (e + wordSum w)
    else closeBytes mem succ k (j + 8) (e + wordSum w)

/-- The three loops over `[i, end)`, with `l` and `r` the multiples of 8 inside. -/
def closeScan (mem : Mem) (succ : Int) (i stop : Nat) (e : Int) : Option Scan := do
  let l := (i + 7) / 8 * 8
  let r := stop / 8 * 8
  match ← closeBits mem succ (min stop l - i) i e with
  | .error j => some (.error j)
  | .ok e =>
    match ← closeBytes mem succ ((r - l) / 8) l e with
    | .error j => some (.error j)
    | .ok e => closeBits mem succ (stop - max l r) (max l r) e

/-- `near_find_close`, lib/bp_support_algorithm.cpp:83-127. -/
def nearFindClose (mem : Mem) (i bs : Nat) : Option Nat := do
  match ← closeScan mem 0 (i + 1) (((i + 1) / bs + 1) * bs) 1 with
  | .error j => some j
  | .ok _ => some i

/-- `near_find_closing`, lib/bp_support_algorithm.cpp:129-174. -/
def nearFindClosing (mem : Mem) (i closings bs : Nat) : Option Nat := do
  match ← closeScan mem (-(closings : Int)) i ((i / bs + 1) * bs) 0 with
  | .error j => some j
  | .ok _ => some ((i + (2 ^ 64 - 1)) % 2 ^ 64)

/-- `near_fwd_excess`, single positions (:186-191, :204-209): the excess is counted downwards to 0. -/
def fwdBits (mem : Mem) : Nat → Nat → Int → Option Scan
  | 0, _, e => some (.ok e)
  | k + 1, j, e => do
    let b ← bit mem j
    if e - sgn b = 0 then some (.error j) else fwdBits mem k (j + 1) (e - sgn b)

/-- Bytes, :194-202 (the excess is shifted by 8; the test admits 16, for which the table has no entries). -/
def fwdBytes (mem : Mem) : Nat → Nat → Int → Option Scan
  | 0, _, e => some (.ok e)
  | k + 1, j, e => do
    let w ← byte mem j
    if 0 ≤ e ∧ e ≤ 16 then
      let x ← nearFwdPos (e.toNat * 256 + w)
      if x < 8 then some (.error (j + x)) else fwdBytes mem k (j + 8) (e - wordSum w)
    else fwdBytes mem k (j + 8) (e - wordSum w)

/-- `near_fwd_excess`, lib/bp_support_algorithm.cpp:176-211. -/
def nearFwdExcess (mem : Mem) (i : Nat) (rel : Int) (bs : Nat) : Option Nat := do
  let stop := (i / bs + 1) * bs
  let l := (i + 7) / 8 * 8
  let r := stop / 8 * 8
  match ← fwdBits mem (min stop l - i) i rel with
  | .error j => some j
  | .ok e =>
    match ← fwdBytes mem ((r - l) / 8) l (e + 8) with
    | .error j => some j
    | .ok e =>
      match ← fwdBits mem (stop - max l r) (max l r) (e - 8) with
      | .error j => some j
      | .ok _ => some ((i + (2 ^ 64 - 1)) % 2 ^ 64)

/-! ### near_rmq -/

/-- State of `near_rmq`: excess, `min_rel_ex`, `min_pos`. -/
structure RmqSt where
  ex : Int
  min : Int
  pos : Nat

/-- :222-231, :243-252. -/
def rmqBits (mem : Mem) : Nat → Nat → RmqSt → Option RmqSt
  | 0, _, s => some s
  | k + 1, j, s => do
    let b ← bit mem j
    if b then rmqBits mem k (j + 1) { s with ex := s.ex + 1 }
    else if s.ex - 1 ≤ s.min then rmqBits mem k (j + 1) ⟨s.ex - 1, s.ex - 1, j⟩
    else rmqBits mem k (j + 1) { s with ex := s.ex - 1 }

/-- :234-241. -/
def rmqBytes (mem : Mem) : Nat → Nat → RmqSt → Option RmqSt
  | 0, _, s => some s
  | k + 1, j, s => do
    let w ← byte mem j
    if s.ex + minTab w ≤ s.min then rmqBytes mem k (j + 8) ⟨s.ex + wordSum w, s.ex + minTab w, j + minPosMax w⟩
    else rmqBytes mem k (j + 8) { s with ex := s.ex + wordSum w }

/-- `near_rmq`, lib/bp_support_algorithm.cpp:213-254: `min_pos` and `min_rel_ex`. -/
def nearRmq (mem : Mem) (l r : Nat) : Option (Nat × Int) := do
  let l8 := (l + 1 + 7) / 8 * 8
  let r8 := r / 8 * 8
  let s ← rmqBits mem (min l8 (r + 1) - (l + 1)) (l + 1) ⟨0, 0, l⟩
  let s ← rmqBytes mem ((r8 - l8) / 8) l8 s
  let s ← rmqBits mem (r + 1 - max l8 r8) (max l8 r8) s
  some (s.pos, s.min)

/-! ### Scans to the left -/

/-- `near_bwd_excess`, single positions (:265-271, :285-291): the positions `m + k, …, m + 1, m`; `k + 1` of them. Returns `j - 1`. -/
def bwdBits (mem : Mem) (m : Nat) : Nat → Int → Option Scan
  | 0, e => some (.ok e)
  | k + 1, e => do
    let b ← bit mem (m + k)
    if e + sgn b = 0 then some (.error ((m + k + (2 ^ 64 - 1)) % 2 ^ 64)) else bwdBits mem m k (e + sgn b)

/-- :275-283; the bytes at `l + 8k, …, l`. -/
def bwdBytes (mem : Mem) (l : Nat) : Nat → Int → Option Scan
  | 0, e => some (.ok e)
  | k + 1, e => do
    let w ← byte mem (l + 8 * k)
    if 0 ≤ e ∧ e ≤ 16 then
      let x ← nearBwdPos (e.toNat * 256 + w)
      if x < 8 then some (.error ((l + 8 * k + x + (2 ^ 64 - 1)) % 2 ^ 64)) else bwdBytes mem l k (e + wordSum w)
    else bwdBytes mem l k (e + wordSum w)

/-- `near_bwd_excess`, lib/bp_support_algorithm.cpp:256-296. The third loop starts at `min(l, r)`, not at `min(l, r) - 1`, and stops above `begin`. -/
def nearBwdExcess (mem : Mem) (i : Nat) (rel : Int) (bs : Nat) : Option Nat := do
  let begin_ := i / bs * bs
  let r := i / 8 * 8
  let l := (begin_ + 7) / 8 * 8
  match ← bwdBits mem (max r begin_) (i + 2 - max r begin_) rel with
  | .error j => some j
  | .ok e =>
    match ← bwdBytes mem l ((r - l) / 8) (e + 8) with
    | .error j => some j
    | .ok e =>
      match ← bwdBits mem (begin_ + 1) (min l r - begin_) (e - 8) with
      | .error j => some j
      | .ok _ => if begin_ = 0 ∧ rel = -1 then some (2 ^ 64 - 1) else some (i + 1)

/-- The single positions in `near_find_open` (:305-313, :325-332; there `succ = 0`) and `near_find_opening` (:347-354, :367-374): the positions `m + k, …, m`. -/
def openBits (mem : Mem) (succ : Int) (m : Nat) : Nat → Int → Option Scan
  | 0, e => some (.ok e)
  | k + 1, e => do
    let b ← bit mem (m + k)
    if b then
      if e + 1 = succ then some (.error (m + k)) else openBits mem succ m k (e + 1)
    else openBits mem succ m k (e - 1)

/-- :315-324 and :356-366. -/
def openBytes (mem : Mem) (succ : Int) (l : Nat) : Nat → Int → Option Scan
  | 0, e => some (.ok e)
  | k + 1, e => do
    let w ← byte mem (l + 8 * k)
    if succ - e ≤ 8 then
      if succ - e ≤ 0 then none
      else
        let p := nib (maxMatchPacked w) (succ - e - 1).toNat
        if p < 9 then some (.error (l + 8 * k + p)) else openBytes mem succ l k (e + wordSum w)
    else openBytes mem succ l k (e + wordSum w)

/-- The three loops from position `i` down to the begin of its block. -/
def openScan (mem : Mem) (succ : Int) (i bs : Nat) (e : Int) : Option Scan := do
  let begin_ := i / bs * bs
  let r := i / 8 * 8
  let l := (begin_ + 7) / 8 * 8
  match ← openBits mem succ (max r begin_) (i + 1 - max r begin_) e with
  | .error j => some (.error j)
  | .ok e =>
    match ← openBytes mem succ l ((r - l) / 8) e with
    | .error j => some (.error j)
    | .ok e => openBits mem succ begin_ (min l r - begin_) e

/-- `near_find_open`, lib/bp_support_algorithm.cpp:298-334. Position 0 has no predecessor and is not modelled. -/
def nearFindOpen (mem : Mem) (i bs : Nat) : Option Nat :=
  if i = 0 then none
  else do
    match ← openScan mem 0 (i - 1) bs (-1) with
    | .error j => some j
    | .ok _ => some i

/-- `near_find_opening`, lib/bp_support_algorithm.cpp:337-376. -/
def nearFindOpening (mem : Mem) (i openings bs : Nat) : Option Nat := do
  match ← openScan mem openings i bs 0 with
  | .error j => some j
  | .ok _ => some (i + 1)

/-- The loop of `near_enclose`, :382-391: `j > 0` with `j + block_size - 1 > i`; the counter wraps modulo 2^64, so it is 2 when the difference is 1 (modulo 2^64). -/
def encloseLoop (mem : Mem) (i bs : Nat) : Nat → Nat → Option (Option Nat)
  | 0, _ => some none
  | j + 1, c =>
    if (j + 1 + bs + (2 ^ 64 - 1)) % 2 ^ 64 > i then do
      let b ← bit mem j
      if b then
        if (c + 1) % 2 ^ 64 = 2 then some (some j) else encloseLoop mem i bs j ((c + 1) % 2 ^ 64)
      else encloseLoop mem i bs j ((c + (2 ^ 64 - 1)) % 2 ^ 64)
    else some none

/-- `near_enclose`, lib/bp_support_algorithm.cpp:378-393. -/
def nearEnclose (mem : Mem) (i bs : Nat) : Option Nat := do
  match ← encloseLoop mem i bs i 1 with
  | some j => some j
  | none => some i

/-! ### near_rmq_open -/

/-- `near_rmq_open`, single positions (:405-415, :429-439): excess, `min_excess`, `result`. -/
def rmqOpenBits (mem : Mem) : Nat → Nat → RmqSt → Option RmqSt
  | 0, _, s => some s
  | k + 1, j, s => do
    let b ← bit mem j
    if b then
      if s.ex + 1 ≤ s.min then rmqOpenBits mem k (j + 1) ⟨s.ex + 1, s.ex + 1, j⟩
      else rmqOpenBits mem k (j + 1) { s with ex := s.ex + 1 }
    else rmqOpenBits mem k (j + 1) { s with ex := s.ex - 1 }

/-- :417-428. -/
def rmqOpenBytes (mem : Mem) : Nat → Nat → RmqSt → Option RmqSt
  | 0, _, s => some s
  | k + 1, j, s => do
    let w ← byte mem j
    let x := minOpenInfo w
    let ones : Nat := x / 2 ^ 12
    let s := if ones ≠ 0 ∧ s.ex + ((x % 256 : Nat) - 8) ≤ s.min then ⟨s.ex, s.ex + ((x % 256 : Nat) - 8), j + x / 256 % 16⟩ else s
    rmqOpenBytes mem k (j + 8) { s with ex := s.ex + (2 * (ones : Int) - 8) }

/-- `near_rmq_open`, lib/bp_support_algorithm.cpp:395-443. -/
def nearRmqOpen (mem : Mem) (beg end_ : Nat) : Option Nat := do
  let l := (beg + 7) / 8 * 8
  let r := end_ / 8 * 8
  let s ← rmqOpenBits mem (min end_ l - beg) beg ⟨0, (end_ : Int) - beg + 1, end_⟩
  let s ← rmqOpenBytes mem ((r - l) / 8) l s
  let s ← rmqOpenBits mem (end_ - max r l) (max r l) s
  if s.min ≤ s.ex then some s.pos else some end_

end Sdsl.Bp
