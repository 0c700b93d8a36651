/-
  Model of `hyb_vector` and `rank_support_hyb` (include/sdsl/hyb_vector.hpp).

  The two byte vectors are lists of bytes; accesses through `uint16_t*`, `uint32_t*` and `uint64_t*` are little endian accesses to
  2, 4 and 8 bytes (unaligned accesses are allowed, as on x86). Positions and counts are `Nat`; `uint32_t` values that are stored are
  cut by the store. The header of a block, which the code assembles in memory by several `|=`, is computed first and stored once.
  `select_support_hyb` only prints a message and exits; serialisation, copying and swapping are not modelled.
-/
import Verif.Arr
import Verif.Bits

namespace Sdsl.Hyb

open Bits

/-! ### Byte memory -/

/-- Reading `k` bytes at `p` as a number. -/
def rd : Nat → List Nat → Nat → Option Nat
  | 0, _, _ => some 0
  | k + 1, m, p => do
    let b ← m[p]?
    let r ← rd k m (p + 1)
    pure (b + 256 * r)

/-- Writing the low `k` bytes of `x` at `p`. -/
def wr : Nat → List Nat → Nat → Nat → Option (List Nat)
  | 0, m, _, _ => some m
  | k + 1, m, p, x => do
    let m ← setList m p (x % 256)
    wr k m (p + 1) (x / 256)

/-! ### Ones and runs of a block -/

/-- One iteration of the loop that fills `runs_lookup`, hyb_vector.hpp:129-133; the elements are bytes. -/
def lookStep (t : List Nat) (i : Nat) : Option (List Nat) := do
  let x ← t[i / 2]?
  let x := if 32768 ≤ i then (x + 255) % 256 else x
  setList t i (if i % 2 ≠ i / 2 % 2 then (x + 1) % 256 else x)

def lookLoop : Nat → Nat → List Nat → Option (List Nat)
  | 0, _, t => some t
  | k + 1, i, t => do
    let t ← lookStep t i
    lookLoop k (i + 1) t

/-- `runs_lookup`, hyb_vector.hpp:126-133. -/
def lookup : Option (List Nat) := lookLoop 65535 1 (List.replicate 65536 0)

/-- `for (…) ones += bits::cnt(*ptr64++)`, hyb_vector.hpp:147 and 236; `k` words from `p`. -/
def onesLoop (m : Mem) : Nat → Nat → Nat → Option Nat
  | 0, _, a => some a
  | k + 1, p, a => do
    let w ← ld m p
    onesLoop m k (p + 1) (a + (cnt w).toNat)

/-- hyb_vector.hpp:153 and 241: changes inside the 16-bit words, `k` iterations from `j`. -/
def runs16 (tab : Nat → Option Nat) (w : Word) : Nat → Nat → Nat → Option Nat
  | 0, _, a => some a
  | k + 1, j, a => do
    let x ← tab ((w >>> (16 * j)) &&& 0xffff#64).toNat
    runs16 tab w k (j + 1) (a + x)

/-- hyb_vector.hpp:156 and 242: changes between the 16-bit words. -/
def cross16 (w : Word) : Nat → Nat → Nat → Nat
  | 0, _, a => a
  | k + 1, j, a => cross16 w k (j + 1) (a + (((w >>> (16 * j + 15)) &&& 1#64) ^^^ ((w >>> (16 * j + 16)) &&& 1#64)).toNat)

/-- hyb_vector.hpp:151-158 and 240-244. -/
def runsWords (tab : Nat → Option Nat) (m : Mem) : Nat → Nat → Nat → Option Nat
  | 0, _, a => some a
  | k + 1, p, a => do
    let w ← ld m p
    let a ← runs16 tab w 4 0 a
    runsWords tab m k (p + 1) (cross16 w 3 0 a)

/-- hyb_vector.hpp:162-165 and 246-249: changes between the 64-bit words. -/
def cross64 (m : Mem) : Nat → Nat → Nat → Option Nat
  | 0, _, a => some a
  | k + 1, p, a => do
    let w ← ld m p
    let u ← ld m (p + 1)
    cross64 m k (p + 1) (a + (((w >>> 63) &&& 1#64) ^^^ (u &&& 1#64)).toNat)

/-- A full block, hyb_vector.hpp:144-166 and 233-250; `p` is the index of its first word. -/
def countFast (tab : Nat → Option Nat) (m : Mem) (p : Nat) : Option (Nat × Nat) := do
  let ones ← onesLoop m 4 p 0
  let runs ← runsWords tab m 4 p 0
  let runs ← cross64 m 3 p runs
  pure (ones, runs + 1)

/-- `(i < m_size ? bv[i] : 0)`. -/
def pad (v : IntVec) (i : Nat) : Option Bool := if i < v.size then v.get1 i else some false

/-- The last, incomplete block, hyb_vector.hpp:168-175 and 252-259; `prev` is `none` for the value 2. -/
def slowLoop (v : IntVec) : Nat → Nat → Option Bool → Nat → Nat → Option (Nat × Nat)
  | 0, _, _, ones, runs => some (ones, runs)
  | k + 1, i, prev, ones, runs => do
    let bit ← pad v i
    slowLoop v k (i + 1) (some bit) (if bit then ones + 1 else ones) (if some bit ≠ prev then runs + 1 else runs)

/-- `ones` and `runs` of block `b`, hyb_vector.hpp:141-176 and 229-260. -/
def count (tab : Nat → Option Nat) (v : IntVec) (b : Nat) : Option (Nat × Nat) :=
  if b * 256 + 256 ≤ v.size then countFast tab v.data (4 * b) else slowLoop v 256 (b * 256) none 0 0

/-- hyb_vector.hpp:178-182. -/
def encSize (ones runs : Nat) : Nat := min (min (min ones (256 - ones)) (runs - 2)) 32

/-- The first pass, hyb_vector.hpp:137-187, `k` blocks from `b`. -/
def sizeLoop (tab : Nat → Option Nat) (v : IntVec) : Nat → Nat → Nat → Option Nat
  | 0, _, t => some t
  | k + 1, b, t => do
    let c ← count tab v b
    sizeLoop tab v k (b + 1) (t + encSize c.1 c.2)

/-! ### Encoding of a block -/

/-- `if (c) m_trunk[p + r++] = x`; gives the new `r`. -/
def putIf (c : Bool) (t : List Nat) (p r x : Nat) : Option (Nat × List Nat) :=
  if c then do
    let t ← setList t (p + r) (x % 256)
    pure (r + 1, t)
  else some (r, t)

/-- Copying the four words of a full block, hyb_vector.hpp:281-285. -/
def plainFast (m : Mem) : Nat → Nat → Nat → List Nat → Option (Nat × List Nat)
  | 0, _, tp, t => some (tp, t)
  | k + 1, p, tp, t => do
    let w ← ld m p
    let t ← wr 8 t tp w.toNat
    plainFast m k (p + 1) (tp + 8) t

/-- One word of the last block, hyb_vector.hpp:288-292: `k` iterations from bit `j` of the word that starts at `i`. -/
def padWord (v : IntVec) (i : Nat) : Nat → Nat → Word → Option Word
  | 0, _, w => some w
  | k + 1, j, w => do
    let bit ← pad v (i + j)
    padWord v i k (j + 1) (if bit then w ||| (1#64 <<< j) else w)

/-- hyb_vector.hpp:287-295. -/
def plainSlow (v : IntVec) : Nat → Nat → Nat → List Nat → Option (Nat × List Nat)
  | 0, _, tp, t => some (tp, t)
  | k + 1, i, tp, t => do
    let w ← padWord v i 64 0 0#64
    let t ← wr 8 t tp w.toNat
    plainSlow v k (i + 64) (tp + 8) t

/-- The run ends inside a word, hyb_vector.hpp:316-320: `k` iterations from bit `j`; `base` is `64*i`, `lim` is `runs_enc_size`. -/
def endsIn (tp lim base : Nat) : Nat → Nat → Word → Nat → List Nat → Option (Word × Nat × List Nat)
  | 0, _, w, r, t => some (w, r, t)
  | k + 1, j, w, r, t =>
    if r < lim then do
      let s ← putIf ((w &&& 1#64) != ((w >>> 1) &&& 1#64)) t tp r (j + base)
      endsIn tp lim base k (j + 1) (w >>> 1) s.1 s.2
    else some (w, r, t)

/-- The run ends of a full block, hyb_vector.hpp:305-321: `k` words from number `i`. -/
def endsFast (m : Mem) (p tp lim : Nat) : Nat → Nat → Word → Nat → List Nat → Option (Nat × List Nat)
  | 0, _, _, r, t => some (r, t)
  | k + 1, i, w, r, t =>
    if r < lim then do
      let u ← ld m (p + i)
      let s ← putIf (decide (i > 0) && ((w &&& 1#64) != (u &&& 1#64))) t tp r (64 * i - 1)
      let e ← endsIn tp lim (64 * i) 63 0 u s.1 s.2
      endsFast m p tp lim k (i + 1) e.1 e.2.1 e.2.2
    else some (r, t)

/-- The run ends of the last block, hyb_vector.hpp:325-333. The first number bounds the iterations. -/
def endsSlow (v : IntVec) (beg tp lim : Nat) : Nat → Nat → Option Bool → Nat → List Nat → Option (Nat × List Nat)
  | 0, _, _, r, t => if r < lim then none else some (r, t)
  | f + 1, i, prev, r, t =>
    if r < lim then do
      let bit ← pad v i
      let s ← putIf (decide (some bit ≠ prev) && decide (i ≠ beg)) t tp r (i - beg - 1)
      endsSlow v beg tp lim f (i + 1) (some bit) s.1 s.2
    else some (r, t)

/-- The positions of the minority bit in a word, hyb_vector.hpp:347-352. -/
def minorIn (key : Bool) (base : Nat) : Nat → Nat → Word → Nat → List Nat → Option (Nat × List Nat)
  | 0, _, _, tp, t => some (tp, t)
  | k + 1, j, w, tp, t => do
    let s ← putIf ((w &&& 1#64) == (if key then 1#64 else 0#64)) t 0 tp (j + base)
    minorIn key base k (j + 1) (w >>> 1) s.1 s.2

/-- hyb_vector.hpp:344-353. -/
def minorFast (m : Mem) (key : Bool) (p : Nat) : Nat → Nat → Nat → List Nat → Option (Nat × List Nat)
  | 0, _, tp, t => some (tp, t)
  | k + 1, i, tp, t => do
    let w ← ld m (p + i)
    let s ← minorIn key (64 * i) 64 0 w tp t
    minorFast m key p k (i + 1) s.1 s.2

/-- hyb_vector.hpp:355-360. -/
def minorSlow (v : IntVec) (key : Bool) (beg : Nat) : Nat → Nat → Nat → List Nat → Option (Nat × List Nat)
  | 0, _, tp, t => some (tp, t)
  | k + 1, i, tp, t => do
    let bit ← pad v i
    let s ← putIf (bit == key) t 0 tp (i - beg)
    minorSlow v key beg k (i + 1) s.1 s.2

/-- hyb_vector.hpp:281-296. -/
def putPlain (v : IntVec) (b tp : Nat) (t : List Nat) : Option (Nat × List Nat) :=
  if b * 256 + 256 ≤ v.size then plainFast v.data 4 (4 * b) tp t else plainSlow v 4 (b * 256) tp t

/-- hyb_vector.hpp:304-335. -/
def putEnds (v : IntVec) (b tp lim : Nat) (t : List Nat) : Option (Nat × List Nat) :=
  if b * 256 + 256 ≤ v.size then endsFast v.data (4 * b) tp lim 4 0 0#64 0 t else endsSlow v (b * 256) tp lim 257 (b * 256) none 0 t

/-- hyb_vector.hpp:343-361. -/
def putMinor (v : IntVec) (key : Bool) (b tp : Nat) (t : List Nat) : Option (Nat × List Nat) :=
  if b * 256 + 256 ≤ v.size then minorFast v.data key (4 * b) 4 0 tp t else minorSlow v key (b * 256) 256 (b * 256) tp t

/-- Plain, runs or minority encoding of block `b` from byte `tp` of the trunk, hyb_vector.hpp:261-364: header, new `trunk_ptr`, trunk. -/
def encode (v : IntVec) (b ones runs tp : Nat) (t : List Nat) : Option (Nat × Nat × List Nat) :=
  let zeros := 256 - ones
  let h := if ones = 256 then ones ||| 0x200 else ones
  if 0 < ones ∧ ones < 256 then
    let me := min ones zeros
    let re := runs - 2
    if 32 ≤ min me re then do
      let s ← putPlain v b tp t
      pure (h ||| (32 <<< 10), s.1, s.2)
    else if re < me then do
      let first ← v.get1 (b * 256)
      let s ← putEnds v b tp re t
      pure (h ||| (re <<< 10) ||| ((if first then 1 else 0) <<< 9), tp + s.1, s.2)
    else do
      let s ← putMinor v (decide (ones < zeros)) b tp t
      pure ((h ||| (me <<< 10)) ||| (if ones < zeros then 0x200 else 0), s.1, s.2)
  else some (h, tp, t)

/-! ### The constructor -/

/-- `k_hblock_rate`, hyb_vector.hpp:600. -/
def hRate : Nat := 2 ^ 31 / 256

/-- `k_sblock_header_size`, hyb_vector.hpp:598. -/
def hs (rate : Nat) : Nat := 8 + 2 * rate

/-- The variables of the second pass. -/
structure St where
  hb : List Nat
  sh : List Nat
  trunk : List Nat
  tp : Nat
  tot : Nat
  so : Nat

/-- hyb_vector.hpp:207-211. -/
def hUpdate (s : St) (b : Nat) : Option (List Nat) :=
  if b % hRate = 0 then do
    let h ← setList s.hb (2 * (b / hRate)) s.tp
    setList h (2 * (b / hRate) + 1) s.tot
  else some s.hb

/-- The flag of a uniform superblock, hyb_vector.hpp:219-223; `k_sblock_size` is a `uint32_t`. -/
def flag (rate sb so : Nat) (sh : List Nat) : Option (List Nat) :=
  if sb ≠ 0 ∧ (so = 0 ∨ so = 256 * rate % 2 ^ 32) then do
    let x ← rd 4 sh (hs rate * (sb - 1))
    wr 4 sh (hs rate * (sb - 1)) (x ||| 0x80000000)
  else some sh

/-- hyb_vector.hpp:213-227: the header of the superblock and the new `sblock_ones`. -/
def sUpdate (rate : Nat) (hb : List Nat) (s : St) (b : Nat) : Option (List Nat × Nat) :=
  if b % rate = 0 then do
    let x ← hb[2 * (b / hRate)]?
    let y ← hb[2 * (b / hRate) + 1]?
    let sh ← wr 4 s.sh (hs rate * (b / rate)) (s.tp - x)
    let sh ← wr 4 sh (hs rate * (b / rate) + 4) (s.tot - y)
    let sh ← flag rate (b / rate) s.so sh
    pure (sh, 0)
  else some (s.sh, s.so)

/-- One block of the second pass, hyb_vector.hpp:201-370. -/
def step (rate : Nat) (tab : Nat → Option Nat) (v : IntVec) (b : Nat) (s : St) : Option St := do
  let hb ← hUpdate s b
  let u ← sUpdate rate hb s b
  let c ← count tab v b
  let e ← encode v b c.1 c.2 s.tp s.trunk
  let sh ← wr 2 u.1 (b / rate * hs rate + 8 + b % rate * 2) e.1
  pure ⟨hb, sh, e.2.2, e.2.1, s.tot + c.1, u.2 + c.1⟩

def steps (rate : Nat) (tab : Nat → Option Nat) (v : IntVec) : Nat → Nat → St → Option St
  | 0, _, s => some s
  | k + 1, b, s => do
    let s ← step rate tab v b s
    steps rate tab v k (b + 1) s

/-- Members of `hyb_vector`, hyb_vector.hpp:84-87. -/
structure Hyb where
  size : Nat
  trunk : List Nat
  sh : List Nat
  hb : List Nat

/-- The constructor after the table has been filled, hyb_vector.hpp:117-124 and 135-371. -/
def newWith (tab : Nat → Option Nat) (rate : Nat) (v : IntVec) : Option Hyb := do
  let nb := (v.size + 256 - 1) / 256
  let ns := (nb + rate - 1) / rate
  let nh := (nb + hRate - 1) / hRate
  let sz ← sizeLoop tab v nb 0 0
  let s ← steps rate tab v nb 0 ⟨List.replicate (nh * 2) 0, List.replicate (ns * hs rate) 0, List.replicate sz 0, 0, 0, 0⟩
  pure ⟨v.size, s.trunk, s.sh, s.hb⟩

/-- The constructor, hyb_vector.hpp:115-371. -/
def new (rate : Nat) (v : IntVec) : Option Hyb := do
  let t ← lookup
  newWith (fun i => t[i]?) rate v

/-! ### Queries -/

/-- The loop over the blocks in front, hyb_vector.hpp:401-404 and 683-688: `k` headers from byte `p`; gives `header_ptr16`, `trunk_ptr`, `block_rank`. -/
def forward (sh : List Nat) : Nat → Nat → Nat → Nat → Option (Nat × Nat × Nat)
  | 0, p, tp, br => some (p, tp, br)
  | k + 1, p, tp, br => do
    let x ← rd 2 sh p
    forward sh k (p + 2) (tp + x / 2 ^ 10) (br + x % 2 ^ 9)

/-- The positions of the minority bit below `li`, hyb_vector.hpp:424-428 and 712-713; `k` entries remain. -/
def minorLoop (t : List Nat) (li : Nat) : Nat → Nat → Nat → Option Nat
  | 0, _, tot => some tot
  | k + 1, p, tot => do
    let x ← t[p]?
    if x < li then minorLoop t li k (p + 1) (tot + 1) else some tot

/-- The loop over pairs of runs, hyb_vector.hpp:435-442 and 723-730 (464-471, 744-751): `fuel` bounds the iterations; `last + 1` is kept instead of `last`. -/
def pairLoop (t : List Nat) (enc li : Nat) : Nat → Nat → Nat → Nat → Nat → Option (Nat × Nat × Nat × Nat)
  | 0, _, _, _, _ => none
  | f + 1, p, j, s, acc =>
    if j + 1 < enc then do
      let y ← t[p + 1]?
      if y < li then do
        let x ← t[p]?
        pairLoop t enc li f (p + 2) (j + 2) (y + 1) (acc + (x + 1 - s))
      else some (p, j, s, acc)
    else some (p, j, s, acc)

/-- Number of bits equal to the first bit among the first `li` bits of a runs-encoded block, hyb_vector.hpp:723-742 and 744-763; `tot` is their number in the block (`ones` or `zeros`). -/
def runsRank (t : List Nat) (p enc tot li : Nat) : Option Nat := do
  let q ← pairLoop t enc li (enc + 1) p 0 0 0
  if q.2.1 + 1 ≥ enc then
    if q.2.1 < enc then do
      let x ← t[q.1]?
      if x ≥ li then pure (q.2.2.2 + (li - q.2.2.1))
      else
        let acc := q.2.2.2 + (x + 1 - q.2.2.1)
        pure (acc + ((tot - acc) - min (tot - acc) (256 - li)))
    else pure (q.2.2.2 + min (tot - q.2.2.2) (li - q.2.2.1))
  else do
    let x ← t[q.1]?
    pure (q.2.2.2 + (min x (li - 1) + 1 - q.2.2.1))

/-- The bit in a runs-encoded block that begins with the bit `sp`, hyb_vector.hpp:435-462 and 464-491. -/
def runsAccess (t : List Nat) (p enc tot li : Nat) (sp : Bool) : Option Bool := do
  let q ← pairLoop t enc li (enc + 1) p 0 0 0
  if q.2.1 + 1 ≥ enc then
    if q.2.1 < enc then do
      let x ← t[q.1]?
      if li ≤ x + 1 then pure (if li - q.2.2.1 > 0 then sp else !sp)
      else
        let acc := q.2.2.2 + (x + 1 - q.2.2.1)
        pure (if tot - acc ≤ 256 - li then !sp else sp)
    else pure (if tot - q.2.2.2 < li - q.2.2.1 then !sp else if li - q.2.2.1 > 0 then sp else !sp)
  else do
    let x ← t[q.1]?
    pure (if x < li - 1 then !sp else if li - q.2.2.1 > 0 then sp else !sp)

/-- The words of a plain block in `rank`, hyb_vector.hpp:767-772; `k` full words. -/
def plainRank (t : List Nat) (rest : Nat) : Nat → Nat → Nat → Option Nat
  | 0, p, a =>
    if rest ≠ 0 then do
      let w ← rd 8 t p
      let m ← shl 1#64 rest
      pure (a + (cnt (BitVec.ofNat 64 w &&& (m - 1#64))).toNat)
    else some a
  | k + 1, p, a => do
    let w ← rd 8 t p
    plainRank t rest k (p + 8) (a + (cnt (BitVec.ofNat 64 w)).toNat)

/-- The bit in a plain block, hyb_vector.hpp:495-502. -/
def plainAccess (t : List Nat) (p li : Nat) : Option Bool :=
  if li / 64 * 64 ≠ li then do
    let w ← rd 8 t (p + li / 64 * 8)
    let x ← shr (BitVec.ofNat 64 w) (li - li / 64 * 64 - 1)
    pure (x &&& 1#64 != 0#64)
  else do
    let w ← rd 8 t (p + li / 64 * 8 - 8)
    pure ((BitVec.ofNat 64 w >>> 63) &&& 1#64 != 0#64)

/-- The part of `rank` inside the block with header `y`, hyb_vector.hpp:690-775; `before` is the number of ones in front of the block. -/
def blockRank (t : List Nat) (tp y li before : Nat) : Option Nat :=
  let enc := y / 2 ^ 10
  let ones := y % 2 ^ 9
  let zeros := 256 - ones
  let sp := y / 2 ^ 9 % 2
  if enc = 0 then
    let first := sp * ones + (1 - sp) * zeros
    let lr := min li first
    some (before + (sp * lr + (1 - sp) * (li - lr)))
  else if enc < 32 then
    if min ones zeros = enc then do
      let tot ← minorLoop t li enc tp 0
      pure (before + sp * tot + (1 - sp) * (li - tot))
    else if sp = 1 then do
      let acc ← runsRank t tp enc ones li
      pure (before + acc)
    else do
      let acc ← runsRank t tp enc zeros li
      pure (before + (li - acc))
  else plainRank t (li % 64) (li / 64) tp before

/-- `rank_support_hyb<1>::rank`, hyb_vector.hpp:648-776. -/
def rank1 (rate : Nat) (h : Hyb) (i : Nat) : Option Nat :=
  if i = 0 then some 0
  else do
    let b := (i - 1) / 256
    let sb := b / rate
    let base ← h.hb[2 * (b / hRate)]?
    let hr ← h.hb[2 * (b / hRate) + 1]?
    let li := i - b * 256
    let p := sb * hs rate
    let x ← rd 4 h.sh p
    let sr ← rd 4 h.sh (p + 4)
    if x / 2 ^ 31 % 2 = 1 then do
      let u ← h.sh[p + 9]?
      pure (hr + sr + u % 2 * (i - sb * (256 * rate)))
    else do
      let f ← forward h.sh (b - sb * rate) (p + 8) (base + x % 2 ^ 30) 0
      let y ← rd 2 h.sh f.1
      blockRank h.trunk f.2.1 y li (hr + sr + f.2.2)

/-- `rank_support_hyb<t_b>::rank` with `rank_result`, hyb_vector.hpp:603-619 and 648-776. -/
def rank (tb : Bool) (rate : Nat) (h : Hyb) (i : Nat) : Option Nat := do
  let r ← rank1 rate h i
  pure (if tb then r else i - r)

/-- The part of `access0` inside the block with header `y`, hyb_vector.hpp:406-503. -/
def blockAccess (t : List Nat) (tp y li : Nat) : Option Bool :=
  let enc := y / 2 ^ 10
  let ones := y % 2 ^ 9
  let zeros := 256 - ones
  let sp := y / 2 ^ 9 % 2
  if enc = 0 then
    let first := sp * ones + (1 - sp) * zeros
    some (decide (first < li) ^^ decide (sp = 1))
  else if enc < 32 then
    if min ones zeros = enc then do
      let tot ← minorLoop t li enc tp 0
      if tot = 0 then pure (true ^^ decide (sp = 1))
      else do
        let z ← t[tp + tot - 1]?
        pure (decide (z ≠ li - 1) ^^ decide (sp = 1))
    else runsAccess t tp enc (if sp = 1 then ones else zeros) li (decide (sp = 1))
  else plainAccess t tp li

/-- `access0(i)`, hyb_vector.hpp:375-504. -/
def access0 (rate : Nat) (h : Hyb) (i : Nat) : Option Bool :=
  if i = 0 then none
  else do
    let b := (i - 1) / 256
    let sb := b / rate
    let base ← h.hb[2 * (b / hRate)]?
    let li := i - b * 256
    let p := sb * hs rate
    let x ← rd 4 h.sh p
    if x / 2 ^ 31 % 2 = 1 then do
      let u ← h.sh[p + 9]?
      pure (u % 2 = 1)
    else do
      let f ← forward h.sh (b - sb * rate) (p + 8) (base + x % 2 ^ 30) 0
      let y ← rd 2 h.sh f.1
      blockAccess h.trunk f.2.1 y li

/-- `operator[]`, hyb_vector.hpp:537-540. -/
def access (rate : Nat) (h : Hyb) (i : Nat) : Option Bool := access0 rate h (i + 1)

/-- `get_int`, hyb_vector.hpp:526-534: `k` iterations remain. -/
def getLoop (rate : Nat) (h : Hyb) (idx : Nat) : Nat → Word → Option Word
  | 0, res => some res
  | k + 1, res => do
    let b ← access rate h (idx + k)
    getLoop rate h idx k ((res <<< 1) ||| (if b then 1#64 else 0#64))

def getInt (rate : Nat) (h : Hyb) (idx len : Nat) : Option Word := getLoop rate h idx len 0#64

end Sdsl.Hyb
