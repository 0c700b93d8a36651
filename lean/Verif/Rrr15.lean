/-
  Model of the specialisation rrr_vector<15> with its rank and select supports. include/sdsl/rrr_vector_15.hpp.

  Conventions and simplifications: as in module `Rrr` (`t_rac = int_vector<>`; the input bit vector and `m_btnr` are abstract bit
  vectors, `m_btnrp`, `m_rank` and the block types are `Arr`s, bounded counters are `Nat`s). The block types are 4 bits wide;
  where the code reads `m_bt.data()` as bytes or as 64-bit words on a little-endian machine, the byte and the word are composed
  of two and sixteen neighbouring block types, the missing ones after the last element being zero (the unused bits of the last
  word, which the constructor of `bt_array` has set to zero). A byte or a word is readable if its first block type exists.
  `std::next_permutation` is modelled after its specification: the lexicographically next arrangement, or `none` (return value
  false) for the last one.
-/
import Verif.Rrr
import Verif.Bits

namespace Sdsl.Rrr15

open Sdsl.Spec Sdsl.Bv

/-- `std::next_permutation` on a sequence of bits: behind the longest prefix that has to be kept, the last `0` that has a `1` to
    its right becomes `1` and the rest is arranged in ascending order; include/sdsl/rrr_vector_15.hpp:78. -/
def nextPerm : List Bool → Option (List Bool)
  | [] => none
  | c :: l =>
    match nextPerm l with
    | some l' => some (c :: l')
    | none =>
      if c = false ∧ l.count true ≠ 0 then
        some (true :: (List.replicate (l.count false + 1) false ++ List.replicate (l.count true - 1) true))
      else none

/-- The static tables of `binomial15::impl`; include/sdsl/rrr_vector_15.hpp:55-59. -/
structure Tab where
  space : List Nat
  pair : List Nat
  C : List Nat
  nrToBin : Arr
  binToNr : Arr
deriving DecidableEq

/-- The loop composing `x`: bit `n-1-k` of `x` is `b[n-k-1]`; include/sdsl/rrr_vector_15.hpp:71-73. -/
def compose (n : Nat) (b : List Bool) : Nat → Nat → Nat
  | 0, x => x
  | c + 1, x => compose n b c (x ||| (b.getD (n - (n - (c + 1)) - 1) false).toNat <<< (n - 1 - (n - (c + 1))))

/-- The loop over the arrangements of one class: final `cnt`, `class_cnt` and tables; include/sdsl/rrr_vector_15.hpp:70-78. -/
def classLoop (n : Nat) : Nat → List Bool → Nat → Nat → Arr → Arr → Option (Nat × Nat × Arr × Arr)
  | 0, _, _, _, _, _ => none
  | fuel + 1, b, cnt, cc, nb, bn => do
    let x := compose n b n 0
    let nb ← nb.set cnt x
    let bn ← bn.set x cc
    match nextPerm b with
    | some b' => classLoop n fuel b' (cnt + 1) (cc + 1) nb bn
    | none => some (cnt + 1, cc + 1, nb, bn)

/-- The loop over the classes `i, …, n`, `c` of them remaining; include/sdsl/rrr_vector_15.hpp:65-83. -/
def implLoop (n : Nat) : Nat → Nat → Nat → List Nat → List Nat → Arr → Arr → Option (List Nat × List Nat × Arr × Arr)
  | 0, _, _, C, space, nb, bn => some (C, space, nb, bn)
  | c + 1, i, cnt, C, space, nb, bn => do
    let b := List.replicate (n - i) false ++ List.replicate i true
    let (cnt', cc, nb', bn') ← classLoop n (2 ^ n) b cnt 0 nb bn
    let s := if cc = 1 then 0 else Nat.log2 cc + 1
    implLoop n c (i + 1) cnt' (C ++ [cnt]) (space ++ [s]) nb' bn'

/-- `m_space_for_bt_pair[x]`; include/sdsl/rrr_vector_15.hpp:86. -/
def pairEntry (space : List Nat) (x : Nat) : Option Nat := do
  let a ← space[x >>> 4]?
  let b ← space[x &&& 0x0F]?
  pure (a + b)

/-- `binomial15::impl()`; include/sdsl/rrr_vector_15.hpp:61-89. -/
def impl : Option Tab := do
  let (C, space, nb, bn) ← implLoop 15 16 0 0 [] [] (Arr.new (2 ^ 15) 0 16) (Arr.new (2 ^ 15) 0 16)
  let pair ← (List.range 256).mapM (pairEntry space)
  pure { space := space, pair := pair, C := C, nrToBin := nb, binToNr := bn }

/-- `space_for_bt(i)`; include/sdsl/rrr_vector_15.hpp:94-97. -/
def Tab.sp (T : Tab) (i : Nat) : Option Nat := T.space[i]?

/-- `nr_to_bin(k, nr)`; include/sdsl/rrr_vector_15.hpp:99-102. -/
def Tab.toBin (T : Tab) (k nr : Nat) : Option Nat := do
  let c ← T.C[k]?
  T.nrToBin.get (c + nr)

/-- `bin_to_nr(bin)`; include/sdsl/rrr_vector_15.hpp:104-107. -/
def Tab.toNr (T : Tab) (bin : Nat) : Option Nat := T.binToNr.get bin

/-- `space_for_bt_pair(x)`; include/sdsl/rrr_vector_15.hpp:109-112. -/
def Tab.spPair (T : Tab) (x : Nat) : Option Nat := T.pair[x]?

/-- The members; include/sdsl/rrr_vector_15.hpp:152-157. -/
structure Vec where
  size : Nat
  bt : Arr
  btnr : List Bool
  btnrp : Arr
  rank : Arr

/-- `bits::cnt(bv.get_int(pos, len))`. -/
def blockType (B : List Bool) (pos len : Nat) : Option Nat := do
  let x ← Bv.getInt B pos len
  pure (Bits.cnt (BitVec.ofNat 64 x)).toNat

/-- Pass (1) with `cnt` full blocks remaining; include/sdsl/rrr_vector_15.hpp:203-213. -/
def pass1 (T : Tab) (B : List Bool) : Nat → Arr → Nat → Nat → Nat → Nat → Option (Arr × Nat × Nat)
  | 0, bt, pos, i, sum, btnrPos =>
    if pos < B.length then do
      let x ← blockType B pos (B.length - pos)
      let bt' ← bt.set i x
      let s ← T.sp x
      pure (bt', sum + x, btnrPos + s)
    else some (bt, sum, btnrPos)
  | c + 1, bt, pos, i, sum, btnrPos => do
    let x ← blockType B pos 15
    let bt' ← bt.set i x
    let s ← T.sp x
    pass1 T B c bt' (pos + 15) (i + 1) (sum + x) (btnrPos + s)

/-- Variables of pass (2). -/
structure St where
  btnr : List Bool
  btnrp : Arr
  rank : Arr
  pos : Nat
  i : Nat
  btnrPos : Nat
  sum : Nat

/-- The samples at the start of a superblock; include/sdsl/rrr_vector_15.hpp:224-227, 237-240. -/
def sample (tk : Nat) (s : St) : Option St :=
  if s.i % tk = 0 then do
    let btnrp ← s.btnrp.set (s.i / tk) s.btnrPos
    let rank ← s.rank.set (s.i / tk) s.sum
    pure { s with btnrp := btnrp, rank := rank }
  else some s

/-- Encode one block of `len` bits; include/sdsl/rrr_vector_15.hpp:228-233, 241-246. -/
def encBlock (T : Tab) (bt : Arr) (B : List Bool) (len : Nat) (s : St) : Option St := do
  let x ← bt.get s.i
  let sp ← T.sp x
  let btnr ← if sp ≠ 0 then do
      let bin ← Bv.getInt B s.pos len
      let nr ← T.toNr bin
      Bv.setInt s.btnr s.btnrPos nr sp
    else some s.btnr
  pure { s with btnr := btnr, i := s.i + 1, sum := s.sum + x, btnrPos := s.btnrPos + sp }

/-- Pass (2) with `cnt` full blocks remaining; include/sdsl/rrr_vector_15.hpp:223-250. -/
def pass2 (T : Tab) (tk : Nat) (bt : Arr) (B : List Bool) : Nat → St → Option St
  | 0, s =>
    if s.pos < B.length then do
      let s1 ← sample tk s
      encBlock T bt B (B.length - s.pos) s1
    else some s
  | c + 1, s => do
    let s1 ← sample tk s
    let s2 ← encBlock T bt B 15 s1
    pass2 T tk bt B c { s2 with pos := s2.pos + 15 }

/-- `rrr_vector(const bit_vector& bv)`; include/sdsl/rrr_vector_15.hpp:193-254. -/
def build (T : Tab) (tk : Nat) (B : List Bool) : Option Vec := do
  let bt0 := Arr.new (B.length / 15 + 1) 0 (Nat.log2 15 + 1)
  let (bt, sum, btnrPos) ← pass1 T B (B.length / 15) bt0 0 0 0 0
  let nsb := (bt.xs.length + tk - 1) / tk
  let s ← pass2 T tk bt B (B.length / 15)
    { btnr := List.replicate (max btnrPos 64) false, btnrp := Arr.new nsb 0 (Nat.log2 btnrPos + 1),
      rank := Arr.new (nsb + (if B.length % (tk * 15) > 0 then 1 else 0)) 0 (Nat.log2 sum + 1),
      pos := 0, i := 0, btnrPos := 0, sum := 0 }
  let rank ← s.rank.set (s.rank.xs.length - 1) s.sum
  pure { size := B.length, bt := bt, btnr := s.btnr, btnrp := s.btnrp, rank := rank }

/-- Byte `k` of `m_bt.data()`. -/
def byteAt (bt : Arr) (k : Nat) : Option Nat :=
  if 2 * k < bt.xs.length then some (bt.xs.getD (2 * k) 0 + 16 * bt.xs.getD (2 * k + 1) 0) else none

/-- The number whose hexadecimal digits are the `c` block types from `p`. -/
def nibVal (xs : List Nat) (p : Nat) : Nat → Nat
  | 0 => 0
  | c + 1 => nibVal xs p c + xs.getD (p + c) 0 * 16 ^ c

/-- Word `k` of `m_bt.data()`. -/
def wordAt (bt : Arr) (k : Nat) : Option Word :=
  if 16 * k < bt.xs.length then some (BitVec.ofNat 64 (nibVal bt.xs (16 * k) 16)) else none

/-- The block type of block `j` read from its byte; include/sdsl/rrr_vector_15.hpp:276-281, 462-467. -/
def readType (bt : Arr) (j : Nat) : Option Nat := do
  let x ← byteAt bt (j / 2)
  pure (if j % 2 = 1 then x >>> 4 else x &&& 0x0F)

/-- The loop decoding two block types at once and the rest of the scan, `q` the byte pointer, `r`, `p` the number of ones and the
    code length passed; include/sdsl/rrr_vector_15.hpp:293-299, 513-524. -/
def pairLoop (T : Tab) (bt : Arr) (btIdx : Nat) : Nat → Nat → Nat → Nat → Nat → Option (Nat × Nat)
  | 0, _, _, _, _ => none
  | fuel + 1, j, q, r, p =>
    if j + 1 < btIdx then do
      let x ← byteAt bt q
      let s ← T.spPair x
      pairLoop T bt btIdx fuel (j + 2) (q + 1) (r + ((x >>> 4) + (x &&& 0x0F))) (p + s)
    else if j < btIdx then do
      let x ← byteAt bt q
      let s ← T.sp (x &&& 0x0F)
      pure (r + (x &&& 0x0F), p + s)
    else pure (r, p)

/-- The scan over the block types `j, …, bt_idx - 1` of a superblock (`operator[]` sums the code lengths only);
    include/sdsl/rrr_vector_15.hpp:287-299, 505-524. -/
def scan (T : Tab) (bt : Arr) (btIdx j r p : Nat) : Option (Nat × Nat) :=
  if j % 2 = 1 ∧ j < btIdx then do
    let x ← byteAt bt (j / 2)
    let s ← T.sp (x >>> 4)
    pairLoop T bt btIdx (btIdx + 1) (j + 1) (j / 2 + 1) (r + (x >>> 4)) (p + s)
  else pairLoop T bt btIdx (btIdx + 1) j (j / 2) r p

/-- `operator[]`; include/sdsl/rrr_vector_15.hpp:272-305. -/
def access (T : Tab) (tk : Nat) (v : Vec) (i : Nat) : Option Bool := do
  let btIdx := i / 15
  let t ← readType v.bt btIdx
  if t = 0 ∨ t = 15 then pure (decide (t > 0))
  else do
    let sp := btIdx / tk
    let p0 ← v.btnrp.get sp
    let (_, p) ← scan T v.bt btIdx (sp * tk) 0 p0
    let len ← T.sp t
    let nr ← Bv.getInt v.btnr p len
    let bin ← T.toBin t nr
    pure ((bin >>> (i % 15) &&& 1) != 0)

/-- The loop summing `space_for_bt(m_bt[j])`, `c` blocks from `j`; include/sdsl/rrr_vector_15.hpp:330-332. -/
def addSpace (T : Tab) (bt : Arr) : Nat → Nat → Nat → Option Nat
  | _, 0, p => some p
  | j, c + 1, p => do
    let x ← bt.get j
    let s ← T.sp x
    addSpace T bt (j + 1) c (p + s)

/-- `get_int` inside one block; include/sdsl/rrr_vector_15.hpp:318-335. -/
def getIntBlock (T : Tab) (tk : Nat) (v : Vec) (idx len : Nat) : Option Nat := do
  let bb := idx / 15
  let t ← v.bt.get bb
  if t = 0 then pure 0
  else if t = 15 then do
    let m ← Bits.loSet len
    pure m.toNat
  else do
    let sp := bb / tk
    let p0 ← v.btnrp.get sp
    let p ← addSpace T v.bt (sp * tk) (bb - sp * tk) p0
    let l ← T.sp t
    let nr ← Bv.getInt v.btnr p l
    let bin ← T.toBin t nr
    let m ← Bits.loSet len
    pure (bin >>> (idx % 15) &&& m.toNat)

/-- The loop over the blocks of `get_int`; include/sdsl/rrr_vector_15.hpp:337-346. The recursive calls stay inside one block. -/
def getIntLoop (T : Tab) (tk : Nat) (v : Vec) : Nat → Nat → Nat → Nat → Nat → Nat → Option Nat
  | 0, _, _, _, _, _ => none
  | fuel + 1, idx, len, bLen, sum, res => do
    let y ← getIntBlock T tk v idx bLen
    let b ← if sum < 64 then some (y * 2 ^ sum % 2 ^ 64) else none
    let res' := res ||| b
    let len' := len - bLen
    if len' > 0 then getIntLoop T tk v fuel (idx + bLen) len' (min len' 15) (sum + bLen) res' else pure res'

/-- `get_int(idx, len)`; include/sdsl/rrr_vector_15.hpp:315-349. -/
def getInt (T : Tab) (tk : Nat) (v : Vec) (idx len : Nat) : Option Nat :=
  if idx / 15 = (idx + len - 1) / 15 then getIntBlock T tk v idx len
  else getIntLoop T tk v (len + 1) idx len (15 - idx % 15) 0 0

/-- Sum of the hexadecimal digits of a word; include/sdsl/rrr_vector_15.hpp:485-486. -/
def sumNib (w : Word) : Nat :=
  ((0x0101010101010101#64 * ((w &&& 0x0f0f0f0f0f0f0f0f#64) + ((w >>> 4) &&& 0x0f0f0f0f0f0f0f0f#64))) >>> 56).toNat

/-- The loop over full words, `c` of them before `bt64_end`; include/sdsl/rrr_vector_15.hpp:491-495. -/
def wordLoop (bt : Arr) : Nat → Nat → Nat → Option Nat
  | _, 0, r => some r
  | k, c + 1, r => do
    let w ← wordAt bt k
    wordLoop bt (k + 1) c (r + sumNib w)

/-- Sum of the block types in front of a uniform block, in 64-bit chunks; include/sdsl/rrr_vector_15.hpp:473-502.
    `j` and `e` are the bit positions of the first block of the superblock and of the block. -/
def sumUniform (bt : Arr) (j e r : Nat) : Option Nat :=
  if e = j then some r
  else if j / 64 = e / 64 then do
    let w ← wordAt bt (j / 64)
    let m ← Bits.loSet (e % 64 - j % 64)
    pure (r + sumNib ((w >>> (j % 64)) &&& m))
  else do
    let w ← wordAt bt (j / 64)
    let r1 ← wordLoop bt (j / 64 + 1) (e / 64 - (j / 64 + 1)) (r + sumNib (w >>> (j % 64)))
    if e % 64 > 0 then do
      let w' ← wordAt bt (e / 64)
      pure (r1 + sumNib (w' <<< (64 - e % 64)))
    else pure r1

/-- `rank(i)` after the shortcuts; include/sdsl/rrr_vector_15.hpp:460-533. -/
def rankScan (T : Tab) (tk : Nat) (v : Vec) (tb : Bool) (i btnrp rank : Nat) : Option Nat := do
  let btIdx := i / 15
  let sp := btIdx / tk
  let t ← readType v.bt btIdx
  if t = 0 ∨ t = 15 then do
    let r ← sumUniform v.bt (sp * tk * 4) (btIdx * 4) (if t = 15 then rank + i % 15 else rank)
    pure (Rrr.adjust tb r i)
  else do
    let (r, p) ← scan T v.bt btIdx (sp * tk) rank btnrp
    if i % 15 = 0 then pure (Rrr.adjust tb r i)
    else do
      let len ← T.sp t
      let nr ← Bv.getInt v.btnr p len
      let bin ← T.toBin t nr
      let m ← Bits.loSet (i % 15)
      pure (Rrr.adjust tb (r + (Bits.cnt (BitVec.ofNat 64 bin &&& m)).toNat) i)

/-- `rank_support_rrr<t_b>::rank(i)`; include/sdsl/rrr_vector_15.hpp:445-533. -/
def rankQ (T : Tab) (tk : Nat) (v : Vec) (tb : Bool) (i : Nat) : Option Nat := do
  let sp := i / 15 / tk
  let btnrp ← v.btnrp.get sp
  let rank ← v.rank.get sp
  if sp + 1 < v.rank.xs.length then do
    let nx ← v.rank.get (sp + 1)
    if nx - rank = 0 then pure (Rrr.adjust tb rank i)
    else if nx - rank = 15 * tk then pure (Rrr.adjust tb (rank + i - sp * tk * 15) i)
    else rankScan T tk v tb i btnrp rank
  else rankScan T tk v tb i btnrp rank

/-- Block scan of `select1` (`tb = true`) and `select0`: final `idx`, `bt`, `rank`, `btnrp`, `s`;
    include/sdsl/rrr_vector_15.hpp:621-625, 658-662. -/
def selScan (T : Tab) (v : Vec) (tb : Bool) (i : Nat) : Nat → Nat → Nat → Nat → Nat → Nat → Option (Nat × Nat × Nat × Nat × Nat)
  | 0, idx, bt, rank, btnrp, len => if i > rank then none else some (idx, bt, rank, btnrp, len)
  | fuel + 1, idx, bt, rank, btnrp, len =>
    if i > rank then do
      let x ← v.bt.get idx
      let l ← T.sp x
      selScan T v tb i fuel (idx + 1) x (rank + (if tb then x else 15 - x)) (btnrp + l) l
    else some (idx, bt, rank, btnrp, len)

/-- Part (2) of `select1`; include/sdsl/rrr_vector_15.hpp:612-628. -/
def select1Tail (T : Tab) (tk : Nat) (v : Vec) (i b e : Nat) : Option Nat := do
  let rank ← v.rank.get b
  let re ← v.rank.get e
  if re - rank = 15 * tk then pure (b * tk * 15 + i - rank - 1)
  else do
    let p0 ← v.btnrp.get b
    let (idx, bt, r, btnrp, len) ← selScan T v true i (v.bt.xs.length + 1) (b * tk) 0 rank p0 0
    let nr ← Bv.getInt v.btnr (btnrp - len) len
    let bin ← T.toBin bt nr
    let p ← Bits.sel (BitVec.ofNat 64 bin) (i - (r - bt))
    pure ((idx - 1) * 15 + p)

/-- `select1(i)`; include/sdsl/rrr_vector_15.hpp:594-629. -/
def select1 (T : Tab) (tk : Nat) (v : Vec) (i : Nat) : Option Nat := do
  let total ← v.rank.get (v.rank.xs.length - 1)
  if total < i then pure v.size
  else do
    let (b, e) ← Rrr.sampleSearch (fun idx => v.rank.get idx) i v.rank.xs.length 0 (v.rank.xs.length - 1)
    select1Tail T tk v i b e

/-- Part (2) of `select0`; include/sdsl/rrr_vector_15.hpp:650-665. -/
def select0Tail (T : Tab) (tk : Nat) (v : Vec) (i b e : Nat) : Option Nat := do
  let rb ← v.rank.get b
  let re ← v.rank.get e
  let rank := b * 15 * tk - rb
  if re = rb then pure (b * tk * 15 + i - rank - 1)
  else do
    let p0 ← v.btnrp.get b
    let (idx, bt, r, btnrp, len) ← selScan T v false i (v.bt.xs.length + 1) (b * tk) 0 rank p0 0
    let nr ← Bv.getInt v.btnr (btnrp - len) len
    let bin ← T.toBin bt nr
    let p ← Bits.sel (~~~ BitVec.ofNat 64 bin) (i - (r - (15 - bt)))
    pure ((idx - 1) * 15 + p)

/-- `select0(i)`; include/sdsl/rrr_vector_15.hpp:632-666. -/
def select0 (T : Tab) (tk : Nat) (v : Vec) (i : Nat) : Option Nat := do
  let total ← v.rank.get (v.rank.xs.length - 1)
  if v.size - total < i then pure v.size
  else do
    let (b, e) ← Rrr.sampleSearch (fun idx => do let r ← v.rank.get idx; pure (idx * 15 * tk - r)) i v.rank.xs.length 0
      (v.rank.xs.length - 1)
    select0Tail T tk v i b e

/-- `select_support_rrr<t_b>::select(i)`; include/sdsl/rrr_vector_15.hpp:677-680. -/
def selectQ (T : Tab) (tk : Nat) (v : Vec) (tb : Bool) (i : Nat) : Option Nat := if tb then select1 T tk v i else select0 T tk v i

end Sdsl.Rrr15
