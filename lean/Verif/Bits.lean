/-
  Model of `struct sdsl::bits`, include/sdsl/bits.hpp.
  The portable (non-SSE4.2, non-BMI2) code paths are modelled, plus the SSE4.2 and BMI2 paths of `sel`
  with `__builtin_ctzll` and `_pdep_u64` given their documented meaning.
-/
import Verif.Basic
import Verif.Spec
import Verif.Tables

namespace Sdsl.Bits

/-- `bits::all_set`, bits.hpp:60. -/
def allSet : Word := BitVec.allOnes 64

/-- `bits::lo_set[k]`; table look-up, undefined outside the table. -/
def loSet (k : Nat) : Option Word := loSetTab[k]?

/-- `bits::ps_overflow[k]`. -/
def psOverflow (k : Nat) : Option Word := psOverflowTab[k]?

/-- `bits::cnt` arithmetic variant, bits.hpp:248 (lines 258-261). -/
def cnt (x : Word) : Word :=
  let x := x - ((x >>> 1) &&& 0x5555555555555555#64)
  let x := (x &&& 0x3333333333333333#64) + ((x >>> 2) &&& 0x3333333333333333#64)
  let x := (x + (x >>> 4)) &&& 0x0f0f0f0f0f0f0f0f#64
  (0x0101010101010101#64 * x) >>> 56

/-- `bits::lt_cnt[(x >> s) & 0xFF]`. -/
def ltCntByte (x : Word) (s : Nat) : Option Nat := ltCnt[((x >>> s) &&& 0xFF#64).toNat]?

/-- `bits::cnt` table variant (`POPCOUNT_TL`), bits.hpp:253-256. The sum of eight `uint8_t` is an `int`. -/
def cntTL (x : Word) : Option Nat := do
  let a ← ltCnt[(x &&& 0xFF#64).toNat]?
  let b ← ltCntByte x 8
  let c ← ltCntByte x 16
  let d ← ltCntByte x 24
  let e ← ltCntByte x 32
  let f ← ltCntByte x 40
  let g ← ltCntByte x 48
  let h ← ltCntByte x 56
  pure (a + b + c + d + e + f + g + h)

/-- `bits::cnt32`, bits.hpp:267-272. -/
def cnt32 (x : BitVec 32) : BitVec 32 :=
  let x := x - ((x >>> 1) &&& 0x55555555#32)
  let x := (x &&& 0x33333333#32) + ((x >>> 2) &&& 0x33333333#32)
  ((0x10101010#32 * x) >>> 28) + ((0x01010101#32 * x) >>> 28)

/-- Last three lines shared by both `cnt11` variants, bits.hpp:285-287 and 299-301:
    sum of the bits of a word whose ones sit at even positions only. -/
def cntPairs (x : Word) : Word :=
  let x := (x &&& 0x3333333333333333#64) + ((x >>> 2) &&& 0x3333333333333333#64)
  let x := (x + (x >>> 4)) &&& 0x0F0F0F0F0F0F0F0F#64
  (0x0101010101010101#64 * x) >>> 56

/-- `bits::cnt11(x, c)`, bits.hpp:275-288. Returns the count and the new carry. -/
def cnt11c (x c : Word) : Word × Word :=
  let ex11 := (x &&& (x >>> 1)) &&& 0x5555555555555555#64
  let ex10or01 := (ex11 ||| (ex11 <<< 1)) ^^^ x
  let t := (ex11 ||| (ex11 <<< 1)) + (((ex10or01 <<< 1) &&& 0x5555555555555555#64) ||| c)
  let y := ex11 ||| (t &&& (ex10or01 &&& 0x5555555555555555#64))
  let c' : Bool := (ex10or01 >>> 63 != 0#64) || (t < (ex11 ||| (ex11 <<< 1)))
  (cntPairs y, if c' then 1#64 else 0#64)

/-- `bits::cnt11(x)`, bits.hpp:290-302. -/
def cnt11 (x : Word) : Word :=
  let ex11 := (x &&& (x >>> 1)) &&& 0x5555555555555555#64
  let ex10or01 := (ex11 ||| (ex11 <<< 1)) ^^^ x
  let y := ex11 ||| (((ex11 ||| (ex11 <<< 1)) + ((ex10or01 <<< 1) &&& 0x5555555555555555#64))
            &&& (ex10or01 &&& 0x5555555555555555#64))
  cntPairs y

/-- `bits::map10`, bits.hpp:311-314. -/
def map10 (x c : Word) : Word := (x ^^^ ((x <<< 1) ||| c)) &&& (~~~x)

/-- `bits::map01`, bits.hpp:322-325. -/
def map01 (x c : Word) : Word := (x ^^^ ((x <<< 1) ||| c)) &&& x

/-- `bits::cnt10`, bits.hpp:304-309. Returns count and new carry. -/
def cnt10 (x c : Word) : Word × Word := (cnt ((x ^^^ ((x <<< 1) ||| c)) &&& (~~~x)), x >>> 63)

/-- `bits::cnt01`, bits.hpp:316-321. Returns count and new carry. -/
def cnt01 (x c : Word) : Word × Word := (cnt ((x ^^^ ((x <<< 1) ||| c)) &&& x), x >>> 63)

/-- The byte-wise prefix sums `s` of `_sel`, bits.hpp:357-361. -/
def selSums (x : Word) : Word :=
  let s := x - ((x >>> 1) &&& 0x5555555555555555#64)
  let s := (s &&& 0x3333333333333333#64) + ((s >>> 2) &&& 0x3333333333333333#64)
  let s := (s + (s >>> 4)) &&& 0x0F0F0F0F0F0F0F0F#64
  0x0101010101010101#64 * s

/-- `bits::lt_sel[((x & 0xFF) + i - d) & 0x7FF]` with 64-bit wrap-around, bits.hpp:368-386. -/
def ltSelAt (xs i d : Word) : Option Nat :=
  ltSel[(((xs &&& 0xFF#64) + i - d) &&& 0x7FF#64).toNat]?

/-- `bits::_sel`, bits.hpp:355-388. `i` is a `uint32_t`; `(i-1)<<8` is computed in 32 bits. -/
def sel (x : Word) (i : Nat) : Option Nat := do
  let s := selSums x
  let b := s + (← psOverflow i)
  let i : Word := (((BitVec.ofNat 32 i) - 1#32) <<< 8).setWidth 64
  if b &&& 0x0000000080000000#64 != 0#64 then
    if b &&& 0x0000000000008000#64 != 0#64 then
      if b &&& 0x0000000000000080#64 != 0#64 then
        return ← ltSel[((x &&& 0xFF#64) + i).toNat]?
      else
        return 8 + (← ltSelAt (x >>> 8) i ((s &&& 0xFF#64) <<< 8))
    else
      if b &&& 0x0000000000800000#64 != 0#64 then
        return 16 + (← ltSelAt (x >>> 16) i (s &&& 0xFF00#64))
      else
        return 24 + (← ltSelAt (x >>> 24) i ((s >>> 8) &&& 0xFF00#64))
  else
    if b &&& 0x0000800000000000#64 != 0#64 then
      if b &&& 0x0000008000000000#64 != 0#64 then
        return 32 + (← ltSelAt (x >>> 32) i ((s >>> 16) &&& 0xFF00#64))
      else
        return 40 + (← ltSelAt (x >>> 40) i ((s >>> 24) &&& 0xFF00#64))
    else
      if b &&& 0x0080000000000000#64 != 0#64 then
        return 48 + (← ltSelAt (x >>> 48) i ((s >>> 32) &&& 0xFF00#64))
      else
        return 56 + (← ltSelAt (x >>> 56) i ((s >>> 40) &&& 0xFF00#64))

/-- `__builtin_ctzll`: number of trailing zeros, undefined for 0. -/
def ctzll (x : Word) : Option Nat := (List.range 64).find? (fun i => x.getLsbD i)

/-- `bits::sel` with SSE4.2, bits.hpp:333-349. `i` is a `uint32_t`; the index into `lt_sel` is computed from a
    32-bit and a 64-bit part. -/
def selSse (x : Word) (i : Nat) : Option Nat := do
  let s := selSums x
  let b := (s + (← psOverflow i)) &&& 0x8080808080808080#64
  let byteNr := (← ctzll b) >>> 3
  let s := s <<< 8
  let i : BitVec 32 := BitVec.ofNat 32 i - ((s >>> (byteNr <<< 3)) &&& 0xFF#64).setWidth 32
  let j := (((i - 1#32) <<< 8).setWidth 64 + ((x >>> (byteNr <<< 3)) &&& 0xFF#64)).toNat
  return (byteNr <<< 3) + (← ltSel[j]?)

/-- `_pdep_u64(src, mask)`: the low bits of `src` are deposited, in order, at the positions of the ones of `mask`. -/
def pdep (src mask : Word) : Word :=
  BitVec.ofNat 64 (Spec.bitsVal
    (fun j => mask.getLsbD j && src.getLsbD (Spec.countTrue (fun i => mask.getLsbD i) j)) 64)

/-- `bits::sel` with BMI2, bits.hpp:330-332. -/
def selBmi2 (x : Word) (i : Nat) : Option Nat := do ctzll (pdep (← shl 1#64 (i - 1)) x)

/-- `bits::hi`, bits.hpp:392-414 (table variant). -/
def hi (x : Word) : Option Nat :=
  let tt := x >>> 32
  if tt != 0#64 then
    let t := tt >>> 16
    if t != 0#64 then
      let tt := t >>> 8
      if tt != 0#64 then (ltHi[tt.toNat]?).map (56 + ·) else (ltHi[t.toNat]?).map (48 + ·)
    else
      let t := tt >>> 8
      if t != 0#64 then (ltHi[t.toNat]?).map (40 + ·) else (ltHi[tt.toNat]?).map (32 + ·)
  else
    let t := x >>> 16
    if t != 0#64 then
      let tt := t >>> 8
      if tt != 0#64 then (ltHi[tt.toNat]?).map (24 + ·) else (ltHi[t.toNat]?).map (16 + ·)
    else
      let tt := x >>> 8
      if tt != 0#64 then (ltHi[tt.toNat]?).map (8 + ·) else ltHi[x.toNat]?

/-- `bits::lo`, bits.hpp:418-434 (table / de Bruijn variant). -/
def lo (x : Word) : Option Nat :=
  if x &&& 1#64 != 0#64 then some 0
  else if x &&& 3#64 != 0#64 then some 1
  else if x &&& 7#64 != 0#64 then some 2
  else if x &&& 0x7FF#64 != 0#64 then (ltLo[((x &&& 0x7FF#64) >>> 3).toNat]?).map (· + 3)
  else ltDeBruijnToIdx[(((x &&& (-x)) * 0x0218A392CD3D5DBF#64) >>> 58).toNat]?

/-- The word on which `hi11` and `sel11` operate, bits.hpp:438-443 and 450-452. -/
def ends11 (x c : Word) : Word :=
  let ex11 := (x &&& (x >>> 1)) &&& 0x5555555555555555#64
  let ex10or01 := (ex11 ||| (ex11 <<< 1)) ^^^ x
  ex11 + (((ex11 ||| (ex11 <<< 1)) + (((ex10or01 <<< 1) &&& 0x5555555555555555#64) ||| c))
            &&& ((ex10or01 &&& 0x5555555555555555#64) ||| ex11))

/-- `bits::hi11`, bits.hpp:436-445. -/
def hi11 (x : Word) : Option Nat := hi (ends11 x 0#64)

/-- `bits::sel11`, bits.hpp:448-454. -/
def sel11 (x : Word) (i : Nat) (c : Word) : Option Nat := sel (ends11 x c) i

/-- `bits::write_int`, bits.hpp:456-476. `p` is the word index the pointer `word` designates. -/
def writeInt (m : Mem) (p : Nat) (x : Word) (offset len : Nat) : Option Mem := do
  let x := x &&& (← loSet len)
  if offset + len < 64 then
    let m ← st m p ((← ld m p) &&& ((← shl allSet (offset + len)) ||| (← loSet offset)))
    st m p ((← ld m p) ||| (← shl x offset))
  else
    let m ← st m p ((← ld m p) &&& (← loSet offset))
    let m ← st m p ((← ld m p) ||| (← shl x offset))
    let offset := (offset + len) % 64
    if offset ≠ 0 then
      let m ← st m (p + 1) ((← ld m (p + 1)) &&& ~~~(← loSet offset))
      st m (p + 1) ((← ld m (p + 1)) ||| (← shr x (len - offset)))
    else
      pure m

/-- `bits::write_int_and_move`, bits.hpp:478-499. Returns memory, new word index, new offset.
    `offset` is a `uint8_t`, hence the `% 256` on assignment. -/
def writeIntAndMove (m : Mem) (p : Nat) (x : Word) (offset len : Nat) : Option (Mem × Nat × Nat) := do
  let x := x &&& (← loSet len)
  if offset + len < 64 then
    let m ← st m p ((← ld m p) &&& ((← shl allSet (offset + len)) ||| (← loSet offset)))
    let m ← st m p ((← ld m p) ||| (← shl x offset))
    pure (m, p, (offset + len) % 256)
  else
    let m ← st m p ((← ld m p) &&& (← loSet offset))
    let m ← st m p ((← ld m p) ||| (← shl x offset))
    let offset := (offset + len) % 256
    if offset > 64 then
      let offset := offset % 64
      let p := p + 1
      let m ← st m p ((← ld m p) &&& ~~~(← loSet offset))
      let m ← st m p ((← ld m p) ||| (← shr x (len - offset)))
      pure (m, p, offset)
    else
      pure (m, p + 1, 0)

/-- `bits::read_int`, bits.hpp:501-511. -/
def readInt (m : Mem) (p offset len : Nat) : Option Word := do
  let w1 ← shr (← ld m p) offset
  if offset + len > 64 then
    pure (w1 ||| (← shl ((← ld m (p + 1)) &&& (← loSet ((offset + len) % 64))) (64 - offset)))
  else
    pure (w1 &&& (← loSet len))

/-- `bits::read_int_and_move`, bits.hpp:513-529. Returns value, new word index, new offset. -/
def readIntAndMove (m : Mem) (p offset len : Nat) : Option (Word × Nat × Nat) := do
  let w1 ← shr (← ld m p) offset
  let offset := (offset + len) % 256
  if offset ≥ 64 then
    if offset = 64 then
      pure (w1, p + 1, offset % 64)
    else
      let offset := offset % 64
      pure (w1 ||| (← shl ((← ld m (p + 1)) &&& (← loSet offset)) (len - offset)), p + 1, offset)
  else
    pure (w1 &&& (← loSet len), p, offset)

/-- The loop `while (0==(w=*(++word))) ++cnt;` of `read_unary*` (bits.hpp:540-541, 565-566), started at word
    index `p` (already incremented). Returns the non-zero word, its index, and the number of zero words skipped. -/
def skipZeroWords (m : Mem) (p : Nat) : Option (Word × Nat × Nat) :=
  if h : p < m.length then
    if m[p] = 0#64 then (skipZeroWords m (p + 1)).map (fun r => (r.1, r.2.1, r.2.2 + 1))
    else some (m[p], p, 0)
  else none
termination_by m.length - p

/-- `bits::read_unary`, bits.hpp:531-545. -/
def readUnary (m : Mem) (p offset : Nat) : Option Nat := do
  let w ← shr (← ld m p) offset
  if w ≠ 0#64 then
    lo w
  else
    let w ← ld m (p + 1)
    if w ≠ 0#64 then
      return (← lo w) + 64 - offset
    else
      let r ← skipZeroWords m (p + 2)
      return (← lo r.1) + (2 + r.2.2) * 64 - offset

/-- `bits::read_unary_and_move`, bits.hpp:547-574. `rr` and `offset` are `uint8_t`.
    Returns value, new word index, new offset. -/
def readUnaryAndMove (m : Mem) (p offset : Nat) : Option (Nat × Nat × Nat) := do
  let w ← shr (← ld m p) offset
  if w ≠ 0#64 then
    let r := (← lo w) % 256
    let offset := (offset + r + 1) % 64
    pure (r, p + (if offset = 0 then 1 else 0), offset)
  else
    let p := p + 1
    let w ← ld m p
    if w ≠ 0#64 then
      let rr := ((← lo w) + 64 - offset) % 256
      let offset := (offset + rr + 1) % 64
      pure (rr, p + (if offset = 0 then 1 else 0), offset)
    else
      let r ← skipZeroWords m (p + 1)
      let rr := ((← lo r.1) + 64 - offset) % 256
      let offset := (offset + rr + 1) % 64
      pure ((1 + r.2.2) * 64 + rr, r.2.1 + (if offset = 0 then 1 else 0), offset)

/-- `bits::move_right`, bits.hpp:576-582. `offset` is a `uint8_t`. Word indices are integers here, because
    `move_left` can leave the array. -/
def moveRight (p : Int) (offset len : Nat) : Int × Nat :=
  let offset := (offset + len) % 256
  if offset &&& 0xC0 ≠ 0 then (p + 1, offset &&& 0x3F) else (p, offset)

/-- `bits::move_left`, bits.hpp:584-590. `offset -= len` wraps modulo 256. -/
def moveLeft (p : Int) (offset len : Nat) : Int × Nat :=
  let offset := (offset + 256 - len) % 256
  if offset &&& 0xC0 ≠ 0 then (p - 1, offset &&& 0x3F) else (p, offset)

/-- The loop of `bits::next`, bits.hpp:600-604, at word index `p`. -/
def nextLoop (m : Mem) (p idx : Nat) : Option Nat :=
  if h : p < m.length then
    if m[p] = 0#64 then nextLoop m (p + 1) (idx + 64)
    else (lo m[p]).map (idx + ·)
  else none
termination_by m.length - p

/-- `bits::next`, bits.hpp:592-605. -/
def next (m : Mem) (idx : Nat) : Option Nat := do
  let p := idx / 64
  let w := (← ld m p) &&& ~~~(← loSet (idx % 64))
  if w ≠ 0#64 then
    return (idx / 64) * 64 + (← lo w)
  else
    nextLoop m (p + 1) ((idx / 64) * 64 + 64)

/-- The loop of `bits::prev`, bits.hpp:615-619. The argument `p` is the word index plus one; reaching
    `p = 0` is a read before the array. -/
def prevLoop (m : Mem) : Nat → Option Nat
  | 0 => none
  | p + 1 => do
    let w ← ld m p
    if w = 0#64 then prevLoop m p else return p * 64 + (← hi w)

/-- `bits::prev`, bits.hpp:607-620. (`idx` is kept as `64 *` word index.) -/
def prev (m : Mem) (idx : Nat) : Option Nat := do
  let p := idx / 64
  let w := (← ld m p) &&& (← loSet (idx % 64 + 1))
  if w ≠ 0#64 then
    return (idx / 64) * 64 + (← hi w)
  else
    prevLoop m p

/-- `bits::rev`, bits.hpp:622-631. -/
def rev (x : Word) : Word :=
  let x := ((x &&& 0x5555555555555555#64) <<< 1) ||| ((x &&& 0xAAAAAAAAAAAAAAAA#64) >>> 1)
  let x := ((x &&& 0x3333333333333333#64) <<< 2) ||| ((x &&& 0xCCCCCCCCCCCCCCCC#64) >>> 2)
  let x := ((x &&& 0x0F0F0F0F0F0F0F0F#64) <<< 4) ||| ((x &&& 0xF0F0F0F0F0F0F0F0#64) >>> 4)
  let x := ((x &&& 0x00FF00FF00FF00FF#64) <<< 8) ||| ((x &&& 0xFF00FF00FF00FF00#64) >>> 8)
  let x := ((x &&& 0x0000FFFF0000FFFF#64) <<< 16) ||| ((x &&& 0xFFFF0000FFFF0000#64) >>> 16)
  let x := ((x &&& 0x00000000FFFFFFFF#64) <<< 32) ||| ((x &&& 0xFFFFFFFF00000000#64) >>> 32)
  x

end Sdsl.Bits
