/-
  Model of `sdsl::int_vector` (include/sdsl/int_vector.hpp), of `memory_manager::resize`
  (include/sdsl/memory_management.hpp) and of the vector utilities of include/sdsl/util.hpp.

  Simplifications:
  * `size_type` is `Nat` (no wrap-around of bit counts at 2^64).
  * Allocation never fails. Memory obtained from the allocator has arbitrary content, given by a parameter `junk`.
  * The accessors of `int_vector<8/16/32>` use `uint8_t*`, `uint16_t*`, `uint32_t*` views of the words. On the
    little-endian byte order the library supports, element `i` of such a view is the bit field at `i * width`, which is
    what the generic accessor reads; the generic accessor is modelled. `int_vector<1>` and `int_vector<64>` have their
    own accessors, modelled by `Ref1` and `get64`/`set64`.
-/
import Verif.Bits

namespace Sdsl

open Bits

/-- `int_vector`: `m_size` (bits), the words allocated behind `m_data` (`[]` for a null pointer), `m_width`.
    int_vector.hpp:325-327. -/
structure IntVec where
  size : Nat
  data : Mem
  width : Nat
deriving DecidableEq, Repr

namespace IntVec

/-- `size()`: number of elements, int_vector.hpp:390-393. -/
def numElems (v : IntVec) : Nat := v.size / v.width

/-- `capacity() >> 6`, int_vector.hpp:416-419. -/
def capWords (v : IntVec) : Nat := (v.size + 63) / 64

/-- `realloc` to `n` words: the common prefix is kept, further words hold arbitrary content. -/
def reallocMem (junk : Nat → Word) (d : Mem) (n : Nat) : Mem :=
  d.take n ++ (List.range (n - d.length)).map (fun i => junk (d.length + i))

/-- `memory_manager::resize`, memory_management.hpp:344-375; `int_vector::bit_resize`, int_vector.hpp:1325. -/
def bitResize (junk : Nat → Word) (v : IntVec) (size : Nat) : Option IntVec := do
  let oldBytes := (v.size + 63) / 64 * 8
  let newBytes := (size + 63) / 64 * 8
  if oldBytes ≠ newBytes ∨ v.data = [] then
    let d := reallocMem junk v.data ((size + 64) / 64)
    let cap := (size + 63) / 64 * 64
    let d ← if size < cap then writeInt d (size / 64) 0#64 (size % 64) (cap - size) else pure d
    let d ← if size % 64 = 0 then st d (size / 64) 0#64 else pure d
    pure { v with size := size, data := d }
  else
    pure { v with size := size }

/-- `resize`, int_vector.hpp:377-380. -/
def resize (junk : Nat → Word) (v : IntVec) (n : Nat) : Option IntVec := bitResize junk v (n * v.width)

/-- `int_vector_trait<0>::set_width`, int_vector.hpp:147-155. -/
def clampWidth (w : Nat) : Nat := if 0 < w ∧ w ≤ 64 then w else 64

/-- `get_int(idx, len)`, int_vector.hpp:1331-1342. -/
def getInt (v : IntVec) (idx len : Nat) : Option Word := readInt v.data (idx / 64) (idx % 64) len

/-- `set_int(idx, x, len)`, int_vector.hpp:1345-1356. -/
def setInt (v : IntVec) (idx : Nat) (x : Word) (len : Nat) : Option IntVec :=
  (writeInt v.data (idx / 64) x (idx % 64) len).map (fun d => { v with data := d })

/-- `operator[]` const for generic width, int_vector.hpp:1393-1407, and `value_type(v[i])` through the proxy,
    int_vector.hpp:1359-1363 and 671-674. -/
def get (v : IntVec) (i : Nat) : Option Word :=
  readInt v.data (i * v.width / 64) (i * v.width % 64) v.width

/-- `v[i] = x` through the proxy, int_vector.hpp:1359-1363 and 659-663. -/
def set (v : IntVec) (i : Nat) (x : Word) : Option IntVec :=
  (writeInt v.data (i * v.width / 64) x (i * v.width % 64) v.width).map (fun d => { v with data := d })

/-- `int_vector<64>::operator[]`, int_vector.hpp:1366-1370 and 1409-1415. -/
def get64 (v : IntVec) (i : Nat) : Option Word := ld v.data i

/-- Assignment through `int_vector<64>::operator[]`. -/
def set64 (v : IntVec) (i : Nat) (x : Word) : Option IntVec :=
  (st v.data i x).map (fun d => { v with data := d })

/-- `bit_vector::operator[]` const, int_vector.hpp:1441-1447. -/
def get1 (v : IntVec) (i : Nat) : Option Bool := do
  let w ← shr (← ld v.data (i / 64)) (i % 64)
  pure ((w &&& 1#64) != 0#64)

/-- `bool(v[i])` through the proxy of `bit_vector`, int_vector.hpp:784-785 and 803-806. -/
def getRef1 (v : IntVec) (i : Nat) : Option Bool := do
  let mask ← shl 1#64 (i % 64)
  pure (((← ld v.data (i / 64)) &&& mask) != 0#64)

/-- `v[i] = x` through the proxy of `bit_vector`, int_vector.hpp:784-795. -/
def set1 (v : IntVec) (i : Nat) (x : Bool) : Option IntVec := do
  let mask ← shl 1#64 (i % 64)
  let w ← ld v.data (i / 64)
  let d ← st v.data (i / 64) (if x then w ||| mask else w &&& ~~~mask)
  pure { v with data := d }

/-- Element operations through the proxy objects. -/
inductive ElemOp where
  | assign (i : Nat) (x : Word)   -- v[i] = x
  | copy (i j : Nat)              -- v[i] = v[j]
  | add (i : Nat) (x : Word)      -- v[i] += x
  | sub (i : Nat) (x : Word)      -- v[i] -= x
  | inc (i : Nat)                 -- ++v[i]
  | dec (i : Nat)                 -- --v[i]
  | swap (i j : Nat)              -- swap(v[i], v[j])
deriving Repr

/-- One element operation, int_vector.hpp:659-722 and 736-744. -/
def step (v : IntVec) : ElemOp → Option IntVec
  | .assign i x => v.set i x
  | .copy i j => do v.set i (← v.get j)
  | .add i x => do v.set i ((← v.get i) + x)
  | .sub i x => do v.set i ((← v.get i) - x)
  | .inc i => do v.set i ((← v.get i) + 1#64)
  | .dec i => do v.set i ((← v.get i) - 1#64)
  | .swap i j => do
    let tmp ← v.get i
    let v ← v.set i (← v.get j)
    v.set j tmp

/-- A history of element operations. -/
def run (v : IntVec) : List ElemOp → Option IntVec
  | [] => some v
  | op :: ops => (v.step op).bind (fun v => run v ops)

/-- The loop of `operator==` over all words but the last, int_vector.hpp:1459-1462. -/
def wordsEq (a b : Mem) : Nat → Nat → Option Bool
  | _, 0 => some true
  | i, k + 1 => do if (← ld a i) ≠ (← ld b i) then pure false else wordsEq a b (i + 1) k

/-- `operator==`, int_vector.hpp:1449-1465. -/
def eqv (v w : IntVec) : Option Bool :=
  if v.capWords * 64 ≠ w.capWords * 64 then some false
  else if v.size ≠ w.size then some false
  else if v.size = 0 then some true
  else do
    let b ← wordsEq w.data v.data 0 (v.capWords - 1)
    if b = false then pure false
    else
      let l := 64 - (v.capWords * 64 - v.size)
      pure (((← ld w.data (v.capWords - 1)) &&& (← loSet l)) == ((← ld v.data (v.capWords - 1)) &&& (← loSet l)))

/-- `int_vector_iterator` / `int_vector_const_iterator`: word index relative to `m_data` (an integer, since
    intermediate positions may lie before the array), offset (`uint8_t`) and element length.
    int_vector.hpp:840-869, 889, 1073. -/
structure It where
  word : Int
  off : Nat
  len : Nat
deriving DecidableEq, Repr

/-- Constructor `iterator(v, idx)`, `idx` in bits. int_vector.hpp:893-895. -/
def itAt (v : IntVec) (idx : Nat) : It := ⟨(idx / 64 : Nat), idx % 64, v.width⟩

/-- `begin()` and `end()`, int_vector.hpp:130-145. -/
def itBegin (v : IntVec) : It := v.itAt 0
def itEnd (v : IntVec) : It := v.itAt (v.numElems * v.width)

namespace It

/-- `operator++`, int_vector.hpp:911-919, 1105-1113. -/
def next (it : It) : It :=
  let off := (it.off + it.len) % 256
  if off ≥ 64 then { it with off := off &&& 0x3F, word := it.word + 1 } else { it with off := off }

/-- `operator--`, int_vector.hpp:930-938, 1124-1132. -/
def prev (it : It) : It :=
  let off := (it.off + 256 - it.len) % 256
  if off ≥ 64 then { it with off := off &&& 0x3F, word := it.word - 1 } else { it with off := off }

/-- Non-negative part of `operator+=`, int_vector.hpp:952-958, 1146-1152. -/
def addN (it : It) (i : Nat) : It :=
  let t := i * it.len
  let off := (it.off + t % 64) % 256
  if off &&& 0xC0 ≠ 0 then { it with word := it.word + (t / 64 : Nat) + 1, off := off &&& 0x3F }
  else { it with word := it.word + (t / 64 : Nat), off := off }

/-- Non-negative part of `operator-=`, int_vector.hpp:965-971, 1159-1165. -/
def subN (it : It) (i : Nat) : It :=
  let t := i * it.len
  let off := (it.off + 256 - t % 64) % 256
  if off &&& 0xC0 ≠ 0 then { it with word := it.word - (t / 64 : Nat) - 1, off := off &&& 0x3F }
  else { it with word := it.word - (t / 64 : Nat), off := off }

/-- `operator+=`, int_vector.hpp:948-959, 1142-1153. -/
def add (it : It) (i : Int) : It := if i < 0 then it.subN (-i).toNat else it.addN i.toNat

/-- `operator-=`, int_vector.hpp:961-972, 1155-1166. -/
def sub (it : It) (i : Int) : It := if i < 0 then it.addN (-i).toNat else it.subN i.toNat

/-- `operator==`, int_vector.hpp:1001-1004, 1185-1188. -/
def eq (a b : It) : Bool := a.word == b.word && a.off == b.off

/-- `operator<`, int_vector.hpp:1011-1016, 1195-1200. -/
def lt (a b : It) : Bool := if a.word = b.word then a.off < b.off else a.word < b.word

/-- `operator-` of two iterators, int_vector.hpp:1034-1037, 1221-1227 (signed division truncates). -/
def diff (a b : It) : Int := Int.tdiv ((a.word - b.word) * 64 + a.off - b.off) a.len

/-- `*it` for a const iterator, int_vector.hpp:1095-1102. -/
def deref (m : Mem) (it : It) : Option Word := do
  if it.word < 0 then none
  else if it.off + it.len ≤ 64 then
    pure ((← shr (← ld m it.word.toNat) it.off) &&& (← loSet it.len))
  else
    pure ((← shr (← ld m it.word.toNat) it.off) |||
      (← shl ((← ld m (it.word.toNat + 1)) &&& (← loSet ((it.off + it.len) % 64))) (64 - it.off)))

/-- `*it = x` for an iterator, int_vector.hpp:905-908 and 659-663. -/
def store (m : Mem) (it : It) (x : Word) : Option Mem :=
  if it.word < 0 then none else writeInt m it.word.toNat x it.off it.len

end It

/-- The loop of `operator<`, int_vector.hpp:1473-1478; `none` inside the result: all compared elements are equal.
    The first argument bounds the number of iterations (fuel); the theorems show that it suffices. -/
def lessLoop (a b : Mem) (lt : Word → Word → Bool) : Nat → It → It → It → Option (Option Bool)
  | 0, _, _, _ => none
  | f + 1, it, e, itv =>
    if it.eq e then some none
    else do
      let x ← it.deref a
      let y ← itv.deref b
      if x = y then lessLoop a b lt f it.next e itv.next
      else pure (some (lt x y))

/-- `operator<`, int_vector.hpp:1468-1480. -/
def less (v w : IntVec) : Option Bool := do
  let n := if v.numElems > w.numElems then w.numElems else v.numElems
  match ← lessLoop v.data w.data (fun x y => x.ult y) (n + 1) v.itBegin (v.itBegin.addN n) w.itBegin with
  | some b => pure b
  | none => pure (decide (v.numElems < w.numElems))

/-- `operator>`, int_vector.hpp:1483-1495. -/
def greater (v w : IntVec) : Option Bool := do
  let n := if v.numElems > w.numElems then w.numElems else v.numElems
  match ← lessLoop v.data w.data (fun x y => y.ult x) (n + 1) v.itBegin (v.itBegin.addN n) w.itBegin with
  | some b => pure b
  | none => pure (decide (v.numElems > w.numElems))

/-- `operator<=`, int_vector.hpp:1498-1501. -/
def lessEq (v w : IntVec) : Option Bool := do if (← v.eqv w) then pure true else v.less w

/-- The loop shared by `operator&=`, `|=`, `^=`, int_vector.hpp:1520-1521, 1530-1531, 1540-1541. -/
def zipLoop (f : Word → Word → Word) (m b : Mem) : Nat → Nat → Option Mem
  | _, 0 => some m
  | i, k + 1 => do zipLoop f (← st m i (f (← ld m i) (← ld b i))) b (i + 1) k

/-- `operator&=`, `operator|=`, `operator^=`, int_vector.hpp:1516-1543. -/
def andAssign (v w : IntVec) : Option IntVec :=
  (zipLoop (· &&& ·) v.data w.data 0 w.capWords).map (fun d => { v with data := d })
def orAssign (v w : IntVec) : Option IntVec :=
  (zipLoop (· ||| ·) v.data w.data 0 w.capWords).map (fun d => { v with data := d })
def xorAssign (v w : IntVec) : Option IntVec :=
  (zipLoop (· ^^^ ·) v.data w.data 0 w.capWords).map (fun d => { v with data := d })

/-- Store `f i` into the words `i, ..., i+k-1`. -/
def fillLoop (f : Nat → Word → Option Word) (m : Mem) : Nat → Nat → Option Mem
  | _, 0 => some m
  | i, k + 1 => do fillLoop f (← st m i (← f i (← ld m i))) (i + 1) k

/-- `flip`, int_vector.hpp:582-590. -/
def flip (v : IntVec) : Option IntVec :=
  if v.size = 0 then some v
  else (fillLoop (fun _ w => some (~~~w)) v.data 0 v.capWords).map (fun d => { v with data := d })

/-! ### Copy -/

/-- `memcpy(dst, src, n words)` between distinct allocations. -/
def memcpy (dst src : Mem) : Nat → Nat → Option Mem
  | _, 0 => some dst
  | i, k + 1 => do memcpy (← st dst i (← ld src i)) src (i + 1) k

/-- Copy constructor, int_vector.hpp:1267-1277. -/
def copyCtor (junk : Nat → Word) (v : IntVec) : Option IntVec := do
  let u ← bitResize junk ⟨0, [], v.width⟩ v.size
  if v.capWords > 0 then
    pure { u with data := ← memcpy u.data v.data 0 v.capWords }
  else pure u

/-- Copy assignment `u = v` between distinct objects of `int_vector<0>`, int_vector.hpp:1280-1292. -/
def copyAssign (junk : Nat → Word) (u v : IntVec) : Option IntVec := do
  let u ← bitResize junk u v.size
  let u ← if v.size > 0 then do pure { u with data := ← memcpy u.data v.data 0 v.capWords } else pure u
  pure { u with width := clampWidth v.width }

/-! ### Serialisation -/

/-- A byte of a stream. -/
abbrev Byte := BitVec 8

/-- `conf::SDSL_BLOCK_SIZE`, config.hpp:13. -/
def blockSize : Nat := 2 ^ 22

/-- The eight bytes of a word in memory order (little endian). -/
def wordBytes (w : Word) : List Byte := (List.range 8).map (fun k => (w >>> (8 * k)).setWidth 8)

/-- The word held by eight bytes in memory order; `none` if there are not eight bytes. -/
def bytesWord : List Byte → Option Word
  | [a, b, c, d, e, f, g, h] =>
    some (a.setWidth 64 ||| (b.setWidth 64 <<< 8) ||| (c.setWidth 64 <<< 16) ||| (d.setWidth 64 <<< 24) |||
      (e.setWidth 64 <<< 32) ||| (f.setWidth 64 <<< 40) ||| (g.setWidth 64 <<< 48) ||| (h.setWidth 64 <<< 56))
  | _ => none

/-- `out.write((char*)(m + p), 8*n)`: the bytes of the words `p, ..., p+n-1`. -/
def outWords (m : Mem) : Nat → Nat → Option (List Byte)
  | _, 0 => some []
  | p, n + 1 => do pure (wordBytes (← ld m p) ++ (← outWords m (p + 1) n))

/-- The `while` loop and the final write of `write_data`, int_vector.hpp:1551-1558.
    Returns the bytes and `written_bytes`. -/
def writeDataLoop (m : Mem) (cap idx : Nat) : Option (List Byte × Nat) :=
  if idx + blockSize < cap then do
    let b ← outWords m idx blockSize
    let r ← writeDataLoop m cap (idx + blockSize)
    pure (b ++ r.1, blockSize * 8 + r.2)
  else do
    pure (← outWords m idx (cap - idx), (cap - idx) * 8)
termination_by cap - idx
decreasing_by simp only [blockSize]; omega

/-- `write_data`, int_vector.hpp:1546-1560. -/
def writeData (v : IntVec) : Option (List Byte × Nat) := writeDataLoop v.data v.capWords 0

/-- `write_header`, int_vector.hpp:602-609; `tw` is `t_width`. -/
def writeHeader (tw size width : Nat) : List Byte × Nat :=
  if tw = 0 then (wordBytes (BitVec.ofNat 64 size) ++ [BitVec.ofNat 8 width], 9)
  else (wordBytes (BitVec.ofNat 64 size), 8)

/-- `serialize` of an `int_vector<tw>`, int_vector.hpp:1563-1578. -/
def serialize (tw : Nat) (v : IntVec) (fixedAsVariable : Bool) : Option (List Byte × Nat) := do
  let h := if tw > 0 ∧ fixedAsVariable then writeHeader 0 v.size tw else writeHeader tw v.size v.width
  let d ← v.writeData
  pure (h.1 ++ d.1, h.2 + d.2)

/-- `in.read((char*)(m + p), 8*n)`; `none` if the stream ends early (the C++ stream then fails) or a word outside the
    allocation would be written. Returns the memory and the rest of the stream. -/
def inWords (m : Mem) (s : List Byte) : Nat → Nat → Option (Mem × List Byte)
  | _, 0 => some (m, s)
  | p, n + 1 => do
    let w ← bytesWord (s.take 8)
    inWords (← st m p w) (s.drop 8) (p + 1) n

/-- The `while` loop and the final read of `load`, int_vector.hpp:1589-1594. -/
def loadLoop (m : Mem) (s : List Byte) (cap idx : Nat) : Option (Mem × List Byte) :=
  if idx + blockSize < cap then do
    let r ← inWords m s idx blockSize
    loadLoop r.1 r.2 cap (idx + blockSize)
  else inWords m s idx (cap - idx)
termination_by cap - idx
decreasing_by simp only [blockSize]; omega

/-- `load` of an `int_vector<tw>` from a stream, int_vector.hpp:1581-1595 and `read_header` 593-599.
    Returns the vector and the unread rest of the stream. -/
def load (tw : Nat) (junk : Nat → Word) (v : IntVec) (s : List Byte) : Option (IntVec × List Byte) := do
  let size ← bytesWord (s.take 8)
  let s := s.drop 8
  let (width, s) ← if tw = 0 then
      match s with
      | b :: s => some (b.toNat, s)
      | [] => none
    else some (v.width, s)
  let v ← bitResize junk { v with width := width } size.toNat
  let r ← loadLoop v.data s v.capWords 0
  pure ({ v with data := r.1 }, r.2)

end IntVec

/-! ### util.hpp -/
namespace Util
open IntVec

/-- `*std::max_element(v.begin(), v.end())`, 0 for an empty vector (util.hpp:405-409): the maximum of the elements,
    read through the proxy. -/
def maxElem (v : IntVec) : Nat → Option Word
  | 0 => some 0#64
  | k + 1 => do
    let m ← maxElem v k
    let x ← v.get k
    pure (if m.ult x then x else m)

/-- The loop of `bit_compress`, util.hpp:417-420: `k` remaining iterations. -/
def compressLoop (oldW newW : Nat) : Nat → Mem → Nat → Nat → Nat → Nat → Option Mem
  | 0, m, _, _, _, _ => some m
  | k + 1, m, rp, ro, wp, wo => do
    let r ← readIntAndMove m rp ro oldW
    let w ← writeIntAndMove m wp r.1 wo newW
    compressLoop oldW newW k w.1 r.2.1 r.2.2 w.2.1 w.2.2

/-- `util::bit_compress` on an `int_vector<tw>`, util.hpp:403-424. For a fixed width (`tw ≠ 0`) the call
    `v.width(min_width)` has no effect (int_vector.hpp:149, 185, 215, 245, 275). -/
def bitCompress (tw : Nat) (junk : Nat → Word) (v : IntVec) : Option IntVec := do
  let max ← maxElem v v.numElems
  let minW := (← hi max) + 1
  if v.width > minW then
    let d ← compressLoop v.width minW v.numElems v.data 0 0 0 0
    let u ← bitResize junk { v with data := d } (v.numElems * minW)
    pure (if tw = 0 then { u with width := clampWidth minW } else u)
  else pure v

/-- The loop of `expand_width`, util.hpp:437-439: elements `k-1, ..., 0`. -/
def expandLoop (oldW newW : Nat) : Nat → IntVec → Option IntVec
  | 0, v => some v
  | k + 1, v => do
    let x ← v.getInt (k * oldW) oldW
    let v ← v.setInt (k * newW) x newW
    expandLoop oldW newW k v

/-- `util::expand_width` on an `int_vector<0>`, util.hpp:427-443. -/
def expandWidth (junk : Nat → Word) (v : IntVec) (newW : Nat) : Option IntVec := do
  if newW > v.width then
    let u ← if v.numElems > 0 then do
        let u ← bitResize junk v (v.numElems * newW)
        expandLoop v.width newW v.numElems u
      else pure v
    pure { u with width := clampWidth newW }
  else pure v

/-- `_set_zero_bits` / `_set_one_bits`, util.hpp:446-468. -/
def setAll (w : Word) (v : IntVec) : Option IntVec :=
  if v.size = 0 then some v
  else do
    let d ← st v.data 0 w
    pure { v with data := ← fillLoop (fun _ _ => some w) d 1 (v.capWords - 1) }

/-- `w >> k` where an out-of-range shift gives `ub`: `none` for the strict C++ reading (undefined behaviour), `some x`
    for a machine on which the shift yields some unspecified `x`. -/
def shrUB (ub : Option Word) (w : Word) (k : Nat) : Option Word := if k < 64 then some (w >>> k) else ub

/-- The `do ... while` loop of `set_to_value`, util.hpp:493-502. State: `vec`, `n`, `offset`. The first argument is
    fuel. Returns `vec` and `n`. -/
def patternLoop (ub : Option Word) (width : Nat) (k : Word) : Nat → Mem → Nat → Nat → Option (Mem × Nat)
  | 0, _, _, _ => none
  | f + 1, vec, n, off => do
    let vec ← st vec n ((← ld vec n) ||| (← shl k off))
    let off := (off + width) % 256
    if off ≥ 64 then
      let vec ← st vec (n + 1) 0#64
      let vec ← st vec (n + 1) (← shrUB ub k (width - (off - 64)))
      let off := off - 64
      if off ≠ 0 then patternLoop ub width k f vec (n + 1) off else pure (vec, n + 1)
    else
      if off ≠ 0 then patternLoop ub width k f vec n off else pure (vec, n)

/-- The inner fill loop, util.hpp:506-508: copies `vec[ii], vec[ii+1], ...` while `ii < n` and `i < n64`. -/
def cycleInner (vec : Mem) (n n64 : Nat) (m : Mem) (ii i : Nat) : Option (Mem × Nat) :=
  if ii < n ∧ i < n64 then do
    cycleInner vec n n64 (← st m i (← ld vec ii)) (ii + 1) (i + 1)
  else some (m, i)
termination_by n64 - i

/-- The outer fill loop, util.hpp:505-509. The first argument is fuel. -/
def cycleOuter (vec : Mem) (n n64 : Nat) : Nat → Mem → Nat → Option Mem
  | 0, _, _ => none
  | f + 1, m, i =>
    if i < n64 then do
      let r ← cycleInner vec n n64 m 0 i
      cycleOuter vec n n64 f r.1 r.2
    else some m

/-- `util::set_to_value`, util.hpp:471-510. (`vec[67]` is zero-initialised.) -/
def setToValue (ub : Option Word) (v : IntVec) (k : Word) : Option IntVec := do
  if v.size = 0 then pure v
  else if k = 0#64 then setAll 0#64 v
  else if (← loSet v.width) = k then setAll allSet v
  else
    let k := k &&& (← shr allSet (64 - v.width))
    let r ← patternLoop ub v.width k 64 (List.replicate 67 0#64) 0 0
    pure { v with data := ← cycleOuter r.1 r.2 v.capWords (v.capWords + 1) v.data 0 }

/-- Constructor `int_vector<tw>(n, k, w)`, int_vector.hpp:1250-1257. `junk` is the content of fresh memory. -/
def ctor (tw : Nat) (junk : Nat → Word) (ub : Option Word) (n : Nat) (k : Word) (w : Nat) : Option IntVec := do
  let v ← resize junk ⟨0, [], if tw = 0 then clampWidth w else tw⟩ n
  setToValue ub v k

/-- Constructor from an initializer list, int_vector.hpp:347-354: `n` default elements, then one assignment each. -/
def ctorList (tw : Nat) (junk : Nat → Word) (xs : List Word) : Option IntVec := do
  let v ← ctor tw junk none 0 0#64 tw
  let v ← resize junk v xs.length
  v.run (xs.zipIdx.map fun p => .assign p.2 p.1)

/-- `std::iota` over iterators, as called by `set_to_id`, util.hpp:514-517. The first argument is fuel. -/
def iotaLoop : Nat → Mem → It → It → Word → Option Mem
  | 0, _, _, _, _ => none
  | f + 1, m, it, e, x =>
    if it.eq e then some m
    else do iotaLoop f (← it.store m x) it.next e (x + 1#64)

/-- `util::set_to_id`, util.hpp:514-517. -/
def setToId (v : IntVec) : Option IntVec :=
  (iotaLoop (v.numElems + 1) v.data v.itBegin v.itEnd 0#64).map (fun d => { v with data := d })

/-- `util::mod`, util.hpp:395-400, `k` first elements. `% 0` is undefined. -/
def modLoop (m : Word) : Nat → Nat → IntVec → Option IntVec
  | _, 0, v => some v
  | i, k + 1, v => do
    if m = 0#64 then none else modLoop m (i + 1) k (← v.set i ((← v.get i) % m))

def mod (v : IntVec) (m : Word) : Option IntVec := modLoop m 0 v.numElems v

/-- The loop `for i=1..capWords-1` of `cnt_one_bits`, util.hpp:526-528. -/
def cntLoop (m : Mem) : Nat → Nat → Nat → Option Nat
  | _, 0, r => some r
  | i, k + 1, r => do cntLoop m (i + 1) k (r + (cnt (← ld m i)).toNat)

/-- `bits::lo_unset[k]`; table look-up, undefined outside the table. -/
def loUnset (k : Nat) : Option Word := loUnsetTab[k]?

/-- `util::cnt_one_bits`, util.hpp:520-533. -/
def cntOneBits (v : IntVec) : Option Nat := do
  if v.size = 0 then pure 0
  else
    let r ← cntLoop v.data 1 (v.capWords - 1) (cnt (← ld v.data 0)).toNat
    if v.size % 64 ≠ 0 then
      pure (r - (cnt ((← ld v.data (v.capWords - 1)) &&& ~~~(← loSet (v.size % 64)))).toNat)
    else pure r

/-- The loops of `cnt_onezero_bits` and `cnt_zeroone_bits`, util.hpp:544-547 and 562-565; `f` is `cnt10` or `cnt01`.
    Returns the result, `oldcarry`. -/
def cntPairLoop (f : Word → Word → Word × Word) (m : Mem) : Nat → Nat → Nat → Word → Word → Option (Nat × Word)
  | _, 0, r, _, oldc => some (r, oldc)
  | i, k + 1, r, c, _ => do
    let t := f (← ld m i) c
    cntPairLoop f m (i + 1) k (r + t.1.toNat) t.2 c

/-- `util::cnt_onezero_bits`, util.hpp:537-552. -/
def cntOneZeroBits (v : IntVec) : Option Nat := do
  if v.size = 0 then pure 0
  else
    let t := cnt10 (← ld v.data 0) 0#64
    let r ← cntPairLoop cnt10 v.data 1 (v.capWords - 1) t.1.toNat t.2 0#64
    if v.size % 64 ≠ 0 then
      pure (r.1 - (cnt (map10 (← ld v.data (v.capWords - 1)) r.2 &&& (← loUnset (v.size % 64)))).toNat)
    else pure r.1

/-- `util::cnt_zeroone_bits`, util.hpp:555-570. -/
def cntZeroOneBits (v : IntVec) : Option Nat := do
  if v.size = 0 then pure 0
  else
    let t := cnt01 (← ld v.data 0) 1#64
    let r ← cntPairLoop cnt01 v.data 1 (v.capWords - 1) t.1.toNat t.2 1#64
    if v.size % 64 ≠ 0 then
      pure (r.1 - (cnt (map01 (← ld v.data (v.capWords - 1)) r.2 &&& (← loUnset (v.size % 64)))).toNat)
    else pure r.1

/-- The loop of `next_bit`, util.hpp:582-588. -/
def nextBitLoop (v : IntVec) (pos : Nat) : Option Nat :=
  if pos * 64 < v.size then do
    let w ← ld v.data pos
    if w ≠ 0#64 then pure (pos * 64 ||| (← lo w)) else nextBitLoop v (pos + 1)
  else some v.size
termination_by v.size - pos * 64

/-- `util::next_bit`, util.hpp:573-590. -/
def nextBit (v : IntVec) (idx : Nat) : Option Nat := do
  let node ← shr (← ld v.data (idx / 64)) (idx % 64)
  if node ≠ 0#64 then pure (idx + (← lo node)) else nextBitLoop v (idx / 64 + 1)

/-- The loop of `prev_bit`, util.hpp:602-608. The argument is `pos + 1`; at `pos + 1 = 0` the variable `pos` has
    wrapped to `2^64-1`, and `pos << 6` is `2^64-64`, which is not below the bit size of any vector. -/
def prevBitLoop (v : IntVec) : Nat → Option Nat
  | 0 => some v.size
  | p + 1 =>
    if p * 64 < v.size then do
      let w ← ld v.data p
      if w ≠ 0#64 then pure (p * 64 ||| (← hi w)) else prevBitLoop v p
    else some v.size

/-- `util::prev_bit`, util.hpp:593-610. -/
def prevBit (v : IntVec) (idx : Nat) : Option Nat := do
  let node ← shl (← ld v.data (idx / 64)) (63 - idx % 64)
  if node ≠ 0#64 then pure ((← hi node) + (idx / 64) * 64 - (63 - idx % 64)) else prevBitLoop v (idx / 64)

end Util
end Sdsl
