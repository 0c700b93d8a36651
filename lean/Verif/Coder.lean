/-
  Model of the self-delimiting coders: include/sdsl/coder_elias_gamma.hpp, coder_elias_delta.hpp, coder_comma.hpp,
  lib/coder_elias_gamma.cpp, lib/coder_elias_delta.cpp.

  `elias_gamma` and `elias_delta` consist of the same text around a few differing statements. The common text is modelled once,
  over a record `Code` of the differing parts; the citations name both files.

  Cursors `(uint64_t*& z, uint8_t& offset)` are a word index and an offset. `int_vector` iterators are modelled by index (C51).
  The decoders contain `(len<64) * (1ULL << len)` with `len <= 64`; for `len = 64` the shift is undefined although its result is
  multiplied by 0. The parameter `sh` is the outcome of that shift: `none` (undefined behaviour) or `some u` (unspecified value).
  Not modelled: the `decode_prefix_sum` overloads with `end_idx`, which the library does not use.
-/
import Verif.IntVec

namespace Sdsl.Coder

open Bits

/-- `(len<64) * (1ULL << len)`. -/
def leading (sh : Option Word) (len : Nat) : Option Word :=
  if len < 64 then some (1#64 <<< len) else do let _ ← sh; pure 0#64

/-- The parts in which the two Elias coders differ. -/
structure Code where
  /-- `encoding_length`. -/
  encLen : Word → Option Nat
  /-- `encode(x, z, offset)`; returns memory and cursor. -/
  encode1 : Mem → Nat → Nat → Word → Option (Mem × Nat × Nat)
  /-- One value in `decode<..>(d, start_idx, n, it)`; returns the summand and the cursor. -/
  dec1 : Option Word → Mem → Nat → Nat → Option (Word × Nat × Nat)
  /-- One value in the counting loop of `decode(z, v)`. -/
  skip : Mem → Nat → Nat → Option (Nat × Nat)
  /-- `decode_single` of `decode_prefix_sum`. -/
  decS : Option Word → Mem → Nat → Nat → Option (Word × Nat × Nat)
  /-- One value of the `W`-bit word `x` at `offset` in the table construction: summand and new offset, or `break`. -/
  win : Nat → Nat → Nat → Option (Option (Nat × Nat))
  /-- Positions of `numbers` and `offset` in an entry of `prefixsum_8bit`. -/
  num8 : Nat
  off8 : Nat

/-- `w ? bits::hi(w) : 64`. -/
def hiOr64 (w : Word) : Option Nat := if w ≠ 0#64 then hi w else some 64

/-- coder_elias_gamma.hpp:147-151. -/
def gammaEncLen (w : Word) : Option Nat := do
  let len1 ← hiOr64 w
  pure ((2 * len1 + 1) % 256)

/-- coder_elias_gamma.hpp:196-210; the loop body in 181-191 is the same. -/
def gammaEncode1 (m : Mem) (p off : Nat) (x : Word) : Option (Mem × Nat × Nat) := do
  if x = 0#64 then
    let r ← writeIntAndMove m p 0#64 off 64
    let r ← writeIntAndMove r.1 r.2.1 1#64 r.2.2 1
    writeIntAndMove r.1 r.2.1 x r.2.2 64
  else
    let len1 ← hi x
    let r ← writeIntAndMove m p (← shl 1#64 len1) off (len1 + 1)
    if len1 ≠ 0 then writeIntAndMove r.1 r.2.1 x r.2.2 len1 else pure r

/-- coder_elias_gamma.hpp:241-246. -/
def gammaDec1 (sh : Option Word) (m : Mem) (p off : Nat) : Option (Word × Nat × Nat) := do
  let u ← readUnaryAndMove m p off
  if u.1 = 0 then pure (1#64, u.2)
  else
    let r ← readIntAndMove m u.2.1 u.2.2 u.1
    pure (r.1 + (← leading sh u.1), r.2)

/-- coder_elias_gamma.hpp:220-223. -/
def gammaSkip (m : Mem) (p off : Nat) : Option (Nat × Nat) := do
  let u ← readUnaryAndMove m p off
  if u.1 ≠ 0 then
    let r := moveRight u.2.1 u.2.2 u.1
    pure (r.1.toNat, r.2)
  else pure u.2

/-- lib/coder_elias_gamma.cpp:240-241. -/
def gammaDecS (sh : Option Word) (m : Mem) (p off : Nat) : Option (Word × Nat × Nat) := do
  let u ← readUnaryAndMove m p off
  let r ← readIntAndMove m u.2.1 u.2.2 u.1
  pure (r.1 + (← leading sh u.1), r.2)

/-- coder_elias_gamma.hpp:56-68 (`W = 16`), 85-97 (`W = 8`). -/
def gammaWin (x W off : Nat) : Option (Option (Nat × Nat)) := do
  let w : Mem := [BitVec.ofNat 64 x]
  let len1 ← readUnary w 0 off
  if len1 = 0 then pure (some (1, off + 1))
  else
    let off2 := off + len1 + 1
    if off2 + len1 ≤ W then
      let r ← readInt w 0 off2 len1
      pure (some ((r + (← shl 1#64 len1)).toNat, off2 + len1))
    else pure none

/-- `elias_gamma`; the entries of the 8-bit table are packed at coder_elias_gamma.hpp:101 and read at
    lib/coder_elias_gamma.cpp:217-219. -/
def gamma : Code := ⟨gammaEncLen, gammaEncode1, gammaDec1, gammaSkip, gammaDecS, gammaWin, 8, 12⟩

/-- coder_elias_delta.hpp:151-155. -/
def deltaEncLen (w : Word) : Option Nat := do
  let len1 ← hiOr64 w
  pure ((len1 + (← hi (BitVec.ofNat 64 (len1 + 1))) * 2 + 1) % 256)

/-- coder_elias_delta.hpp:198-211; the loop body in 184-193 is the same. -/
def deltaEncode1 (m : Mem) (p off : Nat) (x : Word) : Option (Mem × Nat × Nat) := do
  let h ← hiOr64 x
  let len := h + 1
  let l ← hi (BitVec.ofNat 64 len)
  let r ← writeIntAndMove m p (← shl 1#64 l) off (l + 1)
  if l ≠ 0 then
    let r ← writeIntAndMove r.1 r.2.1 (BitVec.ofNat 64 len) r.2.2 l
    writeIntAndMove r.1 r.2.1 x r.2.2 (len - 1)
  else pure r

/-- The number read as `read_int_and_move(d, offset, l) + (1ULL << l)`. -/
def readLen (m : Mem) (p off l : Nat) : Option (Nat × Nat × Nat) := do
  let r ← readIntAndMove m p off l
  pure ((r.1 + (← shl 1#64 l)).toNat, r.2)

/-- coder_elias_delta.hpp:243-249. -/
def deltaDec1 (sh : Option Word) (m : Mem) (p off : Nat) : Option (Word × Nat × Nat) := do
  let u ← readUnaryAndMove m p off
  if u.1 = 0 then pure (1#64, u.2)
  else
    let len ← readLen m u.2.1 u.2.2 u.1
    let r ← readIntAndMove m len.2.1 len.2.2 (len.1 - 1)
    pure (r.1 + (← leading sh (len.1 - 1)), r.2)

/-- coder_elias_delta.hpp:221-225. -/
def deltaSkip (m : Mem) (p off : Nat) : Option (Nat × Nat) := do
  let u ← readUnaryAndMove m p off
  if u.1 ≠ 0 then
    let len ← readLen m u.2.1 u.2.2 u.1
    let r := moveRight len.2.1 len.2.2 (len.1 - 1)
    pure (r.1.toNat, r.2)
  else pure u.2

/-- lib/coder_elias_delta.cpp:287-289. -/
def deltaDecS (sh : Option Word) (m : Mem) (p off : Nat) : Option (Word × Nat × Nat) := do
  let u ← readUnaryAndMove m p off
  let len ← readLen m u.2.1 u.2.2 u.1
  let r ← readIntAndMove m len.2.1 len.2.2 (len.1 - 1)
  pure (r.1 + (← leading sh (len.1 - 1)), r.2)

/-- coder_elias_delta.hpp:56-70 (`W = 16`), 87-101 (`W = 8`). -/
def deltaWin (x W off : Nat) : Option (Option (Nat × Nat)) := do
  let w : Mem := [BitVec.ofNat 64 x]
  let l ← readUnary w 0 off
  if l = 0 then pure (some (1, off + 1))
  else
    let off2 := off + l + 1
    let r ← readInt w 0 off2 l
    let len := (r + (← shl 1#64 l)).toNat
    let off2 := off2 + l
    if off2 + len - 1 ≤ W then
      let r ← readInt w 0 off2 (len - 1)
      pure (some ((r + (← shl 1#64 (len - 1))).toNat, off2 + len - 1))
    else pure none

/-- `elias_delta`; the entries of the 8-bit table are packed at coder_elias_delta.hpp:105 and read at
    lib/coder_elias_delta.cpp:264-266. -/
def delta : Code := ⟨deltaEncLen, deltaEncode1, deltaDec1, deltaSkip, deltaDecS, deltaWin, 4, 8⟩

/-- The loop of `decode<t_sumup, t_inc>(d, start_idx, n, it)`, coder_elias_gamma.hpp:239-248, coder_elias_delta.hpp:241-251:
    the returned value and the values written through `it`. -/
def decLoop (c : Code) (sumup : Bool) (sh : Option Word) (m : Mem) : Nat → Nat → Nat → Word → Option (Word × List Word)
  | 0, _, _, value => some (value, [])
  | n + 1, p, off, value => do
    let value := if sumup then value else 0#64
    let r ← c.dec1 sh m p off
    let value := value + r.1
    let t ← decLoop c sumup sh m n r.2.1 r.2.2 value
    pure (t.1, value :: t.2)

/-- `decode<t_sumup, t_inc>(d, start_idx, n, it)`, coder_elias_gamma.hpp:231-250, coder_elias_delta.hpp:233-253. -/
def decode (c : Code) (sumup : Bool) (sh : Option Word) (m : Mem) (start n : Nat) : Option (Word × List Word) :=
  decLoop c sumup sh m n (start / 64) (start % 64) 0#64

/-- The table construction loop `while ((x >> offset) != 0 [and numbers < maxi])`, coder_elias_gamma.hpp:55-69 and 84-98,
    coder_elias_delta.hpp:55-71 and 86-102. Returns offset, numbers, value. The offset grows in every round, at most to `W`. -/
def winLoop (c : Code) (x W maxi : Nat) : Nat → Nat → Nat → Nat → Option (Nat × Nat × Nat)
  | 0, off, num, val => some (off, num, val)
  | f + 1, off, num, val =>
    if x >>> off ≠ 0 ∧ num < maxi then do
      match (← c.win x W off) with
      | none => pure (off, num, val)
      | some (v, off') => winLoop c x W maxi f off' (num + 1) (val + v)
    else some (off, num, val)

/-- `data.prefixsum[x]`, coder_elias_gamma.hpp:51-76, coder_elias_delta.hpp:51-78. (`numbers` is not limited; 17 is never reached.) -/
def psum16 (c : Code) (x : Nat) : Option Nat := do
  let r ← winLoop c x 16 17 17 0 0 0
  pure (((r.1 <<< 24) ||| (r.2.1 <<< 16) ||| r.2.2) % 2 ^ 32)

/-- `data.prefixsum_8bit[x | ((maxi-1) << 8)]`, coder_elias_gamma.hpp:79-104, coder_elias_delta.hpp:81-108. -/
def psum8 (c : Code) (x maxi : Nat) : Option Nat := do
  let r ← winLoop c x 8 maxi 9 0 0 0
  pure (((r.1 <<< c.off8) ||| (r.2.1 <<< c.num8) ||| r.2.2) % 2 ^ 16)

/-- `offset += k; if (offset>=64) { offset&=0x3F; ++d; }`. -/
def advance (p off k : Nat) : Nat × Nat := if off + k ≥ 64 then (p + 1, (off + k) &&& 0x3F) else (p, off + k)

/-- State of `decode_prefix_sum`: word index, offset, `i`, `value`. -/
structure Ps where
  p : Nat
  off : Nat
  i : Nat
  value : Word

/-- The handling of "decoded too much" before `break`, lib/coder_elias_gamma.cpp:214-226, lib/coder_elias_delta.cpp:261-273. -/
def psTail (c : Code) (m : Mem) (n : Nat) (s : Ps) : Option Ps :=
  if n - s.i ≤ 8 then do
    let ps ← psum8 c (← readInt m s.p s.off 8).toNat (n - s.i)
    if ps > 0 then
      let a := advance s.p s.off (ps >>> c.off8)
      pure ⟨a.1, a.2, s.i + ((ps >>> c.num8) &&& 0xF), s.value + BitVec.ofNat 64 (ps &&& (2 ^ c.num8 - 1))⟩
    else pure s
  else pure s

/-- The inner loop, lib/coder_elias_gamma.cpp:209-236, lib/coder_elias_delta.cpp:255-283. Leaving it with `i < n` leads to
    `decode_single` in all cases. The first argument bounds the rounds; every round decodes a value. -/
def psInner (c : Code) (m : Mem) (n : Nat) : Nat → Ps → Option Ps
  | 0, s => some s
  | f + 1, s =>
    if s.i < n then do
      let ps ← psum16 c (← readInt m s.p s.off 16).toNat
      if ps = 0 then pure s
      else if s.i + ((ps >>> 16) &&& 0xFF) > n then psTail c m n s
      else
        let a := advance s.p s.off (ps >>> 24)
        psInner c m n f ⟨a.1, a.2, s.i + ((ps >>> 16) &&& 0xFF), s.value + BitVec.ofNat 64 (ps &&& 0xFFFF)⟩
    else some s

/-- The rest of the outer loop body after the run of ones, lib/coder_elias_gamma.cpp:209-242, lib/coder_elias_delta.cpp:255-291. -/
def psRest (c : Code) (sh : Option Word) (m : Mem) (n : Nat) (s : Ps) : Option Ps := do
  let s ← psInner c m n (n - s.i) s
  if s.i < n then
    let r ← c.decS sh m s.p s.off
    pure ⟨r.2.1, r.2.2, s.i + 1, s.value + r.1⟩
  else pure s

/-- One round of the outer loop, lib/coder_elias_gamma.cpp:194-242, lib/coder_elias_delta.cpp:241-291. -/
def psRound (c : Code) (sh : Option Word) (m : Mem) (n : Nat) (s : Ps) : Option Ps := do
  let w ← shr (← ld m s.p) s.off
  if w &&& 0xF#64 = 0xF#64 then
    let maxd := if n - s.i > 63 then 63 else n - s.i
    let rbp ← lo (~~~(← readInt m s.p s.off maxd))
    let a := advance s.p s.off rbp
    let s := ⟨a.1, a.2, s.i + rbp, s.value + BitVec.ofNat 64 rbp⟩
    if rbp = maxd then pure s else psRest c sh m n s
  else psRest c sh m n s

/-- The outer loop; every round decodes a value. -/
def psOuter (c : Code) (sh : Option Word) (m : Mem) (n : Nat) : Nat → Ps → Option Word
  | 0, s => some s.value
  | f + 1, s => if s.i < n then do psOuter c sh m n f (← psRound c sh m n s) else some s.value

/-- `decode_prefix_sum(d, start_idx, n)`, lib/coder_elias_gamma.cpp:151-245, lib/coder_elias_delta.cpp:198-294. The loop
    `while (n >= 64)` inside the case `n < 24` is never entered and left out. -/
def prefixSum (c : Code) (sh : Option Word) (m : Mem) (start n : Nat) : Option Word :=
  if n = 0 then some 0#64
  else
    let p := start / 64
    let off := start % 64
    if n < 24 then
      if n + off ≤ 64 then do
        if (← shr (← ld m p) off) &&& (← loSet n) = (← loSet n) then pure (BitVec.ofNat 64 n)
        else psOuter c sh m n n ⟨p, off, 0, 0#64⟩
      else do
        if (← shr (← ld m p) off) = (← loSet (64 - off)) then
          let n' := n - (64 - off)
          if (← ld m (p + 1)) &&& (← loSet n') = (← loSet n') then pure (BitVec.ofNat 64 (64 - off + n'))
          else psOuter c sh m n' n' ⟨p + 1, 0, 0, BitVec.ofNat 64 (64 - off)⟩
        else psOuter c sh m n n ⟨p, off, 0, 0#64⟩
    else psOuter c sh m n n ⟨p, off, 0, 0#64⟩

/-- The first loop of `encode(v, z)`, coder_elias_gamma.hpp:161-166, coder_elias_delta.hpp:165-170: total code length of the
    elements `i, i+1, ..`. -/
def encSize (c : Code) (v : IntVec) (zero : Word) : Nat → Nat → Option Nat
  | 0, _ => some 0
  | k + 1, i => do
    let w ← v.get i
    let l ← c.encLen (if w = 0#64 then zero else w)
    pure (l + (← encSize c v zero k (i + 1)))

/-- The second loop of `encode(v, z)`, coder_elias_gamma.hpp:175-192, coder_elias_delta.hpp:179-194. -/
def encLoop (c : Code) (v : IntVec) (zero : Word) : Nat → Nat → Mem → Nat → Nat → Option Mem
  | 0, _, m, _, _ => some m
  | k + 1, i, m, p, off => do
    let w ← v.get i
    let r ← c.encode1 m p off (if w = 0#64 then zero else w)
    encLoop c v zero k (i + 1) r.1 r.2.1 r.2.2

/-- `zero_val`, coder_elias_gamma.hpp:160, coder_elias_delta.hpp:164. -/
def zeroVal (width : Nat) : Word := if width < 64 then 1#64 <<< width else 0#64

/-- `encode(v, z)`, coder_elias_gamma.hpp:153-194, coder_elias_delta.hpp:157-196. -/
def encodeVec (c : Code) (junk : Nat → Word) (v z : IntVec) : Option IntVec := do
  let size ← encSize c v (zeroVal v.width) v.numElems 0
  let z ← IntVec.bitResize junk { z with width := v.width } size
  let d ← if size % 64 ≠ 0 then st z.data (size / 64) 0#64 else pure z.data
  let d ← encLoop c v (zeroVal v.width) v.numElems 0 d 0 0
  pure { z with data := d }

/-- The counting loop of `decode(z, v)`, coder_elias_gamma.hpp:215-225, coder_elias_delta.hpp:216-227. Every code has at least
    one bit, which bounds the number of rounds. -/
def countLoop (c : Code) (m : Mem) (size : Nat) : Nat → Nat → Nat → Nat → Option Nat
  | 0, _, _, n => some n
  | f + 1, p, off, n =>
    if p < size / 64 ∨ (p = size / 64 ∧ off < size % 64) then do
      let r ← c.skip m p off
      countLoop c m size f r.1 r.2 (n + 1)
    else some n

/-- Storing the decoded values, `*(it++) = value`. -/
def storeAll (v : IntVec) : Nat → List Word → Option IntVec
  | _, [] => some v
  | i, x :: l => do storeAll (← v.set i x) (i + 1) l

/-- `decode(z, v)`, coder_elias_gamma.hpp:212-229, coder_elias_delta.hpp:213-231. -/
def decodeVec (c : Code) (sh : Option Word) (junk : Nat → Word) (z v : IntVec) : Option IntVec := do
  let n ← countLoop c z.data z.size (z.size + 1) 0 0 0
  let v ← IntVec.resize junk { v with width := z.width } n
  let r ← decode c false sh z.data 0 n
  storeAll v 0 r.2

/-! ### Comma code -/

/-- `base`, coder_comma.hpp:69 (`1 << t_width` is an `int`; it is defined for `t_width <= 30`). -/
def commaBase (t : Nat) : Nat := 2 ^ t - 1

/-- `base_fits_in_64(base, product, res)`, coder_comma.hpp:63-66. -/
def baseFits (base : Nat) : Nat → Nat → Nat → Nat
  | 0, _, res => res
  | f + 1, product, res => if product = 0 then res else baseFits base f (product / base) (res + 1)

/-- `codelentbl`, coder_comma.hpp:74-87. -/
def commaTbl (t : Nat) : Nat → Word → List Word
  | 0, _ => []
  | k + 1, n => n :: commaTbl t k ((n <<< t) - n)

/-- `std::upper_bound` on a sorted range: the number of leading entries `<= w`. -/
def upperBound (w : Word) : List Word → Nat
  | [] => 0
  | x :: l => if w < x then 0 else upperBound w l + 1

/-- `encoding_length`, coder_comma.hpp:193-204. -/
def commaEncLen (t : Nat) (w : Word) : Nat :=
  ((upperBound w (commaTbl t (baseFits (commaBase t) 65 (2 ^ 64 - 1) 0) 1#64) % 256 + 1) * t) % 256

/-- `encode_in_base`, coder_comma.hpp:206-217. The first argument bounds the recursion depth. -/
def encodeInBase (t : Nat) : Nat → Mem → Nat → Nat → Nat → Option (Mem × Nat × Nat)
  | 0, _, _, _, _ => none
  | f + 1, m, p, off, x =>
    if x ≠ 0 then do
      let r ← encodeInBase t f m p off (x / commaBase t)
      writeIntAndMove r.1 r.2.1 (BitVec.ofNat 64 (x % commaBase t)) r.2.2 t
    else some (m, p, off)

/-- `encode(x, z, offset)`, coder_comma.hpp:219-226. -/
def commaEncode1 (t : Nat) (m : Mem) (p off : Nat) (x : Word) : Option (Mem × Nat × Nat) := do
  let r ← encodeInBase t 65 m p off x.toNat
  writeIntAndMove r.1 r.2.1 (BitVec.ofNat 64 (commaBase t)) r.2.2 t

/-- The digit loop of `decode`, coder_comma.hpp:267-270; `digit` is a `uint32_t`. The first argument bounds the number of
    rounds (the memory ends). -/
def commaDigits (t : Nat) (m : Mem) : Nat → Nat → Nat → Word → Option (Word × Nat × Nat)
  | 0, _, _, _ => none
  | f + 1, p, off, v => do
    let r ← readIntAndMove m p off t
    if r.1.toNat % 2 ^ 32 = commaBase t then pure (v, r.2)
    else commaDigits t m f r.2.1 r.2.2 ((v <<< t) - v + BitVec.ofNat 64 (r.1.toNat % 2 ^ 32))

/-- One value of `decode`, coder_comma.hpp:266-270. -/
def commaDec1 (t : Nat) (m : Mem) (p off : Nat) : Option (Word × Nat × Nat) := commaDigits t m (64 * m.length + 1) p off 0#64

/-- The comma coder in the common form. (`skip`, `decS`, `win` are not part of it and left undefined.) -/
def comma (t : Nat) : Code :=
  ⟨fun w => some (commaEncLen t w), commaEncode1 t, fun _ => commaDec1 t, fun _ _ _ => none, fun _ _ _ _ => none, fun _ _ _ => none, 0, 0⟩

/-- `decode_prefix_sum`, coder_comma.hpp:278-285. -/
def commaPrefixSum (t : Nat) (m : Mem) (start n : Nat) : Option Word := (decode (comma t) true none m start n).map (·.1)

/-- `encode(v, z)`, coder_comma.hpp:228-252. -/
def commaEncodeVec (t : Nat) (junk : Nat → Word) (v z : IntVec) : Option IntVec := do
  let size ← encSize (comma t) v 0#64 v.numElems 0
  let z ← IntVec.bitResize junk { z with width := v.width } size
  let d ← encLoop (comma t) v 0#64 v.numElems 0 z.data 0 0
  pure { z with data := d }

/-- The loop counting the termination digits, coder_comma.hpp:306-317: their number and the last digit. -/
def commaCount (t : Nat) (m : Mem) : Nat → Nat → Nat → Nat → Nat → Option (Nat × Nat)
  | 0, _, _, n, digit => some (n, digit)
  | k + 1, p, off, n, _ => do
    let r ← readIntAndMove m p off t
    let digit := r.1.toNat % 2 ^ 32
    commaCount t m k r.2.1 r.2.2 (if digit = commaBase t then n + 1 else n) digit

/-- `decode(z, v)`, coder_comma.hpp:296-329; the inner `none` is the return value `false`. -/
def commaDecodeVec (t : Nat) (junk : Nat → Word) (z v : IntVec) : Option (Option IntVec) := do
  if z.size % t ≠ 0 then pure none
  else
    let r ← commaCount t z.data (z.size / t) 0 0 0 (commaBase t)
    if r.2 ≠ commaBase t then pure none
    else
      let v ← IntVec.resize junk { v with width := z.width } r.1
      let r ← decode (comma t) false none z.data 0 r.1
      some <$> storeAll v 0 r.2

end Sdsl.Coder
