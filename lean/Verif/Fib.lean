/-
  include/sdsl/coder_fibonacci.hpp: Fibonacci code.
-/
import Verif.Coder

namespace Sdsl.Fib

open Bits

/-- `while (++len_1 < 92 && w >= lt_fib[len_1]);`, coder_fibonacci.hpp:161. At most 92 rounds. -/
def lenLoop (w : Word) : Nat → Nat → Nat
  | 0, len => len
  | f + 1, len => if len + 1 < 92 ∧ (ltFib.getD (len + 1) 0#64).toNat ≤ w.toNat then lenLoop w f (len + 1) else len + 1

/-- `encoding_length(w)`, coder_fibonacci.hpp:154-163. -/
def encLen (w : Word) : Option Nat :=
  if w = 0#64 then some 93 else do
    let l ← hi w
    pure (lenLoop w 92 l + 1)

/-- The loop for the digits above 63, coder_fibonacci.hpp:265-277 (and 200-212), for `j = 63 + c`. `skip`: the digit after a one,
    whose shift has been done together with that of the one. A one that exhausts `x` shifts by `64 - j`. -/
def hiLoop : Nat → Bool → Word → Word → Option (Word × Word)
  | 0, _, fh, x => some (fh, x)
  | c + 1, true, fh, x => hiLoop c false fh x
  | c + 1, false, fh, x => do
    let fh := fh <<< 1
    let t ← ltFib[64 + c]?
    if t.toNat ≤ x.toNat then
      if x - t ≠ 0#64 ∧ 0 < c then hiLoop c true ((fh ||| 1#64) <<< 1) (x - t)
      else if c = 0 then some (fh ||| 1#64, x - t) else none
    else hiLoop c false fh x

/-- The loop for the low digits, coder_fibonacci.hpp:282-296 (and 218-231), for `j + 1 = k`. -/
def lowLoop : Nat → Bool → Word → Word → Option Word
  | 0, _, fl, _ => some fl
  | k + 1, true, fl, x => lowLoop k false fl x
  | k + 1, false, fl, x => do
    let fl := fl <<< 1
    let t ← ltFib[k]?
    if t.toNat ≤ x.toNat then
      if x - t ≠ 0#64 then lowLoop k true ((fl ||| 1#64) <<< 1) (x - t)
      else shl (fl ||| 1#64) k
    else lowLoop k false fl x

/-- The word `fibword_high` and what is left of `x`, coder_fibonacci.hpp:256-277 (190-212). -/
def encHigh (x : Word) (len1 : Nat) : Option (Word × Word) :=
  if x = 0#64 then do
    let t ← ltFib[len1 - 1]?
    hiLoop (len1 - 66) false 6#64 (x - t)
  else hiLoop (len1 - 64) false 1#64 x

/-- `encode(x, z, offset)`, coder_fibonacci.hpp:249-304. The body of the loop of `encode(v, z)`, 182-243, is the same. -/
def encode1 (m : Mem) (p off : Nat) (x : Word) : Option (Mem × Nat × Nat) := do
  let len ← encLen x
  let len1 := len - 1
  if 64 ≤ len1 then do
    let h ← encHigh x len1
    let fl ← lowLoop 65 false 1#64 h.2
    let r ← writeIntAndMove m p fl off 64
    writeIntAndMove r.1 r.2.1 h.1 r.2.2 (len1 - 63)
  else do
    let fl ← lowLoop len1 false 1#64 x
    writeIntAndMove m p fl off (len1 + 1)

/-- `fib2bin_shift[x]`, coder_fibonacci.hpp:57-63. -/
def fibShift (x : Word) : Option Nat :=
  if cnt11 x ≠ 0#64 then do pure ((← sel11 x 1 0#64) + 1) else some 0

/-- The inner loop for `fib2bin_0_95`, coder_fibonacci.hpp:88-95, with `k` rounds left and `j = 12 - k`. -/
def tblLoop (p : Nat) (x : Word) : Nat → Word → Word
  | 0, w => w
  | k + 1, w =>
    if 12 * p + (11 - k) < 92 then
      if x.getLsbD (11 - k) then
        if x.getLsbD (11 - k + 1) then w + ltFib.getD (12 * p + (11 - k)) 0#64
        else tblLoop p x k (w + ltFib.getD (12 * p + (11 - k)) 0#64)
      else tblLoop p x k w
    else w

/-- `fib2bin_0_95[(p<<12) | x]`, coder_fibonacci.hpp:85-98; the table has 8 parts. -/
def fib95 (p : Nat) (x : Word) : Option Word := if p < 8 then some (tblLoop p x 12 0#64) else none

/-- The state of the input: `w`, `buffered`, the index of the word at `data`, `read`. -/
structure Buf where
  w : Word
  buffered : Nat
  p : Nat
  read : Nat

/-- One round of the inner loop, coder_fibonacci.hpp:340-348. -/
def loadStep (m : Mem) (b : Buf) : Option Buf := do
  let d ← ld m b.p
  let s ← shr d b.read
  let t ← shl s b.buffered
  if b.read ≥ b.buffered then pure ⟨b.w ||| t, b.buffered + (64 - b.read), b.p + 1, 0⟩
  else pure ⟨b.w ||| t, 64, b.p, b.read + (64 - b.buffered)⟩

/-- `while (buffered < 13 and bits::cnt11(w) < n)`, coder_fibonacci.hpp:339-349. Every round adds at least one bit. -/
def load (m : Mem) (n : Nat) : Nat → Buf → Option Buf
  | 0, b => some b
  | f + 1, b =>
    if b.buffered < 13 ∧ (cnt11 b.w).toNat < n then do load m n f (← loadStep m b) else some b

/-- `w >>= k; buffered -= k`; the model stops if `buffered` would become negative (the theorems show that it does not). -/
def Buf.drop (b : Buf) (k : Nat) : Option Buf :=
  if b.buffered < k then none else do
    let w ← shr b.w k
    pure { b with w := w, buffered := b.buffered - k }

/-- `while (n)`, coder_fibonacci.hpp:338-364. `f` bounds the number of rounds; running out of it is no result. Returns the final
    `value` and the numbers written through `it`. -/
def decLoop (sumup : Bool) (m : Mem) : Nat → Nat → Nat → Buf → Word → Option (Word × List Word)
  | _, 0, _, _, value => some (value, [])
  | 0, _ + 1, _, _, _ => none
  | f + 1, n + 1, fibtable, b, value => do
    let b ← load m (n + 1) 13 b
    let t ← fib95 fibtable (b.w &&& 0xFFF#64)
    let value := value + t
    let shift ← fibShift (b.w &&& 0x1FFF#64)
    if 0 < shift then do
      let b ← b.drop shift
      let r ← decLoop sumup m f n 0 b (if sumup = false ∧ n + 1 ≠ 1 then 0#64 else value)
      pure (r.1, value :: r.2)
    else do
      let b ← b.drop 12
      decLoop sumup m f (n + 1) (fibtable + 1) b value

/-- `decode<t_sumup, t_inc>(data, start_idx, n, it)`, coder_fibonacci.hpp:329-366. A code word spans at most 8 chunks of 12 bits,
    so `8 * n` rounds suffice. -/
def decode (sumup : Bool) (m : Mem) (start n : Nat) : Option (Word × List Word) :=
  decLoop sumup m (8 * n) n 0 ⟨0#64, 0, start / 64, start % 64⟩ 0#64

/-- The functions used by `encode(v, z)`. -/
def code : Coder.Code where
  encLen := encLen
  encode1 := encode1
  dec1 := fun _ _ _ _ => none
  skip := fun _ _ _ => none
  decS := fun _ _ _ _ => none
  win := fun _ _ _ => none
  num8 := 0
  off8 := 0

/-- `encode(v, z)`, coder_fibonacci.hpp:165-247. -/
def encodeVec (junk : Nat → Word) (v z : IntVec) : Option IntVec := do
  let size ← Coder.encSize code v (Coder.zeroVal v.width) v.numElems 0
  let z ← IntVec.bitResize junk z size
  let d ← if size % 64 ≠ 0 then st z.data (size / 64) 0#64 else pure z.data
  let d ← Coder.encLoop code v (Coder.zeroVal v.width) v.numElems 0 d 0 0
  pure { z with data := d, width := v.width }

/-- The loop over the full words, coder_fibonacci.hpp:317-319, `k` words left. -/
def cntWords (m : Mem) : Nat → Nat → Nat → Word → Option (Nat × Word)
  | 0, _, n, carry => some (n, carry)
  | k + 1, i, n, carry => do
    let d ← ld m i
    let r := cnt11c d carry
    cntWords m k (i + 1) (n + r.1.toNat) r.2

/-- The last word, coder_fibonacci.hpp:320-324. -/
def cntLast (d carry : Word) (size : Nat) : Option Nat :=
  if (size + 63) / 64 * 64 ≠ size then do
    let l ← loSet (size &&& 0x3F)
    pure (cnt11c (d &&& l) carry).1.toNat
  else pure (cnt11c d carry).1.toNat

/-- `decode(z, v)`, coder_fibonacci.hpp:306-327. -/
def decodeVec (junk : Nat → Word) (z v : IntVec) : Option IntVec :=
  if z.size = 0 then IntVec.resize junk { v with width := z.width } 0
  else do
    let r ← cntWords z.data ((z.size + 63) / 64 - 1) 0 0 0#64
    let d ← ld z.data ((z.size + 63) / 64 - 1)
    let n ← cntLast d r.2 z.size
    let v ← IntVec.resize junk { v with width := z.width } (r.1 + n)
    let r ← decode false z.data 0 (r.1 + n)
    Coder.storeAll v 0 r.2

/-! ### `decode_prefix_sum`, lib/coder_fibonacci.cpp:11-101 -/

/-- The loop for an entry of `fib2bin_16_greedy`, coder_fibonacci.hpp:70-81; the result is offset and `w` (a `uint16_t`; it is reduced
    in `greedy`). It runs at most 16 rounds. -/
def greedyLoop : Nat → Word → Nat → Nat → Nat → Nat → Option (Nat × Nat)
  | 0, _, _, _, _, _ => none
  | f + 1, y, cnt, fp, off, w =>
    if y.getLsbD 0 then
      if y.getLsbD 1 then
        if cnt - 1 = 0 then some (off + 2, w + (ltFib.getD (fp - 1) 0#64).toNat)
        else greedyLoop f (y >>> 2) (cnt - 1) 1 (off + 2) (w + (ltFib.getD (fp - 1) 0#64).toNat)
      else greedyLoop f (y >>> 1) cnt (fp + 1) (off + 1) (w + (ltFib.getD (fp - 1) 0#64).toNat)
    else greedyLoop f (y >>> 1) cnt (fp + 1) (off + 1) w

/-- `fib2bin_16_greedy[x]`, coder_fibonacci.hpp:64-84. -/
def greedy (x : Word) : Option Nat :=
  if cnt11 x ≠ 0#64 then do
    let r ← greedyLoop 16 x (cnt11 x).toNat 1 0 0
    pure ((r.1 * 2 ^ 11 ||| r.2 % 2 ^ 16) % 2 ^ 16)
  else some 0

/-- The loop looking for the word with the `n`-th code word end, coder_fibonacci.cpp:27-30. `w` is the last word looked at; the
    result is `w`, `i`, `temp`, `oldcarry`. `f` bounds the number of words. -/
def endLoop (m : Mem) (p n : Nat) : Nat → Nat → Nat → Word → Option (Nat × Nat × Nat × Word)
  | 0, _, _, _ => none
  | f + 1, w, i, carry => do
    let d ← ld m (p + (w + 1))
    let r := cnt11c d carry
    let i := i + r.1.toNat
    if i < n then endLoop m p n f (w + 1) i r.2 else some (w + 1, i, r.1.toNat, carry)

/-- `bits_to_decode`, coder_fibonacci.cpp:23-35. It is an `int32_t`: the model has no result for 2^31 bits and more. -/
def bitsToDecode (m : Mem) (start n : Nat) : Option Nat := do
  let p := start / 64
  let read := start % 64
  let d ← ld m p
  let lo ← loSet read
  let r := cnt11c (d &&& ~~~lo) 0#64
  if r.1.toNat < n then do
    let e ← endLoop m p n m.length 0 r.1.toNat r.2
    let d ← ld m (p + e.1)
    let s ← sel11 d (n - (e.2.1 - e.2.2.1)) e.2.2.2
    if (e.1 - 1) * 64 + s + 65 - read < 2 ^ 31 then pure ((e.1 - 1) * 64 + s + 65 - read) else none
  else do
    let d ← shr d read
    let s ← sel11 d n 0#64
    pure (s + 1)

/-- The clamp at the end of a round of the buffer loop, coder_fibonacci.cpp:55-59; `k` bits were added. -/
def clampBuf (b : Buf) (btd k : Nat) : Option (Buf × Nat) :=
  if btd < k then do
    if b.buffered < k - btd then none
    else do
      let l ← loSet (b.buffered - (k - btd))
      pure ({ b with w := b.w &&& l, buffered := b.buffered - (k - btd) }, 0)
  else some (b, btd - k)

/-- `while (buffered < 64 and bits_to_decode > 0)`, coder_fibonacci.cpp:43-60. Every round adds at least one bit. -/
def fill (m : Mem) : Nat → Buf → Nat → Option (Buf × Nat)
  | 0, b, btd => if b.buffered < 64 ∧ 0 < btd then none else some (b, btd)
  | f + 1, b, btd =>
    if b.buffered < 64 ∧ 0 < btd then do
      let b' ← loadStep m b
      let r ← clampBuf b' btd (b'.buffered - b.buffered)
      fill m f r.1 r.2
    else some (b, btd)

/-- The test for 24 ones, coder_fibonacci.cpp:62-71. -/
def ones24 (b : Buf) (v : Word) : Option (Buf × Word × Bool) :=
  if b.w &&& 0xFFFFFF#64 = 0xFFFFFF#64 then do
    let b ← b.drop 24
    pure (b, v + 12#64, true)
  else some (b, v, false)

/-- The nested test, coder_fibonacci.cpp:62-71. -/
def ones (b : Buf) (v : Word) : Option (Buf × Word) := do
  let r ← ones24 b v
  if r.2.2 then do
    let r ← ones24 r.1 r.2.1
    pure (r.1, r.2.1)
  else pure (r.1, r.2.1)

/-- Outcome of a round: go on with (`w`, `i`, `value`), or the loop ends because `buffered` has become negative. -/
inductive Round where
  | go (b : Buf) (i : Nat) (v : Word)
  | stop (v : Word)

/-- `w >>= 12; buffered -= 12; i = 1` where `buffered` may become negative: then the outer loop ends if there are no more bits
    (`btd = 0`), otherwise the next round would shift by a negative amount. -/
def drop12 (b : Buf) (btd : Nat) (v : Word) : Option Round :=
  if b.buffered < 12 then (if btd = 0 then some (.stop v) else none)
  else do
    let b ← b.drop 12
    pure (.go b 1 v)

/-- `do { ... } while (buffered > 15)`, coder_fibonacci.cpp:72-85. At most 64 rounds. -/
def inner (btd : Nat) : Nat → Buf → Word → Option Round
  | 0, _, _ => none
  | f + 1, b, v => do
    let temp ← greedy (b.w &&& 0xFFFF#64)
    if 0 < temp / 2 ^ 11 then do
      let v := v + BitVec.ofNat 64 (temp &&& 0x7FF)
      let b ← b.drop (temp / 2 ^ 11)
      if 15 < b.buffered then inner btd f b v else pure (.go b 0 v)
    else do
      let t ← fib95 0 (b.w &&& 0xFFF#64)
      drop12 b btd (v + t)

/-- `else { // i > 0`, coder_fibonacci.cpp:86-98. -/
def later (i : Nat) (b : Buf) (v : Word) : Option Round := do
  let t ← fib95 i (b.w &&& 0xFFF#64)
  let shift ← fibShift (b.w &&& 0x1FFF#64)
  if 0 < shift then do
    let b ← b.drop shift
    pure (.go b 0 (v + t))
  else do
    let b ← b.drop 12
    pure (.go b (i + 1) (v + t))

/-- A round without the buffer loop, coder_fibonacci.cpp:61-98. -/
def round (btd i : Nat) (b : Buf) (v : Word) : Option Round :=
  if i = 0 then do
    let r ← ones b v
    inner btd 64 r.1 r.2
  else later i b v

/-- `do { ... } while (bits_to_decode > 0 or buffered > 0)`, coder_fibonacci.cpp:42-99. Every round consumes bits; `f` bounds the number
    of rounds. -/
def sumLoop (m : Mem) : Nat → Nat → Buf → Nat → Word → Option Word
  | 0, _, _, _, _ => none
  | f + 1, i, b, btd, v => do
    let r ← fill m 64 b btd
    match ← round r.2 i r.1 v with
    | .stop v => pure v
    | .go b i v => if 0 < r.2 ∨ 0 < b.buffered then sumLoop m f i b r.2 v else pure v

/-- `decode_prefix_sum(d, start_idx, n)`, coder_fibonacci.cpp:11-101. -/
def prefixSum (m : Mem) (start n : Nat) : Option Word :=
  if n = 0 then some 0#64
  else do
    let btd ← bitsToDecode m start n
    if btd = 2 * n then pure (BitVec.ofNat 64 n)
    else if btd = 2 * n + 1 then pure (BitVec.ofNat 64 (n + 1))
    else sumLoop m (btd + 1) 0 ⟨0#64, 0, start / 64, start % 64⟩ btd 0#64

end Sdsl.Fib
