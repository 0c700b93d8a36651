/-
  Model of `sdsl::int_vector_buffer` (include/sdsl/int_vector_buffer.hpp).

  Simplifications:
  * The file is a list of bytes. A write at a position beyond the end fills the gap with zero bytes (POSIX); a read at
    the end of the file delivers the bytes that exist. Both streams see the same file: `write_block` flushes the output
    stream, and the input stream is always positioned with `seekg` before a read.
  * I/O errors do not occur; opening the file succeeds.
  * `size_type` is `Nat`. The `assert`s are not evaluated (as with `NDEBUG`), so `read` beyond the end is modelled.
  * Move constructor, move assignment and `swap` only exchange the states and reopen the files; they and the iterator,
    which is an index into the buffer, are not modelled.
  * Element access to `m_buffer` is the generic accessor of `int_vector` (see IntVec.lean).
-/
import Verif.IntVec

namespace Sdsl.Ivb

open Bits IntVec

/-- `out.write((char*)m, n)` from byte `p` on: byte `p` of the memory is the 8-bit field at bit `8*p`. -/
def outBytes (m : Mem) : Nat → Nat → Option (List Byte)
  | _, 0 => some []
  | p, n + 1 => do
    let b ← readInt m (p / 8) (8 * (p % 8)) 8
    let r ← outBytes m (p + 1) n
    pure (b.setWidth 8 :: r)

/-- `in.read((char*)m, ...)`: stores the delivered bytes from byte `p` of the memory on. -/
def inBytes (m : Mem) : Nat → List Byte → Option Mem
  | _, [] => some m
  | p, b :: bs => do inBytes (← writeInt m (p / 8) (b.setWidth 64) (8 * (p % 8)) 8) (p + 1) bs

/-- `seekp(pos)` and `write` of the bytes `bs` on the file `f`. -/
def seekWrite (f : List Byte) (pos : Nat) (bs : List Byte) : List Byte :=
  if bs = [] then f
  else (f ++ List.replicate (pos - f.length) 0#8).take pos ++ bs ++ f.drop (pos + bs.length)

/-- `int_vector_buffer<tw>` together with its file, int_vector_buffer.hpp:45-54. `bufsize` is `m_buffersize`, the number
    of elements of a block; `beg` is `m_begin`. -/
structure State where
  tw : Nat
  file : List Byte
  buffer : IntVec
  dirty : Bool
  offset : Nat
  bufsize : Nat
  size : Nat
  beg : Nat
deriving Repr, DecidableEq

/-- The loop `for (i; ...; ++i) m_buffer[i] = 0`, int_vector_buffer.hpp:70-72: `k` remaining iterations. -/
def zeroFrom (v : IntVec) (i : Nat) : Nat → Option IntVec
  | 0 => some v
  | k + 1 => do zeroFrom (← v.set i 0#64) (i + 1) k

/-- `read_block(idx)`, int_vector_buffer.hpp:57-74. -/
def readBlock (s : State) (idx : Nat) : Option State :=
  if s.bufsize = 0 then none
  else
    let beg := idx / s.bufsize * s.bufsize
    if s.size ≤ beg then do
      let b ← Util.setToValue none s.buffer 0#64
      pure { s with buffer := b, beg := beg }
    else do
      let got := (s.file.drop (s.offset + beg * s.buffer.width / 8)).take (s.bufsize * s.buffer.width / 8)
      let d ← inBytes s.buffer.data 0 got
      let b ← zeroFrom { s.buffer with data := d } (s.size - beg) (s.bufsize - (s.size - beg))
      pure { s with buffer := b, beg := beg }

/-- `write_block()`, int_vector_buffer.hpp:77-93. -/
def writeBlock (s : State) : Option State :=
  if s.dirty then do
    let wb := if s.beg + s.bufsize ≥ s.size then ((s.size - s.beg) * s.buffer.width + 7) / 8
      else s.bufsize * s.buffer.width / 8
    let bs ← outBytes s.buffer.data 0 wb
    pure { s with file := seekWrite s.file (s.offset + s.beg * s.buffer.width / 8) bs, dirty := false }
  else some s

/-- The block change at the start of `read` and `write`, int_vector_buffer.hpp:100-103 and 112-115. -/
def fetch (s : State) (idx : Nat) : Option State :=
  if idx < s.beg ∨ s.beg + s.bufsize ≤ idx then do readBlock (← writeBlock s) idx else some s

/-- `read(idx)`, int_vector_buffer.hpp:96-105. -/
def read (s : State) (idx : Nat) : Option (State × Word) := do
  let s ← fetch s idx
  let x ← s.buffer.get (idx - s.beg)
  pure (s, x)

/-- `write(idx, value)`, int_vector_buffer.hpp:108-121. -/
def write (s : State) (idx : Nat) (x : Word) : Option State := do
  let s ← fetch s idx
  let b ← s.buffer.set (idx - s.beg) x
  pure { s with size := if s.size ≤ idx then idx + 1 else s.size, dirty := true, buffer := b }

/-- The number of elements of a block for a buffer of `n` bytes, int_vector_buffer.hpp:268-273. -/
def blockElems (w n : Nat) : Nat :=
  if n * 8 % w = 0 then n * 8 / w
  else
    let e := n * 8 / w + 1
    e + 7 - (e + 7) % 8

/-- `buffersize(n)`, int_vector_buffer.hpp:263-276. `junk` is the content of fresh memory. -/
def setBuffersize (s : State) (n : Nat) (junk : Nat → Word) : Option State := do
  let n := if n = 0 then 8 else n
  let s ← writeBlock s
  let k := blockElems s.buffer.width n
  let b ← Util.ctor s.tw junk none k 0#64 s.buffer.width
  let s := { s with bufsize := k, buffer := b }
  if k ≠ 0 then readBlock s 0 else pure s

/-- `reset()`, int_vector_buffer.hpp:291-309: opening with `out` alone truncates the file. -/
def reset (s : State) : Option State := readBlock { s with file := [], dirty := false, size := 0 } 0

/-- `push_back(value)`, int_vector_buffer.hpp:323-326. -/
def pushBack (s : State) (x : Word) : Option State := write s s.size x

/-- `m_offset`, int_vector_buffer.hpp:147-152. -/
def headerLen (tw : Nat) (plain : Bool) : Nat := if plain then 0 else if tw ≠ 0 then 8 else 9

/-- Constructor with mode `std::ios::out`, int_vector_buffer.hpp:142-174: the file is created or truncated. -/
def openOut (tw : Nat) (plain : Bool) (w n : Nat) (junk : Nat → Word) : Option State :=
  setBuffersize { tw := tw, file := [], buffer := ⟨0, [], if tw = 0 then clampWidth w else tw⟩, dirty := false,
                  offset := headerLen tw plain, bufsize := 8, size := 0, beg := 0 } n junk

/-- Constructor with mode `std::ios::in` on an existing file, int_vector_buffer.hpp:142-174; `read_header`,
    int_vector.hpp:593-599. -/
def openIn (tw : Nat) (plain : Bool) (w n : Nat) (junk : Nat → Word) (file : List Byte) : Option State := do
  let w0 := if tw = 0 then clampWidth w else tw
  let h ← (if plain then some (file.length * 8, w0)
    else do
      let size ← bytesWord (file.take 8)
      if tw = 0 then do
        let b ← file[8]?
        pure (size.toNat, clampWidth b.toNat)
      else pure (size.toNat, w0) : Option (Nat × Nat))
  setBuffersize { tw := tw, file := file, buffer := ⟨0, [], h.2⟩, dirty := false, offset := headerLen tw plain,
                  bufsize := 8, size := h.1 / h.2, beg := 0 } n junk

/-- `close()`, int_vector_buffer.hpp:332-360. Returns the file. -/
def close (s : State) : Option (List Byte) := do
  let s ← writeBlock s
  if 0 < s.offset then
    let size := s.size * s.buffer.width
    let f := seekWrite s.file 0 (writeHeader s.tw size s.buffer.width).1
    let wb := (size + 7) / 8
    pure (if wb % 8 ≠ 0 then seekWrite f (s.offset + wb) (List.replicate (8 - wb % 8) 0#8) else f)
  else pure s.file

/-- Operations on an open buffer. The arithmetic ones go through the proxy `reference`, int_vector_buffer.hpp:397-487. -/
inductive Op where
  | read (i : Nat)                              -- (uint64_t)b[i]
  | write (i : Nat) (x : Word)                  -- b[i] = x
  | pushBack (x : Word)                         -- b.push_back(x)
  | copy (i j : Nat)                            -- b[i] = b[j]
  | add (i : Nat) (x : Word)                    -- b[i] += x
  | sub (i : Nat) (x : Word)                    -- b[i] -= x
  | postInc (i : Nat)                           -- b[i]++
  | postDec (i : Nat)                           -- b[i]--
  | less (i j : Nat)                            -- b[i] < b[j]
  | buffersize (n : Nat) (junk : Nat → Word)    -- b.buffersize(n)
  | reset                                       -- b.reset()

/-- One operation: the new state and the values it returns. -/
def step (s : State) : Op → Option (State × List Nat)
  | .read i => do
    let r ← read s i
    pure (r.1, [r.2.toNat])
  | .write i x => do pure (← write s i x, [])
  | .pushBack x => do pure (← pushBack s x, [])
  | .copy i j => do
    let r ← read s j
    pure (← write r.1 i r.2, [])
  | .add i x => do
    let r ← read s i
    pure (← write r.1 i (r.2 + x), [])
  | .sub i x => do
    let r ← read s i
    pure (← write r.1 i (r.2 - x), [])
  | .postInc i => do
    let v ← read s i
    let r ← read v.1 i
    pure (← write r.1 i (r.2 + 1#64), [v.2.toNat])
  | .postDec i => do
    let v ← read s i
    let r ← read v.1 i
    pure (← write r.1 i (r.2 - 1#64), [v.2.toNat])
  | .less i j => do
    let a ← read s i
    let b ← read a.1 j
    pure (b.1, [if a.2.toNat < b.2.toNat then 1 else 0])
  | .buffersize n junk => do pure (← setBuffersize s n junk, [])
  | .reset => do pure (← reset s, [])

/-- A history of operations: the final state and all returned values. -/
def run (s : State) : List Op → Option (State × List Nat)
  | [] => some (s, [])
  | op :: ops => do
    let r ← step s op
    let t ← run r.1 ops
    pure (t.1, r.2 ++ t.2)

end Sdsl.Ivb
