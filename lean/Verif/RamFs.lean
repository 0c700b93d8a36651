/-
  The in-memory file system: `ram_fs` (include/sdsl/ram_fs.hpp, lib/ram_fs.cpp), the stream buffer `ram_filebuf`
  (include/sdsl/ram_filebuf.hpp, lib/ram_filebuf.cpp) and the streams `osfstream` / `isfstream` on RAM-files
  (include/sdsl/sfstream.hpp, lib/sfstream.cpp).

  `std::map` is an association list with unique keys (the order of the keys is not observable here); locking is not modelled.
-/
import Verif.IntVecBuf

namespace Sdsl.RamFs

open Sdsl

/-- A `char`. -/
abbrev Byte := BitVec 8

/-- A file name. -/
abbrev Name := List Char

/-- `mss_type` = `std::map<std::string, std::vector<char>>` (ram_fs.hpp:44). -/
abbrev Map := List (Name × List Byte)

/-- `std::map::find`. -/
def find : Map → Name → Option (List Byte)
  | [], _ => none
  | (k', v) :: m, k => if k' = k then some v else find m k

/-- `std::map::insert`: does nothing if the key exists. -/
def insert (m : Map) (k : Name) (v : List Byte) : Map := if (find m k).isSome then m else (k, v) :: m

/-- `std::map::erase`. -/
def erase (m : Map) (k : Name) : Map := m.filter fun e => decide (e.1 ≠ k)

/-- Side effect of `m_map[k]`: a missing key is created with an empty value. -/
def index (m : Map) (k : Name) : Map := insert m k []

/-- `m_map[k] = v`. -/
def assign (m : Map) (k : Name) (v : List Byte) : Map := (index m k).map fun e => if e.1 = k then (e.1, v) else e

/-- `ram_fs::exists` (ram_fs.cpp:46-51). -/
def exists_ (m : Map) (k : Name) : Bool := (find m k).isSome

/-- `ram_fs::store` (ram_fs.cpp:34-44). -/
def store (m : Map) (k : Name) (d : List Byte) : Map := if !exists_ m k then insert m k d else assign m k d

/-- `ram_fs::content` (ram_fs.cpp:53-58): the map afterwards and the referenced value. -/
def content (m : Map) (k : Name) : Map × List Byte := (index m k, (find (index m k) k).getD [])

/-- Assignment through the reference that `content` returns. -/
def contentAssign (m : Map) (k : Name) (d : List Byte) : Map := assign m k d

/-- `ram_fs::file_size` (ram_fs.cpp:60-69). -/
def fileSize (m : Map) (k : Name) : Map × Nat :=
  if exists_ m k then (index m k, ((find (index m k) k).getD []).length) else (m, 0)

/-- `ram_fs::remove` (ram_fs.cpp:71-77). -/
def remove (m : Map) (k : Name) : Map × Int := (erase m k, 0)

/-- `ram_fs::rename` (ram_fs.cpp:79-86). The moved-from value (taken as empty) is erased afterwards. -/
def rename (m : Map) (old new : Name) : Map × Int :=
  let m := index m old
  let v := (find m old).getD []
  let m := assign m old []
  let m := assign m new v
  let m := (remove m old).1
  (m, 0)

/-- `is_ram_file` (ram_fs.cpp:88-96). -/
def isRamFile (file : Name) : Bool := if file.length > 0 then (if file[0]? = some '@' then true else false) else false

/-- `ram_file_name` (ram_fs.cpp:98-105). -/
def ramFileName (file : Name) : Name := if isRamFile file then file else '@' :: file

/-- `disk_file_name` (ram_fs.cpp:107-114). -/
def diskFileName (file : Name) : Name := if !isRamFile file then file else file.drop 1

/-- The operations of `ram_fs`. -/
inductive Op where
  | store (k : Name) (d : List Byte)
  | exists_ (k : Name)
  | fileSize (k : Name)
  | content (k : Name)
  | contentAssign (k : Name) (d : List Byte)
  | remove (k : Name)
  | rename (old new : Name)

/-- What an operation returns. -/
inductive Out where
  | unit
  | bool (b : Bool)
  | nat (n : Nat)
  | bytes (d : List Byte)
  | int (i : Int)
deriving DecidableEq

/-- One operation. -/
def step (m : Map) : Op → Map × Out
  | .store k d => (store m k d, .unit)
  | .exists_ k => (m, .bool (exists_ m k))
  | .fileSize k => let r := fileSize m k; (r.1, .nat r.2)
  | .content k => let r := content m k; (r.1, .bytes r.2)
  | .contentAssign k d => (contentAssign m k d, .unit)
  | .remove k => let r := remove m k; (r.1, .int r.2)
  | .rename old new => let r := rename m old new; (r.1, .int r.2)

/-- A history of operations. -/
def run : Map → List Op → Map × List Out
  | m, [] => (m, [])
  | m, op :: ops => let r := step m op; let q := run r.1 ops; (q.1, r.2 :: q.2)

/-! ### `ram_filebuf`

The `std::vector<char>` of a file is its contents together with a generation number that changes whenever the vector may reallocate.
The pointers of a stream buffer are offsets together with the generation they were taken in; using a pointer of an older generation
is undefined (`none`). -/

/-- The vector a stream buffer refers to. -/
structure Vec where
  data : List Byte
  gen : Nat
deriving DecidableEq

/-- The pointers of the `std::streambuf`: `gptr`; `eback` = offset 0 and `egptr`; `pptr`; `pbase` = offset 0 and `epptr`. -/
structure Buf where
  g : Nat
  gGen : Nat
  eg : Nat
  eGen : Nat
  p : Nat
  ep : Nat
  pGen : Nat
deriving DecidableEq

/-- `std::ios_base::openmode`. -/
structure Mode where
  inn : Bool := false
  out : Bool := false
  app : Bool := false
  trunc : Bool := false
  ate : Bool := false

/-- `setg(data, data + pos, data + size)`, `setp(data, data + size)`, `pbump64(pos)`. -/
def setPtrs (V : Vec) (pos : Nat) : Buf := ⟨pos, V.gen, V.data.length, V.gen, pos, V.data.length, V.gen⟩

/-- `ram_filebuf::open` (ram_filebuf.cpp:27-63): the map afterwards and, on success, the contents of the file. -/
def openFile (m : Map) (name : Name) (mode : Mode) : Map × Option (List Byte) :=
  let r : Map × Bool :=
    if mode.inn && !mode.trunc then
      if !exists_ m name then (m, false) else (m, true)
    else
      let m := if !exists_ m name then store m name [] else m
      let m := (content m name).1
      if mode.out && !mode.app then (contentAssign m name [], true) else (m, true)
  if !r.2 then (r.1, none)
  else
    let m := if mode.trunc then contentAssign r.1 name [] else r.1
    let c := content m name
    (c.1, some c.2)

/-- The buffer after a successful `open` (ram_filebuf.cpp:53-60). -/
def openBuf (V : Vec) : Buf := setPtrs V 0

/-- `ram_filebuf::seekpos` (ram_filebuf.cpp:83-103); `out` tells whether the mode contains `std::ios_base::out`. Enlarging the vector
to a negative size (as `size_t`) throws `std::length_error`; memory is assumed to suffice otherwise. -/
def seekpos (V : Vec) (b : Buf) (sp : Int) (out : Bool) : Except String (Vec × Buf × Int) :=
  if 0 ≤ sp ∧ sp ≤ V.data.length then .ok (V, setPtrs V sp.toNat, sp)
  else if out then
    if sp < 0 then .error "length_error"
    else
      let V : Vec := ⟨V.data ++ List.replicate (sp.toNat - V.data.length) 0#8, V.gen + 1⟩
      .ok (V, setPtrs V sp.toNat, sp)
  else .ok (V, b, -1)

/-- `gptr() - eback()`. -/
def gpos (V : Vec) (b : Buf) : Option Int := if b.gGen = V.gen ∧ b.eGen = V.gen then some b.g else none

/-- `egptr() - eback()`. -/
def epos (V : Vec) (b : Buf) : Option Int := if b.eGen = V.gen then some b.eg else none

/-- `pubseekpos` (ram_filebuf.cpp:128-136). -/
def pubseekpos (V : Vec) (b : Buf) (sp : Int) (out : Bool) : Option (Except String (Vec × Buf × Int)) :=
  match seekpos V b sp out with
  | .error e => some (.error e)
  | .ok (V, b, r) => if r = -1 then some (.ok (V, b, -1)) else (gpos V b).bind fun q => some (.ok (V, b, q))

/-- `std::ios_base::seekdir`. -/
inductive Way where
  | beg | cur | end_

/-- `pubseekoff` (ram_filebuf.cpp:105-125). -/
def pubseekoff (V : Vec) (b : Buf) (off : Int) (way : Way) (out : Bool) : Option (Except String (Vec × Buf × Int)) :=
  let base : Option Int := match way with
    | .beg => some 0
    | .cur => gpos V b
    | .end_ => epos V b
  base.bind fun o => pubseekpos V b (o + off) out

/-- `overflow` (ram_filebuf.cpp:144-155): `gptr()` keeps pointing into the old allocation. -/
def overflow (V : Vec) (b : Buf) (c : Byte) : Vec × Buf :=
  let V : Vec := ⟨V.data ++ [c], V.gen + 1⟩
  (V, { b with p := V.data.length, ep := V.data.length, pGen := V.gen, eg := V.data.length, eGen := V.gen })

/-- `std::streambuf::sputc`. -/
def sputc (V : Vec) (b : Buf) (c : Byte) : Option (Vec × Buf) :=
  if b.pGen ≠ V.gen then none
  else if b.p < b.ep then
    if b.p < V.data.length then some (⟨V.data.set b.p c, V.gen⟩, { b with p := b.p + 1 }) else none
  else some (overflow V b c)

/-- `std::streambuf::sputn`. -/
def sputn (V : Vec) (b : Buf) : List Byte → Option (Vec × Buf)
  | [] => some (V, b)
  | c :: cs => (sputc V b c).bind fun r => sputn r.1 r.2 cs

/-- `std::streambuf::sbumpc`; `underflow` is not overridden and delivers end-of-file (inner `none`). -/
def sbumpc (V : Vec) (b : Buf) : Option (Option Byte × Buf) :=
  if b.gGen ≠ V.gen ∨ b.eGen ≠ V.gen then none
  else if b.g < b.eg then
    (V.data[b.g]?).bind fun c => some (some c, { b with g := b.g + 1 })
  else some (none, b)

/-- `std::streambuf::sgetn`. -/
def sgetn (V : Vec) (b : Buf) : Nat → Option (List Byte × Buf)
  | 0 => some ([], b)
  | n + 1 => (sbumpc V b).bind fun r => match r.1 with
    | none => some ([], r.2)
    | some c => (sgetn V r.2 n).bind fun q => some (c :: q.1, q.2)

/-! ### Streams on RAM-files -/

/-- An open `osfstream` or `isfstream`: its buffer and whether `failbit` / `badbit` is set. -/
structure Stream where
  buf : Buf
  fail : Bool
deriving DecidableEq

/-- Common part of `osfstream::seekp` (sfstream.cpp:82-107, 110-136): an exception is swallowed, -1 sets `failbit`. -/
def seekpResult (V : Vec) (s : Stream) : Except String (Vec × Buf × Int) → Vec × Stream
  | .error _ => (V, s)
  | .ok (V, b, r) => (V, ⟨b, s.fail || decide (r = -1)⟩)

/-- `osfstream::seekp(pos)` (sfstream.cpp:82-107). -/
def seekp (V : Vec) (s : Stream) (pos : Int) : Option (Vec × Stream) :=
  if s.fail then some (V, s) else (pubseekpos V s.buf pos true).bind fun r => some (seekpResult V s r)

/-- `osfstream::seekp(off, way)` (sfstream.cpp:110-136). -/
def seekpOff (V : Vec) (s : Stream) (off : Int) (way : Way) : Option (Vec × Stream) :=
  if s.fail then some (V, s) else (pubseekoff V s.buf off way true).bind fun r => some (seekpResult V s r)

/-- `std::ostream::write`. -/
def write (V : Vec) (s : Stream) (bs : List Byte) : Option (Vec × Stream) :=
  if s.fail then some (V, s) else (sputn V s.buf bs).bind fun r => some (r.1, ⟨r.2, s.fail⟩)

/-- Common part of `isfstream::seekg` (sfstream.cpp:210-233, 236-259): `failbit` is never set, whatever happens. -/
def seekgResult (V : Vec) (s : Stream) : Except String (Vec × Buf × Int) → Vec × Stream
  | .error _ => (V, s)
  | .ok (V, b, _) => (V, ⟨b, s.fail⟩)

/-- `isfstream::seekg(pos)` (sfstream.cpp:210-233). -/
def seekg (V : Vec) (s : Stream) (pos : Int) : Option (Vec × Stream) :=
  if s.fail then some (V, s) else (pubseekpos V s.buf pos false).bind fun r => some (seekgResult V s r)

/-- `isfstream::seekg(off, way)` (sfstream.cpp:236-259). -/
def seekgOff (V : Vec) (s : Stream) (off : Int) (way : Way) : Option (Vec × Stream) :=
  if s.fail then some (V, s) else (pubseekoff V s.buf off way false).bind fun r => some (seekgResult V s r)

/-- `isfstream::tellg` (sfstream.cpp:261-284); the mode defaults to in and out. -/
def tellg (V : Vec) (s : Stream) : Option (Vec × Stream × Int) :=
  if s.fail then some (V, s, -1)
  else (pubseekoff V s.buf 0 .cur true).bind fun r => match r with
    | .error _ => some (V, s, -1)
    | .ok (V, b, q) => some (V, ⟨b, s.fail⟩, q)

/-- `std::istream::read` of `n` bytes with `gcount`: the delivered bytes; fewer than `n` set `failbit`. -/
def read (V : Vec) (s : Stream) (n : Nat) : Option (Stream × List Byte) :=
  if s.fail then some (s, [])
  else (sgetn V s.buf n).bind fun r => some (⟨r.2, decide (r.1.length < n)⟩, r.1)

/-- `std::ios::clear`. -/
def clear (s : Stream) : Stream := ⟨s.buf, false⟩

end Sdsl.RamFs
