import Verif.IntVec
import Verif.IntVecIO

/-! # Serialisation: streams, members and the supports with logic of their own

`serialize` of an object yields the bytes appended to the stream and the returned `written_bytes`; `load` gets the object that is
overwritten, the address passed as second argument (`load(in, &m_bv)`; `none` is a null pointer or a class whose `load` has no such
argument) and the stream, and yields the object and the unread rest. The pointer of a support to the structure it works on is
modelled by the name of the member it points to. Streams do not fail on writing; a read behind the end is `none`. -/
namespace Sdsl.Serial
open IntVec

/-- The bytes written by a `serialize` call and its result. -/
abbrev Out := List Byte × Nat

/-- The address of a structure a support works on, by name. -/
abbrev Ptr := Option String

/-- `written_bytes += a; written_bytes += b;`. -/
def andThen (a b : Option Out) : Option Out := do
  let x ← a
  let y ← b
  pure (x.1 ++ y.1, x.2 + y.2)

infixr:65 " +> " => andThen

/-- The two functions of a class, and `set_vector` for supports. -/
structure Codec (α : Type) where
  ser : α → Option Out
  load : α → Ptr → List Byte → Option (α × List Byte)
  setVec : α → Ptr → α

/-! ### Numbers: `write_member`, `read_member`, io.hpp:83-107 -/

/-- The `b` bytes of an unsigned integer in memory (little endian). -/
def numBytes : Nat → Nat → List Byte
  | 0, _ => []
  | b + 1, x => BitVec.ofNat 8 x :: numBytes b (x / 256)

/-- The integer with the given bytes. -/
def bytesNum : List Byte → Nat
  | [] => 0
  | x :: xs => x.toNat + 256 * bytesNum xs

/-- `write_member(t, out)` of an integer type of `b` bytes, io.hpp:84-92. -/
def writeMember (b x : Nat) : Option Out := some (numBytes b x, b)

/-- `read_member(t, in)`, io.hpp:99-103. -/
def readMember (b : Nat) (s : List Byte) : Option (Nat × List Byte) :=
  if s.length < b then none else some (bytesNum (s.take b), s.drop b)

/-- An integer type of `b` bytes. -/
def num (b : Nat) : Codec Nat := ⟨writeMember b, fun _ _ s => readMember b s, fun x _ => x⟩

/-- `int_vector<tw>`, int_vector.hpp:1563-1595. -/
def vec (junk : Nat → Word) (tw : Nat) : Codec IntVec :=
  ⟨fun v => v.serialize tw false, fun u _ s => IntVec.load tw junk u s, fun v _ => v⟩

/-- A class that serializes nothing and only stores a pointer: `rank_support_sd` (sd_vector.hpp:533-541), `select_support_sd`
    (638-646), `rank_support_rrr` (rrr_vector.hpp:512-523), `select_support_rrr` (669-679), `rank_support_il`
    (bit_vector_il.hpp:339-347), `select_support_il` (509-517), `rank_support_hyb` (hyb_vector.hpp:809-821), the scan supports. -/
def emptySup : Codec Ptr := ⟨fun _ => some ([], 0), fun _ p s => some (p, s), fun _ p => p⟩

/-! ### Rank supports -/

/-- The members of `rank_support_v` and `rank_support_v5`. -/
structure RankSup where
  m_v : Ptr
  m_basic_block : IntVec

/-- `rank_support_v`, rank_support_v.hpp:134-149 and `set_vector` 152-154. -/
def rankV (junk : Nat → Word) : Codec RankSup where
  ser v := (vec junk 64).ser v.m_basic_block
  load u p s := do
    let (b, s) ← (vec junk 64).load u.m_basic_block none s
    some (⟨p, b⟩, s)
  setVec v p := { v with m_v := p }

/-- `rank_support_v5`, rank_support_v5.hpp:143-156: the pointer must not be null (assertion in line 153). -/
def rankV5 (junk : Nat → Word) : Codec RankSup where
  ser v := (vec junk 64).ser v.m_basic_block
  load u p s := do
    let _ ← p
    let (b, s) ← (vec junk 64).load u.m_basic_block none s
    some (⟨p, b⟩, s)
  setVec v p := { v with m_v := p }

/-! ### `select_support_mcl` -/

/-- The members of `select_support_mcl`, select_support_mcl.hpp:77-85; `m_longsuperblock` is `none` for a null pointer. `m_logn`,
    `m_logn2`, `m_logn4` are only used while the structure is built and left out. -/
structure SelMcl where
  m_v : Ptr
  m_arg_cnt : Nat
  m_superblock : IntVec
  m_longsuperblock : Option (List IntVec)
  m_miniblock : List IntVec

/-- The number of superblocks, `(m_arg_cnt+4095)>>12`. -/
def SelMcl.sb (cnt : Nat) : Nat := (cnt + 4095) % 2 ^ 64 / 4096

/-- `x.empty()` of an `int_vector`, int_vector.hpp:372-375. -/
def isEmpty (v : IntVec) : Bool := v.size == 0

/-- A default constructed `bit_vector`. -/
def freshBits : IntVec := ⟨0, [], 1⟩

/-- The loop that fills `mini_or_long`, select_support_mcl.hpp:440-441: `k` remaining iterations. -/
def molLoop (mini : List IntVec) : Nat → Nat → IntVec → Option IntVec
  | _, 0, mol => some mol
  | i, k + 1, mol => do
    let x ← mini[i]?
    let mol ← mol.set1 i (!isEmpty x)
    molLoop mini (i + 1) k mol

/-- `mini_or_long`, select_support_mcl.hpp:437-442. -/
def molVec (junk : Nat → Word) (v : SelMcl) : Option IntVec :=
  if v.m_longsuperblock.isSome then do
    let mol ← bitResize junk freshBits (SelMcl.sb v.m_arg_cnt)
    molLoop v.m_miniblock 0 (SelMcl.sb v.m_arg_cnt) mol
  else some freshBits

/-- The condition `!mini_or_long.empty() and !mini_or_long[i]`. -/
def isLong (mol : IntVec) (i : Nat) : Option Bool :=
  if isEmpty mol then some false else (mol.get1 i).map (!·)

/-- The loop over the superblocks in `serialize`, select_support_mcl.hpp:446-451: `k` remaining iterations. -/
def mclSerLoop (junk : Nat → Word) (mol : IntVec) (lng : Option (List IntVec)) (mini : List IntVec) :
    Nat → Nat → Option Out
  | _, 0 => some ([], 0)
  | i, k + 1 =>
    (do
      if ← isLong mol i then (vec junk 0).ser (← (← lng)[i]?)
      else (vec junk 0).ser (← mini[i]?)) +>
    mclSerLoop junk mol lng mini (i + 1) k

/-- `select_support_mcl::serialize`, select_support_mcl.hpp:423-460. -/
def mclSer (junk : Nat → Word) (v : SelMcl) : Option Out :=
  writeMember 8 v.m_arg_cnt +>
  if v.m_arg_cnt ≠ 0 then
    (vec junk 0).ser v.m_superblock +> do
      let mol ← molVec junk v
      (vec junk 1).ser mol +> mclSerLoop junk mol v.m_longsuperblock v.m_miniblock 0 (SelMcl.sb v.m_arg_cnt)
  else some ([], 0)

/-- A default constructed `int_vector<0>`: no elements, width 64 (int_vector.hpp:336-338, 345-355). -/
def fresh : IntVec := ⟨0, [], 64⟩

/-- The loop of `load`, select_support_mcl.hpp:486-491: `k` remaining iterations, the arrays so far and the stream. -/
def mclLoadLoop (junk : Nat → Word) (mol : IntVec) :
    Nat → Nat → List IntVec → List IntVec → List Byte → Option (List IntVec × List IntVec × List Byte)
  | _, 0, lng, mini, s => some (lng, mini, s)
  | i, k + 1, lng, mini, s => do
    if ← isLong mol i then
      let (x, s) ← (vec junk 0).load (← lng[i]?) none s
      mclLoadLoop junk mol (i + 1) k (lng.set i x) mini s
    else
      let (x, s) ← (vec junk 0).load (← mini[i]?) none s
      mclLoadLoop junk mol (i + 1) k lng (mini.set i x) s

/-- `select_support_mcl::load`, select_support_mcl.hpp:463-492 with `initData` (401-416). -/
def mclLoad (junk : Nat → Word) (u : SelMcl) (p : Ptr) (s : List Byte) : Option (SelMcl × List Byte) := do
  let (cnt, s) ← readMember 8 s
  if cnt ≠ 0 then
    let (super, s) ← (vec junk 0).load u.m_superblock none s
    let (mol, s) ← (vec junk 1).load freshBits none s
    let n := SelMcl.sb cnt
    let (lng, mini, s) ← mclLoadLoop junk mol 0 n (if isEmpty mol then [] else List.replicate n fresh)
      (List.replicate n fresh) s
    some (⟨p, cnt, super, if isEmpty mol then none else some lng, mini⟩, s)
  else some (⟨p, cnt, u.m_superblock, none, []⟩, s)

/-- `select_support_mcl`. -/
def selMcl (junk : Nat → Word) : Codec SelMcl := ⟨mclSer junk, mclLoad junk, fun v p => { v with m_v := p }⟩

/-! ### `std::vector` -/

/-- `serialize_vector`, io.hpp:328-343. -/
def serVector {α : Type} (c : Codec α) : List α → Option Out
  | [] => some ([], 0)
  | x :: xs => c.ser x +> serVector c xs

/-- `load_vector`, io.hpp:353-359: the elements of the resized vector are overwritten in turn. -/
def loadVector {α : Type} (c : Codec α) : List α → List Byte → Option (List α × List Byte)
  | [], s => some ([], s)
  | u :: us, s => do
    let (x, s) ← c.load u none s
    let (xs, s) ← loadVector c us s
    some (x :: xs, s)

/-- `resize(n)` of a `std::vector`: `d` is the value of new elements. -/
def resize {α : Type} (d : α) (l : List α) (n : Nat) : List α := l.take n ++ List.replicate (n - l.length) d

/-- A `std::vector<X>` with its size, io.hpp:131-140 and 156-164. -/
def stdVector {α : Type} (c : Codec α) (d : α) : Codec (List α) where
  ser l := writeMember 8 l.length +> serVector c l
  load u _ s := do
    let (n, s) ← readMember 8 s
    loadVector c (resize d u n) s
  setVec l _ := l

end Sdsl.Serial
