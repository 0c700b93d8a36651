/-
  `hugepage_allocator` (include/sdsl/memory_management.hpp:205-284, lib/memory_management.cpp:174-580): boundary-tag allocator inside
  one `mmap`ed arena.

  Addresses are byte offsets from `m_base`; the memory is word addressed (all tag accesses are 8-byte aligned) and holds natural
  numbers for `size_t` / `uint64_t`. Accesses outside of the arena, erasing an element that is not in the free set, and `memcpy` with
  overlapping or outlying regions are undefined (`none`). The `std::multimap` is a list sorted by key. Exceptions are `Except.error`.
  `size_t` wraps modulo 2^64.
-/
import Verif.UtilLemmas

namespace Sdsl.Huge

/-- The object state: contents of the arena, `m_top - m_base`, `m_total_size`, `m_free_large`. `m_first_block` is address 0. -/
structure Heap where
  mem : Nat → Nat
  top : Nat
  total : Nat
  free : List (Nat × Nat)

def ld (h : Heap) (a : Nat) : Option Nat := if a % 8 = 0 ∧ a + 8 ≤ h.total then some (h.mem a) else none

def st (h : Heap) (a v : Nat) : Option Heap :=
  if a % 8 = 0 ∧ a + 8 ≤ h.total then some { h with mem := fun x => if x = a then v else h.mem x } else none

/-- `ALIGN` (memory_management.cpp:176). -/
def align (x : Nat) : Nat := (x + 7) % 2 ^ 64 / 8 * 8
/-- `ALIGNSPLIT` (memory_management.cpp:175). -/
def alignSplit (x : Nat) : Nat := x / 8 * 8
/-- `MM_BLOCK_OVERHEAD` (memory_management.cpp:177). -/
def overhead : Nat := 16
/-- `MIN_BLOCKSIZE` and `SPLIT_THRESHOLD` (memory_management.cpp:178, 182): a header of three words and a footer. -/
def minBlock : Nat := 32
/-- `UNMASK_SIZE` (memory_management.cpp:179). -/
def unmask (x : Nat) : Nat := x / 2 * 2
/-- `SETFREE` (memory_management.cpp:181). -/
def setFree (x : Nat) : Nat := x / 2 * 2 + 1
/-- `block_isfree` (memory_management.cpp:225-230) on the size field. -/
def isFree (x : Nat) : Bool := x % 2 == 1
/-- Addition and subtraction of `size_t`. -/
def add64 (a b : Nat) : Nat := (a + b) % 2 ^ 64
def sub64 (a b : Nat) : Nat := (a + 2 ^ 64 - b) % 2 ^ 64

/-- `block_cur` (memory_management.cpp:188-193). -/
def blockCur (ptr : Nat) : Nat := ptr - 8
/-- `block_data` (memory_management.cpp:268-272). -/
def blockData (b : Nat) : Nat := b + 8

/-- `block_update` with `foot_update` (memory_management.cpp:251-265). -/
def blockUpdate (h : Heap) (b size : Nat) : Option Heap := do
  let h ← st h b size
  st h (b + unmask size - 8) size

/-- `block_prev` (memory_management.cpp:196-204). -/
def blockPrev (h : Heap) (b : Nat) : Option (Option Nat) :=
  if b = 0 then some none else do
    let foot ← ld h (b - 8)
    some (some (b - unmask foot))

/-- `block_next` (memory_management.cpp:207-215). -/
def blockNext (h : Heap) (b : Nat) : Option (Option Nat) := do
  let size ← ld h b
  if b + unmask size ≥ h.top then some none else some (some (b + unmask size))

/-- `next && block_isfree(next)` / `prev && block_isfree(prev)`. -/
def isFreeBlock (h : Heap) : Option Nat → Option Bool
  | none => some false
  | some b => (ld h b).bind fun s => some (isFree s)

/-- `block_getdatasize` (memory_management.cpp:275-280). -/
def dataSize (h : Heap) (b : Nat) : Option Nat := (ld h b).bind fun s => some (sub64 (unmask s) 16)

/-- `block_markfree` (memory_management.cpp:283-287). -/
def markFree (h : Heap) (b : Nat) : Option Heap := (ld h b).bind fun s => blockUpdate h b (setFree s)
/-- `block_markused` (memory_management.cpp:290-294). -/
def markUsed (h : Heap) (b : Nat) : Option Heap := (ld h b).bind fun s => blockUpdate h b (unmask s)

/-- `remove_from_free_set` (memory_management.cpp:406-425): entries with equal key and block are interchangeable. If the block is not
found, `equal_range.second` is erased, which is undefined or removes another block: `none`. -/
def removeFree (h : Heap) (b : Nat) : Option Heap :=
  (ld h b).bind fun s => if (s, b) ∈ h.free then some { h with free := h.free.erase (s, b) } else none

/-- `std::multimap::insert`: behind the elements with the same key. -/
def insertKey (e : Nat × Nat) : List (Nat × Nat) → List (Nat × Nat)
  | [] => [e]
  | x :: xs => if e.1 < x.1 then e :: x :: xs else x :: insertKey e xs

/-- `insert_into_free_set` (memory_management.cpp:427-433). -/
def insertFree (h : Heap) (b : Nat) : Option Heap :=
  (ld h b).bind fun s => some { h with free := insertKey (s, b) h.free }

/-- `find_free_block` (memory_management.cpp:435-447): first element with key at least `size`. -/
def findFree (h : Heap) (size : Nat) : Option (Nat × Heap) :=
  match h.free.find? (fun e => decide (size ≤ e.1)) with
  | none => none
  | some e => some (e.2, { h with free := h.free.erase e })

/-- First part of `coalesce_block`: merge with the next block (memory_management.cpp:302-308). -/
def coalesceNext (h : Heap) (b : Nat) : Option Heap := do
  let next ← blockNext h b
  let nf ← isFreeBlock h next
  match next, nf with
  | some next, true => do
    let h ← removeFree h next
    let s ← ld h b
    let t ← ld h next
    blockUpdate h b (unmask s + unmask t)
  | _, _ => some h

/-- Second part of `coalesce_block`: merge into the previous block (memory_management.cpp:309-316); also returns `newblock`. -/
def coalescePrev (h : Heap) (b : Nat) : Option (Heap × Nat) := do
  let prev ← blockPrev h b
  let pf ← isFreeBlock h prev
  match prev, pf with
  | some prev, true => do
    let h ← removeFree h prev
    let t ← ld h prev
    let s ← ld h b
    let h ← blockUpdate h prev (unmask t + unmask s)
    some (h, prev)
  | _, _ => some (h, b)

/-- `coalesce_block` (memory_management.cpp:297-321). -/
def coalesce (h : Heap) (b : Nat) : Option Heap := do
  let h ← coalesceNext h b
  let r ← coalescePrev h b
  let h ← markFree r.1 r.2
  insertFree h r.2

/-- `split_block` (memory_management.cpp:324-343). The comparison is on `int64_t`. -/
def split (h : Heap) (b size : Nat) : Option Heap := do
  let s ← ld h b
  let blocksize := unmask s
  let newsize := alignSplit (sub64 blocksize (align (add64 size overhead)))
  if newsize < 2 ^ 63 ∧ minBlock ≤ newsize then do
    let h ← blockUpdate h b (blocksize - newsize)
    let nb := b + (blocksize - newsize)
    let h ← blockUpdate h nb newsize
    coalesce h nb
  else some h

/-- `hsbrk` (memory_management.cpp:346-357), for sizes below 2^63. -/
def hsbrk (h : Heap) (size : Nat) : Except String (Heap × Nat) :=
  if h.total - h.top < size then .error "not enough hugepage memory available"
  else .ok ({ h with top := h.top + size }, h.top)

/-- `new_block` (memory_management.cpp:359-368). -/
def newBlock (h : Heap) (size : Nat) : Option (Except String (Heap × Nat)) :=
  let size := align (add64 size overhead)
  let size := if size < minBlock then minBlock else size
  match hsbrk h size with
  | .error e => some (.error e)
  | .ok (h, p) => (blockUpdate h p size).bind fun h => some (.ok (h, p))

/-- `last_block` (memory_management.cpp:370-384). -/
def lastBlock (h : Heap) : Option (Option Nat) :=
  if h.top ≠ 0 then do
    let foot ← ld h (h.top - 8)
    some (some (h.top - 8 + 8 - unmask foot))
  else some none

/-- `mm_alloc` (memory_management.cpp:449-482). -/
def alloc (h : Heap) (size : Nat) : Option (Except String (Heap × Nat)) :=
  match findFree h (add64 size overhead) with
  | some (b, h) => do
    let h ← markUsed h b
    let h ← split h b size
    some (.ok (h, blockData b))
  | none => do
    let last ← lastBlock h
    let lf ← isFreeBlock h last
    match last, lf with
    | some b, true => do
      let ds ← dataSize h b
      let needed := align (sub64 size ds)
      match hsbrk h needed with
      | .error e => some (.error e)
      | .ok (h, _) => do
        let h ← removeFree h b
        let h ← blockUpdate h b (ds + needed + 8 + 8)
        let h ← markUsed h b
        some (.ok (h, blockData b))
    | _, _ => (newBlock h size).bind fun r => match r with
      | .error e => some (.error e)
      | .ok (h, b) => some (.ok (h, blockData b))

/-- `mm_free` (memory_management.cpp:484-496) of a non-null pointer. -/
def dealloc (h : Heap) (ptr : Nat) : Option Heap := do
  let b := blockCur ptr
  let h ← markFree h b
  coalesce h b

/-- Copying `n` words in ascending or any other order between disjoint regions, or `memmove`: the source is read first. -/
def copyWords (mem : Nat → Nat) (dst src n : Nat) : Nat → Nat :=
  fun x => if dst ≤ x ∧ x < dst + 8 * n then mem (src + (x - dst)) else mem x

/-- `memmove` of a multiple of 8 bytes. -/
def memmove (h : Heap) (dst src bytes : Nat) : Option Heap :=
  if src + bytes ≤ h.total ∧ dst + bytes ≤ h.total then some { h with mem := copyWords h.mem dst src (bytes / 8) } else none

/-- `memcpy`: undefined for overlapping regions. The last `bytes % 8` bytes replace the low part of a word. -/
def memcpy (h : Heap) (dst src bytes : Nat) : Option Heap :=
  if src + bytes ≤ h.total ∧ dst + bytes ≤ h.total ∧ (src + bytes ≤ dst ∨ dst + bytes ≤ src) then
    let mem := copyWords h.mem dst src (bytes / 8)
    let r := bytes % 8
    let mem := if r = 0 then mem else
      let d := dst + bytes / 8 * 8
      let s := src + bytes / 8 * 8
      fun x => if x = d then mem s % 256 ^ r + mem d / 256 ^ r * 256 ^ r else mem x
    some { h with mem := mem }
  else none

/-- Enlarging the block below `m_top` (memory_management.cpp:527-534). -/
def expandTop (h : Heap) (b needed : Nat) : Option (Except String (Heap × Option Nat)) :=
  match hsbrk h needed with
  | .error e => some (.error e)
  | .ok (h, _) => do
    let s ← ld h b
    let h ← blockUpdate h b (unmask s + needed)
    some (.ok (h, some (blockData b)))

/-- The part of `mm_realloc` that enlarges a block in place (memory_management.cpp:522-568), for
`bptr = b` and `blockdatasize = ds`: the new pointer, or `none` for `need_malloc`. -/
def expand (h : Heap) (b ptr ds size : Nat) : Option (Except String (Heap × Option Nat)) := do
  let next ← blockNext h b
  match next with
  | none => expandTop h b (align (sub64 size ds))
  | some next => do
    let t ← ld h next
    if isFree t then
      if ds + unmask t ≥ size then do
        let h ← removeFree h next
        let s ← ld h b
        let h ← blockUpdate h b (unmask s + unmask t)
        some (.ok (h, some ptr))
      else some (.ok (h, none))
    else do
      let prev ← blockPrev h b
      let pf ← isFreeBlock h prev
      match prev, pf with
      | some prev, true => do
        let t ← ld h prev
        if ds + unmask t ≥ size then do
          let h ← removeFree h prev
          let s ← ld h b
          let h ← blockUpdate h prev (unmask t + unmask s)
          let h ← markUsed h prev
          let h ← memmove h (blockData prev) ptr ds
          some (.ok (h, some (blockData prev)))
        else some (.ok (h, none))
      | _, _ => some (.ok (h, none))

/-- `mm_realloc` (memory_management.cpp:498-580) with a non-null pointer and a positive size. -/
def realloc (h : Heap) (ptr size : Nat) : Option (Except String (Heap × Nat)) := do
  let b := blockCur ptr
  let ds ← dataSize h b
  if size = ds then some (.ok (h, ptr))
  else if size < ds then do
    let h ← split h b size
    some (.ok (h, ptr))
  else do
    let r ← expand h b ptr ds size
    match r with
    | .error e => some (.error e)
    | .ok (h, some p) => some (.ok (h, p))
    | .ok (h, none) => do
      let a ← alloc h size
      match a with
      | .error e => some (.error e)
      | .ok (h, newptr) => do
        let h ← memcpy h newptr ptr size
        let h ← dealloc h ptr
        some (.ok (h, newptr))

/-- `init` (memory_management.hpp:240-263) with an arena of `total` bytes of arbitrary contents. -/
def init (mem : Nat → Nat) (total : Nat) : Heap := ⟨mem, 0, total, []⟩

/-! ### Clients -/

/-- A live allocation: pointer and requested size. -/
abbrev Live := List (Nat × Nat)

/-- What a client does; allocations are named by their index in the list of live ones. `write i off v` stores a word into allocation
`i`. A null pointer is returned by `mm_realloc(ptr, 0)` and accepted by `mm_realloc` / `mm_free` (memory_management.cpp:504-508,
489); these calls are `free i`, `alloc n` and nothing. -/
inductive Op where
  | alloc (n : Nat)
  | free (i : Nat)
  | realloc (i n : Nat)
  | write (i off v : Nat)

/-- One client operation. Calls that break the contract (unknown allocation, write outside of it) are ignored; an exception leaves
the client's list as it was. -/
def step (h : Heap) (live : Live) : Op → Option (Heap × Live)
  | .alloc n => (alloc h n).bind fun r => match r with
    | .error _ => some (h, live)
    | .ok (h, p) => some (h, (p, n) :: live)
  | .free i => match live[i]? with
    | none => some (h, live)
    | some (p, _) => (dealloc h p).bind fun h => some (h, live.eraseIdx i)
  | .realloc i n => match live[i]? with
    | none => some (h, live)
    | some (p, _) =>
      if n = 0 then (dealloc h p).bind fun h => some (h, live.eraseIdx i)
      else (realloc h p n).bind fun r => match r with
        | .error _ => some (h, live)
        | .ok (h, q) => some (h, live.set i (q, n))
  | .write i off v => match live[i]? with
    | none => some (h, live)
    | some (p, n) => if 8 * off + 8 ≤ n then (st h (p + 8 * off) v).bind fun h => some (h, live) else some (h, live)

def run : Heap → Live → List Op → Option (Heap × Live)
  | h, live, [] => some (h, live)
  | h, live, op :: ops => (step h live op).bind fun r => run r.1 r.2 ops

end Sdsl.Huge
