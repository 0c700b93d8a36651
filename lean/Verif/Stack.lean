/-
  Model of the succinct stacks: include/sdsl/sorted_stack_support.hpp, sorted_int_stack.hpp, sorted_multi_stack_support.hpp.

  The three classes contain the same statements for the block structure; they are modelled once (`blockPush`, `blockPop`).
  `int_vector<64>` members are word lists. `assert`s are not modelled (they are the preconditions of the theorems).
-/
import Verif.Bits

namespace Sdsl.Stack

open Bits

/-- `m_stack[bn] ^= (1ULL << block_pos(x)); if (bn > 0 and m_stack[bn-1] == 0) m_stack[bn-1] = 0x8000000000000000ULL | m_top;`
    sorted_stack_support.hpp:115-119, sorted_int_stack.hpp:117-121 (where `bn > 0` is not tested, but `x >= 63` unless `x+63` wraps),
    sorted_multi_stack_support.hpp:115-118. -/
def blockPush (m : Mem) (top x : Nat) : Option Mem := do
  let w ← ld m (x / 63)
  let b ← shl 1#64 (x % 63)
  let m ← st m (x / 63) (w ^^^ b)
  if x / 63 > 0 then do
    let v ← ld m (x / 63 - 1)
    if v = 0#64 then st m (x / 63 - 1) (0x8000000000000000#64 ||| BitVec.ofNat 64 top) else pure m
  else pure m

/-- Removal of `m_top` from its block; returns the memory and the new `m_top`. `bn-1` is out of range for `bn = 0`.
    sorted_stack_support.hpp:127-144, sorted_int_stack.hpp:136-153, sorted_multi_stack_support.hpp:140-157. -/
def blockPop (m : Mem) (top : Nat) : Option (Mem × Nat) := do
  let w ← ld m (top / 63)
  let b ← shl 1#64 (top % 63)
  let m ← st m (top / 63) (w ^^^ b)
  if 0 < (w ^^^ b).toNat then do
    let h ← hi (w ^^^ b)
    pure (m, top / 63 * 63 + h)
  else if top / 63 = 0 then none
  else do
    let v ← ld m (top / 63 - 1)
    if v >>> 63 = 0#64 then do
      let h ← hi v
      pure (m, (top / 63 - 1) * 63 + h)
    else do
      let m ← st m (top / 63 - 1) 0#64
      pure (m, (v &&& 0x7FFFFFFFFFFFFFFF#64).toNat)

/-- `m_stack = int_vector<64>(words, 0); m_stack[0] = 1;` -/
def init (words : Nat) : Option Mem := st (List.replicate words 0#64) 0 1#64

/-- `sorted_stack_support`; sorted_stack_support.hpp:42-45. -/
structure Sss where
  n : Nat
  cnt : Nat
  top : Nat
  stack : Mem
deriving DecidableEq, Repr

namespace Sss

/-- Constructor, sorted_stack_support.hpp:98-102. -/
def new (n : Nat) : Option Sss := do
  let m ← init ((n + 1) / 63 + 1)
  pure ⟨n, 0, 0, m⟩

/-- `top()`, sorted_stack_support.hpp:104-108. -/
def getTop (s : Sss) : Nat := (s.top + (2 ^ 64 - 1)) % 2 ^ 64

/-- `empty()`, sorted_stack_support.hpp:68-70. -/
def empty (s : Sss) : Bool := s.cnt == 0

/-- `push(x)`, sorted_stack_support.hpp:110-121. -/
def push (s : Sss) (x : Nat) : Option Sss := do
  let m ← blockPush s.stack s.top (x + 1)
  pure { s with cnt := s.cnt + 1, stack := m, top := x + 1 }

/-- `pop()`, sorted_stack_support.hpp:123-146. -/
def pop (s : Sss) : Option Sss :=
  if s.cnt = 0 then some s
  else do
    let r ← blockPop s.stack s.top
    pure { s with cnt := s.cnt - 1, stack := r.1, top := r.2 }

end Sss

/-- `sorted_int_stack`; sorted_int_stack.hpp:41-45. The back of `m_overflow` is the head of the list. -/
structure Sis where
  n : Nat
  cnt : Nat
  top : Nat
  stack : Mem
  overflow : List Nat
deriving DecidableEq, Repr

namespace Sis

/-- Constructor, sorted_int_stack.hpp:94-98. -/
def new (n : Nat) : Option Sis := do
  let m ← init (n / 63 + 2)
  pure ⟨n, 0, 0, m, []⟩

/-- `top()`, sorted_int_stack.hpp:100-103. -/
def getTop (s : Sis) : Nat := (s.top + (2 ^ 64 - 63)) % 2 ^ 64

/-- `empty()`, sorted_int_stack.hpp:63-65. -/
def empty (s : Sis) : Bool := s.cnt == 0

/-- `push(x)`, sorted_int_stack.hpp:105-124. -/
def push (s : Sis) (x : Nat) : Option Sis :=
  let x := (x + 63) % 2 ^ 64
  if x > s.n + 63 then
    let o := if s.overflow.isEmpty then [s.top] else s.overflow
    some { s with cnt := s.cnt + 1, overflow := x :: o, top := x }
  else do
    let m ← blockPush s.stack s.top x
    pure { s with cnt := s.cnt + 1, stack := m, top := x }

/-- `pop()`, sorted_int_stack.hpp:126-156. `pop_back` and `back` of an empty vector are undefined. -/
def pop (s : Sis) : Option Sis :=
  if s.cnt = 0 then some s
  else if s.top > s.n + 63 then
    match s.overflow with
    | _ :: b :: [] => some { s with cnt := s.cnt - 1, top := b, overflow := [] }
    | _ :: b :: c :: o => some { s with cnt := s.cnt - 1, top := b, overflow := b :: c :: o }
    | _ => none
  else do
    let r ← blockPop s.stack s.top
    pure { s with cnt := s.cnt - 1, stack := r.1, top := r.2 }

end Sis

/-- `sorted_multi_stack_support`; sorted_multi_stack_support.hpp:39-43. -/
structure Sms where
  n : Nat
  cnt : Nat
  top : Nat
  stack : Mem
  dup : Mem
deriving DecidableEq, Repr

namespace Sms

/-- Constructor, sorted_multi_stack_support.hpp:97-102. -/
def new (n : Nat) : Option Sms := do
  let m ← init ((n + 1) / 63 + 1)
  pure ⟨n, 0, 0, m, List.replicate (n / 64 + 1) 0#64⟩

/-- `top()`, sorted_multi_stack_support.hpp:105-108. -/
def getTop (s : Sms) : Nat := (s.top + (2 ^ 64 - 1)) % 2 ^ 64

/-- `empty()`, sorted_multi_stack_support.hpp:66-68. -/
def empty (s : Sms) : Bool := s.cnt == 0

/-- `push(x)`, sorted_multi_stack_support.hpp:110-130. -/
def push (s : Sms) (x : Nat) : Option (Sms × Bool) := do
  let w ← ld s.stack ((x + 1) / 63)
  let b ← shr w ((x + 1) % 63)
  if b &&& 1#64 = 0#64 then do
    let m ← blockPush s.stack s.top (x + 1)
    pure ({ s with cnt := s.cnt + 1, stack := m, top := x + 1 }, true)
  else do
    let d ← ld s.dup (s.cnt / 64)
    let b ← shl 1#64 (s.cnt % 64)
    let dup ← st s.dup (s.cnt / 64) (d ^^^ b)
    pure ({ s with cnt := s.cnt + 1, dup := dup }, false)

/-- `pop()`, sorted_multi_stack_support.hpp:132-162. -/
def pop (s : Sms) : Option (Sms × Bool) :=
  if s.cnt = 0 then some (s, false)
  else do
    let c := s.cnt - 1
    let d ← ld s.dup (c / 64)
    let r ← shr d (c % 64)
    if r &&& 1#64 = 1#64 then do
      let b ← shl 1#64 (c % 64)
      let dup ← st s.dup (c / 64) (d ^^^ b)
      pure ({ s with cnt := c, dup := dup }, false)
    else do
      let r ← blockPop s.stack s.top
      pure ({ s with cnt := c, stack := r.1, top := r.2 }, true)

end Sms

end Sdsl.Stack
