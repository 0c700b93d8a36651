/-
  Model of `nn_dict_dynamic`: include/sdsl/nn_dict_dynamic.hpp.

  `m_tree` is a word list; `m_offset` (an `int_vector<64>`) is a list of numbers. Shifts by 64 or more (or by a negative amount), which the code performs in
  `next` and `prev`, are undefined in C++: the parameter `ub` is the outcome of such a shift, `none` for undefined behaviour or `some w` for a compiler that
  produces the word `w`.
-/
import Verif.Bits

namespace Sdsl.Nn

open Bits

/-- `nn_dict_dynamic`; nn_dict_dynamic.hpp:51-55. -/
structure Nn where
  depth : Nat
  beg : Nat
  size : Nat
  offset : List Nat
  tree : Mem
deriving DecidableEq, Repr

/-- The first loop of the constructor, nn_dict_dynamic.hpp:93-101; returns `m_offset` and `nodes`. -/
def skipLoop : Nat → Nat → List Nat → Nat → Option (List Nat × Nat)
  | 0, _, off, nodes => some (off, nodes)
  | level + 1, tmp, off, nodes =>
    let tmp := (tmp + 63) / 64
    if level + 2 < off.length ∧ tmp ≤ 2 ^ (6 * (level + 1)) then
      skipLoop level tmp (off.set (level + 2) (2 ^ (6 * (level + 1)) - tmp)) (nodes + tmp)
    else none

/-- The second loop, nn_dict_dynamic.hpp:104-106; `k` iterations remain, the next one has number `level`. -/
def sumLoop : Nat → Nat → List Nat → Option (List Nat)
  | 0, _, off => some off
  | k + 1, level, off => do
    let a ← off[level]?
    let b ← off[level - 1]?
    sumLoop k (level + 1) (off.set level (a + b))

/-- Constructor, nn_dict_dynamic.hpp:78-110. For `n = 0` the members `m_depth` and `m_v_begin_leaves` stay uninitialised (here 0); no operation is allowed then.
    (`1ULL<<(m_depth*6)` is in range because `m_depth ≤ 10`.) -/
def new (n : Nat) : Option Nn :=
  if n = 0 then some ⟨0, 0, 0, [], []⟩
  else do
    let h ← hi (BitVec.ofNat 64 n)
    let depth := h / 6
    let beg := 2 ^ (depth * 6) / 63
    let r ← skipLoop depth n (List.replicate (depth + 2) 0) 1
    let off ← sumLoop depth 1 r.1
    pure ⟨depth, beg, n, off, List.replicate r.2 0#64⟩

/-- `m_v - m_offset[dep]`. -/
def real (s : Nn) (v dep : Nat) : Option Nat := do
  let o ← s.offset[dep]?
  if o ≤ v then some (v - o) else none

/-- `operator[] const`, nn_dict_dynamic.hpp:166-170 and `reference::operator bool`, 359-363. -/
def get (s : Nn) (idx : Nat) : Option Bool := do
  let r ← real s (s.beg + idx / 64) s.depth
  let node ← ld s.tree r
  let w ← shr node (idx % 64)
  pure (w &&& 1#64 = 1#64)

/-- `reference::operator=(true)`, nn_dict_dynamic.hpp:314-331. -/
def setLoop (s : Nn) : Nat → Nat → Nat → Option Nn
  | dep, v, off => do
    let r ← real s v dep
    let w ← ld s.tree r
    let b ← shr w off
    if b &&& 1#64 ≠ 0#64 then some s
    else do
      let one ← shl 1#64 off
      let t ← st s.tree r (w ||| one)
      let s' := { s with tree := t }
      if w = 0#64 then
        match dep with
        | 0 => some s'
        | dep + 1 => setLoop s' dep ((v - 1) / 64) ((v - 1) % 64)
      else some s'
termination_by dep => dep

/-- `reference::operator=(false)`, nn_dict_dynamic.hpp:332-348. -/
def clearLoop (s : Nn) : Nat → Nat → Nat → Option Nn
  | dep, v, off => do
    let r ← real s v dep
    let w ← ld s.tree r
    let b ← shr w off
    if b &&& 1#64 = 0#64 then some s
    else do
      let one ← shl 1#64 off
      let t ← st s.tree r (w &&& ~~~one)
      let s' := { s with tree := t }
      if w &&& ~~~one = 0#64 then
        match dep with
        | 0 => some s'
        | dep + 1 => clearLoop s' dep ((v - 1) / 64) ((v - 1) % 64)
      else some s'
termination_by dep => dep

/-- `d[idx] = x`; nn_dict_dynamic.hpp:172-175, 306-351. -/
def assign (s : Nn) (idx : Nat) (x : Bool) : Option Nn :=
  if x then setLoop s s.depth (s.beg + idx / 64) (idx % 64) else clearLoop s s.depth (s.beg + idx / 64) (idx % 64)

/-- `w >> off` where the shift may be by 64. -/
def shrU (ub : Option Word) (w : Word) (off : Nat) : Option Word := if off < 64 then some (w >>> off) else ub

/-- `w << (63-off)` with `uint8_t off`; the amount is negative for `off > 63`. -/
def shlU (ub : Option Word) (w : Word) (off : Nat) : Option Word := if off < 64 then some (w <<< (63 - off)) else ub

/-- The upward loop of `next`, nn_dict_dynamic.hpp:195-207; `none` in the inner option: `return size()`. Otherwise `dep`, `v_node_position`, `position`. -/
def nextUp (ub : Option Word) (s : Nn) : Nat → Nat → Nat → Option (Option (Nat × Nat × Nat))
  | dep, v, off => do
    let r ← real s v dep
    let w ← ld s.tree r
    let node ← shrU ub w off
    if node = 0#64 ∨ off = 64 then
      if v = 0 then some none
      else match dep with
        | 0 => none
        | dep + 1 => nextUp ub s dep ((v - 1) / 64) ((v - 1) % 64 + 1)
    else do
      let l ← lo node
      some (some (dep, v, l + off))
termination_by dep => dep

/-- The downward loop of `next`, nn_dict_dynamic.hpp:212-220; `fuel` bounds the number of iterations. -/
def nextDown (s : Nn) : Nat → Nat → Nat → Nat → Option Nat
  | 0, _, v, position => if v < s.beg then none else some ((v - s.beg) * 64 + position)
  | fuel + 1, dep, v, position =>
    if v < s.beg then do
      let v := v * 64 + 1 + position
      let r ← real s v (dep + 1)
      let node ← ld s.tree r
      let position ← lo node
      nextDown s fuel (dep + 1) v position
    else some ((v - s.beg) * 64 + position)

/-- `next(idx)`, nn_dict_dynamic.hpp:184-222. -/
def next (ub : Option Word) (s : Nn) (idx : Nat) : Option Nat := do
  match ← nextUp ub s s.depth (s.beg + idx / 64) (idx % 64) with
  | none => pure s.size
  | some (dep, v, position) => nextDown s (s.depth + 1) dep v position

/-- The upward loop of `prev`, nn_dict_dynamic.hpp:240-255; `off` is a `uint8_t`. -/
def prevUp (ub : Option Word) (s : Nn) : Nat → Nat → Nat → Option (Option (Nat × Nat × Nat))
  | dep, v, off => do
    let r ← real s v dep
    let w ← ld s.tree r
    let node ← shlU ub w off
    if node = 0#64 ∨ off = 255 then
      if v = 0 then some none
      else match dep with
        | 0 => none
        | dep + 1 => prevUp ub s dep ((v - 1) / 64) (((v - 1) % 64 + 255) % 256)
    else do
      let h ← hi node
      some (some (dep, v, h - (63 - off)))
termination_by dep => dep

/-- The downward loop of `prev`, nn_dict_dynamic.hpp:260-267. -/
def prevDown (s : Nn) : Nat → Nat → Nat → Nat → Option Nat
  | 0, _, v, position => if v < s.beg then none else some ((v - s.beg) * 64 + position)
  | fuel + 1, dep, v, position =>
    if v < s.beg then do
      let v := v * 64 + 1 + position
      let r ← real s v (dep + 1)
      let node ← ld s.tree r
      let position ← hi node
      prevDown s fuel (dep + 1) v position
    else some ((v - s.beg) * 64 + position)

/-- `prev(idx)`, nn_dict_dynamic.hpp:229-269. -/
def prev (ub : Option Word) (s : Nn) (idx : Nat) : Option Nat := do
  match ← prevUp ub s s.depth (s.beg + idx / 64) (idx % 64) with
  | none => pure s.size
  | some (dep, v, position) => prevDown s (s.depth + 1) dep v position

end Sdsl.Nn
