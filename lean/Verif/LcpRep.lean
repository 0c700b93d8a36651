/-
  Representations of LCP arrays: include/sdsl/lcp_bitcompressed.hpp, lcp_byte.hpp, lcp_wt.hpp, lcp_support_sada.hpp, lcp_support_tree.hpp, lcp_support_tree2.hpp
  and lib/lcp_support_tree.cpp.

  The cached LCP array (an `int_vector_buffer` over a file, C51) is the list of its values. `int_vector`s are arrays `Arr`, the bit vector of
  `_lcp_support_sada` with its select support is a list of bits with `Bv.select`. `serialize`, `load`, `swap` and the iterators are not modelled.
-/
import Verif.Lcp
import Verif.CsaNew
import Verif.CstSct3

namespace Sdsl.LcpRep

open Stack (Sms)
open Csa (hiW)

/-! ### lcp_bitcompressed -/

/-- `for (...) m_lcp[i] = lcp_buf[i];`, lcp_bitcompressed.hpp:76-78. -/
def copyLoop : List Nat → Nat → Arr → Option Arr
  | [], _, a => some a
  | l :: r, i, a => do
    let a ← a.set i l
    copyLoop r (i + 1) a

/-- `lcp_bitcompressed(config)`, lcp_bitcompressed.hpp:71-79; `w = lcp_buf.width()`. -/
def bitNew (w : Nat) (lcp : List Nat) : Option Arr := copyLoop lcp 0 (Arr.new lcp.length 0 w)

/-! ### lcp_byte -/

/-- The first loop, lcp_byte.hpp:102-111 and lcp_wt.hpp:109-117 (there without the last large index): the small values, the largest value that is not small, the index of the last such
    value and their number. -/
def smallLoop : List Nat → Nat → Arr → Nat → Nat → Nat → Option (Arr × Nat × Nat × Nat)
  | [], _, a, maxL, maxIdx, sum => some (a, maxL, maxIdx, sum)
  | l :: r, i, a, maxL, maxIdx, sum =>
    if l < 255 then do
      let a ← a.set i l
      smallLoop r (i + 1) a maxL maxIdx sum
    else do
      let a ← a.set i 255
      smallLoop r (i + 1) a (if l > maxL then l else maxL) i (sum + 1)

/-- The second loop, lcp_byte.hpp:115-121. -/
def bigLoop : List Nat → Nat → Nat → Arr → Arr → Option (Arr × Arr)
  | [], _, _, b, x => some (b, x)
  | l :: r, i, ii, b, x =>
    if l ≥ 255 then do
      let b ← b.set ii l
      let x ← x.set ii i
      bigLoop r (i + 1) (ii + 1) b x
    else bigLoop r (i + 1) ii b x

/-- `lcp_byte`, lcp_byte.hpp:78-80. -/
structure Byte where
  small : Arr
  big : Arr
  bigIdx : Arr

/-- `lcp_byte(config)`, lcp_byte.hpp:95-122. -/
def byteNew (lcp : List Nat) : Option Byte := do
  let (a, maxL, maxIdx, sum) ← smallLoop lcp 0 (Arr.new lcp.length 0 8) 0 0 0
  let w ← hiW maxL
  let wi ← hiW maxIdx
  let (b, x) ← bigLoop lcp 0 0 (Arr.new sum 0 w) (Arr.new sum 0 wi)
  pure ⟨a, b, x⟩

/-- `std::lower_bound` on the elements `[first, first + len)`: bisection (`while (len > 0)`), the fuel bounds the iterations. -/
def lowerBound (a : Arr) (x : Nat) : Nat → Nat → Nat → Option Nat
  | 0, first, len => if len = 0 then some first else none
  | f + 1, first, len =>
    if len = 0 then some first else do
      let v ← a.get (first + len / 2)
      if v < x then lowerBound a x f (first + len / 2 + 1) (len - len / 2 - 1) else lowerBound a x f first (len / 2)

/-- `operator[]`, lcp_byte.hpp:167-177. -/
def Byte.get (s : Byte) (i : Nat) : Option Nat := do
  let v ← s.small.get i
  if v ≠ 255 then some v else do
    let idx ← lowerBound s.bigIdx i s.bigIdx.xs.length 0 s.bigIdx.xs.length
    s.big.get idx

/-! ### lcp_wt -/

/-- `lcp_wt`, lcp_wt.hpp:81-82. -/
structure WtLcp where
  small : Csa.Wt
  big : Arr

/-- The second loop, lcp_wt.hpp:128-134. -/
def bigVals : List Nat → Nat → Arr → Option Arr
  | [], _, b => some b
  | l :: r, ii, b =>
    if l ≥ 255 then do
      let b ← b.set ii l
      bigVals r (ii + 1) b
    else bigVals r ii b

/-- `lcp_wt(config, other_key)`, lcp_wt.hpp:98-135; the small values are in a `wt_huff<>` for bytes. -/
def wtNew (lcp : List Nat) : Option WtLcp := do
  let (a, maxL, _, sum) ← smallLoop lcp 0 (Arr.new lcp.length 0 8) 0 0 0
  let t ← Csa.newWt (.huff true) a.xs
  let w ← hiW maxL
  let b ← bigVals lcp 0 (Arr.new sum 0 w)
  pure ⟨t, b⟩

/-- `operator[]`, lcp_wt.hpp:177-184. -/
def WtLcp.get (s : WtLcp) (i : Nat) : Option Nat := do
  let v ← s.small.get i
  if v ≠ 255 then some v else do
    let r ← s.small.rank i 255
    s.big.get r

/-! ### lcp_support_sada -/

/-- The loop of the constructor, lcp_support_sada.hpp:131-136: `k` iterations remain. The unsigned `l + 1 - old_l` is modulo `2^64`. -/
def sadaLoop (lcp isa : Arr) : Nat → Nat → Nat → Nat → List Bool → Option (List Bool × Nat)
  | 0, _, cnt, _, data => some (data, cnt)
  | k + 1, i, cnt, old, data => do
    let r ← isa.get i
    let l ← lcp.get r
    let cnt := (cnt + (l + 1 + (2 ^ 64 - old))) % 2 ^ 64
    let data ← Bv.set data cnt true
    sadaLoop lcp isa k (i + 1) (cnt + 1) l data

/-- `_lcp_support_sada(config, f_csa)`, lcp_support_sada.hpp:117-140: the bits `m_data`. -/
def sadaNew (lcp isa : Arr) : Option (List Bool) := do
  let (data, cnt) ← sadaLoop lcp isa lcp.xs.length 0 0 1 (List.replicate (2 * lcp.xs.length) false)
  if cnt ≤ data.length then some (data.take cnt) else some (data ++ List.replicate (cnt - data.length) false)

/-- `operator[]`, lcp_support_sada.hpp:190-195; `sa` is `(*m_csa)[i]`. -/
def sadaGet (sa : Nat → Option Nat) (data : List Bool) (i : Nat) : Option Nat := do
  let j ← sa i
  let s ← Bv.select true data (j + 1)
  pure ((s + (2 ^ 64 - 2 * j % 2 ^ 64)) % 2 ^ 64)

/-! ### construct_first_child_lcp and lcp_support_tree -/

/-- The variables of `construct_first_child_lcp`. -/
structure FlSt where
  s : Sms
  fc : Arr
  cnt : Nat

/-- `if (..) fc_lcp[fc_cnt] = y`. -/
def setIf (b : Bool) (a : Arr) (i x : Nat) : Option Arr := if b then a.set i x else some a

/-- `y = vec_stack.top(); if (vec_stack.pop()) fc_lcp[fc_cnt++] = y;`, lib/lcp_support_tree.cpp:24-27 and 33-36. -/
def flPop (t : FlSt) : Option FlSt := do
  let (s, b) ← t.s.pop
  let fc ← setIf b t.fc t.cnt t.s.getTop
  pure ⟨s, fc, if b then t.cnt + 1 else t.cnt⟩

/-- `while (!vec_stack.empty() and x < vec_stack.top())`, lib/lcp_support_tree.cpp:23-28. -/
def flLoop (x : Nat) : Nat → FlSt → Option FlSt
  | 0, _ => none
  | f + 1, t =>
    if !t.s.empty && decide (x < t.s.getTop) then do
      let t ← flPop t
      flLoop x f t
    else some t

/-- `while (!vec_stack.empty())`, lib/lcp_support_tree.cpp:32-37. -/
def flEnd : Nat → FlSt → Option FlSt
  | 0, _ => none
  | f + 1, t => if t.s.empty then some t else do
    let t ← flPop t
    flEnd f t

/-- The loop over the values, lib/lcp_support_tree.cpp:21-30. -/
def flVals : List Nat → FlSt → Option FlSt
  | [], t => some t
  | x :: xs, t => do
    let t ← flLoop x (t.s.cnt + 1) t
    let (s, _) ← t.s.push x
    flVals xs { t with s := s }

/-- `construct_first_child_lcp`, lib/lcp_support_tree.cpp:6-41 (`resize` to the number of values). -/
def firstChildLcp (lcp : List Nat) : Option Arr := do
  let w ← hiW lcp.length
  let s ← Sms.new lcp.length
  let t ← flVals lcp ⟨s, Arr.new lcp.length 0 w, 0⟩
  let t ← flEnd (t.s.cnt + 1) t
  pure { t.fc with xs := t.fc.xs.take t.cnt }

/-- `operator[]` of `_lcp_support_tree`, lcp_support_tree.hpp:129-131; `lcp` is `m_lcp[..]`. -/
def treeGet (lcp : Nat → Option Nat) (cst : CstSct3.Cst) (i : Nat) : Option Nat := do
  let k ← cst.tlcpIdx i
  lcp k

/-! ### construct_first_child_and_lf_lcp and lcp_support_tree2 -/

/-- The variables of `construct_first_child_and_lf_lcp`: the stack, `is_big_and_not_reducable`, `is_one_big_and_not_reducable` and the values in the two files. `fc_cnt` and `fc_cnt_big` are the
    numbers of these values. -/
structure LfSt where
  s : Sms
  irr : List Bool
  one : Bool
  small : List Nat
  big : List Nat

/-- The values that are written when the last copy of `y` leaves the stack, lcp_support_tree2.hpp:236-249 and 266-279; `r` tells if `y` is not reducible. -/
def LfSt.emit (t : LfSt) (y : Nat) (r : Bool) : LfSt :=
  if y > 253 then (if r then { t with small := t.small ++ [255], big := t.big ++ [y] } else { t with small := t.small ++ [254] }) else { t with small := t.small ++ [y] }

/-- The body of the `while` loop, lcp_support_tree2.hpp:233-252. -/
def lfPop (t : LfSt) : Option LfSt := do
  let r ← Bv.get t.irr (t.s.cnt - 1)
  let (s, b) ← t.s.pop
  let t' : LfSt := { t with s := s, one := t.one || r }
  pure (if b then { t'.emit t.s.getTop t'.one with one := false } else t')

/-- `while (!vec_stack.empty() and x < vec_stack.top())`, lcp_support_tree2.hpp:232-253. -/
def lfLoop (x : Nat) : Nat → LfSt → Option LfSt
  | 0, _ => none
  | f + 1, t =>
    if !t.s.empty && decide (x < t.s.getTop) then do
      let t ← lfPop t
      lfLoop x f t
    else some t

/-- The loop over the positions, lcp_support_tree2.hpp:228-261; the list holds the pairs of the LCP value and the BWT symbol, `i` is the position, `last` is `last_bwti`. `x % t_dens` is undefined for
    `t_dens = 0`. -/
def lfVals (dens : Nat) : List (Nat × Nat) → Nat → Nat → LfSt → Option LfSt
  | [], _, _, t => some t
  | (x, c) :: r, i, last, t => do
    let t ← lfLoop x (t.s.cnt + 1) { t with one := false }
    if x > 253 ∧ i ≠ 0 ∧ last = c ∧ dens = 0 then none else
    let irr ← Bv.set t.irr t.s.cnt (decide (x > 253 ∧ (i = 0 ∨ last ≠ c ∨ x % dens = 0)))
    let (s, _) ← t.s.push x
    lfVals dens r (i + 1) c { t with s := s, irr := irr }

/-- One step of the second loop, lcp_support_tree2.hpp:264-281: here only the mark of the copy that leaves the stack last is used. -/
def lfPop2 (t : LfSt) : Option LfSt := do
  let (s, b) ← t.s.pop
  if b then do
    let r ← Bv.get t.irr s.cnt
    pure ({ t with s := s }.emit t.s.getTop r)
  else pure { t with s := s }

/-- `while (!vec_stack.empty())`, lcp_support_tree2.hpp:263-282. -/
def lfEnd : Nat → LfSt → Option LfSt
  | 0, _ => none
  | f + 1, t => if t.s.empty then some t else do
    let t ← lfPop2 t
    lfEnd f t

/-- `construct_first_child_and_lf_lcp`, lcp_support_tree2.hpp:199-298: the small values and `big_lcp` (whose width is that of the largest value, so that the values are stored without loss). -/
def firstChildLf (dens : Nat) (lcp bwt : List Nat) : Option (List Nat × List Nat) := do
  let s ← Sms.new lcp.length
  let t ← lfVals dens (lcp.zip bwt) 0 0 ⟨s, List.replicate lcp.length false, false, [], []⟩
  let t ← lfEnd (t.s.cnt + 1) t
  pure (t.small, t.big)

/-- `_lcp_support_tree2(config, cst)`, lcp_support_tree2.hpp:83-103: the small values are in a `wt_huff<>` for bytes, the others in an `int_vector<>`. -/
def tree2New (dens : Nat) (lcp bwt : List Nat) : Option WtLcp := do
  let (small, big) ← firstChildLf dens lcp bwt
  let t ← Csa.newWt (.huff true) small
  let w ← hiW (big.foldl max 0)
  pure ⟨t, ⟨IntVec.clampWidth w, big.map (· % 2 ^ IntVec.clampWidth w)⟩⟩

/-- `operator[]`, lcp_support_tree2.hpp:148-165; `lf` is `m_cst->csa.lf[i]`. The fuel bounds the number of jumps to `start`. -/
def tree2Get (s : WtLcp) (cst : CstSct3.Cst) (lf : Nat → Option Nat) : Nat → Nat → Nat → Option Nat
  | 0, _, _ => none
  | f + 1, i, offset => do
    let idx ← cst.tlcpIdx i
    let v ← s.small.get idx
    if v < 254 then some v
    else if v = 254 then do
      let i ← lf i
      tree2Get s cst lf f i (offset + 1)
    else do
      let r ← s.small.rank idx 255
      let y ← s.big.get r
      pure ((y + (2 ^ 64 - offset % 2 ^ 64)) % 2 ^ 64)

end Sdsl.LcpRep
