/-
  Model of the generic wavelet-tree algorithms, include/sdsl/wt_algorithm.hpp, over the node interface of the wavelet trees, and of the node interface of
  `wt_int` (wt_int.hpp:719-925) and `wm_int` (wm_int.hpp:554-786).
-/
import Verif.WtInt
import Verif.WmInt
import Verif.WtRange

namespace Sdsl.Wt

open Bits

/-- The node interface: `root`, `is_leaf`, `sym`, `size(v)`, `expand(v)` (left and right child), `expand(v, r)` (the range in the left and the right child) and the bit vector of a
node. `depth` is the depth of the tree; the models only use it to bound loops. -/
structure Tree (N : Type) where
  root : N
  isLeaf : N → Bool
  sym : N → Word
  size : N → Nat
  expand : N → Option (N × N)
  expandRange : N → Range → Option (Range × Range)
  bit : N → Nat → Option Bool
  depth : Nat

/-- `expand(v, r)`, wt_int.hpp:897-914, wm_int.hpp:747-765, for the node whose bits start at `offset`. The sums `v.offset + r[1] + 1` are taken modulo `2^64` in the code; here
`r[1] + 1` wraps and the bit vector is shorter than `2^64`. -/
def expandRange (tree : List Bool) (offset : Nat) (r : Range) : Option (Range × Range) := do
  let vRank ← Bv.rank true tree offset
  let spRank ← Bv.rank true tree (offset + r.1)
  let epRank ← Bv.rank true tree (offset + Range.stop r)
  let rightSize := epRank - spRank
  let leftSize := Range.size r - rightSize
  let rightSp := spRank - vRank
  let leftSp := r.1 - rightSp
  pure (Range.mk leftSp leftSize, Range.mk rightSp rightSize)

/-- `node_type`, wt_int.hpp:719-756, wm_int.hpp:554-594. -/
structure INode where
  offset : Nat
  size : Nat
  level : Nat
  sym : Word
deriving DecidableEq, Repr

/-- `wt_int::expand(v)`, wt_int.hpp:809-836. -/
def WtInt.expand (t : WtInt) (v : INode) : Option (INode × INode) := do
  let offsetRank ← Bv.rank true t.tree v.offset
  let endRank ← Bv.rank true t.tree (v.offset + v.size)
  let ones := endRank - offsetRank
  pure (⟨v.offset + t.size, v.size - ones, v.level + 1, v.sym <<< 1⟩,
    ⟨v.offset + t.size + (v.size - ones), ones, v.level + 1, v.sym <<< 1 ||| 1#64⟩)

/-- Node interface of `wt_int`, wt_int.hpp:759-801. -/
def WtInt.nav (t : WtInt) : Tree INode where
  root := ⟨0, t.size, 0, 0#64⟩
  isLeaf v := v.level == t.maxLevel
  sym v := v.sym
  size v := v.size
  expand := t.expand
  expandRange v r := expandRange t.tree v.offset r
  bit v i := Bv.get t.tree (v.offset + i)
  depth := t.maxLevel

/-- `wm_int::expand(v)`, wm_int.hpp:654-684. -/
def WmInt.expand (t : WmInt) (v : INode) : Option (INode × INode) := do
  let rb ← Bv.rank true t.tree v.offset
  let re ← Bv.rank true t.tree (v.offset + v.size)
  let ones := re - rb
  let rl ← t.rankLevel[v.level]?
  let onesP := rb - rl
  let z ← t.zeroCnt[v.level]?
  pure (⟨(v.level + 1) * t.size + (v.offset - v.level * t.size) - onesP, v.size - ones, v.level + 1, v.sym <<< 1⟩,
    ⟨(v.level + 1) * t.size + z + onesP, ones, v.level + 1, v.sym <<< 1 ||| 1#64⟩)

/-- Node interface of `wm_int`, wm_int.hpp:598-646. -/
def WmInt.nav (t : WmInt) : Tree INode where
  root := ⟨0, t.size, 0, 0#64⟩
  isLeaf v := v.level == t.maxLevel
  sym v := v.sym
  size v := v.size
  expand := t.expand
  expandRange v r := expandRange t.tree v.offset r
  bit v i := Bv.get t.tree (v.offset + i)
  depth := t.maxLevel

namespace Tree

variable {N : Type}

/-! ### intersect -/

/-- `expand(v, ranges)`: every range on its own, wt_int.hpp:849-885, wm_int.hpp:697-735. -/
def expandAll (T : Tree N) (v : N) : List Range → Option (List Range × List Range)
  | [] => some ([], [])
  | r :: rs => do
    let c ← T.expandRange v r
    let cs ← T.expandAll v rs
    pure (c.1 :: cs.1, c.2 :: cs.2)

/-- `push_node`, wt_algorithm.hpp:47-55: the node is pushed with its non-empty ranges if there are at least `t` of them. `child_range.begin() + t` is undefined when it lies
beyond the end. -/
def pushNode (t : Nat) (stack : List (N × List Range)) (v : N) (rs : List Range) : Option (List (N × List Range)) :=
  if rs.length < t then none
  else
    let ne := rs.filter (fun r => !Range.empty r)
    if t ≤ ne.length then some ((v, ne) :: stack) else some stack

/-- The accumulated frequency, wt_algorithm.hpp:71-74. -/
def freq (rs : List Range) : Nat := rs.foldl (fun acc r => (acc + Range.size r) % 2 ^ 64) 0

/-- The `while` loop of `intersect`, wt_algorithm.hpp:65-84. -/
def intersectLoop (T : Tree N) (t : Nat) : Nat → List (N × List Range) → List (Word × Nat) → Option (List (Word × Nat))
  | 0, _, _ => none
  | _ + 1, [], res => some res
  | fuel + 1, (v, iv) :: stack, res =>
    if T.isLeaf v then intersectLoop T t fuel stack (if t ≤ iv.length then res ++ [(T.sym v, freq iv)] else res)
    else do
      let child ← T.expand v
      let rs ← T.expandAll v iv
      let stack ← pushNode t stack child.2 rs.2
      let stack ← pushNode t stack child.1 rs.1
      intersectLoop T t fuel stack res

/-- `intersect(wt, ranges, t)`, wt_algorithm.hpp:30-86. The tree has less than `2^(depth+1)` nodes. -/
def intersect (T : Tree N) (ranges : List Range) (t : Nat) : Option (List (Word × Nat)) :=
  if ranges.length = 0 then some []
  else intersectLoop T (if t = 0 then ranges.length else t) (2 ^ (T.depth + 1)) [(T.root, ranges)] []

/-! ### quantile_freq -/

/-- The `while` loop of `quantile_freq`, wt_algorithm.hpp:110-123. -/
def quantileLoop (T : Tree N) : Nat → N → Range → Nat → Option (Word × Nat)
  | 0, _, _, _ => none
  | fuel + 1, v, r, q =>
    if T.isLeaf v then some (T.sym v, Range.size r)
    else do
      let child ← T.expand v
      let rs ← T.expandRange v r
      let zeros := Range.size rs.1
      if q ≥ zeros then quantileLoop T fuel child.2 rs.2 (q - zeros) else quantileLoop T fuel child.1 rs.1 q

/-- `quantile_freq(wt, lb, rb, q)`, wt_algorithm.hpp:95-125. -/
def quantileFreq (T : Tree N) (lb rb q : Nat) : Option (Word × Nat) := quantileLoop T (T.depth + 1) T.root (lb, rb) q

/-! ### interval_symbols -/

/-- `_interval_symbols_rec`, wt_algorithm.hpp:128-154; returns the entries (`cs[k]`, `rank_c_i[k]`, `rank_c_j[k]`) that it appends. -/
def intervalRec (T : Tree N) : Nat → Range → N → Option (List (Word × Nat × Nat))
  | 0, _, _ => none
  | fuel + 1, r, v =>
    if T.isLeaf v then some [(T.sym v, r.1, Range.stop r)]
    else do
      let child ← T.expand v
      let rs ← T.expandRange v r
      Option.bind (if Range.empty rs.1 then some [] else intervalRec T fuel rs.1 child.1) fun l =>
      Option.bind (if Range.empty rs.2 then some [] else intervalRec T fuel rs.2 child.2) fun l2 =>
      pure (l ++ l2)

/-- `_interval_symbols`, wt_algorithm.hpp:156-179; `inv` is `inverse_select` of the tree. The result vectors are large enough (precondition). -/
def intervalSymbols (T : Tree N) (inv : Nat → Option (Nat × Word)) (i j : Nat) : Option (List (Word × Nat × Nat)) :=
  if i + 1 = j then do
    let r ← inv i
    pure [(r.2, r.1, r.1 + 1)]
  else if j > i then intervalRec T (T.depth + 1) (i, j - 1) T.root
  else some []

/-! ### seq -/

/-- `seq(v)[i]`, wt_int.hpp:774-787, wm_int.hpp:615-629. -/
def seq (T : Tree N) : Nat → N → Nat → Option Word
  | 0, _, _ => none
  | fuel + 1, v, i =>
    if T.isLeaf v then some (T.sym v)
    else do
      let child ← T.expand v
      let rs ← T.expandRange v (0, i)
      let b ← T.bit v i
      if b then seq T fuel child.2 rs.2.2 else seq T fuel child.1 rs.1.2

/-! ### symbol_lte, symbol_gte -/

/-- `1ULL << (wt.max_level - 1)`: undefined for `max_level = 0`. -/
def topMask (L : Nat) : Option Word := if L = 0 then none else shl 1#64 (L - 1)

/-- The loop of `_symbol_lte`, wt_algorithm.hpp:335-363. -/
def lteLoop (T : Tree INode) (mask : Word) : Nat → INode → INode → Word → Option (Bool × Word)
  | 0, _, _, _ => none
  | fuel + 1, v, pred, c =>
    if T.isLeaf v then some (true, v.sym)
    else do
      let child ← T.expand v
      let m ← shr mask v.level
      if c &&& m ≠ 0#64 then
        if child.2.size ≠ 0 then lteLoop T mask fuel child.2 (if child.1.size ≠ 0 then child.1 else pred) c
        else lteLoop T mask fuel child.1 pred allSet
      else if child.1.size ≠ 0 then lteLoop T mask fuel child.1 pred c
      else if pred.offset = T.root.offset then some (false, 0#64)
      else lteLoop T mask fuel pred pred allSet

/-- `_symbol_lte(wt, c)`, wt_algorithm.hpp:324-365. A path is followed, and then at most one other path. -/
def symbolLte (T : Tree INode) (L : Nat) (c : Word) : Option (Bool × Word) := do
  let lim ← shl 1#64 L
  let top ← loSet L
  let mask ← topMask L
  lteLoop T mask (2 * T.depth + 2) T.root T.root (if lim ≤ c then top else c)

/-- The loop of `_symbol_gte`, wt_algorithm.hpp:385-413. -/
def gteLoop (T : Tree INode) (mask : Word) : Nat → INode → INode → Word → Option (Bool × Word)
  | 0, _, _, _ => none
  | fuel + 1, v, succ, c =>
    if T.isLeaf v then some (true, v.sym)
    else do
      let child ← T.expand v
      let m ← shr mask v.level
      if c &&& m ≠ 0#64 then
        if child.2.size ≠ 0 then gteLoop T mask fuel child.2 succ c
        else if succ.offset = T.root.offset then some (false, 0#64)
        else gteLoop T mask fuel succ succ 0#64
      else if child.1.size ≠ 0 then gteLoop T mask fuel child.1 (if child.2.size ≠ 0 then child.2 else succ) c
      else gteLoop T mask fuel child.2 succ 0#64

/-- `_symbol_gte(wt, c)`, wt_algorithm.hpp:374-415. -/
def symbolGte (T : Tree INode) (L : Nat) (c : Word) : Option (Bool × Word) := do
  let lim ← shl 1#64 L
  if lim ≤ c then pure (false, 0#64)
  else do
    let mask ← topMask L
    gteLoop T mask (2 * T.depth + 2) T.root T.root c

/-! ### restricted_unique_range_values -/

/-- `bound_path_val` aligned to the length of the node path, wt_algorithm.hpp:540-544. -/
def alignPath (len : Nat) (bound : Nat × Word) : Option Word :=
  if bound.1 > len then shr bound.2 (bound.1 - len) else if bound.1 < len then shl bound.2 (len - bound.1) else some bound.2

/-- The `while` loop, wt_algorithm.hpp:554-580. A stack entry holds the node, its range, its path and its level. -/
def uniqueLoop (T : Tree N) (lo hi : Nat × Word) : Nat → List (N × Range × Word × Nat) → List Word → Option (List Word)
  | 0, _, _ => none
  | _ + 1, [], res => some res
  | fuel + 1, (v, r, path, level) :: stack, res =>
    if T.isLeaf v then uniqueLoop T lo hi fuel stack (res ++ [T.sym v])
    else do
      let child ← T.expand v
      let left := path <<< 1
      let right := path <<< 1 ||| 1#64
      let rs ← T.expandRange v r
      let h ← alignPath (level + 1) hi
      let stack := if right ≤ h ∧ Range.empty rs.2 = false then (child.2, rs.2, right, level + 1) :: stack else stack
      let l ← alignPath (level + 1) lo
      let stack := if l ≤ left ∧ Range.empty rs.1 = false then (child.1, rs.1, left, level + 1) :: stack else stack
      uniqueLoop T lo hi fuel stack res

/-- `restricted_unique_range_values(wt, x_i, x_j, y_i, y_j)`, wt_algorithm.hpp:508-583, for a tree of `n` symbols with `symbol_gte`, `symbol_lte` and `path` as given. -/
def restrictedUnique (T : Tree N) (n : Nat) (gte lte : Word → Option (Bool × Word)) (path : Word → Nat × Word) (xi xj : Nat) (yi yj : Word) : Option (List Word) := do
  let last := (n + (2 ^ 64 - 1)) % 2 ^ 64
  let xj := if xj > last then last else xj
  if xi > xj ∨ yi > yj then pure []
  else do
    let lower ← gte yi
    let upper ← lte yj
    if lower.1 = false ∨ upper.1 = false ∨ lower.2 > upper.2 then pure []
    else uniqueLoop T (path lower.2) (path upper.2) (2 ^ (T.depth + 1)) [(T.root, (xi, xj), 0#64, 0)] []

end Tree

namespace WmInt

/-! ### range_search_2d -/

/-- The loop that maps a position of a leaf to the sequence, wm_int.hpp:473-482; `path` holds `is[k-1]` and `rank_off[k-1]` of the current path, the deepest first. -/
def rangeUp (t : WmInt) : List (Nat × Nat) → Nat → Nat → Option Nat
  | [], _, i => some i
  | (offset, ro) :: path, c, i =>
    if c % 2 = 1 then do
      let p ← Bv.select true t.tree (ro + i)
      rangeUp t path (c / 2) (p - offset + 1)
    else do
      let p ← Bv.select false t.tree (offset - ro + i)
      rangeUp t path (c / 2) (p - offset + 1)

/-- `for (size_type j=1; j <= sdsl::size(r); ++j)`, wm_int.hpp:470-484; `cnt` iterations remain, `is0` is `is[0]`. -/
def rangeLeaf (t : WmInt) (path : List (Nat × Nat)) (is0 sym : Nat) : Nat → Nat → Option (List (Nat × Nat))
  | 0, _ => some []
  | cnt + 1, j => do
    let i ← rangeUp t path sym j
    let r ← rangeLeaf t path is0 sym cnt (j + 1)
    pure ((is0 + i - 1, sym) :: r)

/-- `_range_search_2d`, wm_int.hpp:457-506; `fuel` bounds the depth of the recursion. The vectors `is` and `rank_off`, of which the recursion overwrites the entries below the
current level, are represented by the entries of the current path. Returns the reported points (index, symbol) and the count of the subtree. -/
def rangeLoop (t : WmInt) (report : Bool) (is0 : Nat) : Nat → INode → Range → Nat → Nat → Nat → List (Nat × Nat) → Option (List (Nat × Nat) × Nat)
  | 0, _, _, _, _, _, _ => none
  | fuel + 1, v, r, vlb, vrb, ilb, path =>
    if r.1 > r.2 then some ([], 0)
    else if v.level = t.maxLevel then
      Option.bind (if report then rangeLeaf t path is0 v.sym.toNat (Range.size r) 1 else some []) fun pts => some (pts, Range.size r)
    else do
      let ro ← Bv.rank true t.tree (v.offset + r.1)
      let irb := ilb + 2 ^ (t.maxLevel - v.level)
      let mid := (irb + ilb) / 2
      let cv ← t.expand v
      let cr ← expandRange t.tree v.offset r
      Option.bind (if Range.empty cr.1 = false ∧ vlb < mid ∧ mid ≠ 0 then
          rangeLoop t report is0 fuel cv.1 cr.1 vlb (min vrb (mid - 1)) ilb ((v.offset + r.1, ro) :: path)
        else some ([], 0)) fun a =>
      Option.bind (if Range.empty cr.2 = false ∧ vrb ≥ mid then
          rangeLoop t report is0 fuel cv.2 cr.2 (max mid vlb) vrb mid ((v.offset + r.1, ro) :: path)
        else some ([], 0)) fun b =>
      some (a.1 ++ b.1, a.2 + b.2)

/-- `range_search_2d(lb, rb, vlb, vrb, report)`, wm_int.hpp:437-455: the points (index, symbol) and their number. -/
def rangeSearch2d (t : WmInt) (lb rb : Nat) (vlb vrb : Word) (report : Bool) : Option (List (Nat × Nat) × Nat) := do
  let lim ← shl 1#64 t.maxLevel
  let vrb := if vrb > lim then lim else vrb
  if vlb > vrb then pure ([], 0)
  else if lb ≤ rb then rangeLoop t report lb (t.maxLevel + 1) t.nav.root (lb, rb) vlb.toNat vrb.toNat 0 []
  else pure ([], 0)

end WmInt

end Sdsl.Wt
