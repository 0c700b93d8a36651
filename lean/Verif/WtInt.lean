/-
  Model of `wt_int`: include/sdsl/wt_int.hpp.

  The template parameters (bit vector, rank and select supports) are used by their contracts (`Bv`, justified by Props/BvBridge).
  The bits of the tree, which the constructor writes word by word to a temporary file and reads back as a `bit_vector` (C14), are an appended list of bits; the temporary
  `int_vector_buffer` `buf1` is an appended list of values.
-/
import Verif.Arr
import Verif.Bits
import Verif.Bv

namespace Sdsl.Wt

open Bits

/-- `wt_int`, wt_int.hpp:83-89. -/
structure WtInt where
  size : Nat
  sigma : Nat
  tree : List Bool
  maxLevel : Nat
deriving DecidableEq, Repr

namespace WtInt

/-! ### Construction -/

/-- State of the construction: `rac`, the bits written so far, `m_sigma`. -/
structure CS where
  rac : List Word
  bits : List Bool
  sigma : Nat
deriving DecidableEq, Repr

/-- The `while` loop over one node, wt_int.hpp:207-220; returns `rac`, the bits, `cnt0` and the contents of `buf1`. -/
def scan (mo mn sv : Word) (start : Nat) : Nat → Nat → Nat → List Word → List Word → List Bool → Option (List Word × List Bool × Nat × List Word)
  | 0, i, cnt0, rac, ones, bits => if i < rac.length then none else some (rac, bits, cnt0, ones)
  | fuel + 1, i, cnt0, rac, ones, bits =>
    if i < rac.length then do
      let x ← rac[i]?
      if x &&& mo = sv then
        if x &&& mn ≠ 0#64 then scan mo mn sv start fuel (i + 1) cnt0 rac (ones ++ [x]) (bits ++ [true])
        else do
          let rac ← setList rac (start + cnt0) x
          scan mo mn sv start fuel (i + 1) (cnt0 + 1) rac ones (bits ++ [false])
      else some (rac, bits, cnt0, ones)
    else some (rac, bits, cnt0, ones)

/-- `for (size_type j=0; j<cnt1; ++j) rac[start+cnt0+j] = buf1[j];`, wt_int.hpp:222-224. -/
def writeBack : List Word → Nat → List Word → Option (List Word)
  | [], _, rac => some rac
  | x :: ones, p, rac => do writeBack ones (p + 1) (← setList rac p x)

/-- The ones of an inner node go behind its zeros; a leaf node leaves `rac` as it is, wt_int.hpp:221-227. -/
def finish (last : Bool) (ones : List Word) (p : Nat) (rac : List Word) : Option (List Word) :=
  if last then some rac else writeBack ones p rac

/-- The `do … while (start < m_size)` loop over the nodes of one level, wt_int.hpp:201-229. `last` means `k+1 == m_max_level`; `fuel` bounds the number of nodes. -/
def level (mo mn : Word) (last : Bool) : Nat → Nat → CS → Option CS
  | 0, _, _ => none
  | fuel + 1, start, s => do
    let x ← s.rac[start]?
    let r ← scan mo mn (x &&& mo) start s.rac.length start 0 s.rac [] s.bits
    let cnt0 := r.2.2.1
    let ones := r.2.2.2
    let rac ← finish last ones (start + cnt0) r.1
    let sigma := if last then s.sigma + (decide (cnt0 > 0)).toNat + (decide (ones.length > 0)).toNat else s.sigma
    let s' : CS := ⟨rac, r.2.1, sigma⟩
    if start + (cnt0 + ones.length) < s.rac.length then level mo mn last fuel (start + (cnt0 + ones.length)) s'
    else some s'

/-- The loop over the levels, wt_int.hpp:198-231; `c` levels remain. -/
def levels : Nat → Word → CS → Option CS
  | 0, _, s => some s
  | c + 1, mo, s => do
    let mn ← shl 1#64 c
    let s ← level mo mn (c == 0) s.rac.length 0 s
    levels c (mo + mn) s

/-- The biggest value (at least 1), wt_int.hpp:169-174. -/
def maxVal (xs : List Word) : Word := xs.foldl (fun m x => if x > m then x else m) 1#64

/-- Constructor, wt_int.hpp:157-244, for the first `size` values `xs` of the buffer. `maxLevel = 0` means automatic. -/
def new (maxLevel : Nat) (xs : List Word) : Option WtInt :=
  if xs.length = 0 then some ⟨0, 0, [], 0⟩
  else do
    let L ← if maxLevel = 0 then do pure ((← hi (maxVal xs)) + 1) else some maxLevel
    let mo ← shl 1#64 L
    let s ← levels L mo ⟨xs, [], 0⟩
    pure ⟨xs.length, s.sigma, s.bits, L⟩

/-! ### Queries -/

/-- The loop of `operator[]`, wt_int.hpp:321-339, and of `inverse_select`, wt_int.hpp:393-412; `c` levels remain. Returns the final `i` and the symbol. -/
def down (t : WtInt) : Nat → Nat → Nat → Nat → Word → Option (Nat × Word)
  | 0, _, _, i, res => some (i, res)
  | c + 1, offset, ns, i, res => do
    let ro ← Bv.rank true t.tree offset
    let ri ← Bv.rank true t.tree (offset + i)
    let re ← Bv.rank true t.tree (offset + ns)
    if ← Bv.get t.tree (offset + i) then
      down t c (offset + (ns - (re - ro)) + t.size) (re - ro) (ri - ro) (res <<< 1 ||| 1#64)
    else down t c (offset + t.size) (ns - (re - ro)) (i - (ri - ro)) (res <<< 1)

/-- `inverse_select(i)`, wt_int.hpp:389-414. -/
def inverseSelect (t : WtInt) (i : Nat) : Option (Nat × Word) := down t t.maxLevel 0 t.size i 0#64

/-- `operator[](i)`, wt_int.hpp:315-341. -/
def get (t : WtInt) (i : Nat) : Option Word := do pure (← down t t.maxLevel 0 t.size i 0#64).2

/-- The loop of `rank`, wt_int.hpp:361-376; the loop also ends when `i` becomes 0. -/
def rankLoop (t : WtInt) (c : Word) : Nat → Nat → Nat → Nat → Word → Option Nat
  | 0, _, _, i, _ => some i
  | k + 1, offset, ns, i, mask =>
    if i = 0 then some 0
    else do
      let ro ← Bv.rank true t.tree offset
      let ri ← Bv.rank true t.tree (offset + i)
      let re ← Bv.rank true t.tree (offset + ns)
      if c &&& mask ≠ 0#64 then rankLoop t c k (offset + (ns - (re - ro)) + t.size) (re - ro) (ri - ro) (mask >>> 1)
      else rankLoop t c k (offset + t.size) (ns - (re - ro)) (i - (ri - ro)) (mask >>> 1)

/-- `1ULL << (m_max_level-1)`: the shift is undefined for `m_max_level = 0`, where the amount is `2^32-1`. -/
def topMask (t : WtInt) : Option Word := if t.maxLevel = 0 then none else shl 1#64 (t.maxLevel - 1)

/-- `rank(i, c)`, wt_int.hpp:353-378. -/
def rank (t : WtInt) (i : Nat) (c : Word) : Option Nat := do
  if (← shl 1#64 t.maxLevel) ≤ c then pure 0
  else do
    let mask ← topMask t
    rankLoop t c t.maxLevel 0 t.size i mask

/-- The first loop of `select`, wt_int.hpp:435-449; returns `node_size` and the pairs (`m_path_off[k]`, `m_path_rank_off[k]`) of the visited levels, the deepest first. -/
def selDown (t : WtInt) (c : Word) : Nat → Nat → Nat → Word → List (Nat × Nat) → Option (Nat × List (Nat × Nat))
  | 0, _, ns, _, path => some (ns, path)
  | k + 1, offset, ns, mask, path =>
    if ns = 0 then some (0, path)
    else do
      let ro ← Bv.rank true t.tree offset
      let re ← Bv.rank true t.tree (offset + ns)
      if c &&& mask ≠ 0#64 then selDown t c k (offset + (ns - (re - ro)) + t.size) (re - ro) (mask >>> 1) ((offset, ro) :: path)
      else selDown t c k (offset + t.size) (ns - (re - ro)) (mask >>> 1) ((offset, ro) :: path)

/-- The second loop of `select`, wt_int.hpp:454-464. -/
def selUp (t : WtInt) (c : Word) : List (Nat × Nat) → Word → Nat → Option Nat
  | [], _, i => some i
  | (offset, ro) :: path, mask, i => do
    if c &&& mask ≠ 0#64 then do
      let p ← Bv.select true t.tree (ro + i)
      selUp t c path (mask <<< 1) (p - offset + 1)
    else do
      let p ← Bv.select false t.tree (offset - ro + i)
      selUp t c path (mask <<< 1) (p - offset + 1)

/-- `select(i, c)`, wt_int.hpp:425-466. -/
def select (t : WtInt) (i : Nat) (c : Word) : Option (Except String Nat) := do
  let mask ← topMask t
  let r ← selDown t c t.maxLevel 0 t.size mask []
  if r.1 = 0 ∨ r.1 < i then pure (.error "c does not occur i times in the WT")
  else do
    let i ← selUp t c r.2 1#64 i
    pure (.ok (i - 1))

/-- The loop of `lex_count`, wt_int.hpp:526-547. `smaller += j - i - ones_before_j + ones_before_i` is computed modulo `2^64`; here the additions come first, so that no
intermediate value is negative. -/
def lexLoop (t : WtInt) (c : Word) : Nat → Nat → Nat → Nat → Nat → Nat → Nat → Word → Option (Nat × Nat × Nat)
  | 0, _, _, i, _, sm, gr, _ => some (i, sm, gr)
  | k + 1, offset, ns, i, j, sm, gr, mask => do
    let ro ← Bv.rank true t.tree offset
    let ri ← Bv.rank true t.tree (offset + i)
    let rj ← Bv.rank true t.tree (offset + j)
    let re ← Bv.rank true t.tree (offset + ns)
    let obi := ri - ro
    let obj := rj - ro
    let obe := re - ro
    if c &&& mask ≠ 0#64 then lexLoop t c k (offset + (ns - obe) + t.size) obe obi obj (sm + (j - i + obi - obj)) gr (mask >>> 1)
    else lexLoop t c k (offset + t.size) (ns - obe) (i - obi) (j - obj) sm (gr + (obj - obi)) (mask >>> 1)

/-- `lex_count(i, j, c)`, wt_int.hpp:517-549: `rank(i,c)`, number of smaller and of greater symbols in `[i..j-1]`. -/
def lexCount (t : WtInt) (i j : Nat) (c : Word) : Option (Nat × Nat × Nat) := do
  if (← shl 1#64 t.maxLevel) ≤ c then pure (0, j - i, 0)
  else do
    let mask ← topMask t
    lexLoop t c t.maxLevel 0 t.size i j 0 0 mask

/-- The loop of `lex_smaller_count`, wt_int.hpp:571-588. -/
def lexSmallerLoop (t : WtInt) (c : Word) : Nat → Nat → Nat → Nat → Nat → Word → Option (Nat × Nat)
  | 0, _, _, i, res, _ => some (i, res)
  | k + 1, offset, ns, i, res, mask =>
    if i = 0 then some (0, res)
    else do
      let ro ← Bv.rank true t.tree offset
      let ri ← Bv.rank true t.tree (offset + i)
      let re ← Bv.rank true t.tree (offset + ns)
      if c &&& mask ≠ 0#64 then lexSmallerLoop t c k (offset + (ns - (re - ro)) + t.size) (re - ro) (ri - ro) (res + (i - (ri - ro))) (mask >>> 1)
      else lexSmallerLoop t c k (offset + t.size) (ns - (re - ro)) (i - (ri - ro)) res (mask >>> 1)

/-- `lex_smaller_count(i, c)`, wt_int.hpp:561-590. -/
def lexSmallerCount (t : WtInt) (i : Nat) (c : Word) : Option (Nat × Nat) := do
  if (← shl 1#64 t.maxLevel) ≤ c then pure (0, i)
  else do
    let mask ← topMask t
    lexSmallerLoop t c t.maxLevel 0 t.size i 0 mask

/-- `_interval_symbols`, wt_int.hpp:107-147; `k` levels remain; the filled parts of `cs`, `rank_c_i`, `rank_c_j` are an appended list of triples. -/
def intervalLoop (t : WtInt) : Nat → Nat → Nat → Nat → Nat → Word → List (Word × Nat × Nat) → Option (List (Word × Nat × Nat))
  | 0, i, j, _, _, path, out => some (out ++ [(path, i, j)])
  | k + 1, i, j, ns, offset, path, out => do
    let ro ← Bv.rank true t.tree offset
    let ri ← Bv.rank true t.tree (offset + i)
    let rj ← Bv.rank true t.tree (offset + j)
    let re ← Bv.rank true t.tree (offset + ns)
    let obi := ri - ro
    let obj := rj - ro
    let obe := re - ro
    Option.bind (if (j - i) - (obj - obi) > 0 then intervalLoop t k (i - obi) (j - obj) (ns - obe) (offset + t.size) (path <<< 1) out else some out) fun out =>
    if obj - obi > 0 then intervalLoop t k obi obj obe (offset + (ns - obe) + t.size) (path <<< 1 ||| 1#64) out else some out

/-- `interval_symbols(i, j, …)`, wt_int.hpp:493-513. -/
def intervalSymbols (t : WtInt) (i j : Nat) : Option (List (Word × Nat × Nat)) :=
  if i = j then some []
  else if i + 1 = j then do
    let r ← inverseSelect t i
    pure [(r.2, r.1, r.1 + 1)]
  else intervalLoop t t.maxLevel i j t.size 0 0#64 []

/-- The loop that maps a position of a leaf to the sequence, wt_int.hpp:630-639. `path` holds `offsets[k-1]` and `ones_before_os[k-1]` of the current path, the deepest first. -/
def rangeUp (t : WtInt) : List (Nat × Nat) → Nat → Nat → Option Nat
  | [], _, i => some i
  | (offset, ro) :: path, c, i =>
    if c % 2 = 1 then do
      let p ← Bv.select true t.tree (ro + i)
      rangeUp t path (c / 2) (p - offset + 1)
    else do
      let p ← Bv.select false t.tree (offset - ro + i)
      rangeUp t path (c / 2) (p - offset + 1)

/-- `for (size_type j=lb+1; j <= rb+1; ++j)`, wt_int.hpp:627-641; `cnt` iterations remain. -/
def rangeLeaf (t : WtInt) (path : List (Nat × Nat)) (sym : Nat) : Nat → Nat → Option (List (Nat × Nat))
  | 0, _ => some []
  | cnt + 1, j => do
    let i ← rangeUp t path sym j
    let r ← rangeLeaf t path sym cnt (j + 1)
    pure ((i - 1, sym) :: r)

/-- `_range_search_2d`, wt_int.hpp:616-678; `c` levels remain. The vectors `offsets` and `ones_before_os`, of which the recursion overwrites the entries below the current
level, are represented by the entries of the current path (`path`) and the parameter `offset` (`offsets[level]`). Returns the reported points and the count of the subtree. -/
def rangeLoop (t : WtInt) (report : Bool) : Nat → Nat → Nat → Nat → Nat → Nat → Nat → Nat → Nat → List (Nat × Nat) → Option (List (Nat × Nat) × Nat)
  | 0, lb, rb, _, _, _, _, _, sym, path =>
    if lb > rb then some ([], 0)
    else do
      Option.bind (if report then rangeLeaf t path sym (rb + 1 - lb) (lb + 1) else some []) fun pts => pure (pts, rb - lb + 1)
  | c + 1, lb, rb, vlb, vrb, ilb, ns, offset, sym, path =>
    if lb > rb then some ([], 0)
    else do
      let irb := ilb + 2 ^ (c + 1)
      let mid := (irb + ilb) / 2
      let ro ← Bv.rank true t.tree offset
      let rl ← Bv.rank true t.tree (offset + lb)
      let rr ← Bv.rank true t.tree (offset + rb + 1)
      let re ← Bv.rank true t.tree (offset + ns)
      let zo := offset - ro
      let zl := offset + lb - rl
      let zr := offset + rb + 1 - rr
      let ze := offset + ns - re
      Option.bind (if vlb < mid ∧ mid ≠ 0 ∧ zr - zo ≠ 0 then
          rangeLoop t report c (zl - zo) (zr - zo - 1) vlb (min vrb (mid - 1)) ilb (ze - zo) (offset + t.size) (2 * sym) ((offset, ro) :: path)
        else some ([], 0)) fun l =>
      Option.bind (if vrb ≥ mid ∧ rr - ro ≠ 0 then
          rangeLoop t report c (rl - ro) (rr - ro - 1) (max mid vlb) vrb mid (re - ro) (offset + t.size + (ze - zo)) (2 * sym + 1) ((offset, ro) :: path)
        else some ([], 0)) fun r =>
      pure (l.1 ++ r.1, l.2 + r.2)

/-- `range_search_2d(lb, rb, vlb, vrb, report)`, wt_int.hpp:601-614: number of points and the points (index, symbol). -/
def rangeSearch2d (t : WtInt) (lb rb : Nat) (vlb vrb : Word) (report : Bool) : Option (List (Nat × Nat) × Nat) := do
  let lim ← shl 1#64 t.maxLevel
  let vrb := if vrb > lim then lim else vrb
  if vlb > vrb then pure ([], 0)
  else rangeLoop t report t.maxLevel lb rb vlb.toNat vrb.toNat 0 t.size 0 0 []

end WtInt

end Sdsl.Wt
