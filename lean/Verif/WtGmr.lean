/-
  The wavelet trees of Golynski, Munro and Rao, wt_gmr.hpp: `inv_multi_perm_support` (inverses of the permutations of the chunks), `wt_gmr_rs` (fast rank and select) and `wt_gmr` (fast access too).
  The text is the list of the first `size` symbols of the buffer. Bit vectors with their select supports are `Bv`; `int_vector`s are `Arr`, also the random access container `t_rac` of the positions
  (`_transform_to_compressed` copies the numbers). Pointers into the container are indices; copying, swapping and serialising are not modelled.
-/
import Verif.InvPerm
import Verif.LcpRep
import Verif.Csa

namespace Sdsl.Csa.Gmr

open _root_.Sdsl.Csa Bits

/-! ### inv_multi_perm_support -/

/-- The loop along one cycle, wt_gmr.hpp:92-102 and 126-135, as in `InvPerm.walk`; the elements of the chunk at `off` are stored relative to `off`, and so are the back pointers. -/
def walk {σ : Type} (v : List Nat) (ts i off : Nat) (mark : σ → Nat → Nat → Option σ) :
    Nat → Nat → Nat → Nat → Nat → List Bool → σ → Option (List Bool × σ × Nat × Nat)
  | fuel, j, bp, steps, all, done, s => do
    let x ← v[j]?
    let jn := x + off
    if jn = i then some (done, s, bp, all)
    else match fuel with
      | 0 => none
      | fuel + 1 => do
        let done ← setList done (jn - off) true
        if ts = steps + 1 then do
          let s ← mark s jn (bp - off)
          walk v ts i off mark fuel jn jn 0 (all + 1) done s
        else walk v ts i off mark fuel jn bp (steps + 1) (all + 1) done s
termination_by fuel => fuel

/-- `if (!done[i-off]) { … }`, wt_gmr.hpp:88-107 and 122-139. -/
def cycle {σ : Type} (v : List Nat) (ts : Nat) (mark : σ → Nat → Nat → Option σ) (i off : Nat) (done : List Bool) (s : σ) : Option (List Bool × σ) := do
  let d ← done[i - off]?
  if d then some (done, s)
  else do
    let done ← setList done (i - off) true
    let r ← walk v ts i off mark v.length i i 0 0 done s
    if r.2.2.2 > ts then do
      let s ← mark r.2.1 i (r.2.2.1 - off)
      pure (r.1, s)
    else pure (r.1, r.2.1)

/-- The outer loop for `i, i+1, …`, wt_gmr.hpp:83-108 and 117-140; `k` iterations remain. At the beginning of a chunk `done` is cleared. -/
def pass {σ : Type} (v : List Nat) (ts cs : Nat) (mark : σ → Nat → Nat → Option σ) : Nat → Nat → Nat → List Bool → σ → Option (List Bool × σ)
  | 0, _, _, done, s => some (done, s)
  | k + 1, i, off, done, s =>
    let st := if i = off + cs then (i, List.replicate cs false) else (off, done)
    do
      let r ← cycle v ts mark i st.1 st.2 s
      pass v ts cs mark k (i + 1) st.1 r.1 r.2

/-- `inv_multi_perm_support`, wt_gmr.hpp:66-70. -/
structure Imp where
  v : List Nat
  cs : Nat
  back : Arr
  marked : List Bool
deriving DecidableEq

/-- Constructor, wt_gmr.hpp:78-141. -/
def Imp.new (ts : Nat) (v : List Nat) (cs : Nat) : Option Imp := do
  let zero := List.replicate cs false
  let r ← pass v ts cs InvPerm.mark1 v.length 0 0 zero (List.replicate v.length false, 0)
  let marked := r.2.1
  let h ← hi (BitVec.ofNat 64 r.2.2)
  let back := Arr.new (InvPerm.rank marked v.length) 0 (h + 1)
  let q ← pass v ts cs (InvPerm.mark2 marked) v.length 0 0 zero back
  pure ⟨v, cs, q.2, marked⟩

/-- The inner loop of `operator[]`, wt_gmr.hpp:220; every assignment to `j` uses one unit of `fuel`. -/
def follow (v : List Nat) (i off : Nat) : Nat → Nat → Option Nat
  | fuel, j => do
    let x ← v[j]?
    if x + off = i then some j
    else match fuel with
      | 0 => none
      | fuel + 1 => follow v i off fuel (x + off)
termination_by fuel => fuel

/-- The outer loop of `operator[]`, wt_gmr.hpp:217-225. -/
def search (p : Imp) (i off : Nat) : Nat → Nat → Option Nat
  | fuel, j => do
    let x ← p.v[j]?
    if x + off = i then some j
    else match fuel with
      | 0 => none
      | fuel + 1 => do
        let m ← p.marked[j]?
        if m then do
          let b ← p.back.get (InvPerm.rank p.marked j)
          follow p.v i off fuel (b + off)
        else search p i off fuel (x + off)
termination_by fuel => fuel

/-- `operator[](i)`, wt_gmr.hpp:213-227, with at most `fuel` assignments to `j`. -/
def Imp.get (p : Imp) (fuel i : Nat) : Option Nat := if p.cs = 0 then none else search p i (i / p.cs * p.cs) fuel i

/-! ### The common parts of the constructors -/

/-- `if (m < input[i]) m = input[i];`, wt_gmr.hpp:344-346 and 685-687. -/
def maxLoop : List Nat → Nat → Nat
  | [], m => m
  | c :: cs, m => maxLoop cs (if m < c then c else m)

/-- `++a[i]`. -/
def incr (a : Arr) (i : Nat) : Option Arr := do
  let x ← a.get i
  a.set i (x + 1)

/-- The occurrences per symbol and block, wt_gmr.hpp:356-362 and 697-703; `bs` is the size of a block, `K` their number. -/
def countLoop (bs K : Nat) : List Nat → Nat → Nat → Arr → Option Arr
  | [], _, _, a => some a
  | c :: cs, off, j, a =>
    let oj := if j = bs then (off + 1, 0) else (off, j)
    do
      let a ← incr a (add64 (c * K) oj.1)
      countLoop bs K cs oj.1 (oj.2 + 1) a

/-- `for (uint64_t j=0; j<tmp[i]; ++j) b[l++]=1;`, wt_gmr.hpp:371-372 and 706-707. -/
def ones : Nat → Nat → List Bool → Option (Nat × List Bool)
  | 0, l, b => some (l, b)
  | k + 1, l, b => do
    let b ← Bv.set b l true
    ones k (l + 1) b

/-- The numbers of `tmp` in unary, wt_gmr.hpp:370-373 and 705-707, `k` iterations from `i`. -/
def unaryLoop (tmp : Arr) : Nat → Nat → Nat → List Bool → Option (List Bool)
  | 0, _, _, b => some b
  | k + 1, i, l, b => do
    let x ← tmp.get i
    let lb ← ones x l b
    unaryLoop tmp k (i + 1) (lb.1 + 1) lb.2

/-- The number of different symbols, wt_gmr.hpp:376-389 and 710-723, `k` iterations from `i`. -/
def sigmaLoop (b : List Bool) (K : Nat) : Nat → Nat → Bool → Nat → Nat → Option Nat
  | 0, _, _, _, s => some s
  | k + 1, i, write, blocks, s =>
    let wb := if blocks = K then (true, 0) else (write, blocks)
    do
      let x ← Bv.get b i
      if x then
        if wb.1 then sigmaLoop b K k (i + 1) false wb.2 (s + 1) else sigmaLoop b K k (i + 1) wb.1 wb.2 s
      else sigmaLoop b K k (i + 1) wb.1 (wb.2 + 1) s

/-- `tmp = symbols[i]; symbols[i] = sum; sum += tmp;`, wt_gmr.hpp:396-400 and 748-752, `k` iterations from `i`. -/
def prefixLoop : Nat → Nat → Nat → Arr → Option Arr
  | 0, _, _, a => some a
  | k + 1, i, sum, a => do
    let t ← a.get i
    let a ← a.set i sum
    prefixLoop k (i + 1) (sum + t) a

/-- `std::find_if(begin, end, x > val)`, wt_gmr.hpp:520 and 875, `k = end - begin`. -/
def findGt (e : Arr) (val : Nat) : Nat → Nat → Option Nat
  | 0, b => some b
  | k + 1, b => do
    let x ← e.get b
    if val < x then some b else findGt e val k (b + 1)

/-- The number of elements of `e[b..en)` that are at most `val`, wt_gmr.hpp:519-523 and 874-878; the range is empty if `begin` equals `end`, and `begin > end` is undefined. -/
def countLe (e : Arr) (val b en : Nat) : Option Nat :=
  if en < b then none
  else if en < b + 50 then do
    let p ← findGt e val (en - b) b
    pure (p - b)
  else do
    let p ← LcpRep.lowerBound e (add64 val 1) (en - b) b (en - b)
    pure (p - b)

/-! ### wt_gmr_rs -/

/-- `symbols[i] += tmp[j]`, wt_gmr.hpp:365-367, `k` iterations from `j`. -/
def rowLoop (tmp : Arr) (i : Nat) : Nat → Nat → Arr → Option Arr
  | 0, _, a => some a
  | k + 1, j, a => do
    let x ← a.get i
    let y ← tmp.get j
    let a ← a.set i (x + y)
    rowLoop tmp i k (j + 1) a

/-- wt_gmr.hpp:364-368, `k` iterations from `i`. -/
def rowsLoop (tmp : Arr) (K : Nat) : Nat → Nat → Arr → Option Arr
  | 0, _, a => some a
  | k + 1, i, a => do
    let a ← rowLoop tmp i K (K * i) a
    rowsLoop tmp K k (i + 1) a

/-- The positions in the blocks, sorted by symbol, wt_gmr.hpp:401-405. -/
def placeLoop (bs : Nat) : List Nat → Nat → Arr → Arr → Option Arr
  | [], _, _, pos => some pos
  | c :: cs, j, sym, pos =>
    let j := if j = bs then 0 else j
    do
      let s ← sym.get c
      let pos ← pos.set s j
      let sym ← sym.set c (s + 1)
      placeLoop bs cs (j + 1) sym pos

/-- The members of a `wt_gmr_rs`, wt_gmr.hpp:320-327. -/
structure Rs where
  bv : List Bool
  e : Arr
  size : Nat
  bs : Nat
  blocks : Nat
  sigma : Nat

/-- `wt_gmr_rs(input, size)`, wt_gmr.hpp:341-410. -/
def Rs.new (text : List Nat) : Option Rs := do
  let n := text.length
  let bs := add64 (maxLoop text 0) 1
  let K := sub64 (add64 n bs) 1 / bs
  let w ← hiW n
  let wb ← hiW bs
  let tmp ← countLoop bs K text 0 0 (Arr.new (bs * K % 2 ^ 64) 0 wb)
  let sym ← rowsLoop tmp K bs 0 (Arr.new bs 0 w)
  let b ← unaryLoop tmp tmp.xs.length 0 1 (List.replicate ((n + bs * K + 1) % 2 ^ 64) false)
  let sigma ← sigmaLoop b K (b.length - 1) 1 true 0 0
  let sym ← prefixLoop bs 0 0 sym
  let pos ← placeLoop bs text 0 sym (Arr.new n 0 wb)
  pure ⟨b, pos, n, bs, K, sigma⟩

/-- The linear search, wt_gmr.hpp:480-485 and 548-556: the index of `val`, if it is found. The first unit of `fuel` is for the first test of the condition. -/
def scan (e : Arr) (val se : Nat) : Nat → Nat → Option (Option Nat)
  | 0, _ => none
  | fuel + 1, sb =>
    if sb < se then do
      let x ← e.get sb
      if x ≤ val then
        if x = val then some (some sb) else scan e val se fuel (sb + 1)
      else some none
    else some none

/-- `std::lower_bound` in `e[sb..se)` and the test for `val`, wt_gmr.hpp:487 (`binary_search`) and 558-560. -/
def bisect (e : Arr) (val sb se : Nat) : Option (Option Nat) := do
  let o ← LcpRep.lowerBound e val (se - sb) sb (se - sb)
  if o < se then do
    let x ← e.get o
    if x = val then pure (some o) else pure none
  else pure none

/-- The search in one block, wt_gmr.hpp:477-491 and 544-568. -/
def Rs.look (t : Rs) (val block j : Nat) : Option (Option Nat) := do
  let x ← Bv.get t.bv j
  if x then do
    let s ← Bv.select false t.bv (add64 block 1)
    let sb := sub64 j block
    let se := sub64 s block
    if sub64 se sb < 50 then scan t.e val se (se - sb + 1) sb else bisect t.e val sb se
  else pure none

/-- The loop over the symbols, wt_gmr.hpp:474-493 and 541-570: the block and the index of the element. -/
def Rs.loop (t : Rs) (val : Nat) : Nat → Nat → Option (Nat × Nat)
  | 0, _ => none
  | fuel + 1, block => do
    let s ← Bv.select false t.bv block
    let r ← t.look val block (add64 s 1)
    match r with
    | some p => pure (block, p)
    | none => Rs.loop t val fuel (add64 block t.blocks)

/-- `operator[]`, wt_gmr.hpp:470-494. -/
def Rs.get (t : Rs) (i : Nat) : Option Nat := do
  let r ← t.loop (i % t.bs) t.bs (i / t.bs + 1)
  pure ((r.1 - 1) / t.blocks)

/-- `m_bv_blocks_select0(c*m_blocks+1)-c*m_blocks`, wt_gmr.hpp:513, 551, 562 and 584. -/
def Rs.before (t : Rs) (c : Nat) : Option Nat := do
  let s ← Bv.select false t.bv (add64 (c * t.blocks) 1)
  pure (sub64 s (c * t.blocks % 2 ^ 64))

/-- `inverse_select`, wt_gmr.hpp:537-571. -/
def Rs.inverseSelect (t : Rs) (i : Nat) : Option (Nat × Nat) := do
  let r ← t.loop (i % t.bs) t.bs (i / t.bs + 1)
  let c := (r.1 - 1) / t.blocks
  let o ← t.before c
  pure (sub64 r.2 o, c)

/-- `rank`, wt_gmr.hpp:506-525. -/
def Rs.rank (t : Rs) (i c : Nat) : Option Nat :=
  if i = 0 ∨ c > sub64 t.bs 1 then some 0
  else do
    let o ← t.before c
    let q := add64 (add64 (c * t.blocks) ((i - 1) / t.bs)) 1
    let s1 ← Bv.select false t.bv q
    let s2 ← Bv.select false t.bv (add64 q 1)
    let b := add64 (sub64 s1 q) 1
    let r ← countLe t.e ((i - 1) % t.bs) b (sub64 s2 q)
    pure (sub64 (add64 b r) o)

/-- `select`, wt_gmr.hpp:582-586. -/
def Rs.select (t : Rs) (i c : Nat) : Option Nat := do
  let o ← t.before c
  let k := add64 o i
  let s ← Bv.select true t.bv k
  let x ← t.e.get (sub64 k 1)
  pure (sub64 (add64 (sub64 s k * t.bs) x) (c * t.blocks * t.bs % 2 ^ 64))

/-- The interface of a `wt_gmr_rs`; it has no `lex_count` (`lex_ordered=0`, wt_gmr.hpp:316). -/
def Rs.wt (t : Rs) : Csa.Wt := ⟨t.size, t.get, t.rank, t.select, t.inverseSelect, fun _ _ _ => none⟩

/-! ### wt_gmr -/

/-- `++symbols[input[j]]`, wt_gmr.hpp:739-741, `k` iterations from `j`. -/
def symLoop (text : List Nat) : Nat → Nat → Arr → Option Arr
  | 0, _, a => some a
  | k + 1, j, a => do
    let c ← text[j]?
    let a ← incr a c
    symLoop text k (j + 1) a

/-- `for (uint64_t k=0; k<symbols[j]; ++k) x[++x_pos]=1;`, wt_gmr.hpp:744-745. -/
def onesX : Nat → Nat → List Bool → Option (Nat × List Bool)
  | 0, xp, b => some (xp, b)
  | k + 1, xp, b => do
    let b ← Bv.set b (xp + 1) true
    onesX k (xp + 1) b

/-- wt_gmr.hpp:743-745, `k` iterations from `j`. -/
def chunkBits (sym : Arr) : Nat → Nat → Nat → List Bool → Option (Nat × List Bool)
  | 0, _, xp, b => some (xp, b)
  | k + 1, j, xp, b => do
    let x ← sym.get j
    let r ← onesX x xp b
    chunkBits sym k (j + 1) (r.1 + 1) r.2

/-- `perm[i*m_chunksize+(symbols[input[j]]++)] = k`, wt_gmr.hpp:754-756, `m` iterations from `j`; `off` is `i*m_chunksize`. -/
def permLoop (text : List Nat) (off : Nat) : Nat → Nat → Nat → Arr → Arr → Option Arr
  | 0, _, _, _, perm => some perm
  | m + 1, j, k, sym, perm => do
    let c ← text[j]?
    let s ← sym.get c
    let perm ← perm.set (add64 off s) k
    let sym ← sym.set c (s + 1)
    permLoop text off m (j + 1) (k + 1) sym perm

/-- One chunk, wt_gmr.hpp:736-757; `M` is `m_max_symbol`, `w` the width of `symbols`. -/
def chunkStep (text : List Nat) (M cs w i : Nat) (s : Nat × List Bool × Arr) : Option (Nat × List Bool × Arr) := do
  let lo := i * cs
  let m := min ((i + 1) * cs) text.length - lo
  let sym ← symLoop text m lo (Arr.new M 0 w)
  let xb ← chunkBits sym M 0 s.1 s.2.1
  let sym ← prefixLoop M 0 0 sym
  let perm ← permLoop text lo m lo 0 sym s.2.2
  pure (xb.1, xb.2, perm)

/-- wt_gmr.hpp:735-758, `k` iterations from `i`. -/
def chunkLoop (text : List Nat) (M cs w : Nat) : Nat → Nat → Nat × List Bool × Arr → Option (Nat × List Bool × Arr)
  | 0, _, s => some s
  | k + 1, i, s => do
    let s ← chunkStep text M cs w i s
    chunkLoop text M cs w k (i + 1) s

/-- The members of a `wt_gmr`, wt_gmr.hpp:656-669. -/
structure Gm where
  blocks : List Bool
  chunksBv : List Bool
  perm : Arr
  ips : Imp
  size : Nat
  M : Nat
  chunks : Nat
  cs : Nat
  sigma : Nat

/-- `wt_gmr(input, size)`, wt_gmr.hpp:682-768; `ts` is the parameter of `inv_multi_perm_support` (32 by default). A shift by 64 is undefined (wt_gmr.hpp:689). -/
def Gm.new (ts : Nat) (text : List Nat) : Option Gm := do
  let n := text.length
  let M := add64 (maxLoop text 0) 1
  let w ← hiW (sub64 M 1)
  if 64 ≤ w then none
  else do
    let cs := 2 ^ w
    let K := sub64 (add64 n cs) 1 / cs
    let tmp ← countLoop cs K text 0 0 (Arr.new (M * K % 2 ^ 64) 0 (w + 1))
    let b ← unaryLoop tmp tmp.xs.length 0 1 (List.replicate ((n + M * K + 1) % 2 ^ 64) false)
    let sigma ← sigmaLoop b K (b.length - 1) 1 true 0 0
    let s ← chunkLoop text M cs (w + 1) K 0 (0, List.replicate ((n + K * M + 1) % 2 ^ 64) false, Arr.new n 0 w)
    let ips ← Imp.new ts s.2.2.xs cs
    pure ⟨b, s.2.1, s.2.2, ips, n, M, K, cs, sigma⟩

/-- `m_ips[i]`; every step of the search visits another element of the cycle. -/
def Gm.inv (t : Gm) (i : Nat) : Option Nat := t.ips.get (2 * t.size) i

/-- `operator[]`, wt_gmr.hpp:839-845. -/
def Gm.get (t : Gm) (i : Nat) : Option Nat := do
  let chunk := i / t.cs
  let x ← t.inv i
  let s ← Bv.select true t.chunksBv (add64 x 1)
  pure (sub64 (sub64 (sub64 s x) (chunk * t.M % 2 ^ 64)) 1)

/-- `m_bv_blocks_select0(q)-q+1`, wt_gmr.hpp:866-867 and 899-900. -/
def sel0 (b : List Bool) (q : Nat) : Option Nat := do
  let s ← Bv.select false b q
  pure (add64 (sub64 s q) 1)

/-- `rank`, wt_gmr.hpp:857-880. -/
def Gm.rank (t : Gm) (i c : Nat) : Option Nat :=
  if i = 0 ∨ c > sub64 t.M 1 then some 0
  else do
    let chunk := (i - 1) / t.cs
    let o ← sel0 t.blocks (add64 (c * t.chunks) 1)
    let p ← sel0 t.blocks (add64 (add64 (c * t.chunks) chunk) 1)
    let b ← sel0 t.chunksBv (add64 (add64 (chunk * t.M) 1) c)
    let e ← sel0 t.chunksBv (add64 (add64 (chunk * t.M) 2) c)
    let r ← countLe t.perm ((i - 1) % t.cs) b e
    pure (add64 (sub64 p o) r)

/-- `inverse_select`, wt_gmr.hpp:891-903. -/
def Gm.inverseSelect (t : Gm) (i : Nat) : Option (Nat × Nat) := do
  let chunk := i / t.cs
  let x ← t.inv i
  let tmp ← Bv.select true t.chunksBv (add64 x 1)
  let c := sub64 (sub64 (sub64 tmp x) (chunk * t.M % 2 ^ 64)) 1
  let o ← sel0 t.blocks (add64 (c * t.chunks) 1)
  let p ← sel0 t.blocks (add64 (add64 (c * t.chunks) chunk) 1)
  let s ← Bv.select false t.chunksBv (add64 (add64 c 1) (chunk * t.M))
  pure (add64 (sub64 p o) (sub64 (sub64 tmp s) 1), c)

/-- `select`, wt_gmr.hpp:914-924. -/
def Gm.select (t : Gm) (i c : Nat) : Option Nat := do
  let s ← Bv.select false t.blocks (add64 (c * t.chunks) 1)
  let o := sub64 s (c * t.chunks % 2 ^ 64)
  let s1 ← Bv.select true t.blocks (add64 o i)
  let chunk := add64 (sub64 (sub64 (sub64 s1 o) (add64 (c * t.chunks) 1)) i) 1
  let s2 ← Bv.select false t.blocks (add64 (add64 (c * t.chunks) chunk) 1)
  let before := sub64 (sub64 s2 (add64 (c * t.chunks) chunk)) o
  let s3 ← Bv.select false t.chunksBv (add64 (add64 (chunk * t.M) c) 1)
  let p := sub64 (sub64 (sub64 (add64 s3 (sub64 i before)) (chunk * t.M % 2 ^ 64)) c) 1
  let x ← t.perm.get p
  pure (add64 x (chunk * t.cs))

/-- The interface of a `wt_gmr`; it has no `lex_count`. -/
def Gm.wt (t : Gm) : Csa.Wt := ⟨t.size, t.get, t.rank, t.select, t.inverseSelect, fun _ _ _ => none⟩

end Sdsl.Csa.Gmr
