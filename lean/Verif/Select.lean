/-
  Model of the select supports for plain bit vectors: `select_support_trait` (include/sdsl/select_support.hpp),
  `select_support_scan` and `select_support_mcl`.

  Simplifications: indices are `Nat`; the `int_vector`s of `select_support_mcl` are `Arr`s; `bits::sel` is the portable
  variant (the SSE/BMI2 variants are proved equal, C03). The uninitialised local array `arg_position` has arbitrary
  content (`junk`). A null pointer for the supported vector, copying, moving and serialisation are not modelled here.
-/
import Verif.Rank
import Verif.Arr

namespace Sdsl.Select

open Bits Spec Rank Util

/-- Loop of `arg_cnt` for the patterns 00 and 11, select_support.hpp:298-300, 355-357. -/
def argCntLoop (pat : Pat) (m : Mem) : Nat → Nat → Nat → Word → Option (Nat × Word)
  | _, 0, r, c => some (r, c)
  | i, k + 1, r, c => do
    let t := argsInWord pat (← ld m i) c
    argCntLoop pat m (i + 1) k (r + t.1.toNat) t.2

/-- `arg_cnt(v)`, select_support.hpp:135-138, 173-176, 211-214, 251-254, 291-305, 348-362. -/
def argCnt (v : IntVec) : Pat → Option Nat
  | .p0 => do pure (v.size - (← Util.cntOneBits v))
  | .p1 => Util.cntOneBits v
  | .p10 => Util.cntOneZeroBits v
  | .p01 => Util.cntZeroOneBits v
  | .p00 =>
    if v.size = 0 then some 0
    else do
      let r ← argCntLoop .p00 v.data 0 (v.size / 64) 0 (initCarry .p00)
      if v.size % 64 ≠ 0 then
        pure (r.1 + (argsInWord .p00 ((← ld v.data (v.size / 64)) ||| (← loUnset (v.size % 64))) r.2).1.toNat)
      else pure r.1
  | .p11 =>
    if v.size = 0 then some 0
    else do
      let r ← argCntLoop .p11 v.data 0 (v.size / 64) 0 (initCarry .p11)
      if v.size % 64 ≠ 0 then
        pure (r.1 + (argsInWord .p11 ((← ld v.data (v.size / 64)) &&& (← loSet (v.size % 64))) r.2).1.toNat)
      else pure r.1

/-- `args_in_the_first_word(w, offset, carry)`, select_support.hpp:139-142, 177-180, 215-218, 255-258, 307-316, 364-373. -/
def argsFirst : Pat → Word → Nat → Word → Option Word
  | .p0, w, off, _ => do pure (cnt (~~~w &&& (← loUnset off)))
  | .p1, w, off, _ => do pure (cnt (w &&& (← loUnset off)))
  | .p10, w, off, c => do pure (cnt (map10 w c &&& (← loUnset off)))
  | .p01, w, off, c => do pure (cnt (map01 w c &&& (← loUnset off)))
  | .p00, w, off, c =>
    if off = 0 then some (argsInWord .p00 w c).1
    else do pure (cnt (~~~(w ||| (w <<< 1)) &&& (← loUnset off)))
  | .p11, w, off, c =>
    if off = 0 then some (argsInWord .p11 w c).1
    else do pure (cnt ((← shr w (off - 1)) &&& (← shr w off)))

/-- `ith_arg_pos_in_the_first_word(w, i, offset, carry)`, select_support.hpp:143-146, 181-184, 219-222, 259-262, 318-321,
    375-378. -/
def ithFirst : Pat → Word → Nat → Nat → Word → Option Nat
  | .p0, w, i, off, _ => do sel (~~~w &&& (← loUnset off)) i
  | .p1, w, i, off, _ => do sel (w &&& (← loUnset off)) i
  | .p10, w, i, off, c => do sel (map10 w c &&& (← loUnset off)) i
  | .p01, w, i, off, c => do sel (map01 w c &&& (← loUnset off)) i
  | .p00, w, i, off, c => do sel (~~~(((w <<< 1) ||| c) ||| w) &&& (← loUnset off)) i
  | .p11, w, i, off, c => do sel ((((w <<< 1) ||| c) &&& w) &&& (← loUnset off)) i

/-- `ith_arg_pos_in_the_word(w, i, carry)`, select_support.hpp:151-154, 189-192, 227-230, 267-270, 326-329, 383-386. -/
def ithWord : Pat → Word → Nat → Word → Option Nat
  | .p0, w, i, _ => sel (~~~w) i
  | .p1, w, i, _ => sel w i
  | .p10, w, i, c => sel (map10 w c) i
  | .p01, w, i, c => sel (map01 w c) i
  | .p00, w, i, c => sel (~~~(((w <<< 1) ||| c) ||| w)) i
  | .p11, w, i, c => sel (((w <<< 1) ||| c) &&& w) i

/-- `v[i]` for a `const bit_vector&`. -/
abbrev bit (v : IntVec) (i : Nat) : Option Bool := v.get1 i

/-- `found_arg(i, v)`, select_support.hpp:155-158, 193-196, 231-236, 271-276, 330-333, 387-392. -/
def foundArg (v : IntVec) (i : Nat) : Pat → Option Bool
  | .p0 => do pure (!(← bit v i))
  | .p1 => bit v i
  | .p10 => if i > 0 then do (if (← bit v (i - 1)) then do pure (!(← bit v i)) else pure false) else some false
  | .p01 => if i > 0 then do (if !(← bit v (i - 1)) then bit v i else pure false) else some false
  | .p00 => if i > 0 then do (if !(← bit v (i - 1)) then do pure (!(← bit v i)) else pure false) else some false
  | .p11 => if i > 0 then do (if (← bit v (i - 1)) then bit v i else pure false) else some false

/-- `init_carry(data, word_pos)` with `data` at word `word_pos`, select_support.hpp:159-162, 197-200, 237-240, 277-280,
    334-337, 393-396. -/
def initCarryAt (m : Mem) (wp : Nat) : Pat → Option Word
  | .p0 => some 0#64
  | .p1 => some 0#64
  | .p10 => if wp ≠ 0 then do shr (← ld m (wp - 1)) 63 else some 0#64
  | .p01 => if wp ≠ 0 then do shr (← ld m (wp - 1)) 63 else some 1#64
  | .p00 => if wp ≠ 0 then do shr (← ld m (wp - 1)) 63 else some 1#64
  | .p11 => if wp ≠ 0 then do shr (← ld m (wp - 1)) 63 else some 0#64

/-- `get_carry(w)`, select_support.hpp:163-166, 201-204, 241-244, 281-284, 338-341, 397-400. -/
def getCarry (w : Word) : Pat → Word
  | .p0 => 0#64
  | .p1 => 0#64
  | _ => w >>> 63

/-- The `while` loop of the word search and the final `return`, select_support_scan.hpp:98-105,
    select_support_mcl.hpp:382-390. The first number bounds the iterations (fuel). -/
def searchLoop (pat : Pat) (m : Mem) (i : Nat) : Nat → Nat → Nat → Word → Word → Word → Option Nat
  | 0, _, _, _, _, _ => none
  | f + 1, wp, sum, args, carry, old =>
    if sum + args.toNat < i then do
      let t := argsInWord pat (← ld m (wp + 1)) carry
      searchLoop pat m i f (wp + 1) (sum + args.toNat) t.1 t.2 carry
    else do
      pure (wp * 64 + (← ithWord pat (← ld m wp) (i - sum) old))

/-- Find the `i`-th occurrence ending at or after bit `off` of word `wp`: select_support_scan.hpp:88-105 (with `wp = off = 0`)
    and select_support_mcl.hpp:370-390. -/
def search (pat : Pat) (m : Mem) (wp off i : Nat) : Option Nat := do
  let carry ← initCarryAt m wp pat
  let w ← ld m wp
  let args ← argsFirst pat w off carry
  if args.toNat ≥ i then
    pure (wp * 64 + (← ithFirst pat w i off carry))
  else do
    let carry := getCarry w pat
    let t := argsInWord pat (← ld m (wp + 1)) carry
    searchLoop pat m i (m.length + 1) (wp + 1) args.toNat t.1 t.2 carry

/-- `select_support_scan::select(i)`, select_support_scan.hpp:82-106. -/
def scanSelect (pat : Pat) (v : IntVec) (i : Nat) : Option Nat := search pat v.data 0 0 i

/-! ### select_support_mcl -/

/-- `SUPER_BLOCK_SIZE`, select_support_mcl.hpp:218, 270. -/
def sbSize : Nat := 4096

/-- Members of `select_support_mcl`, select_support_mcl.hpp:78-85; `long = none` is a null pointer. -/
structure Mcl where
  argCnt : Nat
  sup : Arr
  long : Option (List Arr)
  mini : List Arr
deriving DecidableEq, Repr

/-- `m_logn4` and `m_logn` of `initData`, select_support_mcl.hpp:402-416. -/
def logn (v : IntVec) : Option Nat := do pure ((← hi (BitVec.ofNat 64 (v.capWords * 64))) + 1)

/-- `for (j = 0; j < n; ++j) a[j] = f(j)`: `k` iterations from `j`. -/
def fillArr (f : Nat → Option Nat) : Nat → Nat → Arr → Option Arr
  | _, 0, a => some a
  | j, k + 1, a => do fillArr f (j + 1) k (← a.set j (← f j))

/-- Local variables of `init_slow` and of `init_fast`. -/
structure BSt where
  pos : List Nat           -- arg_position
  cnt : Nat                -- arg_cnt (init_slow), cnt_new (init_fast)
  sbCnt : Nat
  sup : Arr
  long : Option (List Arr)
  mini : List Arr
deriving DecidableEq, Repr

/-- Complete a superblock in `init_slow`, select_support_mcl.hpp:239-253; `sb` superblocks. -/
def slowFlush (logn4 sb : Nat) (s : BSt) : Option BSt := do
  let p0 ← s.pos[0]?
  let last ← s.pos[(s.cnt - 1) % sbSize]?
  let sup ← s.sup.set s.sbCnt p0
  let posDiff := last - p0
  if posDiff > logn4 then
    let l := s.long.getD (List.replicate sb Arr.empty)
    let a ← fillArr (fun j => s.pos[j]?) 0 ((s.cnt - 1) % sbSize + 1) (Arr.new sbSize 0 ((← hi (BitVec.ofNat 64 last)) + 1))
    pure { s with sup := sup, long := some (← setList l s.sbCnt a), sbCnt := s.sbCnt + 1 }
  else
    let a ← fillArr (fun j => (s.pos[64 * j]?).map (· - p0)) 0 ((s.cnt - 1) % sbSize / 64 + 1)
      (Arr.new 64 0 ((← hi (BitVec.ofNat 64 posDiff)) + 1))
    pure { s with sup := sup, mini := ← setList s.mini s.sbCnt a, sbCnt := s.sbCnt + 1 }

/-- The body of the loop of `init_slow`, select_support_mcl.hpp:233-255; `total` is `m_arg_cnt`. -/
def slowStep (pat : Pat) (v : IntVec) (logn4 sb total i : Nat) (s : BSt) : Option BSt := do
  if (← foundArg v i pat) then
    (setList s.pos (s.cnt % sbSize) i).bind (fun pos =>
      if (s.cnt + 1) % sbSize = 0 ∨ s.cnt + 1 = total then slowFlush logn4 sb { s with pos := pos, cnt := s.cnt + 1 }
      else some { s with pos := pos, cnt := s.cnt + 1 })
  else pure s

/-- The loop of `init_slow`, select_support_mcl.hpp:232-256: `k` iterations from `i`. -/
def slowLoop (pat : Pat) (v : IntVec) (logn4 sb total : Nat) : Nat → Nat → BSt → Option BSt
  | _, 0, s => some s
  | i, k + 1, s => do slowLoop pat v logn4 sb total (i + 1) k (← slowStep pat v logn4 sb total i s)

/-- `init_slow`, select_support_mcl.hpp:208-257. -/
def initSlow (pat : Pat) (junk : Nat → Nat) (v : IntVec) : Option Mcl := do
  let lg ← logn v
  let total ← argCnt v pat
  if total = 0 then pure ⟨0, Arr.empty, none, []⟩
  else do
    let sb := (total + sbSize - 1) / sbSize
    let s ← slowLoop pat v (lg * lg * (lg * lg)) sb total 0 v.size
      ⟨(List.range sbSize).map junk, 0, 0, Arr.new sb 0 lg, none, List.replicate sb Arr.empty⟩
    pure ⟨total, s.sup, s.long, s.mini⟩

/-- Find the end of the superblock, select_support_mcl.hpp:297-301: from `ii`, `k` more positions before `v.size()`. -/
def lastLoop (pat : Pat) (v : IntVec) : Nat → Nat → Nat → Nat → Option Nat
  | _, 0, _, last => some last
  | ii, k + 1, j, last =>
    if j < sbSize then do
      if (← foundArg v ii pat) then lastLoop pat v (ii + 1) k (j + 1) ii
      else lastLoop pat v (ii + 1) k j last
    else some last

/-- Fill a long superblock, select_support_mcl.hpp:307-319 (`lim = SUPER_BLOCK_SIZE`) and 336-340 (no limit, `lim = none`):
    positions `j, ..., j+n-1`, next entry `k`. The debug output of lines 309-317 is unreachable and left out. -/
def longLoop (pat : Pat) (v : IntVec) (lim : Option Nat) : Nat → Nat → Nat → Arr → Option Arr
  | _, 0, _, a => some a
  | j, n + 1, k, a =>
    if lim.all (k < ·) then do
      if (← foundArg v j pat) then longLoop pat v lim (j + 1) n (k + 1) (← a.set k j)
      else longLoop pat v lim (j + 1) n k a
    else some a

/-- Complete a superblock in `init_fast`, select_support_mcl.hpp:294-327. -/
def fastFlush (pat : Pat) (v : IntVec) (logn4 sb : Nat) (s : BSt) : Option BSt := do
  let p0 ← s.pos[0]?
  let pl ← s.pos[sbSize - 64]?
  let sup ← s.sup.set s.sbCnt p0
  let last ← lastLoop pat v (pl + 1) (v.size - (pl + 1)) (sbSize - 64) pl
  let posDiff := last - p0
  if posDiff > logn4 then
    let l := s.long.getD (List.replicate (sb + 1) Arr.empty)
    let a ← longLoop pat v (some sbSize) p0 (last + 1 - p0) 0 (Arr.new sbSize 0 ((← hi (BitVec.ofNat 64 last)) + 1))
    pure { s with sup := sup, long := some (← setList l s.sbCnt a), sbCnt := s.sbCnt + 1 }
  else
    let a ← fillArr (fun j => (s.pos[64 * j]?).map (· - p0)) 0 64 (Arr.new 64 0 ((← hi (BitVec.ofNat 64 posDiff)) + 1))
    pure { s with sup := sup, mini := ← setList s.mini s.sbCnt a, sbCnt := s.sbCnt + 1 }

/-- The loop of `init_fast`, select_support_mcl.hpp:286-331: `n` iterations from word `w`; `last` is `last_k64`, `lsum` is
    `last_k64_sum`. `s.cnt` is `cnt_old`. -/
def fastLoop (pat : Pat) (v : IntVec) (logn4 sb : Nat) : Nat → Nat → Word → Nat → Nat → BSt → Option (BSt × Nat)
  | _, 0, _, last, _, s => some (s, last)
  | w, n + 1, carry, last, lsum, s => do
    let x ← ld v.data w
    let t := argsInWord pat x carry
    let new := s.cnt + t.1.toNat
    if new ≥ lsum then
      let p ← ithWord pat x (lsum - s.cnt) t.2
      let s := { s with pos := ← setList s.pos (last - 1) (w * 64 + p), cnt := new }
      if last + 64 = sbSize + 1 then do
        let s ← fastFlush pat v logn4 sb s
        fastLoop pat v logn4 sb (w + 1) n t.2 1 (lsum + 64) s
      else fastLoop pat v logn4 sb (w + 1) n t.2 (last + 64) (lsum + 64) s
    else fastLoop pat v logn4 sb (w + 1) n t.2 last lsum { s with cnt := new }

/-- `init_fast`, select_support_mcl.hpp:260-343. -/
def initFast (pat : Pat) (junk : Nat → Nat) (v : IntVec) : Option Mcl := do
  let lg ← logn v
  let total ← argCnt v pat
  if total = 0 then pure ⟨0, Arr.empty, none, []⟩
  else do
    let sb := (total + sbSize - 1) / sbSize
    let r ← fastLoop pat v (lg * lg * (lg * lg)) sb 0 v.capWords 0#64 1 1
      ⟨(List.range sbSize).map junk, 0, 0, Arr.new sb 0 lg, none, List.replicate sb Arr.empty⟩
    let s := r.1
    if r.2 > 1 then
      let l := s.long.getD (List.replicate (sb + 1) Arr.empty)
      let p0 ← s.pos[0]?
      let a ← longLoop pat v none p0 (v.size - p0) 0 (Arr.new sbSize 0 ((← hi (BitVec.ofNat 64 (v.size - 1))) + 1))
      pure ⟨total, s.sup, some (← setList l s.sbCnt a), s.mini⟩
    else pure ⟨total, s.sup, s.long, s.mini⟩

/-- Constructor, select_support_mcl.hpp:108-116. -/
def mclBuild (pat : Pat) (junk : Nat → Nat) (v : IntVec) : Option Mcl :=
  if pat.bits.length > 1 ∨ v.size < 100000 then initSlow pat junk v else initFast pat junk v

/-- The condition `m_longsuperblock!=nullptr and !m_longsuperblock[sb_idx].empty()`, select_support_mcl.hpp:353, and the
    selected long superblock. -/
def longBlock (s : Mcl) (sbIdx : Nat) : Option (Option Arr) :=
  match s.long with
  | none => some none
  | some l => do
    let a ← l[sbIdx]?
    pure (if a.xs.isEmpty then none else some a)

/-- Selection in a superblock with miniblocks, select_support_mcl.hpp:356-391; `i` is 0-based. -/
def shortSelect (pat : Pat) (v : IntVec) (s : Mcl) (i : Nat) : Option Nat :=
  let sbIdx := i / 4096
  let offset := i % 4096
  if offset % 64 = 0 then do
    pure ((← s.sup.get sbIdx) + (← (← s.mini[sbIdx]?).get (offset / 64)))
  else do
    let i := i - sbIdx * 4096 - offset / 64 * 64
    let pos := (← s.sup.get sbIdx) + (← (← s.mini[sbIdx]?).get (offset / 64)) + 1
    search pat v.data (pos / 64) (pos % 64) i

/-- `select(i)`, select_support_mcl.hpp:346-393. -/
def mclSelect (pat : Pat) (v : IntVec) (s : Mcl) (i : Nat) : Option Nat := do
  match ← longBlock s ((i - 1) / 4096) with
  | some a => a.get ((i - 1) % 4096)
  | none => shortSelect pat v s (i - 1)

end Sdsl.Select
