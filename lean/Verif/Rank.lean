/-
  Model of the rank supports for plain bit vectors: `rank_support_trait` (include/sdsl/rank_support.hpp),
  `rank_support_v`, `rank_support_v5` and `rank_support_scan`.

  Simplifications: indices are `Nat`; the stored counts are 64-bit words as in the code. The words that `resize` puts
  into `m_basic_block` are arbitrary (`junk`). A null pointer for the supported vector is not modelled.
-/
import Verif.IntVec
import Verif.SpecPat

namespace Sdsl.Rank

open Bits Spec

/-- `args_in_the_word(w, carry)` of the six traits: count and new carry. rank_support.hpp:118-121, 143-146, 168-171,
    197-200, 226-231, 257-262. -/
def argsInWord : Pat → Word → Word → Word × Word
  | .p0, w, c => (cnt (~~~w), c)
  | .p1, w, c => (cnt w, c)
  | .p10, w, c => cnt10 w c
  | .p01, w, c => cnt01 w c
  | .p00, w, c => (cnt (~~~(w ||| ((w <<< 1) ||| c))), w >>> 63)
  | .p11, w, c => (cnt (w &&& ((w <<< 1) ||| c)), w >>> 63)

/-- `init_carry()`, rank_support.hpp:133-136, 158-161, 187-190, 216-219, 247-250, 278-281. -/
def initCarry : Pat → Word
  | .p0 => 0#64 | .p1 => 0#64 | .p10 => 0#64 | .p01 => 1#64 | .p00 => 1#64 | .p11 => 0#64

/-- `(idx>63) ? *(data-1)>>63 : d` with `data` at word `idx>>6`, rank_support.hpp:176, 183, 205, 212, 236, 243, 267, 274. -/
def carryAt (m : Mem) (idx : Nat) (d : Word) : Option Word :=
  if idx > 63 then do shr (← ld m (idx / 64 - 1)) 63 else some d

/-- `word_rank(data, idx)`, rank_support.hpp:123-126, 148-151, 173-178, 202-207, 233-238, 264-269. -/
def wordRank : Pat → Mem → Nat → Option Word
  | .p0, m, idx => do pure (cnt (~~~(← ld m (idx / 64)) &&& (← loSet (idx % 64))))
  | .p1, m, idx => do pure (cnt ((← ld m (idx / 64)) &&& (← loSet (idx % 64))))
  | .p10, m, idx => do
    let c ← carryAt m idx 0#64
    pure (cnt (map10 (← ld m (idx / 64)) c &&& (← loSet (idx % 64))))
  | .p01, m, idx => do
    let c ← carryAt m idx 1#64
    pure (cnt (map01 (← ld m (idx / 64)) c &&& (← loSet (idx % 64))))
  | .p00, m, idx => do
    let c ← carryAt m idx 1#64
    let w ← ld m (idx / 64)
    pure (cnt (~~~(w ||| ((w <<< 1) ||| c)) &&& (← loSet (idx % 64))))
  | .p11, m, idx => do
    let c ← carryAt m idx 0#64
    let w ← ld m (idx / 64)
    pure (cnt ((w &&& ((w <<< 1) ||| c)) &&& (← loSet (idx % 64))))

/-- `full_word_rank(data, idx)`, rank_support.hpp:128-131, 153-156, 180-185, 209-214, 240-245, 271-276. -/
def fullWordRank : Pat → Mem → Nat → Option Word
  | .p0, m, idx => do pure (cnt (~~~(← ld m (idx / 64))))
  | .p1, m, idx => do pure (cnt (← ld m (idx / 64)))
  | .p10, m, idx => do
    let c ← carryAt m idx 0#64
    pure (cnt (map10 (← ld m (idx / 64)) c))
  | .p01, m, idx => do
    let c ← carryAt m idx 1#64
    pure (cnt (map01 (← ld m (idx / 64)) c))
  | .p00, m, idx => do
    let c ← carryAt m idx 1#64
    let w ← ld m (idx / 64)
    pure (cnt (~~~(w ||| ((w <<< 1) ||| c))))
  | .p11, m, idx => do
    let c ← carryAt m idx 0#64
    let w ← ld m (idx / 64)
    pure (cnt (w &&& ((w <<< 1) ||| c)))

/-- Local variables of the constructors. `cw` is `cnt_words` (only used by `rank_support_v5`). -/
structure St where
  i : Nat
  j : Nat
  bb : Mem
  carry : Word
  sum : Word
  sl : Word
  cw : Nat
deriving DecidableEq, Repr

/-- A new superblock begins: rank_support_v.hpp:88-91, rank_support_v5.hpp:87-90. -/
def flush (s : St) : Option St := do
  let j := s.j + 2
  let bb ← st s.bb (j - 1) s.sl
  let bb ← st bb j ((← ld bb (j - 2)) + s.sum)
  pure { s with j := j, bb := bb, sl := 0#64, sum := 0#64, cw := 0 }

/-- `sum += args_in_the_word(*(++data), carry)` and the loop increments, rank_support_v.hpp:95, rank_support_v5.hpp:95. -/
def addWord (pat : Pat) (m : Mem) (s : St) : Option St := do
  let r := argsInWord pat (← ld m s.i) s.carry
  pure { s with i := s.i + 1, sum := s.sum + r.1, carry := r.2, cw := s.cw + 1 }

/-- Repeat a loop body `k` times. -/
def rep {α : Type} (body : α → Option α) : Nat → α → Option α
  | 0, s => some s
  | k + 1, s => (body s).bind (rep body k)

/-- `m_basic_block.resize(n); m_basic_block[0] = m_basic_block[1] = 0;` and the first word,
    rank_support_v.hpp:75-85, rank_support_v5.hpp:73-84. -/
def start (pat : Pat) (junk : Nat → Word) (m : Mem) (n : Nat) : Option St := do
  let bb := (List.range n).map junk
  let bb ← st bb 1 0#64
  let bb ← st bb 0 0#64
  let r := argsInWord pat (← ld m 0) (initCarry pat)
  pure ⟨1, 0, bb, r.2, r.1, 0#64, 1⟩

namespace V

/-- Loop body of `rank_support_v`, rank_support_v.hpp:87-95. -/
def body (pat : Pat) (m : Mem) (s : St) : Option St := do
  let s ← if s.i % 8 = 0 then flush s
    else do pure { s with sl := s.sl ||| (← shl s.sum (63 - 9 * (s.i % 8))) }
  addWord pat m s

/-- After the loop, rank_support_v.hpp:97-105. -/
def finish (s : St) : Option Mem :=
  if s.i % 8 ≠ 0 then do
    st s.bb (s.j + 1) (s.sl ||| (← shl s.sum (63 - 9 * (s.i % 8))))
  else do
    let j := s.j + 2
    let bb ← st s.bb (j - 1) s.sl
    let bb ← st bb j ((← ld bb (j - 2)) + s.sum)
    st bb (j + 1) 0#64

/-- Constructor of `rank_support_v`: the content of `m_basic_block`. rank_support_v.hpp:67-106. -/
def build (pat : Pat) (junk : Nat → Word) (v : IntVec) : Option Mem :=
  if v.size = 0 then some [0#64, 0#64]
  else do
    let s ← start pat junk v.data ((v.capWords * 64 / 512 + 1) * 2)
    finish (← rep (body pat v.data) (v.capWords - 1) s)

/-- `rank(idx)`, rank_support_v.hpp:114-124. -/
def rank (pat : Pat) (v : IntVec) (bb : Mem) (idx : Nat) : Option Word := do
  let p := idx / 512 * 2
  let r := (← ld bb p) + ((← shr (← ld bb (p + 1)) (63 - 9 * (idx % 512 / 64))) &&& 0x1FF#64)
  if idx % 64 ≠ 0 then pure (r + (← wordRank pat v.data idx)) else pure r

end V

namespace V5

/-- Loop body of `rank_support_v5`, rank_support_v5.hpp:86-95. -/
def body (pat : Pat) (m : Mem) (s : St) : Option St := do
  let s ← if s.cw = 32 then flush s
    else if s.cw % 6 = 0 then do pure { s with sl := s.sl ||| (← shl s.sum (60 - 12 * (s.cw / 6))) }
    else pure s
  addWord pat m s

/-- After the loop, rank_support_v5.hpp:98-108. -/
def finish (s : St) : Option Mem := do
  let sl ← if s.cw % 6 = 0 then do pure (s.sl ||| (← shl s.sum (60 - 12 * (s.cw / 6)))) else pure s.sl
  if s.cw = 32 then
    let j := s.j + 2
    let bb ← st s.bb (j - 1) sl
    let bb ← st bb j ((← ld bb (j - 2)) + s.sum)
    st bb (j + 1) 0#64
  else st s.bb (s.j + 1) sl

/-- Constructor of `rank_support_v5`: the content of `m_basic_block`. rank_support_v5.hpp:65-109. -/
def build (pat : Pat) (junk : Nat → Word) (v : IntVec) : Option Mem :=
  if v.size = 0 then some [0#64, 0#64]
  else do
    let s ← start pat junk v.data ((v.capWords * 64 / 2048 + 1) * 2)
    finish (← rep (body pat v.data) (v.capWords - 1) s)

/-- The loop of `rank`, rank_support_v5.hpp:128-132; `idx` is the index plus one, so that it does not become negative. -/
def rankLoop (pat : Pat) (m : Mem) : Nat → Nat → Word → Option Word
  | 0, _, r => some r
  | k + 1, idx1, r => do rankLoop pat m k (idx1 - 64) (r + (← fullWordRank pat m (idx1 - 1)))

/-- `rank(idx)`, rank_support_v5.hpp:116-134. -/
def rank (pat : Pat) (v : IntVec) (bb : Mem) (idx : Nat) : Option Word := do
  let p := idx / 2048 * 2
  let r := (← ld bb p) + ((← shr (← ld bb (p + 1)) (60 - 12 * (idx % 2048 / (64 * 6)))) &&& 0x7FF#64)
  let r := r + (← wordRank pat v.data idx)
  let idx := idx - idx % 64
  let toDo := idx / 64 % 32 % 6
  rankLoop pat v.data toDo idx r

end V5

namespace Scan

/-- The loop of `rank`, rank_support_scan.hpp:100-103; the first argument bounds the number of iterations (fuel). -/
def rankLoop (pat : Pat) (m : Mem) (idx : Nat) : Nat → Nat → Word → Option Word
  | 0, _, _ => none
  | f + 1, i, r => if i + 64 ≤ idx then do rankLoop pat m idx f (i + 64) (r + (← fullWordRank pat m i)) else some r

/-- `rank(idx)`, rank_support_scan.hpp:92-105. -/
def rank (pat : Pat) (v : IntVec) (idx : Nat) : Option Word := do
  let r ← rankLoop pat v.data idx (idx / 64 + 1) 0 0#64
  pure (r + (← wordRank pat v.data idx))

end Scan

end Sdsl.Rank
