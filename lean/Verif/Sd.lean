/-
  Model of `sd_vector`, `sd_vector_builder`, `rank_support_sd` and `select_support_sd`
  (include/sdsl/sd_vector.hpp, lib/sd_vector.cpp).

  The type of the high part and its select supports are template parameters; they are modelled by their contract (Bv.lean):
  a list of bits, `Bv.select false` for `m_high_0_select` and `Bv.select true` for `m_high_1_select`. `m_low` is an abstract
  int_vector (Arr.lean). Numbers of type `size_type`/`uint64_t` are `Nat`s with explicit wrap-around modulo 2^64.
  Simplified: swap, copy, move and serialisation are not modelled here.
-/
import Verif.Bits
import Verif.IntVec
import Verif.Arr
import Verif.Bv

namespace Sdsl.Sd

open Bits

/-- `a - b` on `uint64_t`. -/
def sub64 (a b : Nat) : Nat := (a + 2 ^ 64 - b) % 2 ^ 64

/-- `a + b` on `uint64_t`. -/
def add64 (a b : Nat) : Nat := (a + b) % 2 ^ 64

/-- `a >> k` on `uint64_t`; undefined for `k ≥ 64`. -/
def shr64 (a k : Nat) : Option Nat := if k < 64 then some (a / 2 ^ k) else none

/-- `a << k` on `uint64_t`; undefined for `k ≥ 64`. -/
def shl64 (a k : Nat) : Option Nat := if k < 64 then some (a * 2 ^ k % 2 ^ 64) else none

/-- Members of `sd_vector`, sd_vector.hpp:151-159. -/
structure Sd where
  size : Nat
  wl : Nat
  low : Arr
  high : List Bool
deriving DecidableEq, Repr

/-- Variables of the construction loops, sd_vector.hpp:205 and 250; members of the builder, sd_vector.hpp:65-71. -/
structure St where
  mm : Nat
  lastHigh : Nat
  highpos : Nat
  low : Arr
  high : List Bool
deriving DecidableEq, Repr

/-- Adding one position, sd_vector.hpp:215-220, 253-259 and 96-100. -/
def push (wl : Nat) (s : St) (position : Nat) : Option St := do
  let curHigh ← shr64 position wl
  let highpos := add64 s.highpos (sub64 curHigh s.lastHigh)
  let low ← s.low.set s.mm position
  let high ← Bv.set s.high highpos true
  pure ⟨s.mm + 1, curHigh, add64 highpos 1, low, high⟩

/-- `logm` and `logn`, sd_vector.hpp:196-201, 241-246, sd_vector.cpp:27-34. `k` is the number of bits of the type of `logm`
    and `logn` (8 in the class, 64 in the builder). Result: final `logm` and `m_wl`. -/
def params (k n m : Nat) : Option (Nat × Nat) := do
  let logm ← (hi (BitVec.ofNat 64 m)).map (· + 1)
  let logn ← (hi (BitVec.ofNat 64 n)).map (· + 1)
  let logm := if logm = logn then logm - 1 else logm
  pure (logm, (logn + 2 ^ k - logm) % 2 ^ k)

/-- The freshly allocated `m_low` and `high`, sd_vector.hpp:202-203, 247-248, sd_vector.cpp:35-36. -/
def start (m logm wl : Nat) : Option St := do
  let s ← shl64 1 logm
  pure ⟨0, 0, 0, Arr.new m 0 wl, List.replicate (m + s) false⟩

/-- The inner loop over the ones of a word, sd_vector.hpp:208-223; a word has at most 64 ones, which bounds the iterations. -/
def wordLoop (size wl : Nat) : Nat → Nat → Word → St → Option St
  | 0, _, w, s => if w = 0#64 then some s else none
  | fuel + 1, position, w, s =>
    if w = 0#64 then some s
    else do
      let offset ← lo w
      let w ← shr w offset
      let position := position + offset
      if position ≥ size then pure s
      else do
        let s ← push wl s position
        wordLoop size wl fuel (position + 1) (w >>> 1) s

/-- The outer loop, sd_vector.hpp:205-224: `n` words starting with word `i`. -/
def bvLoop (size wl : Nat) (data : Mem) : Nat → Nat → St → Option St
  | _, 0, s => some s
  | i, n + 1, s => do
    let w ← ld data i
    let s ← wordLoop size wl 64 (64 * i) w s
    bvLoop size wl data (i + 1) n s

/-- Constructor from a bit vector, sd_vector.hpp:192-228. -/
def ofBitVector (v : IntVec) : Option Sd := do
  let m ← Util.cntOneBits v
  let p ← params 8 v.size m
  let s ← start m p.1 p.2
  let s ← bvLoop v.size p.2 v.data 0 ((v.size + 63) / 64) s
  pure ⟨v.size, p.2, s.low, s.high⟩

/-- Pushing all positions of a sequence, the loop of sd_vector.hpp:251-261; also the effect of successive `set` calls on the
    builder. -/
def pushAll (wl : Nat) : St → List Nat → Option St
  | s, [] => some s
  | s, x :: xs => do
    let s ← push wl s x
    pushAll wl s xs

/-- `std::is_sorted`. -/
def isSorted : List Nat → Bool
  | [] => true
  | [_] => true
  | x :: y :: l => decide (x ≤ y) && isSorted (y :: l)

/-- The default constructor, sd_vector.hpp:151-159, 180. -/
def default : Sd := ⟨0, 0, Arr.empty, []⟩

/-- Constructor from an iterator range, sd_vector.hpp:230-266 (the values are `uint64_t`). The error is the exception. -/
def ofSorted (xs : List Nat) : Option (Except String Sd) :=
  match xs.getLast? with
  | none => some (.ok default)
  | some last =>
    if isSorted xs then do
      let size := add64 last 1
      let p ← params 8 size xs.length
      let s ← start xs.length p.1 p.2
      let s ← pushAll p.2 s xs
      pure (.ok ⟨size, p.2, s.low, s.high⟩)
    else some (.error "sd_vector: source list is not sorted.")

/-- Members of `sd_vector_builder`, sd_vector.hpp:65-71. -/
structure Builder where
  size : Nat
  capacity : Nat
  wl : Nat
  tail : Nat
  st : St
deriving DecidableEq, Repr

/-- `sd_vector_builder(n, m)`, sd_vector.cpp:16-37. The error is the exception. -/
def Builder.new (n m : Nat) : Option (Except String Builder) :=
  if m > n then some (.error "sd_vector_builder: requested capacity is larger than vector size.")
  else do
    let p ← params 64 n m
    let s ← start m p.1 p.2
    pure (.ok ⟨n, m, p.2, 0, s⟩)

/-- `sd_vector_builder::set(i)`, sd_vector.hpp:91-102; a violated assertion is undefined behaviour. -/
def Builder.set (b : Builder) (i : Nat) : Option Builder :=
  if i ≥ b.tail ∧ i < b.size ∧ b.st.mm < b.capacity then do
    let s ← push b.wl b.st i
    pure { b with st := s, tail := add64 i 1 }
  else none

/-- A sequence of `set` calls. -/
def Builder.setAll : Builder → List Nat → Option Builder
  | b, [] => some b
  | b, x :: xs => do
    let b ← b.set x
    b.setAll xs

/-- Constructor from the builder, sd_vector.hpp:268-282, sd_vector.cpp:53-69. The error is the exception. -/
def ofBuilder (b : Builder) : Except String Sd :=
  if b.st.mm ≠ b.capacity then .error "sd_vector: the builder is not full."
  else .ok ⟨b.size, b.wl, b.st.low, b.st.high⟩

/-- The loop condition and the final comparison use `m_high[s] and m_low[r] ∘ val` (short-circuit): `m_low[r]` is read only if
    the bit is set. The result is `none` if undefined, else whether the bit is set together with `m_low[r]`. -/
def peek (b : Sd) (s r : Nat) : Option (Option Nat) := do
  let h ← Bv.get b.high s
  if h then (b.low.get r).map some else pure none

/-- The scan of `operator[]` and `get_int`, sd_vector.hpp:303-308 and 330-335: `s` and `r` are `sel_high` and `rank_low`;
    the result is `none` for `return 0`. -/
def scanDown (b : Sd) (valLow : Nat) : Nat → Nat → Option (Option (Nat × Nat))
  | 0, r => do
    match ← peek b 0 r with
    | some l => if l > valLow then pure none else pure (some (0, r))
    | none => pure (some (0, r))
  | s + 1, r => do
    match ← peek b (s + 1) r with
    | some l => if l > valLow then scanDown b valLow s (sub64 r 1) else pure (some (s + 1, r))
    | none => pure (some (s + 1, r))

/-- The low `wl` bits of `i`, sd_vector.hpp:301, 328 and 498. -/
def lowPart (i wl : Nat) : Option Nat := (loSet wl).map (fun m => (BitVec.ofNat 64 i &&& m).toNat)

/-- The last line of `operator[]`, sd_vector.hpp:309. -/
def accessEnd (b : Sd) (valLow : Nat) : Option (Nat × Nat) → Option Bool
  | none => some false
  | some (s, r) => do
    match ← peek b s r with
    | some l => pure (decide (l = valLow))
    | none => pure false

/-- `operator[](i)`, sd_vector.hpp:294-310. -/
def access (b : Sd) (i : Nat) : Option Bool := do
  let highVal ← shr64 i b.wl
  let selHigh ← Bv.select false b.high (add64 highVal 1)
  let rankLow := sub64 selHigh highVal
  if rankLow = 0 then pure false
  else do
    let valLow ← lowPart i b.wl
    let r ← scanDown b valLow (selHigh - 1) (rankLow - 1)
    accessEnd b valLow r

/-- The nested loops of `get_int`, sd_vector.hpp:337-358: whichever inner loop is active is decided by `m_high[sel_high]`;
    every step decrements `sel_high` or returns. -/
def intLoop (b : Sd) (idx : Nat) : Nat → Nat → Nat → Word → Option Word
  | s, h, r, res => do
    match ← peek b s r with
    | none =>
      if s > 0 ∧ (← shl64 h b.wl) ≥ idx then
        match s with
        | 0 => pure res
        | s + 1 => intLoop b idx s (sub64 h 1) r res
      else pure res
    | some l =>
      let val := add64 (← shl64 h b.wl) l
      if val ≥ idx then do
        let bit ← shl 1#64 (val - idx)
        match s with
        | 0 => pure (res ||| bit)
        | s + 1 => intLoop b idx s h (sub64 r 1) (res ||| bit)
      else pure res

/-- The part of `get_int` after the first scan, sd_vector.hpp:336-358. -/
def getIntEnd (b : Sd) (idx highVal : Nat) : Option (Nat × Nat) → Option Word
  | none => some 0#64
  | some (s, r) => intLoop b idx s highVal r 0#64

/-- `get_int(idx, len)`, sd_vector.hpp:320-359. -/
def getInt (b : Sd) (idx len : Nat) : Option Word := do
  let i := sub64 (add64 idx len) 1
  let highVal ← shr64 i b.wl
  let selHigh ← Bv.select false b.high (add64 highVal 1)
  let rankLow := sub64 selHigh highVal
  if rankLow = 0 then pure 0#64
  else do
    let valLow ← lowPart i b.wl
    let r ← scanDown b valLow (selHigh - 1) (rankLow - 1)
    getIntEnd b idx highVal r

/-- The loop of `rank`, sd_vector.hpp:500-505 (`adjust_rank` is applied by the caller). -/
def rankLoop (b : Sd) (valLow : Nat) : Nat → Nat → Option Nat
  | 0, _ => some 0
  | s + 1, r => do
    let r := sub64 r 1
    match ← peek b s r with
    | some l => if l ≥ valLow then rankLoop b valLow s r else pure (add64 r 1)
    | none => pure (add64 r 1)

/-- `rank_support_sd<tb>::rank(i)`, sd_vector.hpp:487-506, with the traits of lines 443-459. -/
def rank (tb : Bool) (b : Sd) (i : Nat) : Option Nat := do
  let highVal ← shr64 i b.wl
  let selHigh ← Bv.select false b.high (add64 highVal 1)
  let rankLow := sub64 selHigh highVal
  let adjust := fun r => if tb then r else sub64 i r
  if rankLow = 0 then pure (adjust 0)
  else do
    let valLow ← lowPart i b.wl
    let r ← rankLoop b valLow selHigh rankLow
    pure (adjust r)

/-- `select_support_sd_trait<1>::select(i)`, sd_vector.hpp:547-552. -/
def select1 (b : Sd) (i : Nat) : Option Nat := do
  let l ← b.low.get (sub64 i 1)
  let s ← Bv.select true b.high i
  let h ← shl64 (sub64 (add64 s 1) i) b.wl
  pure (add64 l h)

/-- Binary search of `select_support_sd_trait<0>::select(i)`, sd_vector.hpp:567-578; the fuel bounds the iterations. Result:
    `pos` and `r0`. -/
def sel0Loop (b : Sd) (i : Nat) : Nat → Nat → Nat → Nat → Nat → Option (Nat × Nat)
  | 0, lb, rb, pos, r0 => if lb < rb then none else some (pos, r0)
  | fuel + 1, lb, rb, pos, r0 =>
    if lb < rb then do
      let mid := lb + (rb - lb) / 2
      let x ← select1 b mid
      let rank0 := sub64 (add64 x 1) mid
      if rank0 ≥ i then sel0Loop b i fuel lb mid pos r0 else sel0Loop b i fuel (mid + 1) rb x rank0
    else some (pos, r0)

/-- `select_support_sd_trait<0>::select(i)`, sd_vector.hpp:558-580. -/
def select0 (b : Sd) (i : Nat) : Option Nat := do
  let ones := b.low.xs.length
  let r ← sel0Loop b i (ones + 1) 1 (ones + 1) (2 ^ 64 - 1) 0
  pure (sub64 (add64 r.1 i) r.2)

/-- `select_support_sd<tb>::select(i)`, sd_vector.hpp:608-611. -/
def select (tb : Bool) (b : Sd) (i : Nat) : Option Nat := if tb then select1 b i else select0 b i

end Sdsl.Sd
