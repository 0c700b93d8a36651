/-
  Succinct range minimum structures: include/sdsl/rmq_succinct_sct.hpp and include/sdsl/rmq_succinct_sada.hpp.

  Rank and select supports are represented by their contracts (C18 - C22): the number of positions before `i` with the property, and
  the `i`-th of them. The helper of `rmq_succinct_sada` is `rmq_succinct_sct` with its default `bp_support_sada<256, 32>`.
-/
import Verif.Sct
import Verif.SpecPat

namespace Sdsl.RmqSct

open Spec

/-- A rank support for the property `f`. -/
def rankC (f : Nat → Bool) (n i : Nat) : Option Nat := if i ≤ n then some ((List.range i).countP f) else none

/-- A select support for the property `f`; for a number that is too large the result is undefined. -/
def selectC (f : Nat → Bool) (n i : Nat) : Option Nat := (List.range n).find? fun p => f p && ((List.range p).countP f + 1 == i)

/-- `rmq_succinct_sct(v)`, rmq_succinct_sct.hpp:80-93; the object is its `bp_support_sada` (which contains the parentheses). -/
def new (vs : List Nat) (minimum : Bool) (S D : Nat) : Option Bp.Sada := do
  let m ← Sct.succ vs minimum
  Bp.Sada.new m (2 * vs.length) S D

/-- `operator()(l, r)`, rmq_succinct_sct.hpp:139-157. -/
def query (s : Bp.Sada) (l r : Nat) : Option Nat :=
  if l = r then some l else do
    let i ← selectC (bitAt s.mem) s.n (l + 1)
    let j ← selectC (bitAt s.mem) s.n (r + 1)
    let fc ← s.findClose i
    if j < fc then some l else do
      let ec ← s.rrEnclose i j
      if ec = s.n then some r else do
        let c ← rankC (bitAt s.mem) s.n (ec + 1)
        pure (c - 1)

/-! ### rmq_succinct_sada -/

/-- `struct state`, rmq_succinct_sada.hpp:93-99. -/
structure State where
  l : Nat
  r : Nat
  m : Nat
  visit : Nat

/-- `if (s.m > s.l) state_stack.push(state(s.l, s.m-1, rmq_helper(s.l, s.m-1), 1))`, lines 118-120. -/
def pushLeft (h : Nat → Nat → Option Nat) (s : State) (st : List State) : Option (List State) :=
  if s.m > s.l then do
    let m ← h s.l (s.m - 1)
    pure (⟨s.l, s.m - 1, m, 1⟩ :: st)
  else some st

/-- `if (s.m < s.r) state_stack.push(state(s.m+1, s.r, rmq_helper(s.m+1, s.r), 1))`, lines 125-127. -/
def pushRight (h : Nat → Nat → Option Nat) (s : State) (st : List State) : Option (List State) :=
  if s.m < s.r then do
    let m ← h (s.m + 1) s.r
    pure (⟨s.m + 1, s.r, m, 1⟩ :: st)
  else some st

/-- `while (!state_stack.empty())`, lines 112-131. -/
def run (h : Nat → Nat → Option Nat) : Nat → List State → Nat → Mem → Option Mem
  | 0, _, _, _ => none
  | _ + 1, [], _, m => some m
  | f + 1, s :: st, k, m =>
    if s.visit = 1 then do
      let m ← Sct.setOne m k
      let st ← pushLeft h s ({ s with visit := 2 } :: st)
      run h f st (k + 1) m
    else if s.visit = 2 then do
      let m ← Sct.setOne m k
      let m ← Sct.setZero m (k + 1)
      let st ← pushRight h s ({ s with visit := 3 } :: st)
      run h f st (k + 2) m
    else if s.visit = 3 then do
      let m ← Sct.setZero m k
      run h f st (k + 1) m
    else run h f st k m

/-- `construct_bp_of_extended_cartesian_tree`, lines 105-134; `m0` is the content of the bit vector behind `resize`. -/
def construct (n : Nat) (h : Nat → Nat → Option Nat) (m0 : Mem) : Option Mem :=
  if n > 0 then do
    let m ← h 0 (n - 1)
    run h (3 * n + 1) [⟨0, n - 1, m, 1⟩] 0 m0
  else some m0

/-- The constructor, lines 152-161. -/
def newSada (vs : List Nat) (minimum : Bool) (S D : Nat) (m0 : Mem) : Option Bp.Sada := do
  let h ← new vs minimum 256 32
  let m ← construct vs.length (query h) m0
  Bp.Sada.new m (4 * vs.length) S D

/-- `operator()(l, r)`, lines 218-227; positions of the pattern `10` are those of its last bit (`rank_support_v<10,2>`, `select_support_mcl<10,2>`). -/
def querySada (s : Bp.Sada) (l r : Nat) : Option Nat :=
  if l = r then some l else do
    let x ← selectC (occ .p10 s.mem) s.n (l + 1)
    let y ← selectC (occ .p10 s.mem) s.n (r + 1)
    let z ← s.rmq x y
    if z < s.n then do
      let f := z + 1 - 2 * (if bitAt s.mem z then 1 else 0)
      rankC (occ .p10 s.mem) s.n (f - 1)
    else none

end Sdsl.RmqSct
