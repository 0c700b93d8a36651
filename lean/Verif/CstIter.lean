/-
  The iterators over the nodes of a suffix tree (include/sdsl/cst_iterators.hpp), on the model of `cst_sct3`, and its functions `begin`, `end`,
  `begin_bottom_up` and `end_bottom_up` (cst_sct3.hpp:420-464). All iterators belong to the same tree, so that `m_cst` is an argument, and it is not `nullptr`.
  Copying is not modelled: the copy constructor of the depth-first iterator copies the pointer `m_stack_cache`, which both destructors delete.
-/
import Verif.CstSct3

namespace Sdsl.CstSct3

/-- `cache_size`, cst_iterators.hpp:47. -/
def cacheSize : Nat := 128

/-- The members of `cst_dfs_const_forward_iterator`, cst_iterators.hpp:57-62; `cache` is `none` for `nullptr`. -/
structure Dfs where
  v : Node
  visited : Bool
  valid : Bool
  cache : Option (List Node)
  sz : Nat

namespace Dfs

variable (s : Cst)

/-- The constructor, cst_iterators.hpp:89-99; `junk` is the value of the uninitialised `m_stack_size`. -/
def new (junk : Nat) (node : Node) (visited valid : Bool) : Option Dfs := do
  let r ← s.root
  if node.same r && !visited && valid then pure ⟨node, visited, valid, some (List.replicate cacheSize ⟨0, 0, 0, 0, 0⟩), 0⟩
  else pure ⟨node, visited, valid, none, junk⟩

/-- `parent()`, cst_iterators.hpp:65-71: the node and `m_stack_size`, a `uint32_t`. -/
def parent (it : Dfs) : Option (Node × Nat) := do
  let sz := (it.sz + (2 ^ 32 - 1)) % 2 ^ 32
  match it.cache with
  | some a =>
    if sz < cacheSize then do
      let p ← a[sz]?
      pure (p, sz)
    else do
      let p ← s.parent it.v
      pure (p, sz)
  | none => do
    let p ← s.parent it.v
    pure (p, sz)

/-- The cache after `first_child()`, cst_iterators.hpp:74-75. -/
def push (it : Dfs) : Option (List Node) :=
  match it.cache with
  | some a => if it.sz < cacheSize then some (a.set it.sz it.v) else some a
  | none => none

/-- Going up, cst_iterators.hpp:140-142 and 150. -/
def up (it : Dfs) : Option Dfs := do
  let (w, sz) ← parent s it
  pure { it with v := w, visited := true, sz := sz }

/-- `operator++`, cst_iterators.hpp:127-158. -/
def next (it : Dfs) : Option Dfs :=
  if !it.valid then some it else do
    let r ← s.root
    if it.v.same r && it.visited then pure { it with valid := false }
    else if !it.visited then
      if Cst.isLeaf it.v then do
        let w ← s.sibling it.v
        if w.same r then up s it else pure { it with v := w }
      else do
        let w ← s.selectChild it.v 1
        pure { it with v := w, cache := push it, sz := (it.sz + 1) % 2 ^ 32 }
    else do
      let w ← s.sibling it.v
      if w.same r then up s it else pure { it with v := w, visited := false }

/-- `visit()`, cst_iterators.hpp:109-111. -/
def visit (it : Dfs) : Nat := if it.visited then 2 else 1

/-- `skip_subtree()`, cst_iterators.hpp:113-119. -/
def skipSubtree (it : Dfs) : Dfs := if it.valid then { it with visited := true } else it

/-- `operator==`, cst_iterators.hpp:166-171. -/
def same (a b : Dfs) : Bool := a.visited == b.visited && a.valid == b.valid && a.v.same b.v

/-- `end()`, cst_sct3.hpp:439-442. -/
def «end» (junk : Nat) : Option Dfs := do
  let r ← s.root
  new s junk r true false

/-- `begin()`, cst_sct3.hpp:420-425. -/
def begin (junk : Nat) : Option Dfs :=
  if s.bp.n = 0 then «end» s junk else do
    let r ← s.root
    new s junk r false true

/-- `begin(v)`, cst_sct3.hpp:428-433. -/
def beginAt (junk : Nat) (v : Node) : Option Dfs := do
  let r ← s.root
  if s.bp.n = 0 ∧ r.same v then «end» s junk else new s junk v false true

/-- `end(v)`, cst_sct3.hpp:445-450. -/
def endAt (junk : Nat) (v : Node) : Option Dfs := do
  let r ← s.root
  if r.same v then «end» s junk else do
    let it ← new s junk v true true
    next s it

/-- `for (auto it = first; it != last; ++it)` with the visited nodes and the values of `visit()`; `skip` are the nodes for which the loop body calls
`skip_subtree()` at the first visit. The fuel bounds the number of steps. -/
def loop (skip : Node → Bool) (last : Dfs) : Nat → Dfs → Option (List (Node × Nat))
  | 0, _ => none
  | f + 1, it =>
    if same it last then some [] else do
      let it' ← next s (if !it.visited && skip it.v then skipSubtree it else it)
      let l ← loop skip last f it'
      pure ((it.v, visit it) :: l)

end Dfs

/-- The members of `cst_bottom_up_const_forward_iterator`, cst_iterators.hpp:191-193. -/
structure BottomUp where
  v : Node
  valid : Bool

namespace BottomUp

variable (s : Cst)

/-- `operator++`, cst_iterators.hpp:213-227. -/
def next (it : BottomUp) : Option BottomUp :=
  if !it.valid then some it else do
    let r ← s.root
    if it.v.same r then pure { it with valid := false }
    else do
      let w ← s.sibling it.v
      if w.same r then do
        let p ← s.parent it.v
        pure { it with v := p }
      else do
        let l ← s.leftmostLeaf w
        pure { it with v := l }

/-- `operator==`, cst_iterators.hpp:237-241. -/
def same (a b : BottomUp) : Bool := a.valid == b.valid && a.v.same b.v

/-- `end_bottom_up()`, cst_sct3.hpp:461-464. -/
def «end» : Option BottomUp := do
  let r ← s.root
  pure ⟨r, false⟩

/-- `begin_bottom_up()`, cst_sct3.hpp:453-458. -/
def begin : Option BottomUp :=
  if s.bp.n = 0 then «end» s else do
    let r ← s.root
    let l ← s.leftmostLeaf r
    pure ⟨l, true⟩

/-- `for (auto it = first; it != last; ++it)` with the visited nodes; the fuel bounds the number of steps. -/
def loop (last : BottomUp) : Nat → BottomUp → Option (List Node)
  | 0, _ => none
  | f + 1, it =>
    if same it last then some [] else do
      let it' ← next s it
      let l ← loop last f it'
      pure (it.v :: l)

end BottomUp

/-- The members of `cst_bfs_iterator`, cst_iterators.hpp:267-269; `std::queue` is a list. -/
structure Bfs where
  queue : List Node
  valid : Bool

namespace Bfs

variable (s : Cst)

/-- The constructor, cst_iterators.hpp:281-287. -/
def new (node : Node) (valid endIt : Bool) : Bfs := ⟨if endIt then [] else [node], valid⟩

/-- `while (root() != child) { push(child); child = sibling(child); }`, cst_iterators.hpp:311-314; the fuel bounds the number of steps. -/
def pushAll (r : Node) : Nat → List Node → Node → Option (List Node)
  | 0, _, _ => none
  | f + 1, q, c => if r.same c then some q else do
    let c' ← s.sibling c
    pushAll r f (q ++ [c]) c'

/-- `operator++`, cst_iterators.hpp:300-316. -/
def next (it : Bfs) : Option Bfs :=
  if !it.valid then some it else
    match it.queue with
    | [] => some { it with valid := false }
    | v :: q => do
      let c ← s.selectChild v 1
      let r ← s.root
      let q ← pushAll s r (s.size + 1) q c
      pure { it with queue := q }

/-- `operator==`, cst_iterators.hpp:326-337. -/
def same (a b : Bfs) : Bool :=
  if a.queue.length ≠ b.queue.length then false
  else if a.queue.isEmpty then a.valid == b.valid
  else a.valid == b.valid && (match a.queue.head?, b.queue.head? with | some x, some y => x.same y | _, _ => false) &&
    (match a.queue.getLast?, b.queue.getLast? with | some x, some y => x.same y | _, _ => false)

/-- `for (auto it = first; it != last; ++it)` with the visited nodes (`operator*`, cst_iterators.hpp:295-297); the fuel bounds the number of steps. -/
def loop (last : Bfs) : Nat → Bfs → Option (List Node)
  | 0, _ => none
  | f + 1, it =>
    if same it last then some [] else do
      let v ← it.queue.head?
      let it' ← next s it
      let l ← loop last f it'
      pure (v :: l)

end Bfs
end Sdsl.CstSct3
