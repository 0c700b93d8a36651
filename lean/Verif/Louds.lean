/-
  `louds_tree` (include/sdsl/louds_tree.hpp): a tree stored as its level order unary degree sequence. The bit vector and its two
  select supports are template parameters and are modelled by their contracts (`Bv`). The tree that is traversed by
  `cst_bfs_iterator` (include/sdsl/cst_iterators.hpp) is modelled by an ordered tree.
-/
import Verif.Bv

namespace Sdsl

/-- A finite ordered tree: what `select_child(v, 1)` / `sibling` of a compressed suffix tree enumerate. -/
inductive RTree where
  | node : List RTree → RTree

namespace RTree

/-- The children in order: `select_child(v, 1)`, then `sibling` until `root()` is returned (cst_iterators.hpp:304-308). -/
def children : RTree → List RTree
  | node cs => cs

mutual
/-- Number of nodes. -/
def nodes : RTree → Nat
  | node cs => 1 + nodesL cs
def nodesL : List RTree → Nat
  | [] => 0
  | t :: ts => nodes t + nodesL ts
end

mutual
/-- Number of leaves, `cst.size(v)`. -/
def leaves : RTree → Nat
  | node [] => 1
  | node (c :: cs) => leaves c + leavesL cs
def leavesL : List RTree → Nat
  | [] => 0
  | t :: ts => leaves t + leavesL ts
end

mutual
/-- No node has exactly one child (the shape of a suffix tree). -/
def noUnary : RTree → Bool
  | node cs => cs.length != 1 && noUnaryL cs
def noUnaryL : List RTree → Bool
  | [] => true
  | t :: ts => noUnary t && noUnaryL ts
end

/-- The subtree that is reached by following the child numbers (from 0) of a path. -/
def sub : RTree → List Nat → Option RTree
  | t, [] => some t
  | node cs, i :: p => (cs[i]?).bind fun c => sub c p

end RTree

namespace Louds

/-- `louds_node` (louds_tree.hpp:19-40): node number and position in the sequence. -/
structure Node where
  nr : Nat
  pos : Nat
deriving DecidableEq, Repr

/-- The object state: `m_bv`; the select supports refer to it (louds_tree.hpp:68-71). -/
structure Tree where
  bv : List Bool
deriving DecidableEq, Repr

/-- Loop of the constructor (louds_tree.hpp:82-87). The queue is the state of the `cst_bfs_iterator`: `++it` pops the front and pushes
its children (cst_iterators.hpp:295-310), `it.size()` is the length of the queue (cst_iterators.hpp:285-287), `it != end` holds as
long as the queue is not empty (cst_iterators.hpp:320-336). `fuel` bounds the number of visited nodes. -/
def fill : Nat → List RTree → List Bool → Nat → Option (List Bool × Nat)
  | _, [], tmp, pos => some (tmp, pos)
  | 0, _ :: _, _, _ => none
  | fuel + 1, t :: q, tmp, pos => do
    let tmp ← Bv.set tmp pos true
    let pos := pos + 1
    let size := (t :: q).length
    let q := q ++ t.children
    fill fuel q tmp (pos + (q.length + 1 - size))

/-- Constructor (louds_tree.hpp:77-93). If `resize` had to grow the vector, the contents of the new bits would be unspecified; this
is `none` here. -/
def build (t : RTree) : Option Tree := do
  let tmp := List.replicate (4 * t.leaves) false
  let (tmp, pos) ← fill t.nodes [t] tmp 0
  if pos ≤ tmp.length then some ⟨tmp.take pos⟩ else none

/-- `root` (louds_tree.hpp:127-129). -/
def root : Node := ⟨0, 0⟩

/-- `nodes` (louds_tree.hpp:132-134). -/
def nodes (T : Tree) : Nat := (T.bv.length + 1) / 2

/-- `is_leaf` (louds_tree.hpp:139-142). -/
def isLeaf (T : Tree) (v : Node) : Option Bool :=
  if v.pos + 1 = T.bv.length then some true else Bv.get T.bv (v.pos + 1)

/-- `degree` (louds_tree.hpp:148-154). The subtractions do not wrap for a `select1` result behind `v.pos`. -/
def degree (T : Tree) (v : Node) : Option Nat := do
  let l ← isLeaf T v
  if l then some 0 else
    let p ← Bv.select true T.bv (v.nr + 2)
    some (p - v.pos - 1)

/-- `child` (louds_tree.hpp:162-167). -/
def child (T : Tree) (v : Node) (i : Nat) : Option Node := do
  let pos := v.pos + i
  let zeros := pos + 1 - (v.nr + 1)
  let p ← Bv.select true T.bv (zeros + 1)
  some ⟨zeros, p⟩

/-- `parent` (louds_tree.hpp:170-177). -/
def parent (T : Tree) (v : Node) : Option Node :=
  if v = root then some root else do
    let zeroPos ← Bv.select false T.bv v.nr
    let parentNr := zeroPos + 1 - v.nr - 1
    let p ← Bv.select true T.bv (parentNr + 1)
    some ⟨parentNr, p⟩

/-- `id` (louds_tree.hpp:180-182). -/
def id (v : Node) : Nat := v.nr

/-- The node reached from `v` by calling `child` with the child numbers of a path (from 0; `child` counts from 1). -/
def follow (T : Tree) : Node → List Nat → Option Node
  | v, [] => some v
  | v, i :: p => (child T v (i + 1)).bind fun w => follow T w p

end Louds

end Sdsl
