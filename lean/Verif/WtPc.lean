/-
  Model of the prefix-code shaped wavelet tree `wt_pc` (include/sdsl/wt_pc.hpp) with the tree strategies `_byte_tree` and `_int_tree` (include/sdsl/wt_helper.hpp) and the shapes
  `huff_shape` (wt_huff.hpp) and `balanced_shape` (wt_blcd.hpp).
  Simplifications: allocation does not fail; sums of frequencies and positions in the bit vector, which are bounded by `size * 2 * sigma`, are natural numbers; the bit vector and its
  supports are those of `Bv`; the `std::priority_queue` is a list from which the smallest pair is taken.
-/
import Verif.WtAlg
import Verif.Arr
import Verif.Bits

namespace Sdsl.Wt

open Bits

/-- `pc_node`, wt_helper.hpp:59-71. -/
structure PcNode where
  freq : Nat
  sym : Nat
  parent : Nat
  child0 : Nat
  child1 : Nat
deriving DecidableEq, Repr

/-- `pc_node::undef`, wt_helper.hpp:65. -/
def PcNode.undef : Nat := 2 ^ 64 - 1

/-- `pc_node(freq, sym)` with the default arguments, wt_helper.hpp:67-68. -/
def PcNode.leaf (freq sym : Nat) : PcNode := ⟨freq, sym, undef, undef, undef⟩

/-- A tree strategy: `byte_tree<dfs>` or `int_tree<dfs>`. -/
structure Strat where
  byte : Bool
  dfs : Bool
deriving DecidableEq, Repr

/-- `undef` of the strategy, wt_helper.hpp:134, 377: the largest `node_type`. -/
def Strat.undef (S : Strat) : Nat := if S.byte then 2 ^ 16 - 1 else 2 ^ 64 - 1

/-- Conversion to `node_type`. -/
def Strat.node (S : Strat) (x : Nat) : Nat := x % (S.undef + 1)

/-- Conversion of a `uint64_t` to `value_type`. -/
def Strat.val (S : Strat) (x : Nat) : Word := BitVec.ofNat 64 (if S.byte then x % 256 else x)

/-- `_node`, wt_helper.hpp:74-107. -/
structure DNode where
  bvPos : Nat
  bvRank : Nat
  parent : Nat
  child0 : Nat
  child1 : Nat
deriving DecidableEq, Repr

/-- `child[k]`. -/
def DNode.child (d : DNode) (k : Bool) : Nat := if k then d.child1 else d.child0

/-- `child[k] = x`. -/
def DNode.setChild (d : DNode) (k : Bool) (x : Nat) : DNode := if k then { d with child1 := x } else { d with child0 := x }

/-- `_node& operator=(const pc_node& v)`, wt_helper.hpp:100-107. -/
def DNode.ofPc (S : Strat) (p : PcNode) : DNode := ⟨p.freq, p.sym, S.node p.parent, S.node p.child0, S.node p.child1⟩

/-! ### Shapes -/

/-- A shape computes the code tree from the frequencies. `lex` is `lex_ordered`. -/
structure Shape where
  lex : Bool
  tree : List Nat → Option (List PcNode)

namespace Huff

/-- The smaller of two (frequency, node) pairs. -/
def le (a b : Nat × Nat) : Bool := a.1 < b.1 || (a.1 == b.1 && a.2 ≤ b.2)

/-- `pq.top(); pq.pop();`: the smallest pair and the others. -/
def popMin : List (Nat × Nat) → Option ((Nat × Nat) × List (Nat × Nat))
  | [] => none
  | a :: l =>
    match popMin l with
    | none => some (a, [])
    | some (m, r) => if le a m then some (a, l) else some (m, a :: r)

/-- `for_each` over the frequencies, wt_huff.hpp:95-103: the leaves and the queue. -/
def leaves : List Nat → Nat → List PcNode → List (Nat × Nat) → List PcNode × List (Nat × Nat)
  | [], _, nodes, pq => (nodes, pq)
  | f :: C, i, nodes, pq => if f > 0 then leaves C (i + 1) (nodes ++ [PcNode.leaf f i]) ((f, nodes.length) :: pq) else leaves C (i + 1) nodes pq

/-- `while (pq.size() > 1)`, wt_huff.hpp:105-117. Every iteration removes an entry of the queue. -/
def loop : Nat → List PcNode → List (Nat × Nat) → Option (List PcNode)
  | 0, _, _ => none
  | fuel + 1, nodes, pq =>
    if pq.length > 1 then do
      let (v1, pq) ← popMin pq
      let (v2, pq) ← popMin pq
      let a ← nodes[v1.2]?
      let nodes ← setList nodes v1.2 { a with parent := nodes.length }
      let b ← nodes[v2.2]?
      let nodes ← setList nodes v2.2 { b with parent := nodes.length }
      let s := v1.1 + v2.1
      loop fuel (nodes ++ [⟨s, 0, PcNode.undef, v1.2, v2.2⟩]) ((s, nodes.length) :: pq)
    else some nodes

/-- `_huff_shape::construct_tree`, wt_huff.hpp:91-118. -/
def tree (C : List Nat) : Option (List PcNode) :=
  let r := leaves C 0 [] []
  loop (C.length + 1) r.1 r.2

/-- `huff_shape`. -/
def shape : Shape := ⟨false, tree⟩

end Huff

namespace Blcd

/-- `_construct_tree`, wt_blcd.hpp:99-124; `fuel` bounds the depth of the recursion. Returns the nodes and the pair (frequency, node). -/
def build (C : List Nat) (symbols : List Nat) : Nat → Nat → Nat → Nat → List PcNode → Option (List PcNode × Nat × Nat)
  | 0, _, _, _, _ => none
  | fuel + 1, parent, lb, sigma, nodes =>
    if sigma = 1 then do
      let s ← symbols[lb]?
      let f ← C[s]?
      pure (nodes ++ [⟨f, s, parent, PcNode.undef, PcNode.undef⟩], f, nodes.length)
    else do
      let id := nodes.length
      let lSigma := (sigma + 1) / 2
      let (nodes, f0, n0) ← build C symbols fuel id lb lSigma (nodes ++ [⟨0, 0, parent, PcNode.undef, PcNode.undef⟩])
      let (nodes, f1, n1) ← build C symbols fuel id (lb + lSigma) (sigma - lSigma) nodes
      let d ← nodes[id]?
      let nodes ← setList nodes id { d with freq := f0 + f1, child0 := n0, child1 := n1 }
      pure (nodes, f0 + f1, id)

/-- `child -= (child != pc_node::undef)`, wt_blcd.hpp:89-93. -/
def dec (c : Nat) : Nat := if c = PcNode.undef then c else c - 1

/-- Moves the root behind the other nodes, wt_blcd.hpp:85-94. -/
def rotate (nodes : List PcNode) : Option (List PcNode) :=
  match nodes with
  | [] => none
  | root :: rest =>
    some (rest.map (fun d => { d with parent := (d.parent + nodes.length - 1) % nodes.length, child0 := dec d.child0, child1 := dec d.child1 }) ++
      [{ root with child0 := dec root.child0, child1 := dec root.child1 }])

/-- The symbols that occur, in ascending order, wt_blcd.hpp:74-81. -/
def symbols : List Nat → Nat → List Nat
  | [], _ => []
  | f :: C, c => if f > 0 then c :: symbols C (c + 1) else symbols C (c + 1)

/-- `_balanced_shape::construct_tree`, wt_blcd.hpp:71-96. -/
def tree (C : List Nat) : Option (List PcNode) :=
  let syms := symbols C 0
  if syms.length > 0 then do
    let (nodes, _) ← build C syms syms.length PcNode.undef 0 syms.length []
    rotate nodes
  else some []

/-- `balanced_shape`. -/
def shape : Shape := ⟨true, tree⟩

end Blcd

/-! ### The tree in memory -/

/-- State of the loop that stores the code tree in BFS or DFS order. -/
structure BState where
  nodes : List DNode
  bvSize : Nat
  cnt : Nat
  last : Nat
  q : List Nat
  maxC : Nat
deriving DecidableEq, Repr

/-- One iteration of the loop over the children, wt_helper.hpp:193-196, 435-438. -/
def addChild (S : Strat) (temp : List PcNode) (idx : Nat) (k : Bool) (nodes : List DNode) (cnt : Nat) (q : List Nat) : Option (List DNode × Nat × List Nat) := do
  let d ← nodes[idx]?
  let p ← temp[d.child k]?
  let nodes ← setList nodes cnt { DNode.ofPc S p with parent := idx }
  let d ← nodes[idx]?
  let nodes ← setList nodes idx (d.setChild k (S.node cnt))
  pure (nodes, cnt + 1, q ++ [S.node cnt])

/-- The body of the `while` loop after `idx` has been taken out of the queue, wt_helper.hpp:179-197, 418-440; `q` is the rest of the queue. -/
def visit (S : Strat) (temp : List PcNode) (s : BState) (idx : Nat) (q : List Nat) : Option BState := do
  let d ← s.nodes[idx]?
  let nodes ← setList s.nodes idx { d with bvPos := s.bvSize }
  let leaf := d.child0 == S.undef
  let bvSize := if leaf then s.bvSize else s.bvSize + d.bvPos
  let maxC := if leaf then max s.maxC d.bvRank else s.maxC
  Option.bind (if idx > 0 then do
      let p ← nodes[d.parent]?
      let nodes ← setList nodes d.parent (p.setChild (s.last == d.parent) idx)
      pure (nodes, d.parent)
    else some (nodes, s.last)) fun (nodes, last) => do
  let d ← nodes[idx]?
  if d.child0 = S.undef then pure ⟨nodes, bvSize, s.cnt, last, q, maxC⟩
  else do
    let (nodes, cnt, q) ← addChild S temp idx false nodes s.cnt q
    let (nodes, cnt, q) ← addChild S temp idx true nodes cnt q
    pure ⟨nodes, bvSize, cnt, last, q, maxC⟩

/-- `q.front(); q.pop_front();` or, for the DFS order, `q.back(); q.pop_back();`, wt_helper.hpp:174-178. -/
def popQ (S : Strat) (q : List Nat) : Option (Nat × List Nat) :=
  if S.dfs then q.getLast?.map (fun x => (x, q.dropLast)) else
    match q with
    | [] => none
    | x :: q => some (x, q)

/-- `while (!q.empty())`, wt_helper.hpp:172-199, 411-441. Every iteration takes a node out of the queue. -/
def storeLoop (S : Strat) (temp : List PcNode) : Nat → BState → Option BState
  | 0, _ => none
  | fuel + 1, s =>
    match popQ S s.q with
    | none => some s
    | some (idx, q) => do
      let s ← visit S temp s idx q
      storeLoop S temp fuel s

/-- The tree structure: `m_nodes`, `m_c_to_leaf`, `m_path`. The arrays of a default constructed `_byte_tree` are uninitialised; they are modelled as empty, so that every access to them
is undefined. -/
structure PTree where
  nodes : List DNode
  cToLeaf : List Nat
  path : List Word
deriving DecidableEq, Repr

/-- The loop over the nodes that fills `m_c_to_leaf`, wt_helper.hpp:203-206, 445-451. -/
def fillLeaves (S : Strat) : List DNode → Nat → List Nat → Option (List Nat)
  | [], _, ctl => some ctl
  | d :: nodes, v, ctl =>
    if d.child0 = S.undef then do
      let ctl ← setList ctl (if S.byte then d.bvRank % 256 else d.bvRank) (S.node v)
      fillLeaves S nodes (v + 1) ctl
    else fillLeaves S nodes (v + 1) ctl

/-- `while (v != root())`, wt_helper.hpp:217-223, 463-469: the path and its length. `fuel` bounds the depth of the tree. -/
def upPath (nodes : List DNode) : Nat → Nat → Word → Nat → Option (Word × Nat)
  | 0, _, _, _ => none
  | fuel + 1, v, pw, pl =>
    if v = 0 then some (pw, pl)
    else do
      let d ← nodes[v]?
      let p ← nodes[d.parent]?
      let pw := pw <<< 1
      upPath nodes fuel d.parent (if p.child1 = v then pw ||| 1#64 else pw) (pl + 1)

/-- The loop over the symbols, wt_helper.hpp:212-233, 458-479. -/
def fillPaths (S : Strat) (nodes : List DNode) : List Nat → Nat → Nat → Option (Except String (List Word))
  | [], _, _ => some (.ok [])
  | v :: ctl, c, prevC =>
    if v ≠ S.undef then do
      let (pw, pl) ← upPath nodes (nodes.length + 1) v 0#64 0
      if pl > 56 then pure (.error "Code depth greater than 56!!!")
      else do
        let r ← fillPaths S nodes ctl (c + 1) c
        match r with
        | .error e => pure (.error e)
        | .ok ps => pure (.ok ((pw ||| BitVec.ofNat 64 pl <<< 56) :: ps))
    else do
      let r ← fillPaths S nodes ctl (c + 1) prevC
      match r with
      | .error e => pure (.error e)
      | .ok ps => pure (.ok (BitVec.ofNat 64 prevC :: ps))

/-- `_byte_tree(temp_nodes, bv_size, wt)` and `_int_tree(temp_nodes, bv_size, wt)`, wt_helper.hpp:164-234, 402-480: the tree and `bv_size`. -/
def PTree.new (S : Strat) (temp : List PcNode) : Option (Except String (PTree × Nat)) := do
  let root ← temp.getLast?
  let nodes ← setList (List.replicate temp.length (⟨0, 0, S.undef, S.undef, S.undef⟩ : DNode)) 0 (DNode.ofPc S root)
  let s ← storeLoop S temp (temp.length + 1) ⟨nodes, 0, 1, S.undef, [0], 0⟩
  let ctl ← fillLeaves S s.nodes 0 (List.replicate (if S.byte then 256 else s.maxC + 1) S.undef)
  let p ← fillPaths S s.nodes ctl 0 0
  match p with
  | .error e => pure (.error e)
  | .ok path => pure (.ok (⟨s.nodes, ctl, path⟩, s.bvSize))

namespace PTree

/-- `bv_pos(v)`, wt_helper.hpp:330-332, 588-590. -/
def bvPos (T : PTree) (v : Nat) : Option Nat := T.nodes[v]?.map (·.bvPos)

/-- `bv_pos_rank(v)`, wt_helper.hpp:335-337, 593-595. -/
def bvRank (T : PTree) (v : Nat) : Option Nat := T.nodes[v]?.map (·.bvRank)

/-- `child(v, i)`, wt_helper.hpp:309-311, 564-566. -/
def child (T : PTree) (v : Nat) (i : Bool) : Option Nat := T.nodes[v]?.map (·.child i)

/-- `parent(v)`, wt_helper.hpp:305-307, 560-562. -/
def parent (T : PTree) (v : Nat) : Option Nat := T.nodes[v]?.map (·.parent)

/-- `is_leaf(v)`, wt_helper.hpp:314-316, 569-571. -/
def isLeaf (S : Strat) (T : PTree) (v : Nat) : Option Bool := T.nodes[v]?.map (fun d => d.child0 == S.undef)

/-- `size(v)` of an inner node, wt_helper.hpp:319-322, 574-577. -/
def size (S : Strat) (T : PTree) (v : Nat) : Option Nat := do
  let d ← T.nodes[v]?
  let next := if S.dfs then d.child0 else v + 1
  let b ← T.bvPos next
  pure (b - d.bvPos)

/-- `c_to_leaf(c)`, wt_helper.hpp:291-293, 543-548. -/
def leafOf (S : Strat) (T : PTree) (c : Word) : Option Nat :=
  if S.byte then T.cToLeaf[c.toNat]? else if c.toNat ≥ T.cToLeaf.length then some S.undef else T.cToLeaf[c.toNat]?

/-- `bit_path(c)`, wt_helper.hpp:325-327, 580-585. -/
def bitPath (S : Strat) (T : PTree) (c : Word) : Option Word :=
  if S.byte then T.path[c.toNat]? else if c.toNat ≥ T.path.length then some (BitVec.ofNat 64 T.path.length - 1#64) else T.path[c.toNat]?

/-- `init_node_ranks(rank)`, wt_helper.hpp:236-242, 482-488. -/
def initRanks (S : Strat) (bv : List Bool) : List DNode → Option (List DNode)
  | [] => some []
  | d :: nodes =>
    Option.bind (if d.child0 ≠ S.undef then Option.map (fun r => { d with bvRank := r }) (Bv.rank true bv d.bvPos) else some d) fun d =>
    Option.bind (initRanks S bv nodes) fun nodes => some (d :: nodes)

/-- The loop of `symbol_gte(c)`: the first symbol of the alphabet from `i` on; `k` entries remain. -/
def gteLoop (S : Strat) (T : PTree) : Nat → Nat → Option (Bool × Word)
  | 0, _ => some (false, 0#64)
  | k + 1, i => do
    let v ← T.cToLeaf[i]?
    if v ≠ S.undef then pure (true, S.val i) else gteLoop S T k (i + 1)

/-- `symbol_gte(c)`, wt_helper.hpp:345-352, 603-613. -/
def symbolGte (S : Strat) (T : PTree) (c : Word) : Option (Bool × Word) :=
  if S.byte then gteLoop S T (256 - c.toNat) c.toNat
  else if c.toNat ≥ T.cToLeaf.length then some (false, 0#64)
  else gteLoop S T (T.cToLeaf.length - c.toNat) c.toNat

/-- The loop of `symbol_lte(c)` and the test of symbol 0 behind it. -/
def lteLoop (S : Strat) (T : PTree) : Nat → Option (Bool × Word)
  | 0 => do
    let v ← T.cToLeaf[0]?
    if v ≠ S.undef then pure (true, 0#64) else pure (false, 0#64)
  | i + 1 => do
    let v ← T.cToLeaf[i + 1]?
    if v ≠ S.undef then pure (true, S.val (i + 1)) else lteLoop S T i

/-- `symbol_lte(c)`, wt_helper.hpp:355-364, 616-629. `m_c_to_leaf.size() - 1` wraps around for the empty tree. -/
def symbolLte (S : Strat) (T : PTree) (c : Word) : Option (Bool × Word) :=
  if S.byte then lteLoop S T c.toNat
  else if c.toNat ≥ T.cToLeaf.length then lteLoop S T ((T.cToLeaf.length + (2 ^ 64 - 1)) % 2 ^ 64)
  else lteLoop S T c.toNat

end PTree

/-! ### wt_pc -/

/-- `wt_pc`, wt_pc.hpp:80-93. -/
structure WtPc where
  S : Strat
  lex : Bool
  size : Nat
  sigma : Nat
  bv : List Bool
  tree : PTree
deriving DecidableEq, Repr

namespace WtPc

/-- The loop of `calculate_character_occurences`, wt_helper.hpp:43-47. `c+1` wraps around. -/
def countLoop : List Word → List Nat → Option (List Nat)
  | [], C => some C
  | c :: xs, C => do
    let m := (c.toNat + 1) % 2 ^ 64
    let C := if c.toNat ≥ C.length then C.take m ++ List.replicate (m - C.length) 0 else C
    let f ← C[c.toNat]?
    let C ← setList C c.toNat (f + 1)
    countLoop xs C

/-- `calculate_effective_alphabet_size`, wt_helper.hpp:51-57. -/
def alphabetSize (C : List Nat) : Nat := C.countP (fun f => decide (f > 0))

/-- `bv.set_int(pos, 0xFFFFFFFFFFFFFFFF, times)`: `times` bits from `pos` on become 1. Nothing is changed for `times = 0` (int_vector.hpp:1229-1240, bits.hpp:380-410). -/
def setOnes : List Bool → Nat → Nat → Option (List Bool)
  | bv, _, 0 => some bv
  | bv, pos, times + 1 => do
    let bv ← Bv.set bv pos true
    setOnes bv (pos + 1) times

/-- The loop of `insert_char`, wt_pc.hpp:116-122; `len` steps of the path remain. -/
def insertLoop (T : PTree) (times : Nat) : Nat → Nat → Word → List Nat → List Bool → Option (List Nat × List Bool)
  | 0, _, _, pos, bv => some (pos, bv)
  | len + 1, v, p, pos, bv => do
    let o ← pos[v]?
    let b := p.getLsbD 0
    Option.bind (if b then setOnes bv o times else some bv) fun bv => do
    let pos ← setList pos v (o + times)
    let v ← T.child v b
    insertLoop T times len v (p >>> 1) pos bv

/-- `insert_char(old_chr, bv_node_pos, times, bv)`, wt_pc.hpp:110-123. -/
def insertChar (S : Strat) (T : PTree) (c : Word) (pos : List Nat) (times : Nat) (bv : List Bool) : Option (List Nat × List Bool) := do
  let p ← PTree.bitPath S T c
  insertLoop T times (p >>> 56).toNat 0 p pos bv

/-- The loop over the sequence, wt_pc.hpp:233-249. -/
def fillLoop (S : Strat) (T : PTree) : List Word → Word → Nat → List Nat → List Bool → Option (List Bool)
  | [], old, times, pos, bv =>
    if times > 0 then Option.map (·.2) (insertChar S T old pos times bv) else some bv
  | c :: xs, old, times, pos, bv =>
    if c ≠ old then do
      let (pos, bv) ← insertChar S T old pos times bv
      fillLoop S T xs c 1 pos bv
    else if times + 1 = 64 then do
      let (pos, bv) ← insertChar S T old pos (times + 1) bv
      fillLoop S T xs old 0 pos bv
    else fillLoop S T xs old (times + 1) pos bv

/-- `wt_pc(input_buf, size)`, wt_pc.hpp:201-256, for a buffer that holds `buf`. -/
def new (S : Strat) (shape : Shape) (buf : List Word) (size : Nat) : Option (Except String WtPc) :=
  if size = 0 then some (.ok ⟨S, shape.lex, 0, 0, [], ⟨[], [], []⟩⟩)
  else if buf.length < size then some (.error "calculate_character_occurrences: stream size is smaller than size!")
  else do
    let xs := buf.take size
    let C ← countLoop xs []
    let temp ← shape.tree C
    let r ← PTree.new S temp
    match r with
    | .error e => pure (.error e)
    | .ok (T, bvSize) => do
      let x0 ← xs[0]?
      let bv ← fillLoop S T xs x0 0 (T.nodes.map (·.bvPos)) (List.replicate bvSize false)
      let nodes ← PTree.initRanks S bv T.nodes
      pure (.ok ⟨S, shape.lex, size, alphabetSize C, bv, { T with nodes := nodes }⟩)

variable (t : WtPc)

/-- `m_bv_rank(m_tree.bv_pos(v) + i) - m_tree.bv_pos_rank(v)`. -/
def ones (v i : Nat) : Option Nat := do
  let p ← t.tree.bvPos v
  let r ← Bv.rank true t.bv (p + i)
  let o ← t.tree.bvRank v
  pure (r - o)

/-- The loop of `inverse_select` and `operator[]`, wt_pc.hpp:333-345, 401-413: the position in the leaf and the leaf. -/
def walk : Nat → Nat → Nat → Option (Nat × Nat)
  | 0, _, _ => none
  | fuel + 1, v, i => do
    let l ← t.tree.isLeaf t.S v
    if l then pure (i, v)
    else do
      let p ← t.tree.bvPos v
      let b ← Bv.get t.bv (p + i)
      let o ← t.ones v i
      let c ← t.tree.child v b
      if b then walk fuel c o else walk fuel c (i - o)

/-- `inverse_select(i)`, wt_pc.hpp:397-415. -/
def inverseSelect (i : Nat) : Option (Nat × Word) := do
  let (i, v) ← t.walk (t.tree.nodes.length + 1) 0 i
  let s ← t.tree.bvRank v
  pure (i, t.S.val s)

/-- `operator[](i)`, wt_pc.hpp:327-348. -/
def get (i : Nat) : Option Word := Option.map (·.2) (t.inverseSelect i)

/-- The loop of `rank`, wt_pc.hpp:373-383. -/
def rankLoop : Nat → Nat → Word → Nat → Option Nat
  | 0, _, _, result => some result
  | len + 1, v, p, result =>
    if result = 0 then some result
    else do
      let o ← t.ones v result
      let b := p.getLsbD 0
      let v ← t.tree.child v b
      rankLoop len v (p >>> 1) (if b then o else result - o)

/-- `rank(i, c)`, wt_pc.hpp:360-385. -/
def rank (i : Nat) (c : Word) : Option Nat := do
  let l ← t.tree.leafOf t.S c
  if l = t.S.undef then pure 0
  else if t.sigma = 1 then pure i
  else do
    let p ← t.tree.bitPath t.S c
    t.rankLoop (p >>> 56).toNat 0 p i

/-- The loop of `select`, wt_pc.hpp:442-454. -/
def selectLoop : Nat → Nat → Word → Nat → Option Nat
  | 0, _, _, result => some result
  | len + 1, v, p, result => do
    let v ← t.tree.parent v
    let o ← t.tree.bvPos v
    let r ← t.tree.bvRank v
    let s ← (if p.getLsbD 63 then Bv.select true t.bv (r + result + 1) else Bv.select false t.bv (o - r + result + 1))
    selectLoop len v (p <<< 1) (s - o)

/-- `select(i, c)`, wt_pc.hpp:427-456, for `i ≥ 1`. -/
def select (i : Nat) (c : Word) : Option Nat := do
  let v ← t.tree.leafOf t.S c
  if v = t.S.undef then pure t.size
  else if t.sigma = 1 then pure (min (i - 1) t.size)
  else do
    let p ← t.tree.bitPath t.S c
    let len := (p >>> 56).toNat
    let p ← shl p (64 - len)
    t.selectLoop len v p (i - 1)

/-- `_interval_symbols`, wt_pc.hpp:150-187: the entries (`cs[k]`, `rank_c_i[k]`, `rank_c_j[k]`) that it appends. -/
def intervalRec : Nat → Nat → Nat → Nat → Option (List (Word × Nat × Nat))
  | 0, _, _, _ => none
  | fuel + 1, v, i, j => do
    let i1 ← t.ones v i
    let j1 ← t.ones v j
    let sub := fun (k : Bool) (i j : Nat) =>
      if i ≠ j then do
        let c ← t.tree.child v k
        let l ← t.tree.isLeaf t.S c
        if l then do
          let s ← t.tree.bvRank c
          pure [(t.S.val s, i, j)]
        else intervalRec fuel c i j
      else some []
    let l ← sub false (i - i1) (j - j1)
    let r ← sub true i1 j1
    pure (l ++ r)

/-- `interval_symbols(i, j, k, cs, rank_c_i, rank_c_j)`, wt_pc.hpp:480-519; the result vectors have room for `sigma` entries (precondition). -/
def intervalSymbols (i j : Nat) : Option (List (Word × Nat × Nat)) :=
  if i = j then some []
  else if t.sigma = 1 then do
    let s ← t.tree.bvRank 0
    pure [(t.S.val s, min i t.size, min j t.size)]
  else if j - i = 1 then do
    let r ← t.inverseSelect i
    pure [(r.2, r.1, r.1 + 1)]
  else if j - i = 2 then do
    let a ← t.inverseSelect i
    let b ← t.inverseSelect (i + 1)
    if a.2 = b.2 then pure [(a.2, a.1, a.1 + 2)]
    else if t.lex && decide (b.2 < a.2) then pure [(b.2, b.1, b.1 + 1), (a.2, a.1, a.1 + 1)]
    else pure [(a.2, a.1, a.1 + 1), (b.2, b.1, b.1 + 1)]
  else t.intervalRec (t.tree.nodes.length + 1) 0 i j

/-- The loop of `lex_count`, wt_pc.hpp:567-584. `j - r1_2 - i + r1_1`, which is computed modulo `2^64`, is not negative. -/
def lexLoop : Nat → Nat → Word → Nat → Nat → Nat → Nat → Option (Nat × Nat × Nat)
  | 0, _, _, i, _, smaller, greater => some (i, smaller, greater)
  | len + 1, v, p, i, j, smaller, greater => do
    let r1 ← t.ones v i
    let r2 ← t.ones v j
    let b := p.getLsbD 0
    let v ← t.tree.child v b
    if b then lexLoop len v (p >>> 1) r1 r2 (smaller + (j + r1 - (r2 + i))) greater
    else lexLoop len v (p >>> 1) (i - r1) (j - r2) smaller (greater + (r2 - r1))

/-- `lex_count(i, j, c)`, wt_pc.hpp:538-586. `fuel` bounds the recursion for a symbol that does not occur. -/
def lexCountGo : Nat → Nat → Nat → Word → Option (Nat × Nat × Nat)
  | 0, _, _, _ => none
  | fuel + 1, i, j, c =>
    if t.sigma = 1 then do
      let s ← t.tree.bvRank 0
      if c = t.S.val s then pure (i, 0, 0) else if c < t.S.val s then pure (0, 0, j - i) else pure (0, j - i, 0)
    else if i = j then do
      let r ← t.rank i c
      pure (r, 0, 0)
    else do
      let p ← t.tree.bitPath t.S c
      let len := (p >>> 56).toNat
      if len = 0 then
        if c = t.S.val p.toNat then pure (0, 0, j - i)
        else do
          let res ← lexCountGo fuel i j (t.S.val p.toNat)
          pure (0, j - i - res.2.2, res.2.2)
      else t.lexLoop len 0 p i j 0 0

def lexCount (i j : Nat) (c : Word) : Option (Nat × Nat × Nat) := t.lexCountGo 3 i j c

/-- The loop of `lex_smaller_count`, wt_pc.hpp:628-640. -/
def smallerLoop : Nat → Nat → Word → Nat → Nat → Option (Nat × Nat)
  | 0, _, _, all, result => some (all, result)
  | len + 1, v, p, all, result =>
    if all = 0 then some (all, result)
    else do
      let o ← t.ones v all
      let b := p.getLsbD 0
      let v ← t.tree.child v b
      if b then smallerLoop len v (p >>> 1) o (result + (all - o)) else smallerLoop len v (p >>> 1) (all - o) result

/-- `lex_smaller_count(i, c)`, wt_pc.hpp:600-642. -/
def lexSmallerGo : Nat → Nat → Word → Option (Nat × Nat)
  | 0, _, _ => none
  | fuel + 1, i, c =>
    if t.sigma = 1 then do
      let s ← t.tree.bvRank 0
      if c = t.S.val s then pure (i, 0) else if c < t.S.val s then pure (0, 0) else pure (0, i)
    else do
      let p ← t.tree.bitPath t.S c
      let len := (p >>> 56).toNat
      if len = 0 then
        if c = t.S.val p.toNat then pure (0, 0)
        else do
          let res ← lexSmallerGo fuel i (t.S.val p.toNat)
          pure (0, res.1 + res.2)
      else t.smallerLoop len 0 p i 0

def lexSmallerCount (i : Nat) (c : Word) : Option (Nat × Nat) := t.lexSmallerGo 3 i c

/-- `path(c)`, wt_pc.hpp:839-847: length and directions. The shift is undefined for a path of length 0. -/
def path (c : Word) : Option (Nat × Word) := do
  let p ← t.tree.bitPath t.S c
  let len := (p >>> 56).toNat
  let r ← shr (Bits.rev p) (64 - len)
  pure (len, r)

/-- `expand(v, r)`, wt_pc.hpp:820-836. As in `expandRange`, `r[1] + 1` wraps. -/
def expandR (v : Nat) (r : Range) : Option (Range × Range) := do
  let d ← t.tree.nodes[v]?
  let spRank ← Bv.rank true t.bv (d.bvPos + r.1)
  let epRank ← Bv.rank true t.bv (d.bvPos + Range.stop r)
  let rightSize := epRank - spRank
  let leftSize := Range.size r - rightSize
  let rightSp := spRank - d.bvRank
  let leftSp := r.1 - rightSp
  pure (Range.mk leftSp leftSize, Range.mk rightSp rightSize)

/-- `size(v)`, wt_pc.hpp:725-742. -/
def nodeSize (v : Nat) : Option Nat := do
  let l ← t.tree.isLeaf t.S v
  if l then
    if v = 0 then pure t.size
    else do
      let p ← t.tree.parent v
      let s ← t.tree.size t.S p
      let rs ← t.expandR p (Range.mk 0 s)
      let c0 ← t.tree.child p false
      if c0 = v then pure (Range.size rs.1) else pure (Range.size rs.2)
  else t.tree.size t.S v

/-- Node interface, wt_pc.hpp:691-836. `is_leaf`, `sym` and `size` of an index that is not a node are undefined; the totalised values below are never used for a node. -/
def nav : Tree Nat where
  root := 0
  isLeaf v := (t.tree.isLeaf t.S v).getD true
  sym v := t.S.val ((t.tree.bvRank v).getD 0)
  size v := (t.nodeSize v).getD 0
  expand v := do
    let a ← t.tree.child v false
    let b ← t.tree.child v true
    pure (a, b)
  expandRange := t.expandR
  bit v i := do
    let o ← t.tree.bvPos v
    Bv.get t.bv (o + i)
  depth := t.tree.nodes.length

end WtPc

end Sdsl.Wt
