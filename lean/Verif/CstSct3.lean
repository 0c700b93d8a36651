/-
  The compressed suffix tree cst_sct3: include/sdsl/cst_sct3.hpp.

  The parentheses with their `bp_support_sada` are `Bp.Sada` (BpSada.lean); its rank and select members and the rank and select supports of
  the first child bits are represented by their contracts (RmqSct.lean; C18 - C22). `m_csa.sigma` is a number, `m_lcp` is the list of
  its values and `m_csa[]` a function. A subtraction that would wrap is undefined here, except in `inv_id`, see there. Every reference parameter that a function
  writes is an additional result.
-/
import Verif.RmqSct

namespace Sdsl.CstSct3

open Bits RmqSct Spec

/-- `bp_interval`, lines 1233-1276. -/
structure Node where
  i : Nat
  j : Nat
  ipos : Nat
  cipos : Nat
  jp1pos : Nat
  deriving DecidableEq

/-- `operator==`, lines 1259-1262. -/
def Node.same (v w : Node) : Bool := v.i == w.i && v.j == w.j

/-- The members, lines 126-134. -/
structure Cst where
  bp : Bp.Sada
  fc : Mem
  sigma : Nat
  nodes : Nat

/-- A subtraction that does not wrap. -/
def sub (a b : Nat) : Option Nat := if b ≤ a then some (a - b) else none

namespace Cst

variable (s : Cst)

/-- `m_bp[k]`. -/
def at' (k : Nat) : Option Bool := if k < s.bp.n then some (bitAt s.bp.mem k) else none

/-- `m_bp_support.rank(k)`, the number of opening parentheses in `[0..k]`. -/
def rank (k : Nat) : Option Nat := rankC (bitAt s.bp.mem) s.bp.n (k + 1)

/-- `m_bp_support.select(k)`. -/
def select (k : Nat) : Option Nat := selectC (bitAt s.bp.mem) s.bp.n k

/-- `size()`, lines 369-372. -/
def size : Nat := s.bp.n / 2

/-- `m_first_child_rank`. -/
def fcRank (k : Nat) : Option Nat := rankC (bitAt s.fc) s.size k

/-- `m_first_child_select`. -/
def fcSelect (k : Nat) : Option Nat := selectC (bitAt s.fc) s.size k

/-- The number of closing parentheses before the closing parenthesis `k`: `k - m_bp_support.rank(k)`. -/
def rank0 (k : Nat) : Option Nat := do
  let r ← s.rank k
  sub k r

/-- The index of the opening parenthesis `k`: `m_bp_support.rank(k)-1`. -/
def index (k : Nat) : Option Nat := do
  let r ← s.rank k
  sub r 1

/-- `closing_pos_of_first_l_index`, lines 213-220; the same lines are in first_l_index (159-163), select_l_index (178-182) and id (1020-1024). -/
def closingPos (v : Node) : Option Nat := if v.cipos > v.jp1pos then sub v.jp1pos 1 else sub v.cipos 1

/-- `first_l_index`, lines 157-167: the index, `kpos` and `ckpos`. -/
def firstL (v : Node) : Option (Nat × Nat × Nat) := do
  let ckpos ← closingPos v
  let kpos ← s.bp.findOpen ckpos
  let k ← s.index kpos
  pure (k, kpos, ckpos)

/-- `is_leaf`, lines 509-512. -/
def isLeaf (v : Node) : Bool := v.i == v.j

/-- The search in the previous four words, lines 724-734: `while (p > data and steps-- > 0)`. -/
def scanDown : Nat → Nat → Nat → Option (Option Nat)
  | 0, _, _ => some none
  | _ + 1, 0, _ => some none
  | t + 1, p + 1, res => do
    let w ← ld s.fc p
    if w = 0#64 then scanDown t p (res + 64) else do
      let h ← hi w
      pure (some (res + (63 - h)))

/-- What follows the search, lines 735-741. -/
def degreeEnd (r0 : Nat) : Option Nat → Option Nat
  | some d => some d
  | none => do
    let g ← s.fcRank r0
    if g = 0 then some (r0 + 2) else do
      let p ← s.fcSelect g
      let d ← sub r0 p
      pure (d + 1)

/-- The number of children from the closing position of the first l-index, lines 713-742. -/
def degreeAt (r : Nat) : Option Nat := do
  let r0 ← s.rank0 r
  let w ← ld s.fc (r0 / 64)
  let mask ← loSet (r0 % 64)
  if w &&& mask ≠ 0#64 then do
    let h ← hi (w &&& mask)
    let d ← sub (r0 % 64) h
    pure (d + 1)
  else if r0 / 64 = 0 then some (r0 % 64 + 2)
  else do
    let d ← s.scanDown 4 (r0 / 64) (r0 % 64 + 2)
    s.degreeEnd r0 d

/-- `degree`, lines 708-743. -/
def degree (v : Node) : Option Nat := if isLeaf v then some 0 else do
  let r ← closingPos v
  s.degreeAt r

/-- `if (kpos < m_bp.size()) ckpos = find_close(kpos) else ckpos = m_bp.size()`, lines 202-205. -/
def closeOrEnd (kpos : Nat) : Option Nat := if kpos < s.bp.n then s.bp.findClose kpos else some s.bp.n

/-- The exit of `select_l_index` for `i >= degree(v)`, lines 200-206. -/
def selectLEnd (v : Node) : Option (Nat × Nat × Nat) := do
  let c ← s.closeOrEnd v.jp1pos
  pure (v.j + 1, v.jp1pos, c)

/-- `select_l_index`, lines 175-208: the index, `kpos` and `ckpos`. -/
def selectL (v : Node) (i : Nat) : Option (Nat × Nat × Nat) := do
  let ckpos ← closingPos v
  if 1 = i then do
    let kpos ← s.bp.findOpen ckpos
    let k ← s.index kpos
    pure (k, kpos, ckpos)
  else do
    let r ← s.rank0 ckpos
    if r + 1 ≥ i then do
      let d ← s.degree v
      if i < d then do
        let ckpos ← sub ckpos (i - 1)
        let kpos ← s.bp.findOpen ckpos
        let k ← s.index kpos
        pure (k, kpos, ckpos)
      else s.selectLEnd v
    else s.selectLEnd v

/-- `nsv`, lines 233-238. -/
def nsv (ipos : Nat) : Option Nat := do
  let c ← s.bp.findClose ipos
  s.rank c

/-- `while (!(w=*p) and steps-- > 0) { ++p; delta += 64; }`, lines 280-283. -/
def scanUp : Nat → Nat → Nat → Option (Word × Nat)
  | 0, p, delta => do
    let w ← ld s.fc p
    pure (w, delta)
  | t + 1, p, delta => do
    let w ← ld s.fc p
    if w = 0#64 then scanUp t (p + 1) (delta + 64) else pure (w, delta)

/-- `psvpos` is known: lines 260-262, 271-273, 292-294 and 296-298. -/
def psvRet (psvpos psvcpos : Nat) : Option (Nat × Nat × Nat) := do
  let k ← s.index psvpos
  pure (k, psvpos, psvcpos)

/-- The pair around the opening parenthesis `ipos`. -/
def psvEnclose (ipos : Nat) : Option (Nat × Nat × Nat) := do
  let p ← s.bp.enclose ipos
  let c ← s.bp.findClose p
  s.psvRet p c

/-- Lines 284-289: the distance to the next one, behind the search. -/
def psvDelta (r0 : Nat) (w : Word) (delta : Nat) : Option Nat :=
  if w ≠ 0#64 then do
    let l ← lo w
    pure (delta + (l + 1))
  else do
    let g ← s.fcRank (r0 + 1)
    let pos ← s.fcSelect (g + 1)
    sub pos r0

/-- Lines 291-299. -/
def psvLast (next : Nat) : Option (Nat × Nat × Nat) := do
  let b ← s.at' (next + 1)
  if !b then do
    let p ← s.bp.findOpen (next + 1)
    s.psvRet p (next + 1)
  else do
    let o ← s.bp.findOpen next
    s.psvEnclose o

/-- The search for the next first child, lines 265-299. -/
def psvSearch (ipos cipos : Nat) : Option (Nat × Nat × Nat) := do
  let r0 ← s.rank0 cipos
  let w ← ld s.fc (r0 / 64)
  let w ← shr w (r0 % 64)
  if w ≠ 0#64 then do
    let l ← lo w
    let b ← s.at' (cipos + l + 1)
    if l = 0 ∧ b = true then s.psvEnclose ipos else s.psvLast (cipos + l)
  else do
    let (w, delta) ← s.scanUp 4 (r0 / 64 + 1) (63 - r0 % 64)
    let delta ← s.psvDelta r0 w delta
    s.psvLast (cipos + delta)

/-- `psv`, lines 249-300: the index, `psvpos` and `psvcpos`. -/
def psv (ipos cipos : Nat) : Option (Nat × Nat × Nat) :=
  if cipos + s.sigma ≥ s.bp.n then do
    let c ← sub s.bp.n 1
    pure (0, 0, c)
  else do
    let b ← s.at' (cipos + 1)
    if b then s.psvEnclose ipos else s.psvSearch ipos cipos

/-- `rmq`, lines 307-322. -/
def rmq (l r : Nat) : Option Nat := do
  let i ← s.select (l + 1)
  let j ← s.select (r + 1)
  let c ← s.bp.findClose i
  if j < c then some l else do
    let e ← s.bp.rrEnclose i j
    if e = s.bp.n then some r else s.index e

/-- `root`, lines 497-500. -/
def root : Option Node := do
  let j ← sub s.size 1
  let c ← sub s.bp.n 1
  pure ⟨0, j, 0, c, s.bp.n⟩

/-- `jp1pos` in `select_leaf`, lines 526-532. -/
def leafEnd (i ipos : Nat) : Option Nat :=
  if i = s.size then some s.bp.n else do
    let b ← s.at' (ipos + 1)
    if b then some (ipos + 1) else s.select (i + 1)

/-- `select_leaf`, lines 522-534. -/
def selectLeaf (i : Nat) : Option Node := do
  let ipos ← s.select i
  let jp1pos ← s.leafEnd i ipos
  let c ← s.bp.findClose ipos
  let k ← sub i 1
  pure ⟨k, k, ipos, c, jp1pos⟩

/-- `size(v)`, lines 542-545. -/
def leaves (v : Node) : Option Nat := do
  let d ← sub v.j v.i
  pure (d + 1)

/-- `leftmost_leaf`, lines 553-556. -/
def leftmostLeaf (v : Node) : Option Node := s.selectLeaf (v.i + 1)

/-- `rightmost_leaf`, lines 564-567. -/
def rightmostLeaf (v : Node) : Option Node := s.selectLeaf (v.j + 1)

/-- The position of the opening parenthesis of `j+1`, or the size: lines 607-611, 656-660, 875-878, 955-958, 1094-1097 and 1120-1124. -/
def endPos (j : Nat) : Option Nat := do
  let l ← sub s.size 1
  if j = l then some s.bp.n else s.select (j + 2)

/-- `parent`, lines 601-618. -/
def parent (v : Node) : Option Node :=
  if v.cipos > v.jp1pos then do
    let c ← s.bp.findClose v.jp1pos
    let (p, ppos, pcpos) ← s.psv v.jp1pos c
    let q ← s.nsv v.jp1pos
    let q ← sub q 1
    let qpos ← s.endPos q
    pure ⟨p, q, ppos, pcpos, qpos⟩
  else do
    let (p, ppos, pcpos) ← s.psv v.ipos v.cipos
    pure ⟨p, v.j, ppos, pcpos, v.jp1pos⟩

/-- `last_child`, lines 648-653. -/
def lastChild (c : Nat) : Option Bool := do
  let b ← s.at' c
  if b then some true else do
    let k ← s.rank0 c
    if k < s.size then some (bitAt s.fc k) else none

/-- `sibling`, lines 638-666. -/
def sibling (v : Node) : Option Node :=
  if v.cipos < v.jp1pos then s.root else do
    let c ← s.bp.findClose v.jp1pos
    let c1 ← sub c 1
    let last ← s.lastChild c1
    if last then do
      let q ← s.nsv v.jp1pos
      let q ← sub q 1
      let qpos ← s.endPos q
      pure ⟨v.j + 1, q, v.jp1pos, c, qpos⟩
    else do
      let o ← s.bp.findOpen c1
      let r ← s.rank o
      let q ← sub r 2
      let qpos ← s.select (q + 2)
      pure ⟨v.j + 1, q, v.jp1pos, c, qpos⟩

/-- `select_child`, lines 679-698. -/
def selectChild (v : Node) (i : Nat) : Option Node :=
  if isLeaf v then s.root
  else if 1 = i then do
    let (k, kpos, _) ← s.selectL v 1
    let q ← sub k 1
    pure ⟨v.i, q, v.ipos, v.cipos, kpos⟩
  else do
    let (k1, kpos1, c1) ← s.selectL v (i - 1)
    if k1 = v.j + 1 then s.root else do
      let (k2, kpos2, _) ← s.selectL v i
      let q ← sub k2 1
      pure ⟨k1, q, kpos1, c1, kpos2⟩

/-- Lines 866-879 and 947-959: the node of the interval around `m`. -/
def around (m : Nat) : Option Node := do
  let mpos ← s.select (m + 1)
  let mcpos ← s.bp.findClose mpos
  let z ← sub s.bp.n s.sigma
  if mcpos ≥ z then s.root else do
    let q ← s.nsv mpos
    let q ← sub q 1
    let (p, ppos, pcpos) ← s.psv mpos mcpos
    let qpos ← s.endPos q
    pure ⟨p, q, ppos, pcpos, qpos⟩

/-- `lca` for nodes in the right order, lines 862-880. -/
def lcaOrd (v w : Node) : Option Node :=
  if v.j ≥ w.j then some v else do
    let m ← s.rmq (v.i + 1) w.j
    s.around m

/-- `lca`, lines 857-881. -/
def lca (v w : Node) : Option Node :=
  if v.i > w.i ∨ (v.i = w.i ∧ v.j < w.j) then s.lcaOrd w v else s.lcaOrd v w

/-- `depth`, lines 890-901. -/
def depth (lcp : List Nat) (sa : Nat → Option Nat) (v : Node) : Option Nat :=
  if v.i = v.j then do
    let x ← sa v.i
    sub s.size x
  else do
    let r ← s.root
    if v.same r then some 0 else do
      let (l, _, _) ← s.selectL v 1
      lcp[l]?

/-- `node_depth`, lines 915-923; `f` bounds the number of steps. -/
def nodeDepth : Nat → Node → Nat → Option Nat
  | 0, _, _ => none
  | f + 1, v, d => do
    let r ← s.root
    if v.same r then some d else do
      let v ← s.parent v
      nodeDepth f v (d + 1)

/-- `node`, lines 1116-1126. -/
def node (lb rb : Nat) : Option Node := do
  let ipos ← s.select (lb + 1)
  let jp1pos ← s.endPos rb
  let c ← s.bp.findClose ipos
  pure ⟨lb, rb, ipos, c, jp1pos⟩

/-- `id`, lines 1014-1028. -/
def id (v : Node) : Option Nat :=
  if isLeaf v then some v.i else do
    let c ← closingPos v
    let r ← s.rank0 c
    let k ← s.fcRank r
    pure (s.size + k)

/-- The binary searches of `inv_id`, lines 1048-1059 and 1065-1076; `arg` is the number of ones (zeros) before a position. -/
def search (arg : Nat → Option Nat) (x : Nat) : Nat → Nat → Nat → Option Nat
  | 0, _, _ => none
  | f + 1, lb, rb =>
    if rb - lb > 1 then do
      let a ← arg (lb + (rb - lb) / 2)
      if a < x then search arg x f (lb + (rb - lb) / 2) rb else search arg x f lb (lb + (rb - lb) / 2)
    else some lb

/-- The node of an inner id from the closing parenthesis of its first l-index, lines 1078-1099. `rank(ipos-1)` for `ipos = 0` wraps twice and counts
the parentheses in the empty prefix: `m_bp_rank((ipos-1)+1)`. -/
def invAt (ckpos : Nat) : Option Node := do
  let e ← sub s.bp.n 1
  if ckpos = e then s.root else do
    let b ← s.at' (ckpos + 1)
    if b then do
      let j ← s.rank ckpos
      let j ← sub j 1
      let kpos ← s.bp.findOpen ckpos
      let ipos ← s.bp.enclose kpos
      let cipos ← s.bp.findClose ipos
      let i ← rankC (bitAt s.bp.mem) s.bp.n ipos
      pure ⟨i, j, ipos, cipos, ckpos + 1⟩
    else do
      let ipos ← s.bp.findOpen (ckpos + 1)
      let i ← rankC (bitAt s.bp.mem) s.bp.n ipos
      let j ← s.nsv ipos
      let j ← sub j 1
      let jp1pos ← s.endPos j
      pure ⟨i, j, ipos, ckpos + 1, jp1pos⟩

/-- `inv_id`, lines 1038-1101. -/
def invId (id : Nat) : Option Node :=
  if id < s.size then s.selectLeaf (id + 1) else do
    let r0 ← search s.fcRank (id - s.size + 1) (s.bp.n + 1) 0 s.bp.n
    let ckpos ← search (fun mid => do
      let r ← rankC (bitAt s.bp.mem) s.bp.n mid
      sub mid r) (r0 + 1) (s.bp.n + 1) 0 s.bp.n
    s.invAt ckpos

/-- `tlcp_idx`, lines 1133-1138. -/
def tlcpIdx (i : Nat) : Option Nat := do
  let ipos ← s.select (i + 1)
  let cipos ← s.bp.findClose ipos
  let k ← sub ((ipos + cipos - 1) / 2) i
  s.fcRank k

end Cst

/-- The constructor for the LCP array, lines 1145-1173; `W`, `Wfc` are the numbers of words of the two bit vectors, `S`, `D` the parameters of
`bp_support_sada`. -/
def new (lcp : List Nat) (sigma W Wfc S D : Nat) : Option Cst := do
  let (bp, fc, cnt) ← Sct.succFc lcp true W Wfc
  let sp ← Bp.Sada.new bp (2 * lcp.length) S D
  pure ⟨sp, fc, sigma, if 2 * lcp.length = 2 then 1 else cnt + lcp.length⟩

end Sdsl.CstSct3
