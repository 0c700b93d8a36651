/-
  The compressed suffix tree cst_sada: include/sdsl/cst_sada.hpp.

  The parentheses with their `bp_support_sada` are `Bp.Sada` (BpSada.lean); its rank member and the rank and select supports of the pattern
  `10` are represented by their contracts (RmqSct.lean; C18 - C22). `m_lcp` is the list of its values, `m_csa` its members (`CsaI`,
  CstSct3Csa.lean). A node is the position of its opening parenthesis. A subtraction that would wrap is undefined here. Every
  reference parameter that a function writes is an additional result.
-/
import Verif.CstSct3Csa
import Verif.SpecPat

namespace Sdsl.CstSada

open Bits RmqSct Spec Stack Sct CstSct3

/-! ### The constructor, lines 161-236 -/

/-- `while (stack.top() > x) { stack.pop(); ++co; }`, lines 184-186 and 216-218. -/
def popGt (x : Nat) : Nat → Sss → Nat → Option (Sss × Nat)
  | 0, _, _ => none
  | f + 1, s, co => if s.getTop > x then do
      let s ← s.pop
      popGt x f s (co + 1)
    else some (s, co)

/-- `if (stack.top() < x) stack.push(x);`, lines 187-189 and 219-221. -/
def pushLt (x : Nat) (s : Sss) : Option Sss := if s.getTop < x then s.push x else some s

/-- The two together: the stack and the number, which starts with 1 for the singleton interval. -/
def stackStep (x : Nat) (s : Sss) : Option (Sss × Nat) := do
  let (s, co) ← popGt x (s.cnt + 1) s 1
  let s ← pushLt x s
  pure (s, co)

/-- `c` times `m_bp[p--] = c_par`, line 192. -/
def zerosDown : Nat → Mem → Nat → Option (Mem × Nat)
  | 0, m, p => some (m, p)
  | c + 1, m, p => do
    let m ← setZero m p
    let p ← sub p 1
    zerosDown c m p

/-- `m_bp[p--] = o_par; while (--co > 0) m_bp[p--] = c_par;`, lines 191-192. -/
def codeDown (co : Nat) (m : Mem) (p : Nat) : Option (Mem × Nat) := do
  let m ← setOne m p
  let p ← sub p 1
  zerosDown (co - 1) m p

/-- The loop from the back to the front, lines 180-193; `i` is the variable of the loop. -/
def backLoop (lcp : List Nat) : Nat → Sss → Mem → Nat → Option (Sss × Mem × Nat)
  | 0, s, m, p => some (s, m, p)
  | i + 1, s, m, p => do
    let l ← lcp[i + 1]?
    let (s, co) ← stackStep (l + 1) s
    let (m, p) ← codeDown co m p
    backLoop lcp i s m p

/-- `while (stack.size() > 1) { stack.pop(); m_bp[p--] = c_par; }`, lines 196-199. -/
def backEnd : Nat → Sss → Mem → Nat → Option (Sss × Mem × Nat)
  | 0, _, _, _ => none
  | f + 1, s, m, p => if s.cnt > 1 then do
      let s ← s.pop
      let m ← setZero m p
      let p ← sub p 1
      backEnd f s m p
    else some (s, m, p)

/-- The run from the back to the front, lines 177-199: the stack, the vector and the position in front of the unary numbers. -/
def back (lcp : List Nat) (m : Mem) (size : Nat) : Option (Sss × Mem × Nat) := do
  let s ← Sss.new (lcp.length + 1)
  let s ← s.push 0
  let p ← sub size 1
  let (s, m, p) ← backLoop lcp (lcp.length - 1) s m p
  let m ← setOne m p
  let p ← sub p 1
  backEnd s.cnt s m p

/-- `do { ++co; } while (m_bp[++p] == c_par);`, lines 209-211. -/
def readCo (m : Mem) (size : Nat) : Nat → Nat → Nat → Option (Nat × Nat)
  | 0, _, _ => none
  | f + 1, p, co => if p + 1 < size then do
      let b ← Bp.bit m (p + 1)
      if b then some (p + 1, co + 1) else readCo m size f (p + 1) (co + 1)
    else none

/-- `while (co-- > 0) m_bp[q++] = o_par;`, line 223. -/
def onesUp : Nat → Mem → Nat → Option (Mem × Nat)
  | 0, m, q => some (m, q)
  | c + 1, m, q => do
    let m ← setOne m q
    onesUp c m (q + 1)

/-- `while (cc-- > 0) m_bp[q++] = c_par;`, line 224. -/
def zerosUp : Nat → Mem → Nat → Option (Mem × Nat)
  | 0, m, q => some (m, q)
  | c + 1, m, q => do
    let m ← setZero m q
    zerosUp c m (q + 1)

/-- The loop from the front to the back, lines 205-225; `c` values are left. -/
def frontLoop (lcp : List Nat) (size : Nat) : Nat → Nat → Sss → Mem → Nat → Nat → Option (Sss × Mem × Nat)
  | 0, _, s, m, _, q => some (s, m, q)
  | c + 1, i, s, m, p, q => do
    let (p, co) ← readCo m size size p 0
    let l ← lcp[i]?
    let (s, cc) ← stackStep (l + 1) s
    let (m, q) ← onesUp co m q
    let (m, q) ← zerosUp cc m q
    frontLoop lcp size c (i + 1) s m p q

/-- `while (!stack.empty()) { m_bp[q++] = c_par; stack.pop(); }`, lines 228-231. -/
def frontEnd : Nat → Sss → Mem → Nat → Option (Mem × Nat)
  | 0, _, _, _ => none
  | f + 1, s, m, q => if s.empty then some (m, q) else do
      let m ← setZero m q
      let s ← s.pop
      frontEnd f s m (q + 1)

/-- The two runs, lines 177-231: the vector and the number of parentheses. -/
def fill (lcp : List Nat) (m : Mem) (size : Nat) : Option (Mem × Nat) := do
  let (s, m, p) ← back lcp m size
  let (s, m, q) ← frontLoop lcp size (lcp.length - 1) 1 s m p 0
  let m ← setOne m q
  frontEnd (s.cnt + 1) s m (q + 1)

/-- The parentheses, lines 163-235; `junk` is the content of fresh memory. -/
def parens (junk : Nat → Word) (lcp : List Nat) : Option IntVec := do
  let v ← IntVec.resize junk ⟨0, [], 1⟩ 0
  let v ← v.resize junk (4 * lcp.length)
  if lcp.length > 0 then do
    let (m, q) ← fill lcp v.data v.size
    IntVec.resize junk { v with data := m } q
  else some v

/-- The members used by the operations, lines 108-113: the parentheses with their support, and `m_csa.size()`. -/
structure Cst where
  bp : Bp.Sada
  csaSize : Nat

/-- `cst_sada(cache_config&)`, lines 161-253: the part that depends on the LCP array; the other members are loaded. -/
def new (junk : Nat → Word) (lcp : List Nat) (S D : Nat) : Option Cst := do
  let v ← parens junk lcp
  let b ← Bp.Sada.new v.data v.size S D
  pure ⟨b, lcp.length⟩

/-! ### The operations -/

namespace Cst

variable (s : Cst)

/-- `m_bp[k]`. -/
def at' (k : Nat) : Option Bool := if k < s.bp.n then some (bitAt s.bp.mem k) else none

/-- `m_bp_support.rank(k)`, the number of opening parentheses in `[0..k]`. -/
def rank (k : Nat) : Option Nat := rankC (bitAt s.bp.mem) s.bp.n (k + 1)

/-- `m_bp_rank10(k)`, the number of leaves that end before `k`. -/
def rank10 (k : Nat) : Option Nat := rankC (occ .p10 s.bp.mem) s.bp.n k

/-- `m_bp_select10(k)`, the closing parenthesis of the `k`-th leaf. -/
def select10 (k : Nat) : Option Nat := selectC (occ .p10 s.bp.mem) s.bp.n k

/-- `inorder`, lines 119-122. -/
def inorder (v : Nat) : Option Nat := do
  let c ← s.bp.findClose (v + 1)
  s.rank10 (c + 1)

/-- `size()`, lines 259-262. -/
def size : Nat := s.csaSize

/-- `root`, lines 425-428. -/
def root : Nat := 0

/-- `is_leaf`, lines 437-442. -/
def isLeaf (v : Nat) : Option Bool := do
  let b ← s.at' (v + 1)
  pure !b

/-- `select_leaf`, lines 452-457. -/
def selectLeaf (i : Nat) : Option Nat := do
  let p ← s.select10 i
  sub p 1

/-- `depth`, lines 466-477. -/
def depth (lcp : List Nat) (sa : Nat → Option Nat) (v : Nat) : Option Nat :=
  if v = root then some 0 else do
    if ← s.isLeaf v then do
      let i ← s.rank10 v
      let p ← sa i
      sub s.size p
    else do
      let i ← s.inorder v
      lcp[i]?

/-- `node_depth`, lines 486-490. -/
def nodeDepth (v : Nat) : Option Nat := do
  let r ← s.rank v
  sub (2 * r) (v + 2)

/-- `size(v)`, lines 500-504. -/
def sizeOf' (v : Nat) : Option Nat := do
  let r ← s.bp.findClose v
  let a ← s.rank10 (r + 1)
  let b ← s.rank10 v
  sub a b

/-- `leftmost_leaf`, lines 512-515. -/
def leftmostLeaf (v : Nat) : Option Nat := do
  let a ← s.rank10 v
  let p ← s.select10 (a + 1)
  sub p 1

/-- `rightmost_leaf`, lines 523-527. -/
def rightmostLeaf (v : Nat) : Option Nat := do
  let r ← s.bp.findClose v
  let a ← s.rank10 (r + 1)
  let p ← s.select10 a
  sub p 1

/-- `lb`, lines 537-540. -/
def lb (v : Nat) : Option Nat := s.rank10 v

/-- `rb`, lines 550-554. -/
def rb (v : Nat) : Option Nat := do
  let r ← s.bp.findClose v
  let a ← s.rank10 (r + 1)
  sub a 1

/-- `parent`, lines 562-570. -/
def parent (v : Nat) : Option Nat := if v = root then some root else s.bp.enclose v

/-- `sibling`, lines 591-600. -/
def sibling (v : Nat) : Option Nat := if v = root then some root else do
  let c ← s.bp.findClose v
  if ← s.at' (c + 1) then some (c + 1) else some root

/-- The loop of `select_child`, lines 663-669. -/
def selectChildLoop : Nat → Nat → Option Nat
  | 0, res => some res
  | i + 1, res => do
    let c ← s.bp.findClose res
    if ← s.at' (c + 1) then selectChildLoop i (c + 1) else some root

/-- `select_child`, lines 658-671. -/
def selectChild (v i : Nat) : Option Nat := do
  if ← s.isLeaf v then some root else s.selectChildLoop (i - 1) (v + 1)

/-- `lca`, lines 712-723. -/
def lca (v w : Nat) : Option Nat :=
  if v > w then (if w = root then some root else s.bp.doubleEnclose w v)
  else if v = w then some v
  else if v = root then some root else s.bp.doubleEnclose v w

/-- `id`, lines 827-835. -/
def id (v : Nat) : Option Nat := do
  if ← s.at' (v + 1) then do
    let r ← s.rank v
    let r ← sub r 1
    let a ← s.rank10 v
    sub (s.size + r) a
  else s.rank10 v

/-- `if (m_bp[mid] == 0 and m_bp[mid-1] == 1) ++mid;`, lines 856-858. -/
def stepOver (mid : Nat) : Option Nat := do
  if ← s.at' mid then some mid else do
    let p ← sub mid 1
    if ← s.at' p then some (mid + 1) else some mid

/-- The binary search of `inv_id`, lines 854-866. -/
def invIdLoop (id : Nat) : Nat → Nat → Nat → Option Nat
  | 0, _, _ => none
  | f + 1, lb, rb => if rb - lb > 1 then do
      let mid ← s.stepOver (lb + (rb - lb) / 2)
      let p ← sub mid 1
      let r ← s.rank p
      let a ← s.rank10 mid
      let mid_id ← sub r a
      if mid_id < id then invIdLoop id f mid rb else invIdLoop id f lb mid
    else some lb

/-- `inv_id`, lines 845-869. -/
def invId (id : Nat) : Option Nat :=
  if id < s.size then s.selectLeaf (id + 1) else s.invIdLoop (id + 1 - s.size) (s.bp.n + 1) 0 s.bp.n

/-- `nodes`, lines 877-880. -/
def nodes : Nat := s.bp.n / 2

/-- `node`, lines 887-890. -/
def node (l r : Nat) : Option Nat := do
  let a ← s.selectLeaf (l + 1)
  let b ← s.selectLeaf (r + 1)
  s.lca a b

/-- The loop of `degree`, lines 903-906. -/
def degreeLoop : Nat → Nat → Nat → Option Nat
  | 0, _, _ => none
  | f + 1, v, res => do
    if ← s.at' v then do
      let c ← s.bp.findClose v
      degreeLoop f (c + 1) (res + 1)
    else some res

/-- `degree`, lines 899-908. -/
def degree (v : Nat) : Option Nat := s.degreeLoop (s.bp.n + 1) (v + 1) 0

/-- `ii` of `tlcp_idx`, lines 917-922. -/
def tlcpNode (i : Nat) : Option Nat :=
  if i > 0 then do
    let a ← s.select10 i
    let ipos ← sub a 1
    let b ← s.select10 (i + 1)
    let ip1pos ← sub b 1
    s.bp.doubleEnclose ipos ip1pos
  else some 0

/-- `tlcp_idx`, lines 915-926. -/
def tlcpIdx (i : Nat) : Option Nat := do
  let ii ← s.tlcpNode i
  let ii ← s.bp.findClose ii
  let r ← s.rank ii
  let a ← s.rank10 ii
  let x ← sub ii r
  sub x a

/-! ### The operations on the text -/

variable (K : CsaI)

/-- The index of a suffix in the subtree of `res`, lines 626-630 and 685-690: `is_leaf(res) ? m_bp_rank10(res) : inorder(res)`. -/
def someSuffix (v : Nat) : Option Nat := do
  if ← s.isLeaf v then s.rank10 v else s.inorder v

/-- The loop of `child`, lines 625-638. -/
def childLoop (d cmin cmax : Nat) : Nat → Nat → Option (Nat × Option Nat)
  | 0, _ => none
  | f + 1, res => do
    let i ← s.someSuffix res
    let cp ← getCharPos K i d
    if cp ≥ cmax then some (root, some cp)
    else if cp ≥ cmin then some (res, some cp)
    else do
      let c ← s.bp.findClose res
      if ← s.at' (c + 1) then childLoop d cmin cmax f (c + 1) else some (root, some cp)

/-- `child`, lines 613-639: the node and what is stored in `char_pos` (`none`: nothing). -/
def child (lcp : List Nat) (v c : Nat) : Option (Nat × Option Nat) := do
  if ← s.isLeaf v then some (root, none) else do
    let cc ← K.alpha.char2comp c
    if cc = 0 ∧ c ≠ 0 then some (root, none) else do
      let cmax ← K.alpha.C (cc + 1)
      let cmin ← K.alpha.C cc
      let d ← s.depth lcp K.sa v
      s.childLoop K d cmin cmax (s.bp.n + 1) (v + 1)

/-- `edge`, lines 681-702. -/
def edge (v d : Nat) : Option Nat := do
  let i ← s.someSuffix v
  let d ← sub d 1
  let order ← getCharPos K i d
  let b ← CstSct3.Cst.edgeSearch K.alpha order (K.alpha.sigma + 2) 1 (K.alpha.sigma + 1)
  let k ← sub b 1
  K.alpha.comp2char k

/-- `m_bp_rank10(m_bp_support.find_close(v))-1`, lines 742, 767 and 787. -/
def rightLeaf (v : Nat) : Option Nat := do
  let c ← s.bp.findClose v
  let a ← s.rank10 c
  sub a 1

/-- `sl(v)`, lines 732-747. -/
def sl (v : Nat) : Option Nat :=
  if v = root then some root else do
    let left ← s.rank10 v
    if ← s.isLeaf v then do
      let i ← K.psi left
      s.selectLeaf (i + 1)
    else do
      let right ← s.rightLeaf v
      let i ← K.psi left
      let a ← s.selectLeaf (i + 1)
      let j ← K.psi right
      let b ← s.selectLeaf (j + 1)
      s.lca a b

/-- `sl(v, i)`, lines 757-772. -/
def slN (v i : Nat) : Option Nat :=
  if v = root then some root else do
    let left ← s.rank10 v
    if ← s.isLeaf v then do
      let p ← getCharPos K left i
      s.selectLeaf (p + 1)
    else do
      let right ← s.rightLeaf v
      let p ← getCharPos K left i
      let a ← s.selectLeaf (p + 1)
      let q ← getCharPos K right i
      let b ← s.selectLeaf (q + 1)
      s.lca a b

/-- `is_leaf(v) ? left : m_bp_rank10(m_bp_support.find_close(v))-1`, line 787. -/
def lastLeaf (v left : Nat) : Option Nat := do
  if ← s.isLeaf v then some left else s.rightLeaf v

/-- The node of a Weiner link, lines 794-803; `b` is `C[char2comp[c]]`. -/
def wlNode (b cl cr : Nat) : Option Nat :=
  if cl + 1 = cr then s.selectLeaf (b + cl + 1) else do
    let r ← sub (b + cr) 1
    let x ← s.selectLeaf (b + cl + 1)
    let y ← s.selectLeaf (r + 1)
    s.lca x y

/-- `wl`, lines 782-804. -/
def wl (v c : Nat) : Option Nat := do
  let left ← s.rank10 v
  let right ← s.lastLeaf v left
  let cl ← K.rank left c
  let cr ← K.rank (right + 1) c
  if cl = cr then some root else do
    let cc ← K.alpha.char2comp c
    let b ← K.alpha.C cc
    s.wlNode b cl cr

/-- `sn`, lines 812-817. -/
def sn (v : Nat) : Option Nat := do
  let i ← s.rank10 v
  K.sa i

end Cst

end Sdsl.CstSada
