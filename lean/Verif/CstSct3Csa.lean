/-
  The functions of cst_sct3 that use the compressed suffix array: child, edge, sl, wl; include/sdsl/cst_sct3.hpp, get_char_pos in
  include/sdsl/suffix_tree_helper.hpp.
-/
import Verif.CstSct3
import Verif.Csa

namespace Sdsl.CstSct3

open Csa

/-- What the tree uses of its CSA: `psi[]`, `operator[]`, `isa[]`, `bwt.rank`, the alphabet and `sa_sample_dens + isa_sample_dens`. -/
structure CsaI where
  psi : Nat → Option Nat
  sa : Nat → Option Nat
  isa : Nat → Option Nat
  rank : Nat → Nat → Option Nat
  alpha : Alpha
  dens : Nat

/-- The interface of a `csa_wt` with the given samples (Csa.lean); `fuel` bounds the steps of `operator[]`. -/
def csaWtI (W : Wt) (A : Alpha) (S : SaSample) (I : IsaSample) (fuel dens : Nat) : CsaI := ⟨psi W A, saGet W A S fuel, isaGet W A I, rankBwt W, A, dens⟩

/-- `for (i=0; i < d; ++i) idx = csa.psi[idx]`, suffix_tree_helper.hpp:303-304. -/
def psiIter (K : CsaI) : Nat → Nat → Option Nat
  | 0, idx => some idx
  | d + 1, idx => do
    let idx ← K.psi idx
    psiIter K d idx

/-- `get_char_pos`, suffix_tree_helper.hpp:294-308. -/
def getCharPos (K : CsaI) (idx d : Nat) : Option Nat :=
  if d = 0 then some idx
  else if K.dens > 2 * d + 2 then psiIter K d idx
  else do
    let x ← K.sa idx
    K.isa (x + d)

namespace Cst

variable (s : Cst) (K : CsaI)

/-- The child that the search has found, cst_sct3.hpp:801-808; `l`, `kpos`, `ckpos` are its l-index and the parentheses of it. -/
def childAt (l kpos ckpos : Nat) : Option Node := do
  let c ← sub ckpos 1
  let o ← s.bp.findOpen c
  let l1 ← s.index o
  let q ← sub l1 1
  let jp ← s.endPos q
  pure ⟨l, q, kpos, ckpos, jp⟩

/-- The binary search, cst_sct3.hpp:788-811: `cmin`, `cmax` are `char_inc_min_pos`, `char_ex_max_pos`, `cp` is `char_pos` so far. -/
def childSearch (v : Node) (d cmin cmax : Nat) : Nat → Nat → Nat → Nat → Option (Node × Option Nat)
  | 0, _, _, _ => none
  | f + 1, l, r, cp =>
    if l < r then do
      let k ← s.selectL v ((l + r) / 2 - 1)
      let p ← getCharPos K k.1 d
      if cmin > p then childSearch v d cmin cmax f ((l + r) / 2 + 1) r p
      else if cmax ≤ p then childSearch v d cmin cmax f l ((l + r) / 2) p
      else do
        let w ← s.childAt k.1 k.2.1 k.2.2
        pure (w, some p)
    else do
      let w ← s.root
      pure (w, some cp)

/-- A node together with the value of `char_pos`. -/
def withPos (w : Option Node) (p : Option Nat) : Option (Node × Option Nat) := do
  let w ← w
  pure (w, p)

/-- `child` behind the computation of the depth, cst_sct3.hpp:768-812. -/
def childFrom (v : Node) (d cmin cmax : Nat) : Option (Node × Option Nat) := do
  let p ← getCharPos K v.i d
  if p ≥ cmax then withPos s.root (some p)
  else if p ≥ cmin then withPos (s.selectChild v 1) (some p)
  else do
    let cnt ← s.degree v
    let p ← getCharPos K v.j d
    if p < cmin then withPos s.root (some p)
    else if p < cmax then withPos (s.selectChild v cnt) (some p)
    else s.childSearch K v d cmin cmax (cnt + 1) 2 cnt p

/-- `child`, cst_sct3.hpp:756-812: the node and what is stored in `char_pos` (`none`: nothing). -/
def child (lcp : List Nat) (v : Node) (c : Nat) : Option (Node × Option Nat) :=
  if isLeaf v then withPos s.root none
  else do
    let cc ← K.alpha.char2comp c
    if cc = 0 ∧ c ≠ 0 then withPos s.root none
    else do
      let cmax ← K.alpha.C (1 + cc)
      let cmin ← K.alpha.C cc
      let d ← s.depth lcp K.sa v
      s.childFrom K v d cmin cmax

/-- The binary search of `edge`, cst_sct3.hpp:836-844. -/
def edgeSearch (A : Alpha) (order : Nat) : Nat → Nat → Nat → Option Nat
  | 0, _, _ => none
  | f + 1, b, e =>
    if b < e then do
      let x ← A.C ((b + e) / 2)
      if x ≤ order then edgeSearch A order f ((b + e) / 2 + 1) e else edgeSearch A order f b ((b + e) / 2)
    else some b

/-- `edge`, cst_sct3.hpp:831-846. -/
def edge (v : Node) (d : Nat) : Option Nat := do
  let d ← sub d 1
  let order ← getCharPos K v.i d
  let b ← edgeSearch K.alpha order (K.alpha.sigma + 2) 1 (K.alpha.sigma + 1)
  let k ← sub b 1
  K.alpha.comp2char k

/-- `sl`, cst_sct3.hpp:932-960. -/
def sl (v : Node) : Option Node := do
  let r ← s.root
  if v.same r then some r else do
    let i ← K.psi v.i
    if isLeaf v then (if v.i = 0 ∧ v.j = 0 then some r else s.selectLeaf (i + 1))
    else do
      let j ← K.psi v.j
      let m ← s.rmq (i + 1) j
      s.around m

/-- The node of a Weiner link, cst_sct3.hpp:978-991; `b` is `C[char2comp[c]]`. -/
def wlNode (b cl cr : Nat) : Option Node :=
  if cl + 1 = cr then s.selectLeaf (b + cl + 1) else do
    let r ← sub (b + cr) 1
    s.node (b + cl) r

/-- `wl`, cst_sct3.hpp:972-993. -/
def wl (v : Node) (c : Nat) : Option Node := do
  let cl ← K.rank v.i c
  let cr ← K.rank (v.j + 1) c
  if cl = cr then s.root else do
    let cc ← K.alpha.char2comp c
    let b ← K.alpha.C cc
    s.wlNode b cl cr

end Cst

end Sdsl.CstSct3
