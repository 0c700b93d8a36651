/-
  Model of the compressed suffix arrays that are based on the Psi function: csa_sada.hpp, csa_bitcompressed.hpp, with the parts of suffix_array_helper.hpp and suffix_array_algorithm.hpp that
  they use. Samples, alphabets and the algorithms for searching are those of Csa.lean; the Psi function of csa_sada is an `enc_vector` (Enc.lean).
-/
import Verif.Csa
import Verif.Enc

namespace Sdsl.Csa

/-- A function of the CSA object: the part of `csa_sada`/`csa_bitcompressed` that the helper classes use. -/
structure PsiCsa where
  size : Nat
  psi : Nat → Option Nat
  sa : Nat → Option Nat
  isa : Nat → Option Nat
  rank : Nat → Nat → Option Nat
  alpha : Alpha

/-! ### Binary search for rank_bwt -/

/-- `while (lower+1 < upper) {...}`, csa_sada.hpp:312-318, 356-362 and csa_bitcompressed.hpp:291-297: `p` is `m_psi.sample` or `psi`. Every iteration uses one unit of fuel. -/
def psiSearch (p : Nat → Option Nat) (i : Nat) : Nat → Nat → Nat → Option (Nat × Nat)
  | 0, _, _ => none
  | f + 1, lo, hi =>
    if lo + 1 < hi then do
      let x ← p ((lo + hi) / 2)
      if x ≥ i then psiSearch p i f lo ((lo + hi) / 2) else psiSearch p i f ((lo + hi) / 2) hi
    else some (lo, hi)

/-- The end of `rank_bwt`, csa_sada.hpp:353-367 and csa_bitcompressed.hpp:291-302; `b` is `C[cc]`. -/
def rankFinish (psi : Nat → Option Nat) (i b lo hi : Nat) : Option Nat := do
  let r ← psiSearch psi i (hi + 1) lo hi
  if r.1 > b then some (r.1 - b + 1)
  else do
    let x ← psi r.1
    some (if x < i then 1 else 0)

/-- `csa_bitcompressed::rank_bwt`, csa_bitcompressed.hpp:283-303. -/
def rankBit (psi : Nat → Option Nat) (A : Alpha) (i c : Nat) : Option Nat := do
  let cc ← A.char2comp c
  if cc = 0 ∧ c ≠ 0 then some 0
  else do
    let a ← A.C cc
    let b ← A.C (1 + cc)
    rankFinish psi i a a b

/-- What `csa_sada` uses of its `enc_vector`: `size()`, `operator[]`, `sample`, `get_inter_sampled_values`, `get_sample_dens()`. -/
structure PsiVec where
  size : Nat
  get : Nat → Option Nat
  sample : Nat → Option Nat
  inter : Nat → Option (List Nat)
  dens : Nat

/-- The interface of an `enc_vector` (see `Enc.get` for `pad`). -/
def encPsi (c : VC) (dens : Nat) (e : Enc.Vec) (pad : List Word) : PsiVec :=
  ⟨e.size, fun i => (Enc.get c dens e pad i).map BitVec.toNat, fun i => (Enc.sample e i).map BitVec.toNat, fun i => (Enc.inter c dens e i).map (List.map BitVec.toNat), dens⟩

/-- `while ((*p++)+smpl < i);` and `p-1-m_psi_buf.data()`, csa_sada.hpp:341-343; the list is the rest of the buffer. -/
def bufSearch (smpl i : Nat) : List Nat → Nat → Option Nat
  | [], _ => none
  | x :: xs, k => if add64 x smpl < i then bufSearch smpl i xs (k + 1) else some k

/-- The position of the sentinel in the buffer, csa_sada.hpp:336-339; `e` is `C[cc+1]`. -/
def bufEnd (dens e lo : Nat) : Nat := if lo + dens ≥ e then e - lo else dens

/-- The main case of `rank_bwt`, csa_sada.hpp:329-343: `buf` is `m_psi_buf` with what earlier queries left in it, `b`, `e` are `C[cc]`, `C[cc+1]`. -/
def rankBuf (V : PsiVec) (buf : List Nat) (i b e sb : Nat) : Option Nat := do
  let vs ← V.inter sb
  if vs.length ≤ buf.length then do
    let smpl ← V.sample sb
    let p ← setList (vs ++ buf.drop vs.length) (bufEnd V.dens e (sb * V.dens)) (sub64 V.size smpl)
    let k ← bufSearch smpl i p 0
    some (k + sb * V.dens - b)
  else none

/-- The case distinction of `rank_bwt`, csa_sada.hpp:320-368: `ls`, `us` are `lower_sb`, `upper_sb` after the search among the samples. -/
def rankCases (V : PsiVec) (buf : List Nat) (i b e ls us : Nat) : Option Nat :=
  if ls = us then rankFinish V.get i b b e
  else if ls > (b + V.dens - 1) / V.dens then
    if buf.length = 0 then rankFinish V.get i b (ls * V.dens) (min (us * V.dens) e)
    else rankBuf V buf i b e ls
  else do
    let x ← V.sample ls
    if x ≥ i then rankFinish V.get i b b (ls * V.dens + 1)
    else rankFinish V.get i b (ls * V.dens) (min (us * V.dens) e)

/-- `csa_sada::rank_bwt`, csa_sada.hpp:298-368. -/
def rankSada (V : PsiVec) (A : Alpha) (buf : List Nat) (i c : Nat) : Option Nat := do
  let cc ← A.char2comp c
  if cc = 0 ∧ c ≠ 0 then some 0
  else if i = 0 then some 0
  else do
    let b ← A.C cc
    let e ← A.C (cc + 1)
    let r ← psiSearch V.sample i ((e + V.dens - 1) / V.dens + 1) ((b + V.dens - 1) / V.dens) ((e + V.dens - 1) / V.dens)
    rankCases V buf i b e r.1 r.2

/-- `select_bwt`, csa_sada.hpp:378-389 and csa_bitcompressed.hpp:314-323. -/
def selectPsi (K : PsiCsa) (i c : Nat) : Option Nat := do
  let cc ← K.alpha.char2comp c
  if cc = 0 ∧ c ≠ 0 then pure K.size
  else do
    let a ← K.alpha.C cc
    let b ← K.alpha.C (cc + 1)
    if sub64 (add64 a i) 1 < b then K.psi (sub64 (add64 a i) 1) else pure K.size

/-! ### Access -/

/-- The loop of `csa_sada::operator[]`, csa_sada.hpp:447-451. -/
def saPsiLoop (psi : Nat → Option Nat) (S : SaSample) : Nat → Nat → Nat → Option (Nat × Nat)
  | fuel, i, off => do
    let b ← S.isSampled i
    if b then pure (i, off)
    else match fuel with
      | 0 => none
      | fuel + 1 => do
        let j ← psi i
        saPsiLoop psi S fuel j (off + 1)
termination_by fuel => fuel

/-- `csa_sada::operator[]`, csa_sada.hpp:445-457; `n` is `m_psi.size()`. -/
def saPsi (n : Nat) (psi : Nat → Option Nat) (S : SaSample) (fuel i : Nat) : Option Nat := do
  let io ← saPsiLoop psi S fuel i 0
  let x ← S.get io.1
  if x < io.2 then pure (n - (io.2 - x)) else pure (x - io.2)

/-- `while (i--) result = psi[result]`, suffix_array_helper.hpp:565-567. -/
def psiRepeat (psi : Nat → Option Nat) : Nat → Nat → Option Nat
  | 0, x => some x
  | k + 1, x => do
    let y ← psi x
    psiRepeat psi k y

/-- `isa_of_csa_psi::operator[]`, suffix_array_helper.hpp:558-569. -/
def isaPsi (psi : Nat → Option Nat) (I : IsaSample) (i : Nat) : Option Nat := do
  let s ← I.leq i
  psiRepeat psi (sub64 i s.2) s.1

/-- `lf[i]`, suffix_array_helper.hpp:82-88 and 163-169. -/
def lfPsi (K : PsiCsa) (i : Nat) : Option Nat := do
  let x ← K.sa i
  K.isa (sub64 (add64 x K.size) 1 % K.size)

/-- `bwt_of_csa_psi::operator[]`, suffix_array_helper.hpp:258-263. -/
def bwtPsi (K : PsiCsa) (i : Nat) : Option Nat := do
  let p ← lfPsi K i
  firstRow K.alpha p

/-- `text[i]`, suffix_array_helper.hpp:663-667. -/
def textPsi (K : PsiCsa) (i : Nat) : Option Nat := do
  let r ← K.isa i
  firstRow K.alpha r

/-- The loop of `extract` for Psi-based CSAs, suffix_array_algorithm.hpp:625-628 (`steps != 0` is always true inside of the loop, so Psi is evaluated once more than needed). -/
def extractPsiLoop (K : PsiCsa) : Nat → Nat → Option (List Nat)
  | 0, _ => some []
  | k + 1, order => do
    let c ← firstRow K.alpha order
    let order ← K.psi order
    let r ← extractPsiLoop K k order
    pure (c :: r)

/-- `extract` for Psi-based CSAs, suffix_array_algorithm.hpp:613-630 (for `begin ≤ end`). -/
def extractPsi (K : PsiCsa) (b e : Nat) : Option (List Nat) := do
  let order ← K.isa b
  extractPsiLoop K (e - b + 1) order

/-- The interface for the algorithms of Csa.lean (`backwardSearch`, `count`, `lexInterval` use `size` and `rank` only). The last two components do not exist in the classes. -/
def psiWt (K : PsiCsa) : Wt :=
  ⟨K.size, bwtPsi K, K.rank, selectPsi K, fun i => do
    let c ← bwtPsi K i
    let r ← K.rank i c
    pure (r, c), fun _ _ _ => none⟩

/-- `locate`, suffix_array_algorithm.hpp:518-532. -/
def locatePsi (K : PsiCsa) (pat : List Nat) : Option (List Nat) := do
  let res ← backwardSearch (psiWt K) K.alpha 0 (sub64 K.size 1) pat
  (List.range res.2.2).mapM (fun i => K.sa (add64 res.1 i))

/-! ### Constructors -/

/-- `for (i=0; i < sigma; ++i) cnt_chr[i] = C[i]`, csa_sada.hpp:410-412; `k` iterations remain. -/
def cntLoop (A : Alpha) : Nat → Nat → Arr → Option Arr
  | 0, _, a => some a
  | k + 1, i, a => do
    let x ← A.C i
    let a ← a.set i x
    cntLoop A k (i + 1) a

/-- `psi[ cnt_chr[ char2comp[bwt_buf[i]] ]++ ] = i`, csa_sada.hpp:418-420. -/
def psiLoop (A : Alpha) : List Nat → Nat → Arr → Arr → Option Arr
  | [], _, _, p => some p
  | c :: cs, i, cnt, p => do
    let cc ← A.char2comp c
    let x ← cnt.get cc
    let cnt ← cnt.set cc (x + 1)
    let p ← p.set x i
    psiLoop A cs (i + 1) cnt p

/-- The Psi function, csa_sada.hpp:409-420. -/
def sadaPsi (A : Alpha) (bwt : List Nat) : Option (List Nat) := do
  let w ← hiW bwt.length
  let cnt ← cntLoop A A.sigma 0 (Arr.new A.sigma 0 w)
  let p ← psiLoop A bwt 0 cnt (Arr.new bwt.length 0 w)
  pure p.xs

/-- The object made of the vector, the alphabet and the samples; `buf` is the content of the buffer before a query, `fuel` bounds the steps of `operator[]`. -/
def sadaCsa (V : PsiVec) (A : Alpha) (S : SaSample) (I : IsaSample) (buf : List Nat) (fuel : Nat) : PsiCsa :=
  ⟨V.size, V.get, saPsi V.size V.get S fuel, isaPsi V.get I, rankSada V A buf, A⟩

/-- Size of `m_psi_buf`, `create_buffer`, csa_sada.hpp:131-136. -/
def bufSize (dens : Nat) : Nat := if dens < 100000 then dens + 1 else 0

/-- `traverse_csa_saisa_trait::access` for Psi, suffix_array_helper.hpp:151-155. -/
def bitPsi (n : Nat) (sa isa : Nat → Option Nat) (i : Nat) : Option Nat := do
  let x ← sa i
  isa (add64 x 1 % n)

/-- The object `csa_bitcompressed`: `sa` is `_sa_order_sampling` with density 1, the inverse suffix array the `int_vector` of `_isa_sampling` with density 1, csa_bitcompressed.hpp:133-152, 215-218. -/
def bitCsa (S : SaSample) (isa : Arr) (n : Nat) (A : Alpha) : PsiCsa :=
  ⟨n, bitPsi n S.get isa.get, S.get, isa.get, rankBit (bitPsi n S.get isa.get) A, A⟩

end Sdsl.Csa
