/-
  Model of the compressed suffix array `csa_wt` and of the algorithms on it: csa_wt.hpp, suffix_array_helper.hpp, suffix_array_algorithm.hpp, csa_alphabet_strategy.hpp,
  lib/csa_alphabet_strategy.cpp, csa_sampling_strategy.hpp, construct_bwt.hpp, lib/construct_isa.cpp.

  Texts, suffix arrays and symbols are lists of numbers (what an `int_vector_buffer` streams from the cache files). `size_type` expressions that can wrap around are written with `add64`/`sub64`.
  The wavelet tree is used through its interface `Wt`; Props/Csa instantiates it with the models of `wt_pc` and `wt_int`.
-/
import Verif.Arr
import Verif.Bits
import Verif.Bv
import Verif.InvPerm

namespace Sdsl.Csa

/-- `a + b` and `a - b` for `size_type` operands. -/
def add64 (a b : Nat) : Nat := (a + b) % 2 ^ 64
def sub64 (a b : Nat) : Nat := (a + 2 ^ 64 - b) % 2 ^ 64

/-- `bits::hi(n)+1`, the width that the constructors choose. -/
def hiW (n : Nat) : Option Nat := do
  let h ← Bits.hi (BitVec.ofNat 64 n)
  pure (h + 1)

/-! ### Constructions from the cache files -/

/-- The loop of `construct_isa`, lib/construct_isa.cpp:19-21: `isa[ sa_buf[i] ] = i`. -/
def isaLoop : List Nat → Nat → Arr → Option Arr
  | [], _, a => some a
  | p :: ps, i, a => do
    let a ← a.set p i
    isaLoop ps (i + 1) a

/-- `construct_isa`, lib/construct_isa.cpp:10-24 (`int_vector<> isa(sa_buf.size())` has the default width 64). -/
def constructIsa (sa : List Nat) : Option Arr := isaLoop sa 0 (Arr.new sa.length 0 64)

/-- One symbol of the BWT, construct_bwt.hpp:77-79: `text[ sa_buf[i]+to_add[sa_buf[i]==0] ]` with `to_add = {(size_type)-1, n-1}`. -/
def bwtSym (text : List Nat) (p : Nat) : Option Nat := text[if p = 0 then add64 p (sub64 text.length 1) else add64 p (2 ^ 64 - 1)]?

/-- `construct_bwt`, construct_bwt.hpp:53-83. The loop runs over the length of the text. -/
def constructBwt (text sa : List Nat) : Option (List Nat) :=
  (List.range text.length).mapM (fun i => do
    let p ← sa[i]?
    bwtSym text p)

/-! ### Alphabet strategies -/

/-- What the CSAs use of an alphabet strategy: `char2comp[c]`, `comp2char[k]`, `C[k]` and `sigma`. -/
structure Alpha where
  char2comp : Nat → Option Nat
  comp2char : Nat → Option Nat
  C : Nat → Option Nat
  sigma : Nat

/-- Counting the symbols, `++m_C[text_buf[i]]` (64-bit counters), lib/csa_alphabet_strategy.cpp:37-39 and csa_alphabet_strategy.hpp:252-254. -/
def countSyms : List Nat → List Nat → Option (List Nat)
  | [], D => some D
  | c :: cs, D => do
    let d ← D[c]?
    countSyms cs (D.set c ((d + 1) % 2 ^ 64))

/-- State of the compaction loop of `byte_alphabet`: `m_char2comp`, `m_comp2char`, `m_C`, `m_sigma`. -/
structure BA where
  char2comp : List Nat
  comp2char : List Nat
  C : List Nat
  sigma : Nat

/-- `m_char2comp[i] = m_sigma; m_comp2char[sigma] = i; m_C[m_sigma] = m_C[i]; ++m_sigma` for the symbols that occur, lib/csa_alphabet_strategy.cpp:42-48; `k` iterations remain.
    (`m_char2comp`, `m_comp2char` hold bytes.) -/
def compactLoop : Nat → Nat → BA → Option BA
  | 0, _, s => some s
  | k + 1, i, s => do
    let d ← s.C[i]?
    if d ≠ 0 then do
      let a ← setList s.char2comp i (s.sigma % 256)
      let b ← setList s.comp2char s.sigma (i % 256)
      let c ← setList s.C s.sigma d
      compactLoop k (i + 1) ⟨a, b, c, s.sigma + 1⟩
    else compactLoop k (i + 1) s

/-- `for (int i=(int)m_sigma; i > 0; --i) m_C[i] = m_C[i-1]`, lib/csa_alphabet_strategy.cpp:51. -/
def shiftLoop : Nat → List Nat → Option (List Nat)
  | 0, C => some C
  | i + 1, C => do
    let d ← C[i]?
    let C ← setList C (i + 1) d
    shiftLoop i C

/-- `for (int i=1; i <= (int)m_sigma; ++i) m_C[i] += m_C[i-1]`, lib/csa_alphabet_strategy.cpp:53; `k` iterations remain. -/
def sumLoop : Nat → Nat → List Nat → Option (List Nat)
  | 0, _, C => some C
  | k + 1, i, C => do
    let d ← C[i]?
    let e ← C[i - 1]?
    let C ← setList C i ((d + e) % 2 ^ 64)
    sumLoop k (i + 1) C

/-- The interface of a `byte_alphabet`. -/
def BA.alpha (s : BA) : Alpha := ⟨fun c => s.char2comp[c]?, fun k => s.comp2char[k]?, fun k => s.C[k]?, s.sigma⟩

/-- `byte_alphabet(text_buf, len)`, lib/csa_alphabet_strategy.cpp:25-55. -/
def byteAlphabet (buf : List Nat) (len : Nat) : Option BA :=
  if len = 0 ∨ buf.length = 0 then some ⟨[], [], [], 0⟩
  else if buf.length < len then none
  else do
    let D ← countSyms (buf.take len) (List.replicate 257 0)
    let s ← compactLoop 256 0 ⟨List.replicate 256 0, List.replicate 256 0, D, 0⟩
    let C ← shiftLoop s.sigma (s.C.take (s.sigma + 1))
    let C ← setList C 0 0
    let C ← sumLoop s.sigma 1 C
    pure ⟨s.char2comp, s.comp2char.take s.sigma, C, s.sigma⟩

/-- State of the compaction loop of `succinct_byte_alphabet`: `tmp_char`, `D`, `m_sigma`. -/
structure SBA where
  chars : List Bool
  D : List Nat
  sigma : Nat

/-- csa_alphabet_strategy.hpp:257-262. -/
def sCompactLoop : Nat → Nat → SBA → Option SBA
  | 0, _, s => some s
  | k + 1, i, s => do
    let d ← s.D[i]?
    if d ≠ 0 then do
      let a ← setList s.chars i true
      let c ← setList s.D s.sigma d
      sCompactLoop k (i + 1) ⟨a, c, s.sigma + 1⟩
    else sCompactLoop k (i + 1) s

/-- `for (int i=(int)m_sigma; i > 0; --i) m_C[i] = D[i-1]`, csa_alphabet_strategy.hpp:266. -/
def sShiftLoop (D : List Nat) : Nat → Arr → Option Arr
  | 0, C => some C
  | i + 1, C => do
    let d ← D[i]?
    let C ← C.set (i + 1) d
    sShiftLoop D i C

/-- `for (int i=1; i <= (int)m_sigma; ++i) m_C[i] = m_C[i] + m_C[i-1]`, csa_alphabet_strategy.hpp:268. -/
def sSumLoop : Nat → Nat → Arr → Option Arr
  | 0, _, C => some C
  | k + 1, i, C => do
    let d ← C.get i
    let e ← C.get (i - 1)
    let C ← C.set i (add64 d e)
    sSumLoop k (i + 1) C

/-- `char2comp_wrapper::operator[]`, csa_alphabet_strategy.hpp:195-200, and `comp2char_wrapper::operator[]`, 211-214 (`m_char_rank`, `m_char_select` are any supports). -/
def sbaAlpha (m : List Bool) (C : Arr) (sigma : Nat) : Alpha :=
  ⟨fun c => if m.length ≤ c then some 0 else do
      let b ← Bv.get m c
      if b then do let r ← Bv.rank true m c; pure (r % 256) else pure 0,
    fun k => do let p ← Bv.select true m (k + 1); pure (p % 256),
    fun k => C.get k, sigma⟩

/-- `succinct_byte_alphabet(text_buf, len)`, csa_alphabet_strategy.hpp:242-273. -/
def succinctByteAlphabet (buf : List Nat) (len : Nat) : Option Alpha :=
  if len = 0 ∨ buf.length = 0 then some (sbaAlpha [] Arr.empty 0)
  else if buf.length < len then none
  else do
    let D ← countSyms (buf.take len) (List.replicate 257 0)
    let s ← sCompactLoop 256 0 ⟨List.replicate 256 false, D, 0⟩
    let w ← hiW len
    let C ← sShiftLoop s.D s.sigma (Arr.new (s.sigma + 1) 0 w)
    let C ← C.set 0 0
    let C ← sSumLoop s.sigma 1 C
    pure (sbaAlpha s.chars C s.sigma)

/-- `D[c]++` in a `std::map`: a list of pairs that is sorted by the first component. -/
def mapInc (c : Nat) : List (Nat × Nat) → List (Nat × Nat)
  | [] => [(c, 1)]
  | (a, k) :: D => if c < a then (c, 1) :: (a, k) :: D else if c = a then (a, (k + 1) % 2 ^ 64) :: D else (a, k) :: mapInc c D

/-- `tmp_char[it->first] = 1` for all entries, csa_alphabet_strategy.hpp:519-521. -/
def markLoop : List (Nat × Nat) → List Bool → Option (List Bool)
  | [], m => some m
  | (a, _) :: D, m => do
    let m ← setList m a true
    markLoop D m

/-- `m_C[idx++] = sum; sum += it->second`, and the final `m_C[idx] = sum`, csa_alphabet_strategy.hpp:530-535. -/
def iSumLoop : List (Nat × Nat) → Nat → Nat → Arr → Option Arr
  | [], idx, sum, C => C.set idx sum
  | (_, k) :: D, idx, sum, C => do
    let C ← C.set idx sum
    iSumLoop D (idx + 1) (add64 sum k) C

/-- `char2comp_wrapper::operator[]`, csa_alphabet_strategy.hpp:381-393, and `comp2char_wrapper::operator[]`, 404-411. `m` is `m_char`, empty if the alphabet is continuous. -/
def iAlpha (m : List Bool) (C : Arr) (sigma : Nat) : Alpha :=
  ⟨fun c => if 0 < m.length then (if m.length ≤ c then some 0 else do
      let b ← Bv.get m c
      if b then Bv.rank true m c else pure 0) else if sigma ≤ c then some 0 else some c,
    fun k => if 0 < m.length then Bv.select true m (k + 1) else some k,
    fun k => C.get k, sigma⟩

/-- `m_char`, csa_alphabet_strategy.hpp:511-524: empty if the largest key plus one is the size of the map (`is_continuous_alphabet`, 434-442). -/
def intMarked (D : List (Nat × Nat)) : Option (List Bool) := do
  let last ← D.getLast?
  if add64 last.1 1 = D.length then some [] else markLoop D (List.replicate (add64 last.1 1) false)

/-- `m_char`, `m_C` and `sigma` from the map, csa_alphabet_strategy.hpp:510-535. -/
def intAlphabetOf (D : List (Nat × Nat)) (len : Nat) : Option Alpha := do
  let m ← intMarked D
  let w ← hiW len
  let C ← iSumLoop D 0 0 (Arr.new (D.length + 1) 0 w)
  pure (iAlpha m C D.length)

/-- `int_alphabet(text_buf, len)`, csa_alphabet_strategy.hpp:498-536. -/
def intAlphabet (buf : List Nat) (len : Nat) : Option Alpha :=
  if len = 0 ∨ buf.length = 0 then some (iAlpha [] Arr.empty 0)
  else if buf.length < len then none
  else intAlphabetOf ((buf.take len).foldl (fun D c => mapInc c D) []) len

/-! ### The CSA -/

/-- What `csa_wt` uses of its wavelet tree. -/
structure Wt where
  size : Nat
  get : Nat → Option Nat
  rank : Nat → Nat → Option Nat
  select : Nat → Nat → Option Nat
  inverseSelect : Nat → Option (Nat × Nat)
  lexCount : Nat → Nat → Nat → Option (Nat × Nat × Nat)

/-- `while (res < csa.sigma and csa.C[res] <= i) ++res`, suffix_array_helper.hpp:45-46. Every iteration uses one unit of `fuel`. -/
def frLinear (A : Alpha) (i : Nat) : Nat → Nat → Option Nat
  | fuel, res =>
    if res < A.sigma then do
      let c ← A.C res
      if c ≤ i then match fuel with
        | 0 => none
        | fuel + 1 => frLinear A i fuel (res + 1)
      else pure res
    else some res
termination_by fuel => fuel

/-- The binary search, suffix_array_helper.hpp:52-59. Every iteration uses one unit of `fuel`. -/
def frBinary (A : Alpha) (i : Nat) : Nat → Nat → Nat → Option Nat
  | 0, _, _ => none
  | fuel + 1, lower, upper => do
    let a ← A.C ((upper + lower) / 2)
    if i < a then frBinary A i fuel lower ((upper + lower) / 2)
    else do
      let b ← A.C ((upper + lower) / 2 + 1)
      if b ≤ i then frBinary A i fuel ((upper + lower) / 2 + 1) upper
      else pure ((upper + lower) / 2)

/-- `first_row_symbol`, suffix_array_helper.hpp:40-63, with enough fuel for both searches. -/
def firstRow (A : Alpha) (i : Nat) : Option Nat :=
  if A.sigma < 16 then do
    let res ← frLinear A i A.sigma 1
    A.comp2char (res - 1)
  else do
    let res ← frBinary A i (A.sigma + 1) 0 A.sigma
    A.comp2char res

/-- `lf[i]`, suffix_array_helper.hpp:341-348. -/
def lf (W : Wt) (A : Alpha) (i : Nat) : Option Nat := do
  let rc ← W.inverseSelect i
  let k ← A.char2comp rc.2
  let b ← A.C k
  pure (add64 b rc.1)

/-- `psi[i]`, suffix_array_helper.hpp:328-332. -/
def psi (W : Wt) (A : Alpha) (i : Nat) : Option Nat := do
  let c ← firstRow A i
  let k ← A.char2comp c
  let b ← A.C k
  W.select (add64 (sub64 i b) 1) c

/-- `rank_bwt(i, c)`, csa_wt.hpp:272-275. -/
def rankBwt (W : Wt) (i c : Nat) : Option Nat := W.rank i c

/-- `select_bwt(i, c)`, csa_wt.hpp:285-297. -/
def selectBwt (W : Wt) (A : Alpha) (i c : Nat) : Option Nat := do
  let cc ← A.char2comp c
  if cc = 0 ∧ c ≠ 0 then pure W.size
  else do
    let a ← A.C cc
    let b ← A.C (cc + 1)
    if sub64 (add64 a i) 1 < b then W.select i c else pure W.size

/-! ### Searching -/

/-- `backward_search` for one symbol, suffix_array_algorithm.hpp:164-191. Returns `l_res, r_res`. -/
def backStep (W : Wt) (A : Alpha) (l r c : Nat) : Option (Nat × Nat) := do
  let cc ← A.char2comp c
  if cc = 0 ∧ 0 < c then pure (1, 0)
  else do
    let cb ← A.C cc
    if l = 0 ∧ add64 r 1 = W.size then do
      let e ← A.C (cc + 1)
      pure (cb, sub64 e 1)
    else do
      let x ← rankBwt W l c
      let y ← rankBwt W (add64 r 1) c
      pure (add64 cb x, sub64 (add64 cb y) 1)

/-- The loop of `backward_search` for a pattern, suffix_array_algorithm.hpp:231-235; the argument is the rest of the pattern, last symbol first. -/
def backLoop (W : Wt) (A : Alpha) : List Nat → Nat → Nat → Option (Nat × Nat)
  | [], l, r => some (l, r)
  | c :: cs, l, r =>
    if 0 < sub64 (add64 r 1) l then do
      let lr ← backStep W A l r c
      backLoop W A cs lr.1 lr.2
    else some (l, r)

/-- `backward_search` for a pattern, suffix_array_algorithm.hpp:219-239: `l_res, r_res` and the return value. -/
def backwardSearch (W : Wt) (A : Alpha) (l r : Nat) (pat : List Nat) : Option (Nat × Nat × Nat) := do
  let lr ← backLoop W A pat.reverse l r
  pure (lr.1, lr.2, sub64 (add64 lr.2 1) lr.1)

/-- `count`, suffix_array_algorithm.hpp:430-442. -/
def count (W : Wt) (A : Alpha) (pat : List Nat) : Option Nat :=
  if W.size < pat.length then some 0
  else do
    let res ← backwardSearch W A 0 (sub64 W.size 1) pat
    pure res.2.2

/-- `lex_interval`, suffix_array_algorithm.hpp:490-499. -/
def lexInterval (W : Wt) (A : Alpha) (pat : List Nat) : Option (Nat × Nat) := do
  let res ← backwardSearch W A 0 (sub64 W.size 1) pat
  pure (res.1, res.2.1)

/-! ### Samples of the suffix array -/

/-- The interface of a suffix array sampling strategy. -/
structure SaSample where
  isSampled : Nat → Option Bool
  get : Nat → Option Nat

/-- The loop of `_sa_order_sampling`, csa_sampling_strategy.hpp:92-98; `cm`, `cs` are `cnt_mod`, `cnt_sum`. -/
def saOrderLoop (dens : Nat) : List Nat → Nat → Nat → Arr → Option Arr
  | [], _, _, a => some a
  | p :: ps, cm, cs, a =>
    if dens = cm then do
      let a ← a.set cs p
      saOrderLoop dens ps 1 (cs + 1) a
    else saOrderLoop dens ps (cm + 1) cs a

/-- `_sa_order_sampling(cconfig)`, csa_sampling_strategy.hpp:85-99; `is_sampled`, 102-105; `operator[]`, 108-111. -/
def saOrder (dens : Nat) (sa : List Nat) : Option SaSample := do
  let w ← hiW sa.length
  let a ← saOrderLoop dens sa dens 0 (Arr.new ((sa.length + dens - 1) / dens) 0 w)
  pure ⟨fun i => some (i % dens == 0), fun i => a.get (i / dens)⟩

/-- The loop of `_text_order_sampling`, csa_sampling_strategy.hpp:162-168. Returns `marked` and the samples; `i` is the position, `cnt` is `sa_cnt`. -/
def textOrderLoop (dens : Nat) : List Nat → Nat → Nat → List Bool → Arr → Option (List Bool × Arr)
  | [], _, _, m, a => some (m, a)
  | p :: ps, i, cnt, m, a =>
    if p % dens = 0 then do
      let m ← setList m i true
      let a ← a.set cnt (p / dens)
      textOrderLoop dens ps (i + 1) (cnt + 1) m a
    else textOrderLoop dens ps (i + 1) cnt m a

/-- A `_text_order_sampling` object: `m_marked` and the `int_vector`. -/
structure TextOrder where
  marked : List Bool
  arr : Arr

/-- `_text_order_sampling(cconfig)`, csa_sampling_strategy.hpp:154-171. -/
def textOrder (dens : Nat) (sa : List Nat) : Option TextOrder := do
  let w ← hiW (sa.length / dens)
  let r ← textOrderLoop dens sa 0 0 (List.replicate sa.length false) (Arr.new ((sa.length + dens - 1) / dens) 0 w)
  pure ⟨r.1, r.2⟩

/-- `is_sampled`, csa_sampling_strategy.hpp:182-185; `operator[]`, 188-191. -/
def TextOrder.sample (s : TextOrder) (dens : Nat) : SaSample :=
  ⟨fun i => Bv.get s.marked i, fun i => do
    let r ← Bv.rank true s.marked i
    let x ← s.arr.get r
    pure (x * dens % 2 ^ 64)⟩

/-- First loop of `_bwt_sampling`, csa_sampling_strategy.hpp:513-523. -/
def bwtMarkLoop (dens : Nat) (chars : List Nat) : List Nat → List Nat → Nat → Nat → List Bool → Option (List Bool × Nat)
  | [], _, _, cnt, m => some (m, cnt)
  | _ :: _, [], _, _, _ => none
  | p :: ps, b :: bs, i, cnt, m =>
    if p % dens = 0 ∨ b ∈ chars then do
      let m ← setList m i true
      bwtMarkLoop dens chars ps bs (i + 1) (cnt + 1) m
    else bwtMarkLoop dens chars ps bs (i + 1) cnt m

/-- Second loop of `_bwt_sampling`, csa_sampling_strategy.hpp:526-531: the samples are the values of the suffix array. -/
def bwtStoreLoop (m : List Bool) : List Nat → Nat → Nat → Arr → Option Arr
  | [], _, _, a => some a
  | p :: ps, i, cnt, a => do
    let b ← Bv.get m i
    if b then do
      let a ← a.set cnt p
      bwtStoreLoop m ps (i + 1) (cnt + 1) a
    else bwtStoreLoop m ps (i + 1) cnt a

/-- `_bwt_sampling(cconfig)`, csa_sampling_strategy.hpp:496-534; `operator[]` (551-554) multiplies the stored value by `sample_dens`. `chars` are the symbols of `KEY_SAMPLE_CHAR`. -/
def bwtSampling (dens : Nat) (chars sa bwt : List Nat) : Option SaSample := do
  let w ← hiW sa.length
  let m ← bwtMarkLoop dens chars sa bwt 0 0 (List.replicate sa.length false)
  let a ← bwtStoreLoop m.1 sa 0 0 (Arr.new m.2 0 w)
  pure ⟨fun i => Bv.get m.1 i, fun i => do
    let r ← Bv.rank true m.1 i
    let x ← a.get r
    pure (x * dens % 2 ^ 64)⟩

/-- The loop of `operator[]`, csa_wt.hpp:337-341; every iteration uses one unit of `fuel`. Returns `i` and `off`. -/
def saLoop (W : Wt) (A : Alpha) (S : SaSample) : Nat → Nat → Nat → Option (Nat × Nat)
  | fuel, i, off => do
    let b ← S.isSampled i
    if b then pure (i, off)
    else match fuel with
      | 0 => none
      | fuel + 1 => do
        let j ← lf W A i
        saLoop W A S fuel j (off + 1)
termination_by fuel => fuel

/-- `csa_wt::operator[]`, csa_wt.hpp:335-348. -/
def saGet (W : Wt) (A : Alpha) (S : SaSample) (fuel i : Nat) : Option Nat := do
  let io ← saLoop W A S fuel i 0
  let x ← S.get io.1
  if add64 x io.2 < W.size then pure (add64 x io.2) else pure (sub64 (add64 x io.2) W.size)

/-- `locate`, suffix_array_algorithm.hpp:518-532. -/
def locate (W : Wt) (A : Alpha) (S : SaSample) (fuel : Nat) (pat : List Nat) : Option (List Nat) := do
  let res ← backwardSearch W A 0 (sub64 W.size 1) pat
  (List.range res.2.2).mapM (fun i => saGet W A S fuel (add64 res.1 i))

/-! ### Samples of the inverse suffix array -/

/-- The loop of `_isa_sampling`, csa_sampling_strategy.hpp:636-641. -/
def isaSampleLoop (dens : Nat) : List Nat → Nat → Arr → Option Arr
  | [], _, a => some a
  | p :: ps, i, a =>
    if p % dens = 0 then do
      let a ← a.set (p / dens) i
      isaSampleLoop dens ps (i + 1) a
    else isaSampleLoop dens ps (i + 1) a

/-- `_isa_sampling(cconfig)`, csa_sampling_strategy.hpp:626-642 (the loop in line 634 stores the zeros that `Arr.new` already holds). -/
def isaSampling (dens : Nat) (sa : List Nat) : Option Arr :=
  if sa.length = 0 then some Arr.empty
  else do
    let w ← hiW sa.length
    isaSampleLoop dens sa 0 (Arr.new ((sa.length - 1) / dens + 1) 0 w)

/-- The interface of an inverse suffix array sampling strategy: `sample_leq`, `sample_qeq`. -/
structure IsaSample where
  leq : Nat → Option (Nat × Nat)
  qeq : Nat → Option (Nat × Nat)

/-- `_isa_sampling::sample_leq`, csa_sampling_strategy.hpp:651-656, and `sample_qeq`, 659-664. -/
def isaSample (dens : Nat) (a : Arr) : IsaSample :=
  ⟨fun i => do
    let v ← a.get (i / dens)
    pure (v, i / dens * dens),
  fun i => do
    let v ← a.get ((i / dens + 1) % a.xs.length)
    pure (v, (i / dens + 1) % a.xs.length * dens)⟩

/-- `_text_order_isa_sampling_support(cconfig, sa_sample)`, csa_sampling_strategy.hpp:712-720, with `inv_perm_support<t_s>`; `sample_leq`, 736-741, and `sample_qeq`, 744-749.
    `fuel` bounds the steps of the inverse permutation. -/
def textOrderIsa (dens ts fuel : Nat) (s : TextOrder) : Option IsaSample := do
  let p ← InvPerm.new ts s.arr.xs
  pure ⟨fun i => do
    let k ← InvPerm.get p fuel (i / dens)
    let v ← Bv.select true s.marked (k + 1)
    pure (v, i / dens * dens),
  fun i => do
    let k ← InvPerm.get p fuel ((i / dens + 1) % p.v.length)
    let v ← Bv.select true s.marked (k + 1)
    pure (v, (i / dens + 1) % p.v.length * dens)⟩

/-- `while (i--) result = lf[result]`, suffix_array_helper.hpp:510-512. -/
def lfIter (W : Wt) (A : Alpha) : Nat → Nat → Option Nat
  | 0, x => some x
  | k + 1, x => do
    let y ← lf W A x
    lfIter W A k y

/-- `isa[i]` of `csa_wt`, suffix_array_helper.hpp:500-514. -/
def isaGet (W : Wt) (A : Alpha) (I : IsaSample) (i : Nat) : Option Nat := do
  let s ← I.qeq i
  lfIter W A (if s.2 < i then sub64 (add64 s.2 W.size) i else sub64 s.2 i) s.1

/-- `text[i]`, suffix_array_helper.hpp:663-667. -/
def textGet (W : Wt) (A : Alpha) (I : IsaSample) (i : Nat) : Option Nat := do
  let r ← isaGet W A I i
  firstRow A r

/-- The loop of `extract` for LF-based CSAs, suffix_array_algorithm.hpp:601-607: `k` symbols remain, `acc` is what has been written so far (the positions from `k` on). -/
def extractLoop (W : Wt) (A : Alpha) : Nat → Nat → List Nat → Option (List Nat)
  | 0, _, acc => some acc
  | k + 1, order, acc => do
    let rc ← W.inverseSelect order
    let cc ← A.char2comp rc.2
    let b ← A.C cc
    extractLoop W A k (add64 b rc.1) (rc.2 :: acc)

/-- `extract` for LF-based CSAs, suffix_array_algorithm.hpp:587-610 (for `begin ≤ end`). -/
def extract (W : Wt) (A : Alpha) (I : IsaSample) (b e : Nat) : Option (List Nat) := do
  let order ← isaGet W A I e
  let c ← firstRow A order
  extractLoop W A (e - b) order [c]

end Sdsl.Csa
