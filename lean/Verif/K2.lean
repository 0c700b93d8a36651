/-
  The k²-tree `k2_tree` (include/sdsl/k2_tree.hpp, include/sdsl/k2_tree_helper.hpp).

  The bit vectors `k_t`, `k_l` and the rank support (template parameters) are used by contract (`Bv`). Nodes and sizes are `size_type`.
  Floating point: `std::floor(i/static_cast<double>(n))` and `std::pow` are exact as long as all numbers are at most 2^53, which is the condition under which the
  model gives a result (`fdiv`, `fpow`, `toIdx`). The height `std::ceil(std::log(size)/std::log(k_k))` is an argument `lg` of the constructors: the theorems
  hold for every value with `size ≤ k ^ lg`, rounding up too far does no harm. Serialization, copy, swap and `operator==` are not modelled, nor the constructor
  that reads the edges from two files (it calls `build_from_edges` with them).
-/
import Verif.Csa

namespace Sdsl.K2

open Csa

/-- `std::floor(i/static_cast<double>(n))`. -/
def fdiv (i n : Nat) : Option Nat := if n = 0 then none else if i ≤ 2 ^ 53 then some (i / n) else none

/-- `std::pow(k, e)`. -/
def fpow (k e : Nat) : Option Nat := if k ^ e ≤ 2 ^ 53 then some (k ^ e) else none

/-- A number computed as `double` and converted to `idx_type`. -/
def toIdx (x : Nat) : Option Nat := if x ≤ 2 ^ 53 then some x else none

/-- The members, k2_tree.hpp:57-67. -/
structure Obj where
  T : List Bool
  L : List Bool
  k : Nat
  height : Nat

/-! ### Queries -/

/-- The loop of `adj`, k2_tree.hpp:461-470, and its last line; the fuel bounds the number of iterations. -/
def adjLoop (t : Obj) (k2 : Nat) : Nat → Nat → Nat → Nat → Nat → Option Bool
  | 0, _, _, _, _ => none
  | f + 1, i, j, level, n =>
    if level < t.T.length then do
      let b ← Bv.get t.T level
      if b = false then pure false
      else do
        let row ← fdiv i n
        let col ← fdiv j n
        let r ← Bv.rank true t.T (level + 1)
        adjLoop t k2 f (i % n) (j % n) (r * k2 + t.k * row + col) (n / t.k)
    else Bv.get t.L (level - t.T.length)

/-- `adj(i, j)`, k2_tree.hpp:443-473. -/
def adj (t : Obj) (i j : Nat) : Option Bool :=
  if t.T.length = 0 ∧ t.L.length = 0 then some false
  else do
    let n ← fpow t.k (t.height - 1)
    let k2 ← fpow t.k 2
    let row ← fdiv i n
    let col ← fdiv j n
    adjLoop t k2 (t.height + 1) (i % n) (j % n) (t.k * row + col) (n / t.k)

/-- `for (unsigned j = 0; j < m; j++) f(j)`, where every call appends its results to the accumulator; `c` calls remain, the next one for `j`. -/
def appendLoop {α : Type} (f : Nat → Option (List α)) : Nat → Nat → Option (List α)
  | 0, _ => some []
  | c + 1, j => do
    let a ← f j
    let b ← appendLoop f c (j + 1)
    pure (a ++ b)

/-- `_neigh`, k2_tree.hpp:124-139; the result are the elements appended to `acc`, the fuel bounds the depth of the recursion. -/
def neighAux (t : Obj) : Nat → Nat → Nat → Nat → Nat → Option (List Nat)
  | 0, _, _, _, _ => none
  | f + 1, n, row, col, level =>
    if level ≥ t.T.length then do
      let b ← Bv.get t.L (level - t.T.length)
      pure (if b then [col] else [])
    else do
      let b ← Bv.get t.T level
      if b = false then pure []
      else do
        let r ← Bv.rank true t.T (level + 1)
        let q ← fdiv row n
        let y ← toIdx (r * t.k ^ 2 + t.k * q)
        appendLoop (fun j => neighAux t f (n / t.k) (row % n) (col + n * j) (y + j)) t.k 0

/-- `_reverse_neigh`, k2_tree.hpp:152-170. -/
def revAux (t : Obj) : Nat → Nat → Nat → Nat → Nat → Option (List Nat)
  | 0, _, _, _, _ => none
  | f + 1, n, row, col, level =>
    if level ≥ t.T.length then do
      let b ← Bv.get t.L (level - t.T.length)
      pure (if b then [row] else [])
    else do
      let b ← Bv.get t.T level
      if b = false then pure []
      else do
        let r ← Bv.rank true t.T (level + 1)
        let q ← fdiv col n
        let y ← toIdx (r * t.k ^ 2 + q)
        appendLoop (fun j => revAux t f (n / t.k) (row + n * j) (col % n) (y + j * t.k)) t.k 0

/-- `neigh(i)`, k2_tree.hpp:480-495. -/
def neigh (t : Obj) (i : Nat) : Option (List Nat) :=
  if t.L.length = 0 ∧ t.T.length = 0 then some []
  else do
    let m ← fpow t.k t.height
    let n := m / t.k
    let q ← fdiv i n
    let y ← toIdx (t.k * q)
    appendLoop (fun j => neighAux t (t.height + 1) (n / t.k) (i % n) (n * j) (y + j)) t.k 0

/-- `reverse_neigh(i)`, k2_tree.hpp:502-515. -/
def reverseNeigh (t : Obj) (i : Nat) : Option (List Nat) :=
  if t.L.length = 0 ∧ t.T.length = 0 then some []
  else do
    let m ← fpow t.k t.height
    let n := m / t.k
    let y ← fdiv i n
    appendLoop (fun j => revAux t (t.height + 1) (n / t.k) (n * j) (i % n) (y + j * t.k)) t.k 0

/-- `struct state` of `range`, k2_tree.hpp:524-529. -/
structure State where
  n : Nat
  row1 : Nat
  row2 : Nat
  col1 : Nat
  col2 : Nat
  dr : Nat
  dc : Nat
  z : Nat

/-- `std::numeric_limits<idx_type>::max()`. -/
def maxIdx : Nat := 2 ^ 64 - 1

/-- The numbers of `for (i = a; i <= b; ++i)`. -/
def loopRange (a b : Nat) : List Nat := List.range' a (b + 1 - a)

/-- The states pushed for one node, k2_tree.hpp:547-562, in the order of the calls of `emplace_back`. -/
def children (k y : Nat) (s : State) : List State :=
  (loopRange (s.row1 / s.n) (s.row2 / s.n)).flatMap fun i =>
    (loopRange (s.col1 / s.n) (s.col2 / s.n)).map fun j =>
      ⟨s.n / k, if i = s.row1 / s.n then s.row1 % s.n else 0, if i = s.row2 / s.n then s.row2 % s.n else s.n - 1,
        if j = s.col1 / s.n then s.col1 % s.n else 0, if j = s.col2 / s.n then s.col2 % s.n else s.n - 1, s.dr + s.n * i, s.dc + s.n * j, y + k * i + j⟩

/-- The loop of `range`, k2_tree.hpp:534-564; the head of the list is `states.back()`. The fuel bounds the number of iterations. -/
def rangeLoop (t : Obj) : Nat → List State → Option (List (Nat × Nat))
  | 0, _ => none
  | _ + 1, [] => some []
  | f + 1, s :: st =>
    if s.z ≠ maxIdx ∧ s.z ≥ t.T.length then do
      let b ← Bv.get t.L (s.z - t.T.length)
      let res ← rangeLoop t f st
      pure (if b then (s.dr, s.dc) :: res else res)
    else do
      let b ← if s.z = maxIdx then some true else Bv.get t.T s.z
      if b = false then rangeLoop t f st
      else do
        let r ← Bv.rank true t.T (add64 s.z 1)
        if s.n = 0 then none
        else rangeLoop t f ((children t.k (r * t.k * t.k) s).reverse ++ st)

/-- `range(row1, row2, col1, col2)`, k2_tree.hpp:517-567. -/
def range (t : Obj) (fuel row1 row2 col1 col2 : Nat) : Option (List (Nat × Nat)) := do
  let m ← fpow t.k t.height
  rangeLoop t fuel [⟨m / t.k, row1, row2, col1, col2, 0, 0, maxIdx⟩]

/-! ### Construction from a matrix -/

/-- The bits of a leaf block, k2_tree_helper.hpp:49-55. -/
def leafBit (M : List (List Int)) (p q i j : Nat) : Option Bool :=
  if p + i < M.length ∧ q + j < M.length then do
    let row ← M[p + i]?
    let x ← row[q + j]?
    pure (x == 1)
  else some false

/-- `for (i < k) for (j < k) b[i*k+j] = …`, k2_tree_helper.hpp:50-55 and 57-61, as one loop over `i*k+j`; `c` iterations remain. The state is `acc`. -/
def bitsLoop {σ : Type} (f : Nat → σ → Option (Bool × σ)) : Nat → Nat → σ → Option (List Bool × σ)
  | 0, _, acc => some ([], acc)
  | c + 1, it, acc => do
    let (b, acc) ← f it acc
    let (bs, acc) ← bitsLoop f c (it + 1) acc
    pure (b :: bs, acc)

/-- `acc[l].push_back(b)`. -/
def pushBlock (acc : List (List (List Bool))) (l : Nat) (b : List Bool) : Option (List (List (List Bool))) :=
  match acc[l]? with
  | some a => some (acc.set l (a ++ [b]))
  | none => none

/-- `_build_from_matrix`, k2_tree_helper.hpp:41-73; the first argument is `height - l`. -/
def buildMatrix (M : List (List Int)) (k : Nat) : Nat → Nat → Nat → Nat → Nat → List (List (List Bool)) → Option (Bool × List (List (List Bool)))
  | 0, _, l, p, q, acc => do
    let (b, acc) ← bitsLoop (fun it acc => do
      let x ← leafBit M p q (it / k) (it % k)
      pure (x, acc)) (k * k) 0 acc
    if b.any id then do
      let acc ← pushBlock acc l b
      pure (true, acc)
    else pure (false, acc)
  | r + 1, n, l, p, q, acc => do
    let (b, acc) ← bitsLoop (fun it acc => buildMatrix M k r (n / k) (l + 1) (p + it / k * (n / k)) (q + it % k * (n / k)) acc) (k * k) 0 acc
    if b.any id then do
      let acc ← pushBlock acc l b
      pure (true, acc)
    else pure (false, acc)

/-- `k2_tree(matrix)` and `build_from_matrix`, k2_tree.hpp:71-109 and 283-298. `std::logic_error` for the empty matrix is `none`, and so is an
overflow of the `int`s `simulated_size` and `n` (k2_tree.hpp:74 and 94-107). -/
def newMatrix (k lg : Nat) (M : List (List Int)) : Option Obj :=
  if M.length < 1 then none
  else do
    let h := if M.length < k then 1 else lg
    let n ← fpow k h
    if n ≥ 2 ^ 31 then none
    else do
      let (_, acc) ← buildMatrix M k (h - 1) n 1 0 0 (List.replicate (h + 1) [])
      let last ← acc[h]?
      let T := ((acc.take h).drop 1).flatten.flatten
      let L := last.flatten
      if T.length ≥ 2 ^ 31 ∨ L.length ≥ 2 ^ 31 then none
      else pure ⟨T, L, k, h⟩

/-! ### Construction from edges -/

/-- `get_chunk_idx`, k2_tree_helper.hpp:88-92; the result is a `uint16_t`. -/
def chunkIdx (k l r0 c0 : Nat) (e : Nat × Nat) : Nat := (sub64 e.1 r0 / l * k + sub64 e.2 c0 / l) % 2 ^ 16

/-- `for (it = i; it < j; it++) amount_by_chunk[get_chunk_idx(edges[it])] += 1`, k2_tree.hpp:207-210; `c` iterations remain. -/
def amountLoop (f : Nat × Nat → Nat) (E : List (Nat × Nat)) : Nat → Nat → List Nat → Option (List Nat)
  | 0, _, a => some a
  | c + 1, it, a => do
    let e ← E[it]?
    let x ← a[f e]?
    amountLoop f E c (it + 1) (a.set (f e) (x + 1))

/-- `pos_by_chunk` after k2_tree.hpp:226-231: all entries are overwritten. -/
def posList (i : Nat) : List Nat → List Nat
  | [] => []
  | a :: as => i :: posList (i + a) as

/-- The entries of the queue. -/
structure Part where
  i : Nat
  j : Nat
  l : Nat
  r0 : Nat
  c0 : Nat

/-- `if (a != 0) B[t] = 1`. -/
def setIf (a t : Nat) (B : List Bool) : Option (List Bool) := if a ≠ 0 then Bv.set B t true else some B

/-- `for (it = 0; it < k_2; it++,t++) if (amount_by_chunk[it] != 0) k_l_[t] = 1;`, k2_tree.hpp:219-221. -/
def leafLoop : List Nat → Nat → List Bool → Option (List Bool)
  | [], _, B => some B
  | a :: as, t, B => do
    let B ← setIf a t B
    leafLoop as (t + 1) B

/-- The loop that sets the bits of an inner node and pushes its children, k2_tree.hpp:232-245; the arguments are `amount_by_chunk[it..]`, `pos_by_chunk[it..]`. -/
def pushLoop (k l r0 c0 : Nat) : List Nat → List Nat → Nat → Nat → List Bool → List Part → Option (List Bool × List Part)
  | a :: as, p :: p' :: ps, it, t, B, Q =>
    if a ≠ 0 then do
      let B ← Bv.set B t true
      pushLoop k l r0 c0 as (p' :: ps) (it + 1) (t + 1) B (Q ++ [⟨p, p', l / k, r0 + it / k * l, c0 + it % k * l⟩])
    else pushLoop k l r0 c0 as (p' :: ps) (it + 1) (t + 1) B Q
  | [], _, _, _, B, Q => some (B, Q)
  | _ :: _, _, _, _, _, _ => none

/-- `std::iter_swap`. -/
def swapAt (E : List (Nat × Nat)) (x y : Nat) : Option (List (Nat × Nat)) := do
  let a ← E[x]?
  let b ← E[y]?
  pure ((E.set x b).set y a)

/-- The inner loop of the sorting phase for one chunk, k2_tree.hpp:251-262; `stop` is `be + amount_by_chunk[ch]`, which does not change. The fuel bounds the
number of iterations. -/
def sortChunk (f : Nat × Nat → Nat) (stop : Nat) : Nat → Nat → List Nat → List (Nat × Nat) → Option (List Nat × List (Nat × Nat))
  | 0, _, _, _ => none
  | g + 1, it, pos, E =>
    if it < stop then do
      let e ← E[it]?
      let p ← pos[f e]?
      if p ≠ it then do
        let E ← swapAt E it p
        sortChunk f stop g it (pos.set (f e) (p + 1)) E
      else sortChunk f stop g (it + 1) (pos.set (f e) (p + 1)) E
    else some (pos, E)

/-- `be`, k2_tree.hpp:250. -/
def chunkBegin (i ch : Nat) (pos : List Nat) : Option Nat := if ch = 0 then some i else pos[ch - 1]?

/-- The sorting phase, k2_tree.hpp:248-263; `c` chunks remain. -/
def sortLoop (f : Nat × Nat → Nat) (i j : Nat) (amount : List Nat) : Nat → Nat → List Nat → List (Nat × Nat) → Option (List (Nat × Nat))
  | 0, _, _, E => some E
  | c + 1, ch, pos, E => do
    let be ← chunkBegin i ch pos
    let p ← pos[ch]?
    let a ← amount[ch]?
    let (pos, E) ← sortChunk f (be + a) (j - i + 1) p pos E
    sortLoop f i j amount c (ch + 1) pos E

/-- The state of the main loop: `k_t_`, `k_l_`, `t`, `last_level`, the edges. -/
structure St where
  kt : List Bool
  kl : List Bool
  t : Nat
  last : Nat
  E : List (Nat × Nat)

/-- `k_t_.resize(n)` and `k_l_.resize(n)`. -/
def resize (B : List Bool) (n : Nat) : List Bool := B.take n ++ List.replicate (n - B.length) false

/-- One iteration of the main loop, k2_tree.hpp:203-264. -/
def partStep (k : Nat) (x : Part) (Q : List Part) (s : St) : Option (St × List Part) := do
  let amount ← amountLoop (chunkIdx k x.l x.r0 x.c0) s.E (x.j - x.i) x.i (List.replicate (k * k) 0)
  if x.l = 1 then do
    let s := if s.last = 0 then { s with kl := List.replicate (s.kt.length - s.t) false, kt := resize s.kt s.t, last := 1, t := 0 } else s
    let kl ← leafLoop amount s.t s.kl
    pure ({ s with kl := kl, t := s.t + k * k }, Q)
  else do
    let pos := posList x.i amount ++ [x.j]
    let (kt, Q) ← pushLoop k x.l x.r0 x.c0 amount pos 0 s.t s.kt Q
    let E ← sortLoop (chunkIdx k x.l x.r0 x.c0) x.i x.j amount (k * k) 0 pos s.E
    pure ({ s with kt := kt, t := s.t + k * k, E := E }, Q)

/-- The main loop; the fuel bounds the number of iterations. -/
def partLoop (k : Nat) : Nat → List Part → St → Option St
  | 0, _, _ => none
  | _ + 1, [], s => some s
  | f + 1, x :: Q, s => do
    let (s, Q) ← partStep k x Q s
    partLoop k f Q s

/-- `k2_tree(edges, size)` and `build_from_edges`, k2_tree.hpp:180-270 and 309-316; `fuel` bounds the number of iterations of the main loop. -/
def newEdges (k lg fuel : Nat) (E : List (Nat × Nat)) : Option Obj := do
  let h := if lg > 1 then lg else 1
  let k2 ← fpow k 2
  let l ← fpow k (h - 1)
  let s ← partLoop k fuel [⟨0, E.length, l, 0, 0⟩] ⟨List.replicate (k2 * h * E.length) false, [], 0, 0, E⟩
  pure ⟨s.kt, resize s.kl s.t, k, h⟩

end Sdsl.K2
