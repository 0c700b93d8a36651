import Verif.Csa

/-! # `construct_lcp_bwt_based`

Model of lib/construct_lcp.cpp:617-845 and `insert_lcp_values` (lib/construct_lcp_helper.cpp:18-46). Files are lists of numbers with a width. The
wavelet tree is used by its contract: `interval_symbols(i, j)` lists the different symbols of `bwt[i, j)`, here in the order of their first
occurrence, with their ranks (C55). `C[c]` is the number of smaller symbols (`create_C_array`). `bb`, the number of bits per value, comes from a
computation with floating point numbers and the size of the wavelet tree (lines 652-656) and is an argument; it is 6 for small texts. Output of
the memory monitor is left out. -/
namespace Sdsl.LcpBwt

/-- Why there is no result. -/
inductive Fail where
  | divZero
  | ub
  | fuel
  deriving DecidableEq, Repr

def lift {α : Type} : Option α → Except Fail α
  | none => .error .ub
  | some x => .ok x

/-- `C[c]`. -/
def cArr (bwt : List Nat) (c : Nat) : Nat := bwt.countP (· < c)

/-- `wt.rank(i, c)`. -/
def rank (bwt : List Nat) (i c : Nat) : Nat := (bwt.take i).countP (· == c)

/-- The intervals `[C[c]+rank_c_i, C[c]+rank_c_j)` of the symbols of `[i, j)`, construct_lcp.cpp:683-687, 741-745, 778-782. -/
def news (bwt : List Nat) (i j : Nat) : List (Nat × Nat) :=
  ((bwt.take j).drop i).eraseDups.map (fun c => (cArr bwt c + rank bwt i c, cArr bwt c + rank bwt j c))

/-- `util::next_bit(v, i)`: the first one at `i` or behind, `v.size()` if there is none (C17). -/
def nextBit (v : List Bool) (i : Nat) : Nat := i + (v.drop i).findIdx id

/-- `rank(i)` of `index_done`. -/
def ones (v : List Bool) (i : Nat) : Nat := (v.take i).countP id

structure St where
  partialLcp : Arr
  done : List Bool
  /-- number of new intervals -/
  new : Nat
  /-- the intervals: the queue or the target vector, with the intervals in front of each other -/
  q : List (Nat × Nat)
  target : List Bool
  deriving DecidableEq

/-- The bits of an interval, construct_lcp.cpp:787-788. -/
def mark (v : List Bool) (a b : Nat) : Option (List Bool) := do
  let v ← setList v (2 * a + 1) true
  setList v (2 * b) true

/-- Storing an interval in the queue or in the target vector. -/
def store (useQueue : Bool) (s : St) (a b : Nat) : Option St :=
  if useQueue then some { s with q := s.q ++ [(a, b)], new := s.new + 1 }
  else do
    let t ← mark s.target a b
    pure { s with target := t, new := s.new + 1 }

/-- "Save LCP value if not seen before", construct_lcp.cpp:747-762 and 783-799. -/
def visit (useQueue : Bool) (lcpValue offset phase : Nat) (s : St) (p : Nat × Nat) : Option St := do
  let d ← s.done[p.2]?
  if d then pure s
  else if phase = 0 then
    let l ← s.partialLcp.set p.2 lcpValue
    let dn ← setList s.done p.2 true
    store useQueue { s with partialLcp := l, done := dn } p.1 p.2
  else
    let pos := p.2 - ones s.done p.2
    let old ← s.partialLcp.get pos
    if old = 0 then
      let l ← s.partialLcp.set pos ((lcpValue + 2 ^ 64 - offset) % 2 ^ 64)
      store useQueue { s with partialLcp := l } p.1 p.2
    else pure s

/-- All symbols of one interval. -/
def visits (useQueue : Bool) (lcpValue offset phase : Nat) (bwt : List Nat) (s : St) (i j : Nat) : Option St :=
  (news bwt i j).foldlM (visit useQueue lcpValue offset phase) s

/-- The loop over the vector `dict[source]`, construct_lcp.cpp:771-805; the fuel is its size. -/
def walk (lcpValue offset phase : Nat) (bwt : List Nat) (src : List Bool) : Nat → Nat → St → Option St
  | 0, _, s => some s
  | k + 1, p, s =>
    let a2 := nextBit src p
    let b2 := nextBit src (a2 + 1)
    if b2 < src.length then do
      let s ← visits false lcpValue offset phase bwt s ((a2 - 1) / 2) (b2 / 2)
      walk lcpValue offset phase bwt src k (b2 + 1) s
    else some s

/-- The intervals of a vector, construct_lcp.cpp:704-711. -/
def toQueue (src : List Bool) : Nat → Nat → List (Nat × Nat)
  | 0, _ => []
  | k + 1, p =>
    let a2 := nextBit src p
    let b2 := nextBit src (a2 + 1)
    if b2 < src.length then ((a2 - 1) / 2, b2 / 2) :: toQueue src k (b2 + 1) else []

/-- `insert_lcp_values`, lib/construct_lcp_helper.cpp:18-46: the new file and `index_done`. Entries that are not written are zero if a later one
is written, and missing otherwise. -/
def insertLoop (part file : Arr) (offset : Nat) : Nat → Nat → Nat → List Bool → List Nat → Option (List Bool × List Nat)
  | 0, _, _, done, out => some (done, out)
  | k + 1, i, idx, done, out => do
    let d ← done[i]?
    if d then
      let x ← file.get i
      insertLoop part file offset k (i + 1) idx done (out ++ List.replicate (i - out.length) 0 ++ [x])
    else
      let x ← part.get idx
      if x ≠ 0 then
        let done ← setList done i true
        insertLoop part file offset k (i + 1) (idx + 1) done (out ++ List.replicate (i - out.length) 0 ++ [(x + offset) % 2 ^ 64])
      else insertLoop part file offset k (i + 1) (idx + 1) done out

def insertLcp (part : Arr) (done : List Bool) (file : Arr) (maxLcp offset : Nat) : Option (List Bool × Arr) := do
  let w := IntVec.clampWidth (Nat.log2 (maxLcp - 1) + 1)
  let (done, out) ← insertLoop part file offset file.xs.length 0 0 done []
  pure (done, ⟨w, out.map (· % 2 ^ w)⟩)

/-- The variables of the main loop. -/
structure Main where
  st : St
  source : List Bool
  queueUsed : Bool
  intervals : Nat
  lcpValue : Nat
  offset : Nat
  max : Nat
  phase : Nat
  file : Arr
  deriving DecidableEq

/-- One round of `while (intervals)` up to the end of the level, construct_lcp.cpp:701-806. -/
def level (bwt : List Nat) (m : Main) : Option Main := do
  let n := bwt.length
  let useQ : Bool := decide (m.intervals < n / 2048)
  let m := if useQ && !m.queueUsed then
      { m with st := { m.st with q := toQueue m.source m.source.length 0, target := [] }, source := [] }
    else m
  let m ← if !useQ && m.queueUsed then do
      let v ← m.st.q.foldlM (fun v p => mark v p.1 p.2) (List.replicate (2 * (n + 1)) false)
      pure { m with st := { m.st with q := [], target := List.replicate (2 * (n + 1)) false }, source := v }
    else pure m
  if useQ then
    let s ← m.st.q.foldlM (fun s p => visits true m.lcpValue m.offset m.phase bwt s p.1 p.2) { m.st with q := [], new := 0 }
    pure { m with st := s, queueUsed := true, intervals := s.new }
  else
    let s ← walk m.lcpValue m.offset m.phase bwt m.source m.source.length 0 { m.st with new := 0 }
    pure { m with st := { s with target := List.replicate s.target.length false }, source := s.target, queueUsed := false, intervals := s.new }

/-- The end of a round, construct_lcp.cpp:807-833: the values are written to the file when they do not fit any more. -/
def flush (bwt : List Nat) (space : Nat) (m : Main) : Except Fail Main := do
  let m := { m with lcpValue := m.lcpValue + 1 }
  if m.lcpValue ≥ m.max then
    let (done, file) ← if m.phase ≠ 0 then lift (insertLcp m.st.partialLcp m.st.done m.file m.lcpValue m.offset)
      else pure (m.st.done, m.st.partialLcp)
    let offset := (m.max + 2 ^ 64 - 1) % 2 ^ 64
    let remaining := done.length - ones done done.length
    if remaining = 0 then .error .divZero
    else
      let w := min (space / remaining) (Nat.log2 (bwt.length - 1) + 1)
      pure { m with st := { m.st with done := done, partialLcp := Arr.new remaining 0 w }, file := file, offset := offset,
                    max := (offset + 2 ^ w) % 2 ^ 64, phase := m.phase + 1 }
  else pure m

/-- The main loop and the end, construct_lcp.cpp:700-844. -/
def loop (bwt : List Nat) (space : Nat) : Nat → Main → Except Fail Arr
  | 0, _ => .error .fuel
  | k + 1, m =>
    if m.intervals = 0 then
      if m.phase ≠ 0 then do
        let (_, file) ← lift (insertLcp m.st.partialLcp m.st.done m.file m.lcpValue m.offset)
        pure file
      else pure m.st.partialLcp
    else do
      let m ← lift (level bwt m)
      let m ← flush bwt space m
      loop bwt space k m

/-- The first intervals, construct_lcp.cpp:678-697. -/
def first (n : Nat) (s : St) (p : Nat × Nat) : Option St := do
  let d ← s.done[p.2]?
  if d then pure s
  else do
    let l ← if p.2 < n then s.partialLcp.set p.2 0 else pure s.partialLcp
    let dn ← setList s.done p.2 true
    pure { s with partialLcp := l, done := dn, q := s.q ++ [p], new := s.new + 1 }

/-- `construct_lcp_bwt_based` with `bb` bits per value in the first phase; the last argument bounds the number of rounds (fuel). -/
def construct (bwt : List Nat) (bb fuel : Nat) : Except Fail Arr := do
  let n := bwt.length
  let s : St := ⟨Arr.new n 0 bb, true :: List.replicate n false, 0, [], []⟩
  let s ← lift ((news bwt 0 n).foldlM (first n) s)
  loop bwt (n * bb) fuel ⟨s, [], true, s.new, 1, 0, 2 ^ bb - 1, 0, Arr.empty⟩

end Sdsl.LcpBwt
