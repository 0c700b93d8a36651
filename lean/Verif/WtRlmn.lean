/-
  The run-length wavelet tree `wt_rlmn` (wt_rlmn.hpp): a wavelet tree over the heads of the runs, and two bitvectors that mark the heads of the runs in the sequence and in its stably sorted version.
  The bitvectors `m_bl`, `m_bf` with their rank and select supports are used by contract (`Bv`; C08-C10, C25, C26 for the implementations). `text_buf` is the list of its first `size` symbols, and the temporary file `condensed_wt` is a list.
-/
import Verif.Csa

namespace Sdsl.Csa

/-- `C[i]` of a `std::map`: an absent key has the value 0. -/
def mapGet (c : Nat) : List (Nat × Nat) → Nat
  | [] => 0
  | (a, k) :: D => if a = c then k else mapGet c D

namespace Rlmn

/-- The first loop of the constructor, wt_rlmn.hpp:189-197: mark the heads of the runs and append their symbols to `condensed_wt`. (The counting `++C[c]` of the same loop is `counts`.) -/
def runLoop : List Nat → Nat → Nat → List Bool → List Nat → Option (List Bool × List Nat)
  | [], _, _, bl, R => some (bl, R)
  | c :: cs, i, last, bl, R =>
    if last ≠ c ∨ i = 0 then do
      let bl ← Bv.set bl i true
      runLoop cs (i + 1) c bl (R ++ [c])
    else runLoop cs (i + 1) c bl R

/-- The counters `C` (wt_rlmn.hpp:187, 195; `temp_C`, 47-49 and 67-69) and the initial `m_C` (`init_C`, 51-54: zeros up to the largest symbol; 71-73: a copy of the counters). -/
def counts (byte : Bool) (text : List Nat) : Option (Arr × (Nat → Option Nat)) :=
  if byte then do
    let D ← countSyms text (List.replicate 256 0)
    pure (⟨64, D⟩, fun c => D[c]?)
  else do
    let D := text.foldl (fun D c => mapInc c D) []
    let last ← D.getLast?
    let w ← hiW text.length
    pure (Arr.new (add64 last.1 1) 0 w, fun c => some (mapGet c D))

/-- `m_C[i] = prefix_sum; prefix_sum += C[i]`, wt_rlmn.hpp:201-204, `k` iterations from `i`. -/
def sumLoop (C : Nat → Option Nat) : Nat → Nat → Nat → Arr → Option Arr
  | 0, _, _, mC => some mC
  | k + 1, i, sum, mC => do
    let mC ← mC.set i sum
    let d ← C i
    sumLoop C k (i + 1) (add64 sum d) mC

/-- `if (bl[i]) bf[lf_map[c]] = 1`, wt_rlmn.hpp:211-213. -/
def mark (b : Bool) (p : Nat) (bf : List Bool) : Option (List Bool) := if b then Bv.set bf p true else some bf

/-- The second loop over the text, wt_rlmn.hpp:209-215. -/
def bfLoop (bl : List Bool) : List Nat → Nat → Arr → List Bool → Option (List Bool)
  | [], _, _, bf => some bf
  | c :: cs, i, lf, bf => do
    let b ← Bv.get bl i
    let p ← lf.get c
    let bf ← mark b p bf
    let lf ← lf.set c (p + 1)
    bfLoop bl cs (i + 1) lf bf

/-- `m_C_bf_rank[i] = m_bf_rank(m_C[i])`, wt_rlmn.hpp:231-233, `k` iterations from `i`. -/
def rankLoop (bf : List Bool) (mC : Arr) : Nat → Nat → Arr → Option Arr
  | 0, _, r => some r
  | k + 1, i, r => do
    let p ← mC.get i
    let x ← Bv.rank true bf p
    let r ← r.set i x
    rankLoop bf mC k (i + 1) r

/-- The members of a `wt_rlmn`, wt_rlmn.hpp:131-145. -/
structure Obj where
  size : Nat
  bl : List Bool
  bf : List Bool
  wt : Csa.Wt
  C : Arr
  Cbf : Arr

/-- `init_C_bf_rank`, wt_rlmn.hpp:56-58 and 75-77. -/
def initCbf (byte : Bool) (mC : Arr) (size : Nat) : Option Arr :=
  if byte then some (Arr.new 256 0 64) else do
    let w ← hiW size
    pure (Arr.new mC.xs.length 0 w)

/-- A default constructed wavelet tree. -/
def emptyWt : Csa.Wt := ⟨0, fun _ => none, fun _ _ => none, fun _ _ => none, fun _ => none, fun _ _ _ => none⟩

/-- `wt_rlmn(text_buf, size)`, wt_rlmn.hpp:176-234. `byte`: the `alphabet_category` of the inner wavelet tree is `byte_alphabet_tag`; `mk` is its constructor. -/
def new (byte : Bool) (mk : List Nat → Option Csa.Wt) (text : List Nat) : Option Obj :=
  if text.length = 0 then some ⟨0, [], [], emptyWt, Arr.empty, Arr.empty⟩
  else do
    let (bl, R) ← runLoop text 0 0 (List.replicate text.length false) []
    let (mC, C) ← counts byte text
    let mC ← sumLoop C mC.xs.length 0 0 mC
    let bf ← Bv.set (List.replicate (text.length + 1) false) text.length true
    let bf ← bfLoop bl text 0 mC bf
    let wt ← mk R
    let r ← initCbf byte mC text.length
    let r ← rankLoop bf mC mC.xs.length 0 r
    pure ⟨text.length, bl, bf, wt, mC, r⟩

/-- `operator[]`, wt_rlmn.hpp:319-322. -/
def get (t : Obj) (i : Nat) : Option Nat := do
  let p ← Bv.rank true t.bl (add64 i 1)
  t.wt.get (sub64 p 1)

/-- The position of the `i`-th symbol relative to `C[c]` if it belongs to the `k`-th run of `c`, which is the run `p` of the sequence, wt_rlmn.hpp:342-343 and 369-370. -/
def inRun (t : Obj) (i p k c : Nat) : Option Nat := do
  let b ← Bv.select true t.bl p
  let r ← t.Cbf.get c
  let s ← Bv.select true t.bf (add64 r k)
  let q ← t.C.get c
  pure (sub64 (add64 (sub64 s q) i) b)

/-- The number of symbols `c` in the first `k` runs of `c`, wt_rlmn.hpp:345 and 372. -/
def afterRun (t : Obj) (k c : Nat) : Option Nat := do
  let r ← t.Cbf.get c
  let s ← Bv.select true t.bf (add64 (add64 r k) 1)
  let q ← t.C.get c
  pure (sub64 s q)

/-- `rank(i, c)`, wt_rlmn.hpp:333-347. -/
def rank (t : Obj) (i c : Nat) : Option Nat :=
  if i = 0 then some 0 else do
    let p ← Bv.rank true t.bl i
    let k ← t.wt.rank p c
    if k = 0 then pure 0 else do
      let d ← t.wt.get (sub64 p 1)
      if d = c then inRun t i p k c else afterRun t k c

/-- `inverse_select(i)`, wt_rlmn.hpp:356-374. -/
def inverseSelect (t : Obj) (i : Nat) : Option (Nat × Nat) :=
  if i = 0 then do
    let c ← t.wt.get 0
    pure (0, c)
  else do
    let p ← Bv.rank true t.bl (add64 i 1)
    let rc ← t.wt.inverseSelect (sub64 p 1)
    let k := add64 rc.1 1
    if k = 0 then pure (0, rc.2) else do
      let d ← t.wt.get (sub64 p 1)
      let r ← if d = rc.2 then inRun t i p k rc.2 else afterRun t k rc.2
      pure (r, rc.2)

/-- `select(i, c)`, wt_rlmn.hpp:384-390. -/
def select (t : Obj) (i c : Nat) : Option Nat := do
  let q ← t.C.get c
  let x ← Bv.rank true t.bf (add64 q i)
  let r ← t.Cbf.get c
  let k := sub64 x r
  let s ← Bv.select true t.bf (add64 k r)
  let off := sub64 (sub64 (add64 q i) 1) s
  let j ← t.wt.select k c
  let b ← Bv.select true t.bl (add64 j 1)
  pure (add64 b off)

/-- The interface of a `wt_rlmn`; it has no `lex_count` (`lex_ordered=false`, wt_rlmn.hpp:119). -/
def wt (t : Obj) : Csa.Wt := ⟨t.size, get t, rank t, select t, inverseSelect t, fun _ _ _ => none⟩

end Rlmn
end Sdsl.Csa
