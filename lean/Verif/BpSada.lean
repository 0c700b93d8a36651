/-
  bp_support_sada (include/sdsl/bp_support_sada.hpp): range min-max tree over a balanced parentheses sequence.

  `S` is `t_sml_blk`, `D` is `t_med_deg`; their product (computed in 32 bits in the code) is assumed to fit. The rank support is represented by its contract (C18, C19): the number of
  ones before a position that is at most the size of the vector. Excess values are integers. Positions are natural numbers, and `-1` of type `size_type` is `2^64-1`.
-/
import Verif.Bp

namespace Sdsl.Bp

open Spec

/-- `bp_support_sada`, members bp_support_sada.hpp:87-97. -/
structure Sada where
  mem : Mem
  n : Nat
  S : Nat
  D : Nat
  sml : Arr
  med : Arr
  smlBlocks : Nat
  medBlocks : Nat
  inner : Nat

/-- `m_bp_rank(i)`: by the contract of the rank supports. -/
def rank1 (mem : Mem) (n i : Nat) : Option Nat := if i ≤ n then some ((List.range i).countP (bitAt mem)) else none

/-! ### Construction, bp_support_sada.hpp:353-414 -/

/-- `while (m_med_inner_blocks < m_med_blocks) m_med_inner_blocks <<= 1`, lines 368-370. -/
def pow2Loop (m : Nat) : Nat → Nat → Nat
  | 0, x => x
  | f + 1, x => if x < m then pow2Loop m f (2 * x) else x

structure BuildSt where
  minEx : Int
  maxEx : Int
  rel : Int
  abs : Int
  sml : Arr
  med : Arr

/-- `if (c) a[i] = x;` -/
def setIf (c : Bool) (a : Arr) (i x : Nat) : Option Arr := if c then a.set i x else some a

/-- The end of a small block, lines 387-404. -/
def blockEnd (n D inner sidx : Nat) (st : BuildSt) : Option BuildSt := do
  let sml ← st.sml.set (2 * sidx) (-(st.minEx - 1)).toNat
  let sml ← sml.set (2 * sidx + 1) (st.maxEx + 1).toNat
  let v := inner + sidx / D
  let x ← st.med.get (2 * v)
  let med ← setIf (decide (-(st.abs + st.minEx) + n > x)) st.med (2 * v) (-(st.abs + st.minEx) + n).toNat
  let y ← med.get (2 * v + 1)
  let med ← setIf (decide (st.abs + st.maxEx + n > y)) med (2 * v + 1) (st.abs + st.maxEx + n).toNat
  some ⟨1, -1, 0, st.abs + st.rel, sml, med⟩

/-- One position, lines 379-405. -/
def buildStep (mem : Mem) (n S D inner i : Nat) (st : BuildSt) : Option BuildSt := do
  let b ← bit mem i
  let rel := st.rel + sgn b
  let st := { st with rel := rel, maxEx := if rel > st.maxEx then rel else st.maxEx, minEx := if rel < st.minEx then rel else st.minEx }
  if (i + 1) % S = 0 ∨ i + 1 = n then blockEnd n D inner (i / S) st else some st

def buildLoop (mem : Mem) (n S D inner : Nat) : Nat → Nat → BuildSt → Option BuildSt
  | 0, _, st => some st
  | k + 1, i, st => do
    let st ← buildStep mem n S D inner i st
    buildLoop mem n S D inner k (i + 1) st

/-- The loop over the nodes, lines 408-414: nodes `v, …, 1`; the parent of `v + 1` is `v / 2`. -/
def treeLoop (n : Nat) : Nat → Arr → Option Arr
  | 0, a => some a
  | v + 1, a => do
    let x ← a.get (2 * (v + 1))
    let y ← a.get (2 * (v / 2))
    let a ← setIf (decide ((n : Int) - x < (n : Int) - y)) a (2 * (v / 2)) x
    let x ← a.get (2 * (v + 1) + 1)
    let y ← a.get (2 * (v / 2) + 1)
    let a ← setIf (decide ((x : Int) - n > (y : Int) - n)) a (2 * (v / 2) + 1) x
    treeLoop n v a

/-- The constructor, lines 353-415. -/
def Sada.new (mem : Mem) (n S D : Nat) : Option Sada :=
  let smlBlocks := (n + S - 1) / S
  let medBlocks := (n + S * D - 1) / (S * D)
  if n = 0 then some ⟨mem, 0, S, D, Arr.empty, Arr.empty, smlBlocks, medBlocks, 0⟩
  else do
    let inner := pow2Loop medBlocks 64 1 - 1
    let h1 ← Bits.hi (BitVec.ofNat 64 (S + 2))
    let h2 ← Bits.hi (BitVec.ofNat 64 (2 * n + 2))
    let st ← buildLoop mem n S D inner n 0 ⟨1, -1, 0, 0, Arr.new (2 * smlBlocks) 0 (h1 + 1), Arr.new (2 * (medBlocks + inner)) 0 (h2 + 1)⟩
    let med ← treeLoop n (st.med.xs.length / 2 - 1) st.med
    some ⟨mem, n, S, D, st.sml, med, smlBlocks, medBlocks, inner⟩

/-! ### Access -/

/-- `excess`, lines 494-497: `(m_bp_rank(i+1)<<1)-i-1`. -/
def Sada.excess (s : Sada) (i : Nat) : Option Int := do
  let r ← rank1 s.mem s.n (i + 1)
  some (2 * (r : Int) - i - 1)

/-- `min_value`, lines 176-179. -/
def Sada.minValue (s : Sada) (v : Nat) : Option Int := do
  let x ← s.med.get (2 * v)
  some ((s.n : Int) - x)

/-- `max_value`, lines 181-184. -/
def Sada.maxValue (s : Sada) (v : Nat) : Option Int := do
  let x ← s.med.get (2 * v + 1)
  some ((x : Int) - s.n)

/-- `min_value(v) <= desired_excess and desired_excess <= max_value(v)`. -/
def Sada.inRange (s : Sada) (v : Nat) (t : Int) : Option Bool := do
  let lo ← s.minValue v
  let hi ← s.maxValue v
  some (decide (lo ≤ t) && decide (t ≤ hi))

/-- The excess before a small block: `(k == 0) ? 0 : excess(k*t_sml_blk-1)` (line 312; line 338 has no test, but `excess(-1)` is 0 too). -/
def Sada.exBefore (s : Sada) (k : Nat) : Option Int := if k * s.S = 0 then some 0 else s.excess (k * s.S - 1)

/-- `min_ex <= desired_excess and desired_excess <= max_ex` for a small block, lines 312-316, 338-341. -/
def Sada.smlInRange (s : Sada) (k : Nat) (t : Int) : Option Bool := do
  let ex ← s.exBefore k
  let lo ← s.sml.get (2 * k)
  let hi ← s.sml.get (2 * k + 1)
  some (decide (ex + (1 - (lo : Int)) ≤ t) && decide (t ≤ ex + ((hi : Int) - 1)))

/-! ### Forward -/

/-- The loop of `fwd_excess_in_med_block`, lines 337-347: `f` small blocks are left from `k`. -/
def Sada.fwdMedLoop (s : Sada) (t : Int) : Nat → Nat → Option Nat
  | 0, _ => some s.n
  | f + 1, k => do
    let b ← s.smlInRange k t
    if b then do
      let ex ← s.exBefore k
      nearFwdExcess s.mem (k * s.S) (t - ex) s.S
    else s.fwdMedLoop t f (k + 1)

/-- `fwd_excess_in_med_block`, lines 329-349. -/
def Sada.fwdMed (s : Sada) (k : Nat) (t : Int) : Option Nat :=
  let stop := (k * s.S / (s.S * s.D) + 1) * s.D
  let stop := if stop > s.smlBlocks then s.smlBlocks else stop
  s.fwdMedLoop t (stop - k) k

/-- Lines 234-241: up the tree. 0 (the root) if nothing is found. -/
def Sada.fwdUp (s : Sada) (t : Int) : Nat → Nat → Option Nat
  | 0, _ => none
  | f + 1, v =>
    if v = 0 then some 0
    else if v % 2 = 1 then do
      let b ← s.inRange (v + 1) t
      if b then some (v + 1) else s.fwdUp t f (v / 2)
    else s.fwdUp t f ((v - 1) / 2)

/-- Lines 244-250: down the tree. -/
def Sada.fwdDown (s : Sada) (t : Int) : Nat → Nat → Option Nat
  | 0, _ => none
  | f + 1, v =>
    if v < s.inner then do
      let b ← s.inRange (2 * v + 1) t
      if b then s.fwdDown t f (2 * v + 1) else s.fwdDown t f (2 * v + 2)
    else some v

/-- `fwd_excess`, lines 216-256. -/
def Sada.fwdExcess (s : Sada) (i : Nat) (rel : Int) : Option Nat := do
  let j ← nearFwdExcess s.mem (i + 1) rel s.S
  if j > i then some j
  else do
    let e ← s.excess i
    let j ← s.fwdMed (i / s.S + 1) (e + rel)
    if j ≠ s.n then some j
    else if i / (s.S * s.D) = s.medBlocks then some s.n
    else do
      let v0 := s.inner + i / (s.S * s.D)
      let v ← s.fwdUp (e + rel) (v0 + 1) v0
      if v = 0 then some s.n
      else do
        let v ← s.fwdDown (e + rel) (s.inner + 1) v
        s.fwdMed ((v - s.inner) * s.D) (e + rel)

/-! ### Backward -/

/-- The loop of `bwd_excess_in_med_block`, lines 311-325: the argument is `sml_block_idx + 1`. -/
def Sada.bwdMedLoop (s : Sada) (first : Nat) (t : Int) : Nat → Option Nat
  | 0 => some s.n
  | k + 1 =>
    if first ≤ k then do
      let b ← s.smlInRange k t
      if b then do
        let e ← s.excess ((k + 1) * s.S)
        nearBwdExcess s.mem ((k + 1) * s.S - 1) (t - e) s.S
      else s.bwdMedLoop first t k
    else if k = 0 ∧ t = 0 then some (2 ^ 64 - 1) else some s.n

/-- `bwd_excess_in_med_block(k - 1, t)`, lines 306-327. For `k = 0` the argument is `-1`, and neither the loop nor the test after it succeeds. -/
def Sada.bwdMed (s : Sada) (k : Nat) (t : Int) : Option Nat := s.bwdMedLoop ((k - 1) * s.S / (s.S * s.D) * s.D) t k

/-- Lines 284-290. -/
def Sada.bwdUp (s : Sada) (t : Int) : Nat → Nat → Option Nat
  | 0, _ => none
  | f + 1, v =>
    if v = 0 then some 0
    else if v % 2 = 0 then do
      let b ← s.inRange (v - 1) t
      if b then some (v - 1) else s.bwdUp t f ((v - 2) / 2)
    else s.bwdUp t f ((v - 1) / 2)

/-- Lines 292-299. -/
def Sada.bwdDown (s : Sada) (t : Int) : Nat → Nat → Option Nat
  | 0, _ => none
  | f + 1, v =>
    if v < s.inner then do
      let b ← s.inRange (2 * v + 2) t
      if b then s.bwdDown t f (2 * v + 2) else s.bwdDown t f (2 * v + 1)
    else some v

/-- `bwd_excess`, lines 264-304. -/
def Sada.bwdExcess (s : Sada) (i : Nat) (rel : Int) : Option Nat :=
  if i = 0 then some (if rel = 0 then 2 ^ 64 - 1 else s.n)
  else do
    let j ← nearBwdExcess s.mem (i - 1) rel s.S
    if j < i ∨ j = 2 ^ 64 - 1 then some j
    else do
      let e ← s.excess i
      let j ← s.bwdMed (i / s.S) (e + rel)
      if j ≠ s.n then some j
      else if i / (s.S * s.D) = 0 then some (if e + rel = 0 then 2 ^ 64 - 1 else s.n)
      else do
        let v0 := s.inner + i / (s.S * s.D)
        let v ← s.bwdUp (e + rel) (v0 + 1) v0
        if v ≠ 0 then do
          let v ← s.bwdDown (e + rel) (s.inner + 1) v
          s.bwdMed ((v - s.inner) * s.D + (s.D - 1) + 1) (e + rel)
        else some (if e + rel = 0 then 2 ^ 64 - 1 else s.n)

/-- `bwd_ex == size() ? size() : bwd_ex+1`. -/
def Sada.after (s : Sada) (j : Nat) : Nat := if j = s.n then s.n else (j + 1) % 2 ^ 64

/-- `find_close`, lines 531-550. -/
def Sada.findClose (s : Sada) (i : Nat) : Option Nat := do
  let b ← bit s.mem i
  if b then s.fwdExcess i (-1) else some i

/-- `find_open`, lines 558-584. -/
def Sada.findOpen (s : Sada) (i : Nat) : Option Nat := do
  let b ← bit s.mem i
  if b then some i
  else do
    let j ← s.bwdExcess i 0
    some (s.after j)

/-- `enclose`, lines 591-602. -/
def Sada.enclose (s : Sada) (i : Nat) : Option Nat := do
  let b ← bit s.mem i
  if b then do
    let j ← s.bwdExcess i (-2)
    some (s.after j)
  else s.findOpen i

/-- `level_anc`, lines 886-894; `-d-1` is exact for `d < 2^63`. -/
def Sada.levelAnc (s : Sada) (i d : Nat) : Option Nat := do
  let j ← s.bwdExcess i (-(d : Int) - 1)
  some (s.after j)

/-! ### Range minimum -/

/-- The loop of `median_block_rmq`, lines 678-683; the state is `pos_min_block` (`none` for `-1`) and `min_ex`. -/
def Sada.medRmqLoop (s : Sada) : Nat → Nat → Option Nat × Int → Option (Option Nat × Int)
  | 0, _, st => some st
  | f + 1, i, st => do
    let ex ← s.excess (i * s.S - 1)
    let x ← s.sml.get (2 * i)
    s.medRmqLoop f (i + 1) (if ex + (1 - (x : Int)) ≤ st.2 then (some i, ex + (1 - (x : Int))) else st)

/-- `median_block_rmq`, lines 666-685; `r1` is `r_sblock + 1`. -/
def Sada.medRmq (s : Sada) (l r1 : Nat) (minEx : Int) : Option (Option Nat × Int) :=
  if l = 0 then do
    let x ← s.sml.get 0
    s.medRmqLoop (r1 - 1) 1 (if 1 - (x : Int) ≤ minEx then (some 0, 1 - (x : Int)) else (none, minEx))
  else s.medRmqLoop (r1 - l) l (none, minEx)

/-- Where the minimum is (`pos_type`, `min_pos`). -/
inductive MinPos where
  | pos (p : Nat)
  | small (k : Nat)
  | medium (v : Nat)

/-- `if (min_value(v) <= min_ex) { min_ex = min_value(v); min_pos = v; pos_type = MEDIUM_BLOCK_POS; }` -/
def Sada.visit (s : Sada) (v : Nat) (st : MinPos × Int) : Option (MinPos × Int) := do
  let m ← s.minValue v
  some (if m ≤ st.2 then (.medium v, m) else st)

/-- Lines 730-742: up the tree; `last = mbr - 1`. -/
def Sada.rmqUp (s : Sada) (last : Nat) : Nat → Nat → Nat → Nat → MinPos × Int → Option (Nat × Nat × Nat × (MinPos × Int))
  | 0, _, _, _, _ => none
  | f + 1, v, rcb, h, st =>
    if rcb < last then do
      let st ← s.visit v st
      if v % 2 = 0 then s.rmqUp last f ((v - 1) / 2 + 1) (rcb + 2 ^ (h + 1)) (h + 1) st
      else s.rmqUp last f ((v - 1) / 2) (rcb + 2 ^ h) (h + 1) st
    else some (v, rcb, h, st)

/-- Lines 749-764: down the tree. -/
def Sada.rmqDown (s : Sada) (last : Nat) : Nat → Nat → Nat → MinPos × Int → Option (MinPos × Int)
  | h, v, rcb, st =>
    if rcb = last then some st
    else match h with
      | 0 => none
      | h + 1 => do
        let v' := if rcb > last then 2 * v + 1 else 2 * v + 3
        let rcb' := if rcb > last then rcb - 2 ^ h else rcb + 2 ^ h
        let st ← if rcb' ≤ last then s.visit v' st else some st
        s.rmqDown last h v' rcb' st

/-- Lines 766-772: down to the last leaf with the minimum. -/
def Sada.minLeaf (s : Sada) (minEx : Int) : Nat → Nat → Option Nat
  | 0, _ => none
  | f + 1, v =>
    if v < s.inner then
      if 2 * v + 2 < s.inner + s.medBlocks then do
        let m ← s.minValue (2 * v + 2)
        s.minLeaf minEx f (if m > minEx then 2 * v + 1 else 2 * v + 2)
      else s.minLeaf minEx f (2 * v + 1)
    else some v

/-- Lines 725-774. -/
def Sada.rmqTree (s : Sada) (mbl mbr : Nat) (st : MinPos × Int) : Option (MinPos × Int) :=
  if mbr - mbl > 1 then do
    let (v, rcb, h, st) ← s.rmqUp (mbr - 1) (mbr + 1) (mbl + 1 + s.inner) (mbl + 1) 0 st
    let st ← if rcb ≤ mbr - 1 then s.visit v st else some st
    let st ← s.rmqDown (mbr - 1) h v rcb st
    match st.1 with
    | .medium v => do
      let v ← s.minLeaf st.2 (s.inner + 1) v
      some (.medium v, st.2)
    | _ => some st
  else some st

/-- `temp != -1` after `median_block_rmq`. -/
def toSmall (r : Option Nat × Int) (p : MinPos) : MinPos × Int :=
  match r.1 with
  | some k => (.small k, r.2)
  | none => (p, r.2)

/-- `rmq`, lines 703-806. -/
def Sada.rmq (s : Sada) (l r : Nat) : Option Nat := do
  let sbl := l / s.S
  let sbr := r / s.S
  if sbl = sbr then do
    let (p, _) ← nearRmq s.mem l r
    some p
  else do
    let (p, m) ← nearRmq s.mem l ((sbl + 1) * s.S - 1)
    let e ← s.excess l
    let mbl := l / (s.S * s.D)
    let mbr := r / (s.S * s.D)
    let t ← s.medRmq (sbl + 1) (min ((mbl + 1) * s.D) sbr) (e + m)
    let st ← s.rmqTree mbl mbr (toSmall t (.pos p))
    let t ← s.medRmq (max (mbr * s.D) (sbl + 1)) sbr st.2
    let st := toSmall t st.1
    let (p, m) ← nearRmq s.mem (sbr * s.S) r
    let e ← s.excess (sbr * s.S)
    if e + m ≤ st.2 then some p
    else do
      let st ← match st.1 with
        | .medium v => do
          let t ← s.medRmq ((v - s.inner) * s.D) ((v - s.inner + 1) * s.D) st.2
          match t.1 with
          | some k => some (.small k, t.2)
          | none => none
        | _ => some st
      match st.1 with
      | .pos p => some p
      | .small k => do
        let (p, _) ← nearRmq s.mem (k * s.S) ((k + 1) * s.S - 1)
        some p
      | .medium _ => none

/-- `rmq_open`, lines 630-664. -/
def Sada.rmqOpen (s : Sada) (l r : Nat) : Option Nat :=
  if l ≥ r then some s.n
  else do
    let res ← s.rmq l (r - 1)
    let b ← bit s.mem res
    if b then some res
    else if res + 1 < r then do
      let ec ← s.enclose (res + 1)
      if ec < l ∨ ec = s.n then some (res + 1) else some ec
    else if res + 1 = r then do
      let ec ← s.enclose (res + 1)
      if ec ≥ l then some ec else some s.n
    else some s.n

/-- `rr_enclose`, lines 612-620. -/
def Sada.rrEnclose (s : Sada) (i j : Nat) : Option Nat := do
  let c ← s.findClose i
  if c + 1 ≥ j then some s.n else s.rmqOpen (c + 1) j

/-- The loop of `rr_enclose_naive`, lines 840-844. -/
def Sada.naiveLoop (s : Sada) (mi : Nat) : Nat → Nat → Option Nat
  | 0, _ => none
  | f + 1, kk => do
    let k ← s.enclose kk
    if k ≠ s.n ∧ k > mi then s.naiveLoop mi f k else some kk

/-- `rr_enclose_naive`, lines 828-846. -/
def Sada.rrEncloseNaive (s : Sada) (i j : Nat) : Option Nat := do
  let mi ← s.findClose i
  let k ← s.enclose j
  if k = s.n ∨ k < i then some s.n else s.naiveLoop mi (k + 1) k

/-- `double_enclose`, lines 854-863. -/
def Sada.doubleEnclose (s : Sada) (i j : Nat) : Option Nat := do
  let k ← s.rrEnclose i j
  if k = s.n then s.enclose j else s.enclose k

end Sdsl.Bp
