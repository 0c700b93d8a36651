/-
  Super-Cartesian trees as balanced parentheses: include/sdsl/suffix_tree_helper.hpp, and the range minimum structures on top of them:
  include/sdsl/rmq_succinct_sct.hpp, include/sdsl/rmq_succinct_sada.hpp.

  A container is the list of its values; reading outside of it is undefined (`none`). An `int_vector_buffer` is the list of its values
  (its own model is IntVecBuf.lean). The target bit vectors are words; `W` is their number behind `resize`.
-/
import Verif.Stack
import Verif.BpSada

namespace Sdsl.Sct

open Bits Stack

/-- `bp[k] = 1`; include/sdsl/int_vector.hpp:788-796. -/
def setOne (m : Mem) (k : Nat) : Option Mem := do
  let w ← ld m (k / 64)
  let b ← shl 1#64 (k % 64)
  st m (k / 64) (w ||| b)

/-- `bp[k] = 0`; include/sdsl/int_vector.hpp:788-796. -/
def setZero (m : Mem) (k : Nat) : Option Mem := do
  let w ← ld m (k / 64)
  let b ← shl 1#64 (k % 64)
  st m (k / 64) (w &&& ~~~ b)

/-- `l < top` or `l > top`. -/
def cmp (minimum : Bool) (x t : Nat) : Bool := if minimum then decide (x < t) else decide (x > t)

/-! ### construct_supercartesian_tree_bp, suffix_tree_helper.hpp:88-117 -/

/-- `while (vec_stack.size() > 0 and l < vec_stack.top()) { vec_stack.pop(); ++k; }`, lines 100-102 and 105-107. -/
def plainPop (minimum : Bool) (x : Nat) : List Nat → Nat → List Nat × Nat
  | [], k => ([], k)
  | t :: s, k => if cmp minimum x t then plainPop minimum x s (k + 1) else (t :: s, k)

/-- `while (vec_stack.size() > 0) { vec_stack.pop(); bp[k++] = 0; }`, lines 112-115. -/
def plainEnd : List Nat → Nat → Mem → Option Mem
  | [], _, m => some m
  | _ :: s, k, m => do
    let m ← setZero m k
    plainEnd s (k + 1) m

/-- The loop over the values, lines 97-111. -/
def plainLoop (minimum : Bool) : List Nat → List Nat → Nat → Mem → Option Mem
  | [], s, k, m => plainEnd s k m
  | x :: xs, s, k, m => do
    let r := plainPop minimum x s k
    let m ← setOne m r.2
    plainLoop minimum xs (x :: r.1) (r.2 + 1) m

/-- `construct_supercartesian_tree_bp`. -/
def plain (vs : List Nat) (minimum : Bool) (W : Nat) : Option Mem := plainLoop minimum vs [] 0 (List.replicate W 0#64)

/-! ### construct_supercartesian_tree_bp_succinct for a container, suffix_tree_helper.hpp:129-164 -/

/-- `while (vec_stack.size() > 0 and vec[i] < vec[vec_stack.top()]) { vec_stack.pop(); ++k; }`, lines 144-146 and 155-157. -/
def idxPop (minimum : Bool) (vs : List Nat) (x : Nat) : Nat → Sss → Nat → Option (Sss × Nat)
  | 0, _, _ => none
  | f + 1, s, k =>
    if s.cnt > 0 then do
      let t ← vs[s.getTop]?
      if cmp minimum x t then do
        let s ← s.pop
        idxPop minimum vs x f s (k + 1)
      else some (s, k)
    else some (s, k)

/-- The body of the loop with the "lazy stack", lines 142-149. -/
def idxStep (vs : List Nat) (i x y : Nat) (s : Sss) (k : Nat) : Option (Sss × Nat) :=
  if x < y then idxPop true vs x (s.cnt + 1) s (k + 1) else do
    let s ← s.push (i - 1)
    pure (s, k)

/-- The loop with the "lazy stack" for minima, lines 141-151; `c` values are left. -/
def idxLazy (vs : List Nat) : Nat → Nat → Sss → Nat → Mem → Option Mem
  | 0, _, _, _, m => some m
  | c + 1, i, s, k, m => do
    let x ← vs[i]?
    let y ← vs[i - 1]?
    let (s, k) ← idxStep vs i x y s k
    let m ← setOne m k
    idxLazy vs c (i + 1) s (k + 1) m

/-- The loop for maxima, lines 154-160. -/
def idxMax (vs : List Nat) : Nat → Nat → Sss → Nat → Mem → Option Mem
  | 0, _, _, _, m => some m
  | c + 1, i, s, k, m => do
    let x ← vs[i]?
    let (s, k) ← idxPop false vs x (s.cnt + 1) s k
    let s ← s.push i
    let m ← setOne m k
    idxMax vs c (i + 1) s (k + 1) m

/-- `construct_supercartesian_tree_bp_succinct(const t_rac&, minimum)`; `bit_vector bp(2*n, 0)` allocates `(2n+64)/64` words. -/
def succ (vs : List Nat) (minimum : Bool) : Option Mem :=
  let m := List.replicate ((2 * vs.length + 64) / 64) 0#64
  if vs.length > 0 then do
    let s ← Sss.new vs.length
    if minimum then do
      let m ← setOne m 0
      idxLazy vs (vs.length - 1) 1 s 1 m
    else idxMax vs vs.length 0 s 0 m
  else some m

/-! ### construct_supercartesian_tree_bp_succinct for an int_vector_buffer, suffix_tree_helper.hpp:178-217 -/

/-- `while (!vec_stack.empty() and x < vec_stack.top()) { vec_stack.pop(); ++k; }`, lines 195-197 and 208-210. -/
def valPop (minimum : Bool) (x : Nat) : Nat → Sms → Nat → Option (Sms × Nat)
  | 0, _, _ => none
  | f + 1, s, k =>
    if !s.empty && cmp minimum x s.getTop then do
      let (s, _) ← s.pop
      valPop minimum x f s (k + 1)
    else some (s, k)

/-- The body of the loop with the "lazy stack", lines 193-200. -/
def valStep (x last : Nat) (s : Sms) (k : Nat) : Option (Sms × Nat) :=
  if x < last then valPop true x (s.cnt + 1) s (k + 1) else do
    let (s, _) ← s.push last
    pure (s, k)

/-- The loop with the "lazy stack" for minima, lines 191-203. -/
def valLazy : List Nat → Nat → Sms → Nat → Mem → Option Mem
  | [], _, _, _, m => some m
  | x :: xs, last, s, k, m => do
    let (s, k) ← valStep x last s k
    let m ← setOne m k
    valLazy xs x s (k + 1) m

/-- The loop for maxima, lines 206-213. -/
def valMax : List Nat → Sms → Nat → Mem → Option Mem
  | [], _, _, m => some m
  | x :: xs, s, k, m => do
    let (s, k) ← valPop false x (s.cnt + 1) s k
    let (s, _) ← s.push x
    let m ← setOne m k
    valMax xs s (k + 1) m

/-- `construct_supercartesian_tree_bp_succinct(int_vector_buffer&, minimum)`. -/
def succBuf (vs : List Nat) (minimum : Bool) : Option Mem :=
  let m := List.replicate ((2 * vs.length + 64) / 64) 0#64
  match vs with
  | [] => some m
  | v0 :: vs' => do
    let s ← Sms.new vs.length
    if minimum then do
      let m ← setOne m 0
      valLazy vs' v0 s 1 m
    else valMax vs s 0 m

/-! ### construct_supercartesian_tree_bp_succinct_and_first_child, suffix_tree_helper.hpp:230-289 -/

/-- The variables of the construction. -/
structure FcSt where
  s : Sms
  k : Nat
  kfc : Nat
  fc : Mem
  cnt : Nat

/-- `if (..) bp_fc[k_fc] = 1`. -/
def setIf (b : Bool) (m : Mem) (k : Nat) : Option Mem := if b then setOne m k else some m

/-- One `pop` with its bits, lines 252-257, 268-273 and 280-286. -/
def fcPop (t : FcSt) : Option FcSt := do
  let (s, b) ← t.s.pop
  let fc ← setIf b t.fc t.kfc
  pure ⟨s, t.k + 1, t.kfc + 1, fc, if b then t.cnt + 1 else t.cnt⟩

/-- `while (!vec_stack.empty() and x < vec_stack.top())`, lines 251-258 and 267-274. -/
def fcLoop (minimum : Bool) (x : Nat) : Nat → FcSt → Option FcSt
  | 0, _ => none
  | f + 1, t =>
    if !t.s.empty && cmp minimum x t.s.getTop then do
      let t ← fcPop t
      fcLoop minimum x f t
    else some t

/-- `while (!vec_stack.empty())`, lines 279-287. -/
def fcEnd : Nat → FcSt → Option FcSt
  | 0, _ => none
  | f + 1, t => if t.s.empty then some t else do
    let t ← fcPop t
    fcEnd f t

/-- The loop over the values, lines 249-261 and 265-277. -/
def fcVals (minimum : Bool) : List Nat → FcSt → Mem → Option (FcSt × Mem)
  | [], t, m => some (t, m)
  | x :: xs, t, m => do
    let t ← fcLoop minimum x (t.s.cnt + 1) t
    let (s, _) ← t.s.push x
    let m ← setOne m t.k
    fcVals minimum xs { t with s := s, k := t.k + 1 } m

/-- `construct_supercartesian_tree_bp_succinct_and_first_child`: the parentheses, the first child bits and their number. -/
def succFc (vs : List Nat) (minimum : Bool) (W Wfc : Nat) : Option (Mem × Mem × Nat) :=
  if vs.length = 0 then some ([], [], 0) else do
    let s ← Sms.new vs.length
    let (t, m) ← fcVals minimum vs ⟨s, 0, 0, List.replicate Wfc 0#64, 0⟩ (List.replicate W 0#64)
    let t ← fcEnd (t.s.cnt + 1) t
    pure (m, t.fc, t.cnt)

end Sdsl.Sct
