/-
  Model of `inv_perm_support`: include/sdsl/inv_perm_support.hpp.

  The supported permutation `*m_v` is a list of numbers, `marked` and `done` are lists of bits, `m_back_pointer` an abstract `int_vector` (`Arr`), and
  `m_rank_marked` (any rank support, template parameter `t_rank`) the mathematical rank of `m_marked`.
-/
import Verif.Arr
import Verif.Bits
import Verif.Spec

namespace Sdsl.InvPerm

open Bits Spec

/-- `m_rank_marked(j)`. -/
def rank (marked : List Bool) (j : Nat) : Nat := countTrue (fun i => marked.getD i false) j

/-- The loop along one cycle, inv_perm_support.hpp:88-98 and 118-127: both passes of the constructor have this control flow, they differ in the statement
    executed when `t_s == steps` (`mark s j back_pointer`). Returns `done`, the state, `back_pointer` and `all_steps`. The loop ends when it comes back to `i`;
    `fuel` bounds the number of iterations. -/
def walk {σ : Type} (v : List Nat) (ts i : Nat) (mark : σ → Nat → Nat → Option σ) :
    Nat → Nat → Nat → Nat → Nat → List Bool → σ → Option (List Bool × σ × Nat × Nat)
  | fuel, j, bp, steps, all, done, s => do
    let jn ← v[j]?
    if jn = i then some (done, s, bp, all)
    else match fuel with
      | 0 => none
      | fuel + 1 => do
        let done ← setList done jn true
        if ts = steps + 1 then do
          let s ← mark s jn bp
          walk v ts i mark fuel jn jn 0 (all + 1) done s
        else walk v ts i mark fuel jn bp (steps + 1) (all + 1) done s
termination_by fuel => fuel

/-- One iteration of the outer loop, inv_perm_support.hpp:83-104 and 113-132. -/
def cycle {σ : Type} (v : List Nat) (ts : Nat) (mark : σ → Nat → Nat → Option σ) (i : Nat) (done : List Bool) (s : σ) : Option (List Bool × σ) := do
  let d ← done[i]?
  if d then some (done, s)
  else do
    let done ← setList done i true
    let r ← walk v ts i mark v.length i i 0 0 done s
    if r.2.2.2 > ts then do
      let s ← mark r.2.1 i r.2.2.1
      pure (r.1, s)
    else pure (r.1, r.2.1)

/-- The outer loop for `i, i+1, …`; `k` iterations remain. -/
def pass {σ : Type} (v : List Nat) (ts : Nat) (mark : σ → Nat → Nat → Option σ) : Nat → Nat → List Bool → σ → Option (List Bool × σ)
  | 0, _, done, s => some (done, s)
  | k + 1, i, done, s => do
    let r ← cycle v ts mark i done s
    pass v ts mark k (i + 1) r.1 r.2

/-- First pass: `max_back_pointer = std::max(max_back_pointer, back_pointer); marked[j] = 1;`, inv_perm_support.hpp:93-94 and 100-101. -/
def mark1 (s : List Bool × Nat) (j bp : Nat) : Option (List Bool × Nat) := do
  let m ← setList s.1 j true
  pure (m, max s.2 bp)

/-- Second pass: `m_back_pointer[m_rank_marked(j)] = back_pointer;`, inv_perm_support.hpp:123 and 129. -/
def mark2 (marked : List Bool) (a : Arr) (j bp : Nat) : Option Arr := a.set (rank marked j) bp

/-- `inv_perm_support`; inv_perm_support.hpp:59-62. -/
structure Ips where
  v : List Nat
  back : Arr
  marked : List Bool
deriving DecidableEq, Repr

/-- Constructor, inv_perm_support.hpp:78-133. -/
def new (ts : Nat) (v : List Nat) : Option Ips := do
  let zero := List.replicate v.length false
  let r ← pass v ts mark1 v.length 0 zero (zero, 0)
  let marked := r.2.1
  let h ← hi (BitVec.ofNat 64 r.2.2)
  let back := Arr.new (rank marked v.length) 0 (h + 1)
  let q ← pass v ts (mark2 marked) v.length 0 zero back
  pure ⟨v, q.2, marked⟩

/-- `while ((j_new=(*m_v)[j]) != i) j = j_new;`, inv_perm_support.hpp:141; every assignment to `j` uses one unit of `fuel`. -/
def follow (v : List Nat) (i : Nat) : Nat → Nat → Option Nat
  | fuel, j => do
    let jn ← v[j]?
    if jn = i then some j
    else match fuel with
      | 0 => none
      | fuel + 1 => follow v i fuel jn
termination_by fuel => fuel

/-- The outer loop of `operator[]`, inv_perm_support.hpp:138-146 (after the inner loop the condition of the outer one fails). -/
def search (p : Ips) (i : Nat) : Nat → Nat → Option Nat
  | fuel, j => do
    let jn ← p.v[j]?
    if jn = i then some j
    else match fuel with
      | 0 => none
      | fuel + 1 => do
        let m ← p.marked[j]?
        if m then do
          let j ← p.back.get (rank p.marked j)
          follow p.v i fuel j
        else search p i fuel jn
termination_by fuel => fuel

/-- `operator[](i)`, inv_perm_support.hpp:136-147, executing at most `fuel` assignments to `j`. -/
def get (p : Ips) (fuel i : Nat) : Option Nat := search p i fuel i

end Sdsl.InvPerm
