/-
  Forward search by binary search on a compressed suffix array: suffix_array_algorithm.hpp:30-139.
-/
import Verif.Csa

namespace Sdsl.Csa

/-- `compare`, suffix_array_algorithm.hpp:73-83: compares the pattern with the suffix of row `i`. `psi` is evaluated after every symbol, also after the last one. -/
def fsCompare (psi : Nat → Option Nat) (A : Alpha) : List Nat → Nat → Option Int
  | [], _ => some 0
  | c :: cs, i => do
    let index ← A.char2comp c
    if index = 0 then pure (-1)
    else do
      let e ← A.C (index + 1)
      if sub64 e 1 < i then pure (-1)
      else do
        let b ← A.C index
        if i < b then pure 1
        else do
          let j ← psi i
          fsCompare psi A cs j

/-- The binary search on the left border, suffix_array_algorithm.hpp:86-94. Every iteration uses one unit of `fuel`. -/
def fsMin (cmp : Nat → Option Int) : Nat → Nat → Nat → Option Nat
  | 0, _, _ => none
  | fuel + 1, l, u =>
    if l < u then do
      let sample := add64 l (sub64 u l / 2)
      let res ← cmp sample
      if res = 1 then fsMin cmp fuel (add64 sample 1) u
      else fsMin cmp fuel l sample
    else some l

/-- The binary search on the right border, suffix_array_algorithm.hpp:97-106; `r_res` starts as `l - 1`, which wraps around for `l = 0`. -/
def fsMax (cmp : Nat → Option Int) : Nat → Nat → Nat → Option Nat
  | 0, _, _ => none
  | fuel + 1, r, u =>
    if add64 r 1 < u then do
      let sample := add64 r (sub64 u r / 2)
      let res ← cmp sample
      if res = 1 then fsMax cmp fuel sample u
      else if res = -1 then fsMax cmp fuel r sample
      else fsMax cmp fuel sample u
    else some r

/-- `forward_search` for a pattern, suffix_array_algorithm.hpp:48-110: `l_res, r_res` and the return value. The version for one symbol (126-139) calls it with a pattern of length 1. -/
def forwardSearch (psi : Nat → Option Nat) (A : Alpha) (size l r : Nat) (pat : List Nat) : Option (Nat × Nat × Nat) :=
  if size ≤ pat.length then some (l, sub64 l 1, 0)
  else do
    let l' ← fsMin (fsCompare psi A pat) (size + 1) l (add64 r 1)
    let r' ← fsMax (fsCompare psi A pat) (size + 1) (sub64 l 1) (add64 r 1)
    pure (l', r', add64 (sub64 r' l') 1)

end Sdsl.Csa
