/-
  Bidirectional search on two compressed suffix arrays, one of the text and one of the reversed text: suffix_array_algorithm.hpp:241-414.
-/
import Verif.Csa

namespace Sdsl.Csa

/-- `rank_r = r_fwd - l_fwd - s - b + rank_l`, suffix_array_algorithm.hpp:280. -/
def rankR (l r s b rankL : Nat) : Nat := add64 (sub64 (sub64 (sub64 r l) s) b) rankL

/-- `bidirectional_search` for one symbol, suffix_array_algorithm.hpp:261-289. Returns `l_fwd_res, r_fwd_res, l_bwd_res, r_bwd_res`. -/
def bidirStep (W : Wt) (A : Alpha) (l r lb rb c : Nat) : Option (Nat × Nat × Nat × Nat) := do
  let k ← A.char2comp c
  let cb ← A.C k
  let q ← W.lexCount l (add64 r 1) c
  pure (add64 cb q.1, add64 cb (rankR l r q.2.1 q.2.2 q.1), add64 lb q.2.1, sub64 rb q.2.2)

/-- The loop of `bidirectional_search_backward`, suffix_array_algorithm.hpp:338-342; the argument is the rest of the pattern, last symbol first.
    `(typename csa_wt<>::char_type)*it` casts every symbol to the symbol type of the *default* `csa_wt<>`, which is `uint8_t`. -/
def bidirBackLoop (W : Wt) (A : Alpha) : List Nat → Nat → Nat → Nat → Nat → Option (Nat × Nat × Nat × Nat)
  | [], l, r, lb, rb => some (l, r, lb, rb)
  | c :: cs, l, r, lb, rb =>
    if 0 < sub64 (add64 r 1) l then do
      let q ← bidirStep W A l r lb rb (c % 256)
      bidirBackLoop W A cs q.1 q.2.1 q.2.2.1 q.2.2.2
    else some (l, r, lb, rb)

/-- `bidirectional_search_backward`, suffix_array_algorithm.hpp:322-348: the four borders and the return value. `W`, `A` belong to `csa_fwd`; `csa_bwd` is not used. -/
def bidirBackward (W : Wt) (A : Alpha) (l r lb rb : Nat) (pat : List Nat) : Option (Nat × Nat × Nat × Nat × Nat) := do
  let q ← bidirBackLoop W A pat.reverse l r lb rb
  pure (q.1, q.2.1, q.2.2.1, q.2.2.2, sub64 (add64 q.2.1 1) q.1)

/-- The loop of `bidirectional_search_forward`, suffix_array_algorithm.hpp:404-408: the two arrays and the two intervals change places. -/
def bidirFwdLoop (W : Wt) (A : Alpha) : List Nat → Nat → Nat → Nat → Nat → Option (Nat × Nat × Nat × Nat)
  | [], l, r, lb, rb => some (l, r, lb, rb)
  | c :: cs, l, r, lb, rb =>
    if 0 < sub64 (add64 r 1) l then do
      let q ← bidirStep W A lb rb l r (c % 256)
      bidirFwdLoop W A cs q.2.2.1 q.2.2.2 q.1 q.2.1
    else some (l, r, lb, rb)

/-- `bidirectional_search_forward`, suffix_array_algorithm.hpp:388-414. `W`, `A` belong to `csa_bwd`; `csa_fwd` is not used. -/
def bidirForward (W : Wt) (A : Alpha) (l r lb rb : Nat) (pat : List Nat) : Option (Nat × Nat × Nat × Nat × Nat) := do
  let q ← bidirFwdLoop W A pat l r lb rb
  pure (q.1, q.2.1, q.2.2.1, q.2.2.2, sub64 (add64 q.2.1 1) q.1)

end Sdsl.Csa
