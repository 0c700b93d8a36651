/-
  Search and extraction on suffix trees: suffix_tree_algorithm.hpp. The functions are templates over the tree; `TreeI` has the members of the tree that they use.
-/
import Verif.CstSct3Csa
import Verif.CstSada

namespace Sdsl.TreeSearch

open Csa CstSct3

/-- The members of a suffix tree: `depth(v)`, `size(v)`, `lb(v)`, `child(v, c, char_pos)` with what is stored in `char_pos` (`none`: nothing), `root()`, and `==` for nodes. -/
structure TreeI (N : Type) where
  depth : N → Option Nat
  size : N → Option Nat
  lb : N → Option Nat
  child : N → Nat → Option (N × Option Nat)
  root : Option N
  same : N → N → Bool

/-- The members of `cst_sct3`; `size(v)` and `lb(v)`, cst_sct3.hpp:542-545, 577-580. -/
def sct3 (s : CstSct3.Cst) (K : CsaI) (lcp : List Nat) : TreeI CstSct3.Node :=
  ⟨s.depth lcp K.sa, fun v => some (add64 (sub64 v.j v.i) 1), fun v => some v.i, s.child K lcp, s.root, CstSct3.Node.same⟩

/-- The members of `cst_sada`. -/
def sada (s : CstSada.Cst) (K : CsaI) (lcp : List Nat) : TreeI Nat := ⟨s.depth lcp K.sa, s.sizeOf', s.lb, s.child K lcp, some CstSada.Cst.root, fun v w => v == w⟩

variable {N : Type} (t : TreeI N) (K : CsaI)

/-- `forward_search` for one symbol, suffix_tree_algorithm.hpp:43-72: the return value, `v` and `char_pos`. -/
def step (v : N) (d c cp : Nat) : Option (Nat × N × Nat) := do
  let cc ← K.alpha.char2comp c
  if cc = 0 ∧ cc ≠ c then pure (0, v, cp)
  else do
    let dn ← t.depth v
    if d < dn then do
      let cp ← K.psi cp
      let a ← K.alpha.C cc
      if cp < a then pure (0, v, cp)
      else do
        let b ← K.alpha.C (cc + 1)
        if cp ≥ b then pure (0, v, cp)
        else do
          let z ← t.size v
          pure (z, v, cp)
    else if d = dn then do
      let u ← t.child v c
      let r ← t.root
      if t.same u.1 r then pure (0, u.1, u.2.getD cp)
      else do
        let z ← t.size u.1
        pure (z, u.1, u.2.getD cp)
    else pure (0, v, cp)

/-- The loop of `forward_search` for a pattern, suffix_tree_algorithm.hpp:98-104. -/
def loop : List Nat → N → Nat → Nat → Nat → Option (Nat × N × Nat)
  | [], v, _, cp, size => some (size, v, cp)
  | c :: cs, v, d, cp, _ => do
    let r ← step t K v d c cp
    if r.1 = 0 then pure r else loop cs r.2.1 (add64 d 1) r.2.2 r.1

/-- `forward_search` for a pattern, suffix_tree_algorithm.hpp:84-105. -/
def forwardSearch (v : N) (d : Nat) (pat : List Nat) (cp : Nat) : Option (Nat × N × Nat) :=
  if pat = [] then do
    let z ← t.size v
    pure (z, v, cp)
  else loop t K pat v d cp 0

/-- `extract(cst, v)`, suffix_tree_algorithm.hpp:195-212; `ext` is `extract` of the CSA. -/
def extract (ext : Nat → Nat → Option (List Nat)) (v : N) : Option (List Nat) := do
  let r ← t.root
  if t.same v r then pure []
  else do
    let l ← t.lb v
    let b ← K.sa l
    let d ← t.depth v
    ext b (sub64 (add64 b d) 1)

/-- `extract(cst, v, text)`, suffix_tree_algorithm.hpp:169-185: the return value and what is written. The function has no `return` behind the call of `extract` for the CSA: flowing off its end is undefined. -/
def extractTo (ext : Nat → Nat → Option (List Nat)) (v : N) : Option (Nat × List Nat) := do
  let r ← t.root
  if t.same v r then pure (0, [0])
  else do
    let l ← t.lb v
    let b ← K.sa l
    let d ← t.depth v
    let _ ← ext b (sub64 (add64 b d) 1)
    none

end Sdsl.TreeSearch
