/-
  Suffix tree nodes and their path labels in terms of the text.
-/
import Verif.SpecCst
import Verif.Props.Lcp

namespace Sdsl.Spec

open Csa Props

/-- The suffix in row `k` of the suffix array. -/
abbrev suf (T SA : List Nat) (k : Nat) : List Nat := T.drop (sym SA k)

/-- The rows `[i..j]` are the rows of the suffixes that start with `w`; there is at least one. -/
def IsOcc (T SA w : List Nat) (i j : Nat) : Prop := i ≤ j ∧ j < T.length ∧ ∀ k, k < T.length → (i ≤ k ∧ k ≤ j ↔ w <+: suf T SA k)

/-- `w` is the path label of the node `[i..j]`: the longest common prefix of the suffixes in the rows. -/
def IsLabel (T SA : List Nat) (i j : Nat) (w : List Nat) : Prop :=
  (∀ k, i ≤ k → k ≤ j → w <+: suf T SA k) ∧ ∀ u, (∀ k, i ≤ k → k ≤ j → u <+: suf T SA k) → u.length ≤ w.length

end Sdsl.Spec
