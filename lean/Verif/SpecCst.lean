/-
  The nodes of a suffix tree as intervals of the LCP array.
-/
namespace Sdsl.Spec

/-- `[i..j]` is an LCP interval (a node of the suffix tree) of the LCP array `L`: all values in it are larger than the values at its two ends,
where both ends of the array count as smaller than everything. A single position is a leaf, the whole array is the root. -/
def IsNode (L : List Nat) (i j : Nat) : Prop :=
  i ≤ j ∧ j < L.length ∧ ∀ k, i < k → k ≤ j → (i = 0 ∨ L.getD i 0 < L.getD k 0) ∧ (j + 1 = L.length ∨ L.getD (j + 1) 0 < L.getD k 0)

/-- `[i'..j']` is the parent of `[i..j]`: the smallest node that properly contains it. -/
def IsParent (L : List Nat) (i j i' j' : Nat) : Prop :=
  IsNode L i' j' ∧ i' ≤ i ∧ j ≤ j' ∧ ¬ (i' = i ∧ j' = j) ∧ ∀ a c, IsNode L a c → a ≤ i → j ≤ c → ¬ (a = i ∧ c = j) → a ≤ i' ∧ j' ≤ c

/-- `[i'..j']` is the lowest common ancestor of two intervals: the smallest node that contains both. -/
def IsLca (L : List Nat) (i j k l i' j' : Nat) : Prop :=
  IsNode L i' j' ∧ i' ≤ i ∧ j ≤ j' ∧ i' ≤ k ∧ l ≤ j' ∧ ∀ a c, IsNode L a c → a ≤ i → j ≤ c → a ≤ k → l ≤ c → a ≤ i' ∧ j' ≤ c

/-- `[i..j]` has `d` proper ancestors. -/
inductive NodeDepth (L : List Nat) : Nat → Nat → Nat → Prop
  | root : NodeDepth L 0 (L.length - 1) 0
  | step {i j i' j' d} : IsParent L i j i' j' → NodeDepth L i' j' d → NodeDepth L i j (d + 1)

end Sdsl.Spec
