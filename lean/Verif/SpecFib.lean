/-
  Specification of the Fibonacci code. Independent of the model.
-/
import Verif.SpecCode

namespace Sdsl.Spec

/-- Consecutive Fibonacci numbers. -/
def fibPair : Nat → Nat × Nat
  | 0 => (1, 2)
  | k + 1 => ((fibPair k).2, (fibPair k).1 + (fibPair k).2)

/-- The Fibonacci numbers 1, 2, 3, 5, 8, ... -/
def fibN (k : Nat) : Nat := (fibPair k).1

/-- The value of digits `f 0, ..., f (n-1)` in the Fibonacci number system. -/
def fibSum (f : Nat → Bool) : Nat → Nat
  | 0 => 0
  | n + 1 => fibSum f n + if f n then fibN n else 0

/-- `l` is the code word of `x`: its digits without the last one have value `x`, and its last two bits are the first two
    adjacent ones. -/
structure IsFibCode (x : Nat) (l : List Bool) : Prop where
  two : 2 ≤ l.length
  last : l.getD (l.length - 1) false = true
  top : l.getD (l.length - 2) false = true
  first : ∀ i, i + 2 < l.length → ¬ (l.getD i false = true ∧ l.getD (i + 1) false = true)
  val : fibSum (fun i => l.getD i false) (l.length - 1) = x

/-- The greedy digits of `x` below position `k`, as the bits of a number. -/
def zeck : Nat → Nat → Nat
  | 0, _ => 0
  | k + 1, x => if fibN k ≤ x then 2 ^ k + zeck k (x - fibN k) else zeck k x

/-- The number a word stands for: the library treats 0 as `2^64`. -/
def fibNum (w : Word) : Nat := if w = 0#64 then 2 ^ 64 else w.toNat

/-- The code word of `w`: the greedy digits up to the leading one (there are at most 92), then a one. -/
def fibBits (w : Word) : List Bool :=
  let z := zeck 93 (fibNum w)
  lowBits z (Nat.log2 z + 1) ++ [true]

end Sdsl.Spec
