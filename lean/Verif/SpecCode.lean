/-
  Specification of the self-delimiting codes: code words as bit strings (first bit first). Independent of the model.
-/
import Verif.Spec

namespace Sdsl.Spec

/-- The `n` low bits of `x`, least significant first. -/
def lowBits (x n : Nat) : List Bool := (List.range n).map (fun j => x.testBit j)

/-- Elias gamma: `l` zeros, a one, the `l` low bits of `w`, where `l` is the position of the leading one of `w`. The library
    treats 0 as `2^64`. -/
def gammaBits (w : Word) : List Bool :=
  let l := if w = 0#64 then 64 else Nat.log2 w.toNat
  List.replicate l false ++ true :: lowBits w.toNat l

/-- Elias delta: the length of `w` without its leading one in gamma code, then the bits below the leading one. The library
    treats 0 as `2^64`. -/
def deltaBits (w : Word) : List Bool :=
  let len := if w = 0#64 then 65 else Nat.log2 w.toNat + 1
  let l := Nat.log2 len
  List.replicate l false ++ true :: (lowBits len l ++ lowBits w.toNat (len - 1))

/-- The digits of `x` in base `b`, most significant first; none for 0. -/
def baseDigits (b : Nat) (x : Nat) : List Nat := if _h : b < 2 ∨ x = 0 then [] else baseDigits b (x / b) ++ [x % b]
termination_by x
decreasing_by exact Nat.div_lt_self (by omega) (by omega)

/-- Comma code with `t`-bit digits: the digits in base `2^t-1`, then the digit `2^t-1`. -/
def commaBits (t : Nat) (w : Word) : List Bool :=
  (baseDigits (2 ^ t - 1) w.toNat ++ [2 ^ t - 1]).flatMap (fun d => lowBits d t)

/-- The bit string `l` stands at bit position `pos` of the memory. -/
def At (m : Mem) (pos : Nat) (l : List Bool) : Prop :=
  pos + l.length ≤ 64 * m.length ∧ ∀ k, k < l.length → bitAt m (pos + k) = l.getD k false

/-- Sum modulo `2^64`. -/
def sumW (l : List Word) : Word := l.foldr (· + ·) 0#64

end Sdsl.Spec
