/-
  Specification of bit pattern occurrences, used by the rank and select properties.
-/
import Verif.Spec

namespace Sdsl.Spec

/-- The bit patterns supported by the rank and select structures. -/
inductive Pat where
  | p0 | p1 | p10 | p01 | p00 | p11
deriving DecidableEq, Repr

/-- The pattern as a list of bits, first bit first. -/
def Pat.bits : Pat → List Bool
  | .p0 => [false]
  | .p1 => [true]
  | .p10 => [true, false]
  | .p01 => [false, true]
  | .p00 => [false, false]
  | .p11 => [true, true]

/-- An occurrence of the pattern `l` ends at position `q` of the bit sequence `f`:
    the `l.length` bits up to and including position `q` exist and spell `l`. -/
def endsAt (f : Nat → Bool) (l : List Bool) (q : Nat) : Bool :=
  decide (l.length ≤ q + 1) && (List.range l.length).all (fun k => f (q + 1 - l.length + k) == l.getD k false)

/-- An occurrence of pattern `pat` ends at bit `q` of the word array `m`. -/
def occ (pat : Pat) (m : Mem) (q : Nat) : Bool := endsAt (bitAt m) pat.bits q

end Sdsl.Spec
