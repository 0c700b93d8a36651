/-
  Specifications, independent of the model of the code.
  These are the only definitions (besides the model's function names) that a reader needs in order to
  understand the property theorems about words, bit vectors and integer vectors.
-/
import Verif.Basic

namespace Sdsl.Spec

/-- The number whose binary digits are `f 0` (least significant), ..., `f (n-1)`. -/
def bitsVal (f : Nat → Bool) : Nat → Nat
  | 0 => 0
  | n + 1 => bitsVal f n + (f n).toNat * 2 ^ n

/-- Number of `i < n` with `f i`. -/
def countTrue (f : Nat → Bool) : Nat → Nat
  | 0 => 0
  | n + 1 => countTrue f n + (f n).toNat

/-- Bit number `p` of a word array, bit 0 being the least significant bit of word 0. -/
def bitAt (m : Mem) (p : Nat) : Bool :=
  match m[p / 64]? with
  | some w => w.getLsbD (p % 64)
  | none => false

/-- The `len`-bit number stored at bit position `p` of a word array. -/
def field (m : Mem) (p len : Nat) : Nat := bitsVal (fun j => bitAt m (p + j)) len

/-- Number of one bits of a word. -/
def popcount (x : Word) : Nat := countTrue (fun i => x.getLsbD i) 64

/-- `p` is the position of the `i`-th (1-based) index `< n` where `f` holds. -/
def IsSelect (f : Nat → Bool) (n i p : Nat) : Prop :=
  p < n ∧ f p = true ∧ countTrue f p + 1 = i

/-- `r` is the first position at or after `q` holding a one bit. -/
def IsNext (m : Mem) (q r : Nat) : Prop :=
  q ≤ r ∧ bitAt m r = true ∧ ∀ j, q ≤ j → j < r → bitAt m j = false

/-- `r` is the last position at or before `q` holding a one bit. -/
def IsPrev (m : Mem) (q r : Nat) : Prop :=
  r ≤ q ∧ bitAt m r = true ∧ ∀ j, r < j → j ≤ q → bitAt m j = false

/-- Scanning bits `f 0, f 1, ...` and cutting after every second consecutive one: `pending f c i` says that an
    uncut one immediately precedes bit `i` (`c` is the state before bit 0). -/
def pending (f : Nat → Bool) (c : Bool) : Nat → Bool
  | 0 => c
  | i + 1 => f i && !pending f c i

/-- Bit `i` completes a pair of ones, i.e. there is a cut after it. -/
def cut (f : Nat → Bool) (c : Bool) (i : Nat) : Bool := f i && pending f c i

end Sdsl.Spec
