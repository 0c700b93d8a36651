/-
  Model of the wide integer types: include/sdsl/uint128_t.hpp, include/sdsl/uint256_t.hpp, lib/uint128_t.cpp, lib/uint256_t.cpp.

  `uint128_t` is either the class of uint128_t.hpp:36-246 (`U128`) or, if `MODE_TI` is defined, the 128-bit type of the compiler (`native`, whose shifts are
  undefined for amounts ≥ 128). `uint256_t` uses `uint128_t` and is modelled for both (`Ops`). Shift amounts are non-negative (`int` in the code).
-/
import Verif.Bits

namespace Sdsl

open Bits

/-- `class uint128_t`, uint128_t.hpp:36-42. -/
structure U128 where
  lo : Word
  hi : Word
deriving DecidableEq, Repr

namespace U128

/-- `popcount`, uint128_t.hpp:65-68; the result is a `uint8_t`. -/
def popcount (x : U128) : Nat := ((cnt x.lo).toNat % 256 + (cnt x.hi).toNat % 256) % 256

/-- `hi`, uint128_t.hpp:70-77. -/
def hiBit (x : U128) : Option Nat :=
  if x.hi = 0#64 then Bits.hi x.lo
  else do pure ((← Bits.hi x.hi) + 64)

/-- `select`, uint128_t.hpp:79-87. -/
def select (x : U128) (i : Nat) : Option Nat :=
  if (cnt x.lo).toNat ≥ i then sel x.lo i
  else do pure ((← sel x.hi (i - (cnt x.lo).toNat)) + 64)

/-- `operator+(const uint128_t&)`, uint128_t.hpp:101-104 (and `+=`, :89-93). -/
def add (x y : U128) : U128 := ⟨x.lo + y.lo, x.hi + y.hi + (if x.lo + y.lo < x.lo then 1#64 else 0#64)⟩

/-- `operator+(const uint64_t&)`, uint128_t.hpp:106-109 (and `+=`, :95-99). -/
def addWord (x : U128) (y : Word) : U128 := ⟨x.lo + y, x.hi + (if x.lo + y < x.lo then 1#64 else 0#64)⟩

/-- `operator-`, uint128_t.hpp:111-114 (and `-=`, :121-125). -/
def sub (x y : U128) : U128 := ⟨x.lo - y.lo, x.hi - y.hi - (if x.lo - y.lo > x.lo then 1#64 else 0#64)⟩

/-- `operator~`, uint128_t.hpp:116-119. -/
def not (x : U128) : U128 := ⟨~~~x.lo, ~~~x.hi⟩

/-- `operator|(const uint128_t&)`, uint128_t.hpp:127-130 (and `|=`, :137-141). -/
def or (x y : U128) : U128 := ⟨x.lo ||| y.lo, x.hi ||| y.hi⟩

/-- `operator|(const uint64_t&)`, uint128_t.hpp:132-135. -/
def orWord (x : U128) (y : Word) : U128 := ⟨x.lo ||| y, x.hi⟩

/-- `operator&`, uint128_t.hpp:143-146. -/
def and (x y : U128) : U128 := ⟨x.lo &&& y.lo, x.hi &&& y.hi⟩

/-- `operator<<`, uint128_t.hpp:153-163. -/
def shl (x : U128) (n : Nat) : Option U128 :=
  if n < 64 then do
    let a ← Sdsl.shl x.hi n
    let b ← Sdsl.shr x.lo (63 - n)
    let b ← Sdsl.shr b 1
    let lo ← Sdsl.shl x.lo n
    pure ⟨lo, a ||| b⟩
  else do
    let high ← if n = 128 then some 0#64 else Sdsl.shl x.lo (n - 64)
    pure ⟨0#64, high⟩

/-- `operator>>`, uint128_t.hpp:165-174. -/
def shr (x : U128) (n : Nat) : Option U128 :=
  if n < 64 then do
    let a ← Sdsl.shr x.lo n
    let b ← Sdsl.shl x.hi (63 - n)
    let b ← Sdsl.shl b 1
    let h ← Sdsl.shr x.hi n
    pure ⟨a ||| b, h⟩
  else do
    let lo ← if n = 128 then some 0#64 else Sdsl.shr x.hi (n - 64)
    pure ⟨lo, 0#64⟩

/-- `operator==(const uint128_t&)`, uint128_t.hpp:183-186. -/
def eq (x y : U128) : Bool := x.lo == y.lo && x.hi == y.hi

/-- `operator==(const uint64_t&)`, uint128_t.hpp:188-191. -/
def eqWord (x : U128) (y : Word) : Bool := x.lo == y && x.hi == 0#64

/-- `operator>=`, uint128_t.hpp:198-205. -/
def ge (x y : U128) : Bool := if x.hi ≠ y.hi then decide (x.hi > y.hi) else decide (x.lo ≥ y.lo)

/-- `operator<=`, uint128_t.hpp:207-214. -/
def le (x y : U128) : Bool := if x.hi ≠ y.hi then decide (x.hi < y.hi) else decide (x.lo ≤ y.lo)

/-- `operator>(const uint128_t&)`, uint128_t.hpp:216-223. -/
def gt (x y : U128) : Bool := if x.hi ≠ y.hi then decide (x.hi > y.hi) else decide (x.lo > y.lo)

/-- `operator>(const uint64_t&)`, uint128_t.hpp:225-231. -/
def gtWord (x : U128) (y : Word) : Bool := if x.hi > 0#64 then true else decide (x.lo > y)

/-- `operator<`, uint128_t.hpp:233-240. -/
def lt (x y : U128) : Bool := if x.hi ≠ y.hi then decide (x.hi < y.hi) else decide (x.lo < y.lo)

end U128

/-- The operations of `uint128_t` used by `uint256_t`. -/
structure Ops (α : Type) where
  ofWord : Word → α
  toWord : α → Word
  add : α → α → α
  addWord : α → Word → α
  not : α → α
  or : α → α → α
  orWord : α → Word → α
  and : α → α → α
  shl : α → Nat → Option α
  shr : α → Nat → Option α
  eq : α → α → Bool
  lt : α → α → Bool
  gt : α → α → Bool

/-- The class `uint128_t`; construction from and conversion to `uint64_t`: uint128_t.hpp:45 and 242-245. -/
def U128.ops : Ops U128 where
  ofWord w := ⟨w, 0#64⟩
  toWord x := x.lo
  add := U128.add
  addWord := U128.addWord
  not := U128.not
  or := U128.or
  orWord := U128.orWord
  and := U128.and
  shl := U128.shl
  shr := U128.shr
  eq := U128.eq
  lt := U128.lt
  gt := U128.gt

/-- The compiler's 128-bit type, uint128_t.hpp:32. -/
def nativeOps : Ops (BitVec 128) where
  ofWord w := w.setWidth 128
  toWord x := x.setWidth 64
  add x y := x + y
  addWord x y := x + y.setWidth 128
  not x := ~~~x
  or x y := x ||| y
  orWord x y := x ||| y.setWidth 128
  and x y := x &&& y
  shl x n := if n < 128 then some (x <<< n) else none
  shr x n := if n < 128 then some (x >>> n) else none
  eq x y := x == y
  lt x y := decide (x < y)
  gt x y := decide (x > y)

/-- `class uint256_t`, uint256_t.hpp:31-38. -/
structure U256 (α : Type) where
  lo : Word
  mid : Word
  high : α
deriving DecidableEq, Repr

namespace U256

variable {α : Type} (o : Ops α)

/-- `popcount`, uint256_t.hpp:64-67; the result is a `uint16_t`. -/
def popcount (x : U256 α) : Option Nat := do
  let h ← o.shr x.high 64
  pure (((cnt x.lo).toNat + (cnt x.mid).toNat + (cnt (o.toWord h)).toNat + (cnt (o.toWord x.high)).toNat) % 65536)

/-- `hi`, uint256_t.hpp:69-84. -/
def hiBit (x : U256 α) : Option Nat :=
  if o.eq x.high (o.ofWord 0#64) then
    if x.mid ≠ 0#64 then do pure ((← Bits.hi x.mid) + 64)
    else Bits.hi x.lo
  else do
    let hh := o.toWord (← o.shr x.high 64)
    if hh ≠ 0#64 then pure ((← Bits.hi hh) + 192)
    else pure ((← Bits.hi (o.toWord x.high)) + 128)

/-- `select`, uint256_t.hpp:86-103. -/
def select (x : U256 α) (i : Nat) : Option Nat :=
  if (cnt x.lo).toNat ≥ i then sel x.lo i
  else
    let i := i - (cnt x.lo).toNat
    if (cnt x.mid).toNat ≥ i then do pure ((← sel x.mid i) + 64)
    else do
      let i := i - (cnt x.mid).toNat
      let hh := o.toWord (← o.shr x.high 64)
      let lh := o.toWord x.high
      if (cnt lh).toNat ≥ i then pure ((← sel lh i) + 128)
      else pure ((← sel hh (i - (cnt lh).toNat)) + 192)

/-- `operator+=`, uint256_t.hpp:105-112. -/
def addAssign (x y : U256 α) : Option (U256 α) := do
  let lo := o.addWord (o.ofWord x.lo) y.lo
  let mid := o.add (o.addWord (o.ofWord x.mid) y.mid) (← o.shr lo 64)
  pure ⟨o.toWord lo, o.toWord mid, o.add x.high (o.add y.high (← o.shr mid 64))⟩

/-- `operator+`, uint256_t.hpp:114-118. -/
def add (x y : U256 α) : Option (U256 α) := do
  let lo := o.addWord (o.ofWord x.lo) y.lo
  let mid := o.add (o.addWord (o.ofWord x.mid) y.mid) (← o.shr lo 64)
  pure ⟨o.toWord lo, o.toWord mid, o.add (o.add x.high y.high) (← o.shr mid 64)⟩

/-- `operator-`, uint256_t.hpp:120-125. -/
def sub (x y : U256 α) : Option (U256 α) := do
  let lo := o.add (o.addWord (o.ofWord x.lo) (~~~y.lo)) (o.ofWord 1#64)
  let mid := o.add (o.addWord (o.ofWord x.mid) (~~~y.mid)) (← o.shr lo 64)
  pure ⟨o.toWord lo, o.toWord mid, o.add (o.add x.high (o.not y.high)) (← o.shr mid 64)⟩

/-- `operator-=`, uint256_t.hpp:127-135. -/
def subAssign (x y : U256 α) : Option (U256 α) := do
  let lo := o.add (o.addWord (o.ofWord x.lo) (~~~y.lo)) (o.ofWord 1#64)
  let mid := o.add (o.addWord (o.ofWord x.mid) (~~~y.mid)) (← o.shr lo 64)
  pure ⟨o.toWord lo, o.toWord mid, o.add x.high (o.add (o.not y.high) (← o.shr mid 64))⟩

/-- `operator|`, uint256_t.hpp:138-140 (and `|=`, :142-145). -/
def or (x y : U256 α) : U256 α := ⟨x.lo ||| y.lo, x.mid ||| y.mid, o.or x.high y.high⟩

/-- `operator&`, uint256_t.hpp:147-149. -/
def and (x y : U256 α) : U256 α := ⟨x.lo &&& y.lo, x.mid &&& y.mid, o.and x.high y.high⟩

/-- `operator<<`, uint256_t.hpp:156-167. -/
def shl (x : U256 α) (n : Nat) : Option (U256 α) :=
  if n < 128 then do
    let high ← o.shl x.high n
    let low := o.orWord (← o.shl (o.ofWord x.mid) 64) x.lo
    let high := o.or high (← o.shr low (128 - n))
    let low ← o.shl low n
    pure ⟨o.toWord low, o.toWord (← o.shr low 64), high⟩
  else do
    let high ← o.shl (o.orWord (← o.shl (o.ofWord x.mid) 64) x.lo) (n - 128)
    pure ⟨0#64, 0#64, high⟩

/-- `operator>>`, uint256_t.hpp:169-178. -/
def shr (x : U256 α) (n : Nat) : Option (U256 α) :=
  if n < 128 then do
    let low ← o.shr (o.orWord (← o.shl (o.ofWord x.mid) 64) x.lo) n
    let t ← o.shl x.high (127 - n)
    let low := o.or low (← o.shl t 1)
    pure ⟨o.toWord low, o.toWord (← o.shr low 64), ← o.shr x.high n⟩
  else do
    let low ← o.shr x.high (n - 128)
    pure ⟨o.toWord low, o.toWord (← o.shr low 64), o.ofWord 0#64⟩

/-- `operator==`, uint256_t.hpp:187-189. -/
def eq (x y : U256 α) : Bool := x.lo == y.lo && x.mid == y.mid && o.eq x.high y.high

/-- `operator>=`, uint256_t.hpp:195-204. -/
def ge (x y : U256 α) : Bool :=
  if !o.eq x.high y.high then o.gt x.high y.high
  else if x.mid ≠ y.mid then decide (x.mid > y.mid) else decide (x.lo ≥ y.lo)

/-- `operator<=`, uint256_t.hpp:206-215. -/
def le (x y : U256 α) : Bool :=
  if !o.eq x.high y.high then o.lt x.high y.high
  else if x.mid ≠ y.mid then decide (x.mid < y.mid) else decide (x.lo ≤ y.lo)

/-- `operator>(const uint256_t&)`, uint256_t.hpp:217-226. -/
def gt (x y : U256 α) : Bool :=
  if !o.eq x.high y.high then o.gt x.high y.high
  else if x.mid ≠ y.mid then decide (x.mid > y.mid) else decide (x.lo > y.lo)

/-- `operator>(const uint64_t&)`, uint256_t.hpp:228-233; `m_mid > (uint128_t)0ULL` compares `uint64_t`s or 128-bit numbers, with the same result. -/
def gtWord (x : U256 α) (y : Word) : Bool :=
  if o.gt x.high (o.ofWord 0#64) || decide (x.mid > 0#64) then true else decide (x.lo > y)

/-- `operator<`, uint256_t.hpp:235-244. -/
def lt (x y : U256 α) : Bool :=
  if !o.eq x.high y.high then o.lt x.high y.high
  else if x.mid ≠ y.mid then decide (x.mid < y.mid) else decide (x.lo < y.lo)

end U256

/-! ### Output -/

/-- The inner loop of `operator<<(std::ostream&, …)`, lib/uint128_t.cpp:11-14 and lib/uint256_t.cpp:10-13: `k` hexadecimal digits of `x`. -/
def hexLoop : Nat → Word → List Nat
  | 0, _ => []
  | k + 1, x => ((x >>> 60) &&& 0xF#64).toNat :: hexLoop k (x <<< 4)

/-- The digits written by `operator<<(std::ostream&, const uint128_t&)`, lib/uint128_t.cpp:7-17. -/
def U128.print (x : U128) : Option (List Nat) := do
  let a ← x.shr 64
  pure (hexLoop 16 (U128.ops.toWord a) ++ hexLoop 16 (U128.ops.toWord x))

/-- The digits written by `operator<<(std::ostream&, const uint256_t&)`, lib/uint256_t.cpp:6-16. -/
def U256.print {α : Type} (o : Ops α) (x : U256 α) : Option (List Nat) := do
  let a ← o.shr x.high 64
  pure (hexLoop 16 (o.toWord a) ++ hexLoop 16 (o.toWord x.high) ++ hexLoop 16 x.mid ++ hexLoop 16 x.lo)

end Sdsl
