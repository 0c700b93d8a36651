/-
  C45: `uint128_t` (the portable class) and `uint256_t` behave as 128-bit and 256-bit unsigned integers.
  `U128.val x = 2^64·hi + lo` and `U256.value val x = 2^128·high + 2^64·mid + lo` are the numbers represented.
-/
import Verif.Wide256

namespace Sdsl.Props

open Spec

/-- C45: addition, subtraction and bit operations of `uint128_t`. -/
theorem C45_uint128_arithmetic (x y : U128) (w : Word) :
    (x.add y).val = (x.val + y.val) % 2 ^ 128 ∧ (x.addWord w).val = (x.val + w.toNat) % 2 ^ 128 ∧ (x.sub y).val = (x.val + (2 ^ 128 - y.val)) % 2 ^ 128 ∧
      x.not.val = 2 ^ 128 - 1 - x.val ∧ (x.or y).val = x.val ||| y.val ∧ (x.orWord w).val = x.val ||| w.toNat ∧ (x.and y).val = x.val &&& y.val :=
  ⟨x.add_val y, x.addWord_val w, x.sub_val y, x.not_val, x.or_val y, x.orWord_val w, x.and_val y⟩

/-- C45: shifts of `uint128_t` by 0 … 128. -/
theorem C45_uint128_shift (x : U128) (n : Nat) (hn : n ≤ 128) :
    (∃ y, x.shl n = some y ∧ y.val = x.val * 2 ^ n % 2 ^ 128) ∧ ∃ y, x.shr n = some y ∧ y.val = x.val / 2 ^ n :=
  ⟨x.shl_val hn, x.shr_val hn⟩

/-- C45: comparisons of `uint128_t`. -/
theorem C45_uint128_compare (x y : U128) (w : Word) :
    x.eq y = decide (x.val = y.val) ∧ x.eqWord w = decide (x.val = w.toNat) ∧ x.lt y = decide (x.val < y.val) ∧ x.le y = decide (x.val ≤ y.val) ∧
      x.gt y = decide (x.val > y.val) ∧ x.ge y = decide (x.val ≥ y.val) ∧ x.gtWord w = decide (x.val > w.toNat) :=
  ⟨x.eq_val y, x.eqWord_val w, x.lt_val y, x.le_val y, x.gt_val y, x.ge_val y, x.gtWord_val w⟩

/-- C45: `popcount`, `hi` and `select` of `uint128_t`. -/
theorem C45_uint128_bits (x : U128) :
    x.popcount = countTrue (fun j => x.val.testBit j) 128 ∧ x.hiBit = some (Nat.log2 x.val) ∧
      ∀ i, 1 ≤ i → i ≤ countTrue (fun j => x.val.testBit j) 128 → ∃ p, x.select i = some p ∧ IsSelect (fun j => x.val.testBit j) 128 i p :=
  ⟨x.popcount_val, x.hiBit_val, fun _ h1 h2 => x.select_val h1 h2⟩

/-- All operations of `uint256_t` over the representation `o` of `uint128_t` are correct, except that left shifts are restricted to `minShl ≤ n ≤ 128 + mx` and right
    shifts to `n ≤ 128 + mx`. -/
structure Correct256 {α : Type} (o : Ops α) (val : α → Nat) (minShl mx : Nat) : Prop where
  add : ∀ x y : U256 α, ∃ z, U256.add o x y = some z ∧ z.value val = (x.value val + y.value val) % 2 ^ 256
  addAssign : ∀ x y : U256 α, ∃ z, U256.addAssign o x y = some z ∧ z.value val = (x.value val + y.value val) % 2 ^ 256
  sub : ∀ x y : U256 α, ∃ z, U256.sub o x y = some z ∧ z.value val = (x.value val + (2 ^ 256 - y.value val)) % 2 ^ 256
  subAssign : ∀ x y : U256 α, ∃ z, U256.subAssign o x y = some z ∧ z.value val = (x.value val + (2 ^ 256 - y.value val)) % 2 ^ 256
  or : ∀ x y : U256 α, (U256.or o x y).value val = x.value val ||| y.value val
  and : ∀ x y : U256 α, (U256.and o x y).value val = x.value val &&& y.value val
  shl : ∀ (x : U256 α) n, minShl ≤ n → n ≤ 128 + mx → ∃ z, U256.shl o x n = some z ∧ z.value val = x.value val * 2 ^ n % 2 ^ 256
  shr : ∀ (x : U256 α) n, n ≤ 128 + mx → ∃ z, U256.shr o x n = some z ∧ z.value val = x.value val / 2 ^ n
  eq : ∀ x y : U256 α, U256.eq o x y = decide (x.value val = y.value val)
  lt : ∀ x y : U256 α, U256.lt o x y = decide (x.value val < y.value val)
  le : ∀ x y : U256 α, U256.le o x y = decide (x.value val ≤ y.value val)
  gt : ∀ x y : U256 α, U256.gt o x y = decide (x.value val > y.value val)
  ge : ∀ x y : U256 α, U256.ge o x y = decide (x.value val ≥ y.value val)
  gtWord : ∀ (x : U256 α) (w : Word), U256.gtWord o x w = decide (x.value val > w.toNat)
  popcount : ∀ x : U256 α, U256.popcount o x = some (countTrue (fun j => (x.value val).testBit j) 256)
  hi : ∀ x : U256 α, U256.hiBit o x = some (Nat.log2 (x.value val))
  select : ∀ (x : U256 α) i, 1 ≤ i → i ≤ countTrue (fun j => (x.value val).testBit j) 256 →
    ∃ p, U256.select o x i = some p ∧ IsSelect (fun j => (x.value val).testBit j) 256 i p
  print : ∀ x : U256 α, ∃ l, x.print o = some l ∧ l.length = 64 ∧ (∀ d ∈ l, d < 16) ∧ hexVal l = x.value val

theorem correct256 {α : Type} {o : Ops α} {val : α → Nat} {mx minShl : Nat} (L : Lawful o val mx) (h : minShl = 0 → mx = 128) : Correct256 o val minShl mx where
  add := U256.add_val L
  addAssign := U256.addAssign_val L
  sub := U256.sub_val L
  subAssign := U256.subAssign_val L
  or := U256.or_val L
  and := U256.and_val L
  shl x n h1 h2 := U256.shl_val L x h2 (fun e => h (by omega))
  shr x n h2 := U256.shr_val L x h2
  eq := U256.eq_val L
  lt := U256.lt_val L
  le := U256.le_val L
  gt := U256.gt_val L
  ge := U256.ge_val L
  gtWord := U256.gtWord_val L
  popcount := U256.popcount_val L
  hi := U256.hiBit_val L
  select x i h1 h2 := U256.select_val L x h1 h2
  print := U256.print_val L

/-- C45: `uint256_t` over the portable `uint128_t`: everything, shifts by 0 … 256. -/
theorem C45_uint256_class : Correct256 U128.ops U128.val 0 128 := correct256 lawful_class (fun _ => rfl)

/-- C45: `uint256_t` over the compiler's 128-bit type (`MODE_TI`): everything; missing: `x << 0`, see `C45_native_shift_zero`; left shifts by 1 … 255, right shifts by 0 … 255. -/
theorem C45_uint256_native_partial : Correct256 nativeOps BitVec.toNat 1 127 := correct256 lawful_native (by omega)

/-- C45, defect: over the compiler's 128-bit type, `x << 0` evaluates `low >> 128`, which is undefined (uint256_t.hpp:160). -/
theorem C45_native_shift_zero (x : U256 (BitVec 128)) : U256.shl nativeOps x 0 = none := rfl

/-- C45: `operator<<(std::ostream&, …)` writes the 32 hexadecimal digits of the number. -/
theorem C45_uint128_print (x : U128) : ∃ l, x.print = some l ∧ l.length = 32 ∧ (∀ d ∈ l, d < 16) ∧ hexVal l = x.val := x.print_val

/-- Carries and borrows through all limbs. -/
example : U256.add U128.ops ⟨0xffffffffffffffff#64, 0xffffffffffffffff#64, ⟨0xffffffffffffffff#64, 7#64⟩⟩ ⟨1#64, 0#64, ⟨0#64, 0#64⟩⟩ = some ⟨0#64, 0#64, ⟨0#64, 8#64⟩⟩ ∧
    U256.sub U128.ops ⟨0#64, 0#64, ⟨0#64, 8#64⟩⟩ ⟨1#64, 0#64, ⟨0#64, 0#64⟩⟩ = some ⟨0xffffffffffffffff#64, 0xffffffffffffffff#64, ⟨0xffffffffffffffff#64, 7#64⟩⟩ ∧
    U256.shl U128.ops ⟨0x8000000000000001#64, 0#64, ⟨0#64, 0#64⟩⟩ 65 = some ⟨0#64, 2#64, ⟨1#64, 0#64⟩⟩ ∧
    U256.select U128.ops ⟨3#64, 1#64, ⟨0#64, 12#64⟩⟩ 5 = some 195 := by decide +kernel

example : (⟨0xffffffffffffffff#64, 1#64⟩ : U128).add ⟨1#64, 0#64⟩ = ⟨0#64, 2#64⟩ ∧ (⟨0#64, 2#64⟩ : U128).sub ⟨1#64, 0#64⟩ = ⟨0xffffffffffffffff#64, 1#64⟩ ∧
    (⟨5#64, 6#64⟩ : U128).shl 64 = some ⟨0#64, 5#64⟩ ∧ (⟨5#64, 6#64⟩ : U128).shr 1 = some ⟨2#64, 3#64⟩ ∧ (⟨5#64, 6#64⟩ : U128).select 4 = some 66 := by decide +kernel

end Sdsl.Props
