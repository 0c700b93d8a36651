import Verif.Basic

/-! # `random_access_const_iterator`

Model of include/sdsl/iterators.hpp:28-165, the iterator of all containers but `int_vector`. `difference_type` is a signed 64-bit number: an
`Int` in `[-2^63, 2^63)`; overflow of signed numbers is undefined (`none`). The container is known by a number (`m_rac`) and its `operator[]`. -/
namespace Sdsl.RaIter

/-- The members, iterators.hpp:40-41. -/
structure It where
  rac : Nat
  idx : BitVec 64
  deriving DecidableEq

/-- `-i` for a `difference_type`. -/
def neg (i : Int) : Option Int := if i = -2 ^ 63 then none else some (-i)

/-- `operator+=(i)`, iterators.hpp:91-97; for `i < 0` it calls `operator-=(-i)`, which takes its second branch. -/
def addAssign (it : It) (i : Int) : Option It :=
  if i < 0 then (neg i).map (fun j => { it with idx := it.idx - BitVec.ofInt 64 j }) else some { it with idx := it.idx + BitVec.ofInt 64 i }

/-- `operator-=(i)`, iterators.hpp:99-105. -/
def subAssign (it : It) (i : Int) : Option It :=
  if i < 0 then (neg i).map (fun j => { it with idx := it.idx + BitVec.ofInt 64 j }) else some { it with idx := it.idx - BitVec.ofInt 64 i }

/-- `operator++`, iterators.hpp:63-67. -/
def inc (it : It) : It := { it with idx := it.idx + 1 }

/-- `operator--`, iterators.hpp:78-82. -/
def dec (it : It) : It := { it with idx := it.idx - 1 }

/-- `it++`: the iterator that is returned and the new one, iterators.hpp:70-75. -/
def postInc (it : It) : It × It := (it, inc it)

/-- `it--`, iterators.hpp:85-90. -/
def postDec (it : It) : It × It := (it, dec it)

/-- `operator*`, iterators.hpp:57-60; `get` is `operator[]` of the container. -/
def deref {α : Type} (get : Nat → Option α) (it : It) : Option α := get it.idx.toNat

/-- `operator[](i)`, iterators.hpp:119-122. -/
def at' {α : Type} (get : Nat → Option α) (it : It) (i : Int) : Option α := (addAssign it i).bind (deref get)

/-- `operator==`, iterators.hpp:124-127. -/
def eq (x y : It) : Bool := y.rac == x.rac && y.idx == x.idx

/-- `operator<`, `operator>`, `operator>=`, `operator<=`, iterators.hpp:134-152. -/
def lt (x y : It) : Bool := decide (x.idx.toNat < y.idx.toNat)
def gt (x y : It) : Bool := decide (x.idx.toNat > y.idx.toNat)
def ge (x y : It) : Bool := !lt x y
def le (x y : It) : Bool := !gt x y

/-- `x - y`, iterators.hpp:156-161: a difference of signed numbers. -/
def diff (x y : It) : Option Int :=
  let d := x.idx.toInt - y.idx.toInt
  if -2 ^ 63 ≤ d ∧ d < 2 ^ 63 then some d else none

/-- `for (auto it = first; it != last; ++it)` with the values `*it`; the first number bounds the number of steps (fuel). -/
def loop {α : Type} (get : Nat → Option α) (last : It) : Nat → It → Option (List α)
  | 0, _ => none
  | k + 1, it => if eq it last then some [] else do
    let x ← deref get it
    let l ← loop get last k (inc it)
    pure (x :: l)

/-! ### Proofs -/

theorem ofInt_toNat {i : Int} (h0 : 0 ≤ i) (h : i < 2 ^ 64) : (BitVec.ofInt 64 i).toNat = i.toNat := by
  rw [BitVec.toNat_ofInt]
  omega

theorem add_toNat (a b : BitVec 64) : (a + b).toNat = (a.toNat + b.toNat) % 2 ^ 64 := BitVec.toNat_add a b

theorem sub_toNat (a b : BitVec 64) : (a - b).toNat = (2 ^ 64 - b.toNat + a.toNat) % 2 ^ 64 := BitVec.toNat_sub a b

theorem addAssign_eq (it : It) {i : Int} (h1 : -2 ^ 63 < i) (h2 : i < 2 ^ 63) :
    ∃ it', addAssign it i = some it' ∧ it'.rac = it.rac ∧ (it'.idx.toNat : Int) = (it.idx.toNat + i) % 2 ^ 64 := by
  have hlt := it.idx.isLt
  unfold addAssign neg
  by_cases h : i < 0
  · rw [if_pos h, if_neg (by omega)]
    refine ⟨_, rfl, rfl, ?_⟩
    simp only
    rw [sub_toNat, ofInt_toNat (by omega) (by omega)]
    omega
  · rw [if_neg h]
    refine ⟨_, rfl, rfl, ?_⟩
    simp only
    rw [add_toNat, ofInt_toNat (by omega) (by omega)]
    omega

theorem subAssign_eq (it : It) {i : Int} (h1 : -2 ^ 63 < i) (h2 : i < 2 ^ 63) :
    ∃ it', subAssign it i = some it' ∧ it'.rac = it.rac ∧ (it'.idx.toNat : Int) = (it.idx.toNat - i) % 2 ^ 64 := by
  have hlt := it.idx.isLt
  unfold subAssign neg
  by_cases h : i < 0
  · rw [if_pos h, if_neg (by omega)]
    refine ⟨_, rfl, rfl, ?_⟩
    simp only
    rw [add_toNat, ofInt_toNat (by omega) (by omega)]
    omega
  · rw [if_neg h]
    refine ⟨_, rfl, rfl, ?_⟩
    simp only
    rw [sub_toNat, ofInt_toNat (by omega) (by omega)]
    omega

theorem toInt_small {a : BitVec 64} (h : a.toNat < 2 ^ 63) : a.toInt = a.toNat := by
  rw [BitVec.toInt_eq_toNat_cond, if_pos (by omega)]

theorem inc_toNat {it : It} (h : it.idx.toNat + 1 < 2 ^ 64) : (inc it).idx.toNat = it.idx.toNat + 1 := by
  unfold inc
  simp only
  rw [add_toNat, show (1 : BitVec 64).toNat = 1 from rfl]
  omega

theorem eq_iff (x y : It) : eq x y = true ↔ x.rac = y.rac ∧ x.idx.toNat = y.idx.toNat := by
  unfold eq
  rw [Bool.and_eq_true, beq_iff_eq, beq_iff_eq]
  refine ⟨fun h => ⟨h.1.symm, by rw [h.2]⟩, fun h => ⟨h.1.symm, BitVec.eq_of_toNat_eq h.2.symm⟩⟩

theorem loop_eq {α : Type} {get : Nat → Option α} {last : It} (f : Nat → α) : ∀ (k : Nat) {it : It}, it.rac = last.rac →
    it.idx.toNat + k = last.idx.toNat → (∀ j, it.idx.toNat ≤ j → j < last.idx.toNat → get j = some (f j)) → ∀ fuel, k < fuel →
    loop get last fuel it = some ((List.range' it.idx.toNat k).map f) := by
  intro k
  induction k with
  | zero =>
    intro it hr he _ fuel hf
    obtain ⟨fuel, rfl⟩ : ∃ m, fuel = m + 1 := ⟨fuel - 1, by omega⟩
    unfold loop
    rw [if_pos ((eq_iff _ _).2 ⟨hr, by omega⟩)]
    rfl
  | succ k ih =>
    intro it hr he hg fuel hf
    obtain ⟨fuel, rfl⟩ : ∃ m, fuel = m + 1 := ⟨fuel - 1, by omega⟩
    have hlt := last.idx.isLt
    have hi := inc_toNat (it := it) (by omega)
    unfold loop
    rw [if_neg (fun h => by have := ((eq_iff _ _).1 h).2; omega)]
    unfold deref
    rw [hg _ (Nat.le_refl _) (by omega), ih (it := inc it) hr (by omega) (fun j h1 h2 => hg j (by omega) h2) fuel (by omega), hi]
    rfl

end Sdsl.RaIter
