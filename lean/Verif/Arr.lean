/-
  The abstract behaviour of `int_vector`: an array of numbers of `width` bits. Higher-level structures that only create
  `int_vector`s and read and write their elements are modelled on top of `Arr`; `Props.C11_*` (for the concrete word-level
  model `IntVec`) justify this abstraction: reading gives the stored number, writing stores the number modulo `2^width`,
  and nothing else changes (see `Props.arr_*` in Props/ArrBridge).
-/
import Verif.IntVec

namespace Sdsl

/-- An `int_vector` seen as an array. -/
structure Arr where
  width : Nat
  xs : List Nat
deriving DecidableEq, Repr

namespace Arr

/-- A default constructed `int_vector<0>`. -/
def empty : Arr := ⟨64, []⟩

/-- `int_vector<0>(n, x, w)`, int_vector.hpp:330-344. -/
def new (n x w : Nat) : Arr := ⟨IntVec.clampWidth w, List.replicate n (x % 2 ^ IntVec.clampWidth w)⟩

/-- `a[i]` as a value. -/
def get (a : Arr) (i : Nat) : Option Nat := a.xs[i]?

/-- `a[i] = x`. -/
def set (a : Arr) (i x : Nat) : Option Arr :=
  if i < a.xs.length then some { a with xs := a.xs.set i (x % 2 ^ a.width) } else none

end Arr

/-- Element assignment `l[i] = x` in a C array (`none` outside). -/
def setList {α : Type} (l : List α) (i : Nat) (x : α) : Option (List α) := if i < l.length then some (l.set i x) else none

theorem setList_of_lt {α : Type} {l : List α} {i : Nat} {x : α} (h : i < l.length) : setList l i x = some (l.set i x) := by
  simp [setList, h]

theorem Arr.set_of_lt {a : Arr} {i x : Nat} (h : i < a.xs.length) :
    a.set i x = some { a with xs := a.xs.set i (x % 2 ^ a.width) } := by
  simp [Arr.set, h]

end Sdsl
