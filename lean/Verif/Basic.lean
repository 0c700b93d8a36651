/-
  Basic conventions of the model: machine words, word arrays, undefined behaviour.

  Undefined behaviour of the C++ code is the outcome `none`.
-/

namespace Sdsl

/-- `uint64_t`. -/
abbrev Word := BitVec 64

/-- A word array: all words of one allocation (`uint64_t*`). -/
abbrev Mem := List Word

/-- Load `*(base+i)`. Undefined (`none`) outside the allocation. -/
def ld (m : Mem) (i : Nat) : Option Word := m[i]?

/-- Store `*(base+i) = w`. Undefined (`none`) outside the allocation. -/
def st (m : Mem) (i : Nat) (w : Word) : Option Mem :=
  if i < m.length then some (m.set i w) else none

/-- `w << k` on `uint64_t`. Undefined (`none`) for `k ≥ 64`. -/
def shl (w : Word) (k : Nat) : Option Word := if k < 64 then some (w <<< k) else none

/-- `w >> k` on `uint64_t`. Undefined (`none`) for `k ≥ 64`. -/
def shr (w : Word) (k : Nat) : Option Word := if k < 64 then some (w >>> k) else none

@[simp] theorem shl_of_lt {w : Word} {k : Nat} (h : k < 64) : shl w k = some (w <<< k) := by
  simp [shl, h]

@[simp] theorem shr_of_lt {w : Word} {k : Nat} (h : k < 64) : shr w k = some (w >>> k) := by
  simp [shr, h]

@[simp] theorem st_of_lt {m : Mem} {i : Nat} {w : Word} (h : i < m.length) :
    st m i w = some (m.set i w) := by
  simp [st, h]

theorem ld_of_lt {m : Mem} {i : Nat} (h : i < m.length) : ld m i = some m[i] := by
  simp [ld, h]

end Sdsl
