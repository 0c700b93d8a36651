/-
  Ranges `[s..e]` of the wavelet-tree node interface: include/sdsl/wt_helper.hpp:16-29, lib/wt_helper.cpp:6-14. The bounds are inclusive and `size_type`, so the empty range at the
  start of a node is `{0, 2^64-1}`; the operations wrap modulo `2^64`.
-/
import Verif.Basic

namespace Sdsl.Wt

/-- `range_type`, wt_helper.hpp:16. -/
abbrev Range := Nat × Nat

namespace Range

/-- `empty(r)`, wt_helper.cpp:6-9. -/
def empty (r : Range) : Bool := r.1 == (r.2 + 1) % 2 ^ 64

/-- `size(r)`, wt_helper.cpp:11-14. -/
def size (r : Range) : Nat := (r.2 + 2 ^ 64 - r.1 + 1) % 2 ^ 64

/-- `{sp, sp + size - 1}`. -/
def mk (sp size : Nat) : Range := (sp, (sp + size + (2 ^ 64 - 1)) % 2 ^ 64)

/-- `r[1] + 1`. -/
def stop (r : Range) : Nat := (r.2 + 1) % 2 ^ 64

variable {sp n : Nat}

theorem mk_stop (h : sp + n < 2 ^ 64) : stop (mk sp n) = sp + n := by
  unfold stop mk
  simp only
  rw [Nat.mod_add_mod, show sp + n + (2 ^ 64 - 1) + 1 = sp + n + 2 ^ 64 by omega, Nat.add_mod_right, Nat.mod_eq_of_lt h]

theorem mk_empty (h : sp + n < 2 ^ 64) : empty (mk sp n) = (n == 0) := by
  have : empty (mk sp n) = (sp == stop (mk sp n)) := rfl
  rw [this, mk_stop h, Bool.eq_iff_iff]
  simp only [beq_iff_eq]; omega

theorem mk_size (h : sp + n < 2 ^ 64) : size (mk sp n) = n := by
  unfold size mk
  simp only
  by_cases h0 : sp + n = 0
  · have : sp = 0 := by omega
    have : n = 0 := by omega
    subst sp; subst n; rfl
  · rw [show sp + n + (2 ^ 64 - 1) = (sp + n - 1) + 2 ^ 64 by omega, Nat.add_mod_right, Nat.mod_eq_of_lt (show sp + n - 1 < 2 ^ 64 by omega),
      show sp + n - 1 + 2 ^ 64 - sp + 1 = n + 2 ^ 64 by omega, Nat.add_mod_right, Nat.mod_eq_of_lt (by omega)]

/-- A non-empty range given by its bounds. -/
theorem eq_mk {lb rb : Nat} (h : lb ≤ rb) (h2 : rb + 1 < 2 ^ 64) : ((lb, rb) : Range) = mk lb (rb + 1 - lb) := by
  unfold mk
  rw [show lb + (rb + 1 - lb) + (2 ^ 64 - 1) = rb + 2 ^ 64 by omega, Nat.add_mod_right, Nat.mod_eq_of_lt (by omega)]

end Range

end Sdsl.Wt
