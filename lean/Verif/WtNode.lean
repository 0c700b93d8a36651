/-
  The bit vector of one node of a wavelet tree. `x 0, …, x (n-1)` is the sequence, `P` selects the symbols below the node, `β` is the bit by which the node separates them.
  The bits of the node start at position `o` of the concatenated bit vector `B`.
-/
import Verif.Bv

namespace Sdsl.Wt

open Spec

variable {α : Type}

/-- Number of positions `< i` whose symbol satisfies `P`. -/
def occ (x : Nat → α) (P : α → Bool) (i : Nat) : Nat := countTrue (fun j => P (x j)) i

variable {x : Nat → α}

theorem occ_zero (P : α → Bool) : occ x P 0 = 0 := rfl

theorem occ_succ (P : α → Bool) (i : Nat) : occ x P (i + 1) = occ x P i + (P (x i)).toNat := by
  rw [occ, countTrue, occ]

theorem occ_mono (P : α → Bool) {i j : Nat} (h : i ≤ j) : occ x P i ≤ occ x P j := countTrue_mono _ h

theorem occ_le (P : α → Bool) (i : Nat) : occ x P i ≤ i := countTrue_le _ _

theorem occ_congr {P Q : α → Bool} {i : Nat} (h : ∀ j, j < i → P (x j) = Q (x j)) : occ x P i = occ x Q i := countTrue_congr h

theorem occ_lt {P : α → Bool} {i j : Nat} (h : i < j) (hp : P (x i) = true) : occ x P i < occ x P j := countTrue_lt_of_true h hp

/-- Splitting by a second predicate. -/
theorem occ_split (P β : α → Bool) (i : Nat) : occ x P i = occ x (fun a => P a && β a) i + occ x (fun a => P a && !β a) i := by
  induction i with
  | zero => rfl
  | succ i ih =>
    rw [occ_succ, occ_succ, occ_succ, ih]
    cases P (x i) <;> cases β (x i) <;> simp <;> omega

theorem occ_imp_le {P Q : α → Bool} (h : ∀ a, P a = true → Q a = true) (i : Nat) : occ x P i ≤ occ x Q i := by
  induction i with
  | zero => exact Nat.le_refl _
  | succ i ih =>
    rw [occ_succ, occ_succ]
    cases hp : P (x i)
    · simp; omega
    · rw [h _ hp]; simp; omega

theorem occ_add_le {P Q : α → Bool} (h : ∀ a, P a = true → Q a = false) (i : Nat) : occ x P i + occ x Q i ≤ i := by
  induction i with
  | zero => simp [occ_zero]
  | succ i ih =>
    rw [occ_succ, occ_succ]
    cases hp : P (x i)
    · have : (Q (x i)).toNat ≤ 1 := Bool.toNat_le _
      simp; omega
    · rw [h _ hp]; simp; omega

theorem occ_eq_zero {P : α → Bool} {i : Nat} : occ x P i = 0 ↔ ∀ j, j < i → P (x j) = false := by
  constructor
  · intro h j hj
    apply Bool.eq_false_iff.2
    intro hp
    have := occ_lt hj hp
    omega
  · intro h
    induction i with
    | zero => rfl
    | succ i ih => rw [occ_succ, ih (fun j hj => h j (by omega)), h i (by omega)]; rfl

theorem occ_true (i : Nat) : occ x (fun _ => true) i = i := by
  induction i with
  | zero => rfl
  | succ i ih => rw [occ_succ, ih]; rfl

/-- The bits of a node. -/
structure Node (B : List Bool) (x : Nat → α) (n : Nat) (P β : α → Bool) (o : Nat) : Prop where
  len : o + occ x P n ≤ B.length
  bits : ∀ j, j < n → P (x j) = true → Bv.bit B (o + occ x P j) = β (x j)

namespace Node

variable {B : List Bool} {n : Nat} {P β : α → Bool} {o : Nat}

theorem cnt_one (h : Node B x n P β o) : ∀ {i : Nat}, i ≤ n → Bv.cnt true B (o + occ x P i) = Bv.cnt true B o + occ x (fun a => P a && β a) i := by
  intro i
  induction i with
  | zero => intro _; rfl
  | succ i ih =>
    intro hi
    rw [occ_succ, occ_succ]
    cases hp : P (x i)
    · simpa using ih (by omega)
    · rw [Bool.toNat_true, ← Nat.add_assoc, Bv.cnt_succ, ih (by omega), h.bits i (by omega) hp]
      cases β (x i) <;> rfl

theorem rank (h : Node B x n P β o) {i : Nat} (hi : i ≤ n) : Bv.rank true B (o + occ x P i) = some (Bv.cnt true B o + occ x (fun a => P a && β a) i) := by
  rw [Bv.rank_of_le, h.cnt_one hi]
  have := h.len
  have := occ_mono (x := x) P hi
  omega

theorem rank_start (h : Node B x n P β o) : Bv.rank true B o = some (Bv.cnt true B o) := by
  rw [Bv.rank_of_le]
  have := h.len
  omega

theorem cnt_zero (h : Node B x n P β o) {i : Nat} (hi : i ≤ n) :
    Bv.cnt false B (o + occ x P i) = Bv.cnt false B o + occ x (fun a => P a && !β a) i := by
  have h1 := h.cnt_one hi
  have h2 := Bv.cnt_compl B (o + occ x P i)
  have h3 := Bv.cnt_compl B o
  have h4 := occ_split (x := x) P β i
  omega

theorem get (h : Node B x n P β o) {j : Nat} (hj : j < n) (hp : P (x j) = true) : Bv.get B (o + occ x P j) = some (β (x j)) := by
  rw [Bv.get_of_lt, h.bits j hj hp]
  have := h.len
  have := occ_lt (x := x) hj hp
  omega

theorem select_one (h : Node B x n P β o) {j : Nat} (hj : j < n) (hp : P (x j) = true) (hb : β (x j) = true) :
    Bv.select true B (Bv.cnt true B o + (occ x (fun a => P a && β a) j + 1)) = some (o + occ x P j) := by
  have h1 := h.len
  have h2 := occ_lt (x := x) hj hp
  have h3 := h.cnt_one (i := j) (by omega)
  rw [← Nat.add_assoc, ← h3]
  exact Bv.select_eq (by omega) (by rw [h.bits j hj hp, hb])

theorem select_zero (h : Node B x n P β o) {j : Nat} (hj : j < n) (hp : P (x j) = true) (hb : β (x j) = false) :
    Bv.select false B (Bv.cnt false B o + (occ x (fun a => P a && !β a) j + 1)) = some (o + occ x P j) := by
  have h1 := h.len
  have h2 := occ_lt (x := x) hj hp
  have h3 := h.cnt_zero (i := j) (by omega)
  rw [← Nat.add_assoc, ← h3]
  exact Bv.select_eq (by omega) (by rw [h.bits j hj hp, hb])

end Node

end Sdsl.Wt
