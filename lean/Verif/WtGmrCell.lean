/-
  Searching the positions of one symbol in one chunk.
-/
import Verif.WtGmrSort

namespace Sdsl.Csa.Gmr

open _root_.Sdsl.Csa

theorem count_le_take {C : List Nat} {c a b : Nat} (h : a ≤ b) : (C.take a).count c ≤ (C.take b).count c := (List.take_sublist_take_left h).count_le _

theorem take_count_le (C : List Nat) (c a : Nat) : (C.take a).count c ≤ C.count c := (List.take_sublist _ _).count_le _

/-- The occurrence with a given rank. -/
theorem exists_occ {C : List Nat} {c r : Nat} (h : r < C.count c) : ∃ k, k < C.length ∧ sym C k = c ∧ (C.take k).count c = r := by
  have key : ∀ m, m ≤ C.length → r < (C.take m).count c → ∃ k, k < C.length ∧ sym C k = c ∧ (C.take k).count c = r := by
    intro m
    induction m with
    | zero => intro _ h; simp at h
    | succ m ih =>
      intro hm h
      by_cases e : r < (C.take m).count c
      · exact ih (by omega) e
      · have := count_take_succ (show m < C.length by omega) c
        by_cases e2 : sym C m = c
        · rw [if_pos e2] at this
          exact ⟨m, by omega, e2, by omega⟩
        · rw [if_neg e2] at this; omega
  exact key C.length (Nat.le_refl _) (by rwa [List.take_length])

/-- The elements from `b` on are the positions of `c` in `C`. -/
def Cell (e : Arr) (b : Nat) (C : List Nat) (c : Nat) : Prop := ∀ k, k < C.length → sym C k = c → e.get (b + (C.take k).count c) = some k

section
variable {e : Arr} {b c : Nat} {C : List Nat} (h : Cell e b C c)
include h

theorem Cell.get {r : Nat} (hr : r < C.count c) : ∃ k, e.get (b + r) = some k ∧ k < C.length ∧ sym C k = c ∧ ∀ x, k < x ↔ r < (C.take x).count c := by
  obtain ⟨k, k1, k2, k3⟩ := exists_occ hr
  refine ⟨k, by rw [← k3]; exact h k k1 k2, k1, k2, fun x => ⟨fun hx => ?_, fun hx => ?_⟩⟩
  · have h1 := count_take_succ k1 c
    rw [if_pos k2] at h1
    have := count_le_take (C := C) (c := c) (show k + 1 ≤ x from hx)
    omega
  · by_contra hc
    have := count_le_take (C := C) (c := c) (show x ≤ k by omega)
    omega

theorem Cell.lowerBound (x : Nat) : LcpRep.lowerBound e x (C.count c) b (C.count c) = some (b + (C.take x).count c) := by
  have h1 := take_count_le C c x
  refine LcpRep.lowerBound_spec (g := fun t => (e.get t).getD 0) _ _ _ (Nat.le_refl _) (by omega) (by omega) (fun t t1 t2 => ?_)
  obtain ⟨k, k1, k2, k3, k4⟩ := h.get (r := t - b) (by omega)
  rw [show b + (t - b) = t by omega] at k1
  rw [k1]
  refine ⟨rfl, ?_⟩
  show k < x ↔ _
  rw [k4]
  omega

theorem Cell.findGt (val : Nat) : ∀ (m s : Nat), m + s = C.count c → s ≤ (C.take (val + 1)).count c → Gmr.findGt e val m (b + s) = some (b + (C.take (val + 1)).count c)
  | 0, s, h1, h2 => by
    have := take_count_le C c (val + 1)
    rw [Gmr.findGt]
    congr 1
    omega
  | m + 1, s, h1, h2 => by
    obtain ⟨k, k1, k2, k3, k4⟩ := h.get (r := s) (by omega)
    have h3 := k4 (val + 1)
    rw [Gmr.findGt, k1, sbind]
    by_cases e : val < k
    · rw [if_pos e]
      congr 1
      omega
    · rw [if_neg e, Nat.add_assoc]
      exact Cell.findGt val m (s + 1) (by omega) (by omega)

theorem Cell.countLe {val : Nat} (hv : val + 1 < 2 ^ 64) : countLe e val b (b + C.count c) = some ((C.take (val + 1)).count c) := by
  rw [Gmr.countLe, if_neg (by omega), Nat.add_sub_cancel_left]
  by_cases c1 : b + C.count c < b + 50
  · have := h.findGt val (C.count c) 0 rfl (Nat.zero_le _)
    rw [Nat.add_zero] at this
    rw [if_pos c1, this, sbind, Nat.add_sub_cancel_left]; rfl
  · rw [if_neg c1, add64_eq hv, h.lowerBound, sbind, Nat.add_sub_cancel_left]; rfl

/-- The index of `val`, if it is there. -/
def hit (C : List Nat) (c val b : Nat) : Option Nat := if C[val]? = some c then some (b + (C.take val).count c) else none

theorem Cell.scan (val : Nat) : ∀ (f s : Nat), s + f = C.count c + 1 → s ≤ (C.take val).count c → Gmr.scan e val (b + C.count c) f (b + s) = some (hit C c val b)
  | 0, s, h1, h2 => by
    have := take_count_le C c val
    omega
  | f + 1, s, h1, h2 => by
    have hle := take_count_le C c val
    rw [Gmr.scan]
    by_cases c1 : b + s < b + C.count c
    · rw [if_pos c1]
      obtain ⟨k, k1, k2, k3, k4⟩ := h.get (r := s) (by omega)
      rw [k1, sbind]
      by_cases c2 : k ≤ val
      · rw [if_pos c2]
        by_cases c3 : k = val
        · subst c3
          have := k4 k
          rw [if_pos rfl, hit, if_pos (by rw [List.getElem?_eq_getElem k2, ← sym_lt k2, k3]), show s = (C.take k).count c by omega]
        · rw [if_neg c3, Nat.add_assoc]
          have := k4 val
          exact Cell.scan val f (s + 1) (by omega) (by omega)
      · rw [if_neg c2, hit, if_neg]
        intro he
        obtain ⟨v1, v2⟩ := List.getElem?_eq_some_iff.1 he
        have h3 := count_take_succ v1 c
        rw [if_pos (by rw [sym_lt v1]; exact v2)] at h3
        have := k4 (val + 1)
        omega
    · rw [if_neg c1, hit, if_neg]
      intro he
      obtain ⟨v1, v2⟩ := List.getElem?_eq_some_iff.1 he
      have h3 := count_take_succ v1 c
      rw [if_pos (by rw [sym_lt v1]; exact v2)] at h3
      have := take_count_le C c (val + 1)
      omega

theorem Cell.bisect (val : Nat) : Gmr.bisect e val b (b + C.count c) = some (hit C c val b) := by
  rw [Gmr.bisect, Nat.add_sub_cancel_left, h.lowerBound, sbind]
  have hle := take_count_le C c val
  by_cases c1 : b + (C.take val).count c < b + C.count c
  · rw [if_pos c1]
    obtain ⟨k, k1, k2, k3, k4⟩ := h.get (r := (C.take val).count c) (by omega)
    rw [k1, sbind]
    by_cases c3 : k = val
    · subst c3
      rw [if_pos rfl, hit, if_pos (by rw [List.getElem?_eq_getElem k2, ← sym_lt k2, k3])]; rfl
    · rw [if_neg c3, hit, if_neg]; rfl
      intro he
      obtain ⟨v1, v2⟩ := List.getElem?_eq_some_iff.1 he
      have h3 := count_take_succ v1 c
      rw [if_pos (by rw [sym_lt v1]; exact v2)] at h3
      have h4 := k4 val
      have h5 := k4 (val + 1)
      omega
  · rw [if_neg c1, hit, if_neg]; rfl
    intro he
    obtain ⟨v1, v2⟩ := List.getElem?_eq_some_iff.1 he
    have h3 := count_take_succ v1 c
    rw [if_pos (by rw [sym_lt v1]; exact v2)] at h3
    have := take_count_le C c (val + 1)
    omega

end

/-! ### The text in chunks -/

theorem sym_chunk {L : List Nat} {bs o k : Nat} (hk : k < (chunk bs L o).length) : o * bs + k < L.length ∧ k < bs ∧ sym (chunk bs L o) k = sym L (o * bs + k) := by
  have h1 := hk
  rw [chunk_length] at h1
  have h2 : o * bs + k < L.length := by omega
  refine ⟨h2, by omega, ?_⟩
  rw [sym_lt hk, sym_lt h2]
  simp [chunk]

theorem count_chunk {L : List Nat} {bs o k : Nat} (hk : k ≤ bs) (c : Nat) : (L.take (o * bs + k)).count c = (L.take (o * bs)).count c + ((chunk bs L o).take k).count c := by
  rw [List.take_add, List.count_append, chunk, List.take_take, Nat.min_eq_left hk]

theorem chunk_get {L : List Nat} {bs p : Nat} (hb : 0 < bs) (hp : p < L.length) : p % bs < (chunk bs L (p / bs)).length ∧ sym (chunk bs L (p / bs)) (p % bs) = sym L p ∧ p / bs * bs + p % bs = p := by
  have h1 := Nat.div_add_mod p bs
  have h2 := Nat.mod_lt p hb
  rw [Nat.mul_comm] at h1
  have h3 : p % bs < (chunk bs L (p / bs)).length := by rw [chunk_length]; omega
  refine ⟨h3, ?_, h1⟩
  rw [(sym_chunk h3).2.2, h1]

end Sdsl.Csa.Gmr
