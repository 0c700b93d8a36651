import Verif.LcpBwt
import Verif.Props.Lcp

/-! # C95: `construct_lcp_bwt_based` -/
namespace Sdsl.Props
open Sdsl.Csa Sdsl.LcpBwt

/-- `m` times the same symbol, and the sentinel. -/
def aText (m : Nat) : List Nat := List.replicate m 97 ++ [0]

theorem aText_isText (m : Nat) : IsText (aText m) :=
  ⟨List.replicate m 97, rfl, fun c hc => by rw [(List.mem_replicate.1 hc).2]; decide⟩

theorem aText_lt : ∀ {a b : Nat}, a < b → aText a < aText b
  | 0, b + 1, _ => by
    unfold aText
    rw [List.replicate_succ]
    exact List.Lex.rel (by decide)
  | a + 1, b + 1, h => by
    have := aText_lt (a := a) (b := b) (by omega)
    unfold aText at *
    rw [List.replicate_succ, List.replicate_succ]
    simpa using this

theorem aText_drop (m k : Nat) (h : k ≤ m) : (aText m).drop k = aText (m - k) := by
  unfold aText
  rw [List.drop_append_of_le_length (by simpa using h), List.drop_replicate]

theorem aText_isSA (m : Nat) : IsSA (aText m) (List.range (m + 1)).reverse := by
  refine ⟨?_, ?_⟩
  · rw [show (aText m).length = m + 1 by simp [aText]]
    exact List.reverse_perm _
  · rw [List.pairwise_reverse]
    refine (List.pairwise_lt_range (n := m + 1)).imp_of_mem (fun ha hb h => ?_)
    rw [List.mem_range] at ha hb
    rw [aText_drop _ _ (by omega), aText_drop _ _ (by omega)]
    exact aText_lt (by omega)

/-- The result is a division by zero. -/
def isDivZero : Except Fail Arr → Bool
  | .error .divZero => true
  | _ => false

/-- The result is an array of this length. -/
def hasLength (n : Nat) : Except Fail Arr → Bool
  | .ok a => a.xs.length == n
  | _ => false

theorem isDivZero_eq {r : Except Fail Arr} (h : isDivZero r = true) : r = .error .divZero := by
  unfold isDivZero at h
  split at h
  · rfl
  · cases h

theorem hasLength_eq {n : Nat} {r : Except Fail Arr} (h : hasLength n r = true) : ∃ a, r = .ok a ∧ a.xs.length = n := by
  unfold hasLength at h
  split at h
  · exact ⟨_, rfl, by simpa using h⟩
  · cases h

/-- More rounds do not change a result. -/
theorem loop_fuel (bwt : List Nat) (space : Nat) : ∀ (k : Nat) (m : Main), loop bwt space k m ≠ .error .fuel →
    ∀ j, loop bwt space (k + j) m = loop bwt space k m := by
  intro k
  induction k with
  | zero => intro m h; exact absurd rfl h
  | succ k ih =>
    intro m h j
    rw [show k + 1 + j = (k + j) + 1 by omega]
    unfold loop at h ⊢
    by_cases hi : m.intervals = 0
    · rw [if_pos hi, if_pos hi]
    · rw [if_neg hi] at h
      rw [if_neg hi, if_neg hi]
      cases e1 : lift (level bwt m) with
      | error e => rfl
      | ok m1 =>
        rw [e1] at h
        cases e2 : flush bwt space m1 with
        | error e => simp only [bind, Except.bind, e2]
        | ok m2 =>
          simp only [bind, Except.bind, e2] at h ⊢
          exact ih m2 h j

theorem construct_fuel {bwt : List Nat} {bb k : Nat} (h : construct bwt bb k ≠ .error .fuel) (j : Nat) (hj : k ≤ j) : construct bwt bb j = construct bwt bb k := by
  obtain ⟨d, rfl⟩ := Nat.exists_eq_add_of_le hj
  unfold construct at *
  simp only [bind, Except.bind] at h ⊢
  split
  · rfl
  · rename_i e
    rw [e] at h
    exact loop_fuel _ _ _ _ h d

/-- C95 is false: for the text of 63 equal symbols the construction divides by zero (the largest LCP value is 62, and all values are known when
the file is written for the first time). -/
theorem C95_division_by_zero_wrong : IsText (aText 63) ∧ IsSA (aText 63) (List.range 64).reverse ∧
    ∃ bwt, constructBwt (aText 63) (List.range 64).reverse = some bwt ∧ ∀ fuel, 100 ≤ fuel → construct bwt 6 fuel = .error .divZero := by
  have h : construct (aText 63) 6 100 = .error .divZero := isDivZero_eq (by decide +kernel)
  refine ⟨aText_isText 63, aText_isSA 63, aText 63, by decide +kernel, fun fuel hf => ?_⟩
  rw [construct_fuel (by rw [h]; simp) fuel hf, h]

/-- With more symbols the file is written and read, here 70 equal symbols. -/
example : (match construct (aText 70) 6 100 with | .ok a => a.xs == 0 :: List.range 70 | _ => false) = true := by decide +kernel

/-- A text with different symbols: the BWT of `2 1 1 2 1 0`. -/
example : constructBwt [2, 1, 1, 2, 1, 0] [5, 4, 1, 2, 3, 0] = some [1, 2, 2, 1, 1, 0] ∧
    (match construct [1, 2, 2, 1, 1, 0] 6 100 with | .ok a => a.xs == [0, 0, 1, 1, 0, 2] | _ => false) = true := by decide +kernel

end Sdsl.Props
