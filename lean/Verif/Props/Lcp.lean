/-
  C39: the LCP constructions `construct_lcp_kasai`, `construct_lcp_PHI` (construct_lcp.hpp) and `construct_lcp_semi_extern_PHI` (lib/construct_lcp.cpp).
  Undefined behaviour (a read outside of the text or of an array) is `none`; the theorems give `some`, so there is no such read.
-/
import Verif.LcpLemmas

namespace Sdsl.Props

open Csa

/-- `l` is the length of the longest common prefix of `x` and `y`. -/
def IsLcp (x y : List Nat) (l : Nat) : Prop :=
  (∃ p, p <+: x ∧ p <+: y ∧ p.length = l) ∧ ∀ p, p <+: x → p <+: y → p.length ≤ l

theorem isLcp_lcp : ∀ x y : List Nat, IsLcp x y (Lcp.lcp x y)
  | [], y => by
    have : Lcp.lcp [] y = 0 := by cases y <;> rfl
    rw [this]
    refine ⟨⟨[], List.nil_prefix, List.nil_prefix, rfl⟩, fun p h _ => ?_⟩
    rw [List.prefix_nil.1 h]
    exact Nat.le_refl _
  | _ :: _, [] => by
    refine ⟨⟨[], List.nil_prefix, List.nil_prefix, rfl⟩, fun p _ h => ?_⟩
    rw [List.prefix_nil.1 h]
    exact Nat.zero_le _
  | a :: x, b :: y => by
    rw [Lcp.lcp]
    by_cases e : a = b
    · subst e
      rw [if_pos rfl]
      obtain ⟨⟨p, h1, h2, h3⟩, h4⟩ := isLcp_lcp x y
      refine ⟨⟨a :: p, List.cons_prefix_cons.2 ⟨rfl, h1⟩, List.cons_prefix_cons.2 ⟨rfl, h2⟩, by rw [List.length_cons, h3]⟩, ?_⟩
      intro q hq1 hq2
      cases q with
      | nil => exact Nat.zero_le _
      | cons c q =>
        have := h4 q (List.cons_prefix_cons.1 hq1).2 (List.cons_prefix_cons.1 hq2).2
        rw [List.length_cons]
        omega
    · rw [if_neg e]
      refine ⟨⟨[], List.nil_prefix, List.nil_prefix, rfl⟩, fun q hq1 hq2 => ?_⟩
      cases q with
      | nil => exact Nat.le_refl _
      | cons c q =>
        exact absurd ((List.cons_prefix_cons.1 hq1).1.symm.trans (List.cons_prefix_cons.1 hq2).1) e

/-- `L` is the LCP array of the text `T` with suffix array `SA`: as long as the text, entry 0 is 0, entry `r + 1` is the length of the longest common prefix of the suffixes of
    rank `r` and `r + 1`. -/
def IsLcpArray (T SA L : List Nat) : Prop :=
  L.length = T.length ∧ L[0]? = some 0 ∧ ∀ r, r + 1 < T.length → ∃ l, L[r + 1]? = some l ∧ IsLcp (T.drop (sym SA r)) (T.drop (sym SA (r + 1))) l

theorem isLcpArray_of {T SA : List Nat} {b : Arr} (h : Lcp.LcpOk T SA b) : IsLcpArray T SA b.xs :=
  ⟨h.length, h.zero, fun r hr => ⟨_, h.succ r hr, isLcp_lcp _ _⟩⟩

/-- **C39**: Kasai's algorithm (which overwrites the suffix array) computes the LCP array. `sa` is the `int_vector` with the suffix array, of any width that holds its values. -/
theorem C39_kasai {T : List Nat} (hT : IsText T) {sa : Arr} (hsa : IsSA T sa.xs) (hn : T.length < 2 ^ 64) (hw : ∀ x ∈ sa.xs, x < 2 ^ sa.width) :
    ∃ b, Lcp.constructKasai T sa = some b ∧ IsLcpArray T sa.xs b.xs := by
  obtain ⟨b, h1, h2⟩ := Lcp.kasai_spec hT hsa hn (fun t v hv => hw v (List.mem_of_getElem? hv))
  exact ⟨b, h1, isLcpArray_of h2⟩

/-- **C39**: the PHI algorithm computes the LCP array. `1 ≤ width ≤ 64` as for every `int_vector`. -/
theorem C39_PHI {T : List Nat} (hT : IsText T) {sa : Arr} (hsa : IsSA T sa.xs) (hn : T.length < 2 ^ 64) (hw : ∀ x ∈ sa.xs, x < 2 ^ sa.width)
    (hw1 : 1 ≤ sa.width) (hw64 : sa.width ≤ 64) :
    ∃ b, Lcp.constructPHI T sa = some b ∧ IsLcpArray T sa.xs b.xs := by
  have hc : IntVec.clampWidth sa.width = sa.width := by
    unfold IntVec.clampWidth
    split <;> omega
  obtain ⟨b, h1, h2⟩ := Lcp.PHI_spec hT hsa hn (fun t v hv => hw v (List.mem_of_getElem? hv)) hc
  exact ⟨b, h1, isLcpArray_of h2⟩

/-- **C39**: the semi-external PHI algorithm, which stores every 64th value of the permuted LCP array, computes the LCP array. -/
theorem C39_semi_extern {T : List Nat} (hT : IsText T) {sa : Arr} (hsa : IsSA T sa.xs) (hn : T.length < 2 ^ 64) (hw : ∀ x ∈ sa.xs, x < 2 ^ sa.width) :
    ∃ b, Lcp.constructSemiExtern T sa = some b ∧ IsLcpArray T sa.xs b.xs := by
  obtain ⟨b, h1, h2⟩ := Lcp.semiExtern_spec hT hsa hn (fun t v hv => hw v (List.mem_of_getElem? hv))
  exact ⟨b, h1, isLcpArray_of h2⟩

/-- The LCP array is determined by the text, so the three constructions agree. -/
theorem C39_unique {T SA L L' : List Nat} (h : IsLcpArray T SA L) (h' : IsLcpArray T SA L') : L = L' := by
  apply List.ext_getElem?
  intro i
  cases i with
  | zero => rw [h.2.1, h'.2.1]
  | succ r =>
    rcases Nat.lt_or_ge (r + 1) T.length with hr | hr
    · obtain ⟨l, e, ⟨p, h1, h2, h3⟩, h4⟩ := h.2.2 r hr
      obtain ⟨l', e', ⟨p', h1', h2', h3'⟩, h4'⟩ := h'.2.2 r hr
      have a := h4 p' h1' h2'
      have b := h4' p h1 h2
      rw [e, e', show l = l' by omega]
    · rw [List.getElem?_eq_none (by rw [h.1]; exact hr), List.getElem?_eq_none (by rw [h'.1]; exact hr)]

/-- The sentinel is necessary: on a text without it the comparison runs off the end. -/
theorem C39_sentinel_needed : Lcp.constructKasai [1, 1] ⟨1, [1, 0]⟩ = none ∧ Lcp.constructPHI [1, 1] ⟨1, [1, 0]⟩ = none := by decide +kernel

/-- "mississippi$" as in the examples for C36. -/
def lcpText : List Nat := [3, 2, 5, 5, 2, 5, 5, 2, 4, 4, 2, 0]

def lcpSA : Arr := ⟨4, [11, 10, 7, 4, 1, 0, 9, 8, 6, 3, 5, 2]⟩

/-- The hypotheses of the three theorems are satisfied. -/
example : IsText lcpText ∧ IsSA lcpText lcpSA.xs ∧ lcpText.length < 2 ^ 64 ∧ (∀ x ∈ lcpSA.xs, x < 2 ^ lcpSA.width) ∧ 1 ≤ lcpSA.width ∧ lcpSA.width ≤ 64 :=
  ⟨⟨[3, 2, 5, 5, 2, 5, 5, 2, 4, 4, 2], rfl, by decide⟩, ⟨by decide +kernel, by decide +kernel⟩, by decide, by decide, by decide, by decide⟩

example : (Lcp.constructKasai lcpText lcpSA).map (·.xs) = some [0, 0, 1, 1, 4, 0, 0, 1, 0, 2, 1, 3] := by decide +kernel
example : Lcp.constructPHI lcpText lcpSA = some ⟨3, [0, 0, 1, 1, 4, 0, 0, 1, 0, 2, 1, 3]⟩ := by decide +kernel
example : (Lcp.constructSemiExtern lcpText lcpSA).map (·.xs) = some [0, 0, 1, 1, 4, 0, 0, 1, 0, 2, 1, 3] := by decide +kernel

end Sdsl.Props
