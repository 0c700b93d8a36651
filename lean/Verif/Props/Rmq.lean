/-
  C46: `rmq_support_sparse_table` answers range minimum and maximum queries with the leftmost optimum.
-/
import Verif.RmqLemmas

namespace Sdsl.Props

/-- C46 (minimum): for every container `v` of a length other than 2, the constructor succeeds and `operator()(l,r)` is the leftmost position of a minimum of
    `v[l..r]`. Missing: containers of length 2 with `v[0] > v[1]`, see `C46_two_elements`. -/
theorem C46_rmq_min_partial (v : List Int) (hn : v.length ≤ 2 ^ 63) (h2 : v.length ≠ 2 ∨ ∃ a b, v = [a, b] ∧ a ≤ b) :
    ∃ T, Rmq.new true v = some T ∧ ∀ l r, l ≤ r → r < v.length →
      ∃ p a, Rmq.query true v T l r = some p ∧ l ≤ p ∧ p ≤ r ∧ v[p]? = some a ∧
        ∀ q b, l ≤ q → q ≤ r → v[q]? = some b → a ≤ b ∧ (q < p → a < b) := by
  obtain ⟨T, K, h1, h3⟩ := Rmq.new_ok true v hn (by simpa [Rmq.Le] using h2)
  refine ⟨T, h1, fun l r hlr hr => ?_⟩
  obtain ⟨p, h4, h5⟩ := Rmq.query_ok hn h3 hlr hr
  have hpr := h5.le
  refine ⟨p, _, h4, h5.ge, h5.le, Rmq.v_get (by omega), fun q b hq1 hq2 hb => ?_⟩
  rw [Rmq.v_get (by omega), Option.some_inj] at hb
  subst hb
  refine ⟨by simpa only [Rmq.Le, if_true] using h5.opt q hq1 hq2, fun hq => ?_⟩
  have := h5.first q hq1 hq
  simp only [Rmq.Le, if_true] at this
  omega

/-- C46 (maximum): the same for `range_maximum_support_sparse_table`. Missing: containers of length 2 with `v[0] < v[1]`. -/
theorem C46_rmq_max_partial (v : List Int) (hn : v.length ≤ 2 ^ 63) (h2 : v.length ≠ 2 ∨ ∃ a b, v = [a, b] ∧ b ≤ a) :
    ∃ T, Rmq.new false v = some T ∧ ∀ l r, l ≤ r → r < v.length →
      ∃ p a, Rmq.query false v T l r = some p ∧ l ≤ p ∧ p ≤ r ∧ v[p]? = some a ∧
        ∀ q b, l ≤ q → q ≤ r → v[q]? = some b → b ≤ a ∧ (q < p → b < a) := by
  obtain ⟨T, K, h1, h3⟩ := Rmq.new_ok false v hn (by simpa [Rmq.Le] using h2)
  refine ⟨T, h1, fun l r hlr hr => ?_⟩
  obtain ⟨p, h4, h5⟩ := Rmq.query_ok hn h3 hlr hr
  have hpr := h5.le
  refine ⟨p, _, h4, h5.ge, h5.le, Rmq.v_get (by omega), fun q b hq1 hq2 hb => ?_⟩
  rw [Rmq.v_get (by omega), Option.some_inj] at hb
  subst hb
  refine ⟨by simpa only [Rmq.Le, if_false, Bool.false_eq_true] using h5.opt q hq1 hq2, fun hq => ?_⟩
  have := h5.first q hq1 hq
  simp only [Rmq.Le, if_false, Bool.false_eq_true] at this
  omega

/-- C46, defect: for two elements in the "wrong" order no table exists, but the constructor writes `m_table[0][0]` (undefined behaviour). -/
theorem C46_two_elements (a b : Int) : (a > b → Rmq.new true [a, b] = none) ∧ (a < b → Rmq.new false [a, b] = none) := by
  constructor
  · intro h
    have : Rmq.cmp true a b = false := by simp [Rmq.cmp]; omega
    simp [Rmq.new, Rmq.kLoop, Rmq.row0, this, Rmq.tset]
  · intro h
    have : Rmq.cmp false a b = false := by simp [Rmq.cmp]; omega
    simp [Rmq.new, Rmq.kLoop, Rmq.row0, this, Rmq.tset]

/-- Ties and negative numbers. -/
example : (Rmq.new true [3, -1, 4, -1, 5, 9, 2, 6, -1, 3]).bind (fun T =>
    [(0, 9), (2, 9), (4, 7), (4, 5), (3, 8), (5, 9)].mapM fun q => Rmq.query true [3, -1, 4, -1, 5, 9, 2, 6, -1, 3] T q.1 q.2) = some [1, 3, 6, 4, 3, 8] := by
  decide +kernel

example : (Rmq.new false [3, -1, 4, -1, 5, 9, 2, 9, -1, 3]).bind (fun T =>
    [(0, 9), (0, 4), (6, 9), (1, 1)].mapM fun q => Rmq.query false [3, -1, 4, -1, 5, 9, 2, 9, -1, 3] T q.1 q.2) = some [5, 4, 7, 1] := by decide +kernel

end Sdsl.Props
