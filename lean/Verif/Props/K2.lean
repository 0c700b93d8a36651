/-
  C76, C77: the k²-tree `k2_tree`.
-/
import Verif.K2Matrix
import Verif.K2Edges

namespace Sdsl.Props

open Spec Csa K2

/-- The tree `t` answers all queries for the `s × s` matrix with the ones `R`: `adj`, `neigh`, `reverse_neigh` (the neighbours in increasing order). -/
structure K2Answers (t : K2.Obj) (s : Nat) (R : Nat → Nat → Prop) : Prop where
  adj : ∀ i j, i < s → j < s → ∃ b, K2.adj t i j = some b ∧ (b = true ↔ R i j)
  neigh : ∀ i, i < s → ∃ l, K2.neigh t i = some l ∧ l.Pairwise (· < ·) ∧ ∀ j, j ∈ l ↔ j < s ∧ R i j
  reverseNeigh : ∀ j, j < s → ∃ l, K2.reverseNeigh t j = some l ∧ l.Pairwise (· < ·) ∧ ∀ i, i ∈ l ↔ i < s ∧ R i j

/-- `range(row1, row2, col1, col2)` ends and returns every one of the rectangle exactly once. -/
def K2Range (t : K2.Obj) (s : Nat) (R : Nat → Nat → Prop) : Prop :=
  ∀ row1 row2 col1 col2, row2 < s → col2 < s → ∃ l g, (∀ f, g ≤ f → K2.range t f row1 row2 col1 col2 = some l) ∧ l.Nodup ∧
    ∀ r c, (r, c) ∈ l ↔ R r c ∧ row1 ≤ r ∧ r ≤ row2 ∧ col1 ≤ c ∧ c ≤ col2

theorem shape_answers {E : Nat → Nat → Bool} {k h : Nat} {I F : List K2.Nd} {t : K2.Obj} (hs : K2.Shape E k h I F t.T t.L) (hk : t.k = k) (hk2 : 2 ≤ k) (hk255 : k ≤ 255) (hb : t.T.length + t.L.length ≤ 2 ^ 53)
    (hh : t.height = h) (h1 : 1 ≤ h) (hsz : k ^ h ≤ 2 ^ 53) {R : Nat → Nat → Prop} (hR : ∀ i j, E i j = true ↔ R i j) : K2Answers t (k ^ h) R ∧ K2Range t (k ^ h) R := by
  refine ⟨⟨fun i j hi hj => ⟨E i j, adj_ok hs hk hk2 hk255 hh h1 hsz hi hj, hR i j⟩, fun i hi => ⟨_, (neigh_ok hs hk hk2 hb hh h1 hsz hi).1, List.Pairwise.filter _ List.pairwise_lt_range, fun j => ?_⟩,
    fun j hj => ⟨_, (neigh_ok hs hk hk2 hb hh h1 hsz hj).2, List.Pairwise.filter _ List.pairwise_lt_range, fun i => ?_⟩⟩, fun row1 row2 col1 col2 h2 h4 => ?_⟩
  · rw [List.mem_filter, List.mem_range, hR]
  · rw [List.mem_filter, List.mem_range, hR]
  · obtain ⟨l, g, l1, l2, l3⟩ := range_ok hs hk hk2 hb hh h1 hsz (row1 := row1) (col1 := col1) h2 h4
    exact ⟨l, g, l1, l2, fun r c => by rw [l3, hR]⟩

/-- **C76.** The k²-tree built from a list of edges (with or without repetitions, in any order) answers `adj`, `neigh`, `reverse_neigh` and `range` for the graph with these edges. `lg` is the height that
the constructor computes with logarithms; the only thing needed of it is that the square of side `k^max(lg,1)` contains all edges. The main loop ends after at most `h·|edges|` iterations, all writes are inside the
bit vectors that the constructor reserves. -/
theorem C76_k2_tree_edges (k lg fuel : Nat) (es : List (Nat × Nat)) (h : Nat) (hh : h = max lg 1) (hk2 : 2 ≤ k) (hk255 : k ≤ 255) (hne : es ≠ []) (hes : ∀ p ∈ es, p.1 < k ^ h ∧ p.2 < k ^ h) (hs : k ^ h ≤ 2 ^ 53)
    (hbits : k * k * (h * es.length) ≤ 2 ^ 53) (hfuel : h * es.length + 1 ≤ fuel) :
    ∃ t, K2.newEdges k lg fuel es = some t ∧ K2Answers t (k ^ h) (fun i j => (i, j) ∈ es) ∧ K2Range t (k ^ h) (fun i j => (i, j) ∈ es) := by
  have hh' : h = if lg > 1 then lg else 1 := by rw [hh]; split <;> omega
  obtain ⟨t, t1, t2, t3, ⟨I, F, t4⟩, t5⟩ := newEdges_ok hk2 hk255 hh' hs hne hes hfuel
  exact ⟨t, t1, shape_answers t4 t2 hk2 hk255 (by omega) t3 (by omega) hs (fun i j => by simp [ofEdges])⟩

/-- A graph with 7 nodes; one edge is repeated. -/
def exEs : List (Nat × Nat) := [(6, 1), (0, 3), (5, 5), (0, 3), (2, 6), (0, 0), (4, 3), (5, 0), (6, 6)]

example : exEs ≠ [] ∧ (∀ p ∈ exEs, p.1 < 2 ^ 3 ∧ p.2 < 2 ^ 3) ∧ 2 * 2 * (3 * exEs.length) ≤ 2 ^ 53 := by decide
example : (K2.newEdges 2 3 28 exEs).bind (fun t => K2.neigh t 5) = some [0, 5] := by decide +kernel
example : (K2.newEdges 2 3 28 exEs).bind (fun t => K2.reverseNeigh t 3) = some [0, 4] := by decide +kernel
example : (K2.newEdges 2 3 28 exEs).bind (fun t => K2.adj t 2 6) = some true := by decide +kernel
example : (K2.newEdges 2 3 28 exEs).bind (fun t => K2.range t 100 4 6 1 5) = some [(5, 5), (6, 1), (4, 3)] := by decide +kernel

/-- The ones of a matrix. -/
def K2One (M : List (List Int)) (i j : Nat) : Prop := ∃ row, M[i]? = some row ∧ row[j]? = some 1

theorem ofMat_iff (M : List (List Int)) (i j : Nat) : K2.ofMat M i j = true ↔ K2One M i j := by
  rw [K2.ofMat, K2One]
  cases M[i]? with
  | none => simp
  | some row => simp

theorem empty_answers {t : K2.Obj} (hT : t.T = []) (hL : t.L = []) {s : Nat} {R : Nat → Nat → Prop} (hR : ∀ i j, i < s → j < s → ¬ R i j) : K2Answers t s R := by
  have h1 : t.T.length = 0 := by rw [hT]; rfl
  have h2 : t.L.length = 0 := by rw [hL]; rfl
  refine ⟨fun i j hi hj => ⟨false, by rw [K2.adj, if_pos ⟨h1, h2⟩], ?_⟩, fun i hi => ⟨[], by rw [K2.neigh, if_pos ⟨h2, h1⟩], .nil, fun j => ?_⟩, fun j hj => ⟨[], by rw [K2.reverseNeigh, if_pos ⟨h2, h1⟩], .nil, fun i => ?_⟩⟩
  · have := hR i j hi hj
    simp [this]
  · simpa using fun hj => hR i j hi hj
  · simpa using fun hi => hR i j hi hj

/-- **C77 (partial).** The k²-tree built from a square matrix answers `adj`, `neigh` and `reverse_neigh` for the matrix, and `range` if the matrix contains a one. Missing: `range` for a matrix without ones, where it
is false (`C77_range_zero_matrix`). The construction succeeds unless the tree has 2^31 bits or more (`C77_matrix_total`). -/
theorem C77_k2_tree_matrix_partial (k lg : Nat) (M : List (List Int)) (h : Nat) (hh : h = if M.length < k then 1 else lg) (h1 : 1 ≤ h) (hk2 : 2 ≤ k) (hk255 : k ≤ 255) (hM : ∀ row ∈ M, row.length = M.length)
    (hM1 : 1 ≤ M.length) (hMs : M.length ≤ k ^ h) (hs : k ^ h < 2 ^ 31) (t : K2.Obj) (ht : K2.newMatrix k lg M = some t) :
    K2Answers t (k ^ h) (K2One M) ∧ ((∃ i j, K2One M i j) → K2Range t (k ^ h) (K2One M)) := by
  obtain ⟨T, L, r1, _, r3⟩ := newMatrix_eq hM hM1 hk2 hh h1 hs
  rw [ht] at r1
  split at r1
  · cases r1
  rename_i hlen
  cases r1
  have hin : ∀ i j, K2One M i j → i < k ^ h ∧ j < k ^ h := by
    rintro i j ⟨row, a1, a2⟩
    have b1 := (List.getElem?_eq_some_iff.1 a1).1
    have b2 := (List.getElem?_eq_some_iff.1 a2).1
    rw [hM row (List.mem_of_getElem? a1)] at b2
    omega
  cases hhas : has (ofMat M) 0 0 (k ^ h) with
  | true =>
    rw [if_pos hhas] at r3
    obtain ⟨I, F, r3⟩ := r3
    have := shape_answers (t := ⟨T, L, k, h⟩) r3 rfl hk2 hk255 (by dsimp only; omega) rfl h1 (by omega) (ofMat_iff M)
    exact ⟨this.1, fun _ => this.2⟩
  | false =>
    rw [hhas, if_neg (by simp)] at r3
    have hz : ∀ i j, i < k ^ h → j < k ^ h → ¬ K2One M i j := by
      intro i j hi hj hR
      have := has_false hhas (i := i) (j := j) (by omega) (by omega) (by omega) (by omega)
      rw [← ofMat_iff, this] at hR
      cases hR
    refine ⟨empty_answers r3.1 r3.2 hz, ?_⟩
    rintro ⟨i, j, hij⟩
    obtain ⟨a, b⟩ := hin i j hij
    exact absurd hij (hz i j a b)

/-- **C77.** The construction succeeds if `k^(2h) < 2^31`. -/
theorem C77_matrix_total (k lg : Nat) (M : List (List Int)) (h : Nat) (hh : h = if M.length < k then 1 else lg) (h1 : 1 ≤ h) (hk2 : 2 ≤ k) (hM : ∀ row ∈ M, row.length = M.length)
    (hM1 : 1 ≤ M.length) (hs : (k * k) ^ h < 2 ^ 31) : ∃ t, K2.newMatrix k lg M = some t := by
  have hs' : k ^ h < 2 ^ 31 := by
    have : k ^ h ≤ (k * k) ^ h := Nat.pow_le_pow_left (Nat.le_mul_of_pos_left k (by omega)) h
    omega
  obtain ⟨T, L, r1, r2, _⟩ := newMatrix_eq hM hM1 hk2 hh h1 hs'
  exact ⟨_, by rw [r1, if_neg (by omega)]⟩

/-- **C77, finding.** `range` of the tree of a matrix without ones reads `k_l`, which is empty, for every non-empty rectangle (`adj`, `neigh` and `reverse_neigh` have a test for this case). -/
theorem C77_range_zero_matrix (k lg : Nat) (M : List (List Int)) (h : Nat) (hh : h = if M.length < k then 1 else lg) (h1 : 1 ≤ h) (hk2 : 2 ≤ k) (hM : ∀ row ∈ M, row.length = M.length)
    (hM1 : 1 ≤ M.length) (hs : k ^ h < 2 ^ 31) (hzero : ∀ i j, ¬ K2One M i j) (t : K2.Obj) (ht : K2.newMatrix k lg M = some t) (f row1 row2 col1 col2 : Nat) (hr : row1 ≤ row2) (hc : col1 ≤ col2) (hr2 : row2 < k ^ h)
    (hc2 : col2 < k ^ h) :
    K2.range t f row1 row2 col1 col2 = none := by
  obtain ⟨T, L, r1, _, r3⟩ := newMatrix_eq hM hM1 hk2 hh h1 hs
  rw [ht] at r1
  split at r1
  · cases r1
  cases r1
  have hhas : has (ofMat M) 0 0 (k ^ h) = false := by
    rw [Bool.eq_false_iff]
    intro g
    obtain ⟨a, b, _, _, g⟩ := has_iff.1 g
    exact hzero _ _ ((ofMat_iff M _ _).1 g)
  rw [hhas, if_neg (by simp)] at r3
  obtain ⟨rfl, rfl⟩ := r3
  rw [K2.range]
  dsimp only
  rw [fpow_eq (by omega), sbind]
  cases f with
  | zero => rfl
  | succ f =>
    obtain ⟨s, hsd⟩ : ∃ s : State, s = ⟨k ^ h / k, row1, row2, col1, col2, 0, 0, maxIdx⟩ := ⟨_, rfl⟩
    have hr0 : Bv.rank true ([] : List Bool) (add64 s.z 1) = some 0 := by
      rw [show s.z = maxIdx by rw [hsd]]
      decide
    rw [← hsd, rangeLoop, if_neg (by rw [hsd]; simp), if_pos (by rw [hsd]), sbind]
    dsimp only
    rw [if_neg (by simp), hr0, sbind]
    split
    · rfl
    cases f with
    | zero => rfl
    | succ f =>
      have he : h - 1 + 1 = h := by omega
      have hq : k ^ h / k = k ^ (h - 1) := by
        conv_lhs => rw [← he, Nat.pow_succ, Nat.mul_div_cancel _ (by omega)]
      have hk31 : k ≤ k ^ h := by
        have := Nat.pow_le_pow_right (show 0 < k by omega) h1
        rwa [Nat.pow_one] at this
      have hmem : ∀ c ∈ children k (0 * k * k) s, c.z ≠ maxIdx := by
        intro c hc
        simp only [children, List.mem_flatMap, List.mem_map] at hc
        obtain ⟨i, hi, j, hj, rfl⟩ := hc
        rw [mem_loopRange] at hi hj
        have d1 := div_lt_k (k := k) (e := h - 1) (i := row2) (by rw [he]; exact hr2)
        have d2 := div_lt_k (k := k) (e := h - 1) (i := col2) (by rw [he]; exact hc2)
        rw [hsd] at hi hj
        dsimp only at hi hj
        rw [hq] at hi hj
        have c1 := (chunk_lt (k := k) (a := i) (b := j) (by omega) (by omega)).1
        have hkk := Nat.mul_le_mul (show k ≤ 2 ^ 31 by omega) (show k ≤ 2 ^ 31 by omega)
        dsimp only
        rw [maxIdx, Nat.zero_mul, Nat.zero_mul, Nat.zero_add]
        omega
      have hnil : children k (0 * k * k) s ≠ [] := by
        intro g
        simp only [children, List.flatMap_eq_nil_iff, List.map_eq_nil_iff] at g
        have a1 : s.row1 / s.n ∈ loopRange (s.row1 / s.n) (s.row2 / s.n) := mem_loopRange.2 ⟨Nat.le_refl _, by rw [hsd]; exact Nat.div_le_div_right hr⟩
        have a2 : s.col1 / s.n ∈ loopRange (s.col1 / s.n) (s.col2 / s.n) := mem_loopRange.2 ⟨Nat.le_refl _, by rw [hsd]; exact Nat.div_le_div_right hc⟩
        rw [g _ a1] at a2
        cases a2
      obtain ⟨c, cs, hcs⟩ : ∃ c cs, (children k (0 * k * k) s).reverse = c :: cs := by
        cases hrev : (children k (0 * k * k) s).reverse with
        | nil => exact absurd (List.reverse_eq_nil_iff.1 hrev) hnil
        | cons c cs => exact ⟨c, cs, rfl⟩
      have hc3 : c ∈ children k (0 * k * k) s := List.mem_reverse.1 (by rw [hcs]; simp)
      rw [hcs, List.cons_append, rangeLoop, if_pos ⟨hmem c hc3, Nat.zero_le _⟩]
      rfl

/-- A matrix of side 5. -/
def exM : List (List Int) := [[0, 1, 0, 0, 1], [0, 0, 0, 0, 0], [1, 0, 0, 0, 0], [0, 0, 0, 0, 0], [0, 0, 1, 0, 1]]

example : (∀ row ∈ exM, row.length = exM.length) ∧ exM.length ≤ 2 ^ 3 ∧ (2 * 2) ^ 3 < 2 ^ 31 ∧ K2One exM 4 2 := by
  refine ⟨by decide, by decide, by decide, _, rfl, rfl⟩
example : (K2.newMatrix 2 3 exM).bind (fun t => K2.neigh t 0) = some [1, 4] := by decide +kernel
example : (K2.newMatrix 2 3 exM).bind (fun t => K2.reverseNeigh t 4) = some [0, 4] := by decide +kernel
example : (K2.newMatrix 2 3 exM).bind (fun t => K2.range t 100 0 2 0 4) = some [(0, 4), (2, 0), (0, 1)] := by decide +kernel
/-- The finding for a concrete matrix. -/
example : (K2.newMatrix 2 1 [[0, 0], [0, 0]]).map (fun t => (K2.adj t 0 1, K2.range t 100 0 1 0 1)) = some (some false, none) := by decide +kernel

end Sdsl.Props
