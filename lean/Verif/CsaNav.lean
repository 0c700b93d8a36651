/-
  Navigation and searching on a `csa_wt`: `lf`, `psi`, the first column, backward search.
-/
import Verif.CsaLemmas

namespace Sdsl.Csa

/-- Everything a `csa_wt` over the text `T` with the suffix array `SA` relies on. -/
structure CsaOk (W : Wt) (A : Alpha) (T SA : List Nat) (Q : Nat → Prop) : Prop where
  text : IsText T
  sa : IsSA T SA
  alpha : AlphaOk A (bwtOf T SA) Q
  wt : WtOk W (bwtOf T SA) Q
  len : T.length < 2 ^ 64

theorem add64_eq {a b : Nat} (h : a + b < 2 ^ 64) : add64 a b = a + b := Nat.mod_eq_of_lt h

theorem sub64_eq {a b : Nat} (h : b ≤ a) (ha : a < 2 ^ 64) : sub64 a b = a - b := by
  rw [sub64, show a + 2 ^ 64 - b = (a - b) + 2 ^ 64 by omega, Nat.add_mod_right, Nat.mod_eq_of_lt (by omega)]

theorem add_sub64 {a : Nat} (ha : a < 2 ^ 64) : add64 (sub64 a 1) 1 = a := by
  rcases Nat.eq_zero_or_pos a with h | h
  · subst h; decide
  · rw [sub64_eq h ha, add64_eq (by omega)]; omega

theorem count_take_succ {L : List Nat} {i : Nat} (hi : i < L.length) (c : Nat) : (L.take (i + 1)).count c = (L.take i).count c + if sym L i = c then 1 else 0 := by
  rw [List.take_succ_eq_append_getElem hi, List.count_append, sym_lt hi, List.count_singleton]
  by_cases e : L[i] = c <;> simp [e]

theorem count_take_mono (L : List Nat) {i j : Nat} (h : i ≤ j) (c : Nat) : (L.take i).count c ≤ (L.take j).count c := by
  apply List.Sublist.count_le
  exact (List.take_prefix_take_left h).sublist

/-- The numbers of occurrences counted at the occurrences themselves. -/
theorem count_image {L : List Nat} (c lo : Nat) : ∀ hi, lo ≤ hi → hi ≤ L.length → ∀ m,
    ((L.take lo).count c ≤ m ∧ m < (L.take hi).count c ↔ ∃ i, lo ≤ i ∧ i < hi ∧ sym L i = c ∧ (L.take i).count c = m) := by
  intro hi
  induction hi with
  | zero =>
    intro h1 h2 m
    have : lo = 0 := by omega
    subst this
    simp
  | succ hi ih =>
    intro h1 h2 m
    rcases Nat.eq_or_lt_of_le h1 with h3 | h3
    · subst h3
      constructor
      · intro h; omega
      · rintro ⟨i, h4, h5, _⟩; omega
    · have h4 := count_take_succ (L := L) (i := hi) (by omega) c
      have h5 := ih (by omega) (by omega) m
      have h6 := count_take_mono L (show lo ≤ hi by omega) c
      by_cases e : sym L hi = c
      · rw [if_pos e] at h4
        constructor
        · rintro ⟨h7, h8⟩
          rcases Nat.lt_or_ge m ((L.take hi).count c) with h9 | h9
          · obtain ⟨i, g1, g2, g3⟩ := h5.1 ⟨h7, h9⟩
            exact ⟨i, g1, by omega, g3⟩
          · exact ⟨hi, by omega, by omega, e, by omega⟩
        · rintro ⟨i, g1, g2, g3, g4⟩
          rcases Nat.lt_or_ge i hi with g5 | g5
          · have := h5.2 ⟨i, g1, g5, g3, g4⟩
            omega
          · have : i = hi := by omega
            subst this
            omega
      · rw [if_neg e] at h4
        rw [h4, Nat.add_zero, h5]
        constructor
        · rintro ⟨i, g1, g2, g3⟩; exact ⟨i, g1, by omega, g3⟩
        · rintro ⟨i, g1, g2, g3, g4⟩
          refine ⟨i, g1, ?_, g3, g4⟩
          rcases Nat.lt_or_ge i hi with g5 | g5
          · exact g5
          · exact absurd (by rw [← g3, show i = hi by omega]) e

theorem bwt_smaller {T SA : List Nat} (h : IsSA T SA) (c : Nat) : smaller (bwtOf T SA) c = smaller T c := h.bwt_perm.countP_eq _

theorem bwt_count {T SA : List Nat} (h : IsSA T SA) (c : Nat) : (bwtOf T SA).count c = T.count c := h.bwt_perm.count_eq _

theorem sym_mem {L : List Nat} {i : Nat} (h : i < L.length) : sym L i ∈ L := by rw [sym_lt h]; exact List.getElem_mem h

namespace CsaOk

variable {W : Wt} {A : Alpha} {T SA : List Nat} {Q : Nat → Prop}

theorem size (h : CsaOk W A T SA Q) : W.size = T.length := by rw [h.wt.size, h.sa.bwt_length]

/-- `lf`. -/
theorem lf_spec (h : CsaOk W A T SA Q) {i : Nat} (hi : i < T.length) :
    ∃ j, lf W A i = some j ∧ j = smaller T (sym (bwtOf T SA) i) + ((bwtOf T SA).take i).count (sym (bwtOf T SA) i) ∧ j < T.length ∧ sym SA j = prv T.length (sym SA i) := by
  have hi' : i < (bwtOf T SA).length := by rw [h.sa.bwt_length]; exact hi
  obtain ⟨h1, h2⟩ := IsSA.lf h.text h.sa hi _ rfl
  obtain ⟨k, g1, g2, g3, g4, g5, g6⟩ := h.alpha.present (sym_mem hi')
  have hlen := h.len
  refine ⟨_, ?_, rfl, h1, h2⟩
  rw [lf, h.wt.inverse i hi', sbind]
  dsimp only
  rw [g1, sbind, g4, sbind, bwt_smaller h.sa, add64_eq (by omega)]
  rfl

/-- Every row is reached by `lf` from exactly one row. -/
theorem exists_pred (h : CsaOk W A T SA Q) {j : Nat} (hj : j < T.length) : ∃ i, i < T.length ∧ lf W A i = some j ∧ sym SA i = nxt T.length (sym SA j) ∧
    sym (bwtOf T SA) i = sym T (sym SA j) ∧ j = smaller T (sym T (sym SA j)) + ((bwtOf T SA).take i).count (sym T (sym SA j)) := by
  have hp := h.sa.sym_get_lt hj
  obtain ⟨i, hi, hip⟩ := h.sa.surj (nxt_lt (n := T.length) (p := sym SA j) (by omega))
  obtain ⟨j', h1, h2, h3, h4⟩ := h.lf_spec hi
  rw [hip, prv_nxt hp] at h4
  have h5 := h.sa.inj h3 hj h4
  subst h5
  have h6 : sym (bwtOf T SA) i = sym T (sym SA j') := by rw [h.sa.bwt_sym hi, hip, prv_nxt hp]
  rw [h6] at h2
  exact ⟨i, hi, h1, hip, h6, h2⟩

theorem row_bounds (h : CsaOk W A T SA Q) {j : Nat} (hj : j < T.length) : smaller T (sym T (sym SA j)) ≤ j ∧ j < smaller T (sym T (sym SA j)) + T.count (sym T (sym SA j)) := by
  obtain ⟨i, h1, h2, h3, h4, h5⟩ := h.exists_pred hj
  have h6 := count_take_succ (L := bwtOf T SA) (i := i) (by rw [h.sa.bwt_length]; exact h1) (sym T (sym SA j))
  rw [if_pos h4] at h6
  have h7 := count_take_mono (bwtOf T SA) (show i + 1 ≤ (bwtOf T SA).length by rw [h.sa.bwt_length]; omega) (sym T (sym SA j))
  rw [List.take_length, bwt_count h.sa] at h7
  omega

/-- `first_row_symbol`. -/
theorem firstRow_spec (h : CsaOk W A T SA Q) {i : Nat} (hi : i < T.length) : firstRow A i = some (sym T (sym SA i)) := by
  obtain ⟨c, h1, h2, h3, h4⟩ := h.alpha.firstRow_spec (i := i) (by rw [h.sa.bwt_length]; exact hi)
  rw [bwt_smaller h.sa] at h3 h4
  rw [bwt_count h.sa] at h4
  obtain ⟨h5, h6⟩ := h.row_bounds hi
  rw [h2, row_unique h3 h4 h5 h6]

/-- `psi`. -/
theorem psi_spec (h : CsaOk W A T SA Q) {i : Nat} (hi : i < T.length) : ∃ j, psi W A i = some j ∧ j < T.length ∧ sym SA j = nxt T.length (sym SA i) ∧ lf W A j = some i := by
  obtain ⟨j, h1, h2, h3, h4, h5⟩ := h.exists_pred hi
  have hp := h.sa.sym_get_lt hi
  have hc : sym T (sym SA i) ∈ bwtOf T SA := h.sa.bwt_perm.mem_iff.2 (sym_mem hp)
  obtain ⟨k, g1, g2, g3, g4, g5, g6⟩ := h.alpha.present hc
  have hlen := h.len
  refine ⟨j, ?_, h1, h3, h2⟩
  rw [psi, h.firstRow_spec hi, sbind, g1, sbind, g4, sbind, bwt_smaller h.sa, sub64_eq (by omega) (by omega), add64_eq (by omega)]
  have h6 := h.wt.select j (by rw [h.sa.bwt_length]; exact h1)
  rw [h4] at h6
  rw [← h6]
  congr 1
  omega

/-! ### backward search -/

/-- One step of the search; intervals of rows are half open here. -/
theorem backStep_spec (h : CsaOk W A T SA Q) {lo hi c : Nat} (h1 : lo ≤ hi) (h2 : hi ≤ T.length) (hc : Q c) :
    ∃ lo' hi', backStep W A lo (sub64 hi 1) c = some (lo', sub64 hi' 1) ∧ lo' ≤ hi' ∧ hi' ≤ T.length ∧
      ∀ j, j < T.length → (lo' ≤ j ∧ j < hi' ↔ sym T (sym SA j) = c ∧ ∃ i, lo ≤ i ∧ i < hi ∧ sym SA i = nxt T.length (sym SA j)) := by
  have hlen := h.len
  have hbl := h.sa.bwt_length
  have hpos := h.text.pos
  rw [backStep]
  by_cases hm : c ∈ bwtOf T SA
  · obtain ⟨k, g1, g2, g3, g4, g5, g6⟩ := h.alpha.present hm
    rw [g1, sbind]
    have hcond : ¬ (k = 0 ∧ 0 < c) := by
      rintro ⟨hk, h0⟩
      have h7 : (0 : Nat) ∈ bwtOf T SA := by
        rw [h.sa.bwt_perm.mem_iff, ← h.text.last]
        exact sym_mem (by omega)
      have := g6 hk 0 h7
      omega
    rw [if_neg hcond, g4, sbind, bwt_smaller h.sa]
    rw [bwt_smaller h.sa, bwt_count h.sa] at g5
    have hle := smaller_add_count_le_length T c
    -- the two branches compute the same interval
    have hstep : (if lo = 0 ∧ add64 (sub64 hi 1) 1 = W.size then (do
        let e ← A.C (k + 1)
        pure (smaller T c, sub64 e 1))
      else (do
        let x ← rankBwt W lo c
        let y ← rankBwt W (add64 (sub64 hi 1) 1) c
        pure (add64 (smaller T c) x, sub64 (add64 (smaller T c) y) 1)) : Option (Nat × Nat)) =
        some (smaller T c + ((bwtOf T SA).take lo).count c, sub64 (smaller T c + ((bwtOf T SA).take hi).count c) 1) := by
      have hb1 := count_take_mono (bwtOf T SA) (show lo ≤ (bwtOf T SA).length by omega) c
      have hb2 := count_take_mono (bwtOf T SA) (show hi ≤ (bwtOf T SA).length by omega) c
      rw [List.take_length, bwt_count h.sa] at hb1 hb2
      rw [add_sub64 (by omega), h.size]
      by_cases hf : lo = 0 ∧ hi = T.length
      · rw [if_pos hf, g5, sbind, hf.1, hf.2, ← hbl, List.take_length, bwt_count h.sa]
        simp
      · rw [if_neg hf, rankBwt, h.wt.rank lo c (by omega) hc, sbind, rankBwt, h.wt.rank hi c (by omega) hc, sbind, add64_eq (by omega), add64_eq (by omega)]
        rfl
    rw [hstep]
    refine ⟨_, _, rfl, ?_, ?_, ?_⟩
    · have := count_take_mono (bwtOf T SA) h1 c
      omega
    · have := count_take_mono (bwtOf T SA) (show hi ≤ (bwtOf T SA).length by omega) c
      rw [List.take_length, bwt_count h.sa] at this
      omega
    · intro j hj
      have him := count_image (L := bwtOf T SA) c lo hi h1 (by omega) (j - smaller T c)
      constructor
      · rintro ⟨h3, h4⟩
        obtain ⟨i, e1, e2, e3, e4⟩ := him.1 (by omega)
        obtain ⟨h5, h6⟩ := IsSA.lf h.text h.sa (i := i) (by omega) c e3.symm
        rw [e4, show smaller T c + (j - smaller T c) = j by omega] at h6
        have hpi := h.sa.sym_get_lt (i := i) (by omega)
        refine ⟨?_, i, e1, e2, by rw [h6, nxt_prv hpi]⟩
        rw [h6, ← h.sa.bwt_sym (by omega)]
        exact e3
      · rintro ⟨h3, i, e1, e2, e3⟩
        obtain ⟨i', f1, f2, f3, f4, f5⟩ := h.exists_pred hj
        have : i = i' := h.sa.inj (by omega) f1 (by rw [e3, f3])
        subst this
        rw [h3] at f4 f5
        have := him.2 ⟨i, e1, e2, f4, by omega⟩
        omega
  · rw [h.alpha.absent c hc hm, sbind]
    have h0 : 0 < c := by
      rcases Nat.eq_zero_or_pos c with h0 | h0
      · exfalso
        apply hm
        rw [h0, h.sa.bwt_perm.mem_iff, ← h.text.last]
        exact sym_mem (by omega)
      · exact h0
    rw [if_pos ⟨rfl, h0⟩]
    refine ⟨1, 1, rfl, Nat.le_refl _, hpos, ?_⟩
    intro j hj
    constructor
    · omega
    · rintro ⟨h3, _⟩
      exfalso
      apply hm
      rw [h.sa.bwt_perm.mem_iff, ← h3]
      exact sym_mem (h.sa.sym_get_lt hj)

end CsaOk

/-- Position `p` of the text, read as a cycle, starts with `P`. -/
def CMatch (T : List Nat) : Nat → List Nat → Prop
  | _, [] => True
  | p, c :: P => sym T p = c ∧ CMatch T (nxt T.length p) P

namespace CsaOk

variable {W : Wt} {A : Alpha} {T SA : List Nat} {Q : Nat → Prop}

theorem backLoop_spec (h : CsaOk W A T SA Q) : ∀ (P S : List Nat) (lo hi : Nat), (∀ c ∈ P, Q c) → lo ≤ hi → hi ≤ T.length →
    (∀ i, i < T.length → (lo ≤ i ∧ i < hi ↔ CMatch T (sym SA i) S)) →
    ∃ lo' hi', backLoop W A P lo (sub64 hi 1) = some (lo', sub64 hi' 1) ∧ lo' ≤ hi' ∧ hi' ≤ T.length ∧
      ∀ i, i < T.length → (lo' ≤ i ∧ i < hi' ↔ CMatch T (sym SA i) (P.reverse ++ S)) := by
  intro P
  induction P with
  | nil => intro S lo hi _ h1 h2 h3; exact ⟨lo, hi, rfl, h1, h2, by simpa using h3⟩
  | cons c P ih =>
    intro S lo hi hQ h1 h2 h3
    have hlen := h.len
    rw [backLoop, add_sub64 (by omega), sub64_eq h1 (by omega)]
    by_cases he : 0 < hi - lo
    · rw [if_pos he]
      obtain ⟨lo', hi', g1, g2, g3, g4⟩ := h.backStep_spec h1 h2 (hQ c List.mem_cons_self)
      rw [g1, sbind]
      dsimp only
      obtain ⟨lo2, hi2, f1, f2, f3, f4⟩ := ih (c :: S) lo' hi' (fun d hd => hQ d (List.mem_cons_of_mem _ hd)) g2 g3 (by
        intro j hj
        rw [g4 j hj, CMatch]
        have hp := h.sa.sym_get_lt hj
        constructor
        · rintro ⟨e1, i, e2, e3, e4⟩
          refine ⟨e1, ?_⟩
          rw [← e4]
          exact (h3 i (by omega)).1 ⟨e2, e3⟩
        · rintro ⟨e1, e2⟩
          obtain ⟨i, hi1, hi2⟩ := h.sa.surj (nxt_lt (n := T.length) (p := sym SA j) (by omega))
          rw [← hi2] at e2
          have := (h3 i hi1).2 e2
          exact ⟨e1, i, this.1, this.2, hi2⟩)
      refine ⟨lo2, hi2, f1, f2, f3, ?_⟩
      intro i hi
      rw [f4 i hi, List.reverse_cons, List.append_assoc]
      rfl
    · rw [if_neg he]
      refine ⟨lo, hi, rfl, h1, h2, ?_⟩
      intro i hi1
      constructor
      · intro h4; omega
      · intro h4
        exfalso
        -- an empty interval: no row matches the part that was searched
        have : ∀ (R : List Nat) (p : Nat), p < T.length → CMatch T p (R ++ S) → ∃ q, q < T.length ∧ CMatch T q S := by
          intro R
          induction R with
          | nil => intro p hp hm; exact ⟨p, hp, hm⟩
          | cons a R ihR => intro p hp hm; exact ihR _ (nxt_lt (by omega)) hm.2
        obtain ⟨q, hq1, hq2⟩ := this _ _ (h.sa.sym_get_lt hi1) h4
        obtain ⟨i', e1, e2⟩ := h.sa.surj hq1
        rw [← e2] at hq2
        have := (h3 i' e1).2 hq2
        omega

/-- `backward_search` for a pattern. -/
theorem backwardSearch_spec (h : CsaOk W A T SA Q) {P S : List Nat} {lo hi : Nat} (hQ : ∀ c ∈ P, Q c) (h1 : lo ≤ hi) (h2 : hi ≤ T.length)
    (h3 : ∀ i, i < T.length → (lo ≤ i ∧ i < hi ↔ CMatch T (sym SA i) S)) :
    ∃ lo' hi', backwardSearch W A lo (sub64 hi 1) P = some (lo', sub64 hi' 1, hi' - lo') ∧ lo' ≤ hi' ∧ hi' ≤ T.length ∧
      ∀ i, i < T.length → (lo' ≤ i ∧ i < hi' ↔ CMatch T (sym SA i) (P ++ S)) := by
  obtain ⟨lo', hi', g1, g2, g3, g4⟩ := h.backLoop_spec P.reverse S lo hi (fun c hc => hQ c (List.mem_reverse.1 hc)) h1 h2 h3
  have hlen := h.len
  rw [List.reverse_reverse] at g4
  refine ⟨lo', hi', ?_, g2, g3, g4⟩
  rw [backwardSearch, g1, sbind]
  dsimp only
  rw [add_sub64 (by omega), sub64_eq g2 (by omega)]
  rfl

end CsaOk

end Sdsl.Csa
