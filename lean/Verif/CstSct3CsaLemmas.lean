/-
  Lemmas about child, edge, sl and wl of cst_sct3.
-/
import Verif.CstSct3Csa
import Verif.SufTree
import Verif.CsaNav
import Verif.CsaSample

namespace Sdsl.CstSct3

open Csa Props Spec SufTree

/-- What the tree needs from its CSA; `Q` are the symbols that may be asked for. -/
structure CsaIOk (K : CsaI) (T SA : List Nat) (Q : Nat → Prop) : Prop where
  text : IsText T
  isa' : IsSA T SA
  alpha : AlphaOk K.alpha (bwtOf T SA) Q
  psi : ∀ i, i < T.length → ∃ j, K.psi i = some j ∧ j < T.length ∧ sym SA j = nxt T.length (sym SA i)
  sa : ∀ i, i < T.length → K.sa i = some (sym SA i)
  isa : ∀ i, i < T.length → ∃ r, K.isa i = some r ∧ r < T.length ∧ sym SA r = i
  rank : ∀ i c, i ≤ T.length → Q c → K.rank i c = some (((bwtOf T SA).take i).count c)

theorem csaWtI_ok {W : Wt} {A : Alpha} {T SA : List Nat} {Q : Nat → Prop} (h : CsaOk W A T SA Q) {S : SaSample} (hS : SaSampleOk S T SA) {I : IsaSample} (hI : IsaSampleOk I T SA)
    (hn : T.length ≤ 2 ^ 63) {fuel dens : Nat} (hf : T.length ≤ fuel + 1) : CsaIOk (csaWtI W A S I fuel dens) T SA Q where
  text := h.text
  isa' := h.sa
  alpha := h.alpha
  psi := fun i hi => by
    obtain ⟨j, j1, j2, j3, _⟩ := h.psi_spec hi
    exact ⟨j, j1, j2, j3⟩
  sa := fun i hi => saGet_spec h hS hn hf hi
  isa := fun i hi => isaGet_spec h hI hi
  rank := fun i c hi hc => h.wt.rank i c (by rw [h.sa.bwt_length]; exact hi) hc

/-- The rows of a symbol. -/
theorem row_bounds {T SA : List Nat} (hT : IsText T) (hS : IsSA T SA) {j : Nat} (hj : j < T.length) : smaller T (sym T (sym SA j)) ≤ j ∧ j < smaller T (sym T (sym SA j)) + T.count (sym T (sym SA j)) := by
  have hp := hS.sym_get_lt hj
  obtain ⟨i, hi, hip⟩ := hS.surj (nxt_lt (n := T.length) (p := sym SA j) (by omega))
  have hb : sym (bwtOf T SA) i = sym T (sym SA j) := by rw [hS.bwt_sym hi, hip, prv_nxt hp]
  obtain ⟨h1, h2⟩ := IsSA.lf hT hS hi _ hb.symm
  rw [hip, prv_nxt hp] at h2
  have h3 := hS.inj h1 hj h2
  have h6 := count_take_succ (L := bwtOf T SA) (i := i) (by rw [hS.bwt_length]; exact hi) (sym T (sym SA j))
  rw [if_pos hb] at h6
  have h7 := count_take_mono (bwtOf T SA) (show i + 1 ≤ (bwtOf T SA).length by rw [hS.bwt_length]; omega) (sym T (sym SA j))
  rw [List.take_length, bwt_count hS] at h7
  omega

/-- The rows of the other symbols, seen from the bounds of a symbol `c`. -/
theorem row_cmp {T SA : List Nat} (hT : IsText T) (hS : IsSA T SA) {j : Nat} (hj : j < T.length) (c : Nat) : (j < smaller T c ↔ sym T (sym SA j) < c) ∧ (smaller T c + T.count c ≤ j ↔ c < sym T (sym SA j)) := by
  obtain ⟨h1, h2⟩ := row_bounds hT hS hj
  rcases Nat.lt_trichotomy (sym T (sym SA j)) c with h | h | h
  · have := smaller_add_count_le T h
    omega
  · rw [h] at h1 h2 ⊢
    omega
  · have := smaller_add_count_le T h
    omega

section
variable {K : CsaI} {T SA : List Nat} {Q : Nat → Prop} (h : CsaIOk K T SA Q)
include h

theorem psiIter_ok : ∀ (d idx : Nat), idx < T.length → sym SA idx + d < T.length → ∃ p, psiIter K d idx = some p ∧ p < T.length ∧ sym SA p = sym SA idx + d
  | 0, idx, h1, h2 => ⟨idx, rfl, h1, rfl⟩
  | d + 1, idx, h1, h2 => by
    obtain ⟨j, j1, j2, j3⟩ := h.psi idx h1
    rw [nxt_small (by omega)] at j3
    obtain ⟨p, p1, p2, p3⟩ := psiIter_ok d j j2 (by omega)
    exact ⟨p, by rw [psiIter, j1, sbind, p1], p2, by omega⟩

theorem getCharPos_ok {idx d : Nat} (h1 : idx < T.length) (h2 : sym SA idx + d < T.length) : ∃ p, getCharPos K idx d = some p ∧ p < T.length ∧ sym SA p = sym SA idx + d := by
  unfold getCharPos
  by_cases c : d = 0
  · rw [if_pos c]; exact ⟨idx, rfl, h1, by omega⟩
  · rw [if_neg c]
    by_cases c2 : K.dens > 2 * d + 2
    · rw [if_pos c2]; exact psiIter_ok h d idx h1 h2
    · rw [if_neg c2, h.sa idx h1, sbind]
      exact h.isa _ h2

theorem present {c : Nat} (hc : c ∈ T) : ∃ k, K.alpha.char2comp c = some k ∧ k < K.alpha.sigma ∧ K.alpha.comp2char k = some c ∧
    K.alpha.C k = some (smaller T c) ∧ K.alpha.C (k + 1) = some (smaller T c + T.count c) ∧ (k = 0 → c = 0) := by
  obtain ⟨k, k1, k2, k3, k4, k5, k6⟩ := h.alpha.present (h.isa'.bwt_perm.mem_iff.2 hc)
  rw [bwt_smaller h.isa'] at k4
  rw [bwt_smaller h.isa', bwt_count h.isa'] at k5
  refine ⟨k, k1, k2, k3, k4, k5, fun h0 => ?_⟩
  have h7 : (0 : Nat) ∈ bwtOf T SA := by
    rw [h.isa'.bwt_perm.mem_iff, ← h.text.last]
    exact sym_mem (by have := h.text.pos; omega)
  have := k6 h0 0 h7
  omega

theorem edgeSearch_ok {order : Nat} (ho : order < T.length) : ∀ (f b e : Nat), e < f + b → b ≤ e → e ≤ K.alpha.sigma + 1 → 1 ≤ b → (∃ x, K.alpha.C (b - 1) = some x ∧ x ≤ order) →
    (e ≤ K.alpha.sigma → ∃ y, K.alpha.C e = some y ∧ order < y) →
    ∃ r, Cst.edgeSearch K.alpha order f b e = some r ∧ 1 ≤ r ∧ r ≤ K.alpha.sigma ∧ (∃ x, K.alpha.C (r - 1) = some x ∧ x ≤ order) ∧ ∃ y, K.alpha.C r = some y ∧ order < y := by
  obtain ⟨ds, hd, hs, h1, h2⟩ := h.alpha.ex
  have hend : ((ds.take ds.length).map (fun c => (bwtOf T SA).count c)).sum = T.length := by rw [List.take_length, ← hd.length_eq, h.isa'.bwt_length]
  intro f
  induction f with
  | zero => intro b e h3 h4; omega
  | succ f ih =>
    intro b e h3 h4 h5 h6 h7 h8
    rw [Cst.edgeSearch]
    by_cases c : b < e
    · rw [if_pos c]
      obtain ⟨m, hm⟩ : ∃ m, m = (b + e) / 2 := ⟨_, rfl⟩
      rw [← hm, h2 m (by omega), sbind]
      by_cases c2 : ((ds.take m).map (fun c => (bwtOf T SA).count c)).sum ≤ order
      · rw [if_pos c2]
        refine ih (m + 1) e (by omega) (by omega) h5 (by omega) ⟨_, by rw [Nat.add_sub_cancel]; exact h2 m (by omega), c2⟩ h8
      · rw [if_neg c2]
        exact ih b m (by omega) (by omega) (by omega) h6 h7 (fun _ => ⟨_, h2 m (by omega), by omega⟩)
    · rw [if_neg c]
      have hbe : b = e := by omega
      subst hbe
      have hle : b ≤ K.alpha.sigma := by
        rcases Nat.lt_or_ge K.alpha.sigma b with d | d
        · exfalso
          obtain ⟨x, x1, x2⟩ := h7
          rw [show b - 1 = ds.length by omega, h2 _ (Nat.le_refl _), hend] at x1
          have := Option.some.inj x1
          omega
        · exact d
      exact ⟨b, rfl, h6, hle, h7, h8 hle⟩

/-- `edge` yields the symbol behind the offset. -/
theorem edge_ok {v : Node} {d : Nat} (h0 : 1 ≤ d) (h1 : v.i < T.length) (h2 : sym SA v.i + (d - 1) < T.length) : Cst.edge K v d = some (sym T (sym SA v.i + (d - 1))) := by
  obtain ⟨p, p1, p2, p3⟩ := getCharPos_ok h h1 h2
  have hne : bwtOf T SA ≠ [] := by
    intro e
    have := h.isa'.bwt_length
    rw [e, List.length_nil] at this
    omega
  have hsig := h.alpha.sigma_pos hne
  obtain ⟨ds, hd, hs, g1, g2⟩ := h.alpha.ex
  obtain ⟨r, r1, r2, r3, ⟨x, r4, r5⟩, y, r6, r7⟩ := edgeSearch_ok h p2 (K.alpha.sigma + 2) 1 (K.alpha.sigma + 1) (by omega) (by omega) (Nat.le_refl _) (Nat.le_refl _)
    ⟨0, by rw [g2 _ (by omega)]; rfl, by omega⟩ (by omega)
  rw [Cst.edge, sub_eq h0, sbind, p1, sbind, r1, sbind, sub_eq r2, sbind]
  have hr : r - 1 < ds.length := by omega
  have hmem : ds[r - 1] ∈ T := h.isa'.bwt_perm.mem_iff.1 ((hd.mem _).1 (List.getElem_mem hr))
  rw [(g1 (r - 1) hr).2]
  obtain ⟨k, k1, k2, k3, k4, k5, _⟩ := present h hmem
  rw [(g1 (r - 1) hr).1] at k1
  obtain rfl := Option.some.inj k1
  rw [r4] at k4
  rw [show r - 1 + 1 = r by omega, r6] at k5
  have e1 := Option.some.inj k4
  have e2 := Option.some.inj k5
  have := row_cmp h.text h.isa' p2 ds[r - 1]
  rw [p3] at this
  congr 1
  omega

end

/-! ### Zeros of the LCP array -/

theorem countTrue_filter (f : Nat → Bool) (n : Nat) : countTrue f n = ((List.range n).filter f).length := by
  induction n with
  | zero => rfl
  | succ n ih =>
    rw [countTrue, ih, List.range_succ, List.filter_append, List.length_append]
    cases h : f n <;> simp [h]

theorem sym_le {T SA : List Nat} (hS : IsSA T SA) {i j : Nat} (h : i ≤ j) (hj : j < T.length) : sym T (sym SA i) ≤ sym T (sym SA j) := by
  rcases Nat.eq_or_lt_of_le h with e | e
  · rw [e]
  · exact sym_le_of_drop (hS.sym_get_lt (by omega)) (hS.sym_get_lt hj) (hS.sorted e hj)

/-- The LCP value is 0 where a new first symbol starts. -/
theorem lcp_zero {T SA L : List Nat} (hT : IsText T) (hS : IsSA T SA) (hL : IsLcpArray T SA L) {k : Nat} (hk : k < T.length) : L.getD k 0 = 0 ↔ k = smaller T (sym T (sym SA k)) := by
  obtain ⟨h1, h2⟩ := row_bounds hT hS hk
  rcases Nat.eq_zero_or_pos k with h0 | h0
  · subst h0
    have := hL.2.1
    rw [List.getD_eq_getElem?_getD, this]
    exact ⟨fun _ => by omega, fun _ => rfl⟩
  · have h3 := (row_cmp hT hS (j := k - 1) (by omega) (sym T (sym SA k))).1
    have h4 := sym_le hS (i := k - 1) (j := k) (by omega) hk
    have h5 := lcp_at hL h0 hk
    have hp := hS.sym_get_lt hk
    have hq := hS.sym_get_lt (i := k - 1) (by omega)
    constructor
    · intro h6
      by_cases e : sym T (sym SA (k - 1)) = sym T (sym SA k)
      · have := h5.2 [sym T (sym SA k)] (by rw [suf, drop_cons hq, e]; simp) (by rw [suf, drop_cons hp]; simp)
        rw [h6] at this
        simp at this
      · omega
    · intro h6
      obtain ⟨⟨p, p1, p2, p3⟩, _⟩ := h5
      cases p with
      | nil => exact p3.symm
      | cons a p =>
        rw [suf, drop_cons hq, List.cons_prefix_cons] at p1
        rw [suf, drop_cons hp, List.cons_prefix_cons] at p2
        omega

theorem sigma_zeros {K : CsaI} {T SA L : List Nat} {Q : Nat → Prop} (h : CsaIOk K T SA Q) (hL : IsLcpArray T SA L) : K.alpha.sigma = countTrue (fun k => L.getD k 0 == 0) L.length := by
  obtain ⟨ds, hd, hs, _, _⟩ := h.alpha.ex
  have hmem : ∀ c, c ∈ ds ↔ c ∈ T := fun c => by rw [hd.mem, h.isa'.bwt_perm.mem_iff]
  have hrow : ∀ c, c ∈ T → smaller T c < T.length ∧ sym T (sym SA (smaller T c)) = c := by
    intro c hc
    have h1 := smaller_add_count_le_length T c
    have h2 := List.count_pos_iff.2 hc
    have h3 := row_cmp h.text h.isa' (j := smaller T c) (by omega) c
    exact ⟨by omega, by omega⟩
  rw [countTrue_filter, hs, hL.1, ← List.length_map (f := smaller T)]
  apply List.Perm.length_eq
  rw [List.perm_ext_iff_of_nodup]
  · intro k
    rw [List.mem_map, List.mem_filter, List.mem_range]
    constructor
    · rintro ⟨c, h1, rfl⟩
      obtain ⟨h2, h3⟩ := hrow c ((hmem c).1 h1)
      refine ⟨h2, ?_⟩
      rw [beq_iff_eq, lcp_zero h.text h.isa' hL h2, h3]
    · rintro ⟨h1, h2⟩
      rw [beq_iff_eq, lcp_zero h.text h.isa' hL h1] at h2
      exact ⟨_, (hmem _).2 (sym_mem (h.isa'.sym_get_lt h1)), h2.symm⟩
  · refine List.pairwise_map.2 ((List.Nodup.pairwise_of_forall_ne hd.nodup) ?_)
    intro a ha b hb hab e
    have h1 := (hrow a ((hmem a).1 ha)).2
    have h2 := (hrow b ((hmem b).1 hb)).2
    rw [e, h2] at h1
    exact hab h1.symm
  · exact List.nodup_range.filter _

/-- What the tree needs to know about the LCP array. -/
theorem lcp_facts {T SA L : List Nat} (hT : IsText T) (hS : IsSA T SA) (hL : IsLcpArray T SA L) : 0 < L.length ∧ L.getD 0 0 = 0 ∧ (∀ x ∈ L, x ≤ L.length) ∧ (1 < L.length → L.getD 1 0 = 0) := by
  have hl := hL.1
  have hp := hT.pos
  have h0 : L.getD 0 0 = 0 := by rw [List.getD_eq_getElem?_getD, hL.2.1]; rfl
  refine ⟨by omega, h0, fun x hx => ?_, fun h1 => ?_⟩
  · obtain ⟨k, hk, rfl⟩ := List.mem_iff_getElem.1 hx
    rcases Nat.eq_zero_or_pos k with e | e
    · subst e
      have := hL.2.1
      rw [List.getElem?_eq_getElem hk] at this
      have := Option.some.inj this
      omega
    · obtain ⟨⟨p, p1, p2, p3⟩, _⟩ := lcp_at hL e (by omega)
      have := p2.length_le
      rw [suf_len, p3, List.getD_eq_getElem?_getD, List.getElem?_eq_getElem hk] at this
      simp at this
      omega
  · rw [lcp_zero hT hS hL (by omega)]
    -- row 0 is the sentinel, row 1 has another symbol
    have h2 := row_bounds hT hS (j := 1) (by omega)
    obtain ⟨r, r1, r2⟩ := hS.surj (p := T.length - 1) (by omega)
    have h3 : sym T (sym SA r) = 0 := by rw [r2, hT.last]
    have h4 : sym T (sym SA 0) ≤ sym T (sym SA r) := sym_le hS (by omega) r1
    have h5 := hT.eq_last (hS.sym_get_lt (i := 0) (by omega)) (by omega)
    have h6 : sym T (sym SA 1) ≠ 0 := by
      intro e
      have := hT.eq_last (hS.sym_get_lt (i := 1) (by omega)) e
      have := hS.inj (i := 0) (j := 1) (by omega) (by omega) (by omega)
      omega
    have h7 := (row_cmp hT hS (j := 0) (by omega) (sym T (sym SA 1))).1
    omega

end Sdsl.CstSct3
