/-
  Lemmas on `Csa`: what an alphabet strategy and a wavelet tree have to deliver, and what the navigation functions then compute.
-/
import Verif.Csa
import Verif.SufArr
import Verif.UtilLemmas

namespace Sdsl.Csa

/-- The distinct symbols of `L` in ascending order. -/
structure IsDs (ds L : List Nat) : Prop where
  sorted : ds.Pairwise (· < ·)
  mem : ∀ c, c ∈ ds ↔ c ∈ L

theorem IsDs.nodup {ds L : List Nat} (h : IsDs ds L) : ds.Nodup := h.sorted.imp (fun hab => Nat.ne_of_lt hab)

/-- Occurrences of the symbols of a list without duplicates. -/
theorem sum_count {ds : List Nat} (h : ds.Nodup) (L : List Nat) : (ds.map (fun c => L.count c)).sum = L.countP (fun a => decide (a ∈ ds)) := by
  induction ds with
  | nil => simp
  | cons d ds ih =>
    rw [List.nodup_cons] at h
    rw [List.map_cons, List.sum_cons, ih h.2]
    clear ih
    induction L with
    | nil => rfl
    | cons a L ihL =>
      rw [List.count_cons, List.countP_cons, List.countP_cons, ← ihL]
      by_cases e : a = d
      · subst e
        simp [h.1]
        omega
      · by_cases e2 : a ∈ ds
        · simp [e, e2]
          omega
        · simp [e, e2]

theorem IsDs.smaller_eq {ds L : List Nat} (h : IsDs ds L) {k : Nat} (hk : k < ds.length) : smaller L ds[k] = ((ds.take k).map (fun c => L.count c)).sum := by
  rw [sum_count (h.nodup.sublist (List.take_sublist k ds)), smaller]
  apply List.countP_congr
  intro a ha
  simp only [decide_eq_true_eq]
  constructor
  · intro hlt
    obtain ⟨j, hj, he⟩ := List.mem_iff_getElem.1 ((h.mem a).2 ha)
    have hjk : j < k := by
      rcases Nat.lt_or_ge j k with h1 | h1
      · exact h1
      · exfalso
        rcases Nat.eq_or_lt_of_le h1 with h2 | h2
        · subst h2; omega
        · have := List.pairwise_iff_getElem.1 h.sorted k j hk hj h2
          omega
    rw [List.mem_take_iff_getElem]
    exact ⟨j, by omega, he⟩
  · intro hm
    obtain ⟨j, hj, he⟩ := List.mem_take_iff_getElem.1 hm
    have := List.pairwise_iff_getElem.1 h.sorted j k (by omega) hk (by omega)
    omega

theorem IsDs.length_eq {ds L : List Nat} (h : IsDs ds L) : L.length = (ds.map (fun c => L.count c)).sum := by
  rw [sum_count h.nodup]
  symm
  rw [List.countP_eq_length]
  intro a ha
  simpa using (h.mem a).2 ha

/-- What a CSA needs from its alphabet: `Q` are the symbols that may be asked for. -/
structure AlphaOk (A : Alpha) (L : List Nat) (Q : Nat → Prop) : Prop where
  ex : ∃ ds, IsDs ds L ∧ A.sigma = ds.length ∧ (∀ k (h : k < ds.length), A.char2comp ds[k] = some k ∧ A.comp2char k = some ds[k]) ∧
    (∀ k, k ≤ ds.length → A.C k = some ((ds.take k).map (fun c => L.count c)).sum)
  absent : ∀ c, Q c → c ∉ L → A.char2comp c = some 0

/-- What a CSA needs from its wavelet tree. -/
structure WtOk (W : Wt) (L : List Nat) (Q : Nat → Prop) : Prop where
  size : W.size = L.length
  get : ∀ i, i < L.length → W.get i = some (sym L i)
  rank : ∀ i c, i ≤ L.length → Q c → W.rank i c = some ((L.take i).count c)
  select : ∀ i, i < L.length → W.select ((L.take i).count (sym L i) + 1) (sym L i) = some i
  inverse : ∀ i, i < L.length → W.inverseSelect i = some ((L.take i).count (sym L i), sym L i)

theorem smaller_add_count_le (L : List Nat) {c d : Nat} (h : c < d) : smaller L c + L.count c ≤ smaller L d := by
  induction L with
  | nil => simp [smaller]
  | cons a L ih =>
    rw [smaller] at *
    rw [smaller] at *
    rw [List.countP_cons, List.countP_cons, List.count_cons]
    by_cases h1 : a < c
    · have : a < d := by omega
      have h2 : ¬ a = c := by omega
      simp [h1, this, h2]
      omega
    · by_cases h2 : a = c
      · subst h2
        simp [h]
        omega
      · simp [h1, h2]
        omega

theorem smaller_add_count_le_length (L : List Nat) (c : Nat) : smaller L c + L.count c ≤ L.length := by
  induction L with
  | nil => simp [smaller]
  | cons a L ih =>
    rw [smaller] at *
    rw [List.countP_cons, List.count_cons, List.length_cons]
    by_cases h1 : a < c
    · have h2 : ¬ a = c := by omega
      simp [h1, h2]
      omega
    · by_cases h2 : a = c
      · subst h2
        simp
        omega
      · simp [h1, h2]
        omega

/-- The symbol in whose interval of the first column a row lies is unique. -/
theorem row_unique {L : List Nat} {c d i : Nat} (h1 : smaller L c ≤ i) (h2 : i < smaller L c + L.count c) (h3 : smaller L d ≤ i) (h4 : i < smaller L d + L.count d) : c = d := by
  rcases Nat.lt_trichotomy c d with h | h | h
  · have := smaller_add_count_le L h
    omega
  · exact h
  · have := smaller_add_count_le L h
    omega

namespace AlphaOk

variable {A : Alpha} {L : List Nat} {Q : Nat → Prop}

/-- A symbol that occurs. -/
theorem present (h : AlphaOk A L Q) {c : Nat} (hc : c ∈ L) : ∃ k, A.char2comp c = some k ∧ k < A.sigma ∧ A.comp2char k = some c ∧
    A.C k = some (smaller L c) ∧ A.C (k + 1) = some (smaller L c + L.count c) ∧ (k = 0 → ∀ d ∈ L, c ≤ d) := by
  obtain ⟨ds, hd, hs, h1, h2⟩ := h.ex
  obtain ⟨k, hk, rfl⟩ := List.mem_iff_getElem.1 ((hd.mem c).2 hc)
  refine ⟨k, (h1 k hk).1, by omega, (h1 k hk).2, ?_, ?_, ?_⟩
  · rw [h2 k (by omega), hd.smaller_eq hk]
  · rw [h2 (k + 1) (by omega), List.take_succ_eq_append_getElem hk, List.map_append, List.sum_append, hd.smaller_eq hk]
    simp
  · rintro rfl d hdL
    obtain ⟨j, hj, rfl⟩ := List.mem_iff_getElem.1 ((hd.mem d).2 hdL)
    rcases Nat.eq_zero_or_pos j with h0 | h0
    · subst h0; exact Nat.le_refl _
    · exact Nat.le_of_lt (List.pairwise_iff_getElem.1 hd.sorted 0 j hk hj h0)

theorem sigma_pos (h : AlphaOk A L Q) (hL : L ≠ []) : 0 < A.sigma := by
  obtain ⟨c, hc⟩ := List.exists_mem_of_ne_nil L hL
  obtain ⟨k, _, hk, _⟩ := h.present hc
  omega

theorem frLinear_spec (h : AlphaOk A L Q) {i : Nat} (hi : i < L.length) : ∀ (fuel res : Nat), A.sigma ≤ fuel + res → 0 < res → res ≤ A.sigma →
    (∃ x, A.C (res - 1) = some x ∧ x ≤ i) → ∃ r, frLinear A i fuel res = some r ∧ 0 < r ∧ r ≤ A.sigma ∧ (∃ x, A.C (r - 1) = some x ∧ x ≤ i) ∧ ∃ y, A.C r = some y ∧ i < y := by
  obtain ⟨ds, hd, hs, h1, h2⟩ := h.ex
  intro fuel
  induction fuel with
  | zero =>
    intro res h3 h4 h5 h6
    have h7 : res = A.sigma := by omega
    refine ⟨res, ?_, h4, h5, h6, ?_⟩
    · rw [frLinear, if_neg (by omega)]
    · rw [h7, hs, h2 _ (Nat.le_refl _), List.take_length, ← hd.length_eq]
      exact ⟨_, rfl, hi⟩
  | succ fuel ih =>
    intro res h3 h4 h5 h6
    rw [frLinear]
    by_cases hr : res < A.sigma
    · rw [if_pos hr, h2 res (by omega), sbind]
      by_cases hc : ((ds.take res).map (fun c => L.count c)).sum ≤ i
      · rw [if_pos hc]
        exact ih (res + 1) (by omega) (by omega) (by omega) ⟨_, by rw [Nat.add_sub_cancel]; exact h2 res (by omega), hc⟩
      · rw [if_neg hc]
        exact ⟨res, rfl, h4, h5, h6, _, h2 res (by omega), by omega⟩
    · rw [if_neg hr]
      refine ⟨res, rfl, h4, h5, h6, ?_⟩
      rw [show res = A.sigma by omega, hs, h2 _ (Nat.le_refl _), List.take_length, ← hd.length_eq]
      exact ⟨_, rfl, hi⟩

theorem frBinary_spec (h : AlphaOk A L Q) {i : Nat} : ∀ (fuel lower upper : Nat), upper < fuel + lower → lower < upper → upper ≤ A.sigma →
    (∃ x, A.C lower = some x ∧ x ≤ i) → (∃ y, A.C upper = some y ∧ i < y) →
    ∃ r, frBinary A i fuel lower upper = some r ∧ r < A.sigma ∧ (∃ x, A.C r = some x ∧ x ≤ i) ∧ ∃ y, A.C (r + 1) = some y ∧ i < y := by
  obtain ⟨ds, hd, hs, h1, h2⟩ := h.ex
  intro fuel
  induction fuel with
  | zero => intro lower upper h3 h4; omega
  | succ fuel ih =>
    intro lower upper h3 h4 h5 h6 h7
    rw [frBinary]
    obtain ⟨m, hm⟩ : ∃ m, m = (upper + lower) / 2 := ⟨_, rfl⟩
    have hm1 : lower ≤ m := by omega
    have hm2 : m < upper := by omega
    rw [← hm, h2 m (by omega), sbind]
    by_cases hc : i < ((ds.take m).map (fun c => L.count c)).sum
    · rw [if_pos hc]
      have hne : lower ≠ m := by
        rintro rfl
        obtain ⟨x, hx, hxi⟩ := h6
        rw [h2 _ (by omega)] at hx
        have := Option.some.inj hx
        omega
      exact ih lower m (by omega) (by omega) (by omega) h6 ⟨_, h2 m (by omega), hc⟩
    · rw [if_neg hc, h2 (m + 1) (by omega), sbind]
      by_cases hc2 : ((ds.take (m + 1)).map (fun c => L.count c)).sum ≤ i
      · rw [if_pos hc2]
        have hne : m + 1 ≠ upper := by
          rintro rfl
          obtain ⟨x, hx, hxi⟩ := h7
          rw [h2 _ (by omega)] at hx
          have := Option.some.inj hx
          omega
        exact ih (m + 1) upper (by omega) (by omega) (by omega) ⟨_, h2 (m + 1) (by omega), hc2⟩ h7
      · rw [if_neg hc2]
        exact ⟨m, rfl, by omega, ⟨_, h2 m (by omega), by omega⟩, _, h2 (m + 1) (by omega), by omega⟩

/-- `first_row_symbol`: the symbol in whose interval the row lies. -/
theorem firstRow_spec (h : AlphaOk A L Q) {i : Nat} (hi : i < L.length) : ∃ c ∈ L, firstRow A i = some c ∧ smaller L c ≤ i ∧ i < smaller L c + L.count c := by
  have hL : L ≠ [] := by intro e; rw [e] at hi; simp at hi
  have hpos := h.sigma_pos hL
  obtain ⟨ds, hd, hs, h1, h2⟩ := h.ex
  have h0 : A.C 0 = some 0 := by rw [h2 0 (by omega)]; rfl
  have fin : ∀ k, k < A.sigma → (∃ x, A.C k = some x ∧ x ≤ i) → (∃ y, A.C (k + 1) = some y ∧ i < y) →
      ∃ c ∈ L, A.comp2char k = some c ∧ smaller L c ≤ i ∧ i < smaller L c + L.count c := by
    intro k hk hx hy
    have hk' : k < ds.length := by omega
    refine ⟨ds[k], (hd.mem _).1 (List.getElem_mem hk'), (h1 k hk').2, ?_, ?_⟩
    · obtain ⟨x, hx, hxi⟩ := hx
      rw [h2 k (by omega), ← hd.smaller_eq hk'] at hx
      have := Option.some.inj hx
      omega
    · obtain ⟨x, hx, hxi⟩ := hy
      rw [h2 (k + 1) (by omega), List.take_succ_eq_append_getElem hk', List.map_append, List.sum_append, ← hd.smaller_eq hk'] at hx
      have := Option.some.inj hx
      simp at this
      omega
  rw [firstRow]
  by_cases hsm : A.sigma < 16
  · rw [if_pos hsm]
    obtain ⟨r, hr, hr0, hr1, hr2, hr3⟩ := h.frLinear_spec hi A.sigma 1 (by omega) (by omega) (by omega) ⟨0, h0, by omega⟩
    rw [hr, sbind]
    exact fin (r - 1) (by omega) hr2 (by rw [show r - 1 + 1 = r by omega]; exact hr3)
  · rw [if_neg hsm]
    obtain ⟨r, hr, hr1, hr2, hr3⟩ := h.frBinary_spec (i := i) (A.sigma + 1) 0 A.sigma (by omega) (by omega) (by omega) ⟨0, h0, by omega⟩
      ⟨_, by rw [hs, h2 _ (Nat.le_refl _), List.take_length, ← hd.length_eq], hi⟩
    rw [hr, sbind]
    exact fin r hr1 hr2 hr3

end AlphaOk

end Sdsl.Csa
