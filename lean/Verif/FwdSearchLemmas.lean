/-
  The comparison of `forward_search` is monotone in the row, so that the two binary searches find the borders.
-/
import Verif.FwdSearch
import Verif.CsaPsiLemmas

namespace Sdsl.Csa

/-- The result of the comparison: 1 if the suffix of row `i` is smaller than the pattern, 0 if it starts with the pattern, -1 otherwise; -1 also when a symbol is reached that does not occur in the text. -/
def cls (T SA : List Nat) (ps : Nat → Nat) : List Nat → Nat → Int
  | [], _ => 0
  | c :: cs, i => if c ∉ T then -1 else if c < sym T (sym SA i) then -1 else if sym T (sym SA i) < c then 1 else cls T SA ps cs (ps i)

section

variable {A : Alpha} {T SA : List Nat} {Q : Nat → Prop} {ps : Nat → Nat} {psi : Nat → Option Nat}

theorem fsCompare_eq (hT : IsText T) (hS : IsSA T SA) (hA : AlphaOk A (bwtOf T SA) Q) (hp : IsPsi T SA ps) (hpsi : ∀ k, k < T.length → psi k = some (ps k)) (hn : T.length < 2 ^ 64) :
    ∀ (P : List Nat) (i : Nat), 0 ∉ P → (∀ c ∈ P, Q c) → i < T.length → fsCompare psi A P i = some (cls T SA ps P i) := by
  intro P
  induction P with
  | nil => intro i _ _ _; rfl
  | cons c P ih =>
    intro i h0 hQ hi
    rw [List.mem_cons, not_or] at h0
    have hmem : c ∈ bwtOf T SA ↔ c ∈ T := hS.bwt_perm.mem_iff
    rw [fsCompare, cls]
    by_cases hm : c ∈ bwtOf T SA
    · obtain ⟨k, k1, k2, k3, k4, k5, k6, k7⟩ := alpha_rows hT hS hA hm
      have hle := smaller_add_count_le_length T c
      obtain ⟨b1, b2⟩ := CstSct3.row_bounds hT hS hi
      have e1 : c < sym T (sym SA i) ↔ sub64 (smaller T c + T.count c) 1 < i := by
        rw [sub64_eq (by omega) (by omega)]
        constructor
        · intro h; have := smaller_add_count_le T h; omega
        · intro h
          rcases Nat.lt_trichotomy (sym T (sym SA i)) c with h' | h' | h'
          · have := smaller_add_count_le T h'; omega
          · rw [h'] at b2; omega
          · exact h'
      have e2 : sym T (sym SA i) < c ↔ i < smaller T c := by
        constructor
        · intro h; have := smaller_add_count_le T h; omega
        · intro h
          rcases Nat.lt_trichotomy (sym T (sym SA i)) c with h' | h' | h'
          · exact h'
          · rw [h'] at b1; omega
          · have := smaller_add_count_le T h'; omega
      rw [if_neg (show ¬ c ∉ T from fun h => h (hmem.1 hm)), k1, sbind, if_neg (fun e => k6 ⟨e, fun e' => h0.1 e'.symm⟩), k5, sbind]
      by_cases g1 : c < sym T (sym SA i)
      · rw [if_pos (e1.1 g1), if_pos g1]; rfl
      · rw [if_neg (fun h => g1 (e1.2 h)), if_neg g1, k4, sbind]
        by_cases g2 : sym T (sym SA i) < c
        · rw [if_pos (e2.1 g2), if_pos g2]; rfl
        · rw [if_neg (fun h => g2 (e2.2 h)), if_neg g2, hpsi i hi, sbind]
          exact ih _ h0.2 (fun d hd => hQ d (List.mem_cons_of_mem _ hd)) (hp i hi).1
    · rw [hA.absent c (hQ c List.mem_cons_self) hm, sbind, if_pos rfl, if_pos (fun h => hm (hmem.2 h))]; rfl

theorem cls_values (P : List Nat) : ∀ i, cls T SA ps P i = -1 ∨ cls T SA ps P i = 0 ∨ cls T SA ps P i = 1 := by
  induction P with
  | nil => intro i; exact Or.inr (Or.inl rfl)
  | cons c P ih =>
    intro i
    rw [cls]
    split
    · simp
    · split
      · simp
      · split
        · simp
        · exact ih _

theorem psi_mono (hT : IsText T) (hS : IsSA T SA) (hp : IsPsi T SA ps) {i j : Nat} (hij : i < j) (hj : j < T.length) (he : sym T (sym SA i) = sym T (sym SA j)) : ps i < ps j := by
  obtain ⟨a1, a2⟩ := hp i (by omega)
  obtain ⟨b1, b2⟩ := hp j hj
  have h1 := (drop_lt_nxt hT (hS.sym_get_lt (by omega)) (hS.sym_get_lt hj) he).1 (hS.sorted hij hj)
  rw [← a2, ← b2] at h1
  rcases Nat.lt_trichotomy (ps i) (ps j) with h | h | h
  · exact h
  · rw [h] at h1; exact absurd h1 (lt_irrefl _)
  · exact absurd (hS.sorted h a1) (List.lt_asymm h1)

theorem cls_anti (hT : IsText T) (hS : IsSA T SA) (hp : IsPsi T SA ps) (P : List Nat) : ∀ i j, i ≤ j → j < T.length → cls T SA ps P j ≤ cls T SA ps P i := by
  induction P with
  | nil => intro i j _ _; exact Int.le_refl _
  | cons c P ih =>
    intro i j hij hj
    rcases Nat.lt_or_ge i j with hlt | hge
    · have hs := sym_le_of_drop (hS.sym_get_lt (by omega)) (hS.sym_get_lt hj) (hS.sorted hlt hj)
      have hv := cls_values (T := T) (SA := SA) (ps := ps) P (ps i)
      have hv2 := cls_values (T := T) (SA := SA) (ps := ps) P (ps j)
      rw [cls, cls]
      by_cases h0 : c ∉ T
      · rw [if_pos h0, if_pos h0]
      · rw [if_neg h0, if_neg h0]
        by_cases g1 : c < sym T (sym SA j)
        · rw [if_pos g1]
          split
          · omega
          · split <;> omega
        · rw [if_neg g1, if_neg (show ¬ c < sym T (sym SA i) by omega)]
          by_cases g2 : sym T (sym SA i) < c
          · rw [if_pos g2]
            split <;> omega
          · rw [if_neg g2, if_neg (show ¬ sym T (sym SA j) < c by omega)]
            have := psi_mono hT hS hp hlt hj (by omega)
            exact ih _ _ (by omega) (hp j hj).1
    · rw [show i = j by omega]

theorem cls_zero (hT : IsText T) (hS : IsSA T SA) (hp : IsPsi T SA ps) : ∀ (P : List Nat) (i : Nat), 0 ∉ P → i < T.length → (cls T SA ps P i = 0 ↔ P <+: T.drop (sym SA i)) := by
  intro P
  induction P with
  | nil => intro i _ _; simp [cls]
  | cons c P ih =>
    intro i h0 hi
    rw [List.mem_cons, not_or] at h0
    have hpi := hS.sym_get_lt hi
    rw [cls, drop_cons hpi, List.cons_prefix_cons]
    by_cases hm : c ∉ T
    · rw [if_pos hm]
      constructor
      · intro h; omega
      · rintro ⟨h, _⟩
        exact absurd (h ▸ (by rw [sym_lt hpi]; exact List.getElem_mem _)) hm
    · rw [if_neg hm]
      by_cases g1 : c < sym T (sym SA i)
      · rw [if_pos g1]
        constructor
        · intro h; omega
        · rintro ⟨h, _⟩; omega
      · rw [if_neg g1]
        by_cases g2 : sym T (sym SA i) < c
        · rw [if_pos g2]
          constructor
          · intro h; omega
          · rintro ⟨h, _⟩; omega
        · have he : sym T (sym SA i) = c := by omega
          have hlt : sym SA i + 1 < T.length := by
            rcases Nat.lt_or_ge (sym SA i + 1) T.length with h | h
            · exact h
            · rw [show sym SA i = T.length - 1 by omega, hT.last] at he
              exact absurd he h0.1
          rw [if_neg g2, ih _ h0.2 (hp i hi).1, (hp i hi).2, nxt_small hlt]
          simp [he]

end

/-! ### The binary searches -/

section

variable {cmp : Nat → Option Int} {f : Nat → Int} {n : Nat}

theorem fsMin_spec (hn : n < 2 ^ 63) (hv : ∀ i, f i ≤ 1) (hc : ∀ i, i < n → cmp i = some (f i)) (ha : ∀ i j, i ≤ j → j < n → f j ≤ f i) :
    ∀ (fuel l u : Nat), u < fuel + l → l ≤ u → u ≤ n → ∃ m, fsMin cmp fuel l u = some m ∧ l ≤ m ∧ m ≤ u ∧ (∀ i, l ≤ i → i < m → f i = 1) ∧ ∀ i, m ≤ i → i < u → f i ≠ 1 := by
  intro fuel
  induction fuel with
  | zero => intro l u h1 h2; omega
  | succ fuel ih =>
    intro l u h1 h2 h3
    rw [fsMin]
    by_cases hlt : l < u
    · have e1 : add64 l (sub64 u l / 2) = l + (u - l) / 2 := by rw [sub64_eq h2 (by omega), add64_eq (by omega)]
      have hs : l + (u - l) / 2 < u := by omega
      obtain ⟨s, hs1, hs2, hs3⟩ : ∃ s, s = l + (u - l) / 2 ∧ l ≤ s ∧ s < u := ⟨_, rfl, by omega, hs⟩
      rw [if_pos hlt, e1, ← hs1]
      dsimp only
      rw [hc s (by omega), sbind]
      by_cases e : f s = 1
      · rw [if_pos e, add64_eq (by omega)]
        obtain ⟨m, m1, m2, m3, m4, m5⟩ := ih (s + 1) u (by omega) (by omega) h3
        refine ⟨m, m1, by omega, m3, fun i i1 i2 => ?_, m5⟩
        by_cases e3 : s < i
        · exact m4 i (by omega) i2
        · have := ha i s (by omega) (by omega)
          have := hv i
          omega
      · rw [if_neg e]
        obtain ⟨m, m1, m2, m3, m4, m5⟩ := ih l s (by omega) (by omega) (by omega)
        refine ⟨m, m1, m2, by omega, m4, fun i i1 i2 => ?_⟩
        by_cases e3 : i < s
        · exact m5 i i1 e3
        · have := ha s i (by omega) (by omega)
          have := hv s
          omega
    · rw [if_neg hlt]
      exact ⟨l, rfl, by omega, h2, fun i a b => by omega, fun i a b => by omega⟩

theorem fsMax_spec (hn : n < 2 ^ 63) (hv : ∀ i, f i = -1 ∨ f i = 0 ∨ f i = 1) (hc : ∀ i, i < n → cmp i = some (f i)) (ha : ∀ i j, i ≤ j → j < n → f j ≤ f i) :
    ∀ (fuel l u : Nat), u < fuel + l → l ≤ u → u ≤ n → ∃ m, fsMax cmp fuel (sub64 l 1) u = some (sub64 m 1) ∧ l ≤ m ∧ m ≤ u ∧ (∀ i, l ≤ i → i < m → f i ≠ -1) ∧ ∀ i, m ≤ i → i < u → f i = -1 := by
  intro fuel
  induction fuel with
  | zero => intro l u h1 h2; omega
  | succ fuel ih =>
    intro l u h1 h2 h3
    rw [fsMax, add_sub64 (by omega)]
    by_cases hlt : l < u
    · obtain ⟨s, hs1, hs2, hs3⟩ : ∃ s, add64 (sub64 l 1) (sub64 u (sub64 l 1) / 2) = s ∧ l ≤ s ∧ s < u := by
        refine ⟨_, rfl, ?_⟩
        by_cases e : l = 0
        · subst e
          have e1 : sub64 0 1 = 2 ^ 64 - 1 := by decide
          have e2 : sub64 u (2 ^ 64 - 1) = u + 1 := by rw [sub64]; omega
          rw [e1, e2, add64]
          omega
        · rw [sub64_eq (a := l) (by omega) (by omega), sub64_eq (a := u) (by omega) (by omega), add64_eq (by omega)]
          omega
      have hs' : sub64 (s + 1) 1 = s := by rw [sub64_eq (by omega) (by omega)]; omega
      rw [if_pos hlt, hs1]
      dsimp only
      rw [hc s (by omega), sbind]
      have hup : f s ≠ -1 → ∃ m, fsMax cmp fuel s u = some (sub64 m 1) ∧ l ≤ m ∧ m ≤ u ∧ (∀ i, l ≤ i → i < m → f i ≠ -1) ∧ ∀ i, m ≤ i → i < u → f i = -1 := by
        intro e
        obtain ⟨m, m1, m2, m3, m4, m5⟩ := ih (s + 1) u (by omega) (by omega) h3
        rw [hs'] at m1
        refine ⟨m, m1, by omega, m3, fun i i1 i2 => ?_, m5⟩
        by_cases e3 : s < i
        · exact m4 i (by omega) i2
        · have := ha i s (by omega) (by omega)
          have := hv s
          omega
      by_cases e : f s = 1
      · rw [if_pos e]
        exact hup (by omega)
      · rw [if_neg e]
        by_cases e2 : f s = -1
        · rw [if_pos e2]
          obtain ⟨m, m1, m2, m3, m4, m5⟩ := ih l s (by omega) (by omega) (by omega)
          refine ⟨m, m1, m2, by omega, m4, fun i i1 i2 => ?_⟩
          by_cases e3 : i < s
          · exact m5 i i1 e3
          · have := ha s i (by omega) (by omega)
            have := hv i
            omega
        · rw [if_neg e2]
          exact hup e2
    · rw [if_neg hlt]
      exact ⟨l, rfl, by omega, h2, fun i a b => by omega, fun i a b => by omega⟩

end

/-- `forward_search`. -/
theorem forwardSearch_spec {A : Alpha} {T SA : List Nat} {Q : Nat → Prop} {ps : Nat → Nat} {psi : Nat → Option Nat} (hT : IsText T) (hS : IsSA T SA) (hA : AlphaOk A (bwtOf T SA) Q) (hp : IsPsi T SA ps)
    (hpsi : ∀ k, k < T.length → psi k = some (ps k)) (hn : T.length < 2 ^ 63) {P : List Nat} (h0 : 0 ∉ P) (hQ : ∀ c ∈ P, Q c) {l r : Nat} (hlr : l ≤ r) (hr : r < T.length) :
    ∃ lo hi, forwardSearch psi A T.length l r P = some (lo, sub64 hi 1, hi - lo) ∧ l ≤ lo ∧ lo ≤ hi ∧ hi ≤ r + 1 ∧ ∀ i, i < T.length → (lo ≤ i ∧ i < hi ↔ l ≤ i ∧ i ≤ r ∧ P <+: T.drop (sym SA i)) := by
  rw [forwardSearch]
  by_cases hl : T.length ≤ P.length
  · rw [if_pos hl]
    refine ⟨l, l, by simp, Nat.le_refl _, Nat.le_refl _, by omega, fun i hi => ⟨fun h => by omega, ?_⟩⟩
    rintro ⟨_, _, h⟩
    exfalso
    have h1 := h.length_le
    rw [List.length_drop] at h1
    have h2 : sym SA i = 0 := by have := hT.pos; omega
    rw [h2, List.drop_zero] at h
    rw [h2] at h1
    have h3 := h.eq_of_length (by omega)
    obtain ⟨U, e, _⟩ := hT
    apply h0
    rw [h3, e]
    simp
  · rw [if_neg hl, add64_eq (by omega)]
    have hc : ∀ i, i < T.length → fsCompare psi A P i = some (cls T SA ps P i) := fun i hi => fsCompare_eq hT hS hA hp hpsi (by omega) P i h0 hQ hi
    have ha := cls_anti hT hS hp P
    have hv := cls_values (T := T) (SA := SA) (ps := ps) P
    obtain ⟨lo, a1, a2, a3, a4, a5⟩ := fsMin_spec (f := cls T SA ps P) hn (fun i => by have := hv i; omega) hc ha (T.length + 1) l (r + 1) (by omega) (by omega) (by omega)
    obtain ⟨hi, b1, b2, b3, b4, b5⟩ := fsMax_spec (f := cls T SA ps P) hn hv hc ha (T.length + 1) l (r + 1) (by omega) (by omega) (by omega)
    have hle : lo ≤ hi := by
      rcases Nat.lt_or_ge hi lo with h | h
      · have := b5 hi (Nat.le_refl _) (by omega)
        have := a4 hi b2 h
        omega
      · exact h
    refine ⟨lo, hi, ?_, a2, hle, b3, fun i hi' => ?_⟩
    · have he : add64 (sub64 (sub64 hi 1) lo) 1 = hi - lo := by
        by_cases e : hi = 0
        · rw [e, show lo = 0 by omega]; decide +kernel
        · rw [sub64_eq (a := hi) (by omega) (by omega)]
          by_cases e2 : hi = lo
          · rw [e2, Nat.sub_self, sub64, add64]; omega
          · rw [sub64_eq (by omega) (by omega), add64_eq (by omega)]; omega
      rw [a1, sbind, b1, sbind, he]; rfl
    · rw [← cls_zero hT hS hp P i h0 hi']
      have := hv i
      constructor
      · rintro ⟨i1, i2⟩
        have := a5 i i1 (by omega)
        have := b4 i (by omega) i2
        exact ⟨by omega, by omega, by omega⟩
      · rintro ⟨i1, i2, i3⟩
        constructor
        · rcases Nat.lt_or_ge i lo with h | h
          · have := a4 i i1 h; omega
          · exact h
        · rcases Nat.lt_or_ge i hi with h | h
          · exact h
          · have := b5 i h (by omega); omega

end Sdsl.Csa
