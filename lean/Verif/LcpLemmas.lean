/-
  Lemmas on longest common prefixes of suffixes and the LCP constructions.
-/
import Verif.Lcp
import Verif.CsaNew

namespace Sdsl.Lcp

open Csa

/-! ### Longest common prefixes -/

/-- Length of the longest common prefix. -/
def lcp : List Nat → List Nat → Nat
  | a :: x, b :: y => if a = b then lcp x y + 1 else 0
  | _, _ => 0

theorem lcp_comm (x y : List Nat) : lcp x y = lcp y x := by
  induction x generalizing y with
  | nil => cases y <;> rfl
  | cons a x ih =>
    cases y with
    | nil => rfl
    | cons b y =>
      rw [lcp, lcp, ih y]
      by_cases h : a = b
      · rw [if_pos h, if_pos h.symm]
      · rw [if_neg h, if_neg (fun e => h e.symm)]

theorem lcp_le (x y : List Nat) : lcp x y ≤ x.length := by
  induction x generalizing y with
  | nil => cases y <;> exact Nat.le_refl 0
  | cons a x ih =>
    cases y with
    | nil => exact Nat.zero_le _
    | cons b y =>
      rw [lcp, List.length_cons]
      have := ih y
      split <;> omega

/-- A suffix between two others shares with the greater one at least what the outer ones share. -/
theorem lcp_between {x y z : List Nat} (h1 : x < y ∨ x = y) (h2 : y < z) : lcp x z ≤ lcp y z := by
  induction x generalizing y z with
  | nil => cases z <;> exact Nat.zero_le _
  | cons a x ih =>
    cases z with
    | nil => exact Nat.zero_le _
    | cons c z =>
      cases y with
      | nil => simp at h1
      | cons b y =>
        rw [lcp, lcp]
        by_cases hac : a = c
        · rw [if_pos hac]
          rw [List.cons_lt_cons_iff] at h2
          rw [List.cons_lt_cons_iff, List.cons.injEq] at h1
          have hbc : b = c := by omega
          rw [if_pos hbc]
          have h1' : x < y ∨ x = y := by
            rcases h1 with (h | h) | h
            · omega
            · exact Or.inl h.2
            · exact Or.inr h.2
          have h2' : y < z := by
            rcases h2 with h | h
            · omega
            · exact h.2
          have := ih h1' h2'
          omega
        · rw [if_neg hac]
          exact Nat.zero_le _

theorem lcp_drop {T : List Nat} {i j : Nat} (hi : i < T.length) (hj : j < T.length) :
    lcp (T.drop i) (T.drop j) = if sym T i = sym T j then lcp (T.drop (i + 1)) (T.drop (j + 1)) + 1 else 0 := by
  rw [drop_cons hi, drop_cons hj, lcp]

theorem lcp_past {T : List Nat} {i j : Nat} (h : T.length ≤ i ∨ T.length ≤ j) : lcp (T.drop i) (T.drop j) = 0 := by
  rcases h with h | h
  · rw [List.drop_of_length_le h]
    cases T.drop j <;> rfl
  · rw [List.drop_of_length_le h]
    cases T.drop i <;> rfl

/-- Symbols of the common prefix agree, and the two suffixes of a text with a sentinel do not end within it. -/
theorem lcp_sym {T : List Nat} {i j l : Nat} (h : l < lcp (T.drop i) (T.drop j)) :
    i + l < T.length ∧ j + l < T.length ∧ sym T (i + l) = sym T (j + l) := by
  induction l generalizing i j with
  | zero =>
    have hi : i < T.length := by
      rcases Nat.lt_or_ge i T.length with h1 | h1
      · exact h1
      · rw [lcp_past (Or.inl h1)] at h; omega
    have hj : j < T.length := by
      rcases Nat.lt_or_ge j T.length with h1 | h1
      · exact h1
      · rw [lcp_past (Or.inr h1)] at h; omega
    rw [lcp_drop hi hj] at h
    refine ⟨hi, hj, ?_⟩
    by_cases e : sym T i = sym T j
    · exact e
    · rw [if_neg e] at h; omega
  | succ l ih =>
    have hi : i < T.length := by
      rcases Nat.lt_or_ge i T.length with h1 | h1
      · exact h1
      · rw [lcp_past (Or.inl h1)] at h; omega
    have hj : j < T.length := by
      rcases Nat.lt_or_ge j T.length with h1 | h1
      · exact h1
      · rw [lcp_past (Or.inr h1)] at h; omega
    rw [lcp_drop hi hj] at h
    by_cases e : sym T i = sym T j
    · rw [if_pos e] at h
      have := @ih (i + 1) (j + 1) (by omega)
      rw [show i + 1 + l = i + (l + 1) by omega, show j + 1 + l = j + (l + 1) by omega] at this
      exact this
    · rw [if_neg e] at h; omega

theorem lcp_end {T : List Nat} (hT : IsText T) {i j : Nat} (hi : i < T.length) (hj : j < T.length) (hij : i ≠ j) :
    i + lcp (T.drop i) (T.drop j) < T.length ∧ j + lcp (T.drop i) (T.drop j) < T.length ∧
      sym T (i + lcp (T.drop i) (T.drop j)) ≠ sym T (j + lcp (T.drop i) (T.drop j)) := by
  obtain ⟨d, hd⟩ : ∃ d, d = T.length - i := ⟨_, rfl⟩
  induction d generalizing i j with
  | zero => omega
  | succ d ih =>
    rw [lcp_drop hi hj]
    by_cases e : sym T i = sym T j
    · rw [if_pos e]
      have hi' : i + 1 < T.length := by
        rcases Nat.lt_or_ge (i + 1) T.length with h | h
        · exact h
        · have h0 := hT.last
          rw [show T.length - 1 = i by omega, e] at h0
          have := hT.eq_last hj h0
          omega
      have hj' : j + 1 < T.length := by
        rcases Nat.lt_or_ge (j + 1) T.length with h | h
        · exact h
        · have h0 := hT.last
          rw [show T.length - 1 = j by omega, ← e] at h0
          have := hT.eq_last hi h0
          omega
      have := @ih (i + 1) (j + 1) hi' hj' (by omega) (by omega)
      generalize lcp (T.drop (i + 1)) (T.drop (j + 1)) = l at this ⊢
      rw [show i + (l + 1) = i + 1 + l by omega, show j + (l + 1) = j + 1 + l by omega]
      exact this
    · rw [if_neg e]
      exact ⟨hi, hj, e⟩

theorem extend_spec {T : List Nat} (hT : IsText T) {i j : Nat} (hi : i < T.length) (hj : j < T.length) (hij : i ≠ j) :
    ∀ fuel l, l ≤ lcp (T.drop i) (T.drop j) → T.length ≤ i + l + fuel →
      extend T i j fuel l = some (lcp (T.drop i) (T.drop j))
  | 0, l, hl, hf => by
    have := (lcp_end hT hi hj hij).1
    omega
  | fuel + 1, l, hl, hf => by
    rw [extend]
    rcases Nat.lt_or_ge l (lcp (T.drop i) (T.drop j)) with h | h
    · obtain ⟨h1, h2, h3⟩ := lcp_sym h
      rw [sym_getElem? h1, sbind, sym_getElem? h2, sbind, if_pos h3]
      exact extend_spec hT hi hj hij fuel (l + 1) h (by omega)
    · have : l = lcp (T.drop i) (T.drop j) := by omega
      obtain ⟨h1, h2, h3⟩ := lcp_end hT hi hj hij
      rw [← this] at h1 h2 h3 ⊢
      rw [sym_getElem? h1, sbind, sym_getElem? h2, sbind, if_neg h3]

/-! ### The lexicographic predecessor in text order -/

/-- The suffix before `p` in the suffix array; 0 for the smallest suffix. -/
def phi (SA : List Nat) (p : Nat) : Nat :=
  match SA.idxOf p with
  | 0 => 0
  | r + 1 => sym SA r

/-- The permuted LCP array. -/
def plcpOf (T SA : List Nat) (p : Nat) : Nat := lcp (T.drop p) (T.drop (phi SA p))

variable {T SA : List Nat}

theorem idxOf_sym (h : IsSA T SA) {r : Nat} (hr : r < T.length) : SA.idxOf (sym SA r) = r := by
  have hr' : r < SA.length := by rw [h.length]; exact hr
  rw [sym_lt hr']
  exact h.nodup.idxOf_getElem r hr'

theorem phi_zero (h : IsSA T SA) (h0 : 0 < T.length) : phi SA (sym SA 0) = 0 := by
  rw [phi, idxOf_sym h h0]

theorem phi_succ (h : IsSA T SA) {r : Nat} (hr : r + 1 < T.length) : phi SA (sym SA (r + 1)) = sym SA r := by
  rw [phi, idxOf_sym h hr]

/-- The smallest suffix is the sentinel. -/
theorem sa_zero (hT : IsText T) (h : IsSA T SA) : sym SA 0 = T.length - 1 := by
  have hp := hT.pos
  obtain ⟨r, hr, he⟩ := h.surj (p := T.length - 1) (by omega)
  rcases Nat.eq_zero_or_pos r with h0 | h0
  · rw [h0] at he; exact he
  · have h1 := h.sorted h0 hr
    have h2 := sym_le_of_drop (h.sym_get_lt hp) (by omega) (he ▸ h1)
    rw [hT.last] at h2
    exact hT.eq_last (h.sym_get_lt hp) (by omega)

theorem phi_lt (h : IsSA T SA) {p : Nat} (hp : p < T.length) : phi SA p < T.length := by
  obtain ⟨r, hr, rfl⟩ := h.surj hp
  cases r with
  | zero => rw [phi_zero h hr]; omega
  | succ r => rw [phi_succ h hr]; exact h.sym_get_lt (by omega)

theorem phi_ne (hT : IsText T) (h : IsSA T SA) (hn : 1 < T.length) {p : Nat} (hp : p < T.length) : p ≠ phi SA p := by
  obtain ⟨r, hr, rfl⟩ := h.surj hp
  cases r with
  | zero => rw [phi_zero h hr, sa_zero hT h]; omega
  | succ r =>
    rw [phi_succ h hr]
    intro e
    have := h.inj hr (by omega) e
    omega

theorem plcp_last (hT : IsText T) (h : IsSA T SA) (hn : 1 < T.length) : plcpOf T SA (T.length - 1) = 0 := by
  rw [← sa_zero hT h, plcpOf, phi_zero h (by omega), sa_zero hT h, lcp_drop (by omega) (by omega), if_neg]
  rw [hT.last]
  have := hT.sym_pos (i := 0) (by omega)
  omega

theorem plcp_lt (hT : IsText T) (h : IsSA T SA) (hn : 1 < T.length) {p : Nat} (hp : p < T.length) : p + plcpOf T SA p < T.length :=
  (lcp_end hT hp (phi_lt h hp) (phi_ne hT h hn hp)).1

/-- The step from one suffix to the next one looses at most one symbol. -/
theorem plcp_step (hT : IsText T) (h : IsSA T SA) (hn : 1 < T.length) {p : Nat} (hp : p + 1 < T.length) : plcpOf T SA p ≤ plcpOf T SA (p + 1) + 1 := by
  rcases Nat.eq_zero_or_pos (plcpOf T SA p) with h0 | h0
  · omega
  · obtain ⟨r, hr, hrp⟩ := h.surj (p := p) (by omega)
    cases r with
    | zero =>
      rw [sa_zero hT h] at hrp
      omega
    | succ r =>
      have hphi := phi_succ h hr
      rw [hrp] at hphi
      have hq := h.sym_get_lt (i := r) (by omega)
      have hlt := h.sorted (Nat.lt_succ_self r) hr
      rw [hrp] at hlt
      have hpl := plcpOf.eq_1 T SA p
      rw [hphi, lcp_drop (by omega) hq] at hpl
      have hs : sym T p = sym T (sym SA r) := by
        by_cases e : sym T p = sym T (sym SA r)
        · exact e
        · rw [if_neg e] at hpl; omega
      rw [if_pos hs] at hpl
      generalize hQ : sym SA r = q at *
      have hq1 : q + 1 < T.length := by
        rcases Nat.lt_or_ge (q + 1) T.length with h1 | h1
        · exact h1
        · have e0 := hT.last
          rw [show T.length - 1 = q by omega, ← hs] at e0
          have := hT.sym_pos hp
          omega
      have hlt2 : T.drop (q + 1) < T.drop (p + 1) := by
        rw [drop_cons hq, drop_cons (show p < T.length by omega), List.cons_lt_cons_iff, hs] at hlt
        rcases hlt with h1 | h1
        · omega
        · exact h1.2
      obtain ⟨s, hsl, hsq⟩ := h.surj hp
      obtain ⟨t, htl, htq⟩ := h.surj hq1
      have hts : t < s := by
        rcases Nat.lt_trichotomy t s with h1 | h1 | h1
        · exact h1
        · rw [h1, hsq] at htq
          rw [htq] at hlt2
          exact absurd hlt2 (List.lt_irrefl _)
        · have := h.sorted h1 htl
          rw [hsq, htq] at this
          exact absurd hlt2 (List.lt_asymm this)
      cases s with
      | zero => omega
      | succ s =>
        have hph := phi_succ h hsl
        rw [hsq] at hph
        have hle : T.drop (q + 1) < T.drop (sym SA s) ∨ T.drop (q + 1) = T.drop (sym SA s) := by
          rcases Nat.lt_or_ge t s with h1 | h1
          · have := h.sorted h1 (by omega)
            rw [htq] at this
            exact Or.inl this
          · have : t = s := by omega
            rw [← this, htq]
            exact Or.inr rfl
        have hlt3 := h.sorted (Nat.lt_succ_self s) hsl
        rw [hsq] at hlt3
        have := lcp_between hle hlt3
        rw [hpl, plcpOf, hph, lcp_comm (T.drop (p + 1)) (T.drop (sym SA s)), lcp_comm (T.drop (p + 1)) (T.drop (q + 1))]
        omega

theorem plcp_steps (hT : IsText T) (h : IsSA T SA) (hn : 1 < T.length) {p : Nat} : ∀ d, p + d < T.length → plcpOf T SA p ≤ plcpOf T SA (p + d) + d
  | 0, _ => by simp
  | d + 1, hp => by
    have h1 := plcp_steps hT h hn (p := p) d (by omega)
    have h2 := plcp_step hT h hn (p := p + d) (by omega)
    rw [show p + (d + 1) = p + d + 1 by omega]
    omega

/-! ### construct_lcp_kasai -/

/-- What is to be computed: entry 0 is 0, entry `r + 1` is the longest common prefix of the suffixes of rank `r` and `r + 1`. -/
structure LcpOk (T SA : List Nat) (b : Arr) : Prop where
  length : b.xs.length = T.length
  zero : b.get 0 = some 0
  succ : ∀ r, r + 1 < T.length → b.get (r + 1) = some (lcp (T.drop (sym SA r)) (T.drop (sym SA (r + 1))))

theorem plcp_sym (h : IsSA T SA) {r : Nat} (hr : r + 1 < T.length) : plcpOf T SA (sym SA (r + 1)) = lcp (T.drop (sym SA r)) (T.drop (sym SA (r + 1))) := by
  rw [plcpOf, phi_succ h hr, lcp_comm]

/-- The values fit into the width (an invariant of `int_vector`). -/
def ArrFits (a : Arr) : Prop := ∀ t v, a.get t = some v → v < 2 ^ a.width

/-- An array after the first `i` suffixes (in text order) have been treated. -/
structure KasaiInv (T SA : List Nat) (i : Nat) (sa : Arr) : Prop where
  length : sa.xs.length = T.length
  fits : ArrFits sa
  get : ∀ r, r + 1 < T.length → sa.get r = some (if sym SA (r + 1) < i then plcpOf T SA (sym SA (r + 1)) else sym SA r)

theorem ArrFits.set {a b : Arr} {i x : Nat} (h : ArrFits a) (hx : x < 2 ^ a.width) (hw : b.width = a.width) (hb : ∀ t, b.get t = if t = i then some x else a.get t) :
    ArrFits b := by
  intro t v hv
  rw [hw]
  rw [hb] at hv
  by_cases e : t = i
  · rw [if_pos e] at hv
    rw [← Option.some.inj hv]; exact hx
  · rw [if_neg e] at hv
    exact h t v hv

theorem kasaiLoop_spec (hT : IsText T) (h : IsSA T SA) {isa : Arr} (hisa : ∀ j, j < T.length → isa.get (sym SA j) = some j) :
    ∀ k i l sa, i + k = T.length → KasaiInv T SA i sa → T.length ≤ 2 ^ sa.width → (1 < T.length → i < T.length → l - 1 ≤ plcpOf T SA i) →
      ∃ b, kasaiLoop T isa T.length k i l sa = some b ∧ KasaiInv T SA T.length b
  | 0, i, l, sa, hk, inv, _, _ => by
    rw [Nat.add_zero] at hk
    subst hk
    exact ⟨sa, rfl, inv⟩
  | k + 1, i, l, sa, hk, inv, hw, hl => by
    have hil : i < T.length := by omega
    obtain ⟨r, hr, hri⟩ := h.surj hil
    have hg := hisa r hr
    rw [hri] at hg
    rw [kasaiLoop, hg, sbind]
    cases r with
    | zero =>
      rw [if_neg (by simp)]
      obtain ⟨b, hb1, hb2, hb3, hb4⟩ := set_spec (a := sa) (i := T.length - 1) (x := 0) (by rw [inv.length]; omega) (Nat.two_pow_pos _)
      rw [hb1, sbind]
      refine kasaiLoop_spec hT h hisa k (i + 1) 0 b (by omega) ⟨by rw [hb2]; exact inv.length, inv.fits.set (Nat.two_pow_pos _) hb3 hb4, ?_⟩ (by rw [hb3]; exact hw) (by intros; omega)
      intro s hs
      rw [hb4, if_neg (by omega), inv.get s hs]
      congr 1
      have hne : sym SA (s + 1) ≠ i := by
        intro e
        have := h.inj hs hr (by rw [e, hri])
        omega
      by_cases e : sym SA (s + 1) < i
      · rw [if_pos e, if_pos (by omega)]
      · rw [if_neg e, if_neg (by omega)]
    | succ r =>
      have hn : 1 < T.length := by omega
      have hphi := phi_succ h hr
      rw [hri] at hphi
      have hgr := inv.get r hr
      rw [hri, if_neg (by omega)] at hgr
      rw [if_pos (by simp), Nat.add_sub_cancel, hgr, sbind]
      have he := extend_spec hT hil (phi_lt h hil) (phi_ne hT h hn hil) T.length (if l ≠ 0 then l - 1 else l)
        (by have := hl hn hil; unfold plcpOf at this; split <;> omega) (by omega)
      rw [hphi] at he
      rw [he, sbind]
      have hpl : plcpOf T SA i = lcp (T.drop i) (T.drop (sym SA r)) := by rw [plcpOf, hphi]
      rw [← hpl]
      have hlt := plcp_lt hT h hn hil
      obtain ⟨b, hb1, hb2, hb3, hb4⟩ := set_spec (a := sa) (i := r) (x := plcpOf T SA i) (by rw [inv.length]; omega) (by omega)
      rw [hb1, sbind]
      refine kasaiLoop_spec hT h hisa k (i + 1) _ b (by omega) ⟨by rw [hb2]; exact inv.length, inv.fits.set (show plcpOf T SA i < 2 ^ sa.width by omega) hb3 hb4, ?_⟩ (by rw [hb3]; exact hw) ?_
      · intro s hs
        rw [hb4]
        by_cases e : s = r
        · subst e
          rw [if_pos rfl, hri, if_pos (by omega)]
        · rw [if_neg e, inv.get s hs]
          congr 1
          have hne : sym SA (s + 1) ≠ i := by
            intro e2
            have := h.inj hs hr (by rw [e2, hri])
            omega
          by_cases e : sym SA (s + 1) < i
          · rw [if_pos e, if_pos (by omega)]
          · rw [if_neg e, if_neg (by omega)]
      · intro _ hi1
        have := plcp_step hT h hn hi1
        omega

theorem shiftLoop_spec : ∀ (i : Nat) (a : Arr), i < a.xs.length → ArrFits a →
    ∃ b, shiftLoop i a = some b ∧ b.xs.length = a.xs.length ∧ b.width = a.width ∧
      ∀ t, b.get t = if t = 0 then a.get 0 else if t ≤ i then a.get (t - 1) else a.get t
  | 0, a, hi, _ => by
    refine ⟨a, rfl, rfl, rfl, fun t => ?_⟩
    by_cases e : t = 0
    · rw [if_pos e, e]
    · rw [if_neg e, if_neg (by omega)]
  | i + 1, a, hi, ha => by
    rw [shiftLoop]
    have hv : a.get i = some a.xs[i] := List.getElem?_eq_getElem (by omega)
    rw [hv, sbind]
    have hvl := ha _ _ hv
    obtain ⟨b, hb1, hb2, hb3, hb4⟩ := set_spec (a := a) (i := i + 1) (x := a.xs[i]) hi hvl
    rw [hb1, sbind]
    obtain ⟨c, hc1, hc2, hc3, hc4⟩ := shiftLoop_spec i b (by omega) (by
      intro t v hv'
      rw [hb3]
      rw [hb4] at hv'
      by_cases e : t = i + 1
      · rw [if_pos e] at hv'
        rw [← Option.some.inj hv']; exact hvl
      · rw [if_neg e] at hv'
        exact ha t v hv')
    refine ⟨c, hc1, by omega, by rw [hc3, hb3], fun t => ?_⟩
    rw [hc4]
    by_cases e : t = 0
    · rw [if_pos e, if_pos e, hb4, if_neg (by omega)]
    · rw [if_neg e, if_neg e]
      by_cases e2 : t ≤ i
      · rw [if_pos e2, if_pos (by omega), hb4, if_neg (by omega)]
      · rw [if_neg e2, hb4]
        by_cases e3 : t = i + 1
        · rw [if_pos e3, if_pos (by omega), e3, Nat.add_sub_cancel, hv]
        · rw [if_neg e3, if_neg (by omega)]

theorem kasai_spec (hT : IsText T) {sa : Arr} (h : IsSA T sa.xs) (hn : T.length < 2 ^ 64) (hf : ArrFits sa) :
    ∃ b, constructKasai T sa = some b ∧ LcpOk T sa.xs b := by
  have hl := h.length
  have hp := hT.pos
  have hw : T.length ≤ 2 ^ sa.width := by
    obtain ⟨r, hr, he⟩ := h.surj (p := T.length - 1) (by omega)
    have := hf r _ (sym_getElem? (by omega))
    omega
  obtain ⟨isa, hi1, hi2, hi3⟩ := constructIsa_spec h hn
  obtain ⟨b, hb1, hb2⟩ := kasaiLoop_spec hT h hi3 T.length 0 0 sa (by omega)
    ⟨hl, hf, fun r hr => by rw [if_neg (by omega)]; exact sym_getElem? (by omega)⟩ hw (by intros; omega)
  obtain ⟨c, hc1, hc2, hc3, hc4⟩ := shiftLoop_spec (b.xs.length - 1) b (by rw [hb2.length]; omega) hb2.fits
  rw [constructKasai, hi1, sbind]
  dsimp only
  rw [hi2, hb1, sbind, hc1, sbind]
  obtain ⟨d, hd1, hd2, hd3, hd4⟩ := set_spec (a := c) (i := 0) (x := 0) (by rw [hc2, hb2.length]; omega) (Nat.two_pow_pos _)
  refine ⟨d, hd1, by rw [hd2, hc2, hb2.length], by rw [hd4, if_pos rfl], fun r hr => ?_⟩
  rw [hd4, if_neg (by omega), hc4, if_neg (by omega), hb2.length, if_pos (by omega), Nat.add_sub_cancel, hb2.get r hr, if_pos (h.sym_get_lt hr), plcp_sym h hr]

/-! ### construct_lcp_PHI -/

theorem arrFits_new (n x w : Nat) : ArrFits (Arr.new n x w) := by
  intro t v hv
  rw [Arr.get, Arr.new, List.getElem?_replicate] at hv
  by_cases e : t < n
  · rw [if_pos e] at hv
    rw [← Option.some.inj hv]
    exact Nat.mod_lt _ (Nat.two_pow_pos _)
  · rw [if_neg e] at hv
    exact absurd hv (by simp)

theorem mapM_some {α β : Type} {f : α → Option β} {g : α → β} : ∀ (l : List α), (∀ x ∈ l, f x = some (g x)) → l.mapM f = some (l.map g)
  | [], _ => rfl
  | a :: l, h => by
    rw [List.mapM_cons, h a List.mem_cons_self, sbind, mapM_some l (fun x hx => h x (List.mem_cons_of_mem _ hx)), sbind]
    rfl

/-- The permuted values in the order of the suffix array, all of them fitting. -/
theorem lcpOk_of_map (hT : IsText T) (h : IsSA T SA) (hn : 1 < T.length) {b : Arr} (hb : b.xs = SA.map (plcpOf T SA)) : LcpOk T SA b := by
  have hg : ∀ r, r < T.length → b.get r = some (plcpOf T SA (sym SA r)) := by
    intro r hr
    rw [Arr.get, hb, List.getElem?_map, sym_getElem? (by rw [h.length]; exact hr)]
    rfl
  refine ⟨by rw [hb, List.length_map, h.length], ?_, fun r hr => ?_⟩
  · rw [hg 0 (by omega), sa_zero hT h, plcp_last hT h hn]
  · rw [hg _ hr, plcp_sym h hr]

theorem map_mod {f : Nat → Nat} {m : Nat} (l : List Nat) (h : ∀ p ∈ l, f p < m) : (l.map f).map (· % m) = l.map f := by
  rw [List.map_map]
  apply List.map_congr_left
  intro p hp
  exact Nat.mod_eq_of_lt (h p hp)

theorem phiLoop_spec (h : IsSA T SA) : ∀ (ps : List Nat) (i s : Nat) (a : Arr), SA.drop i = ps → i ≤ T.length → a.xs.length = T.length → ArrFits a → T.length ≤ 2 ^ a.width →
    (s = if i = 0 then 0 else sym SA (i - 1)) → (∀ r, r < i → a.get (sym SA r) = some (phi SA (sym SA r))) →
    ∃ b, phiLoop ps s a = some b ∧ b.xs.length = T.length ∧ b.width = a.width ∧ ArrFits b ∧ ∀ p, p < T.length → b.get p = some (phi SA p)
  | [], i, s, a, hd, hi, hl, hf, hw, hs, hg => by
    have hlen : T.length ≤ i := by
      have := congrArg List.length hd
      rw [List.length_drop, h.length, List.length_nil] at this
      omega
    refine ⟨a, rfl, hl, rfl, hf, fun p hp => ?_⟩
    obtain ⟨r, hr, rfl⟩ := h.surj hp
    exact hg r (by omega)
  | p :: ps, i, s, a, hd, hi, hl, hf, hw, hs, hg => by
    obtain ⟨h1, h2, h3⟩ := drop_eq hd
    rw [h.length] at h1
    subst h2
    have hphi : s = phi SA (sym SA i) := by
      rw [hs]
      cases i with
      | zero => rw [if_pos rfl, phi_zero h h1]
      | succ i => rw [if_neg (by omega), phi_succ h h1, Nat.add_sub_cancel]
    have hslt : s < 2 ^ a.width := by
      have := phi_lt h (h.sym_get_lt h1)
      omega
    obtain ⟨b, hb1, hb2, hb3, hb4⟩ := set_spec (a := a) (i := sym SA i) (x := s) (by rw [hl]; exact h.sym_get_lt h1) hslt
    rw [phiLoop, hb1, sbind]
    obtain ⟨c, hc1, hc2, hc3, hc4, hc5⟩ := phiLoop_spec h ps (i + 1) (sym SA i) b h3 h1 (by rw [hb2, hl]) (hf.set hslt hb3 hb4) (by rw [hb3]; exact hw)
      (by rw [if_neg (by omega), Nat.add_sub_cancel]) (fun r hr => by
        rw [hb4]
        by_cases e : sym SA r = sym SA i
        · rw [if_pos e, hphi, e]
        · rw [if_neg e]
          refine hg r ?_
          rcases Nat.lt_or_ge r i with h4 | h4
          · exact h4
          · exact absurd (by rw [show r = i by omega]) e)
    exact ⟨c, hc1, hc2, by rw [hc3, hb3], hc4, hc5⟩

theorem plcpLoop_spec (hT : IsText T) (h : IsSA T SA) (hn : 1 < T.length) :
    ∀ k i l m (a : Arr), i + k = T.length - 1 → a.xs.length = T.length → ArrFits a → T.length ≤ 2 ^ a.width → l ≤ plcpOf T SA i → m < T.length →
      (∀ p, p < T.length → a.get p = some (if p < i then plcpOf T SA p else phi SA p)) → (∀ p, p < i → plcpOf T SA p ≤ m) →
      ∃ b M, plcpLoop T k i l m a = some (b, M) ∧ M < T.length ∧ (∀ p, p < T.length → b.get p = some (if p < T.length - 1 then plcpOf T SA p else phi SA p)) ∧
        ∀ p, p < T.length - 1 → plcpOf T SA p ≤ M
  | 0, i, l, m, a, hk, hl, hf, hw, hll, hm, hg, hmx => by
    rw [Nat.add_zero] at hk
    rw [← hk]
    exact ⟨a, m, rfl, hm, hg, hmx⟩
  | k + 1, i, l, m, a, hk, hl, hf, hw, hll, hm, hg, hmx => by
    have hil : i < T.length := by omega
    have hgi := hg i hil
    rw [if_neg (by omega)] at hgi
    rw [plcpLoop, hgi, sbind, extend_spec hT hil (phi_lt h hil) (phi_ne hT h hn hil) T.length l hll (by omega), sbind]
    rw [← plcpOf]
    have hlt := plcp_lt hT h hn hil
    have hwx : plcpOf T SA i < 2 ^ a.width := by omega
    obtain ⟨b, hb1, hb2, hb3, hb4⟩ := set_spec (a := a) (i := i) (x := plcpOf T SA i) (by rw [hl]; exact hil) hwx
    rw [hb1, sbind]
    have hstep := plcp_step hT h hn (p := i) (by omega)
    have hgb : ∀ p, p < T.length → b.get p = some (if p < i + 1 then plcpOf T SA p else phi SA p) := by
      intro p hp
      rw [hb4]
      by_cases e : p = i
      · subst e
        rw [if_pos rfl, if_pos (by omega)]
      · rw [if_neg e, hg p hp]
        by_cases e2 : p < i
        · rw [if_pos e2, if_pos (by omega)]
        · rw [if_neg e2, if_neg (by omega)]
    by_cases e : plcpOf T SA i ≠ 0
    · rw [if_pos e]
      refine plcpLoop_spec hT h hn k (i + 1) _ _ b (by omega) (by rw [hb2, hl]) (hf.set hwx hb3 hb4) (by rw [hb3]; exact hw) (by omega) (by omega) hgb ?_
      intro p hp
      by_cases e2 : p = i
      · subst e2; omega
      · have := hmx p (by omega)
        omega
    · rw [if_neg e]
      refine plcpLoop_spec hT h hn k (i + 1) _ _ b (by omega) (by rw [hb2, hl]) (hf.set hwx hb3 hb4) (by rw [hb3]; exact hw) (by omega) (by omega) hgb ?_
      intro p hp
      by_cases e2 : p = i
      · subst e2; omega
      · exact hmx p (by omega)

theorem PHI_spec (hT : IsText T) {sa : Arr} (h : IsSA T sa.xs) (hn : T.length < 2 ^ 64) (hf : ArrFits sa) (hcw : IntVec.clampWidth sa.width = sa.width) :
    ∃ b, constructPHI T sa = some b ∧ LcpOk T sa.xs b := by
  have hl := h.length
  have hp := hT.pos
  rw [constructPHI]
  dsimp only
  by_cases h1 : sa.xs.length = 1
  · rw [if_pos h1]
    refine ⟨_, rfl, by rw [Select.Arr.new_xs]; omega, ?_, fun r hr => by omega⟩
    rw [new_get 0 0 (by omega)]
    rfl
  rw [if_neg h1]
  have hw : T.length ≤ 2 ^ sa.width := by
    obtain ⟨r, hr, he⟩ := h.surj (p := T.length - 1) (by omega)
    have := hf r _ (sym_getElem? (by omega))
    omega
  obtain ⟨a, ha1, ha2, ha3, ha4, ha5⟩ := phiLoop_spec h sa.xs 0 0 (Arr.new sa.xs.length 0 sa.width) rfl (by omega) (by rw [Select.Arr.new_xs, hl])
    (arrFits_new _ _ _)
    (by show T.length ≤ 2 ^ IntVec.clampWidth sa.width; rw [hcw]; exact hw) rfl (by intro r hr; omega)
  have ha3' : a.width = sa.width := by rw [ha3]; exact hcw
  obtain ⟨b, M, hb1, hb2, hb3, hb4⟩ := plcpLoop_spec hT h (by omega) (T.length - 1) 0 0 0 a (by omega) ha2 ha4 (by rw [ha3']; exact hw) (Nat.zero_le _) hp
    (fun p hp => by rw [if_neg (by omega)]; exact ha5 p hp) (by intro p hp; omega)
  rw [ha1, sbind, hl, hb1, sbind]
  dsimp only
  obtain ⟨hh1, hh2, _⟩ := Select.hiWidth (x := M) (by omega)
  rw [hh1, sbind]
  have hsa : sa.xs = sym sa.xs 0 :: sa.xs.drop 1 := by
    have := drop_cons (T := sa.xs) (i := 0) (by omega)
    exact this
  have hm1 : ∀ p ∈ sa.xs.drop 1, p < T.length - 1 := by
    intro p hp
    have h2 := h.mem.1 (List.mem_of_mem_drop hp)
    have h3 := h.nodup
    rw [hsa, List.nodup_cons, sa_zero hT h] at h3
    rcases Nat.lt_or_ge p (T.length - 1) with h4 | h4
    · exact h4
    · exact absurd (by rw [show T.length - 1 = p by omega]; exact hp) h3.1
  have hvals : (sa.xs.drop 1).mapM (fun sai => b.get sai) = some ((sa.xs.drop 1).map (plcpOf T sa.xs)) :=
    mapM_some _ (fun p hp => by have := hm1 p hp; rw [hb3 p (by omega), if_pos this])
  rw [hvals, sbind, map_mod _ (fun p hp => Nat.lt_of_le_of_lt (hb4 p (hm1 p hp)) hh2)]
  refine ⟨_, rfl, lcpOk_of_map hT h (by omega) ?_⟩
  show 0 :: _ = _
  conv_rhs => rw [hsa]
  rw [List.map_cons, ← hsa, sa_zero hT h, plcp_last hT h (by omega)]

/-! ### construct_lcp_semi_extern_PHI -/

theorem sphiLoop_spec (h : IsSA T SA) : ∀ (ps : List Nat) (i s : Nat) (a : Arr), SA.drop i = ps → i ≤ T.length → a.xs.length = (T.length - 1 + 64) / 64 → T.length ≤ 2 ^ a.width →
    (s = if i = 0 then 0 else sym SA (i - 1)) → (∀ r, r < i → sym SA r % 64 = 0 → a.get (sym SA r / 64) = some (phi SA (sym SA r))) →
    ∃ b, sphiLoop ps s a = some b ∧ b.xs.length = a.xs.length ∧ b.width = a.width ∧ ∀ t, t * 64 < T.length → b.get t = some (phi SA (t * 64))
  | [], i, s, a, hd, hi, hl, hw, hs, hg => by
    have hlen : T.length ≤ i := by
      have := congrArg List.length hd
      rw [List.length_drop, h.length, List.length_nil] at this
      omega
    refine ⟨a, rfl, rfl, rfl, fun t ht => ?_⟩
    obtain ⟨r, hr, he⟩ := h.surj ht
    have := hg r (by omega) (by rw [he]; omega)
    rw [he, Nat.mul_div_cancel _ (by omega)] at this
    exact this
  | p :: ps, i, s, a, hd, hi, hl, hw, hs, hg => by
    obtain ⟨h1, h2, h3⟩ := drop_eq hd
    rw [h.length] at h1
    subst h2
    have hphi : s = phi SA (sym SA i) := by
      rw [hs]
      cases i with
      | zero => rw [if_pos rfl, phi_zero h h1]
      | succ i => rw [if_neg (by omega), phi_succ h h1, Nat.add_sub_cancel]
    have hslt : s < 2 ^ a.width := by
      have := phi_lt h (h.sym_get_lt h1)
      omega
    have hlt := h.sym_get_lt h1
    rw [sphiLoop]
    by_cases hm : sym SA i % 64 = 0
    · rw [if_pos hm]
      obtain ⟨b, hb1, hb2, hb3, hb4⟩ := set_spec (a := a) (i := sym SA i / 64) (x := s) (by omega) hslt
      rw [hb1, sbind]
      obtain ⟨c, hc1, hc2, hc3, hc4⟩ := sphiLoop_spec h ps (i + 1) (sym SA i) b h3 h1 (by rw [hb2, hl]) (by rw [hb3]; exact hw)
        (by rw [if_neg (by omega), Nat.add_sub_cancel]) (fun r hr hr0 => by
          rw [hb4]
          by_cases e : sym SA r = sym SA i
          · rw [if_pos (by rw [e]), hphi, e]
          · rw [if_neg (by omega)]
            refine hg r ?_ hr0
            rcases Nat.lt_or_ge r i with h4 | h4
            · exact h4
            · exact absurd (by rw [show r = i by omega]) e)
      exact ⟨c, hc1, by rw [hc2, hb2], by rw [hc3, hb3], hc4⟩
    · rw [if_neg hm]
      exact sphiLoop_spec h ps (i + 1) (sym SA i) a h3 h1 hl hw (by rw [if_neg (by omega), Nat.add_sub_cancel]) (fun r hr hr0 => by
        refine hg r ?_ hr0
        rcases Nat.lt_or_ge r i with h4 | h4
        · exact h4
        · exact absurd (by rw [show i = r by omega]; exact hr0) hm)

theorem splcpLoop_spec (hT : IsText T) (h : IsSA T SA) (hn : 1 < T.length) :
    ∀ k i l (a : Arr), i + k = (T.length - 1 + 64) / 64 → a.xs.length = (T.length - 1 + 64) / 64 → T.length ≤ 2 ^ a.width → (i * 64 < T.length → l ≤ plcpOf T SA (i * 64)) →
      (∀ t, t * 64 < T.length → a.get t = some (if t < i then plcpOf T SA (t * 64) else phi SA (t * 64))) →
      ∃ b, splcpLoop T k i l a = some b ∧ ∀ t, t * 64 < T.length → b.get t = some (plcpOf T SA (t * 64))
  | 0, i, l, a, hk, hl, hw, hll, hg => by
    refine ⟨a, rfl, fun t ht => ?_⟩
    rw [hg t ht, if_pos (by omega)]
  | k + 1, i, l, a, hk, hl, hw, hll, hg => by
    have hil : i * 64 < T.length := by omega
    have hgi := hg i hil
    rw [if_neg (by omega)] at hgi
    rw [splcpLoop, hgi, sbind, extend_spec hT hil (phi_lt h hil) (phi_ne hT h hn hil) T.length l (hll hil) (by omega), sbind]
    rw [← plcpOf]
    have hlt := plcp_lt hT h hn hil
    have hwx : plcpOf T SA (i * 64) < 2 ^ a.width := by omega
    obtain ⟨b, hb1, hb2, hb3, hb4⟩ := set_spec (a := a) (i := i) (x := plcpOf T SA (i * 64)) (by omega) hwx
    rw [hb1, sbind]
    refine splcpLoop_spec hT h hn k (i + 1) _ b (by omega) (by rw [hb2, hl]) (by rw [hb3]; exact hw) ?_ ?_
    · intro hi1
      have := plcp_steps hT h hn (p := i * 64) 64 (by omega)
      rw [show i * 64 + 64 = (i + 1) * 64 by omega] at this
      split <;> omega
    · intro t ht
      rw [hb4]
      by_cases e : t = i
      · subst e
        rw [if_pos rfl, if_pos (by omega)]
      · rw [if_neg e, hg t ht]
        by_cases e2 : t < i
        · rw [if_pos e2, if_pos (by omega)]
        · rw [if_neg e2, if_neg (by omega)]

theorem slcpLoop_spec (hT : IsText T) (h : IsSA T SA) (hn : 1 < T.length) {a : Arr} (hg : ∀ t, t * 64 < T.length → a.get t = some (plcpOf T SA (t * 64))) :
    ∀ (ps : List Nat) (i s : Nat), SA.drop i = ps → (s = if i = 0 then 0 else sym SA (i - 1)) → slcpLoop T a ps s = some (ps.map (plcpOf T SA))
  | [], i, s, hd, hs => rfl
  | p :: ps, i, s, hd, hs => by
    obtain ⟨h1, h2, h3⟩ := drop_eq hd
    rw [h.length] at h1
    subst h2
    have hphi : s = phi SA (sym SA i) := by
      rw [hs]
      cases i with
      | zero => rw [if_pos rfl, phi_zero h h1]
      | succ i => rw [if_neg (by omega), phi_succ h h1, Nat.add_sub_cancel]
    have hlt := h.sym_get_lt h1
    rw [slcpLoop, hg _ (by omega), sbind]
    have ih := slcpLoop_spec hT h hn hg ps (i + 1) (sym SA i) h3 (by rw [if_neg (by omega), Nat.add_sub_cancel])
    by_cases hm : sym SA i % 64 = 0
    · rw [if_pos hm, sbind]
      dsimp only
      rw [ih, sbind, List.map_cons, show sym SA i / 64 * 64 = sym SA i by omega]
    · rw [if_neg hm]
      dsimp only
      have hst := plcp_steps hT h hn (p := sym SA i / 64 * 64) (sym SA i - sym SA i / 64 * 64) (by omega)
      rw [show sym SA i / 64 * 64 + (sym SA i - sym SA i / 64 * 64) = sym SA i by omega] at hst
      rw [hphi, extend_spec hT hlt (phi_lt h hlt) (phi_ne hT h hn hlt) T.length _ (by rw [← plcpOf]; split <;> omega) (by omega), sbind, ih, sbind, List.map_cons, ← plcpOf]

theorem semiExtern_spec (hT : IsText T) {sa : Arr} (h : IsSA T sa.xs) (hn : T.length < 2 ^ 64) (hf : ArrFits sa) :
    ∃ b, constructSemiExtern T sa = some b ∧ LcpOk T sa.xs b := by
  have hl := h.length
  have hp := hT.pos
  rw [constructSemiExtern]
  by_cases h1 : sa.xs.length = 1
  · rw [if_pos h1]
    refine ⟨_, rfl, by rw [Select.Arr.new_xs]; omega, ?_, fun r hr => by omega⟩
    rw [new_get 0 0 (by omega)]
    rfl
  rw [if_neg h1]
  have hw : T.length ≤ 2 ^ sa.width := by
    obtain ⟨r, hr, he⟩ := h.surj (p := T.length - 1) (by omega)
    have := hf r _ (sym_getElem? (by omega))
    omega
  obtain ⟨a, ha1, ha2, ha3, ha4⟩ := sphiLoop_spec h sa.xs 0 0 (Arr.new ((sa.xs.length - 1 + 64) / 64) 0 64) rfl (by omega) (by rw [Select.Arr.new_xs, hl])
    (by show T.length ≤ 2 ^ 64; omega) rfl (by intro r hr; omega)
  rw [Select.Arr.new_xs, hl] at ha2
  obtain ⟨b, hb1, hb2⟩ := splcpLoop_spec hT h (by omega) ((T.length - 1 + 64) / 64) 0 0 a (by omega) ha2 (by rw [ha3]; show T.length ≤ 2 ^ 64; omega) (fun _ => Nat.zero_le _)
    (fun t ht => by rw [if_neg (by omega)]; exact ha4 t ht)
  rw [ha1, sbind, ha2, hb1, sbind, slcpLoop_spec hT h (by omega) hb2 sa.xs 0 0 rfl rfl, sbind, map_mod _ (fun p hp => by
    have := plcp_lt hT h (by omega) (h.mem.1 hp)
    omega)]
  exact ⟨_, rfl, lcpOk_of_map hT h (by omega) rfl⟩

end Sdsl.Lcp
