/-
  C59: bp_support_sada, the range min-max tree over a balanced parentheses sequence (include/sdsl/bp_support_sada.hpp).

  `Sada.new mem n S D` is the constructor for the first `n` bits of `mem` with `t_sml_blk = S` and `t_med_deg = D` (the default is 256 and 32).
-/
import Verif.BpSadaBwd
import Verif.BpSadaRmq
import Verif.Props.Bp

namespace Sdsl.Props

open Spec

/-- `k` is the `d`-th ancestor of the opening parenthesis `i`: follow `Encloses` `d` times. -/
inductive Anc (b : Nat → Bool) : Nat → Nat → Nat → Prop
  | self (i) : Anc b 0 i i
  | parent {d k j i} : Anc b d j i → Encloses b k j → Anc b (d + 1) k i

/-- The pair of the opening parenthesis `k` is around the pair of the opening parenthesis `j`: `k < j` and `findclose(j) < findclose(k)`. -/
def Around (b : Nat → Bool) (k j : Nat) : Prop := k < j ∧ ∃ m m', Match b k m ∧ Match b j m' ∧ m' < m

/-! ### Unclosed parentheses -/

def Uncl (b : Nat → Bool) (k j : Nat) : Prop := b k = true ∧ k < j ∧ ∀ q, k < q → q ≤ j → Bp.exc b (k + 1) ≤ Bp.exc b q

theorem exc_open {b : Nat → Bool} {k : Nat} (h : b k = true) : Bp.exc b (k + 1) = Bp.exc b k + 1 := by
  rw [Bp.exc_succ, h]; rfl

theorem exc_close {b : Nat → Bool} {k : Nat} (h : b k = false) : Bp.exc b (k + 1) = Bp.exc b k - 1 := by
  rw [Bp.exc_succ, h]; rfl

theorem Encloses.uncl {b : Nat → Bool} {k j : Nat} (h : Encloses b k j) : Uncl b k j := by
  obtain ⟨h1, h2, h3⟩ := h.2.exc
  exact ⟨h.1, h1, fun q h4 h5 => h3 q h4 h5⟩

theorem Uncl.le {b : Nat → Bool} {k k' j : Nat} (h' : Uncl b k' j) (h : Encloses b k j) : k' ≤ k := by
  obtain ⟨h1, h2, h3⟩ := h.2.exc
  rcases Nat.lt_or_ge k k' with h4 | h4
  · have h5 := h'.2.2 j h'.2.1 (Nat.le_refl _)
    have h6 := h3 k' h4 (by have := h'.2.1; omega)
    have h7 := exc_open h'.1
    omega
  · exact h4

theorem Uncl.trans {b : Nat → Bool} {a k j : Nat} (h1 : Uncl b a k) (h2 : Uncl b k j) : Uncl b a j := by
  refine ⟨h1.1, by have := h1.2.1; have := h2.2.1; omega, fun q h3 h4 => ?_⟩
  rcases Nat.lt_or_ge k q with h5 | h5
  · have h6 := h2.2.2 q h5 h4
    have h7 := h1.2.2 k h1.2.1 (Nat.le_refl _)
    have h8 := exc_open h2.1
    omega
  · exact h1.2.2 q h3 h5

theorem Uncl.left {b : Nat → Bool} {a k j : Nat} (h : Uncl b a j) (h1 : a < k) (h2 : k ≤ j) : Uncl b a k := ⟨h.1, h1, fun q h3 h4 => h.2.2 q h3 (by omega)⟩

theorem Uncl.enclosed {b : Nat → Bool} {a j : Nat} (h : Uncl b a j) : ∃ k, Encloses b k j := by
  rcases Bp.noHitL_or_last b (Bp.exc b j - 1) a j with h1 | ⟨k, h1⟩
  · have h2 := h.2.2 j h.2.1 (Nat.le_refl _)
    have h3 := exc_open h.1
    have hj := h.2.1
    have := Bp.NoHitL.above (b := b) (t := Bp.exc b j - 1) (m := a) (k := j - a) (by rw [show a + (j - a) = j by omega]; omega) (by rw [show a + (j - a) = j by omega]; exact h1)
    omega
  · exact ⟨k, encloses_of_last h1⟩

theorem Encloses.unique {b : Nat → Bool} {k k' j : Nat} (h : Encloses b k j) (h' : Encloses b k' j) : k = k' := by
  have := h.uncl.le h'; have := h'.uncl.le h; omega

theorem Uncl.not_inside {b : Nat → Bool} {i c k j : Nat} (h : Match b i c) (hc : c < j) (hk : Uncl b k j) : k < i ∨ c < k := by
  rcases Nat.lt_or_ge k i with h1 | h1
  · exact Or.inl h1
  rcases Nat.lt_or_ge c k with h2 | h2
  · exact Or.inr h2
  exfalso
  obtain ⟨h3, h4, h5⟩ := h.2.2.exc
  have h6 := exc_close h.2.1
  have h7 := hk.2.2 (c + 1) (by omega) (by omega)
  rcases Nat.lt_or_ge i k with h8 | h8
  · have h9 := h5 k (by omega) h2
    have h10 := exc_open hk.1
    omega
  · obtain rfl : k = i := by omega
    omega

theorem around_iff {b : Nat → Bool} {n k j : Nat} (hb : Balanced b 0 n) (hj : j < n) (hbj : b j = true) : Around b k j ↔ Uncl b k j := by
  constructor
  · rintro ⟨h1, m, m', h2, h3, h4⟩
    obtain ⟨h5, h6, h7⟩ := h2.2.2.exc
    have := h3.2.2.1
    exact ⟨h2.1, h1, fun q h8 h9 => h7 q h8 (by omega)⟩
  · intro h
    have hkj := h.2.1
    obtain ⟨m, hm, h1, _⟩ := C48_match_open hb (show k < n by omega) h.1
    obtain ⟨m', hm', h2, _⟩ := C48_match_open hb hj hbj
    refine ⟨h.2.1, m, m', h1, h2, ?_⟩
    obtain ⟨h3, h4, h5⟩ := h1.2.2.exc
    obtain ⟨h6, h7, h8⟩ := h2.2.2.exc
    have h9 := exc_close h1.2.1
    have h10 := exc_close h2.2.1
    have h11 := exc_open hbj
    have h12 := h.2.2 j hkj (Nat.le_refl _)
    rcases Nat.lt_or_ge m j with h13 | h13
    · have := h.2.2 (m + 1) (by omega) (by omega); omega
    rcases Nat.eq_or_lt_of_le h13 with rfl | h13
    · rw [h1.2.1] at hbj; cases hbj
    rcases Nat.lt_trichotomy m m' with h14 | rfl | h14
    · have := h8 (m + 1) (by omega) (by omega); omega
    · omega
    · exact h14

/-- The last position at which the excess is `d` less than at `i`. -/
def LastAt (b : Nat → Bool) (d i k : Nat) : Prop := k ≤ i ∧ Bp.exc b k = Bp.exc b i - d ∧ ∀ q, k < q → q ≤ i → Bp.exc b i - d < Bp.exc b q

theorem Anc.lastAt {b : Nat → Bool} {d k i : Nat} (h : Anc b d k i) : LastAt b d i k := by
  induction h with
  | self i => exact ⟨Nat.le_refl _, by simp, fun q h1 h2 => by omega⟩
  | @parent d k j i h1 h2 ih =>
    obtain ⟨g1, g2, g3⟩ := ih
    obtain ⟨g4, g5, g6⟩ := h2.2.exc
    have g7 := exc_open h2.1
    refine ⟨by omega, by push_cast; omega, fun q g8 g9 => ?_⟩
    push_cast
    rcases Nat.lt_or_ge j q with g10 | g10
    · have := g3 q g10 g9; omega
    · have := g6 q g8 g10; omega

theorem LastAt.anc {b : Nat → Bool} {i : Nat} : ∀ {d k : Nat}, LastAt b d i k → Anc b d k i := by
  intro d
  induction d with
  | zero =>
    intro k h
    obtain ⟨g1, g2, g3⟩ := h
    rcases Nat.lt_or_ge k i with h1 | h1
    · have := g3 i h1 (Nat.le_refl _); omega
    · obtain rfl : k = i := by omega
      exact Anc.self _
  | succ d ih =>
    intro k h
    obtain ⟨g1, g2, g3⟩ := h
    push_cast at g2 g3
    rcases Bp.noHitL_or_last b (Bp.exc b i - d) k (i + 1) with h1 | ⟨j, h1⟩
    · rcases Nat.eq_or_lt_of_le g1 with rfl | g4
      · omega
      rcases Nat.eq_zero_or_pos d with rfl | hd
      · exact absurd (by simp) (h1 i g1 (by omega))
      have := Bp.NoHitL.above (b := b) (t := Bp.exc b i - d) (m := k) (k := i - k) (by rw [show k + (i - k) = i by omega]; omega)
        (by rw [show k + (i - k) = i by omega]; exact fun q h2 h3 => h1 q h2 (by omega))
      omega
    · obtain ⟨h2, h3, h4, h5⟩ := h1
      have hkj : k < j := by
        rcases Nat.eq_or_lt_of_le h2 with rfl | h6
        · omega
        · exact h6
      have hj : LastAt b d i j := by
        refine ⟨by omega, h4, fun q h6 h7 => ?_⟩
        rcases Nat.eq_zero_or_pos d with rfl | hd
        · exfalso; exact h5 i (by omega) (by omega) (by simp)
        · exact Bp.NoHitL.above (b := b) (m := q) (k := i - q) (by rw [show q + (i - q) = i by omega]; omega) (fun r h8 h9 => h5 r (by omega) (by omega))
      refine Anc.parent (ih hj) (encloses_of_last (m := k) ⟨Nat.le_refl _, hkj, by omega, fun q h6 h7 => ?_⟩)
      have := g3 q h6 (by omega)
      omega

/-! ### The operations -/

theorem after_ok {s : Bp.Sada} {t : Int} {p : Nat} (hb : 2 * s.n + 2 < 2 ^ 64) (hp : p ≤ s.n) : s.after (Bp.bwdRes s.n t p) = if 0 < p then p else if t = 0 then 0 else s.n := by
  rw [Bp.Sada.after, Bp.bwdRes]
  rcases Nat.eq_zero_or_pos p with rfl | h
  · rw [if_neg (show ¬ 0 < 0 by omega), if_neg (show ¬ 0 < 0 by omega)]
    by_cases ht : t = 0
    · rw [if_pos ht, if_pos ht, if_neg (by omega)]
    · rw [if_neg ht, if_neg ht, if_pos rfl]
  · rw [if_pos h, if_pos h, if_neg (by omega)]
    omega

/-- What a search for the last position with excess `t` yields. -/
theorem bwd_found {s : Bp.Sada} {K : Nat} (ok : Bp.SadaOk s K) (h8 : s.S % 8 = 0) (hD : 2 ≤ s.D) {i k : Nat} {rel : Int} (hi : i < s.n) (hi0 : 0 < i)
    (hti : Bp.exc (bitAt s.mem) (i + 1) + rel ≤ Bp.exc (bitAt s.mem) i) (hrel : Bp.exc (bitAt s.mem) (i + 1) + rel < 0 → rel ≠ -1) (hk : k ≤ i)
    (h1 : Bp.exc (bitAt s.mem) k = Bp.exc (bitAt s.mem) (i + 1) + rel) (h2 : ∀ q, k < q → q ≤ i → Bp.exc (bitAt s.mem) q ≠ Bp.exc (bitAt s.mem) (i + 1) + rel) :
    ∃ j, s.bwdExcess i rel = some j ∧ s.after j = k := by
  refine ⟨_, Bp.bwdExcess_ok ok h8 hD hi hi0 rfl hti hrel ⟨hk, Or.inr h1, h2⟩, ?_⟩
  rw [after_ok ok.bound (by omega)]
  rcases Nat.eq_zero_or_pos k with rfl | h
  · rw [if_neg (by omega), if_pos (by rw [← h1]; rfl)]
  · rw [if_pos h]

theorem bwd_none {s : Bp.Sada} {K : Nat} (ok : Bp.SadaOk s K) (h8 : s.S % 8 = 0) (hD : 2 ≤ s.D) {i : Nat} {rel : Int} (hi : i < s.n) (hi0 : 0 < i)
    (hti : Bp.exc (bitAt s.mem) (i + 1) + rel ≤ Bp.exc (bitAt s.mem) i) (hrel : Bp.exc (bitAt s.mem) (i + 1) + rel < 0 → rel ≠ -1)
    (h2 : ∀ q, q ≤ i → Bp.exc (bitAt s.mem) q ≠ Bp.exc (bitAt s.mem) (i + 1) + rel) :
    ∃ j, s.bwdExcess i rel = some j ∧ s.after j = s.n := by
  refine ⟨_, Bp.bwdExcess_ok ok h8 hD hi hi0 rfl hti hrel ⟨Nat.zero_le _, Or.inl rfl, fun q _ h => h2 q h⟩, ?_⟩
  rw [after_ok ok.bound (Nat.zero_le _), if_neg (by omega), if_neg (fun h => h2 0 (Nat.zero_le _) (by rw [h]; rfl))]

/-- `enclose` of the code, for both kinds of parentheses. -/
theorem enclose_ok {s : Bp.Sada} {K : Nat} (ok : Bp.SadaOk s K) (h8 : s.S % 8 = 0) (hD : 2 ≤ s.D) {i : Nat} (hi : i < s.n) (hi0 : bitAt s.mem i = true ∨ 0 < i) :
    ∃ k, s.enclose i = some k ∧ (Encloses (bitAt s.mem) k i ∨ k = s.n ∧ ∀ a, ¬ Uncl (bitAt s.mem) a i) := by
  have hn := ok.hn
  have key : ∀ rel : Int, 0 < i → Bp.exc (bitAt s.mem) (i + 1) + rel = Bp.exc (bitAt s.mem) i - 1 → rel ≠ -1 → ∃ j, s.bwdExcess i rel = some j ∧
      (Encloses (bitAt s.mem) (s.after j) i ∨ s.after j = s.n ∧ ∀ a, ¬ Uncl (bitAt s.mem) a i) := by
    intro rel hi0 ht hr
    rcases Bp.noHitL_or_last (bitAt s.mem) (Bp.exc (bitAt s.mem) i - 1) 0 i with h1 | ⟨k, h1⟩
    · obtain ⟨j, e, ha⟩ := bwd_none ok h8 hD hi hi0 (by omega) (fun _ => hr) (fun q hq => by
        rcases Nat.eq_or_lt_of_le hq with rfl | hq
        · omega
        · have := h1 q (Nat.zero_le _) hq; omega)
      refine ⟨j, e, Or.inr ⟨ha, fun a h2 => ?_⟩⟩
      obtain ⟨k, h3⟩ := h2.enclosed
      have h4 := h3.last (m := 0) (Nat.zero_le _)
      exact h1 k (Nat.zero_le _) h4.2.1 h4.2.2.1
    · obtain ⟨j, e, ha⟩ := bwd_found ok h8 hD (k := k) hi hi0 (by omega) (fun _ => hr) (by have := h1.2.1; omega) (by rw [ht]; exact h1.2.2.1) (fun q h3 h4 => by
        rcases Nat.eq_or_lt_of_le h4 with rfl | h4
        · omega
        · have := h1.2.2.2 q h3 h4; omega)
      exact ⟨j, e, Or.inl (by rw [ha]; exact encloses_of_last h1)⟩
  rw [Bp.Sada.enclose, Bp.bit_eq (by omega), sbind]
  cases hb : bitAt s.mem i with
  | true =>
    rw [if_pos rfl]
    rcases Nat.eq_zero_or_pos i with rfl | hi0
    · rw [Bp.Sada.bwdExcess, if_pos rfl, if_neg (by decide), sbind]
      exact ⟨_, rfl, Or.inr ⟨by rw [Bp.Sada.after, if_pos rfl], fun a h => by have := h.2.1; omega⟩⟩
    · obtain ⟨j, e, h⟩ := key (-2) hi0 (by have := exc_open hb; omega) (by decide)
      rw [e, sbind]
      exact ⟨_, rfl, h⟩
  | false =>
    rw [if_neg (by decide), Bp.Sada.findOpen, Bp.bit_eq (by omega), sbind, hb, if_neg (by decide)]
    obtain ⟨j, e, h⟩ := key 0 (by rcases hi0 with h | h; · rw [h] at hb; cases hb
                                  · exact h) (by have := exc_close hb; omega) (by decide)
    rw [e, sbind]
    exact ⟨_, rfl, h⟩

/-- `rmq_open` of the code. -/
theorem rmqOpen_ok {s : Bp.Sada} {K : Nat} (ok : Bp.SadaOk s K) (h8 : s.S % 8 = 0) (hD : 2 ≤ s.D) {l r : Nat} (hr : r < s.n) :
    ∃ k, s.rmqOpen l r = some k ∧ (l ≤ k ∧ Uncl (bitAt s.mem) k r ∧ (∀ a, l ≤ a → a < k → ¬ Uncl (bitAt s.mem) a r) ∨ k = s.n ∧ ∀ a, l ≤ a → ¬ Uncl (bitAt s.mem) a r) := by
  have hn := ok.hn
  rw [Bp.Sada.rmqOpen]
  by_cases hlr : l ≥ r
  · rw [if_pos hlr]
    exact ⟨_, rfl, Or.inr ⟨rfl, fun a h1 h2 => by have := h2.2.1; omega⟩⟩
  · rw [if_neg hlr]
    obtain ⟨p, e, g1, g2, g3, g4⟩ := Bp.rmq_ok ok (l := l) (r := r - 1) (by omega) (by omega)
    unfold Bp.ex1 at g3 g4
    rw [e, sbind, Bp.bit_eq (by omega), sbind]
    -- an unclosed parenthesis after `l` has minimal excess behind it
    have low : ∀ a, l ≤ a → a ≤ p → Uncl (bitAt s.mem) a r → a = l ∧ Bp.exc (bitAt s.mem) (l + 1) = Bp.exc (bitAt s.mem) (p + 1) := by
      intro a h1 h2 h3
      have h4 := h3.2.2 (p + 1) (by omega) (by omega)
      have h5 := g3 a h1 (by omega)
      have h6 := exc_open h3.1
      rcases Nat.eq_or_lt_of_le h1 with rfl | h1
      · exact ⟨rfl, by omega⟩
      · have := g3 (a - 1) (by omega) (by omega)
        rw [show a - 1 + 1 = a by omega] at this
        omega
    have enc : ∀ k j, Encloses (bitAt s.mem) k j → j = p + 1 → l ≤ k → k = l ∧ Uncl (bitAt s.mem) l r := by
      intro k j h1 hj h2
      subst hj
      obtain ⟨h3, h4, h5⟩ := h1.2.exc
      have h6 := exc_open h1.1
      have hkl : k = l := by
        rcases Nat.eq_or_lt_of_le h2 with rfl | h7
        · rfl
        · have := g3 (k - 1) (by omega) (by omega)
          rw [show k - 1 + 1 = k by omega] at this
          omega
      subst hkl
      refine ⟨rfl, h1.1, by omega, fun q h7 h8 => ?_⟩
      have := g3 (q - 1) (by omega) (by omega)
      rw [show q - 1 + 1 = q by omega] at this
      omega
    cases hb : bitAt s.mem p with
    | true =>
      rw [if_pos rfl]
      have h6 := exc_open hb
      have hpl : p = l := by
        rcases Nat.eq_or_lt_of_le g1 with h7 | h7
        · exact h7.symm
        · have := g3 (p - 1) (by omega) (by omega)
          rw [show p - 1 + 1 = p by omega] at this
          omega
      subst hpl
      refine ⟨_, rfl, Or.inl ⟨Nat.le_refl _, ⟨hb, by omega, fun q h7 h8 => ?_⟩, fun a h1 h2 => by omega⟩⟩
      have := g3 (q - 1) (by omega) (by omega)
      rwa [show q - 1 + 1 = q by omega] at this
    | false =>
      rw [if_neg (by decide)]
      by_cases hp : p + 1 < r
      · rw [if_pos hp]
        have hb1 : bitAt s.mem (p + 1) = true := by
          have := g4 (p + 1) (by omega) (by omega)
          rcases Bp.sgn_cases (bitAt s.mem (p + 1)) with ⟨h1, h2⟩ | ⟨h1, h2⟩
          · exact h1
          · have h3 := Bp.exc_succ (bitAt s.mem) (p + 1); omega
        have hu : Uncl (bitAt s.mem) (p + 1) r := by
          refine ⟨hb1, hp, fun q h1 h2 => ?_⟩
          have := g4 (q - 1) (by omega) (by omega)
          rw [show q - 1 + 1 = q by omega] at this
          have := exc_open hb1
          omega
        obtain ⟨k, e, hk⟩ := enclose_ok ok h8 hD (i := p + 1) (by omega) (Or.inl hb1)
        rw [e, sbind]
        have rest : (k < l ∨ k = s.n) → ∀ a, l ≤ a → a < p + 1 → ¬ Uncl (bitAt s.mem) a r := by
          intro hkl a h1 h2 h3
          obtain ⟨rfl, h4⟩ := low a h1 (by omega) h3
          have h5 : Uncl (bitAt s.mem) a (p + 1) := h3.left (by omega) (by omega)
          rcases hk with hk | ⟨_, hk⟩
          · have := h5.le hk
            have := hk.2.1
            omega
          · exact hk a h5
        by_cases hkl : k < l ∨ k = s.n
        · rw [if_pos hkl]
          exact ⟨_, rfl, Or.inl ⟨by omega, hu, rest hkl⟩⟩
        · rw [if_neg hkl]
          rcases hk with hk | ⟨hk, _⟩
          · obtain ⟨rfl, h1⟩ := enc k _ hk rfl (by omega)
            exact ⟨_, rfl, Or.inl ⟨Nat.le_refl _, h1, fun a h1 h2 => by omega⟩⟩
          · omega
      · rw [if_neg hp, if_pos (by omega)]
        obtain ⟨k, e, hk⟩ := enclose_ok ok h8 hD (i := p + 1) (by omega) (Or.inr (by omega))
        rw [e, sbind]
        by_cases hkl : k ≥ l
        · rw [if_pos hkl]
          rcases hk with hk | ⟨hk, h2⟩
          · obtain ⟨rfl, h1⟩ := enc k _ hk rfl hkl
            exact ⟨_, rfl, Or.inl ⟨Nat.le_refl _, h1, fun a h1 h2 => by omega⟩⟩
          · refine ⟨_, rfl, Or.inr ⟨hk, fun a _ h3 => h2 a ?_⟩⟩
            rw [show p + 1 = r by omega]; exact h3
        · rw [if_neg hkl]
          refine ⟨_, rfl, Or.inr ⟨rfl, fun a h1 h3 => ?_⟩⟩
          rcases hk with hk | ⟨hk, h2⟩
          · rw [show p + 1 = r by omega] at hk
            have := h3.le hk
            omega
          · rw [show p + 1 = r by omega] at h2
            exact h2 a h3

theorem new_ok {mem : Mem} {n S D : Nat} {s : Bp.Sada} (hn : n ≤ 64 * mem.length) (hb : 2 * n + 2 < 2 ^ 64) (pS : 0 < S) (bS : S + 2 < 2 ^ 64) (pD : 0 < D) (pn : 0 < n)
    (h : Bp.Sada.new mem n S D = some s) : ∃ K, s.mem = mem ∧ s.n = n ∧ s.S = S ∧ s.D = D ∧ Bp.SadaOk s K := by
  obtain ⟨s', K, h1, h2⟩ := Bp.Sada.new_ok hn pn pS pD bS hb
  obtain rfl : s = s' := by rw [h1] at h; exact (Option.some.inj h).symm
  exact ⟨K, h2⟩

/-! ### The property -/

section

variable {mem : Mem} {n S D : Nat} {s : Bp.Sada} (hn : n ≤ 64 * mem.length) (hb : 2 * n + 2 < 2 ^ 64) (pS : 0 < S) (bS : S + 2 < 2 ^ 64)
include hn hb pS bS

/-- **C59**, the constructor reads and writes only inside of its vectors, whatever the sequence and the block sizes are. -/
theorem C59_construct (pD : 0 < D) : ∃ s, Bp.Sada.new mem n S D = some s ∧ s.n = n := by
  rcases Nat.eq_zero_or_pos n with rfl | pn
  · exact ⟨_, by rw [Bp.Sada.new]; dsimp only; rw [if_pos rfl], rfl⟩
  · obtain ⟨s, K, h1, _, h2, _⟩ := Bp.Sada.new_ok hn pn pS pD bS hb
    exact ⟨s, h1, h2⟩

/-- **C59**, `excess`. -/
theorem C59_excess (pD : 0 < D) (h : Bp.Sada.new mem n S D = some s) {i : Nat} (hi : i < n) : s.excess i = some (net (bitAt mem) 0 (i + 1)) := by
  obtain ⟨K, rfl, rfl, rfl, rfl, ok⟩ := new_ok hn hb pS bS pD (by omega) h
  rw [Bp.excess_ok hi, net_eq _ (by omega), show Bp.exc (bitAt s.mem) 0 = 0 by rfl, Int.sub_zero]

/-- **C59**, `find_close` yields the matching parenthesis, for all block sizes. -/
theorem C59_find_close (pD : 0 < D) (h : Bp.Sada.new mem n S D = some s) {i j : Nat} (hm : Match (bitAt mem) i j) (hj : j < n) : s.findClose i = some j := by
  obtain ⟨K, rfl, rfl, rfl, rfl, ok⟩ := new_ok hn hb pS bS pD (by omega) h
  have hij := hm.2.2.1
  rw [Bp.Sada.findClose, Bp.bit_eq (by omega), sbind, hm.1, if_pos rfl]
  exact Bp.fwdExcess_ok ok (by omega) (by decide) (hm.first hj)

/-- **C59**, `find_close` of a closing parenthesis. -/
theorem C59_find_close_close (pD : 0 < D) (h : Bp.Sada.new mem n S D = some s) {i : Nat} (hi : i < n) (hc : bitAt mem i = false) : s.findClose i = some i := by
  obtain ⟨K, rfl, rfl, rfl, rfl, ok⟩ := new_ok hn hb pS bS pD (by omega) h
  rw [Bp.Sada.findClose, Bp.bit_eq (by omega), sbind, hc, if_neg (by decide)]

/-- **C59**, `find_open` yields the matching parenthesis if the small blocks consist of whole bytes and a medium block has at least two small ones. -/
theorem C59_find_open (h8 : S % 8 = 0) (hD : 2 ≤ D) (h : Bp.Sada.new mem n S D = some s) {i j : Nat} (hm : Match (bitAt mem) i j) (hj : j < n) : s.findOpen j = some i := by
  obtain ⟨K, rfl, rfl, rfl, rfl, ok⟩ := new_ok hn hb pS bS (by omega) (by omega) h
  have hij := hm.2.2.1
  obtain ⟨k, e, h1⟩ := enclose_ok ok h8 hD hj (Or.inr (by omega))
  rw [Bp.Sada.enclose, Bp.bit_eq (by omega), sbind, hm.2.1, if_neg (by decide)] at e
  rw [e]
  have h2 : Encloses (bitAt s.mem) i j := ⟨hm.1, hm.2.2⟩
  rcases h1 with h1 | ⟨_, h1⟩
  · rw [h1.unique h2]
  · exact absurd h2.uncl (h1 i)

/-- **C59**, `find_open` of an opening parenthesis. -/
theorem C59_find_open_open (pD : 0 < D) (h : Bp.Sada.new mem n S D = some s) {i : Nat} (hi : i < n) (hc : bitAt mem i = true) : s.findOpen i = some i := by
  obtain ⟨K, rfl, rfl, rfl, rfl, ok⟩ := new_ok hn hb pS bS pD (by omega) h
  rw [Bp.Sada.findOpen, Bp.bit_eq (by omega), sbind, hc, if_pos rfl]

/-- **C59**, `enclose`: the opening parenthesis of the closest pair around `i`. -/
theorem C59_enclose (h8 : S % 8 = 0) (hD : 2 ≤ D) (h : Bp.Sada.new mem n S D = some s) {k i : Nat} (hi : i < n) (hk : Encloses (bitAt mem) k i) : s.enclose i = some k := by
  obtain ⟨K, rfl, rfl, rfl, rfl, ok⟩ := new_ok hn hb pS bS (by omega) (by omega) h
  obtain ⟨k', e, h1⟩ := enclose_ok ok h8 hD hi (Or.inr (by have := hk.2.1; omega))
  rw [e]
  rcases h1 with h1 | ⟨_, h1⟩
  · rw [h1.unique hk]
  · exact absurd hk.uncl (h1 k)

/-- **C59**, `enclose` without a pair around `i`. -/
theorem C59_enclose_none (h8 : S % 8 = 0) (hD : 2 ≤ D) (h : Bp.Sada.new mem n S D = some s) {i : Nat} (hi : i < n) (ho : bitAt mem i = true) (hk : ∀ k, ¬ Encloses (bitAt mem) k i) :
    s.enclose i = some n := by
  obtain ⟨K, rfl, rfl, rfl, rfl, ok⟩ := new_ok hn hb pS bS (by omega) (by omega) h
  obtain ⟨k', e, h1⟩ := enclose_ok ok h8 hD hi (Or.inl ho)
  rw [e]
  rcases h1 with h1 | ⟨h1, _⟩
  · exact absurd h1 (hk k')
  · rw [h1]

/-- **C59**, `level_anc`: the `d`-th ancestor of an opening parenthesis; for the parenthesis 0 only if `d > 0` (there `level_anc` is wrong, see below). -/
theorem C59_level_anc_partial (h8 : S % 8 = 0) (hD : 2 ≤ D) (h : Bp.Sada.new mem n S D = some s) (bal : Balanced (bitAt mem) 0 n) {i d k : Nat} (hi : i < n) (hi0 : 0 < i ∨ 0 < d)
    (ho : bitAt mem i = true) (hk : Anc (bitAt mem) d k i) : s.levelAnc i d = some k := by
  obtain ⟨K, rfl, rfl, rfl, rfl, ok⟩ := new_ok hn hb pS bS (by omega) (by omega) h
  obtain ⟨h1, h2, h3⟩ := hk.lastAt
  have h4 := exc_open ho
  have hbi := bal.exc.2.2 i (Nat.zero_le _) (by omega)
  rw [show Bp.exc (bitAt s.mem) 0 = 0 by rfl] at hbi
  rcases Nat.eq_zero_or_pos i with rfl | hi0
  · have hk0 : k = 0 := by omega
    subst hk0
    omega
  · obtain ⟨j, e, ha⟩ := bwd_found ok h8 hD (rel := -(d : Int) - 1) (k := k) hi hi0 (by omega) (by omega) h1 (by omega) (fun q g1 g2 => by have := h3 q g1 g2; omega)
    rw [Bp.Sada.levelAnc, e, sbind, ha]

/-- **C59**, `level_anc` if there is no such ancestor. -/
theorem C59_level_anc_none (h8 : S % 8 = 0) (hD : 2 ≤ D) (h : Bp.Sada.new mem n S D = some s) {i d : Nat} (hi : i < n)
    (ho : bitAt mem i = true) (hk : ∀ k, ¬ Anc (bitAt mem) d k i) : s.levelAnc i d = some n := by
  obtain ⟨K, rfl, rfl, rfl, rfl, ok⟩ := new_ok hn hb pS bS (by omega) (by omega) h
  have hd : 0 < d := by
    rcases Nat.eq_zero_or_pos d with rfl | h1
    · exact absurd (Anc.self i) (hk i)
    · exact h1
  rcases Nat.eq_zero_or_pos i with rfl | hi0
  · rw [Bp.Sada.levelAnc, Bp.Sada.bwdExcess, if_pos rfl, if_neg (by omega), sbind, Bp.Sada.after, if_pos rfl]
  · have h4 := exc_open ho
    have no : ∀ q, q ≤ i → Bp.exc (bitAt s.mem) q ≠ Bp.exc (bitAt s.mem) (i + 1) + (-(d : Int) - 1) := by
      intro q hq hE
      rcases Bp.noHitL_or_last (bitAt s.mem) (Bp.exc (bitAt s.mem) i - d) 0 (i + 1) with h1 | ⟨k, h1⟩
      · exact h1 q (Nat.zero_le _) (by omega) (by omega)
      · exact hk k (LastAt.anc ⟨by have := h1.2.1; omega, h1.2.2.1, fun q g1 g2 =>
          Bp.NoHitL.above (b := bitAt s.mem) (m := q) (k := i - q) (by rw [show q + (i - q) = i by omega]; omega) (fun r h8 h9 => h1.2.2.2 r (by omega) (by omega))⟩)
    obtain ⟨j, e, ha⟩ := bwd_none ok h8 hD (rel := -(d : Int) - 1) hi hi0 (by omega) (by omega) no
    rw [Bp.Sada.levelAnc, e, sbind, ha]

/-- **C59**, `rmq`: the last position with minimal excess in `[l, r]`, for all block sizes. -/
theorem C59_rmq (pD : 0 < D) (h : Bp.Sada.new mem n S D = some s) {l r : Nat} (hlr : l ≤ r) (hr : r < n) :
    ∃ p, s.rmq l r = some p ∧ l ≤ p ∧ p ≤ r ∧ (∀ q, l ≤ q → q ≤ r → net (bitAt mem) 0 (p + 1) ≤ net (bitAt mem) 0 (q + 1)) ∧
      ∀ q, p < q → q ≤ r → net (bitAt mem) 0 (p + 1) < net (bitAt mem) 0 (q + 1) := by
  obtain ⟨K, rfl, rfl, rfl, rfl, ok⟩ := new_ok hn hb pS bS pD (by omega) h
  obtain ⟨p, e, h1, h2, h3, h4⟩ := Bp.rmq_ok ok hlr hr
  refine ⟨p, e, h1, h2, fun q g1 g2 => ?_, fun q g1 g2 => ?_⟩
  · have := h3 q g1 g2
    rw [net_eq _ (by omega), net_eq _ (by omega)]; unfold Bp.ex1 at this; omega
  · have := h4 q g1 g2
    rw [net_eq _ (by omega), net_eq _ (by omega)]; unfold Bp.ex1 at this; omega

/-- **C59**, `rmq_open`: the first opening parenthesis in `[l, r)` that is not closed before `r`; `size()` if there is none. -/
theorem C59_rmq_open (h8 : S % 8 = 0) (hD : 2 ≤ D) (h : Bp.Sada.new mem n S D = some s) {l r : Nat} (hr : r < n) :
    ∃ k, s.rmqOpen l r = some k ∧
      (l ≤ k ∧ k < r ∧ bitAt mem k = true ∧ (¬ ∃ j, j < r ∧ Match (bitAt mem) k j) ∧ (∀ a, l ≤ a → a < k → bitAt mem a = true → ∃ j, j < r ∧ Match (bitAt mem) a j) ∨
        k = n ∧ ∀ a, l ≤ a → a < r → bitAt mem a = true → ∃ j, j < r ∧ Match (bitAt mem) a j) := by
  obtain ⟨K, rfl, rfl, rfl, rfl, ok⟩ := new_ok hn hb pS bS (by omega) (by omega) h
  obtain ⟨k, e, h1⟩ := rmqOpen_ok ok h8 hD (l := l) hr
  have un : ∀ a, a < r → bitAt s.mem a = true → ¬ Uncl (bitAt s.mem) a r → ∃ j, j < r ∧ Match (bitAt s.mem) a j := fun a g1 g2 g3 =>
    Classical.not_not.1 (fun g4 => g3 ⟨g2, g1, (unclosed_iff g2).1 g4⟩)
  refine ⟨k, e, ?_⟩
  rcases h1 with ⟨g1, g2, g3⟩ | ⟨g1, g2⟩
  · exact Or.inl ⟨g1, g2.2.1, g2.1, (unclosed_iff g2.1).2 g2.2.2, fun a g4 g5 g6 => un a (by have := g2.2.1; omega) g6 (g3 a g4 g5)⟩
  · exact Or.inr ⟨g1, fun a g4 g5 g6 => un a g5 g6 (g2 a g4)⟩

theorem rrEnclose_ok (h8 : S % 8 = 0) (hD : 2 ≤ D) (h : Bp.Sada.new mem n S D = some s) {i c j : Nat} (hm : Match (bitAt mem) i c) (hc : c < n) (hj : j < n) :
    ∃ k, s.rrEnclose i j = some k ∧ (c < k ∧ Uncl (bitAt mem) k j ∧ (∀ a, c < a → a < k → ¬ Uncl (bitAt mem) a j) ∨ k = n ∧ ∀ a, c < a → ¬ Uncl (bitAt mem) a j) := by
  have hf := C59_find_close hn hb pS bS (by omega) h hm hc
  obtain ⟨K, rfl, rfl, rfl, rfl, ok⟩ := new_ok hn hb pS bS (by omega) (by omega) h
  rw [Bp.Sada.rrEnclose, hf, sbind]
  by_cases hcj : c + 1 ≥ j
  · rw [if_pos hcj]
    exact ⟨_, rfl, Or.inr ⟨rfl, fun a h1 h2 => by have := h2.2.1; omega⟩⟩
  · rw [if_neg hcj]
    obtain ⟨k, e, h1⟩ := rmqOpen_ok ok h8 hD (l := c + 1) hj
    exact ⟨k, e, h1⟩

/-- **C59**, `rr_enclose(i, j)`: the first opening parenthesis `k` behind the pair of `i` whose pair is around the pair of `j`; `size()` if there is none. -/
theorem C59_rr_enclose (h8 : S % 8 = 0) (hD : 2 ≤ D) (h : Bp.Sada.new mem n S D = some s) (bal : Balanced (bitAt mem) 0 n) {i c j : Nat} (hm : Match (bitAt mem) i c) (hc : c < n)
    (hj : j < n) (ho : bitAt mem j = true) :
    ∃ k, s.rrEnclose i j = some k ∧ (c < k ∧ Around (bitAt mem) k j ∧ (∀ a, c < a → a < k → ¬ Around (bitAt mem) a j) ∨ k = n ∧ ∀ a, c < a → ¬ Around (bitAt mem) a j) := by
  obtain ⟨k, e, h1⟩ := rrEnclose_ok hn hb pS bS h8 hD h hm hc hj
  refine ⟨k, e, ?_⟩
  simp only [around_iff bal hj ho]
  exact h1

/-- **C59**, `double_enclose(i, j)` for an `i` whose pair is before `j`: the last opening parenthesis before `i` whose pair is around both; `size()` if there is none. -/
theorem C59_double_enclose (h8 : S % 8 = 0) (hD : 2 ≤ D) (h : Bp.Sada.new mem n S D = some s) (bal : Balanced (bitAt mem) 0 n) {i c j : Nat} (hm : Match (bitAt mem) i c) (hc : c < j)
    (hj : j < n) (ho : bitAt mem j = true) :
    ∃ k, s.doubleEnclose i j = some k ∧ (k < i ∧ Around (bitAt mem) k i ∧ Around (bitAt mem) k j ∧ (∀ a, k < a → a < i → ¬ Around (bitAt mem) a j) ∨
      k = n ∧ ∀ a, a < i → ¬ Around (bitAt mem) a j) := by
  obtain ⟨k, e, h1⟩ := rrEnclose_ok hn hb pS bS h8 hD h hm (by omega) hj
  have hic := hm.2.2.1
  have hoi := hm.1
  obtain ⟨K, rfl, rfl, rfl, rfl, ok⟩ := new_ok hn hb pS bS (by omega) (by omega) h
  rw [Bp.Sada.doubleEnclose, e, sbind]
  simp only [around_iff bal hj ho, around_iff bal (show i < s.n by omega) hm.1]
  have fin : ∀ x, x ≤ j → (x = j ∨ Uncl (bitAt s.mem) x j) → c < x → (∀ a, c < a → a < x → ¬ Uncl (bitAt s.mem) a j) → x < s.n → bitAt s.mem x = true →
      ∃ k, s.enclose x = some k ∧ (k < i ∧ Uncl (bitAt s.mem) k i ∧ Uncl (bitAt s.mem) k j ∧ (∀ a, k < a → a < i → ¬ Uncl (bitAt s.mem) a j) ∨
        k = s.n ∧ ∀ a, a < i → ¬ Uncl (bitAt s.mem) a j) := by
    intro x hx hxj hcx hmin hxn hxo
    obtain ⟨y, e, hy⟩ := enclose_ok ok h8 hD hxn (Or.inl hxo)
    refine ⟨y, e, ?_⟩
    rcases hy with hy | ⟨rfl, hy⟩
    · have hyj : Uncl (bitAt s.mem) y j := by
        rcases hxj with rfl | hxj
        · exact hy.uncl
        · exact hy.uncl.trans hxj
      have hyx := hy.uncl.2.1
      have hyi : y < i := by
        rcases Uncl.not_inside hm hc hyj with h2 | h2
        · exact h2
        · exact absurd hyj (hmin y h2 hyx)
      exact Or.inl ⟨hyi, hyj.left hyi (by omega), hyj, fun a h2 h3 h4 => by
        have := (h4.left (show a < x by omega) hx).le hy
        omega⟩
    · exact Or.inr ⟨rfl, fun a h2 h3 => hy a (h3.left (by omega) hx)⟩
  rcases h1 with ⟨h2, h3, h4⟩ | ⟨rfl, h2⟩
  · have h5 := h3.2.1
    rw [if_neg (by omega)]
    exact fin k (by omega) (Or.inr h3) h2 h4 (by omega) h3.1
  · rw [if_pos rfl]
    exact fin j (Nat.le_refl _) (Or.inl rfl) hc (fun a h3 _ => h2 a h3) hj ho

/-- **C59**, `rr_enclose_naive` yields the same. -/
theorem C59_rr_enclose_naive (h8 : S % 8 = 0) (hD : 2 ≤ D) (h : Bp.Sada.new mem n S D = some s) {i c j : Nat} (hm : Match (bitAt mem) i c) (hc : c < j)
    (hj : j < n) (ho : bitAt mem j = true) : s.rrEncloseNaive i j = s.rrEnclose i j := by
  have hf := C59_find_close hn hb pS bS (by omega) h hm (by omega)
  obtain ⟨x, e, h1⟩ := rrEnclose_ok hn hb pS bS h8 hD h hm (by omega) hj
  have hic := hm.2.2.1
  obtain ⟨K, rfl, rfl, rfl, rfl, ok⟩ := new_ok hn hb pS bS (by omega) (by omega) h
  rw [e, Bp.Sada.rrEncloseNaive, hf, sbind]
  obtain ⟨k, e2, hk⟩ := enclose_ok ok h8 hD hj (Or.inl ho)
  rw [e2, sbind]
  have loop : ∀ f k, k < f → c < k → Uncl (bitAt s.mem) k j → s.naiveLoop c f k = some x := by
    intro f
    induction f with
    | zero => intro k hk; omega
    | succ f ih =>
      intro k hkf hck hkj
      have hkj2 := hkj.2.1
      obtain ⟨y, e3, hy⟩ := enclose_ok ok h8 hD (show k < s.n by omega) (Or.inl hkj.1)
      rw [Bp.Sada.naiveLoop, e3, sbind]
      by_cases hif : y ≠ s.n ∧ y > c
      · rw [if_pos hif]
        rcases hy with hy | ⟨hy, _⟩
        · exact ih y (by have := hy.uncl.2.1; omega) hif.2 (hy.uncl.trans hkj)
        · exact absurd hy hif.1
      · rw [if_neg hif]
        have no : ∀ a, c < a → a < k → ¬ Uncl (bitAt s.mem) a j := by
          intro a g1 g2 g3
          have g4 := g3.left g2 (by omega)
          rcases hy with hy | ⟨_, hy⟩
          · have := g4.le hy
            have := hy.uncl.2.1
            omega
          · exact hy a g4
        rcases h1 with ⟨g1, g2, g3⟩ | ⟨_, g1⟩
        · rcases Nat.lt_trichotomy k x with h5 | h5 | h5
          · exact absurd hkj (g3 k hck h5)
          · rw [h5]
          · exact absurd g2 (no x g1 h5)
        · exact absurd hkj (g1 k hck)
  have notin : ∀ a, i ≤ a → Uncl (bitAt s.mem) a j → c < a := fun a g1 g2 => by
    rcases Uncl.not_inside hm hc g2 with g3 | g3
    · omega
    · exact g3
  by_cases hif : k = s.n ∨ k < i
  · rw [if_pos hif]
    rcases h1 with ⟨g1, g2, g3⟩ | ⟨g1, _⟩
    · rcases hk with hk | ⟨_, hk⟩
      · have := g2.le hk
        have := hk.uncl.2.1
        omega
      · exact absurd g2 (hk x)
    · rw [g1]
  · rw [if_neg hif]
    rcases hk with hk | ⟨hk, _⟩
    · exact loop _ _ (by omega) (notin k (by omega) hk.uncl) hk.uncl
    · omega

end

/-! ### Examples -/

example : Balanced (bitAt exBp) 0 26 := by decide +kernel

-- blocks of 8 parentheses, two of them in a medium block
example : ∃ s, Bp.Sada.new exBp 26 8 2 = some s ∧ s.findClose 0 = some 25 ∧ s.findClose 15 = some 24 ∧ s.findOpen 24 = some 15 ∧ s.enclose 22 = some 15 ∧ s.enclose 0 = some 26 ∧
    s.levelAnc 18 2 = some 16 ∧ s.levelAnc 18 5 = some 26 := by
  obtain ⟨s, h, _⟩ := C59_construct (mem := exBp) (n := 26) (S := 8) (D := 2) (by decide) (by decide) (by decide) (by decide) (by decide)
  have bal : Balanced (bitAt exBp) 0 26 := by decide +kernel
  refine ⟨s, h, C59_find_close (by decide) (by decide) (by decide) (by decide) (by decide) h (by decide +kernel) (by decide),
    C59_find_close (by decide) (by decide) (by decide) (by decide) (by decide) h (by decide +kernel) (by decide),
    C59_find_open (by decide) (by decide) (by decide) (by decide) (by decide) (by decide) h (by decide +kernel) (by decide),
    C59_enclose (by decide) (by decide) (by decide) (by decide) (by decide) (by decide) h (by decide) (by decide +kernel),
    C59_enclose_none (by decide) (by decide) (by decide) (by decide) (by decide) (by decide) h (by decide) (by decide +kernel) (fun k hk => by have := hk.2.1; omega),
    C59_level_anc_partial (by decide) (by decide) (by decide) (by decide) (by decide) (by decide) h bal (by decide) (by decide) (by decide +kernel)
      (Anc.parent (j := 17) (Anc.parent (j := 18) (Anc.self _) (by decide +kernel)) (by decide +kernel)),
    C59_level_anc_none (by decide) (by decide) (by decide) (by decide) (by decide) (by decide) h (by decide) (by decide +kernel) (fun k hk => ?_)⟩
  have h1 := hk.lastAt.2.1
  have h2 := bal.exc.2.2 k (by omega) (by have := hk.lastAt.1; omega)
  rw [show Bp.exc (bitAt exBp) 18 = 4 by decide +kernel, show Bp.exc (bitAt exBp) 0 = 0 by rfl] at *
  omega

/-- The results of a support structure. -/
def withSada {α} (mem : Mem) (n S D : Nat) (f : Bp.Sada → Option α) : Option α := do
  let s ← Bp.Sada.new mem n S D
  f s

example : withSada exBp 26 8 2 (·.rmq 2 22) = some 14 ∧ withSada exBp 26 8 2 (·.rmqOpen 1 22) = some 15 ∧ withSada exBp 26 8 2 (·.rrEnclose 1 17) = some 15 ∧
    withSada exBp 26 8 2 (·.rrEncloseNaive 1 17) = some 15 ∧ withSada exBp 26 8 2 (·.doubleEnclose 8 22) = some 0 ∧ withSada exBp 26 8 2 (·.doubleEnclose 1 0) = some 26 := by decide +kernel

/-! ### Findings -/

/-- Finding: "The level d = 0 will return the node itself", but for the node 0 the result is `size()`. -/
theorem C59_level_anc_root {mem : Mem} {n S D : Nat} {s : Bp.Sada} (_h : Bp.Sada.new mem n S D = some s) : s.levelAnc 0 0 = some s.n := by
  rw [Bp.Sada.levelAnc, Bp.Sada.bwdExcess, if_pos rfl, if_neg (by decide), sbind, Bp.Sada.after, if_pos rfl]

/-- Finding: with `t_med_deg = 1`, `find_open` takes the begin of the sequence for the answer if the excess before the answer is 0 and the answer is in the first block,
    because `bwd_excess_in_med_block` does not distinguish that it arrived at block 0 from that it examined it. -/
theorem C59_find_open_degree_1 : Balanced (bitAt [0x1ffd#64]) 0 24 ∧ Match (bitAt [0x1ffd#64]) 2 23 ∧ withSada [0x1ffd#64] 24 8 1 (·.findOpen 23) = some 0 := by decide +kernel

/-- Finding: with small blocks that do not consist of whole bytes `find_open` is wrong as well (`near_bwd_excess`, see C48). -/
theorem C59_find_open_unaligned : Balanced (bitAt [0x3d555#64]) 0 22 ∧ Match (bitAt [0x3d555#64]) 15 20 ∧ withSada [0x3d555#64] 22 12 2 (·.findOpen 20) = some 16 := by decide +kernel

/-- With whole bytes and more than one block both are right. -/
example : withSada [0x1ffd#64] 24 8 2 (·.findOpen 23) = some 2 ∧ withSada [0x3d555#64] 22 16 2 (·.findOpen 20) = some 15 := by decide +kernel

/-- Finding: `level_anc` accepts "a parenthesis", but for a closing one it yields the parent instead of the node, and for a closing one without parent the parenthesis 0:
    in `()(())` for 5 (the node 2) and 4 (the node 3). -/
theorem C59_level_anc_closing : Balanced (bitAt [0xd#64]) 0 6 ∧ Match (bitAt [0xd#64]) 2 5 ∧ withSada [0xd#64] 6 8 2 (·.levelAnc 5 0) = some 0 ∧
    Match (bitAt [0xd#64]) 3 4 ∧ withSada [0xd#64] 6 8 2 (·.levelAnc 4 0) = some 2 := by decide +kernel

end Sdsl.Props
