/-
  Lemmas for cst_sct3: the parentheses of the super-Cartesian tree in terms of the LCP values.
-/
import Verif.CstSct3
import Verif.RmqSctLemmas

namespace Sdsl.CstSct3

open Spec Props

/-- The value at position `k`. -/
abbrev V (L : List Nat) (k : Nat) : Nat := L.getD k 0

/-- The pair of position `t` opens at `p` and closes at `q`. -/
def Pr (L : List Nat) (b : Nat → Bool) (t p q : Nat) : Prop := IsSelect b (2 * L.length) (t + 1) p ∧ Match b p q ∧ q < 2 * L.length

section
variable {L : List Nat} {b : Nat → Bool} {t p q s p' q' : Nat}

theorem Pr.lt (h : Pr L b t p q) : p < q := h.2.1.2.2.1

theorem Pr.cnt (h : Pr L b t p q) : countTrue b p = t := by have := h.1.2.2; omega

theorem Pr.opn (h : Pr L b t p q) : b p = true := h.2.1.1

theorem Pr.cls (h : Pr L b t p q) : b q = false := h.2.1.2.1

/-- Two pairs are nested or apart. -/
theorem match_nest {b : Nat → Bool} {p q p' q' : Nat} (h : Match b p q) (h' : Match b p' q') (hp : p < p') : q < p' ∨ q' < q := by
  obtain ⟨h1, h2, h3⟩ := h.2.2.exc
  obtain ⟨g1, g2, g3⟩ := h'.2.2.exc
  have e1 := exc_open h.1
  have e2 := exc_open h'.1
  have e3 := exc_close h.2.1
  have e4 := exc_close h'.2.1
  rcases Nat.lt_trichotomy q p' with c | c | c
  · exact Or.inl c
  · rw [← c] at h'
    have := h'.1
    rw [h.2.1] at this; cases this
  · refine Or.inr ?_
    rcases Nat.lt_trichotomy q' q with c' | c' | c'
    · exact c'
    · have := h3 p' (by omega) (by omega)
      rw [c'] at g2; omega
    · have := g3 (q + 1) (by omega) (by omega)
      have := h3 p' (by omega) (by omega)
      omega

theorem match_left_unique {b : Nat → Bool} {p p' q : Nat} (h : Match b p q) (h' : Match b p' q) : p = p' := by
  rcases Nat.lt_trichotomy p p' with c | c | c
  · rcases match_nest h h' c with c1 | c1
    · have := h'.2.2.1; omega
    · omega
  · exact c
  · rcases match_nest h' h c with c1 | c1
    · have := h.2.2.1; omega
    · omega

theorem match_right_unique {b : Nat → Bool} {p q q' : Nat} (h : Match b p q) (h' : Match b p q') : q = q' := by
  have key : ∀ {q q'}, Match b p q → Match b p q' → ¬ q < q' := by
    intro q q' h h' c
    obtain ⟨h1, h2, h3⟩ := h.2.2.exc
    obtain ⟨g1, g2, g3⟩ := h'.2.2.exc
    have e3 := exc_close h.2.1
    have := g3 (q + 1) (by omega) (by omega)
    omega
  have h1 := key h h'
  have h2 := key h' h
  omega

variable (h : SuperCartesian true L b)
include h

theorem pr_exists (ht : t < L.length) : ∃ p q, Pr L b t p q := by
  obtain ⟨p, hp⟩ := select_exists (b := b) (N := 2 * L.length) (n := t) (by rw [h.cnt]; exact ht)
  obtain ⟨q, hq, hm, _⟩ := C48_match_open h.bal hp.1 hp.2.1
  exact ⟨p, q, hp, hm, hq⟩

theorem pr_of_open (hp : p < 2 * L.length) (hb : b p = true) : ∃ q, Pr L b (countTrue b p) p q := by
  obtain ⟨q, hq, hm, _⟩ := C48_match_open h.bal hp hb
  exact ⟨q, ⟨hp, hb, rfl⟩, hm, hq⟩

theorem pr_of_close (hq : q < 2 * L.length) (hb : b q = false) : ∃ t p, Pr L b t p q := by
  obtain ⟨u1, u2, u3⟩ := Sct.U_ok (U_of_balanced h.bal) q (by omega)
  cases hU : Sct.U b q with
  | nil => exact absurd hU (U_of_balanced h.bal q hq hb)
  | cons a st =>
    have h2 := u2 0 (by rw [hU]; simp)
    simp only [hU, List.getElem_cons_zero] at h2
    have h3 := (u3 a).1 (by rw [hU]; exact List.mem_cons_self)
    rw [hU] at u1
    refine ⟨countTrue b a, a, ⟨by have := h3.2.1; omega, h3.1, rfl⟩, ⟨h3.1, hb, balanced_of_exc h3.2.1 (by rw [u1, h2]; simp) (fun k k1 k2 => ?_)⟩, hq⟩
    rcases Nat.lt_or_ge (a + 1) k with c | c
    · exact h3.2.2 k (by omega) k2
    · rw [show k = a + 1 by omega]

omit h in
theorem pr_unique_idx (h1 : Pr L b t p q) (h2 : Pr L b t p' q') : p = p' ∧ q = q' := by
  have e1 := h1.cnt
  have e2 := h2.cnt
  have : p = p' := by
    rcases Nat.lt_trichotomy p p' with c | c | c
    · have := countTrue_lt_of_true (f := b) c h1.opn; omega
    · exact c
    · have := countTrue_lt_of_true (f := b) c h2.opn; omega
  subst this
  exact ⟨rfl, match_right_unique h1.2.1 h2.2.1⟩

omit h in
theorem pr_unique_close (h1 : Pr L b t p q) (h2 : Pr L b s p' q) : t = s ∧ p = p' := by
  have := match_left_unique h1.2.1 h2.2.1
  subst this
  have e1 := h1.cnt
  have e2 := h2.cnt
  exact ⟨by omega, rfl⟩

omit h in
theorem pr_lt_iff (h1 : Pr L b t p q) (h2 : Pr L b s p' q') : t < s ↔ p < p' := by
  have e1 := h1.cnt
  have e2 := h2.cnt
  constructor
  · intro c
    rcases Nat.lt_or_ge p p' with c1 | c1
    · exact c1
    · have := countTrue_mono b c1; omega
  · intro c
    have := countTrue_lt_of_true (f := b) c h1.opn; omega

theorem Pr.idx (h1 : Pr L b t p q) : t < L.length := by
  have := countTrue_lt_of_true (f := b) h1.1.1 h1.opn
  have := h1.cnt
  have := h.cnt; omega

/-- The pair of `s` is around the pair of a later `t`. -/
theorem pr_around (h1 : Pr L b s p q) (h2 : Pr L b t p' q') (hst : s < t) : p' < q ↔ ∀ k, s < k → k ≤ t → V L s ≤ V L k := by
  have hp := (pr_lt_iff h1 h2).1 hst
  have h3 := h.shape s t p p' hst h1.1 h2.1
  have h4 : p' < q ↔ Around b p p' := by
    constructor
    · intro c
      refine ⟨hp, q, q', h1.2.1, h2.2.1, ?_⟩
      rcases match_nest h1.2.1 h2.2.1 hp with c1 | c1
      · omega
      · exact c1
    · rintro ⟨_, m, m', g1, g2, g3⟩
      rw [match_right_unique h1.2.1 g1]
      have := g2.2.2.1; omega
  rw [h4, h3]
  constructor
  · intro g k k1 k2
    have := g k k1 k2
    simp only [InFront, if_true] at this
    show L.getD s 0 ≤ L.getD k 0
    omega
  · intro g k k1 k2
    have : L.getD s 0 ≤ L.getD k 0 := g k k1 k2
    simp only [InFront, if_true]
    omega

/-- Either the closing parenthesis is before the later opening one or the later pair is inside. -/
theorem pr_nest (h1 : Pr L b s p q) (h2 : Pr L b t p' q') (hst : s < t) : q < p' ∧ (∃ k, s < k ∧ k ≤ t ∧ V L k < V L s) ∨ p' < q ∧ q' < q ∧ ∀ k, s < k → k ≤ t → V L s ≤ V L k := by
  have hp := (pr_lt_iff h1 h2).1 hst
  rcases match_nest h1.2.1 h2.2.1 hp with c | c
  · refine Or.inl ⟨c, ?_⟩
    have := (pr_around h h1 h2 hst).not.1 (by omega)
    simp only [Classical.not_forall] at this
    obtain ⟨k, k1, k2, k3⟩ := this
    exact ⟨k, k1, k2, by omega⟩
  · have h3 := h2.lt
    exact Or.inr ⟨by omega, c, (pr_around h h1 h2 hst).1 (by omega)⟩

/-- The number of opening parentheses before the closing one is the next position with a smaller value. -/
theorem pr_nsv (h1 : Pr L b t p q) : t < countTrue b q ∧ countTrue b q ≤ L.length ∧ (∀ k, t < k → k < countTrue b q → V L t ≤ V L k) ∧
    (countTrue b q < L.length → V L (countTrue b q) < V L t) := by
  have e1 := h1.cnt
  have h2 := countTrue_lt_of_true (f := b) h1.lt h1.opn
  have h3 := countTrue_mono b (show q ≤ 2 * L.length by have := h1.2.2; omega)
  rw [h.cnt] at h3
  have key : ∀ k, t < k → k < countTrue b q → V L t ≤ V L k := by
    intro k k1 k2
    obtain ⟨pk, qk, hk⟩ := pr_exists h (t := k) (by omega)
    have e2 := hk.cnt
    have : pk < q := by
      rcases Nat.lt_or_ge pk q with c | c
      · exact c
      · have := countTrue_mono b c; omega
    exact (pr_around h h1 hk k1).1 this k k1 (Nat.le_refl _)
  refine ⟨by omega, h3, key, fun c => ?_⟩
  obtain ⟨pk, qk, hk⟩ := pr_exists h c
  have e2 := hk.cnt
  have : ¬ pk < q := by
    intro c1
    have := countTrue_lt_of_true (f := b) c1 hk.opn; omega
  have := (pr_around h h1 hk (by omega)).not.1 this
  simp only [Classical.not_forall] at this
  obtain ⟨k, k1, k2, k3⟩ := this
  rcases Nat.lt_or_ge k (countTrue b q) with c1 | c1
  · exact absurd (key k k1 c1) k3
  · rw [show countTrue b q = k by omega]; omega

/-- What lies before is larger if all of it is closed before. -/
theorem before_gt {l : Nat} (h1 : Pr L b t p q) (hc : ∀ k pk qk, l ≤ k → k < t → Pr L b k pk qk → qk < p) : ∀ k, l ≤ k → k < t → V L t < V L k := by
  have ht := h1.idx h
  have key : ∀ d k, t - k ≤ d → l ≤ k → k < t → V L t < V L k := by
    intro d
    induction d with
    | zero => intro k k1 k2 k3; omega
    | succ d ih =>
      intro k k1 k2 k3
      obtain ⟨pk, qk, hk⟩ := pr_exists h (t := k) (by omega)
      have h2 := hc k pk qk k2 k3 hk
      rcases pr_nest h hk h1 k3 with ⟨_, x, x1, x2, x3⟩ | ⟨c, _⟩
      · rcases Nat.lt_or_ge x t with c | c
        · have := ih x (by omega) (by omega) c; omega
        · rw [show t = x by omega]; exact x3
      · omega
  exact fun k => key _ k (Nat.le_refl _)

/-- What lies between is larger if all of it is closed before. -/
theorem between_gt (h1 : Pr L b t p q) (hc : ∀ k pk qk, s < k → k < t → Pr L b k pk qk → qk < p) : ∀ k, s < k → k < t → V L t < V L k :=
  fun k k1 => before_gt (l := s + 1) h h1 (fun k pk qk k1 => hc k pk qk k1) k k1

/-- Two closing parentheses in a row. -/
theorem close_close (h1 : Pr L b t p q) (h2 : Pr L b s p' (q + 1)) : s < t ∧ p' < p ∧ V L s ≤ V L t ∧ ∀ k, s < k → k < t → V L t < V L k := by
  have hpp : p' < p := by
    rcases Nat.lt_trichotomy p' p with c | c | c
    · exact c
    · subst c
      have := match_right_unique h1.2.1 h2.2.1; omega
    · rcases match_nest h1.2.1 h2.2.1 c with c1 | c1
      · have := h2.lt
        have := h2.opn
        omega
      · omega
  have hst := (pr_lt_iff h2 h1).2 hpp
  have h3 := (pr_around h h2 h1 hst).1 (by have := h1.lt; omega)
  refine ⟨hst, hpp, h3 t hst (Nat.le_refl _), between_gt h h1 fun k pk qk k1 k2 hk => ?_⟩
  rcases pr_nest h hk h1 k2 with ⟨c, _⟩ | ⟨c, c1, _⟩
  · exact c
  · rcases pr_nest h h2 hk k1 with ⟨c2, _⟩ | ⟨_, c2, _⟩
    · have := (pr_lt_iff hk h1).1 k2
      have := h1.lt; omega
    · have : qk ≠ q := by
        intro e
        rw [e] at hk
        have := (pr_unique_close hk h1).1; omega
      omega

/-- A closing parenthesis in front of an opening one. -/
theorem close_open (h1 : Pr L b t p q) (hq : q + 1 < 2 * L.length) (hb : b (q + 1) = true) :
    (∃ q', Pr L b (countTrue b q) (q + 1) q') ∧ V L (countTrue b q) < V L t := by
  obtain ⟨q', h2⟩ := pr_of_open h hq hb
  have e : countTrue b (q + 1) = countTrue b q := by rw [countTrue, h1.cls]; rfl
  rw [e] at h2
  exact ⟨⟨q', h2⟩, (pr_nsv h h1).2.2.2 (h2.idx h)⟩

/-- In front of a closing parenthesis is the own opening one or a closing one. -/
theorem before_close (h1 : Pr L b t p q) : q = p + 1 ∨ b (q - 1) = false ∧ p < q - 1 := by
  have hpq := h1.lt
  cases c : b (q - 1) with
  | false =>
    refine Or.inr ⟨rfl, ?_⟩
    rcases Nat.lt_or_ge p (q - 1) with c1 | c1
    · exact c1
    · have e : q - 1 = p := by omega
      have := h1.opn
      rw [e, this] at c; cases c
  | true =>
    obtain ⟨x, hx⟩ := pr_of_open h (p := q - 1) (by have := h1.2.2; omega) c
    have h2 := hx.lt
    refine Or.inl ?_
    rcases Nat.lt_or_ge p (q - 1) with c1 | c1
    · rcases match_nest h1.2.1 hx.2.1 c1 with c2 | c2 <;> omega
    · omega

/-- The closest pair around. -/
theorem pr_encloses {k : Nat} (h1 : Pr L b t p q) (hk : Encloses b k p) : ∃ s q', Pr L b s k q' ∧ s < t ∧ p < q' ∧ V L s ≤ V L t ∧ ∀ x, s < x → x < t → V L t < V L x := by
  have hkp := hk.2.1
  obtain ⟨q', hs⟩ := pr_of_open h (p := k) (by have := h1.1.1; omega) hk.1
  have hst := (pr_lt_iff hs h1).2 (by omega)
  have hu := (around_iff h.bal h1.1.1 h1.opn).2 hk.uncl
  have hpq : p < q' := by
    obtain ⟨_, m, m', g1, g2, g3⟩ := hu
    rw [match_right_unique hs.2.1 g1]
    have := g2.2.2.1; omega
  have h3 := (pr_around h hs h1 hst).1 hpq
  refine ⟨_, q', hs, hst, hpq, h3 t hst (Nat.le_refl _), between_gt h h1 fun x px qx x1 x2 hx => ?_⟩
  rcases pr_nest h hx h1 x2 with ⟨c, _⟩ | ⟨c, c1, _⟩
  · exact c
  · have hpx := (pr_lt_iff hx h1).1 x2
    have hux := (around_iff h.bal h1.1.1 h1.opn).1 ⟨hpx, qx, q, hx.2.1, h1.2.1, c1⟩
    have := hux.le hk
    have := (pr_lt_iff hs hx).1 x1; omega

theorem encloses_exists (h1 : Pr L b t p q) (h2 : Pr L b s p' q') (hst : s < t) (hp : p < q') : ∃ k, Encloses b k p := by
  have hpx := (pr_lt_iff h2 h1).1 hst
  have hqq : q < q' := by rcases match_nest h2.2.1 h1.2.1 hpx with c | c <;> omega
  exact ((around_iff h.bal h1.1.1 h1.opn).1 ⟨hpx, q', q, h2.2.1, h1.2.1, hqq⟩).enclosed

/-! ### Closing parentheses and the first child bits -/

omit h in
theorem cnt_close (hb : b q = false) : countTrue b (q + 1) = countTrue b q := by rw [countTrue, hb]; rfl

omit h in
theorem cnt_open (hb : b q = true) : countTrue b (q + 1) = countTrue b q + 1 := by rw [countTrue, hb]; rfl

omit h in
/-- The numbers of the closing parentheses are ascending. -/
theorem z_lt (hb : b q = false) (hq : q < q') : q - countTrue b q < q' - countTrue b q' := by
  have h1 := countTrue_le b q
  have h2 := countTrue_add b (q + 1) (q' - (q + 1))
  rw [show q + 1 + (q' - (q + 1)) = q' by omega, cnt_close hb] at h2
  have h3 := countTrue_le (fun i => b (q + 1 + i)) (q' - (q + 1))
  omega

theorem z_bound (h1 : Pr L b t p q) : q - countTrue b q < L.length := by
  have := z_lt h1.cls h1.2.2
  rw [h.cnt] at this; omega

/-- Every number belongs to a closing parenthesis. -/
theorem z_exists {r : Nat} (hr : r < L.length) : ∃ t p q, Pr L b t p q ∧ q - countTrue b q = r := by
  have key : ∀ N, r < N - countTrue b N → ∃ q, q < N ∧ b q = false ∧ q - countTrue b q = r := by
    intro N
    induction N with
    | zero => intro c; exact absurd c (by simp)
    | succ N ih =>
      intro c
      have hle := countTrue_le b N
      rcases Nat.lt_or_ge r (N - countTrue b N) with c1 | c1
      · obtain ⟨q, q1, q2⟩ := ih c1
        exact ⟨q, by omega, q2⟩
      · cases hb : b N with
        | true => rw [cnt_open hb] at c; omega
        | false =>
          rw [cnt_close hb] at c
          exact ⟨N, by omega, hb, by omega⟩
  obtain ⟨q, q1, q2, q3⟩ := key (2 * L.length) (by rw [h.cnt]; omega)
  obtain ⟨t, p, h1⟩ := pr_of_close h q1 q2
  exact ⟨t, p, q, h1, q3⟩

omit h in
theorem z_inj (hb : b q = false) (hb' : b q' = false) (e : q - countTrue b q = q' - countTrue b q') : q = q' := by
  rcases Nat.lt_trichotomy q q' with c | c | c
  · have := z_lt hb c; omega
  · exact c
  · have := z_lt hb' c; omega

/-- The pair of the first position is around all others. -/
theorem pr_root (h0 : 0 < L.length) (hv : V L 0 = 0) : Pr L b 0 0 (2 * L.length - 1) := by
  obtain ⟨p, q, h1⟩ := pr_exists h h0
  have e1 := h1.cnt
  have hp : p = 0 := by
    cases hb : b 0 with
    | false =>
      obtain ⟨t, p', h2⟩ := pr_of_close h (q := 0) (by omega) hb
      have := h2.lt; omega
    | true =>
      rcases Nat.eq_zero_or_pos p with c | c
      · exact c
      · have := countTrue_lt_of_true (f := b) c hb
        rw [e1] at this; exact absurd this (by simp)
  subst hp
  have hq : q = 2 * L.length - 1 := by
    cases hb : b (2 * L.length - 1) with
    | true =>
      obtain ⟨q', h2⟩ := pr_of_open h (p := 2 * L.length - 1) (by omega) hb
      have := h2.lt
      have := h2.2.2; omega
    | false =>
      obtain ⟨t, p', h2⟩ := pr_of_close h (q := 2 * L.length - 1) (by omega) hb
      rcases Nat.eq_zero_or_pos t with c | c
      · subst c
        exact (pr_unique_idx h1 h2).2
      · rcases pr_nest h h1 h2 c with ⟨_, k, _, _, k3⟩ | ⟨_, c2, _⟩
        · omega
        · have := h1.2.2; omega
  rw [← hq]
  exact h1

theorem pr_inside (h0 : 0 < L.length) (hv : V L 0 = 0) (h1 : Pr L b t p q) (ht : 0 < t) : q < 2 * L.length - 1 := by
  rcases pr_nest h (pr_root h h0 hv) h1 ht with ⟨_, k, _, _, k3⟩ | ⟨_, c2, _⟩
  · omega
  · exact c2

variable {fc : Nat → Bool} (hf : FirstChild L b fc)
include hf

/-- An equal value precedes: the next parenthesis closes it, or an equal one in between. -/
theorem fc_zero (h1 : Pr L b t p q) (hz : fc (q - countTrue b q) = false) :
    ∃ s p', Pr L b s p' (q + 1) ∧ s < t ∧ V L s = V L t ∧ ∀ k, s < k → k < t → V L t < V L k := by
  obtain ⟨s, s1, s2, s3⟩ := (hf t p q h1.1 h1.2.1 h1.2.2).1 hz
  have ht := h1.idx h
  have e2 : V L s = V L t := s2
  have e3 : ∀ k, s < k → k ≤ t → V L s ≤ V L k := fun k k1 k2 => by
    rcases Nat.lt_or_ge k t with c | c
    · have : V L t ≤ V L k := s3 k k1 c
      omega
    · rw [show k = t by omega]; omega
  obtain ⟨ps, qs, hs⟩ := pr_exists h (t := s) (by omega)
  have hq : q < qs := by
    rcases pr_nest h hs h1 s1 with ⟨_, k, k1, k2, k3⟩ | ⟨_, c2, _⟩
    · have := e3 k k1 k2; omega
    · exact c2
  have hq2 := hs.2.2
  have hcl : b (q + 1) = false := by
    cases c : b (q + 1) with
    | false => rfl
    | true =>
      obtain ⟨⟨q', g1⟩, g2⟩ := close_open h h1 (by omega) c
      have hn := pr_nsv h h1
      have : qs ≠ q + 1 := by intro e; rw [e] at hs; have := hs.cls; rw [c] at this; cases this
      have := (pr_around h hs g1 (by omega)).1 (by omega) _ (by omega) (Nat.le_refl _)
      omega
  obtain ⟨x, px, hx⟩ := pr_of_close h (q := q + 1) (by omega) hcl
  obtain ⟨x1, x2, x3, x4⟩ := close_close h h1 hx
  refine ⟨x, px, hx, x1, ?_, x4⟩
  rcases Nat.lt_trichotomy s x with c | c | c
  · have := e3 x c (by omega); omega
  · rw [← c]; exact s2
  · have := x4 s c s1; omega

omit h in
/-- No equal value precedes: whatever is closest and not larger is smaller. -/
theorem fc_one (h1 : Pr L b t p q) (hz : fc (q - countTrue b q) = true) (hst : s < t) (hs : V L s ≤ V L t) (hk : ∀ k, s < k → k < t → V L t < V L k) : V L s < V L t := by
  rcases Nat.lt_or_ge (V L s) (V L t) with c | c
  · exact c
  · have := (hf t p q h1.1 h1.2.1 h1.2.2).2 ⟨s, hst, by show V L s = V L t; omega, fun k k1 k2 => by have := hk k k1 k2; show V L t ≤ V L k; omega⟩
    rw [hz] at this; cases this

/-- The first child bits up to the next one. -/
theorem run_up (h1 : Pr L b t p q) : ∀ d, (∀ e, e < d → fc (q - countTrue b q + e) = false) →
    ∃ s p', Pr L b s p' (q + d) ∧ q + d - countTrue b (q + d) = q - countTrue b q + d ∧ s ≤ t ∧ V L s = V L t ∧ ∀ k, s ≤ k → k ≤ t → V L t ≤ V L k
  | 0, _ => ⟨t, p, h1, rfl, Nat.le_refl _, rfl, fun k k1 k2 => by rw [show k = t by omega]⟩
  | d + 1, hd => by
    obtain ⟨s, p', g1, g2, g3, g4, g5⟩ := run_up h1 d (fun e he => hd e (by omega))
    obtain ⟨x, px, x1, x2, x3, x4⟩ := fc_zero h hf g1 (by rw [g2]; exact hd d (by omega))
    refine ⟨x, px, x1, ?_, by omega, by omega, fun k k1 k2 => ?_⟩
    · show q + d + 1 - countTrue b (q + d + 1) = _
      rw [cnt_close g1.cls]
      have := countTrue_le b (q + d)
      omega
    · rcases Nat.lt_or_ge k s with c | c
      · rcases Nat.eq_or_lt_of_le k1 with e | e
        · rw [← e]; omega
        · have := x4 k e c; omega
      · exact g5 k c k2

/-- The bit of the first position. -/
theorem fc_root (h0 : 0 < L.length) (hv : V L 0 = 0) : fc (L.length - 1) = true := by
  have h1 := pr_root h h0 hv
  have e : 2 * L.length - 1 - countTrue b (2 * L.length - 1) = L.length - 1 := by
    have h2 := h.cnt
    rw [show 2 * L.length = 2 * L.length - 1 + 1 by omega, cnt_close h1.cls] at h2
    omega
  cases c : fc (L.length - 1) with
  | true => rfl
  | false =>
    obtain ⟨s, hs, _⟩ := (hf _ _ _ h1.1 h1.2.1 h1.2.2).1 (by rw [e]; exact c)
    omega

/-- The closing parenthesis before `q`, if its bit is zero. -/
theorem run_down (h1 : Pr L b t p q) (hz : 0 < q - countTrue b q) (hc : fc (q - countTrue b q - 1) = false) :
    ∃ s p', Pr L b s p' (q - 1) ∧ q - 1 - countTrue b (q - 1) = q - countTrue b q - 1 ∧ t < s ∧ V L s = V L t ∧ ∀ k, t < k → k < s → V L t < V L k := by
  have hzb := z_bound h h1
  obtain ⟨s, ps, qs, g1, g2⟩ := z_exists h (r := q - countTrue b q - 1) (by omega)
  obtain ⟨x, px, x1, x2, x3, x4⟩ := fc_zero h hf g1 (by rw [g2]; exact hc)
  have e : qs + 1 = q := by
    apply z_inj x1.cls h1.cls
    rw [cnt_close g1.cls]
    have := countTrue_le b qs
    omega
  have e' : q - 1 = qs := by omega
  rw [e] at x1
  obtain ⟨rfl, _⟩ := pr_unique_close x1 h1
  rw [e']
  exact ⟨s, ps, g1, g2, x2, x3.symm, fun k k1 k2 => by have := x4 k k1 k2; omega⟩

/-- The converse. -/
theorem run_down' (h1 : Pr L b t p q) (hts : t < s) (hs : s < L.length) (he : V L s = V L t) (hk : ∀ k, t < k → k < s → V L t < V L k) :
    0 < q - countTrue b q ∧ fc (q - countTrue b q - 1) = false ∧ b (q - 1) = false := by
  obtain ⟨ps, qs, g1⟩ := pr_exists h hs
  have hfs : fc (qs - countTrue b qs) = false := (hf s ps qs g1.1 g1.2.1 g1.2.2).2 ⟨t, hts, he.symm, fun k k1 k2 => by
    have := hk k k1 k2
    show V L s ≤ V L k
    omega⟩
  obtain ⟨x, px, x1, x2, x3, x4⟩ := fc_zero h hf g1 hfs
  have hx : x = t := by
    rcases Nat.lt_trichotomy x t with c | c | c
    · have := x4 t c hts; omega
    · exact c
    · have := hk x c x2; omega
  subst hx
  obtain ⟨_, e⟩ := pr_unique_idx h1 x1
  have h2 := countTrue_le b qs
  rw [e, cnt_close g1.cls]
  refine ⟨by omega, ?_, ?_⟩
  · rw [show qs + 1 - countTrue b qs - 1 = qs - countTrue b qs by omega]; exact hfs
  · exact g1.cls

omit hf in
/-- The closing parentheses of the zero values are the last ones. -/
theorem zeros_last (h0 : 0 < L.length) (hv : V L 0 = 0) : ∀ {t p q}, Pr L b t p q → V L t = 0 → q + countTrue (fun k => V L k == 0) t + 1 = 2 * L.length := by
  intro t
  induction t using Nat.strongRecOn with
  | _ t ih =>
    intro p q h1 ht
    rcases Nat.eq_zero_or_pos t with c | c
    · subst c
      have := (pr_unique_idx h1 (pr_root h h0 hv)).2
      show q + 0 + 1 = _
      omega
    · have hq := pr_inside h h0 hv h1 c
      have hn := pr_nsv h h1
      have hcl : b (q + 1) = false := by
        cases e : b (q + 1) with
        | false => rfl
        | true =>
          have := (close_open h h1 (by omega) e).2
          omega
      obtain ⟨x, px, hx⟩ := pr_of_close h (q := q + 1) (by omega) hcl
      obtain ⟨x1, x2, x3, x4⟩ := close_close h h1 hx
      have := ih x x1 hx (by omega)
      have e1 : countTrue (fun k => V L k == 0) t = countTrue (fun k => V L k == 0) x + 1 := by
        have h5 := countTrue_add (fun k => V L k == 0) (x + 1) (t - (x + 1))
        rw [show x + 1 + (t - (x + 1)) = t by omega] at h5
        have h6 : countTrue (fun i => V L (x + 1 + i) == 0) (t - (x + 1)) = 0 := by
          rw [countTrue_congr (g := fun _ => false) (n := t - (x + 1)) fun i hi => by
            have := x4 (x + 1 + i) (by omega) (by omega)
            simp only [beq_eq_false_iff_ne]
            omega]
          clear * -
          induction t - (x + 1) with
          | zero => rfl
          | succ n ih => rw [countTrue, ih]; rfl
        rw [h5, h6, cnt_open (b := fun k => V L k == 0) (q := x) (by simp only [beq_iff_eq]; omega)]
      omega

omit hf in
/-- The test for a zero value. -/
theorem sigma_test (h0 : 0 < L.length) (hv : V L 0 = 0) {sigma : Nat} (hs : sigma = countTrue (fun k => V L k == 0) L.length) (h1 : Pr L b t p q) :
    q + sigma ≥ 2 * L.length ↔ V L t = 0 := by
  have ht := h1.idx h
  constructor
  · intro c
    -- the last zero
    have : ∀ N, 0 < N → ∃ z, z < N ∧ V L z = 0 ∧ ∀ k, z < k → k < N → V L k ≠ 0 := by
      intro N
      induction N with
      | zero => intro h; omega
      | succ N ih =>
        intro _
        by_cases hN : V L N = 0
        · exact ⟨N, by omega, hN, fun k k1 k2 => by omega⟩
        · obtain ⟨z, z1, z2, z3⟩ := ih (by
            rcases Nat.eq_zero_or_pos N with c | c
            · rw [c] at hN; exact absurd hv hN
            · exact c)
          refine ⟨z, by omega, z2, fun k k1 k2 => ?_⟩
          rcases Nat.lt_or_ge k N with c | c
          · exact z3 k k1 c
          · rw [show k = N by omega]; exact hN
    obtain ⟨z, z1, z2, z3⟩ := this _ h0
    obtain ⟨pz, qz, hz⟩ := pr_exists h z1
    have e1 := zeros_last h h0 hv hz z2
    have e2 : sigma = countTrue (fun k => V L k == 0) z + 1 := by
      have h5 := countTrue_add (fun k => V L k == 0) (z + 1) (L.length - (z + 1))
      rw [show z + 1 + (L.length - (z + 1)) = L.length by omega] at h5
      have h6 : countTrue (fun i => V L (z + 1 + i) == 0) (L.length - (z + 1)) = 0 := by
        rw [countTrue_congr (g := fun _ => false) (n := L.length - (z + 1)) fun i hi => by
          have := z3 (z + 1 + i) (by omega) (by omega)
          simp only [beq_eq_false_iff_ne]
          omega]
        clear * -
        induction L.length - (z + 1) with
        | zero => rfl
        | succ n ih => rw [countTrue, ih]; rfl
      rw [hs, h5, h6, cnt_open (b := fun k => V L k == 0) (q := z) (by simp only [beq_iff_eq]; exact z2)]
    rcases Nat.lt_trichotomy t z with c1 | c1 | c1
    · have hpz := hz.lt
      rcases pr_nest h h1 hz c1 with ⟨c2, _⟩ | ⟨_, _, c2⟩
      · omega
      · have := c2 z c1 (Nat.le_refl _); omega
    · rw [c1]; exact z2
    · rcases pr_nest h hz h1 c1 with ⟨_, k, _, _, c2⟩ | ⟨_, c2, _⟩
      · omega
      · omega
  · intro c
    have e1 := zeros_last h h0 hv h1 c
    have := countTrue_lt_of_true (f := fun k => V L k == 0) ht (by simp only [beq_iff_eq]; exact c)
    omega

end

end Sdsl.CstSct3
