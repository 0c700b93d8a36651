/-
  What the steps and the loops of the bidirectional search compute.
-/
import Verif.BidirLemmas

namespace Sdsl.Csa

/-- `lex_count` of a wavelet tree that keeps the order of the symbols. -/
def LexOk (W : Wt) (L : List Nat) (Q : Nat → Prop) : Prop := ∀ i j c, i ≤ j → j ≤ L.length → Q c →
  W.lexCount i j c = some ((L.take i).count c, ((L.take j).drop i).countP (fun a => decide (a < c)), ((L.take j).drop i).countP (fun a => decide (c < a)))

theorem countP_three (c : Nat) (L : List Nat) : L.countP (fun a => decide (a < c)) + L.count c + L.countP (fun a => decide (c < a)) = L.length := by
  induction L with
  | nil => rfl
  | cons a L ih =>
    rw [List.countP_cons, List.countP_cons, List.count_cons, List.length_cons]
    rcases Nat.lt_trichotomy a c with h | h | h
    · have h1 : ¬ c < a := by omega
      have h2 : ¬ a = c := by omega
      simp [h, h1, h2]; omega
    · subst h
      simp; omega
    · have h1 : ¬ a < c := by omega
      have h2 : ¬ a = c := by omega
      simp [h, h1, h2]; omega

theorem countP_le_gt (c : Nat) (L : List Nat) : L.countP (fun a => decide (a ≤ c)) + L.countP (fun a => decide (c < a)) = L.length := by
  induction L with
  | nil => rfl
  | cons a L ih =>
    rw [List.countP_cons, List.countP_cons, List.length_cons]
    rcases Nat.lt_or_ge c a with h | h
    · have h1 : ¬ a ≤ c := by omega
      simp [h, h1]; omega
    · have h1 : ¬ c < a := by omega
      simp [h, h1]; omega

theorem count_slice (L : List Nat) (c : Nat) {i j : Nat} (hij : i ≤ j) : (L.take j).count c = (L.take i).count c + ((L.take j).drop i).count c := by
  conv_lhs => rw [← List.take_append_drop i (L.take j), List.count_append, List.take_take, Nat.min_eq_left hij]

section

variable {W : Wt} {A : Alpha} {T SA : List Nat} {Q : Nat → Prop}

/-- What `backward_search` computes is the value of the formula of `bidirectional_search`. -/
theorem backStep_val (h : CsaOk W A T SA Q) {lo hi c k cb : Nat} (h1 : lo ≤ hi) (h2 : hi ≤ T.length) (hc : Q c) (hk : A.char2comp c = some k) (hcb : A.C k = some cb)
    (hm : c ∈ bwtOf T SA) : cb = smaller T c ∧ backStep W A lo (sub64 hi 1) c = some (cb + ((bwtOf T SA).take lo).count c, sub64 (cb + ((bwtOf T SA).take hi).count c) 1) := by
  have hlen := h.len
  have hbl := h.sa.bwt_length
  have hpos := h.text.pos
  have hle := smaller_add_count_le_length T c
  obtain ⟨k', g1, g2, g3, g4, g5, g6⟩ := h.alpha.present hm
  rw [hk, Option.some.injEq] at g1
  subst g1
  rw [hcb, Option.some.injEq] at g4
  rw [bwt_smaller h.sa] at g4 g5
  rw [bwt_count h.sa] at g5
  refine ⟨g4, ?_⟩
  have hz : ¬ (k = 0 ∧ 0 < c) := by
    rintro ⟨e, _⟩
    have h7 : (0 : Nat) ∈ bwtOf T SA := by
      rw [h.sa.bwt_perm.mem_iff]
      obtain ⟨U, e, _⟩ := h.text
      rw [e]; simp
    have := g6 e 0 h7
    omega
  have c1 := (List.take_sublist lo (bwtOf T SA)).count_le c
  have c2 := (List.take_sublist hi (bwtOf T SA)).count_le c
  rw [bwt_count h.sa] at c1 c2
  rw [backStep, hk, sbind, if_neg hz, hcb, sbind, add_sub64 (by omega), h.size]
  by_cases e : lo = 0 ∧ hi = T.length
  · rw [if_pos e, g5, sbind, e.1, e.2, ← hbl, List.take_length, bwt_count h.sa]
    simp [g4]
  · rw [if_neg e, rankBwt, rankBwt, h.wt.rank _ _ (by omega) hc, sbind, h.wt.rank _ _ (by omega) hc, sbind, add64_eq (by omega), add64_eq (by omega)]
    rfl

theorem sub64_sub {a b : Nat} (hb : b ≤ a) (ha : a < 2 ^ 64) : sub64 (sub64 a 1) b = sub64 (a - b) 1 := by
  by_cases e : a = 0
  · subst e
    obtain rfl : b = 0 := by omega
    rfl
  · rw [sub64_eq (by omega) ha]
    by_cases e2 : b = a
    · subst e2
      rw [Nat.sub_self, sub64, sub64, show b - 1 + 2 ^ 64 - b = 2 ^ 64 - 1 by omega]
    · rw [sub64_eq (by omega) (by omega), sub64_eq (by omega) (by omega)]; omega

/-- `rank_r`: the number of symbols equal to `c`, minus one, modulo `2^64`. -/
theorem rankR_eq {lo hi s b q e cb : Nat} (h1 : lo < hi) (h2 : hi < 2 ^ 64) (h3 : s + e + b = hi - lo) (h4 : cb + q + e < 2 ^ 64) : add64 cb (rankR lo (sub64 hi 1) s b q) = sub64 (cb + q + e) 1 := by
  rw [rankR, sub64_eq (a := hi) (by omega) h2, sub64_eq (a := hi - 1) (by omega) (by omega)]
  by_cases he : e = 0
  · subst he
    have : sub64 (sub64 (hi - 1 - lo) s) b = 2 ^ 64 - 1 := by
      simp only [sub64]
      omega
    rw [this]
    simp only [sub64, add64]
    omega
  · rw [sub64_eq (a := hi - 1 - lo) (by omega) (by omega), sub64_eq (a := hi - 1 - lo - s) (by omega) (by omega), add64_eq (a := hi - 1 - lo - s - b) (by omega), add64_eq (by omega), sub64_eq (by omega) h4]
    omega

theorem step_fwd (h : CsaOk W A T SA Q) (hl : LexOk W (bwtOf T SA) Q) {lo hi lb rb c : Nat} {P : List Nat} (h0 : c ≠ 0) (hc : Q c) (hlt : lo < hi) (hR : IsRows T SA P lo hi) :
    ∃ lo' hi', bidirStep W A lo (sub64 hi 1) lb rb c = some (lo', sub64 hi' 1, add64 lb ((((bwtOf T SA).take hi).drop lo).countP (fun a => decide (a < c))),
      sub64 rb ((((bwtOf T SA).take hi).drop lo).countP (fun a => decide (c < a)))) ∧ IsRows T SA (c :: P) lo' hi' ∧ hi' - lo' = (((bwtOf T SA).take hi).drop lo).count c := by
  obtain ⟨r1, r2, r3⟩ := hR
  have hlen := h.len
  have hbl := h.sa.bwt_length
  have hq := hl lo hi c r1 (by omega) hc
  have hth := countP_three c (((bwtOf T SA).take hi).drop lo)
  rw [List.length_drop, List.length_take, hbl, Nat.min_eq_left r2] at hth
  have hcs := count_slice (bwtOf T SA) c r1
  have hle := smaller_add_count_le_length T c
  have c2 := (List.take_sublist hi (bwtOf T SA)).count_le c
  rw [bwt_count h.sa] at c2
  have key : ∀ j, j < T.length → (sym T (sym SA j) = c ∧ (∃ i, lo ≤ i ∧ i < hi ∧ sym SA i = nxt T.length (sym SA j)) ↔ c :: P <+: T.drop (sym SA j)) := by
    intro j hj
    have hp := h.sa.sym_get_lt hj
    rw [drop_cons hp, List.cons_prefix_cons]
    constructor
    · rintro ⟨e1, i, i1, i2, i3⟩
      refine ⟨e1.symm, ?_⟩
      have := (r3 i (by omega)).1 ⟨i1, i2⟩
      rw [i3, nxt] at this
      rcases Nat.lt_or_ge (sym SA j + 1) T.length with e2 | e2
      · rwa [Nat.mod_eq_of_lt e2] at this
      · exfalso
        rw [show sym SA j = T.length - 1 by omega, h.text.last] at e1
        omega
    · rintro ⟨e1, e2⟩
      refine ⟨e1.symm, ?_⟩
      have hp1 : sym SA j + 1 < T.length := by
        rcases Nat.lt_or_ge (sym SA j + 1) T.length with e3 | e3
        · exact e3
        · exfalso
          rw [show sym SA j = T.length - 1 by omega, h.text.last] at e1
          omega
      obtain ⟨i, hi1, hi2⟩ := h.sa.surj hp1
      rw [← hi2] at e2
      have := (r3 i hi1).2 e2
      exact ⟨i, this.1, this.2, by rw [hi2, nxt_small hp1]⟩
  by_cases hm : c ∈ bwtOf T SA
  · obtain ⟨k, g1, g2, g3, g4, g5, g6⟩ := h.alpha.present hm
    obtain ⟨e1, e2⟩ := backStep_val h (lo := lo) (hi := hi) r1 r2 hc g1 g4 hm
    obtain ⟨lo', hi', b1, b2, b3, b4⟩ := h.backStep_spec (lo := lo) (hi := hi) r1 r2 hc
    rw [e2, Option.some.injEq, Prod.mk.injEq] at b1
    rw [bwt_smaller h.sa] at g4 b1
    have e3 : smaller T c + ((bwtOf T SA).take hi).count c = hi' := by
      rw [← add_sub64 (a := hi') (by omega), ← b1.2, add_sub64 (by omega)]
    refine ⟨lo', hi', ?_, ⟨b2, b3, fun i hi => (b4 i hi).trans (key i hi)⟩, by omega⟩
    rw [bidirStep, g1, sbind, g4, sbind, add_sub64 (by omega), hq, sbind]
    dsimp only
    rw [rankR_eq hlt (by omega) hth (by omega), add64_eq (by omega), b1.1, show lo' + (((bwtOf T SA).take hi).drop lo).count c = hi' by omega]
    rfl
  · have hz : (bwtOf T SA).count c = 0 := List.count_eq_zero.2 hm
    have hz1 : ((bwtOf T SA).take hi).count c = 0 := List.count_eq_zero.2 fun hx => hm (List.mem_of_mem_take hx)
    have hC0 : A.C 0 = some 0 := by
      obtain ⟨ds, -, -, -, hC⟩ := h.alpha.ex
      simpa using hC 0 (by omega)
    refine ⟨0, 0, ?_, ⟨Nat.le_refl _, Nat.zero_le _, fun i hi => ?_⟩, by omega⟩
    · rw [bidirStep, h.alpha.absent c hc hm, sbind, hC0, sbind, add_sub64 (by omega), hq, sbind]
      dsimp only
      rw [rankR_eq hlt (by omega) hth (by omega), show ((bwtOf T SA).take lo).count c = 0 by omega, show (((bwtOf T SA).take hi).drop lo).count c = 0 by omega]
      rfl
    · constructor
      · intro h'; omega
      · intro h'
        exfalso
        have := ((key i hi).2 h').1
        apply hm
        rw [h.sa.bwt_perm.mem_iff, ← this]
        exact sym_mem (h.sa.sym_get_lt hi)

/-- The rows of the reversed text. -/
theorem step_bwd (hT : IsText T) (hS : IsSA T SA) {SA' P : List Nat} (hS' : IsSA (revText T) SA') (hP : 0 ∉ P) {lo hi lb hb : Nat} (c : Nat) (hR : IsRows T SA P lo hi) (hR' : IsRows (revText T) SA' P.reverse lb hb) :
    hb - lb = hi - lo ∧ IsRows (revText T) SA' (c :: P).reverse (lb + (((bwtOf T SA).take hi).drop lo).countP (fun a => decide (a < c)))
      (hb - (((bwtOf T SA).take hi).drop lo).countP (fun a => decide (c < a))) := by
  obtain ⟨r1, r2, r3⟩ := hR
  obtain ⟨s1, s2, s3⟩ := hR'
  have hbl := hS.bwt_length
  have hl := revText_length hT
  have hT' := revText_text hT
  have hP' : 0 ∉ P.reverse := fun h => hP (List.mem_reverse.1 h)
  rw [hl] at s2 s3
  have hlt : ∀ i, lb ≤ i → i < hb → sym SA' i + P.length < T.length := by
    intro i i1 i2
    have h1 := (s3 i (by omega)).1 ⟨i1, i2⟩
    have := zero_free_lt hT' hP' (hS'.sym_get_lt (by omega)) h1
    rw [List.length_reverse] at this
    omega
  -- counting on both sides
  have hcnt : ∀ p : Nat → Bool, (((bwtOf T SA).take hi).drop lo).countP p = (List.range hb).countP (fun i => decide (lb ≤ i) && p (sym (revText T) (sym SA' i + P.length))) := by
    intro p
    rw [countP_slice _ _ _ _ (by omega)]
    have e1 : (List.range hi).countP (fun k => decide (lo ≤ k) && p (sym (bwtOf T SA) k)) = (List.range T.length).countP (fun i => decide (P <+: T.drop (sym SA i)) && p (sym T (prv T.length (sym SA i)))) := by
      refine Eq.trans ?_ (countP_range_le (n := hi) _ T.length r2 ?_).symm
      · apply List.countP_congr
        intro k hk
        have hk := List.mem_range.1 hk
        rw [hS.bwt_sym (by omega)]
        have := r3 k (by omega)
        simp only [← this]
        simp [hk]
      · intro k k1 k2
        have := r3 k k2
        simp only [← this]
        simp; omega
    have e2 : (List.range hb).countP (fun i => decide (lb ≤ i) && p (sym (revText T) (sym SA' i + P.length))) =
        (List.range T.length).countP (fun i => decide (P.reverse <+: (revText T).drop (sym SA' i)) && p (sym (revText T) (sym SA' i + P.length))) := by
      refine Eq.trans ?_ (countP_range_le (n := hb) _ T.length s2 ?_).symm
      · apply List.countP_congr
        intro k hk
        have hk := List.mem_range.1 hk
        have := s3 k (by omega)
        simp only [← this]
        simp [hk]
      · intro k k1 k2
        have := s3 k k2
        simp only [← this]
        simp; omega
    have e3 := countP_sa hS (fun x => decide (P <+: T.drop x) && p (sym T (prv T.length x)))
    have e4 := countP_sa hS' (fun y => decide (P.reverse <+: (revText T).drop y) && p (sym (revText T) (y + P.length)))
    rw [hl] at e4
    rw [e1, e2, e3, e4, count_sides hT hP]
  have hmono : ∀ i j, lb ≤ i → i ≤ j → j < hb → sym (revText T) (sym SA' i + P.length) ≤ sym (revText T) (sym SA' j + P.length) := by
    intro i j i1 i2 i3
    rcases Nat.lt_or_ge i j with h | h
    · have hd := drop_lt_add (hS'.sorted h (by omega)) ((s3 i (by omega)).1 ⟨i1, by omega⟩) ((s3 j (by omega)).1 ⟨by omega, i3⟩)
      rw [List.length_reverse] at hd
      exact sym_le_of_drop (by have := hlt i i1 (by omega); omega) (by have := hlt j (by omega) i3; omega) hd
    · rw [show i = j by omega]
  obtain ⟨a1, a2⟩ := down_closed (g := fun i => decide (sym (revText T) (sym SA' i + P.length) < c)) s1 (by
    intro i j i1 i2 i3 hg
    have := hmono i j i1 i2 i3
    simp only [decide_eq_true_eq] at hg ⊢
    omega) (hcnt (fun a => decide (a < c))).symm
  obtain ⟨b1, b2⟩ := down_closed (g := fun i => decide (sym (revText T) (sym SA' i + P.length) ≤ c)) s1 (by
    intro i j i1 i2 i3 hg
    have := hmono i j i1 i2 i3
    simp only [decide_eq_true_eq] at hg ⊢
    omega) (hcnt (fun a => decide (a ≤ c))).symm
  have hsz := hcnt (fun _ => true)
  obtain ⟨-, d2⟩ := down_closed (g := fun _ => true) s1 (by simp) hsz.symm
  obtain ⟨d1, -⟩ := down_closed (g := fun _ => true) s1 (by simp) hsz.symm
  have htot : (((bwtOf T SA).take hi).drop lo).countP (fun _ => true) = hi - lo := by
    rw [List.countP_true, List.length_drop, List.length_take, hbl]; omega
  have hle := countP_le_gt c (((bwtOf T SA).take hi).drop lo)
  have hth := countP_three c (((bwtOf T SA).take hi).drop lo)
  rw [List.length_drop, List.length_take, hbl, Nat.min_eq_left r2] at hle hth
  have hsize : hb - lb = hi - lo := by
    rw [htot] at d1 d2
    by_cases e : lb = hb
    · omega
    · have := (d2 (hb - 1) (by omega) (by omega)).1 rfl
      omega
  refine ⟨hsize, by omega, by omega, fun i hi' => ?_⟩
  rw [hl] at hi'
  rw [List.reverse_cons]
  have hsplit : P.reverse ++ [c] <+: (revText T).drop (sym SA' i) ↔ P.reverse <+: (revText T).drop (sym SA' i) ∧ sym (revText T) (sym SA' i + P.length) = c := by
    have hp := hS'.sym_get_lt (i := i) (by omega)
    constructor
    · intro h
      refine ⟨(List.prefix_append _ _).trans h, ?_⟩
      obtain ⟨h1, h2⟩ := (prefix_iff (by omega)).1 h
      have := h2 P.length (by simp)
      rw [List.getElem_append_right (by simp)] at this
      simp at this
      exact this.symm
    · rintro ⟨h1, h2⟩
      have h3 := zero_free_lt hT' hP' hp h1
      obtain ⟨h4, h5⟩ := (prefix_iff (by omega)).1 h1
      rw [List.length_reverse] at h3
      refine (prefix_iff (by omega)).2 ⟨by simp; omega, fun k hk => ?_⟩
      rw [List.length_append, List.length_reverse, List.length_singleton] at hk
      by_cases e : k < P.length
      · rw [List.getElem_append_left (by simpa using e)]
        exact h5 k (by simpa using e)
      · obtain rfl : k = P.length := by omega
        rw [List.getElem_append_right (by simp)]
        simp [h2]
  rw [hsplit]
  constructor
  · rintro ⟨i1, i2⟩
    have g1 := a2 i (by omega) (by omega)
    have g2 := b2 i (by omega) (by omega)
    simp only [decide_eq_true_eq] at g1 g2
    refine ⟨(s3 i hi').1 ⟨by omega, by omega⟩, ?_⟩
    have : ¬ sym (revText T) (sym SA' i + P.length) < c := by rw [g1]; omega
    have : sym (revText T) (sym SA' i + P.length) ≤ c := by rw [g2]; omega
    omega
  · rintro ⟨h1, h2⟩
    have h3 := (s3 i hi').2 h1
    have g1 := a2 i (by omega) (by omega)
    have g2 := b2 i (by omega) (by omega)
    simp only [decide_eq_true_eq] at g1 g2
    rw [h2] at g1 g2
    have := g2.1 (Nat.le_refl c)
    have : ¬ i < lb + (((bwtOf T SA).take hi).drop lo).countP (fun a => decide (a < c)) := fun h => absurd (g1.2 h) (Nat.lt_irrefl c)
    omega

/-- One step. -/
theorem bidirStep_spec (h : CsaOk W A T SA Q) (hl : LexOk W (bwtOf T SA) Q) {SA' P : List Nat} (hS' : IsSA (revText T) SA') (hP : 0 ∉ P) {lo hi lb hb c : Nat} (h0 : c ≠ 0) (hc : Q c) (hlt : lo < hi)
    (hR : IsRows T SA P lo hi) (hR' : IsRows (revText T) SA' P.reverse lb hb) :
    ∃ lo' hi' lb' hb', bidirStep W A lo (sub64 hi 1) lb (sub64 hb 1) c = some (lo', sub64 hi' 1, lb', sub64 hb' 1) ∧ IsRows T SA (c :: P) lo' hi' ∧ IsRows (revText T) SA' (c :: P).reverse lb' hb' := by
  obtain ⟨lo', hi', g1, g2, -⟩ := step_fwd (lb := lb) (rb := sub64 hb 1) h hl h0 hc hlt hR
  obtain ⟨-, k2⟩ := step_bwd h.text h.sa hS' hP c hR hR'
  have hlen := h.len
  have hl' := revText_length h.text
  have hb1 := hR'.2.1
  obtain ⟨k3, k4, -⟩ := k2
  have hcn : (((bwtOf T SA).take hi).drop lo).countP (fun a => decide (c < a)) ≤ hb := by
    have h1 := List.countP_le_length (p := fun a => decide (c < a)) (l := ((bwtOf T SA).take hi).drop lo)
    rw [List.length_drop, List.length_take, h.sa.bwt_length, Nat.min_eq_left hR.2.1] at h1
    have := (step_bwd h.text h.sa hS' hP c hR hR').1
    omega
  refine ⟨lo', hi', _, _, ?_, g2, (step_bwd h.text h.sa hS' hP c hR hR').2⟩
  rw [g1, add64_eq (by omega), sub64_sub hcn (by omega)]

theorem rows_empty {P S : List Nat} (hS : IsSA T SA) {lo : Nat} (hR : IsRows T SA S lo lo) : IsRows T SA (P ++ S) lo lo := by
  obtain ⟨r1, r2, r3⟩ := hR
  refine ⟨r1, r2, fun i hi => ⟨fun h => by omega, fun h => ?_⟩⟩
  exfalso
  have hp := hS.sym_get_lt hi
  obtain ⟨u, hu⟩ := h
  have h1 : S <+: T.drop (sym SA i + P.length) := by
    rw [← List.drop_drop, ← hu, List.append_assoc, List.drop_left]
    exact List.prefix_append _ _
  have hlen := congrArg List.length hu
  rw [List.length_append, List.length_append, List.length_drop] at hlen
  by_cases e : sym SA i + P.length < T.length
  · obtain ⟨j, j1, j2⟩ := hS.surj e
    rw [← j2] at h1
    have := (r3 j j1).2 h1
    omega
  · have : S = [] := List.eq_nil_of_length_eq_zero (by omega)
    subst this
    have := (r3 i hi).2 (List.nil_prefix)
    omega

theorem rows_empty_right {P S : List Nat} {lo : Nat} (hR : IsRows T SA S lo lo) : IsRows T SA (S ++ P) lo lo := by
  obtain ⟨r1, r2, r3⟩ := hR
  refine ⟨r1, r2, fun i hi => ⟨fun h => by omega, fun h => ?_⟩⟩
  exfalso
  have := (r3 i hi).2 ((List.prefix_append _ _).trans h)
  omega

theorem bidirBackLoop_spec (h : CsaOk W A T SA Q) (hl : LexOk W (bwtOf T SA) Q) {SA' : List Nat} (hS' : IsSA (revText T) SA') : ∀ (P S : List Nat) (lo hi lb hb : Nat), 0 ∉ P → (∀ c ∈ P, Q c ∧ c < 256) → 0 ∉ S →
    IsRows T SA S lo hi → IsRows (revText T) SA' S.reverse lb hb →
    ∃ lo' hi' lb' hb', bidirBackLoop W A P lo (sub64 hi 1) lb (sub64 hb 1) = some (lo', sub64 hi' 1, lb', sub64 hb' 1) ∧ IsRows T SA (P.reverse ++ S) lo' hi' ∧
      IsRows (revText T) SA' (P.reverse ++ S).reverse lb' hb' := by
  intro P
  induction P with
  | nil => intro S lo hi lb hb _ _ _ h1 h2; exact ⟨lo, hi, lb, hb, rfl, by simpa using h1, by simpa using h2⟩
  | cons c P ih =>
    intro S lo hi lb hb h0 hQ hS h1 h2
    have hlen := h.len
    rw [List.mem_cons, not_or] at h0
    have hc := hQ c List.mem_cons_self
    have hb1 := h1.2.1
    rw [bidirBackLoop, add_sub64 (by omega), sub64_eq h1.1 (by omega)]
    by_cases he : 0 < hi - lo
    · rw [if_pos he, Nat.mod_eq_of_lt hc.2]
      obtain ⟨lo', hi', lb', hb', g1, g2, g3⟩ := bidirStep_spec h hl hS' hS (c := c) (fun e => h0.1 e.symm) hc.1 (by omega) h1 h2
      rw [g1, sbind]
      obtain ⟨lo2, hi2, lb2, hb2, f1, f2, f3⟩ := ih (c :: S) lo' hi' lb' hb' h0.2 (fun d hd => hQ d (List.mem_cons_of_mem _ hd)) (by rw [List.mem_cons, not_or]; exact ⟨h0.1, hS⟩) g2 g3
      refine ⟨lo2, hi2, lb2, hb2, f1, ?_, ?_⟩ <;> rw [List.reverse_cons, List.append_assoc]
      · exact f2
      · exact f3
    · rw [if_neg he]
      have e1 : hi = lo := by have := h1.1; omega
      have e2 := (step_bwd h.text h.sa hS' hS 0 h1 h2).1
      have e3 := h2.1
      refine ⟨lo, hi, lb, hb, rfl, ?_, ?_⟩
      · subst e1
        exact rows_empty h.sa h1
      · rw [List.reverse_append]
        obtain rfl : hb = lb := by omega
        exact rows_empty_right h2

theorem bidirFwdLoop_spec (hT : IsText T) (hS : IsSA T SA) {SA' : List Nat} (h : CsaOk W A (revText T) SA' Q) (hl : LexOk W (bwtOf (revText T) SA') Q) : ∀ (P S : List Nat) (lo hi lb hb : Nat), 0 ∉ P →
    (∀ c ∈ P, Q c ∧ c < 256) → 0 ∉ S → IsRows T SA S lo hi → IsRows (revText T) SA' S.reverse lb hb →
    ∃ lo' hi' lb' hb', bidirFwdLoop W A P lo (sub64 hi 1) lb (sub64 hb 1) = some (lo', sub64 hi' 1, lb', sub64 hb' 1) ∧ IsRows T SA (S ++ P) lo' hi' ∧
      IsRows (revText T) SA' (S ++ P).reverse lb' hb' := by
  have hrr := revText_revText hT
  intro P
  induction P with
  | nil => intro S lo hi lb hb _ _ _ h1 h2; exact ⟨lo, hi, lb, hb, rfl, by simpa using h1, by simpa using h2⟩
  | cons c P ih =>
    intro S lo hi lb hb h0 hQ hS0 h1 h2
    have hlen := h.len
    have hl' := revText_length hT
    rw [List.mem_cons, not_or] at h0
    have hc := hQ c List.mem_cons_self
    have hb1 := h1.2.1
    have hb2 := h2.1
    have e2 := (step_bwd hT hS h.sa hS0 0 h1 h2).1
    rw [bidirFwdLoop, add_sub64 (by omega), sub64_eq h1.1 (by omega)]
    by_cases he : 0 < hi - lo
    · rw [if_pos he, Nat.mod_eq_of_lt hc.2]
      obtain ⟨lb', hb', lo', hi', g1, g2, g3⟩ := bidirStep_spec (lo := lb) (hi := hb) (lb := lo) (hb := hi) (SA' := SA) (P := S.reverse) h hl (by rw [hrr]; exact hS) (fun e => hS0 (List.mem_reverse.1 e)) (c := c) (fun e => h0.1 e.symm) hc.1
        (by omega) h2 (by rw [hrr, List.reverse_reverse]; exact h1)
      rw [g1, sbind]
      rw [hrr, List.reverse_cons, List.reverse_reverse] at g3
      obtain ⟨lo2, hi2, lb2, hb2, f1, f2, f3⟩ := ih (S ++ [c]) lo' hi' lb' hb' h0.2 (fun d hd => hQ d (List.mem_cons_of_mem _ hd))
        (by rw [List.mem_append, List.mem_singleton, not_or]; exact ⟨hS0, h0.1⟩) g3 (by simpa using g2)
      rw [List.append_assoc] at f2 f3
      exact ⟨lo2, hi2, lb2, hb2, f1, f2, f3⟩
    · rw [if_neg he]
      have e1 : hi = lo := by have := h1.1; omega
      refine ⟨lo, hi, lb, hb, rfl, ?_, ?_⟩
      · subst e1
        exact rows_empty_right h1
      · rw [List.reverse_append]
        obtain rfl : hb = lb := by omega
        exact rows_empty h.sa h2

end

end Sdsl.Csa
