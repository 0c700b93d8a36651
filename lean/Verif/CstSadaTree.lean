/-
  The parentheses of cst_sada match as the nodes of the suffix tree nest.
-/
import Verif.CstSadaFill
import Verif.Props.BpSada

namespace Sdsl.CstSada

open Spec Props CstSct3

/-! ### Parentheses from pairs -/

theorem balanced_empty (b : Nat → Bool) (i : Nat) : Balanced b i i :=
  balanced_of_exc (Nat.le_refl _) rfl fun k h1 h2 => by
    obtain rfl : k = i := by omega
    exact Int.le_refl _

theorem Balanced.cons {b : Nat → Bool} {i c e : Nat} (h : Match b i c) (h' : Balanced b (c + 1) e) : Balanced b i e := by
  obtain ⟨h1, h2, h3⟩ := h.2.2.exc
  obtain ⟨g1, g2, g3⟩ := h'.exc
  have e1 := exc_open h.1
  have e2 := exc_close h.2.1
  refine balanced_of_exc (by omega) (by omega) fun k k1 k2 => ?_
  rcases Nat.lt_or_ge c k with c1 | c1
  · have := g3 k (by omega) k2; omega
  · rcases Nat.lt_or_ge i k with c2 | c2
    · have := h3 k (by omega) c1; omega
    · obtain rfl : k = i := by omega
      exact Int.le_refl _

section

variable {b : Nat → Bool} {n : Nat} {R : Nat → Nat → Prop}
  (h1 : ∀ p q, R p q → p < q ∧ q < n ∧ b p = true ∧ b q = false)
  (h2 : ∀ p, p < n → b p = true → ∃ q, R p q)
  (h3 : ∀ q, q < n → b q = false → ∃ p, R p q)
  (h4 : ∀ p q q', R p q → R p q' → q = q')
  (h5 : ∀ p q p' q', R p q → R p' q' → p < p' → p' < q → q' < q)

include h1 h2 h3 h4 h5 in
/-- A window that no pair leaves is balanced. -/
theorem balanced_of_pairs : ∀ (w lo e : Nat), e - lo ≤ w → lo ≤ e → e ≤ n → (∀ a c, R a c → (lo ≤ a ∧ a < e ↔ lo ≤ c ∧ c < e)) → Balanced b lo e
  | 0, lo, e, hw, hle, _, _ => by
    obtain rfl : lo = e := by omega
    exact balanced_empty b lo
  | w + 1, lo, e, hw, hle, hen, hcl => by
    rcases Nat.eq_or_lt_of_le hle with rfl | hlt
    · exact balanced_empty b lo
    have hb : b lo = true := by
      cases hb : b lo with
      | true => rfl
      | false =>
        obtain ⟨p, hp⟩ := h3 lo (by omega) hb
        have := (hcl p lo hp).2 ⟨Nat.le_refl _, hlt⟩
        have := (h1 p lo hp).1
        omega
    obtain ⟨c, hc⟩ := h2 lo (by omega) hb
    have hce := ((hcl lo c hc).1 ⟨Nat.le_refl _, hlt⟩).2
    obtain ⟨g1, g2, g3, g4⟩ := h1 lo c hc
    refine Balanced.cons ⟨hb, g4, balanced_of_pairs w (lo + 1) c (by omega) (by omega) (by omega) fun a c' hac => ?_⟩
      (balanced_of_pairs w (c + 1) e (by omega) (by omega) hen fun a c' hac => ?_)
    · obtain ⟨k1, k2, k3, k4⟩ := h1 a c' hac
      constructor
      · rintro ⟨m1, m2⟩
        exact ⟨by omega, h5 lo c a c' hc hac (by omega) m2⟩
      · rintro ⟨m1, m2⟩
        have m3 := (hcl a c' hac).2 ⟨by omega, by omega⟩
        refine ⟨?_, by omega⟩
        rcases Nat.eq_or_lt_of_le m3.1 with m4 | m4
        · subst m4
          have := h4 lo c c' hc hac; omega
        · omega
    · obtain ⟨k1, k2, k3, k4⟩ := h1 a c' hac
      constructor
      · rintro ⟨m1, m2⟩
        exact ⟨by omega, ((hcl a c' hac).1 ⟨by omega, m2⟩).2⟩
      · rintro ⟨m1, m2⟩
        have m3 := (hcl a c' hac).2 ⟨by omega, m2⟩
        refine ⟨?_, by omega⟩
        rcases Nat.eq_or_lt_of_le m3.1 with m4 | m4
        · subst m4
          have := h4 lo c c' hc hac; omega
        · rcases Nat.lt_trichotomy a c with m5 | m5 | m5
          · have := h5 lo c a c' hc hac m4 m5; omega
          · subst m5; rw [g4] at k3; exact absurd k3 (by decide)
          · omega

include h1 h2 h3 h4 h5 in
theorem match_of_pairs {p q : Nat} (h : R p q) : Match b p q := by
  obtain ⟨g1, g2, g3, g4⟩ := h1 p q h
  refine ⟨g3, g4, balanced_of_pairs h1 h2 h3 h4 h5 _ (p + 1) q (Nat.le_refl _) (by omega) (by omega) fun a c hac => ?_⟩
  obtain ⟨k1, k2, k3, k4⟩ := h1 a c hac
  constructor
  · rintro ⟨m1, m2⟩
    exact ⟨by omega, h5 p q a c h hac (by omega) m2⟩
  · rintro ⟨m1, m2⟩
    refine ⟨?_, by omega⟩
    rcases Nat.lt_trichotomy a p with m3 | m3 | m3
    · have := h5 a c p q hac h m3 (by omega); omega
    · subst m3; have := h4 a c q hac h; omega
    · omega

end

/-! ### The pairs of the nodes -/

variable {V : Nat → Nat} {n : Nat}

theorem co_eq {i : Nat} (hi : i < n) : co V n i = countTrue (fun j => ndB V n i j) n := opening_eq hi

theorem cc_eq {j : Nat} (hj : j < n) : cc V n j = countTrue (fun a => ndB V n a j) n := closing_eq hj

/-- The opening parenthesis of a node. -/
noncomputable def oP (V : Nat → Nat) (n i j : Nat) : Nat := P V n i + (co V n i - 1 - countTrue (fun j => ndB V n i j) j)

/-- The closing parenthesis of a node. -/
noncomputable def cP (V : Nat → Nat) (n i j : Nat) : Nat := P V n j + co V n j + (cc V n j - 1 - countTrue (fun a => ndB V n a j) i)

theorem P_succ (V : Nat → Nat) (n i : Nat) : P V n (i + 1) = P V n i + (co V n i + cc V n i) := rfl

theorem P_mono {a b : Nat} (h : a ≤ b) : P V n a ≤ P V n b := sum_mono _ h

theorem count_lt {f : Nat → Bool} {a n : Nat} (h : a < n) (ha : f a = true) : countTrue f a < countTrue f n := by
  have h1 : countTrue f (a + 1) = countTrue f a + 1 := by show _ + (f a).toNat = _; rw [ha]; rfl
  have := countTrue_mono f (show a + 1 ≤ n by omega)
  omega

theorem oP_bound {i j : Nat} (h : Nd V n i j) : P V n i ≤ oP V n i j ∧ oP V n i j < P V n i + co V n i := by
  have h1 := count_lt (f := fun j => ndB V n i j) h.2.1 (ndB_iff.2 h)
  have h2 := co_eq (V := V) (n := n) (i := i) (by have := h.1; have := h.2.1; omega)
  unfold oP; omega

theorem cP_bound {i j : Nat} (h : Nd V n i j) : P V n j + co V n j ≤ cP V n i j ∧ cP V n i j < P V n (j + 1) := by
  have h1 := count_lt (f := fun a => ndB V n a j) (show i < n by have := h.1; have := h.2.1; omega) (ndB_iff.2 h)
  have h2 := cc_eq (V := V) (n := n) (j := j) h.2.1
  rw [P_succ]
  unfold cP; omega

theorem oP_lt_same {i j j' : Nat} (h : Nd V n i j) (h' : Nd V n i j') (hj : j < j') : oP V n i j' < oP V n i j := by
  have h1 := count_lt (f := fun j => ndB V n i j) hj (ndB_iff.2 h)
  have h2 := count_lt (f := fun j => ndB V n i j) h'.2.1 (ndB_iff.2 h')
  have h3 := co_eq (V := V) (n := n) (i := i) (by have := h.1; have := h.2.1; omega)
  unfold oP; omega

theorem cP_lt_same {i i' j : Nat} (h : Nd V n i j) (h' : Nd V n i' j) (hj : i < i') : cP V n i' j < cP V n i j := by
  have h1 := count_lt (f := fun a => ndB V n a j) hj (ndB_iff.2 h)
  have h2 := count_lt (f := fun a => ndB V n a j) (show i' < n by have := h'.1; have := h'.2.1; omega) (ndB_iff.2 h')
  have h3 := cc_eq (V := V) (n := n) (j := j) h.2.1
  unfold cP; omega

theorem oP_lt {i j a c : Nat} (h : Nd V n i j) (h' : Nd V n a c) (hi : i < a) : oP V n i j < oP V n a c := by
  have h1 := oP_bound h
  have h2 := oP_bound h'
  have h3 := P_succ V n i
  have h4 := P_mono (V := V) (n := n) (show i + 1 ≤ a by omega)
  omega

theorem cP_lt {i j a c : Nat} (h : Nd V n i j) (h' : Nd V n a c) (hj : j < c) : cP V n i j < cP V n a c := by
  have h1 := cP_bound h
  have h2 := cP_bound h'
  have h4 := P_mono (V := V) (n := n) (show j + 1 ≤ c by omega)
  omega

/-- The order of the opening parentheses. -/
theorem oP_lt_iff {i j a c : Nat} (h : Nd V n i j) (h' : Nd V n a c) : oP V n i j < oP V n a c ↔ i < a ∨ i = a ∧ c < j := by
  rcases Nat.lt_trichotomy i a with g | g | g
  · exact ⟨fun _ => Or.inl g, fun _ => oP_lt h h' g⟩
  · subst g
    rcases Nat.lt_trichotomy j c with k | k | k
    · have := oP_lt_same h h' k
      exact ⟨fun _ => by omega, fun _ => by omega⟩
    · subst k
      exact ⟨fun h => by omega, fun h => by omega⟩
    · exact ⟨fun _ => Or.inr ⟨rfl, k⟩, fun _ => oP_lt_same h' h k⟩
  · have := oP_lt h' h g
    exact ⟨fun _ => by omega, fun _ => by omega⟩

/-- The order of the closing parentheses. -/
theorem cP_lt_iff {i j a c : Nat} (h : Nd V n i j) (h' : Nd V n a c) : cP V n i j < cP V n a c ↔ j < c ∨ j = c ∧ a < i := by
  rcases Nat.lt_trichotomy j c with g | g | g
  · exact ⟨fun _ => Or.inl g, fun _ => cP_lt h h' g⟩
  · subst g
    rcases Nat.lt_trichotomy a i with k | k | k
    · exact ⟨fun _ => Or.inr ⟨rfl, k⟩, fun _ => cP_lt_same h' h k⟩
    · subst k
      exact ⟨fun h => by omega, fun h => by omega⟩
    · have := cP_lt_same h h' k
      exact ⟨fun _ => by omega, fun _ => by omega⟩
  · have := cP_lt h' h g
    exact ⟨fun _ => by omega, fun _ => by omega⟩

theorem oP_inj {i j a c : Nat} (h : Nd V n i j) (h' : Nd V n a c) (e : oP V n i j = oP V n a c) : i = a ∧ j = c := by
  have h1 := oP_lt_iff h h'
  have h2 := oP_lt_iff h' h
  omega

theorem cP_inj {i j a c : Nat} (h : Nd V n i j) (h' : Nd V n a c) (e : cP V n i j = cP V n a c) : i = a ∧ j = c := by
  have h1 := cP_lt_iff h h'
  have h2 := cP_lt_iff h' h
  omega

theorem oP_lt_cP {i j a c : Nat} (h : Nd V n i j) (h' : Nd V n a c) : oP V n a c < cP V n i j ↔ a ≤ j := by
  have h1 := oP_bound h'
  have h2 := cP_bound h
  rcases Nat.lt_or_ge j a with g | g
  · have := P_mono (V := V) (n := n) (show j + 1 ≤ a by omega)
    exact ⟨fun _ => by omega, fun _ => by omega⟩
  · refine ⟨fun _ => g, fun _ => ?_⟩
    rcases Nat.eq_or_lt_of_le g with rfl | g'
    · omega
    · have := P_mono (V := V) (n := n) (show a + 1 ≤ j by omega)
      have := P_succ V n a
      omega

theorem laminar' {i j a c : Nat} (h : Nd V n i j) (h' : Nd V n a c) (h1 : i < a) (h2 : a ≤ j) : c ≤ j := by
  rcases Nat.lt_or_ge j c with g | g
  · have g1 := (h'.2.2 (j + 1) (by omega) (by omega)).1
    have g2 := (h.2.2 a h1 h2).2
    have := h'.2.1
    omega
  · exact g

/-- The parentheses of a node. -/
def Pair (V : Nat → Nat) (n p q : Nat) : Prop := ∃ i j, Nd V n i j ∧ p = oP V n i j ∧ q = cP V n i j

/-- The block of a position. -/
theorem block_of {q : Nat} (hq : q < P V n n) : ∃ i, i < n ∧ P V n i ≤ q ∧ q < P V n (i + 1) := by
  have key : ∀ m, q < P V n m → ∃ i, i < m ∧ P V n i ≤ q ∧ q < P V n (i + 1) := by
    intro m
    induction m with
    | zero => intro h; simp [P, sum] at h
    | succ m ih =>
      intro h
      rcases Nat.lt_or_ge q (P V n m) with g | g
      · obtain ⟨i, h1, h2⟩ := ih g
        exact ⟨i, by omega, h2⟩
      · exact ⟨m, by omega, g, h⟩
  exact key n hq

section

variable {mem : Mem} (hbl : Blk V n mem n)

include hbl in
theorem bit_open {i q : Nat} (hi : i < n) (h1 : P V n i ≤ q) (h2 : q < P V n i + co V n i) : bitAt mem q = true := by
  have := (hbl i hi).1 (q - P V n i) (by omega)
  rwa [show P V n i + (q - P V n i) = q by omega] at this

include hbl in
theorem bit_close {i q : Nat} (hi : i < n) (h1 : P V n i + co V n i ≤ q) (h2 : q < P V n (i + 1)) : bitAt mem q = false := by
  have e := P_succ V n i
  have := (hbl i hi).2 (q - (P V n i + co V n i)) (by omega)
  rwa [show P V n i + co V n i + (q - (P V n i + co V n i)) = q by omega] at this

include hbl in
/-- Every opening parenthesis belongs to a node. -/
theorem open_node {p : Nat} (hp : p < P V n n) (h : bitAt mem p = true) : ∃ i j, Nd V n i j ∧ p = oP V n i j := by
  obtain ⟨i, h1, h2, h3⟩ := block_of hp
  have h4 : p < P V n i + co V n i := by
    rcases Nat.lt_or_ge p (P V n i + co V n i) with g | g
    · exact g
    · rw [bit_close hbl h1 g h3] at h; exact absurd h (by decide)
  have e := co_eq (V := V) h1
  obtain ⟨j, hj⟩ := IsSelect.exists (f := fun j => ndB V n i j) (n := n) (i := co V n i - (p - P V n i)) (by omega) (by omega)
  refine ⟨i, j, ndB_iff.1 hj.2.1, ?_⟩
  have := hj.2.2
  unfold oP; omega

include hbl in
/-- Every closing parenthesis belongs to a node. -/
theorem close_node {p : Nat} (hp : p < P V n n) (h : bitAt mem p = false) : ∃ i j, Nd V n i j ∧ p = cP V n i j := by
  obtain ⟨j, h1, h2, h3⟩ := block_of hp
  have h4 : P V n j + co V n j ≤ p := by
    rcases Nat.lt_or_ge p (P V n j + co V n j) with g | g
    · rw [bit_open hbl h1 h2 g] at h; exact absurd h (by decide)
    · exact g
  have e := cc_eq (V := V) h1
  have e' := P_succ V n j
  obtain ⟨i, hi⟩ := IsSelect.exists (f := fun a => ndB V n a j) (n := n) (i := cc V n j - (p - (P V n j + co V n j))) (by omega) (by omega)
  refine ⟨i, j, ndB_iff.1 hi.2.1, ?_⟩
  have := hi.2.2
  unfold cP; omega

theorem cP_lt_n {i j : Nat} (h : Nd V n i j) : cP V n i j < P V n n := by
  have := cP_bound h
  have := P_mono (V := V) (n := n) (show j + 1 ≤ n by have := h.2.1; omega)
  omega

include hbl in
theorem pair_basic (p q : Nat) (h : Pair V n p q) : p < q ∧ q < P V n n ∧ bitAt mem p = true ∧ bitAt mem q = false := by
  obtain ⟨i, j, h, rfl, rfl⟩ := h
  have h1 := oP_bound h
  have h2 := cP_bound h
  exact ⟨(oP_lt_cP h h).2 h.1, cP_lt_n h, bit_open hbl (by have := h.1; have := h.2.1; omega) h1.1 h1.2, bit_close hbl h.2.1 h2.1 h2.2⟩

theorem pair_cross (p q p' q' : Nat) (h : Pair V n p q) (h' : Pair V n p' q') (h1 : p < p') (h2 : p' < q) : q' < q := by
  obtain ⟨i, j, h, rfl, rfl⟩ := h
  obtain ⟨a, c, h', rfl, rfl⟩ := h'
  rw [oP_lt_iff h h'] at h1
  rw [oP_lt_cP h h'] at h2
  rw [cP_lt_iff h' h]
  rcases h1 with h1 | h1
  · have := laminar' h h' h1 h2; omega
  · omega

theorem pair_fun (p q q' : Nat) (h : Pair V n p q) (h' : Pair V n p q') : q = q' := by
  obtain ⟨i, j, h, rfl, rfl⟩ := h
  obtain ⟨a, c, h', e, rfl⟩ := h'
  obtain ⟨rfl, rfl⟩ := oP_inj h h' e
  rfl

theorem pair_inj (p p' q : Nat) (h : Pair V n p q) (h' : Pair V n p' q) : p = p' := by
  obtain ⟨i, j, h, rfl, rfl⟩ := h
  obtain ⟨a, c, h', rfl, e⟩ := h'
  obtain ⟨rfl, rfl⟩ := cP_inj h h' e
  rfl

include hbl in
/-- The parentheses of a node match. -/
theorem node_match {i j : Nat} (h : Nd V n i j) : Match (bitAt mem) (oP V n i j) (cP V n i j) := by
  refine match_of_pairs (n := P V n n) (R := Pair V n) (pair_basic hbl) (fun p h1 h2 => ?_) (fun q h1 h2 => ?_) pair_fun pair_cross ⟨i, j, h, rfl, rfl⟩
  · obtain ⟨i, j, g1, g2⟩ := open_node hbl h1 h2
    exact ⟨_, i, j, g1, g2, rfl⟩
  · obtain ⟨i, j, g1, g2⟩ := close_node hbl h1 h2
    exact ⟨_, i, j, g1, rfl, g2⟩

include hbl in
/-- All parentheses are balanced. -/
theorem bp_balanced : Balanced (bitAt mem) 0 (P V n n) := by
  refine balanced_of_pairs (n := P V n n) (R := Pair V n) (pair_basic hbl) (fun p h1 h2 => ?_) (fun q h1 h2 => ?_) pair_fun pair_cross _ 0 _ (Nat.le_refl _)
    (Nat.zero_le _) (Nat.le_refl _) fun a c hac => ?_
  · obtain ⟨i, j, g1, g2⟩ := open_node hbl h1 h2
    exact ⟨_, i, j, g1, g2, rfl⟩
  · obtain ⟨i, j, g1, g2⟩ := close_node hbl h1 h2
    exact ⟨_, i, j, g1, rfl, g2⟩
  · have := pair_basic hbl a c hac
    exact ⟨fun _ => ⟨by omega, this.2.1⟩, fun _ => ⟨by omega, by omega⟩⟩

/-! ### The leaves -/

theorem occ10_iff {m : Mem} {q : Nat} : occ .p10 m q = true ↔ 1 ≤ q ∧ bitAt m (q - 1) = true ∧ bitAt m q = false := by
  unfold occ endsAt Pat.bits
  rcases Nat.eq_zero_or_pos q with rfl | h
  · simp
  · rw [show List.length [true, false] = 2 by rfl, decide_eq_true (show 2 ≤ q + 1 by omega)]
    simp only [Bool.true_and, List.all_eq_true, List.mem_range]
    constructor
    · intro hk
      have h0 := hk 0 (by omega)
      have h1 := hk 1 (by omega)
      rw [show q + 1 - 2 + 0 = q - 1 by omega] at h0
      rw [show q + 1 - 2 + 1 = q by omega] at h1
      simp at h0 h1
      exact ⟨h, h0, h1⟩
    · rintro ⟨-, h0, h1⟩ k hk
      rcases Nat.eq_zero_or_pos k with rfl | hk'
      · rw [show q + 1 - 2 + 0 = q - 1 by omega, h0]; rfl
      · obtain rfl : k = 1 := by omega
        rw [show q + 1 - 2 + 1 = q by omega, h1]; rfl

include hbl in
theorem occ10_block {i q : Nat} (hi : i < n) (h1 : P V n i ≤ q) (h2 : q < P V n (i + 1)) : occ .p10 mem q = decide (q = P V n i + co V n i) := by
  rw [Bool.eq_iff_iff, occ10_iff, decide_eq_true_iff]
  have hco : 0 < co V n i := by unfold co; omega
  have e := P_succ V n i
  constructor
  · rintro ⟨g1, g2, g3⟩
    rcases Nat.lt_trichotomy q (P V n i + co V n i) with g | g | g
    · rw [bit_open hbl hi h1 g] at g3; exact absurd g3 (by decide)
    · exact g
    · rw [bit_close hbl hi (by omega) (by omega)] at g2; exact absurd g2 (by decide)
  · intro g
    exact ⟨by omega, bit_open hbl hi (by omega) (by omega), bit_close hbl hi (by omega) h2⟩

theorem countTrue_eq_at (a : Nat) : ∀ m, countTrue (fun t => decide (t = a)) m = if a < m then 1 else 0
  | 0 => rfl
  | m + 1 => by
    show countTrue _ m + (decide (m = a)).toNat = _
    rw [countTrue_eq_at a m]
    rcases Nat.lt_trichotomy a m with g | g | g
    · rw [if_pos g, if_pos (by omega), decide_eq_false (by omega)]; rfl
    · rw [if_neg (by omega), if_pos (by omega), decide_eq_true (by omega)]; rfl
    · rw [if_neg (by omega), if_neg (by omega), decide_eq_false (by omega)]; rfl

include hbl in
theorem leaves_in {i : Nat} (hi : i < n) (hP : countTrue (occ .p10 mem) (P V n i) = i) {m : Nat} (hm : P V n i + m ≤ P V n (i + 1)) :
    countTrue (occ .p10 mem) (P V n i + m) = i + if co V n i < m then 1 else 0 := by
  rw [countTrue_add, hP, countTrue_congr (g := fun t => decide (t = co V n i)) (fun t ht => ?_), countTrue_eq_at]
  rw [occ10_block hbl hi (by omega) (by omega)]
  exact decide_eq_decide.2 ⟨fun h => by omega, fun h => by omega⟩

include hbl in
theorem leaves_P : ∀ i, i ≤ n → countTrue (occ .p10 mem) (P V n i) = i
  | 0, _ => rfl
  | i + 1, h => by
    have := leaves_in hbl (show i < n by omega) (leaves_P i (by omega)) (m := co V n i + cc V n i) (Nat.le_refl _)
    rw [if_pos (by unfold cc; omega)] at this
    exact this

include hbl in
/-- The number of leaves before a position of the opening parentheses of a block. -/
theorem leaves_open {i q : Nat} (hi : i < n) (h1 : P V n i ≤ q) (h2 : q ≤ P V n i + co V n i) : countTrue (occ .p10 mem) q = i := by
  have := leaves_in hbl hi (leaves_P hbl i (by omega)) (m := q - P V n i) (by rw [P_succ]; omega)
  rw [show P V n i + (q - P V n i) = q by omega, if_neg (by omega)] at this
  exact this

include hbl in
theorem leaves_close {i q : Nat} (hi : i < n) (h1 : P V n i + co V n i < q) (h2 : q ≤ P V n (i + 1)) : countTrue (occ .p10 mem) q = i + 1 := by
  have := leaves_in hbl hi (leaves_P hbl i (by omega)) (m := q - P V n i) (by omega)
  rw [show P V n i + (q - P V n i) = q by omega, if_pos (by omega)] at this
  exact this

theorem Nd.lt {i j : Nat} (h : Nd V n i j) : i < n := by have := h.1; have := h.2.1; omega

include hbl in
theorem leaves_oP {i j : Nat} (h : Nd V n i j) : countTrue (occ .p10 mem) (oP V n i j) = i :=
  leaves_open hbl h.lt (oP_bound h).1 (by have := (oP_bound h).2; omega)

include hbl in
theorem leaves_cP {i j : Nat} (h : Nd V n i j) : countTrue (occ .p10 mem) (cP V n i j + 1) = j + 1 :=
  leaves_close hbl h.2.1 (by have := (cP_bound h).1; omega) (by have := (cP_bound h).2; omega)

end

end Sdsl.CstSada
