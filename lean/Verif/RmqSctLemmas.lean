/-
  Lemmas for the succinct range minimum structures.
-/
import Verif.RmqSct
import Verif.SctCode
import Verif.Props.Sct

namespace Sdsl.RmqSct

open Spec Props

theorem countP_range (f : Nat → Bool) : ∀ n, (List.range n).countP f = countTrue f n
  | 0 => rfl
  | n + 1 => by
    rw [List.range_succ, List.countP_append, countP_range f n, countTrue]
    cases h : f n <;> simp [h]

theorem rankC_eq {f : Nat → Bool} {n i : Nat} (h : i ≤ n) : rankC f n i = some (countTrue f i) := by
  rw [rankC, if_pos h, countP_range]

theorem selectC_eq {f : Nat → Bool} {n i p : Nat} (h : IsSelect f n i p) : selectC f n i = some p := by
  unfold selectC
  rw [List.find?_range_eq_some]
  refine ⟨?_, List.mem_range.2 h.1, fun j hj => ?_⟩
  · rw [countP_range, h.2.1, h.2.2]; simp
  · rw [countP_range]
    cases hf : f j with
    | false => rfl
    | true =>
      have := countTrue_lt_of_true (f := f) hj hf
      have := h.2.2
      simp; omega

/-! ### The leftmost best position -/

/-- `p` is the leftmost position in `[l, r]` whose value is best. -/
def Best (mn : Bool) (vs : List Nat) (l r p : Nat) : Prop :=
  l ≤ p ∧ p ≤ r ∧ (∀ k, l ≤ k → k ≤ r → ¬ InFront mn vs k p) ∧ ∀ k, l ≤ k → k < p → InFront mn vs p k

theorem front_tr {mn : Bool} {vs : List Nat} {a b c : Nat} (h1 : ¬ InFront mn vs a b) (h2 : ¬ InFront mn vs b c) : ¬ InFront mn vs a c := by
  unfold InFront at *
  cases mn
  · simp only [Bool.false_eq_true, if_false] at *; omega
  · simp only [if_true] at *; omega

theorem front_irr {mn : Bool} {vs : List Nat} {a : Nat} : ¬ InFront mn vs a a := by
  unfold InFront
  cases mn <;> simp

theorem front_tr' {mn : Bool} {vs : List Nat} {a b c : Nat} (h1 : InFront mn vs a b) (h2 : ¬ InFront mn vs c b) : InFront mn vs a c := by
  unfold InFront at *
  cases mn
  · simp only [Bool.false_eq_true, if_false] at *; omega
  · simp only [if_true] at *; omega

theorem front_tt {mn : Bool} {vs : List Nat} {a b c : Nat} (h1 : InFront mn vs a b) (h2 : InFront mn vs b c) : InFront mn vs a c := by
  unfold InFront at *
  cases mn
  · simp only [Bool.false_eq_true, if_false] at *; omega
  · simp only [if_true] at *; omega

theorem front_asymm {mn : Bool} {vs : List Nat} {a b : Nat} (h1 : InFront mn vs a b) : ¬ InFront mn vs b a := by
  unfold InFront at *
  cases mn
  · simp only [Bool.false_eq_true, if_false] at *; omega
  · simp only [if_true] at *; omega

theorem best_exists (mn : Bool) (vs : List Nat) (l : Nat) : ∀ d, ∃ p, Best mn vs l (l + d) p
  | 0 => ⟨l, Nat.le_refl _, Nat.le_refl _, fun k h1 h2 => by rw [show k = l by omega]; exact front_irr, fun k h1 h2 => by omega⟩
  | d + 1 => by
    obtain ⟨p, h1, h2, h3, h4⟩ := best_exists mn vs l d
    by_cases c : InFront mn vs (l + d + 1) p
    · refine ⟨l + d + 1, by omega, Nat.le_refl _, fun k k1 k2 => ?_, fun k k1 k2 => front_tr' c (h3 k k1 (by omega))⟩
      rcases Nat.lt_or_ge k (l + d + 1) with c1 | c1
      · exact front_asymm (front_tr' c (h3 k k1 (by omega)))
      · rw [show k = l + d + 1 by omega]; exact front_irr
    · refine ⟨p, h1, by omega, fun k k1 k2 => ?_, h4⟩
      rcases Nat.lt_or_ge k (l + d + 1) with c1 | c1
      · exact h3 k k1 (by omega)
      · rw [show k = l + d + 1 by omega]; exact c

theorem Best.unique {mn : Bool} {vs : List Nat} {l r p p' : Nat} (h : Best mn vs l r p) (h' : Best mn vs l r p') : p = p' := by
  rcases Nat.lt_trichotomy p p' with c | c | c
  · exact absurd (h'.2.2.2 p h.1 c) (h.2.2.1 p' h'.1 h'.2.1)
  · exact c
  · exact absurd (h.2.2.2 p' h'.1 c) (h'.2.2.1 p h.1 h.2.1)

theorem Best.sub {mn : Bool} {vs : List Nat} {l r p l' r' : Nat} (h : Best mn vs l r p) (h1 : l ≤ l') (h2 : l' ≤ p) (h3 : p ≤ r') (h4 : r' ≤ r) : Best mn vs l' r' p :=
  ⟨h2, h3, fun k k1 k2 => h.2.2.1 k (by omega) (by omega), fun k k1 k2 => h.2.2.2 k (by omega) k2⟩

/-! ### rmq_succinct_sct -/

variable {mn : Bool} {vs : List Nat} {S D : Nat}

theorem query_ok (hn : 4 * vs.length + 2 < 2 ^ 64) (pS : 0 < S) (bS : S + 2 < 2 ^ 64) (h8 : S % 8 = 0) (hD : 2 ≤ D) :
    ∃ s, new vs mn S D = some s ∧ ∀ l r, l ≤ r → r < vs.length → ∃ p, query s l r = some p ∧ Best mn vs l r p := by
  obtain ⟨m, e1, hlen, hsc, hz⟩ := C60_succinct vs mn (by omega)
  have hnm : 2 * vs.length ≤ 64 * m.length := by rw [hlen]; omega
  have hb : 2 * (2 * vs.length) + 2 < 2 ^ 64 := by omega
  obtain ⟨s, e2, hsn⟩ := C59_construct hnm hb pS bS (show 0 < D by omega)
  have hmem : s.mem = m := by
    rcases Nat.eq_zero_or_pos (2 * vs.length) with h0 | h0
    · rw [Bp.Sada.new] at e2
      dsimp only at e2
      rw [if_pos h0] at e2
      injection e2 with e2; rw [← e2]
    · obtain ⟨K, h, _⟩ := new_ok hnm hb pS bS (show 0 < D by omega) h0 e2
      exact h
  refine ⟨s, by rw [new, e1, sbind]; exact e2, fun l r hlr hr => ?_⟩
  obtain ⟨d, rfl⟩ := Nat.le.dest hlr
  obtain ⟨M, hM⟩ := best_exists mn vs l d
  refine ⟨M, ?_, hM⟩
  unfold query
  rcases Nat.eq_zero_or_pos d with rfl | hd
  · rw [if_pos (show l = l + 0 from rfl), show M = l by have := hM.1; have := hM.2.1; omega]
  rw [if_neg (by omega), hmem, hsn]
  obtain ⟨i, hi⟩ := select_exists (b := bitAt m) (N := 2 * vs.length) (n := l) (by rw [hsc.cnt]; omega)
  obtain ⟨j, hj⟩ := select_exists (b := bitAt m) (N := 2 * vs.length) (n := l + d) (by rw [hsc.cnt]; omega)
  obtain ⟨c, hc, hm, _⟩ := C48_match_open hsc.bal hi.1 hi.2.1
  rw [selectC_eq hi, sbind, selectC_eq hj, sbind, C59_find_close hnm hb pS bS (by omega) e2 hm hc, sbind]
  have lt_iff : ∀ {a b pa pb}, IsSelect (bitAt m) (2 * vs.length) (a + 1) pa → IsSelect (bitAt m) (2 * vs.length) (b + 1) pb → (a < b ↔ pa < pb) := by
    intro a b pa pb ha hb
    have h1 := ha.2.2
    have h2 := hb.2.2
    constructor
    · intro h
      rcases Nat.lt_or_ge pa pb with h3 | h3
      · exact h3
      · have := countTrue_mono (bitAt m) h3; omega
    · intro h
      have := countTrue_lt_of_true (f := bitAt m) h ha.2.1; omega
  have hij : i < j := (lt_iff hi hj).1 (by omega)
  have uncl_c : ∀ {p}, bitAt m p = true → p < 2 * vs.length → i < p → (p < c ↔ Around (bitAt m) i p) := by
    intro p hp hp2 hip
    rw [around_iff hsc.bal hp2 hp]
    obtain ⟨g1, g2, g3⟩ := hm.2.2.exc
    have g4 := exc_close hm.2.1
    constructor
    · intro h; exact ⟨hm.1, hip, fun q q1 q2 => g3 q q1 (by omega)⟩
    · intro h
      rcases Nat.lt_trichotomy p c with h1 | h1 | h1
      · exact h1
      · rw [h1, hm.2.1] at hp; cases hp
      · have := h.2.2 (c + 1) (by omega) (by omega); omega
  by_cases hjc : j < c
  · rw [if_pos hjc]
    have h1 := (hsc.shape l (l + d) i j (by omega) hi hj).1 ((uncl_c hj.2.1 hj.1 hij).1 hjc)
    rcases Nat.lt_or_ge l M with h2 | h2
    · exact absurd (hM.2.2.2 l (Nat.le_refl _) h2) (h1 M h2 hM.2.1)
    · rw [show M = l by have := hM.1; omega]
  · rw [if_neg hjc]
    have hcj : c < j := by
      rcases Nat.lt_or_ge c j with h | h
      · exact h
      · have : j = c := by omega
        have h2 := hj.2.1
        rw [this, hm.2.1] at h2; cases h2
    have hlM : l < M := by
      rcases Nat.lt_or_ge l M with h | h
      · exact h
      · have e : M = l := by have := hM.1; omega
        rw [e] at hM
        have := (hsc.shape l (l + d) i j (by omega) hi hj).2 (fun k k1 k2 => hM.2.2.1 k (by omega) k2)
        exact absurd ((uncl_c hj.2.1 hj.1 hij).2 this) hjc
    obtain ⟨q, hq⟩ := select_exists (b := bitAt m) (N := 2 * vs.length) (n := M) (by rw [hsc.cnt]; have := hM.2.1; omega)
    have hiq : i < q := (lt_iff hi hq).1 hlM
    have hcq : c < q := by
      rcases Nat.lt_trichotomy q c with h | h | h
      · have := (hsc.shape l M i q hlM hi hq).1 ((uncl_c hq.2.1 hq.1 hiq).1 h) M hlM (Nat.le_refl _)
        exact absurd (hM.2.2.2 l (Nat.le_refl _) hlM) this
      · have h2 := hq.2.1
        rw [h, hm.2.1] at h2; cases h2
      · exact h
    obtain ⟨k, e3, h3⟩ := C59_rr_enclose hnm hb pS bS h8 hD e2 hsc.bal hm hc hj.1 hj.2.1
    rw [e3, sbind]
    -- the pair of the best position is around `j` unless it is `j`
    have hq2 : M < l + d → Around (bitAt m) q j := fun h => (hsc.shape M (l + d) q j h hq hj).2 (fun k k1 k2 => hM.2.2.1 k (by omega) k2)
    rcases h3 with ⟨h4, h5, h6⟩ | ⟨h4, h5⟩
    · have hkj := h5.1
      have hkb : bitAt m k = true := by obtain ⟨_, _, _, h7, _⟩ := h5; exact h7.1
      have hjn := hj.1
      have hks : IsSelect (bitAt m) (2 * vs.length) (countTrue (bitAt m) k + 1) k := ⟨by omega, hkb, rfl⟩
      rw [if_neg (by omega), rankC_eq (by omega), sbind]
      have e4 : countTrue (bitAt m) (k + 1) = countTrue (bitAt m) k + 1 := by rw [countTrue, hkb]; rfl
      rw [e4, Nat.add_sub_cancel]
      have ht : countTrue (bitAt m) k < l + d := (lt_iff hks hj).2 hkj
      have hlt : l < countTrue (bitAt m) k := (lt_iff hi hks).2 (by have := hm.2.2.1; omega)
      have h7 := (hsc.shape _ (l + d) k j ht hks hj).1 h5
      rcases Nat.lt_trichotomy (countTrue (bitAt m) k) M with h8 | h8 | h8
      · exact absurd (hM.2.2.2 _ (by omega) h8) (h7 M h8 hM.2.1)
      · rw [h8]; rfl
      · have h9 := (lt_iff hq hks).1 h8
        exact absurd (hq2 (by omega)) (h6 q hcq h9)
    · rw [if_pos h4]
      rcases Nat.lt_or_ge M (l + d) with h8 | h8
      · exact absurd (hq2 h8) (h5 q hcq)
      · rw [show M = l + d by have := hM.2.1; omega]

/-! ### The extended Cartesian tree -/

/-- An occurrence of the pattern `10` that ends at `p`. -/
def pat10 (b : Nat → Bool) (p : Nat) : Bool := decide (0 < p) && b (p - 1) && !b p

theorem occ10 (m : Mem) : occ .p10 m = pat10 (bitAt m) := by
  funext q
  unfold occ endsAt pat10 Pat.bits
  simp only [List.length_cons, List.length_nil, show List.range (0 + 1 + 1) = [0, 1] from rfl, List.all_cons, List.all_nil, List.getD_cons_zero, List.getD_cons_succ]
  cases q with
  | zero => rfl
  | succ q =>
    simp only [show q + 1 + 1 - (0 + 1 + 1) = q by omega, Nat.add_zero, Nat.add_sub_cancel]
    simp

/-- The positions from `o` hold the tree of the values in `[l, r)`. -/
inductive Ect (M : Nat → Nat → Nat → Prop) (b : Nat → Bool) : Nat → Nat → Nat → Prop
  | nil (o l) : Ect M b o l l
  | node {o l r} (m : Nat) : M l (r - 1) m → l ≤ m → m < r → b o = true → Ect M b (o + 1) l m → b (o + 1 + 4 * (m - l)) = true →
      b (o + 2 + 4 * (m - l)) = false → Ect M b (o + 3 + 4 * (m - l)) (m + 1) r → b (o + 4 * (r - l) - 1) = false → Ect M b o l r

/-- What the queries need: the positions `c i` of the leaves. -/
structure EctOk (mn : Bool) (vs : List Nat) (b : Nat → Bool) (o l r : Nat) (c : Nat → Nat) : Prop where
  le : l ≤ r
  first : l < r → b o = true
  last : l < r → b (o + 4 * (r - l) - 1) = false
  zero : Bp.exc b (o + 4 * (r - l)) = Bp.exc b o
  above : ∀ q, o < q → q < o + 4 * (r - l) → Bp.exc b o < Bp.exc b q
  rng : ∀ i, l ≤ i → i < r → o < c i ∧ c i + 1 < o + 4 * (r - l)
  pat : ∀ i, l ≤ i → i < r → pat10 b (c i) = true
  cnt : ∀ i, l ≤ i → i < r → countTrue (pat10 b) (c i) = countTrue (pat10 b) o + (i - l)
  tot : countTrue (pat10 b) (o + 4 * (r - l)) = countTrue (pat10 b) o + (r - l)
  best : ∀ i j k, l ≤ i → i ≤ j → j < r → Best mn vs i j k → ∀ q, c i ≤ q → q ≤ c j → Bp.exc b (c k + 1) ≤ Bp.exc b (q + 1) ∧ (c k < q → Bp.exc b (c k + 1) < Bp.exc b (q + 1))

theorem pat_false_of_open {b : Nat → Bool} {p : Nat} (h : b p = true) : pat10 b p = false := by unfold pat10; rw [h]; simp
theorem pat_false_of_close {b : Nat → Bool} {p : Nat} (h : b p = false) : pat10 b (p + 1) = false := by unfold pat10; rw [Nat.add_sub_cancel, h]; simp
theorem pat_true {b : Nat → Bool} {p : Nat} (h : b p = true) (h' : b (p + 1) = false) : pat10 b (p + 1) = true := by
  unfold pat10; rw [Nat.add_sub_cancel, h, h']; simp

theorem count_step {f : Nat → Bool} {p : Nat} (h : f p = false) : countTrue f (p + 1) = countTrue f p := by rw [countTrue, h]; rfl
theorem count_step' {f : Nat → Bool} {p : Nat} (h : f p = true) : countTrue f (p + 1) = countTrue f p + 1 := by rw [countTrue, h]; rfl

theorem ect_ok {b : Nat → Bool} {o l r : Nat} (h : Ect (Best mn vs) b o l r) : ∃ c, EctOk mn vs b o l r c := by
  induction h with
  | nil o l =>
    exact ⟨fun _ => 0, Nat.le_refl _, fun h => absurd h (Nat.lt_irrefl _), fun h => absurd h (Nat.lt_irrefl _), by rw [Nat.sub_self]; rfl,
      fun q h1 h2 => by omega, fun i h1 h2 => by omega, fun i h1 h2 => by omega, fun i h1 h2 => by omega, by simp, fun i j k h1 h2 h3 => by omega⟩
  | node m hM h1 h2 h3 hL h4 h5 hR h6 ih1 ih2 =>
    rename_i o l r
    obtain ⟨c1, k1⟩ := ih1
    obtain ⟨c2, k2⟩ := ih2
    obtain ⟨A, hA⟩ : ∃ A, A = m - l := ⟨m - l, rfl⟩
    obtain ⟨B, hB⟩ : ∃ B, B = r - (m + 1) := ⟨r - (m + 1), rfl⟩
    have hN : r - l = A + 1 + B := by omega
    obtain ⟨_, a1, a2, a3, a4, a5, a6, a7, a8, a9⟩ := k1
    obtain ⟨_, b1, b2, b3, b4, b5, b6, b7, b8, b9⟩ := k2
    rw [hN] at h6
    rw [← hA] at h4 h5 a2 a3 a4 a5 a8 b1 b2 b3 b4 b5 b7 b8
    rw [← hB] at b2 b3 b4 b5 b8
    have h6 : b (o + 3 + 4 * A + 4 * B) = false := by rw [show o + 3 + 4 * A + 4 * B = o + 4 * (A + 1 + B) - 1 by omega]; exact h6
    have h5 : b (o + 1 + 4 * A + 1) = false := by rw [show o + 1 + 4 * A + 1 = o + 2 + 4 * A by omega]; exact h5
    have e0 := exc_open h3
    have e1 := exc_open h4
    have e2 := exc_close h5
    have e3 := exc_close h6
    rw [show o + 1 + 4 * A + 1 + 1 = o + 3 + 4 * A by omega] at e2
    rw [show o + 3 + 4 * A + 4 * B + 1 = o + 4 * (A + 1 + B) by omega] at e3
    have low : ∀ q, o < q → q < o + 4 * (A + 1 + B) → Bp.exc b o + 1 ≤ Bp.exc b q := by
      intro q q1 q2
      rcases Nat.lt_trichotomy q (o + 1 + 4 * A) with c | c | c
      · rcases Nat.eq_or_lt_of_le (show o + 1 ≤ q by omega) with c' | c'
        · rw [← c', e0]
        · have := a4 q c' c; omega
      · rw [c, a3, e0]
      rcases Nat.lt_trichotomy q (o + 3 + 4 * A) with c1 | c1 | c1
      · rw [show q = o + 1 + 4 * A + 1 by omega]; omega
      · rw [c1]; omega
      rcases Nat.lt_or_ge q (o + 3 + 4 * A + 4 * B) with c2 | c2
      · have := b4 q c1 c2; omega
      · rw [show q = o + 3 + 4 * A + 4 * B by omega]; omega
    have g0 := count_step (pat_false_of_open h3)
    have g1 := count_step (pat_false_of_open h4)
    have g2 := count_step' (pat_true h4 h5)
    have g3 : countTrue (pat10 b) (o + 3 + 4 * A + 4 * B + 1) = countTrue (pat10 b) (o + 3 + 4 * A + 4 * B) := by
      apply count_step
      rw [show o + 3 + 4 * A + 4 * B = o + 2 + 4 * A + 4 * B + 1 by omega]
      apply pat_false_of_close
      rcases Nat.eq_zero_or_pos B with c | c
      · rw [c, show o + 2 + 4 * A + 4 * 0 = o + 1 + 4 * A + 1 by omega]; exact h5
      · have := b2 (by omega)
        rwa [show o + 3 + 4 * A + 4 * B - 1 = o + 2 + 4 * A + 4 * B by omega] at this
    rw [show o + 1 + 4 * A + 1 + 1 = o + 3 + 4 * A by omega] at g2
    rw [show o + 3 + 4 * A + 4 * B + 1 = o + 4 * (A + 1 + B) by omega] at g3
    refine ⟨fun i => if i < m then c1 i else if i = m then o + 2 + 4 * A else c2 i, by omega, fun _ => h3, fun _ => ?_, ?_, fun q q1 q2 => ?_, fun i i1 i2 => ?_, fun i i1 i2 => ?_, fun i i1 i2 => ?_, ?_, ?_⟩
    · rw [hN, show o + 4 * (A + 1 + B) - 1 = o + 3 + 4 * A + 4 * B by omega]; exact h6
    · rw [hN]; omega
    · rw [hN] at q2
      have := low q q1 q2; omega
    · rw [hN]
      rcases Nat.lt_trichotomy i m with c | c | c
      · rw [if_pos c]
        have := a5 i i1 c; omega
      · rw [if_neg (by omega), if_pos c]; omega
      · rw [if_neg (by omega), if_neg (by omega)]
        have := b5 i c i2; omega
    · rcases Nat.lt_trichotomy i m with c | c | c
      · rw [if_pos c]; exact a6 i i1 c
      · rw [if_neg (by omega), if_pos c, show o + 2 + 4 * A = o + 1 + 4 * A + 1 by omega]; exact pat_true h4 h5
      · rw [if_neg (by omega), if_neg (by omega)]; exact b6 i c i2
    · rcases Nat.lt_trichotomy i m with c | c | c
      · rw [if_pos c]
        have := a7 i i1 c; omega
      · rw [if_neg (by omega), if_pos c, show o + 2 + 4 * A = o + 1 + 4 * A + 1 by omega]; omega
      · rw [if_neg (by omega), if_neg (by omega)]
        have := b7 i c i2; omega
    · rw [hN]; omega
    · intro i j k i1 ij j2 hk q q1 q2
      have hik := hk.1
      have hkj := hk.2.1
      rcases Nat.lt_or_ge j m with c | c
      · rw [if_pos (show i < m by omega)] at q1
        rw [if_pos c] at q2
        rw [if_pos (show k < m by omega)]
        exact a9 i j k i1 ij c hk q q1 q2
      rcases Nat.lt_or_ge m i with c' | c'
      · rw [if_neg (show ¬ i < m by omega), if_neg (show ¬ i = m by omega)] at q1
        rw [if_neg (show ¬ j < m by omega), if_neg (show ¬ j = m by omega)] at q2
        rw [if_neg (show ¬ k < m by omega), if_neg (show ¬ k = m by omega)]
        exact b9 i j k c' ij j2 hk q q1 q2
      · have ekm : k = m := hk.unique (hM.sub i1 c' c (by omega))
        rw [if_neg (show ¬ k < m by omega), if_pos ekm]
        have hq1 : o < q := by
          rcases Nat.lt_or_ge i m with c2 | c2
          · rw [if_pos c2] at q1
            have := a5 i i1 c2; omega
          · rw [if_neg (by omega), if_pos (by omega)] at q1; omega
        have hq2 : q < o + 3 + 4 * A ∨ (j ≠ m ∧ q + 1 < o + 3 + 4 * A + 4 * B) := by
          rcases Nat.lt_or_ge m j with c2 | c2
          · rw [if_neg (show ¬ j < m by omega), if_neg (show ¬ j = m by omega)] at q2
            have := b5 j c2 j2
            exact Or.inr ⟨by omega, by omega⟩
          · rw [if_neg (show ¬ j < m by omega), if_pos (by omega)] at q2
            exact Or.inl (by omega)
        have ec : Bp.exc b (o + 2 + 4 * A + 1) = Bp.exc b o + 1 := by rw [show o + 2 + 4 * A + 1 = o + 3 + 4 * A by omega]; omega
        rw [ec]
        refine ⟨low (q + 1) (by omega) (by omega), fun hlt => ?_⟩
        have := b4 (q + 1) (by omega) (by omega)
        omega

theorem Ect.congr {M : Nat → Nat → Nat → Prop} {b b' : Nat → Bool} {o l r : Nat} (h : Ect M b o l r) : (∀ p, o ≤ p → p < o + 4 * (r - l) → b' p = b p) → Ect M b' o l r := by
  induction h with
  | nil o l => exact fun _ => Ect.nil o l
  | node m hM h1 h2 h3 hL h4 h5 hR h6 ih1 ih2 =>
    rename_i o l r
    intro hb
    exact Ect.node m hM h1 h2 (by rw [hb _ (by omega) (by omega)]; exact h3) (ih1 fun p p1 p2 => hb p (by omega) (by omega)) (by rw [hb _ (by omega) (by omega)]; exact h4)
      (by rw [hb _ (by omega) (by omega)]; exact h5) (ih2 fun p p1 p2 => hb p (by omega) (by omega)) (by rw [hb _ (by omega) (by omega)]; exact h6)

section
variable {h : Nat → Nat → Option Nat} {n : Nat} (hh : ∀ l r, l ≤ r → r < n → ∃ p, h l r = some p ∧ Best mn vs l r p)
include hh

/-- A subtree is written: [l, r) at `k` in `3 (r - l)` steps. -/
def Writes (mn : Bool) (vs : List Nat) (h : Nat → Nat → Option Nat) (l r k : Nat) (st st' : List State) (mem : Mem) : Prop :=
  ∃ mem', mem'.length = mem.length ∧ (∀ p, p < k ∨ k + 4 * (r - l) ≤ p → bitAt mem' p = bitAt mem p) ∧ Ect (Best mn vs) (bitAt mem') k l r ∧
    ∀ f, run h (f + 3 * (r - l)) st' k mem = run h f st (k + 4 * (r - l)) mem'

theorem run_node : ∀ (N l r m : Nat) (st : List State) (k : Nat) (mem : Mem), r - l < N → l ≤ r → r < n → Best mn vs l r m → k + 4 * (r + 1 - l) ≤ 64 * mem.length →
    Writes mn vs h l (r + 1) k st (⟨l, r, m, 1⟩ :: st) mem
  | 0, _, _, _, _, _, _, hN, _, _, _, _ => absurd hN (Nat.not_lt_zero _)
  | N + 1, l, r, m, st, k, mem, hN, hlr, hr, hM, hW => by
    have hlm := hM.1
    have hmr := hM.2.1
    obtain ⟨A, hA⟩ : ∃ A, A = m - l := ⟨m - l, rfl⟩
    obtain ⟨B, hB⟩ : ∃ B, B = r - m := ⟨r - m, rfl⟩
    have hT : r + 1 - l = A + 1 + B := by omega
    -- the beginning
    obtain ⟨m1, w1, l1, c1⟩ := Sct.setOne_eq (m := mem) (k := k) (by omega)
    -- the left part
    have left : ∃ stL, pushLeft h ⟨l, r, m, 1⟩ (⟨l, r, m, 2⟩ :: st) = some stL ∧ Writes mn vs h l m (k + 1) (⟨l, r, m, 2⟩ :: st) stL m1 := by
      unfold pushLeft
      dsimp only
      by_cases c : m > l
      · obtain ⟨p, e, hp⟩ := hh l (m - 1) (by omega) (by omega)
        rw [if_pos c, e, sbind]
        have := run_node N l (m - 1) p (⟨l, r, m, 2⟩ :: st) (k + 1) m1 (by omega) (by omega) (by omega) hp (by omega)
        rw [show m - 1 + 1 = m by omega] at this
        exact ⟨_, rfl, this⟩
      · rw [if_neg c]
        have e : m = l := by omega
        refine ⟨_, rfl, m1, rfl, fun _ _ => rfl, by rw [e]; exact Ect.nil _ _, fun f => by rw [e, Nat.sub_self]; rfl⟩
    obtain ⟨stL, e2, m2, l2, c2, t2, r2⟩ := left
    -- the leaf
    obtain ⟨m3, w3, l3, c3⟩ := Sct.setOne_eq (m := m2) (k := k + 1 + 4 * (m - l)) (by omega)
    obtain ⟨m4, w4, l4, c4⟩ := Sct.setZero_eq (m := m3) (k := k + 1 + 4 * (m - l) + 1) (by omega)
    -- the right part
    have right : ∃ stR, pushRight h ⟨l, r, m, 2⟩ (⟨l, r, m, 3⟩ :: st) = some stR ∧ Writes mn vs h (m + 1) (r + 1) (k + 1 + 4 * (m - l) + 2) (⟨l, r, m, 3⟩ :: st) stR m4 := by
      unfold pushRight
      dsimp only
      by_cases c : m < r
      · obtain ⟨p, e, hp⟩ := hh (m + 1) r (by omega) (by omega)
        rw [if_pos c, e, sbind]
        exact ⟨_, rfl, run_node N (m + 1) r p (⟨l, r, m, 3⟩ :: st) (k + 1 + 4 * (m - l) + 2) m4 (by omega) (by omega) (by omega) hp (by omega)⟩
      · rw [if_neg c]
        have e : m = r := by omega
        refine ⟨_, rfl, m4, rfl, fun _ _ => rfl, by rw [e]; exact Ect.nil _ _, fun f => by rw [e, Nat.sub_self]; rfl⟩
    obtain ⟨stR, e5, m5, l5, c5, t5, r5⟩ := right
    -- the end
    obtain ⟨m6, w6, l6, c6⟩ := Sct.setZero_eq (m := m5) (k := k + 1 + 4 * (m - l) + 2 + 4 * (r + 1 - (m + 1))) (by omega)
    have q1 : ∀ p, p ≠ k → bitAt m1 p = bitAt mem p := fun p hp => by rw [c1, decide_eq_false hp]; simp
    have q3 : ∀ p, p ≠ k + 1 + 4 * (m - l) → bitAt m3 p = bitAt m2 p := fun p hp => by rw [c3, decide_eq_false hp]; simp
    have q4 : ∀ p, p ≠ k + 1 + 4 * (m - l) + 1 → bitAt m4 p = bitAt m3 p := fun p hp => by rw [c4, decide_eq_false hp]; simp
    have q6 : ∀ p, p ≠ k + 1 + 4 * (m - l) + 2 + 4 * (r + 1 - (m + 1)) → bitAt m6 p = bitAt m5 p := fun p hp => by rw [c6, decide_eq_false hp]; simp
    refine ⟨m6, by omega, fun p hp => ?_, ?_, fun f => ?_⟩
    · rw [q6 p (by omega), c5 p (by omega), q4 p (by omega), q3 p (by omega), c2 p (by omega), q1 p (by omega)]
    · refine Ect.node m (by rw [Nat.add_sub_cancel]; exact hM) hlm (by omega) ?_ ?_ ?_ ?_ ?_ ?_
      · rw [q6 _ (by omega), c5 _ (by omega), q4 _ (by omega), q3 _ (by omega), c2 _ (by omega), c1]; simp
      · refine t2.congr fun p p1 p2 => ?_
        rw [q6 _ (by omega), c5 _ (by omega), q4 _ (by omega), q3 _ (by omega)]
      · rw [q6 _ (by omega), c5 _ (by omega), q4 _ (by omega), c3]; simp
      · rw [show k + 2 + 4 * (m - l) = k + 1 + 4 * (m - l) + 1 by omega, q6 _ (by omega), c5 _ (by omega), c4]; simp
      · rw [show k + 3 + 4 * (m - l) = k + 1 + 4 * (m - l) + 2 by omega]
        exact t5.congr fun p p1 p2 => q6 _ (by omega)
      · rw [show k + 4 * (r + 1 - l) - 1 = k + 1 + 4 * (m - l) + 2 + 4 * (r + 1 - (m + 1)) by omega, c6]; simp
    · rw [show f + 3 * (r + 1 - l) = (((f + 1) + 3 * (r + 1 - (m + 1))) + 1 + 3 * (m - l)) + 1 by omega, run]
      dsimp only
      rw [if_pos rfl, w1, sbind, e2, sbind, r2, run]
      dsimp only
      rw [if_neg (by decide), if_pos rfl, w3, sbind, w4, sbind, e5, sbind, r5, run]
      dsimp only
      rw [if_neg (by decide), if_neg (by decide), if_pos rfl, w6, sbind, show k + 1 + 4 * (m - l) + 2 + 4 * (r + 1 - (m + 1)) + 1 = k + 4 * (r + 1 - l) by omega]

theorem construct_ok {m0 : Mem} (hW : 4 * n ≤ 64 * m0.length) : ∃ m, construct n h m0 = some m ∧ m.length = m0.length ∧ Ect (Best mn vs) (bitAt m) 0 0 n := by
  unfold construct
  by_cases c : n > 0
  · rw [if_pos c]
    obtain ⟨p, e, hp⟩ := hh 0 (n - 1) (Nat.zero_le _) (by omega)
    rw [e, sbind]
    obtain ⟨m, l1, c1, t1, r1⟩ := run_node hh n 0 (n - 1) p [] 0 m0 (by omega) (by omega) (by omega) hp (by omega)
    have := r1 1
    rw [show n - 1 + 1 - 0 = n by omega, show 1 + 3 * n = 3 * n + 1 by omega] at this
    rw [this]
    rw [show n - 1 + 1 = n by omega] at t1
    exact ⟨m, rfl, l1, t1⟩
  · rw [if_neg c]
    have : n = 0 := by omega
    rw [this]
    exact ⟨m0, rfl, rfl, Ect.nil 0 0⟩

end

theorem sadaNew_mem {mem : Mem} {n S D : Nat} {s : Bp.Sada} (hn : n ≤ 64 * mem.length) (hb : 2 * n + 2 < 2 ^ 64) (pS : 0 < S) (bS : S + 2 < 2 ^ 64) (pD : 0 < D) (e : Bp.Sada.new mem n S D = some s) :
    s.mem = mem := by
  rcases Nat.eq_zero_or_pos n with h0 | h0
  · rw [Bp.Sada.new] at e
    dsimp only at e
    rw [if_pos h0] at e
    injection e with e; rw [← e]
  · obtain ⟨K, h, _⟩ := new_ok hn hb pS bS pD h0 e
    exact h

theorem querySada_ok (hn : 8 * vs.length + 2 < 2 ^ 64) (pS : 0 < S) (bS : S + 2 < 2 ^ 64) (pD : 0 < D) {m0 : Mem} (hW : 4 * vs.length ≤ 64 * m0.length) :
    ∃ s, newSada vs mn S D m0 = some s ∧ ∀ l r, l ≤ r → r < vs.length → ∃ p, querySada s l r = some p ∧ Best mn vs l r p := by
  obtain ⟨hs, e1, hq⟩ := query_ok (mn := mn) (vs := vs) (S := 256) (D := 32) (by omega) (by decide) (by decide) (by decide) (by decide)
  obtain ⟨m, e2, hl, ht⟩ := construct_ok hq hW
  have hnm : 4 * vs.length ≤ 64 * m.length := by omega
  have hb : 2 * (4 * vs.length) + 2 < 2 ^ 64 := by omega
  obtain ⟨s, e3, hsn⟩ := C59_construct hnm hb pS bS pD
  have hmem := sadaNew_mem hnm hb pS bS pD e3
  refine ⟨s, by rw [newSada, e1, sbind, e2, sbind]; exact e3, fun l r hlr hr => ?_⟩
  obtain ⟨d, rfl⟩ := Nat.le.dest hlr
  obtain ⟨M, hM⟩ := best_exists mn vs l d
  refine ⟨M, ?_, hM⟩
  unfold querySada
  rcases Nat.eq_zero_or_pos d with rfl | hd
  · rw [if_pos (show l = l + 0 from rfl), show M = l by have := hM.1; have := hM.2.1; omega]
  rw [if_neg (by omega), hmem, hsn, occ10]
  obtain ⟨c, ok⟩ := ect_ok ht
  have sel : ∀ i, i < vs.length → IsSelect (pat10 (bitAt m)) (4 * vs.length) (i + 1) (c i) := by
    intro i hi
    have h1 := ok.rng i (Nat.zero_le _) hi
    have h2 := ok.cnt i (Nat.zero_le _) hi
    exact ⟨by omega, ok.pat i (Nat.zero_le _) hi, by rw [h2]; show 0 + (i - 0) + 1 = i + 1; omega⟩
  have sl := sel l (by omega)
  have sr := sel (l + d) hr
  have hM1 := hM.1
  have hM2 := hM.2.1
  have sM := sel M (by omega)
  have mono : ∀ i j, i ≤ j → j < vs.length → c i ≤ c j := by
    intro i j hij hj
    rcases Nat.lt_or_ge (c j) (c i) with h | h
    · have := countTrue_lt_of_true (f := pat10 (bitAt m)) h (sel j hj).2.1
      have := (sel j hj).2.2
      have := (sel i (by omega)).2.2
      omega
    · exact h
  have hlr := mono l (l + d) (by omega) hr
  obtain ⟨z, e4, z1, z2, z3, z4⟩ := C59_rmq hnm hb pS bS pD e3 hlr sr.1
  rw [selectC_eq sl, sbind, selectC_eq sr, sbind, e4, sbind]
  have hb := ok.best l (l + d) M (Nat.zero_le _) (by omega) hr hM
  have en : ∀ q, net (bitAt m) 0 (q + 1) = Bp.exc (bitAt m) (q + 1) := fun q => by
    rw [net_eq _ (Nat.zero_le _), show Bp.exc (bitAt m) 0 = 0 from rfl, Int.sub_zero]
  have k1 := mono l M hM1 (by omega)
  have k2 := mono M (l + d) hM2 hr
  have hz : z = c M := by
    rcases Nat.lt_trichotomy z (c M) with h | h | h
    · have g1 := z4 (c M) h k2
      have g2 := (hb z z1 z2).1
      rw [en, en] at g1; omega
    · exact h
    · have g1 := z3 (c M) k1 k2
      have g2 := (hb z z1 z2).2 h
      rw [en, en] at g1; omega
  rw [hz, if_pos sM.1]
  have hbz : bitAt m (c M) = false := by
    have := sM.2.1
    unfold pat10 at this
    simp only [Bool.and_eq_true, Bool.not_eq_true'] at this
    exact this.2
  dsimp only
  rw [hbz, if_neg (by decide), Nat.mul_zero, Nat.sub_zero, Nat.add_sub_cancel, rankC_eq (by have := sM.1; omega)]
  have := sM.2.2
  congr 1; omega

end Sdsl.RmqSct
