/-
  bp_support_sada: forward search in the range min-max tree.
-/
import Verif.BpSadaBuild
import Verif.BpNear

namespace Sdsl.Bp

open Spec

theorem count_exc (b : Nat → Bool) (n : Nat) : exc b n = 2 * ((List.range n).countP b : Int) - n := by
  induction n with
  | zero => rfl
  | succ n ih =>
    rw [exc_succ, ih, List.range_succ, List.countP_append, List.countP_cons, List.countP_nil]
    cases b n
    · rw [show sgn false = -1 by rfl]; simp only [Bool.false_eq_true, if_false]; omega
    · rw [show sgn true = 1 by rfl]; simp only [if_true]; omega

theorem excess_ok {s : Sada} {i : Nat} (hi : i < s.n) : s.excess i = some (exc (bitAt s.mem) (i + 1)) := by
  rw [Sada.excess, rank1, if_pos (by omega), sbind, count_exc]
  congr 1
  omega

theorem exBefore_ok {s : Sada} {k : Nat} (hk : k * s.S ≤ s.n) : s.exBefore k = some (exc (bitAt s.mem) (k * s.S)) := by
  rw [Sada.exBefore]
  split
  · rename_i h; rw [h]; rfl
  · rw [excess_ok (by omega), show k * s.S - 1 + 1 = k * s.S by omega]

/-- The excess takes all values between two of its values. -/
theorem ivt (b : Nat → Bool) (t : Int) (a : Nat) : ∀ k, (exc b a ≤ t ∧ t ≤ exc b (a + k)) ∨ (exc b (a + k) ≤ t ∧ t ≤ exc b a) → ∃ q, a ≤ q ∧ q ≤ a + k ∧ exc b q = t
  | 0, h => ⟨a, by omega, by omega, by rw [Nat.add_zero] at h; omega⟩
  | k + 1, h => by
    by_cases he : exc b (a + (k + 1)) = t
    · exact ⟨a + (k + 1), by omega, by omega, he⟩
    · have hs := exc_step b (a + k)
      rw [show a + k + 1 = a + (k + 1) by omega] at hs
      obtain ⟨q, h1, h2, h3⟩ := ivt b t a k (by omega)
      exact ⟨q, h1, by omega, h3⟩

theorem ivt1 {mem : Mem} {t : Int} {q1 q2 a e : Nat} (h1 : a ≤ q1) (h2 : q1 < e) (h3 : a ≤ q2) (h4 : q2 < e) (h5 : ex1 mem q1 ≤ t) (h6 : t ≤ ex1 mem q2) : ∃ q, a ≤ q ∧ q < e ∧ ex1 mem q = t := by
  unfold ex1 at *
  rcases Nat.le_total q1 q2 with h | h
  · obtain ⟨q, h7, h8, h9⟩ := ivt (bitAt mem) t (q1 + 1) (q2 - q1) (Or.inl ⟨h5, by rw [show q1 + 1 + (q2 - q1) = q2 + 1 by omega]; exact h6⟩)
    exact ⟨q - 1, by omega, by omega, by rw [show q - 1 + 1 = q by omega]; exact h9⟩
  · obtain ⟨q, h7, h8, h9⟩ := ivt (bitAt mem) t (q2 + 1) (q1 - q2) (Or.inr ⟨by rw [show q2 + 1 + (q1 - q2) = q1 + 1 by omega]; exact h5, h6⟩)
    exact ⟨q - 1, by omega, by omega, by rw [show q - 1 + 1 = q by omega]; exact h9⟩

/-- A range contains a value iff the value lies between its minimum and maximum. -/
theorem range_iff {mem : Mem} {n a e : Nat} {lo hi t : Int} (pn : 0 < n) (he : e ≤ n) (hl : LoV (ex1 mem) n a e lo) (hh : HiV (ex1 mem) (-(n : Int)) a e hi) :
    (lo ≤ t ∧ t ≤ hi) ↔ ∃ q, a ≤ q ∧ q < e ∧ ex1 mem q = t := by
  constructor
  · rintro ⟨h1, h2⟩
    rcases hl.2.2 with h3 | ⟨q1, h3, h4, h5⟩ <;> rcases hh.2.2 with h6 | ⟨q2, h6, h7, h8⟩
    · omega
    · have := ex1_abs (mem := mem) (n := n) (q := q2) (by omega)
      exact ⟨q2, h6, h7, by omega⟩
    · have := ex1_abs (mem := mem) (n := n) (q := q1) (by omega)
      exact ⟨q1, h3, h4, by omega⟩
    · exact ivt1 h3 h4 h6 h7 (by omega) (by omega)
  · rintro ⟨q, h1, h2, h3⟩
    have h4 := hl.2.1 q h1 h2
    have h5 := hh.2.1 q h1 h2
    omega

theorem inRange_ok {s : Sada} {K : Nat} (ok : SadaOk s K) {v a e : Nat} (h : NodeOk s.mem s.n s.med v a e) (he : e ≤ s.n) (t : Int) :
    ∃ b, s.inRange v t = some b ∧ (b = true ↔ ∃ q, a ≤ q ∧ q < e ∧ exc (bitAt s.mem) (q + 1) = t) := by
  obtain ⟨x, y, h1, h2, h3, h4⟩ := h.ok
  rw [Sada.inRange, Sada.minValue, h1, sbind, sbind, Sada.maxValue, h2, sbind, sbind]
  refine ⟨_, rfl, ?_⟩
  rw [Bool.and_eq_true, decide_eq_true_iff, decide_eq_true_iff]
  exact range_iff ok.pn he h3 h4

theorem smlInRange_ok {s : Sada} {K : Nat} (ok : SadaOk s K) {k : Nat} (hk : k * s.S < s.n) (t : Int) :
    ∃ b, s.smlInRange k t = some b ∧ (b = true ↔ ∃ q, k * s.S ≤ q ∧ q < min ((k + 1) * s.S) s.n ∧ exc (bitAt s.mem) (q + 1) = t) := by
  obtain ⟨x, y, h1, h2, h3, h4⟩ := (ok.sml k hk).ok
  rw [Sada.smlInRange, exBefore_ok (by omega), sbind, h1, sbind, h2, sbind]
  refine ⟨_, rfl, ?_⟩
  rw [Bool.and_eq_true, decide_eq_true_iff, decide_eq_true_iff]
  have hce : k * s.S < min ((k + 1) * s.S) s.n := by have := ok.pS; rw [Nat.add_mul]; omega
  have := range_iff (t := t) ok.pn (by omega) (h3.widen (n := s.n) hce (by omega)) (h4.widen (n := s.n) hce (by omega))
  rw [show exc (bitAt s.mem) (k * s.S) + 1 - (x : Int) = exc (bitAt s.mem) (k * s.S) + (1 - x) by omega, show exc (bitAt s.mem) (k * s.S) + (y : Int) - 1 = exc (bitAt s.mem) (k * s.S) + (y - 1) by omega] at this
  exact this

theorem mul_div_self' {k S : Nat} (hS : 0 < S) : k * S / S = k := Nat.mul_div_cancel k hS

/-- The loop over small blocks finds the first hit if it lies in one of them. -/
theorem fwdMedLoop_ok {s : Sada} {K : Nat} (ok : SadaOk s K) {t : Int} {p : Nat} : ∀ (f k : Nat), k + f ≤ s.smlBlocks → FirstHit (bitAt s.mem) t (k * s.S) s.n p →
    (∀ q, k * s.S ≤ q → q ≤ p → t - exc (bitAt s.mem) q ≠ 8) → s.fwdMedLoop t f k = some (if p < (k + f) * s.S then p else s.n)
  | 0, k, _, h, _ => by rw [Sada.fwdMedLoop, if_neg (by have := h.1; rw [Nat.add_zero]; omega)]
  | f + 1, k, hf, h, hh => by
    have hp1 := h.1
    have hp2 := h.2.1
    have hS := ok.pS
    obtain ⟨b, e, hb⟩ := smlInRange_ok ok (k := k) (by omega) t
    rw [Sada.fwdMedLoop, e, sbind]
    have hmono : (k + 1) * s.S ≤ (k + (f + 1)) * s.S := Nat.mul_le_mul_right _ (by omega)
    by_cases hpb : p < (k + 1) * s.S
    · have : b = true := hb.2 ⟨p, hp1, by omega, h.2.2.1⟩
      rw [if_pos this, exBefore_ok (by omega), sbind, if_pos (by omega)]
      refine nearFwdExcess_first (t := t) (by omega) ?_ hh (by have := ok.hn; omega)
      rw [mul_div_self' hS]
      exact h.left hpb
    · have : ¬ b = true := by
        intro hbt
        obtain ⟨q, h1, h2, h3⟩ := hb.1 hbt
        exact h.2.2.2 q h1 (by omega) h3
      rw [if_neg this, fwdMedLoop_ok ok f (k + 1) (by omega) (h.right (by rw [Nat.add_mul]; omega) (by omega)) (fun q h1 h2 => hh q (by rw [Nat.add_mul] at h1; omega) h2),
        show k + 1 + f = k + (f + 1) by omega]

theorem med_idx {k S D : Nat} (hS : 0 < S) : k * S / (S * D) = k / D := by
  rw [← Nat.div_div_eq_div_mul, Nat.mul_div_cancel k hS]

theorem fwdMed_ok {s : Sada} {K : Nat} (ok : SadaOk s K) {t : Int} {p k : Nat} (h : FirstHit (bitAt s.mem) t (k * s.S) s.n p) (hh : ∀ q, k * s.S ≤ q → q ≤ p → t - exc (bitAt s.mem) q ≠ 8) :
    s.fwdMed k t = some (if p < (k / s.D + 1) * (s.S * s.D) then p else s.n) := by
  have hp1 := h.1
  have hp2 := h.2.1
  have hS := ok.pS
  have hk1 : k < s.smlBlocks := by rw [ok.sb]; exact lt_ceil hS (by omega)
  have hk2 : k < (k / s.D + 1) * s.D := by
    have := Nat.lt_mul_div_succ k ok.pD
    rw [Nat.mul_comm]; exact this
  have hce := ceil_mul (n := s.n) hS
  rw [← ok.sb] at hce
  rw [Sada.fwdMed, med_idx hS]
  have hE : (k / s.D + 1) * (s.S * s.D) = (k / s.D + 1) * s.D * s.S := by rw [Nat.mul_comm s.S, Nat.mul_assoc]
  rw [hE]
  generalize (k / s.D + 1) * s.D = stop at *
  split
  · rename_i hgt
    have := Nat.mul_le_mul_right s.S (Nat.le_of_lt hgt)
    rw [fwdMedLoop_ok ok _ k (by omega) h hh, show k + (s.smlBlocks - k) = s.smlBlocks by omega, if_pos (by omega), if_pos (by omega)]
  · rw [fwdMedLoop_ok ok _ k (by omega) h hh, show k + (stop - k) = stop by omega]

theorem pos_lt_ceil {s : Sada} {K : Nat} (ok : SadaOk s K) {x : Nat} (h : pos K (s.S * s.D) x < s.n) : x < 2 ^ K + s.medBlocks := by
  have := lt_ceil (Nat.mul_pos ok.pS ok.pD) (show (x - 2 ^ K) * (s.S * s.D) < s.n from h)
  rw [← ok.mb] at this
  omega

theorem n_le_pos {s : Sada} {K : Nat} (ok : SadaOk s K) : s.n ≤ pos K (s.S * s.D) (2 ^ (K + 1)) := by
  have := ceil_mul (n := s.n) (Nat.mul_pos ok.pS ok.pD)
  rw [← ok.mb] at this
  refine Nat.le_trans this ?_
  rw [pos, Nat.pow_succ]
  have := ok.hmb
  exact Nat.mul_le_mul_right _ (by omega)

/-- A node that covers a position before the end exists. -/
theorem exists_of_pos {s : Sada} {K : Nat} (ok : SadaOk s K) {u h : Nat} (hl : Lev K u h) (hp : pos K (s.S * s.D) (u * 2 ^ h) < s.n) : u < 2 ^ K + s.medBlocks := by
  match h, hl with
  | 0, hl => rw [Nat.pow_zero, Nat.mul_one] at hp; exact pos_lt_ceil ok hp
  | h + 1, hl => have := hl.inner.1; omega

theorem two_mul_pow (u h : Nat) : u * 2 ^ (h + 1) = 2 * u * 2 ^ h := by
  rw [Nat.pow_succ, Nat.mul_comm 2 u, Nat.mul_assoc, Nat.mul_comm (2 ^ h) 2]

theorem Lev.root {K h : Nat} (hl : Lev K 1 h) : h = K := by
  obtain ⟨d, h1, h2, h3⟩ := hl
  match d, h1, h2 with
  | 0, h1, _ => omega
  | d + 1, _, h2 =>
    have := Nat.two_pow_pos d
    rw [Nat.pow_succ] at h2; omega

theorem fwdUp_ok {s : Sada} {K : Nat} (ok : SadaOk s K) {t : Int} {p j : Nat} (hit : FirstHit (bitAt s.mem) t j s.n p) : ∀ (f u h : Nat), Lev K u h → u ≤ f →
    j ≤ pos K (s.S * s.D) ((u + 1) * 2 ^ h) → pos K (s.S * s.D) ((u + 1) * 2 ^ h) ≤ p →
    ∃ u' h', s.fwdUp t f (u - 1) = some (u' - 1) ∧ 2 ≤ u' ∧ Lev K u' h' ∧ j ≤ pos K (s.S * s.D) (u' * 2 ^ h') ∧ pos K (s.S * s.D) (u' * 2 ^ h') ≤ p ∧ p < pos K (s.S * s.D) ((u' + 1) * 2 ^ h')
  | 0, u, h, hl, hf, _, _ => by have := hl.pos; omega
  | f + 1, u, h, hl, hf, hj, hp => by
    have hu0 := hl.pos
    have hp2 := hit.2.1
    have hu1 : u ≠ 1 := by
      rintro rfl
      obtain rfl := hl.root
      have := n_le_pos ok
      rw [show (1 + 1) * 2 ^ h = 2 ^ (h + 1) by rw [Nat.pow_succ, Nat.mul_comm]] at hp
      omega
    have hlp := hl.parent (by omega)
    rw [Sada.fwdUp, if_neg (by omega)]
    rcases Nat.mod_two_eq_zero_or_one u with hu | hu
    · rw [if_pos (show (u - 1) % 2 = 1 by omega)]
      have hsib : Lev K (u + 1) h := by
        have := hlp.child.2
        rw [show 2 * (u / 2) + 1 = u + 1 by omega] at this
        exact this
      have hex := exists_of_pos ok hsib (by omega)
      obtain ⟨b, e, hb⟩ := inRange_ok ok (ok.node _ _ hsib hex) (Nat.min_le_right _ _) t
      rw [show u - 1 + 1 = u + 1 - 1 by omega, e, sbind]
      by_cases hpb : p < pos K (s.S * s.D) ((u + 1 + 1) * 2 ^ h)
      · rw [if_pos (hb.2 ⟨p, hp, by omega, hit.2.2.1⟩)]
        exact ⟨u + 1, h, rfl, by omega, hsib, hj, hp, hpb⟩
      · rw [if_neg]
        · have hE : (u / 2 + 1) * 2 ^ (h + 1) = (u + 1 + 1) * 2 ^ h := by rw [two_mul_pow, show 2 * (u / 2 + 1) = u + 1 + 1 by omega]
          have := fwdUp_ok ok hit f (u / 2) (h + 1) hlp (by omega) (by rw [hE]; exact Nat.le_trans hj (pos_mono (Nat.mul_le_mul_right _ (by omega)))) (by rw [hE]; omega)
          rw [show u / 2 - 1 = (u - 1) / 2 by omega] at this
          exact this
        · intro hbt
          obtain ⟨q, h1, h2, h3⟩ := hb.1 hbt
          exact hit.2.2.2 q (by omega) (by omega) h3
    · rw [if_neg (show ¬ (u - 1) % 2 = 1 by omega)]
      have hE : (u / 2 + 1) * 2 ^ (h + 1) = (u + 1) * 2 ^ h := by rw [two_mul_pow, show 2 * (u / 2 + 1) = u + 1 by omega]
      have := fwdUp_ok ok hit f (u / 2) (h + 1) hlp (by omega) (by rw [hE]; exact hj) (by rw [hE]; omega)
      rw [show u / 2 - 1 = (u - 1 - 1) / 2 by omega] at this
      exact this

theorem fwdDown_ok {s : Sada} {K : Nat} (ok : SadaOk s K) {t : Int} {p j : Nat} (hit : FirstHit (bitAt s.mem) t j s.n p) : ∀ (f u h : Nat), Lev K u h → h < f →
    j ≤ pos K (s.S * s.D) (u * 2 ^ h) → pos K (s.S * s.D) (u * 2 ^ h) ≤ p → p < pos K (s.S * s.D) ((u + 1) * 2 ^ h) →
    ∃ m, s.fwdDown t f (u - 1) = some (s.inner + m) ∧ j ≤ m * (s.S * s.D) ∧ m * (s.S * s.D) ≤ p ∧ p < (m + 1) * (s.S * s.D)
  | 0, u, h, hl, hf, _, _, _ => by omega
  | f + 1, u, 0, hl, hf, hj, hp, hp' => by
    have h1 := (Lev.zero_iff.1 hl).1
    have := Nat.two_pow_pos K
    rw [Sada.fwdDown, if_neg (by rw [ok.inner]; omega)]
    rw [Nat.pow_zero, Nat.mul_one] at *
    refine ⟨u - 2 ^ K, ?_, hj, hp, ?_⟩
    · rw [ok.inner]; congr 1; omega
    · rw [pos, show u + 1 - 2 ^ K = u - 2 ^ K + 1 by omega] at hp'; exact hp'
  | f + 1, u, h + 1, hl, hf, hj, hp, hp' => by
    have hu0 := hl.pos
    have h1 := hl.inner.1
    have hp2 := hit.2.1
    rw [Sada.fwdDown, if_pos (by rw [ok.inner]; omega)]
    obtain ⟨c1, c2⟩ := hl.child
    rw [two_mul_pow] at hj hp
    rw [two_mul_pow, show 2 * (u + 1) = 2 * u + 1 + 1 by omega] at hp'
    obtain ⟨b, e, hb⟩ := inRange_ok ok (ok.node _ _ c1 (exists_of_pos ok c1 (by omega))) (Nat.min_le_right _ _) t
    rw [show 2 * (u - 1) + 1 = 2 * u - 1 by omega, e, sbind]
    by_cases hpb : p < pos K (s.S * s.D) ((2 * u + 1) * 2 ^ h)
    · rw [if_pos (hb.2 ⟨p, hp, by omega, hit.2.2.1⟩)]
      exact fwdDown_ok ok hit f (2 * u) h c1 (by omega) hj hp hpb
    · rw [if_neg]
      · rw [show 2 * (u - 1) + 2 = 2 * u + 1 - 1 by omega]
        exact fwdDown_ok ok hit f (2 * u + 1) h c2 (by omega) (Nat.le_trans hj (pos_mono (Nat.mul_le_mul_right _ (by omega)))) (by omega) hp'
      · intro hbt
        obtain ⟨q, h1, h2, h3⟩ := hb.1 hbt
        exact hit.2.2.2 q (by omega) (by omega) h3

theorem Lev.h_le {K u h : Nat} (hl : Lev K u h) : h ≤ K := by
  obtain ⟨d, h1, _⟩ := hl
  omega

theorem fwdExcess_ok {s : Sada} {K : Nat} (ok : SadaOk s K) {i p : Nat} {rel : Int} (hi : i < s.n) (hrel : rel < 0)
    (hit : FirstHit (bitAt s.mem) (exc (bitAt s.mem) (i + 1) + rel) (i + 1) s.n p) : s.fwdExcess i rel = some p := by
  have hp1 := hit.1
  have hp2 := hit.2.1
  have hS := ok.pS
  have hM : 0 < s.S * s.D := Nat.mul_pos ok.pS ok.pD
  have hn := ok.hn
  have hbd := ok.bound
  generalize ht : exc (bitAt s.mem) (i + 1) + rel = t at hit
  have habove : ∀ q, i + 1 ≤ q → q ≤ p → t < exc (bitAt s.mem) q := by
    intro q h1 h2
    have := NoHit.above (b := bitAt s.mem) (t := t) (j := i + 1) (k := q - (i + 1)) (by omega) (by rw [show i + 1 + (q - (i + 1)) = q by omega]; exact hit.noHit h2)
    rw [show i + 1 + (q - (i + 1)) = q by omega] at this
    exact this
  rw [Sada.fwdExcess]
  by_cases hb : p < ((i + 1) / s.S + 1) * s.S
  · rw [nearFwdExcess_first (t := t) ht.symm (hit.left hb) (fun q h1 h2 => by have := habove q h1 h2; omega) (by omega), sbind, if_pos (by omega)]
  · rw [nearFwdExcess_no (t := t) hS ht.symm (hit.noHit (by omega)) (fun q h1 h2 => by have := habove q h1 (by omega); omega) (by omega), sbind, if_neg (by omega), excess_ok hi, sbind, ht]
    have hle : i / s.S ≤ (i + 1) / s.S := Nat.div_le_div_right (by omega)
    have hks : (i / s.S + 1) * s.S ≤ p := Nat.le_trans (Nat.mul_le_mul_right _ (by omega)) (by omega : ((i + 1) / s.S + 1) * s.S ≤ p)
    have hki : i + 1 ≤ (i / s.S + 1) * s.S := by
      have := Nat.lt_mul_div_succ i hS
      rw [Nat.mul_comm] at this; exact this
    have hit1 := hit.right hki hks
    rw [fwdMed_ok ok hit1 (fun q h1 h2 => by have := habove q (by omega) h2; omega), sbind]
    split
    · rw [if_pos (by omega)]
    · rename_i hnot
      have hidx : i / (s.S * s.D) < s.medBlocks := by
        rw [ok.mb]
        exact lt_ceil hM (Nat.lt_of_le_of_lt (Nat.div_mul_le_self _ _) hi)
      rw [if_neg (by omega), if_neg (by omega)]
      have hmono : i / (s.S * s.D) ≤ (i / s.S + 1) / s.D := by rw [← Nat.div_div_eq_div_mul]; exact Nat.div_le_div_right (by omega)
      have hend : (i / (s.S * s.D) + 1) * (s.S * s.D) ≤ p := by
        refine Nat.le_trans (Nat.mul_le_mul_right _ (Nat.add_le_add_right hmono 1)) (by omega)
      have hend2 : i + 1 ≤ (i / (s.S * s.D) + 1) * (s.S * s.D) := by
        have := Nat.lt_mul_div_succ i hM
        rw [Nat.mul_comm] at this; exact this
      have hK := Nat.two_pow_pos K
      have hmb := ok.hmb
      generalize i / (s.S * s.D) = mi at *
      have hl0 : Lev K (2 ^ K + mi) 0 := Lev.zero_iff.2 ⟨by omega, by rw [Nat.pow_succ]; omega⟩
      have hpe : pos K (s.S * s.D) ((2 ^ K + mi + 1) * 2 ^ 0) = (mi + 1) * (s.S * s.D) := by
        rw [pos, Nat.pow_zero, Nat.mul_one, show 2 ^ K + mi + 1 - 2 ^ K = mi + 1 by omega]
      obtain ⟨u, h, e, hu2, hl, h1, h2, h3⟩ := fwdUp_ok ok hit (2 ^ K + mi) _ 0 hl0 (Nat.le_refl _) (by rw [hpe]; exact hend2) (by rw [hpe]; exact hend)
      dsimp only
      rw [show s.inner + mi + 1 = 2 ^ K + mi by rw [ok.inner]; omega, show s.inner + mi = 2 ^ K + mi - 1 by rw [ok.inner]; omega, e, sbind,
        if_neg (by omega)]
      obtain ⟨m, e2, h4, h5, h6⟩ := fwdDown_ok ok hit (s.inner + 1) u h hl (by rw [ok.inner]; have := hl.h_le; have := Nat.lt_two_pow_self (n := K); omega) h1 h2 h3
      have hE : m * (s.S * s.D) = m * s.D * s.S := by rw [Nat.mul_comm s.S, Nat.mul_assoc]
      rw [e2, sbind, show s.inner + m - s.inner = m by omega, fwdMed_ok ok (hit.right (by rw [← hE]; exact h4) (by rw [← hE]; exact h5)) (fun q h1 h2 => by have := habove q (by omega) h2; omega),
        Nat.mul_div_cancel _ ok.pD, if_pos h6]

end Sdsl.Bp
