/-
  bp_support_sada: backward search in the range min-max tree.
-/
import Verif.BpSadaFwd

namespace Sdsl.Bp

open Spec

/-- `p` is the last position up to `i` with excess `t` before it, or 0 if there is none. -/
structure LH (b : Nat → Bool) (t : Int) (i p : Nat) : Prop where
  le : p ≤ i
  hit : p = 0 ∨ exc b p = t
  last : ∀ q, p < q → q ≤ i → exc b q ≠ t

theorem LH.lastHit {b : Nat → Bool} {t : Int} {i p m e : Nat} (h : LH b t i p) (hp : exc b p = t) (hm : m ≤ p) (he : p < e) (hei : e ≤ i + 1) : LastHit b t m e p :=
  ⟨hm, he, hp, fun q h1 h2 => h.last q h1 (by omega)⟩

/-- What the backward search returns. -/
def bwdRes (n : Nat) (t : Int) (p : Nat) : Nat := if 0 < p then p - 1 else if t = 0 then 2 ^ 64 - 1 else n

theorem bwdMedLoop_ok {s : Sada} {K : Nat} (ok : SadaOk s K) {t : Int} {i p m : Nat} (h8 : s.S % 8 = 0) (hD : 2 ≤ s.D) (hi : i < s.n) (h : LH (bitAt s.mem) t i p)
    (hh : ∀ q, p < q → q ≤ i → t - exc (bitAt s.mem) q ≠ 8) : ∀ k, k * s.S ≤ i → p ≤ k * s.S → m * s.D ≤ k →
    s.bwdMedLoop (m * s.D) t k = some (if m * s.D * s.S < p then p - 1 else s.n)
  | 0, hk, hp, hm => by
    rw [Sada.bwdMedLoop, if_neg (by omega)]
  | k + 1, hk, hp, hm => by
    have hS := ok.pS
    have hn := ok.hn
    have hbd := ok.bound
    rw [Sada.bwdMedLoop]
    split
    · rename_i hmk
      have hks : k * s.S < (k + 1) * s.S := by rw [Nat.add_mul]; omega
      obtain ⟨b, e, hb⟩ := smlInRange_ok ok (k := k) (by omega) t
      rw [e, sbind]
      have hmono : m * s.D * s.S ≤ k * s.S := Nat.mul_le_mul_right _ hmk
      by_cases hpk : k * s.S < p
      · have hpt : exc (bitAt s.mem) p = t := by
          rcases h.hit with h0 | h0
          · omega
          · exact h0
        rw [if_pos (hb.2 ⟨p - 1, by omega, by omega, by rw [show p - 1 + 1 = p by omega]; exact hpt⟩), excess_ok (by omega), sbind, if_pos (by omega)]
        have hblk : ((k + 1) * s.S - 1) / s.S * s.S = k * s.S := by
          congr 1
          apply Nat.div_eq_of_lt_le
          · omega
          · rw [Nat.add_mul] at *; omega
        rw [nearBwdExcess_last (t := t) (p := p) h8 (by rw [show (k + 1) * s.S - 1 + 2 = (k + 1) * s.S + 1 by omega]; omega)
          (h.lastHit hpt (by rw [hblk]; omega) (by omega) (by omega)) (fun q h1 h2 => hh q h1 (by omega)) (by omega), show (p + (2 ^ 64 - 1)) % 2 ^ 64 = p - 1 by omega]
      · rw [if_neg, bwdMedLoop_ok ok h8 hD hi h hh k (by omega) (by omega) hmk]
        intro hbt
        obtain ⟨q, h1, h2, h3⟩ := hb.1 hbt
        exact h.last (q + 1) (by omega) (by omega) h3
    · rename_i hmk
      have hmeq : m * s.D = k + 1 := by omega
      rw [if_neg, hmeq, if_neg (by omega)]
      rintro ⟨rfl, _⟩
      have : m ≠ 0 := by rintro rfl; omega
      have := Nat.mul_le_mul (Nat.pos_of_ne_zero this) hD
      omega

theorem bwdMed_ok {s : Sada} {K : Nat} (ok : SadaOk s K) {t : Int} {i p k : Nat} (h8 : s.S % 8 = 0) (hD : 2 ≤ s.D) (hi : i < s.n) (h : LH (bitAt s.mem) t i p)
    (hh : ∀ q, p < q → q ≤ i → t - exc (bitAt s.mem) q ≠ 8) (hk : k * s.S ≤ i) (hp : p ≤ k * s.S) :
    s.bwdMed k t = some (if (k - 1) / s.D * s.D * s.S < p then p - 1 else s.n) := by
  rw [Sada.bwdMed, med_idx ok.pS]
  refine bwdMedLoop_ok ok h8 hD hi h hh k hk hp ?_
  exact Nat.le_trans (Nat.div_mul_le_self _ _) (by omega)

theorem bwdUp_ok {s : Sada} {K : Nat} (ok : SadaOk s K) {t : Int} {i p : Nat} (hi : i < s.n) (hit : LH (bitAt s.mem) t i p) : ∀ (f u h : Nat), Lev K u h → u ≤ f → u < 2 ^ K + s.medBlocks →
    p ≤ pos K (s.S * s.D) (u * 2 ^ h) → pos K (s.S * s.D) (u * 2 ^ h) ≤ i →
    (s.bwdUp t f (u - 1) = some 0 ∧ p = 0) ∨
    ∃ u' h', s.bwdUp t f (u - 1) = some (u' - 1) ∧ 2 ≤ u' ∧ Lev K u' h' ∧ pos K (s.S * s.D) (u' * 2 ^ h') < p ∧ p ≤ pos K (s.S * s.D) ((u' + 1) * 2 ^ h') ∧ pos K (s.S * s.D) ((u' + 1) * 2 ^ h') ≤ i
  | 0, u, h, hl, hf, _, _, _ => by have := hl.pos; omega
  | f + 1, u, h, hl, hf, hex, hp, hpi => by
    have hu0 := hl.pos
    rw [Sada.bwdUp]
    by_cases hu1 : u = 1
    · subst hu1
      left
      obtain rfl := hl.root
      rw [if_pos rfl]
      refine ⟨rfl, ?_⟩
      rw [pos, Nat.one_mul, Nat.sub_self, Nat.zero_mul] at hp
      omega
    · have hlp := hl.parent (by omega)
      rw [if_neg (by omega)]
      rcases Nat.mod_two_eq_zero_or_one u with hu | hu
      · rw [if_neg (show ¬ (u - 1) % 2 = 0 by omega)]
        have hE : u / 2 * 2 ^ (h + 1) = u * 2 ^ h := by rw [two_mul_pow, show 2 * (u / 2) = u by omega]
        have := bwdUp_ok ok hi hit f (u / 2) (h + 1) hlp (by omega) (by omega) (by rw [hE]; exact hp) (by rw [hE]; exact hpi)
        rw [show u / 2 - 1 = (u - 1 - 1) / 2 by omega] at this
        exact this
      · rw [if_pos (show (u - 1) % 2 = 0 by omega)]
        have hsib : Lev K (u - 1) h := by
          have := hlp.child.1
          rw [show 2 * (u / 2) = u - 1 by omega] at this
          exact this
        obtain ⟨b, e, hb⟩ := inRange_ok ok (ok.node _ _ hsib (by omega)) (Nat.min_le_right _ _) t
        rw [show u - 1 + 1 = u by omega] at hb
        rw [e, sbind]
        by_cases hpb : pos K (s.S * s.D) ((u - 1) * 2 ^ h) < p
        · have hpt : exc (bitAt s.mem) p = t := by
            rcases hit.hit with h0 | h0
            · omega
            · exact h0
          rw [if_pos (hb.2 ⟨p - 1, by omega, by omega, by rw [show p - 1 + 1 = p by omega]; exact hpt⟩)]
          right
          exact ⟨u - 1, h, rfl, by omega, hsib, hpb, by rw [show u - 1 + 1 = u by omega]; exact hp, by rw [show u - 1 + 1 = u by omega]; exact hpi⟩
        · rw [if_neg]
          · have hE : u / 2 * 2 ^ (h + 1) = (u - 1) * 2 ^ h := by rw [two_mul_pow, show 2 * (u / 2) = u - 1 by omega]
            have := bwdUp_ok ok hi hit f (u / 2) (h + 1) hlp (by omega) (by omega) (by rw [hE]; omega)
              (by rw [hE]; exact Nat.le_trans (pos_mono (Nat.mul_le_mul_right _ (by omega))) hpi)
            rw [show u / 2 - 1 = (u - 1 - 2) / 2 by omega] at this
            exact this
          · intro hbt
            obtain ⟨q, h1, h2, h3⟩ := hb.1 hbt
            exact hit.last (q + 1) (by omega) (by omega) h3

theorem bwdDown_ok {s : Sada} {K : Nat} (ok : SadaOk s K) {t : Int} {i p : Nat} (hi : i < s.n) (hit : LH (bitAt s.mem) t i p) : ∀ (f u h : Nat), Lev K u h → h < f →
    pos K (s.S * s.D) (u * 2 ^ h) < p → p ≤ pos K (s.S * s.D) ((u + 1) * 2 ^ h) → pos K (s.S * s.D) ((u + 1) * 2 ^ h) ≤ i →
    ∃ m, s.bwdDown t f (u - 1) = some (s.inner + m) ∧ m * (s.S * s.D) < p ∧ p ≤ (m + 1) * (s.S * s.D) ∧ (m + 1) * (s.S * s.D) ≤ i
  | 0, u, h, hl, hf, _, _, _ => by omega
  | f + 1, u, 0, hl, hf, hp, hp', hpi => by
    have h1 := (Lev.zero_iff.1 hl).1
    have := Nat.two_pow_pos K
    rw [Sada.bwdDown, if_neg (by rw [ok.inner]; omega)]
    rw [Nat.pow_zero, Nat.mul_one] at *
    rw [pos, show u + 1 - 2 ^ K = u - 2 ^ K + 1 by omega] at hp' hpi
    refine ⟨u - 2 ^ K, ?_, hp, hp', hpi⟩
    rw [ok.inner]; congr 1; omega
  | f + 1, u, h + 1, hl, hf, hp, hp', hpi => by
    have hu0 := hl.pos
    have h1 := hl.inner.1
    rw [Sada.bwdDown, if_pos (by rw [ok.inner]; omega)]
    obtain ⟨c1, c2⟩ := hl.child
    rw [two_mul_pow] at hp
    rw [two_mul_pow, show 2 * (u + 1) = 2 * u + 1 + 1 by omega] at hp' hpi
    have hm : pos K (s.S * s.D) ((2 * u + 1) * 2 ^ h) ≤ pos K (s.S * s.D) ((2 * u + 1 + 1) * 2 ^ h) := pos_mono (Nat.mul_le_mul_right _ (by omega))
    obtain ⟨b, e, hb⟩ := inRange_ok ok (ok.node _ _ c2 (exists_of_pos ok c2 (by omega))) (Nat.min_le_right _ _) t
    rw [show 2 * (u - 1) + 2 = 2 * u + 1 - 1 by omega, e, sbind]
    by_cases hpb : pos K (s.S * s.D) ((2 * u + 1) * 2 ^ h) < p
    · have hpt : exc (bitAt s.mem) p = t := by
        rcases hit.hit with h0 | h0
        · omega
        · exact h0
      rw [if_pos (hb.2 ⟨p - 1, by omega, by omega, by rw [show p - 1 + 1 = p by omega]; exact hpt⟩)]
      exact bwdDown_ok ok hi hit f (2 * u + 1) h c2 (by omega) hpb hp' hpi
    · rw [if_neg]
      · rw [show 2 * (u - 1) + 1 = 2 * u - 1 by omega]
        exact bwdDown_ok ok hi hit f (2 * u) h c1 (by omega) hp (by omega) (by omega)
      · intro hbt
        obtain ⟨q, h1, h2, h3⟩ := hb.1 hbt
        exact hit.last (q + 1) (by omega) (by omega) h3

theorem bwdExcess_ok {s : Sada} {K : Nat} (ok : SadaOk s K) {i p : Nat} {rel t : Int} (h8 : s.S % 8 = 0) (hD : 2 ≤ s.D) (hi : i < s.n) (hi0 : 0 < i) (ht : t = exc (bitAt s.mem) (i + 1) + rel)
    (hti : t ≤ exc (bitAt s.mem) i) (hrel : t < 0 → rel ≠ -1) (h : LH (bitAt s.mem) t i p) : s.bwdExcess i rel = some (bwdRes s.n t p) := by
  have hS := ok.pS
  have hn := ok.hn
  have hbd := ok.bound
  have hM : 0 < s.S * s.D := Nat.mul_pos ok.pS ok.pD
  have hpi := h.le
  have habove : ∀ q, p < q → q ≤ i → t < exc (bitAt s.mem) q := by
    intro q h1 h2
    have h3 : t < exc (bitAt s.mem) i := by
      have := h.last i (by omega) (by omega); omega
    exact NoHitL.above (b := bitAt s.mem) (m := q) (k := i - q) (by rw [show q + (i - q) = i by omega]; exact h3) (fun r h4 h5 => h.last r (by omega) (by omega))
  have hh : ∀ q, p < q → q ≤ i → t - exc (bitAt s.mem) q ≠ 8 := fun q h1 h2 => by have := habove q h1 h2; omega
  have hbeg : (i - 1) / s.S * s.S ≤ i - 1 := Nat.div_mul_le_self _ _
  rw [Sada.bwdExcess, if_neg (by omega)]
  by_cases hnear : exc (bitAt s.mem) p = t ∧ (i - 1) / s.S * s.S ≤ p
  · rw [nearBwdExcess_last (t := t) (p := p) h8 (by rw [show i - 1 + 2 = i + 1 by omega]; exact ht) (h.lastHit hnear.1 hnear.2 (by omega) (by omega)) (fun q h1 h2 => hh q h1 (by omega)) (by omega), sbind,
      if_pos (by omega), bwdRes]
    split
    · rw [show (p + (2 ^ 64 - 1)) % 2 ^ 64 = p - 1 by omega]
    · rename_i h0
      obtain rfl : p = 0 := by omega
      rw [if_pos (by rw [← hnear.1]; rfl)]
  · have hpb : p ≤ (i - 1) / s.S * s.S := by
      rcases h.hit with h0 | h0
      · omega
      · have : ¬ (i - 1) / s.S * s.S ≤ p := fun hc => hnear ⟨h0, hc⟩
        omega
    have hno : NoHitL (bitAt s.mem) t ((i - 1) / s.S * s.S) (i - 1 + 2) := by
      intro q h1 h2 h3
      rcases Nat.lt_or_ge p q with h4 | h4
      · exact h.last q h4 (by omega) h3
      · obtain rfl : q = p := by omega
        exact hnear ⟨h3, h1⟩
    have hsp : ¬ ((i - 1) / s.S * s.S = 0 ∧ rel = -1) := by
      rintro ⟨h1, h2⟩
      refine hrel ?_ h2
      rw [h1] at hno
      have h3 : t < exc (bitAt s.mem) i := by
        have := hno i (by omega) (by omega); omega
      exact NoHitL.above (b := bitAt s.mem) (m := 0) (k := i) (by rw [Nat.zero_add]; exact h3) (fun r h4 h5 => hno r h4 (by omega))
    rw [nearBwdExcess_no (t := t) h8 (by rw [show i - 1 + 2 = i + 1 by omega]; exact ht) hno (fun q h1 h2 => hh q (by omega) (by omega)) (by omega), sbind, if_neg hsp, if_neg (by omega),
      excess_ok hi, sbind, ← ht]
    have hmono : (i - 1) / s.S * s.S ≤ i / s.S * s.S := Nat.mul_le_mul_right _ (Nat.div_le_div_right (by omega))
    rw [bwdMed_ok ok h8 hD hi h hh (Nat.div_mul_le_self _ _) (by omega), sbind]
    split
    · rename_i hlt
      rw [if_pos (by omega), bwdRes, if_pos (by omega)]
    · rename_i hnot
      have hidx : i / (s.S * s.D) = i / s.S / s.D := (Nat.div_div_eq_div_mul _ _ _).symm
      have hE : ∀ m, m * (s.S * s.D) = m * s.D * s.S := fun m => by rw [Nat.mul_comm s.S, Nat.mul_assoc]
      have hpm : p ≤ i / (s.S * s.D) * (s.S * s.D) := by
        rw [hidx, hE]
        have : (i / s.S - 1) / s.D * s.D * s.S ≤ i / s.S / s.D * s.D * s.S := Nat.mul_le_mul_right _ (Nat.mul_le_mul_right _ (Nat.div_le_div_right (Nat.sub_le _ _)))
        omega
      have hmi : i / (s.S * s.D) * (s.S * s.D) ≤ i := Nat.div_mul_le_self _ _
      have hmb0 : i / (s.S * s.D) < s.medBlocks := by
        rw [ok.mb]
        exact lt_ceil hM (Nat.lt_of_le_of_lt (Nat.div_mul_le_self _ _) hi)
      rw [if_neg (by omega)]
      generalize i / (s.S * s.D) = mi at *
      split
      · rename_i h0
        rw [h0, Nat.zero_mul] at hpm
        rw [bwdRes, if_neg (show ¬ 0 < p by omega)]
      · have hK := Nat.two_pow_pos K
        have hmb := ok.hmb
        have hl0 : Lev K (2 ^ K + mi) 0 := Lev.zero_iff.2 ⟨by omega, by rw [Nat.pow_succ]; omega⟩
        have hpe : pos K (s.S * s.D) ((2 ^ K + mi) * 2 ^ 0) = mi * (s.S * s.D) := by
          rw [pos, Nat.pow_zero, Nat.mul_one, show 2 ^ K + mi - 2 ^ K = mi by omega]
        dsimp only
        rw [show s.inner + mi + 1 = 2 ^ K + mi by rw [ok.inner]; omega, show s.inner + mi = 2 ^ K + mi - 1 by rw [ok.inner]; omega]
        rcases bwdUp_ok ok hi h (2 ^ K + mi) _ 0 hl0 (Nat.le_refl _) (by omega) (by rw [hpe]; exact hpm) (by rw [hpe]; exact hmi) with ⟨e, hp0⟩ | ⟨u, hh', e, hu2, hl, h1, h2, h3⟩
        · rw [e, sbind, if_neg (by omega), bwdRes, if_neg (show ¬ 0 < p by omega)]
        · rw [e, sbind, if_pos (by omega)]
          obtain ⟨m, e2, h4, h5, h6⟩ := bwdDown_ok ok hi h (s.inner + 1) u hh' hl (by rw [ok.inner]; have := hl.h_le; have := Nat.lt_two_pow_self (n := K); omega) h1 h2 h3
          rw [e2, sbind, show s.inner + m - s.inner = m by omega, show m * s.D + (s.D - 1) + 1 = (m + 1) * s.D by rw [Nat.add_mul]; omega]
          rw [hE] at h4 h5 h6
          rw [bwdMed_ok ok h8 hD hi h hh h6 h5]
          have : ((m + 1) * s.D - 1) / s.D = m := by
            apply Nat.div_eq_of_lt_le
            · rw [Nat.add_mul]; omega
            · have : 0 < (m + 1) * s.D := Nat.mul_pos (by omega) (by omega)
              omega
          rw [this, if_pos h4, bwdRes, if_pos (by omega)]

end Sdsl.Bp
