/-
  What the block-local scans compute, in terms of excess values.
-/
import Verif.BpTab

namespace Sdsl.Bp

open Spec

variable {b : Nat → Bool} {mem : Mem}

theorem exc_succ (b : Nat → Bool) (n : Nat) : exc b (n + 1) = exc b n + sgn (b n) := rfl

theorem exc_step (b : Nat → Bool) (n : Nat) : exc b (n + 1) = exc b n + 1 ∨ exc b (n + 1) = exc b n - 1 := by
  rw [exc]
  rcases sgn_cases (b n) with h | h <;> omega

theorem exc_bounds (b : Nat → Bool) (m n : Nat) : exc b m - n ≤ exc b (m + n) ∧ exc b (m + n) ≤ exc b m + n := by
  induction n with
  | zero => simp
  | succ n ih =>
    rw [show m + (n + 1) = m + n + 1 by omega]
    have := exc_step b (m + n)
    omega

/-- `p` is the first position in `[j, stop)` after which the excess is `t`. -/
def FirstHit (b : Nat → Bool) (t : Int) (j stop p : Nat) : Prop := j ≤ p ∧ p < stop ∧ exc b (p + 1) = t ∧ ∀ q, j ≤ q → q < p → exc b (q + 1) ≠ t

/-- There is no such position. -/
def NoHit (b : Nat → Bool) (t : Int) (j stop : Nat) : Prop := ∀ q, j ≤ q → q < stop → exc b (q + 1) ≠ t

theorem NoHit.above {t : Int} {j k : Nat} (hj : t < exc b j) (h : NoHit b t j (j + k)) : t < exc b (j + k) := by
  induction k with
  | zero => exact hj
  | succ k ih =>
    have h1 := ih (fun q h1 h2 => h q h1 (by omega))
    have h2 := h (j + k) (by omega) (by omega)
    have h3 := exc_step b (j + k)
    rw [show j + (k + 1) = j + k + 1 by omega]
    omega

theorem NoHit.left {t : Int} {j m stop : Nat} (h : NoHit b t j stop) (hm : m ≤ stop) : NoHit b t j m := fun q h1 h2 => h q h1 (by omega)

theorem NoHit.right {t : Int} {j m stop : Nat} (h : NoHit b t j stop) (hm : j ≤ m) : NoHit b t m stop := fun q h1 h2 => h q (by omega) h2

theorem FirstHit.noHit {t : Int} {j stop p m : Nat} (h : FirstHit b t j stop p) (hm : m ≤ p) : NoHit b t j m := fun q h1 h2 => h.2.2.2 q h1 (by omega)

theorem FirstHit.right {t : Int} {j stop p m : Nat} (h : FirstHit b t j stop p) (h1 : j ≤ m) (hm : m ≤ p) : FirstHit b t m stop p :=
  ⟨hm, h.2.1, h.2.2.1, fun q h2 h3 => h.2.2.2 q (by omega) h3⟩

theorem FirstHit.left {t : Int} {j stop p m : Nat} (h : FirstHit b t j stop p) (hm : p < m) : FirstHit b t j m p :=
  ⟨h.1, hm, h.2.2.1, h.2.2.2⟩

theorem noHit_or_first (b : Nat → Bool) (t : Int) (j stop : Nat) : NoHit b t j stop ∨ ∃ p, FirstHit b t j stop p := by
  induction stop with
  | zero => exact Or.inl (fun q _ h => by omega)
  | succ n ih =>
    rcases ih with h | ⟨p, h⟩
    · by_cases hn : j ≤ n ∧ exc b (n + 1) = t
      · exact Or.inr ⟨n, hn.1, by omega, hn.2, fun q h1 h2 => h q h1 h2⟩
      · refine Or.inl (fun q h1 h2 => ?_)
        by_cases e : q = n
        · subst e; exact fun e => hn ⟨h1, e⟩
        · exact h q h1 (by omega)
    · exact Or.inr ⟨p, h.1, by have := h.2.1; omega, h.2.2.1, h.2.2.2⟩

/-! ### near_find_close, near_find_closing -/

section close

variable {succ t : Int}

theorem closeBits_no : ∀ k j, t < exc (bitAt mem) j → NoHit (bitAt mem) t j (j + k) → j + k ≤ 64 * mem.length →
    closeBits mem succ k j (exc (bitAt mem) j - t + succ) = some (.ok (exc (bitAt mem) (j + k) - t + succ))
  | 0, j, _, _, _ => rfl
  | k + 1, j, hj, hn, hl => by
    have h1 := NoHit.above (k := 1) hj (hn.left (by omega))
    have ih := closeBits_no k (j + 1) h1 (by rw [show j + 1 + k = j + (k + 1) by omega]; exact hn.right (by omega)) (by omega)
    rw [closeBits, bit_eq (by omega), sbind]
    have h2 := hn j (by omega) (by omega)
    have h3 := exc_succ (bitAt mem) j
    rw [show j + 1 + k = j + (k + 1) by omega] at ih
    rcases sgn_cases (bitAt mem j) with ⟨h4, h5⟩ | ⟨h4, h5⟩
    · rw [if_pos h4, show exc (bitAt mem) j - t + succ + 1 = exc (bitAt mem) (j + 1) - t + succ by omega]
      exact ih
    · rw [if_neg (by rw [h4]; simp), if_neg (by omega), show exc (bitAt mem) j - t + succ - 1 = exc (bitAt mem) (j + 1) - t + succ by omega]
      exact ih

theorem closeBits_first {p : Nat} : ∀ k j, t < exc (bitAt mem) j → FirstHit (bitAt mem) t j (j + k) p → p < 64 * mem.length →
    closeBits mem succ k j (exc (bitAt mem) j - t + succ) = some (.error p)
  | 0, j, _, h, _ => by have := h.1; have := h.2.1; omega
  | k + 1, j, hj, h, hl => by
    have hp1 := h.1
    rw [closeBits, bit_eq (by omega), sbind]
    have h3 := exc_succ (bitAt mem) j
    by_cases e : p = j
    · have h4 := h.2.2.1
      rw [e] at h4 ⊢
      rcases sgn_cases (bitAt mem j) with ⟨h5, h6⟩ | ⟨h5, h6⟩
      · omega
      · rw [if_neg (by rw [h5]; simp), if_pos (by omega)]
    · have h1 := NoHit.above (k := 1) hj (h.noHit (by omega))
      have ih := closeBits_first k (j + 1) h1 (by rw [show j + 1 + k = j + (k + 1) by omega]; exact h.right (by omega) (by omega)) hl
      have h2 := h.2.2.2 j (by omega) (by omega)
      rcases sgn_cases (bitAt mem j) with ⟨h4, h5⟩ | ⟨h4, h5⟩
      · rw [if_pos h4, show exc (bitAt mem) j - t + succ + 1 = exc (bitAt mem) (j + 1) - t + succ by omega]
        exact ih
      · rw [if_neg (by rw [h4]; simp), if_neg (by omega), show exc (bitAt mem) j - t + succ - 1 = exc (bitAt mem) (j + 1) - t + succ by omega]
        exact ih

theorem closeBytes_no : ∀ k j, j % 8 = 0 → t < exc (bitAt mem) j → NoHit (bitAt mem) t j (j + 8 * k) → j + 8 * k ≤ 64 * mem.length →
    closeBytes mem succ k j (exc (bitAt mem) j - t + succ) = some (.ok (exc (bitAt mem) (j + 8 * k) - t + succ))
  | 0, j, _, _, _, _ => rfl
  | k + 1, j, h8, hj, hn, hl => by
    have h1 := NoHit.above (k := 8) hj (hn.left (by omega))
    have ih := closeBytes_no k (j + 8) (by omega) h1 (by rw [show j + 8 + 8 * k = j + 8 * (k + 1) by omega]; exact hn.right (by omega)) (by omega)
    rw [show j + 8 + 8 * k = j + 8 * (k + 1) by omega] at ih
    obtain ⟨w, hw1, hw2, hw3⟩ := byte_eq (mem := mem) (j := j) (by omega) h8
    have hs := tab_sum w hw2
    rw [byte_exc hw3 (Nat.le_refl 8)] at hs
    rw [closeBytes, hw1, sbind]
    have hnext : closeBytes mem succ k (j + 8) (exc (bitAt mem) j - t + succ + wordSum w) = some (.ok (exc (bitAt mem) (j + 8 * (k + 1)) - t + succ)) := by
      rw [show exc (bitAt mem) j - t + succ + wordSum w = exc (bitAt mem) (j + 8) - t + succ by omega]
      exact ih
    by_cases h9 : exc (bitAt mem) j - t + succ - succ ≤ 8
    · rw [if_pos h9, if_neg (by omega)]
      dsimp only
      have hx : (((exc (bitAt mem) j - t + succ - succ - 1).toNat : Nat) : Int) = exc (bitAt mem) j - t - 1 := by omega
      generalize hX : (exc (bitAt mem) j - t + succ - succ - 1).toNat = x at *
      obtain ⟨ha, hb⟩ := tab_match w hw2 x (by omega)
      by_cases hp : nib (minMatchPacked w) x < 9
      · exfalso
        obtain ⟨hp8, hp2, _⟩ := ha hp
        rw [byte_exc hw3 (by omega)] at hp2
        exact hn (j + nib (minMatchPacked w) x) (by omega) (by omega) (by rw [Nat.add_assoc]; omega)
      · rw [if_neg hp]
        exact hnext
    · rw [if_neg h9]
      exact hnext

theorem closeBytes_first {p : Nat} : ∀ k j, j % 8 = 0 → t < exc (bitAt mem) j → FirstHit (bitAt mem) t j (j + 8 * k) p → p < 64 * mem.length →
    closeBytes mem succ k j (exc (bitAt mem) j - t + succ) = some (.error p)
  | 0, j, _, _, h, _ => by have := h.1; have := h.2.1; omega
  | k + 1, j, h8, hj, h, hl => by
    have hp1 := h.1
    obtain ⟨w, hw1, hw2, hw3⟩ := byte_eq (mem := mem) (j := j) (by omega) h8
    have hs := tab_sum w hw2
    rw [byte_exc hw3 (Nat.le_refl 8)] at hs
    rw [closeBytes, hw1, sbind]
    have hnext : j + 8 ≤ p → closeBytes mem succ k (j + 8) (exc (bitAt mem) j - t + succ + wordSum w) = some (.error p) := by
      intro hp8
      have h1 := NoHit.above (k := 8) hj (h.noHit (by omega))
      have ih := closeBytes_first k (j + 8) (by omega) h1 (by rw [show j + 8 + 8 * k = j + 8 * (k + 1) by omega]; exact h.right (by omega) hp8) hl
      rw [show exc (bitAt mem) j - t + succ + wordSum w = exc (bitAt mem) (j + 8) - t + succ by omega]
      exact ih
    have hit := h.2.2.1
    by_cases h9 : exc (bitAt mem) j - t + succ - succ ≤ 8
    · rw [if_pos h9, if_neg (by omega)]
      dsimp only
      have hx : (((exc (bitAt mem) j - t + succ - succ - 1).toNat : Nat) : Int) = exc (bitAt mem) j - t - 1 := by omega
      generalize hX : (exc (bitAt mem) j - t + succ - succ - 1).toNat = x at *
      obtain ⟨ha, hb⟩ := tab_match w hw2 x (by omega)
      by_cases hp : nib (minMatchPacked w) x < 9
      · rw [if_pos hp]
        obtain ⟨hp8, hp2, hp3⟩ := ha hp
        rw [byte_exc hw3 (by omega)] at hp2
        congr 2
        rcases Nat.lt_trichotomy (j + nib (minMatchPacked w) x) p with h4 | h4 | h4
        · exact absurd (by rw [Nat.add_assoc]; omega) (h.2.2.2 _ (by omega) h4)
        · exact h4
        · have := hp3 (p - j) (by omega)
          rw [byte_exc hw3 (by omega), show j + (p - j + 1) = p + 1 by omega] at this
          omega
      · rw [if_neg hp]
        refine hnext ?_
        rcases Nat.lt_or_ge p (j + 8) with h4 | h4
        · have := hb hp (p - j) (by omega)
          rw [byte_exc hw3 (by omega), show j + (p - j + 1) = p + 1 by omega] at this
          omega
        · exact h4
    · rw [if_neg h9]
      refine hnext ?_
      rcases Nat.lt_or_ge p (j + 8) with h4 | h4
      · have := (exc_bounds (bitAt mem) j (p + 1 - j)).1
        rw [show j + (p + 1 - j) = p + 1 by omega] at this
        omega
      · exact h4

theorem closeScan_no {i stop : Nat} (his : i ≤ stop) (hi : t < exc (bitAt mem) i) (hn : NoHit (bitAt mem) t i stop) (hl : stop ≤ 64 * mem.length) :
    closeScan mem succ i stop (exc (bitAt mem) i - t + succ) = some (.ok (exc (bitAt mem) stop - t + succ)) := by
  rw [closeScan]
  generalize hL : (i + 7) / 8 * 8 = l
  generalize hR : stop / 8 * 8 = r
  have hm1 : i ≤ min stop l := by omega
  have h1 := closeBits_no (succ := succ) (t := t) (mem := mem) (min stop l - i) i hi (by rw [show i + (min stop l - i) = min stop l by omega]; exact hn.left (by omega)) (by omega)
  rw [show i + (min stop l - i) = min stop l by omega] at h1
  rw [h1, sbind]
  dsimp only
  have ha1 : t < exc (bitAt mem) (min stop l) := by
    have := NoHit.above (k := min stop l - i) hi (by rw [show i + (min stop l - i) = min stop l by omega]; exact hn.left (by omega))
    rw [show i + (min stop l - i) = min stop l by omega] at this
    exact this
  rcases Nat.lt_or_ge stop l with h2 | h2
  · rw [show min stop l = stop by omega, show (r - l) / 8 = 0 by omega, closeBytes, sbind]
    dsimp only
    rw [show stop - max l r = 0 by omega, closeBits]
  · rw [show min stop l = l by omega] at ha1 ⊢
    have h3 := closeBytes_no (succ := succ) (t := t) (mem := mem) ((r - l) / 8) l (by omega) ha1 ((hn.right (by omega)).left (by omega)) (by omega)
    rw [show l + 8 * ((r - l) / 8) = r by omega] at h3
    rw [h3, sbind]
    dsimp only
    have ha2 : t < exc (bitAt mem) r := by
      have := NoHit.above (k := r - l) ha1 (by rw [show l + (r - l) = r by omega]; exact (hn.right (by omega)).left (by omega))
      rw [show l + (r - l) = r by omega] at this
      exact this
    have h4 := closeBits_no (succ := succ) (t := t) (mem := mem) (stop - r) r ha2 (by rw [show r + (stop - r) = stop by omega]; exact hn.right (by omega)) (by omega)
    rw [show r + (stop - r) = stop by omega] at h4
    rw [show max l r = r by omega, h4]

theorem closeScan_first {i stop p : Nat} (hi : t < exc (bitAt mem) i) (h : FirstHit (bitAt mem) t i stop p) (hl : p < 64 * mem.length) :
    closeScan mem succ i stop (exc (bitAt mem) i - t + succ) = some (.error p) := by
  rw [closeScan]
  have hp1 := h.1
  have hp2 := h.2.1
  generalize hL : (i + 7) / 8 * 8 = l
  generalize hR : stop / 8 * 8 = r
  rcases Nat.lt_or_ge p (min stop l) with h2 | h2
  · rw [closeBits_first (min stop l - i) i hi (by rw [show i + (min stop l - i) = min stop l by omega]; exact h.left h2) hl, sbind]
  · have h1 := closeBits_no (succ := succ) (t := t) (mem := mem) (min stop l - i) i hi (by rw [show i + (min stop l - i) = min stop l by omega]; exact h.noHit h2) (by omega)
    rw [show i + (min stop l - i) = min stop l by omega] at h1
    rw [h1, sbind]
    dsimp only
    have ha1 : t < exc (bitAt mem) (min stop l) := by
      have := NoHit.above (k := min stop l - i) hi (by rw [show i + (min stop l - i) = min stop l by omega]; exact h.noHit h2)
      rw [show i + (min stop l - i) = min stop l by omega] at this
      exact this
    rw [show min stop l = l by omega] at ha1 h2 ⊢
    rcases Nat.lt_or_ge p r with h3 | h3
    · rw [closeBytes_first ((r - l) / 8) l (by omega) ha1 (by rw [show l + 8 * ((r - l) / 8) = r by omega]; exact (h.right (by omega) h2).left h3) hl, sbind]
    · have h4 := closeBytes_no (succ := succ) (t := t) (mem := mem) ((r - l) / 8) l (by omega) ha1
        (by rw [show l + 8 * ((r - l) / 8) = r by omega]; exact (h.right (by omega) h2).noHit h3) (by omega)
      rw [show l + 8 * ((r - l) / 8) = r by omega] at h4
      rw [h4, sbind]
      dsimp only
      have ha2 : t < exc (bitAt mem) r := by
        have := NoHit.above (k := r - l) ha1 (by rw [show l + (r - l) = r by omega]; exact (h.right (by omega) h2).noHit h3)
        rw [show l + (r - l) = r by omega] at this
        exact this
      rw [show max l r = r by omega]
      exact closeBits_first (stop - r) r ha2 (by rw [show r + (stop - r) = stop by omega]; exact h.right (by omega) h3) hl

end close

end Sdsl.Bp
