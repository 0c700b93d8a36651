/-
  What the block-local scans compute, continued: near_fwd_excess, near_bwd_excess, near_find_open(ing), near_enclose, near_rmq, near_rmq_open.
-/
import Verif.BpScan

namespace Sdsl.Bp

open Spec

variable {b : Nat → Bool} {mem : Mem} {t : Int}

/-! ### near_fwd_excess -/

theorem fwdBits_no : ∀ k j, NoHit (bitAt mem) t j (j + k) → j + k ≤ 64 * mem.length →
    fwdBits mem k j (t - exc (bitAt mem) j) = some (.ok (t - exc (bitAt mem) (j + k)))
  | 0, j, _, _ => rfl
  | k + 1, j, hn, hl => by
    have ih := fwdBits_no k (j + 1) (by rw [show j + 1 + k = j + (k + 1) by omega]; exact hn.right (by omega)) (by omega)
    rw [fwdBits, bit_eq (by omega), sbind]
    have h2 := hn j (by omega) (by omega)
    have h3 := exc_succ (bitAt mem) j
    rw [show j + 1 + k = j + (k + 1) by omega] at ih
    rw [if_neg (by omega), show t - exc (bitAt mem) j - sgn (bitAt mem j) = t - exc (bitAt mem) (j + 1) by omega]
    exact ih

theorem fwdBits_first {p : Nat} : ∀ k j, FirstHit (bitAt mem) t j (j + k) p → p < 64 * mem.length →
    fwdBits mem k j (t - exc (bitAt mem) j) = some (.error p)
  | 0, j, h, _ => by have := h.1; have := h.2.1; omega
  | k + 1, j, h, hl => by
    have hp1 := h.1
    rw [fwdBits, bit_eq (by omega), sbind]
    have h3 := exc_succ (bitAt mem) j
    by_cases e : p = j
    · have h4 := h.2.2.1
      rw [e] at h4 ⊢
      rw [if_pos (by omega)]
    · have ih := fwdBits_first k (j + 1) (by rw [show j + 1 + k = j + (k + 1) by omega]; exact h.right (by omega) (by omega)) hl
      have h2 := h.2.2.2 j (by omega) (by omega)
      rw [if_neg (by omega), show t - exc (bitAt mem) j - sgn (bitAt mem j) = t - exc (bitAt mem) (j + 1) by omega]
      exact ih

theorem nearFwdPos_eq {x w : Nat} (hx : x < 16) (hw : w < 256) : nearFwdPos (x * 256 + w) = some (fwdTab ((x : Int) - 8) w 8 0 0) := by
  rw [nearFwdPos, if_pos (by omega), show (x * 256 + w) / 256 = x by omega, show (x * 256 + w) % 256 = w by omega]

theorem nearBwdPos_eq {x w : Nat} (hx : x < 16) (hw : w < 256) : nearBwdPos (x * 256 + w) = some (bwdTab ((x : Int) - 8) w 8 0) := by
  rw [nearBwdPos, if_pos (by omega), show (x * 256 + w) / 256 = x by omega, show (x * 256 + w) % 256 = w by omega]

/-- `hh`: the table is not read for the value 16, for which it has no entry. -/
theorem fwdBytes_no : ∀ k j, j % 8 = 0 → NoHit (bitAt mem) t j (j + 8 * k) → (∀ q, j ≤ q → q < j + 8 * k → t - exc (bitAt mem) q ≠ 8) → j + 8 * k ≤ 64 * mem.length →
    fwdBytes mem k j (t - exc (bitAt mem) j + 8) = some (.ok (t - exc (bitAt mem) (j + 8 * k) + 8))
  | 0, j, _, _, _, _ => rfl
  | k + 1, j, h8, hn, hh, hl => by
    have ih := fwdBytes_no k (j + 8) (by omega) (by rw [show j + 8 + 8 * k = j + 8 * (k + 1) by omega]; exact hn.right (by omega)) (fun q h1 h2 => hh q (by omega) (by omega)) (by omega)
    rw [show j + 8 + 8 * k = j + 8 * (k + 1) by omega] at ih
    obtain ⟨w, hw1, hw2, hw3⟩ := byte_eq (mem := mem) (j := j) (by omega) h8
    have hs := tab_sum w hw2
    rw [byte_exc hw3 (Nat.le_refl 8)] at hs
    rw [fwdBytes, hw1, sbind]
    have hnext : fwdBytes mem k (j + 8) (t - exc (bitAt mem) j + 8 - wordSum w) = some (.ok (t - exc (bitAt mem) (j + 8 * (k + 1)) + 8)) := by
      rw [show t - exc (bitAt mem) j + 8 - wordSum w = t - exc (bitAt mem) (j + 8) + 8 by omega]
      exact ih
    have hne := hh j (by omega) (by omega)
    by_cases h9 : 0 ≤ t - exc (bitAt mem) j + 8 ∧ t - exc (bitAt mem) j + 8 ≤ 16
    · rw [if_pos h9]
      have hx : (((t - exc (bitAt mem) j + 8).toNat : Nat) : Int) = t - exc (bitAt mem) j + 8 := by omega
      generalize hX : (t - exc (bitAt mem) j + 8).toNat = x at *
      rw [nearFwdPos_eq (by omega) hw2, sbind]
      obtain ⟨ha, hb⟩ := tab_fwd w hw2 x (by omega)
      by_cases hp : fwdTab ((x : Int) - 8) w 8 0 0 < 8
      · exfalso
        obtain ⟨hp2, _⟩ := ha hp
        rw [byte_exc hw3 (by omega)] at hp2
        exact hn (j + fwdTab ((x : Int) - 8) w 8 0 0) (by omega) (by omega) (by rw [Nat.add_assoc]; omega)
      · rw [if_neg hp]
        exact hnext
    · rw [if_neg h9]
      exact hnext

theorem fwdBytes_first {p : Nat} : ∀ k j, j % 8 = 0 → FirstHit (bitAt mem) t j (j + 8 * k) p → (∀ q, j ≤ q → q ≤ p → t - exc (bitAt mem) q ≠ 8) → p < 64 * mem.length →
    fwdBytes mem k j (t - exc (bitAt mem) j + 8) = some (.error p)
  | 0, j, _, h, _, _ => by have := h.1; have := h.2.1; omega
  | k + 1, j, h8, h, hh, hl => by
    have hp1 := h.1
    obtain ⟨w, hw1, hw2, hw3⟩ := byte_eq (mem := mem) (j := j) (by omega) h8
    have hs := tab_sum w hw2
    rw [byte_exc hw3 (Nat.le_refl 8)] at hs
    rw [fwdBytes, hw1, sbind]
    have hnext : j + 8 ≤ p → fwdBytes mem k (j + 8) (t - exc (bitAt mem) j + 8 - wordSum w) = some (.error p) := by
      intro hp8
      have ih := fwdBytes_first k (j + 8) (by omega) (by rw [show j + 8 + 8 * k = j + 8 * (k + 1) by omega]; exact h.right (by omega) hp8) (fun q h1 h2 => hh q (by omega) h2) hl
      rw [show t - exc (bitAt mem) j + 8 - wordSum w = t - exc (bitAt mem) (j + 8) + 8 by omega]
      exact ih
    have hit := h.2.2.1
    have hne := hh j (by omega) (by omega)
    by_cases h9 : 0 ≤ t - exc (bitAt mem) j + 8 ∧ t - exc (bitAt mem) j + 8 ≤ 16
    · rw [if_pos h9]
      have hx : (((t - exc (bitAt mem) j + 8).toNat : Nat) : Int) = t - exc (bitAt mem) j + 8 := by omega
      generalize hX : (t - exc (bitAt mem) j + 8).toNat = x at *
      rw [nearFwdPos_eq (by omega) hw2, sbind]
      obtain ⟨ha, hb⟩ := tab_fwd w hw2 x (by omega)
      by_cases hp : fwdTab ((x : Int) - 8) w 8 0 0 < 8
      · rw [if_pos hp]
        obtain ⟨hp2, hp3⟩ := ha hp
        rw [byte_exc hw3 (by omega)] at hp2
        congr 2
        rcases Nat.lt_trichotomy (j + fwdTab ((x : Int) - 8) w 8 0 0) p with h4 | h4 | h4
        · exact absurd (by rw [Nat.add_assoc]; omega) (h.2.2.2 _ (by omega) h4)
        · exact h4
        · have := hp3 (p - j) (by omega)
          rw [byte_exc hw3 (by omega), show j + (p - j + 1) = p + 1 by omega] at this
          omega
      · rw [if_neg hp]
        refine hnext ?_
        rcases Nat.lt_or_ge p (j + 8) with h4 | h4
        · have := hb hp (p - j) (by omega)
          rw [byte_exc hw3 (by omega), show j + (p - j + 1) = p + 1 by omega] at this
          omega
        · exact h4
    · rw [if_neg h9]
      refine hnext ?_
      rcases Nat.lt_or_ge p (j + 8) with h4 | h4
      · have h5 := exc_bounds (bitAt mem) j (p + 1 - j)
        rw [show j + (p + 1 - j) = p + 1 by omega] at h5
        omega
      · exact h4

theorem nearFwdExcess_no {i bs : Nat} {rel : Int} (hbs : 0 < bs) (ht : t = exc (bitAt mem) i + rel) (hn : NoHit (bitAt mem) t i ((i / bs + 1) * bs))
    (hh : ∀ q, i ≤ q → q < (i / bs + 1) * bs → t - exc (bitAt mem) q ≠ 8) (hl : (i / bs + 1) * bs ≤ 64 * mem.length) :
    nearFwdExcess mem i rel bs = some ((i + (2 ^ 64 - 1)) % 2 ^ 64) := by
  have his : i < (i / bs + 1) * bs := Nat.lt_mul_of_div_lt (Nat.lt_succ_self _) hbs
  rw [nearFwdExcess]
  rw [show rel = t - exc (bitAt mem) i by omega]
  generalize (i / bs + 1) * bs = stop at *
  generalize hL : (i + 7) / 8 * 8 = l
  generalize hR : stop / 8 * 8 = r
  have h1 := fwdBits_no (t := t) (mem := mem) (min stop l - i) i (by rw [show i + (min stop l - i) = min stop l by omega]; exact hn.left (by omega)) (by omega)
  rw [show i + (min stop l - i) = min stop l by omega] at h1
  rw [h1, sbind]
  dsimp only
  rcases Nat.lt_or_ge stop l with h2 | h2
  · rw [show min stop l = stop by omega, show (r - l) / 8 = 0 by omega, fwdBytes, sbind]
    dsimp only
    rw [show stop - max l r = 0 by omega, fwdBits, sbind]
  · rw [show min stop l = l by omega]
    have h3 := fwdBytes_no (t := t) (mem := mem) ((r - l) / 8) l (by omega) ((hn.right (by omega)).left (by omega)) (fun q h1 h2 => hh q (by omega) (by omega)) (by omega)
    rw [show l + 8 * ((r - l) / 8) = r by omega] at h3
    rw [h3, sbind]
    dsimp only
    have h4 := fwdBits_no (t := t) (mem := mem) (stop - r) r (by rw [show r + (stop - r) = stop by omega]; exact hn.right (by omega)) (by omega)
    rw [show max l r = r by omega, show t - exc (bitAt mem) r + 8 - 8 = t - exc (bitAt mem) r by omega, h4, sbind]

theorem nearFwdExcess_first {i bs p : Nat} {rel : Int} (ht : t = exc (bitAt mem) i + rel) (h : FirstHit (bitAt mem) t i ((i / bs + 1) * bs) p)
    (hh : ∀ q, i ≤ q → q ≤ p → t - exc (bitAt mem) q ≠ 8) (hl : p < 64 * mem.length) :
    nearFwdExcess mem i rel bs = some p := by
  rw [nearFwdExcess]
  have hp1 := h.1
  have hp2 := h.2.1
  rw [show rel = t - exc (bitAt mem) i by omega]
  generalize (i / bs + 1) * bs = stop at *
  generalize hL : (i + 7) / 8 * 8 = l
  generalize hR : stop / 8 * 8 = r
  rcases Nat.lt_or_ge p (min stop l) with h2 | h2
  · rw [fwdBits_first (min stop l - i) i (by rw [show i + (min stop l - i) = min stop l by omega]; exact h.left h2) hl, sbind]
  · have h1 := fwdBits_no (t := t) (mem := mem) (min stop l - i) i (by rw [show i + (min stop l - i) = min stop l by omega]; exact h.noHit h2) (by omega)
    rw [show i + (min stop l - i) = min stop l by omega] at h1
    rw [h1, sbind]
    dsimp only
    rw [show min stop l = l by omega] at h2 ⊢
    rcases Nat.lt_or_ge p r with h3 | h3
    · rw [fwdBytes_first ((r - l) / 8) l (by omega) (by rw [show l + 8 * ((r - l) / 8) = r by omega]; exact (h.right (by omega) h2).left h3) (fun q h1 h2 => hh q (by omega) h2) hl, sbind]
    · have h4 := fwdBytes_no (t := t) (mem := mem) ((r - l) / 8) l (by omega)
        (by rw [show l + 8 * ((r - l) / 8) = r by omega]; exact (h.right (by omega) h2).noHit h3) (fun q h1 h2 => hh q (by omega) (by omega)) (by omega)
      rw [show l + 8 * ((r - l) / 8) = r by omega] at h4
      rw [h4, sbind]
      dsimp only
      rw [show max l r = r by omega, show t - exc (bitAt mem) r + 8 - 8 = t - exc (bitAt mem) r by omega,
        fwdBits_first (stop - r) r (by rw [show r + (stop - r) = stop by omega]; exact h.right (by omega) h3) hl, sbind]

/-! ### Scans to the left -/

/-- `p` is the last position in `[m, n)` before which the excess is `t`. -/
def LastHit (b : Nat → Bool) (t : Int) (m n p : Nat) : Prop := m ≤ p ∧ p < n ∧ exc b p = t ∧ ∀ q, p < q → q < n → exc b q ≠ t

def NoHitL (b : Nat → Bool) (t : Int) (m n : Nat) : Prop := ∀ q, m ≤ q → q < n → exc b q ≠ t

theorem noHitL_or_last (b : Nat → Bool) (t : Int) (m n : Nat) : NoHitL b t m n ∨ ∃ p, LastHit b t m n p := by
  induction n with
  | zero => exact Or.inl (fun q _ h => by omega)
  | succ n ih =>
    by_cases hn : m ≤ n ∧ exc b n = t
    · exact Or.inr ⟨n, hn.1, by omega, hn.2, fun q h1 h2 => by omega⟩
    · rcases ih with h | ⟨p, h⟩
      · refine Or.inl (fun q h1 h2 => ?_)
        by_cases e : q = n
        · subst e; exact fun e => hn ⟨h1, e⟩
        · exact h q h1 (by omega)
      · refine Or.inr ⟨p, h.1, by have := h.2.1; omega, h.2.2.1, fun q h1 h2 => ?_⟩
        by_cases e : q = n
        · subst e; exact fun e => hn ⟨by have := h.1; omega, e⟩
        · exact h.2.2.2 q h1 (by omega)

theorem NoHitL.left {m n k : Nat} (h : NoHitL b t m n) (hk : k ≤ n) : NoHitL b t m k := fun q h1 h2 => h q h1 (by omega)
theorem NoHitL.right {m n k : Nat} (h : NoHitL b t m n) (hk : m ≤ k) : NoHitL b t k n := fun q h1 h2 => h q (by omega) h2
theorem LastHit.noHit {m n k p : Nat} (h : LastHit b t m n p) (hk : p < k) : NoHitL b t k n := fun q h1 h2 => h.2.2.2 q (by omega) h2
theorem LastHit.left {m n k p : Nat} (h : LastHit b t m n p) (hk : p < k) (hn : k ≤ n) : LastHit b t m k p := ⟨h.1, hk, h.2.2.1, fun q h1 h2 => h.2.2.2 q h1 (by omega)⟩
theorem LastHit.right {m n k p : Nat} (h : LastHit b t m n p) (hk : k ≤ p) : LastHit b t k n p := ⟨hk, h.2.1, h.2.2.1, h.2.2.2⟩

theorem NoHitL.above {m k : Nat} (hj : t < exc b (m + k)) (h : NoHitL b t m (m + k)) : t < exc b m := by
  induction k with
  | zero => exact hj
  | succ k ih =>
    refine ih ?_ (fun q h1 h2 => h q h1 (by omega))
    have h2 := h (m + k) (by omega) (by omega)
    have h3 := exc_step b (m + k)
    rw [show m + (k + 1) = m + k + 1 by omega] at hj
    omega

theorem bwdBits_no (m : Nat) : ∀ k, NoHitL (bitAt mem) t m (m + k) → m + k ≤ 64 * mem.length →
    bwdBits mem m k (t - exc (bitAt mem) (m + k)) = some (.ok (t - exc (bitAt mem) m))
  | 0, _, _ => rfl
  | k + 1, hn, hl => by
    have ih := bwdBits_no m k (hn.left (by omega)) (by omega)
    rw [bwdBits, bit_eq (by omega), sbind]
    have h2 := hn (m + k) (by omega) (by omega)
    have h3 := exc_succ (bitAt mem) (m + k)
    rw [show m + (k + 1) = m + k + 1 by omega, if_neg (by omega), show t - exc (bitAt mem) (m + k + 1) + sgn (bitAt mem (m + k)) = t - exc (bitAt mem) (m + k) by omega]
    exact ih

theorem bwdBits_last {p : Nat} (m : Nat) : ∀ k, LastHit (bitAt mem) t m (m + k) p → m + k ≤ 64 * mem.length →
    bwdBits mem m k (t - exc (bitAt mem) (m + k)) = some (.error ((p + (2 ^ 64 - 1)) % 2 ^ 64))
  | 0, h, _ => by have := h.1; have := h.2.1; omega
  | k + 1, h, hl => by
    have hp2 := h.2.1
    rw [bwdBits, bit_eq (by omega), sbind]
    have h3 := exc_succ (bitAt mem) (m + k)
    by_cases e : p = m + k
    · have h4 := h.2.2.1
      rw [e] at h4 ⊢
      rw [show m + (k + 1) = m + k + 1 by omega, if_pos (by omega)]
    · have ih := bwdBits_last m k (h.left (by omega) (by omega)) (by omega)
      have h2 := h.2.2.2 (m + k) (by omega) (by omega)
      rw [show m + (k + 1) = m + k + 1 by omega, if_neg (by omega), show t - exc (bitAt mem) (m + k + 1) + sgn (bitAt mem (m + k)) = t - exc (bitAt mem) (m + k) by omega]
      exact ih

theorem bwdBytes_no {l : Nat} (h8 : l % 8 = 0) : ∀ k, NoHitL (bitAt mem) t l (l + 8 * k) → (∀ q, l < q → q ≤ l + 8 * k → t - exc (bitAt mem) q ≠ 8) → l + 8 * k ≤ 64 * mem.length →
    bwdBytes mem l k (t - exc (bitAt mem) (l + 8 * k) + 8) = some (.ok (t - exc (bitAt mem) l + 8))
  | 0, _, _, _ => rfl
  | k + 1, hn, hh, hl => by
    have ih := bwdBytes_no h8 k (hn.left (by omega)) (fun q h1 h2 => hh q h1 (by omega)) (by omega)
    obtain ⟨w, hw1, hw2, hw3⟩ := byte_eq (mem := mem) (j := l + 8 * k) (by omega) (by omega)
    have hs := tab_sum w hw2
    have h88 := byte_exc hw3 (Nat.le_refl 8)
    rw [h88] at hs
    rw [bwdBytes, hw1, sbind, show l + 8 * (k + 1) = l + 8 * k + 8 by omega]
    have hnext : bwdBytes mem l k (t - exc (bitAt mem) (l + 8 * k + 8) + 8 + wordSum w) = some (.ok (t - exc (bitAt mem) l + 8)) := by
      rw [show t - exc (bitAt mem) (l + 8 * k + 8) + 8 + wordSum w = t - exc (bitAt mem) (l + 8 * k) + 8 by omega]
      exact ih
    have hne := hh (l + 8 * k + 8) (by omega) (by omega)
    by_cases h9 : 0 ≤ t - exc (bitAt mem) (l + 8 * k + 8) + 8 ∧ t - exc (bitAt mem) (l + 8 * k + 8) + 8 ≤ 16
    · rw [if_pos h9]
      have hx : (((t - exc (bitAt mem) (l + 8 * k + 8) + 8).toNat : Nat) : Int) = t - exc (bitAt mem) (l + 8 * k + 8) + 8 := by omega
      generalize hX : (t - exc (bitAt mem) (l + 8 * k + 8) + 8).toNat = x at *
      rw [nearBwdPos_eq (by omega) hw2, sbind]
      obtain ⟨ha, hb⟩ := tab_bwd w hw2 x (by omega)
      by_cases hp : bwdTab ((x : Int) - 8) w 8 0 < 8
      · exfalso
        obtain ⟨hp2, _⟩ := ha hp
        rw [byte_exc hw3 (by omega), h88] at hp2
        exact hn (l + 8 * k + bwdTab ((x : Int) - 8) w 8 0) (by omega) (by omega) (by omega)
      · rw [if_neg hp]
        exact hnext
    · rw [if_neg h9]
      exact hnext

theorem bwdBytes_last {l p : Nat} (h8 : l % 8 = 0) : ∀ k, LastHit (bitAt mem) t l (l + 8 * k) p → (∀ q, p < q → q ≤ l + 8 * k → t - exc (bitAt mem) q ≠ 8) →
    l + 8 * k ≤ 64 * mem.length →
    bwdBytes mem l k (t - exc (bitAt mem) (l + 8 * k) + 8) = some (.error ((p + (2 ^ 64 - 1)) % 2 ^ 64))
  | 0, h, _, _ => by have := h.1; have := h.2.1; omega
  | k + 1, h, hh, hl => by
    have hp2 := h.2.1
    have hp1 := h.1
    obtain ⟨w, hw1, hw2, hw3⟩ := byte_eq (mem := mem) (j := l + 8 * k) (by omega) (by omega)
    have hs := tab_sum w hw2
    have h88 := byte_exc hw3 (Nat.le_refl 8)
    rw [h88] at hs
    rw [bwdBytes, hw1, sbind, show l + 8 * (k + 1) = l + 8 * k + 8 by omega]
    have hnext : p < l + 8 * k → bwdBytes mem l k (t - exc (bitAt mem) (l + 8 * k + 8) + 8 + wordSum w) = some (.error ((p + (2 ^ 64 - 1)) % 2 ^ 64)) := by
      intro hp8
      have ih := bwdBytes_last h8 k (h.left hp8 (by omega)) (fun q h1 h2 => hh q h1 (by omega)) (by omega)
      rw [show t - exc (bitAt mem) (l + 8 * k + 8) + 8 + wordSum w = t - exc (bitAt mem) (l + 8 * k) + 8 by omega]
      exact ih
    have hit := h.2.2.1
    have hne := hh (l + 8 * k + 8) (by omega) (by omega)
    by_cases h9 : 0 ≤ t - exc (bitAt mem) (l + 8 * k + 8) + 8 ∧ t - exc (bitAt mem) (l + 8 * k + 8) + 8 ≤ 16
    · rw [if_pos h9]
      have hx : (((t - exc (bitAt mem) (l + 8 * k + 8) + 8).toNat : Nat) : Int) = t - exc (bitAt mem) (l + 8 * k + 8) + 8 := by omega
      generalize hX : (t - exc (bitAt mem) (l + 8 * k + 8) + 8).toNat = x at *
      rw [nearBwdPos_eq (by omega) hw2, sbind]
      obtain ⟨ha, hb⟩ := tab_bwd w hw2 x (by omega)
      by_cases hp : bwdTab ((x : Int) - 8) w 8 0 < 8
      · rw [if_pos hp]
        obtain ⟨hp2, hp3⟩ := ha hp
        rw [byte_exc hw3 (by omega), h88] at hp2
        have : l + 8 * k + bwdTab ((x : Int) - 8) w 8 0 = p := by
          rcases Nat.lt_trichotomy (l + 8 * k + bwdTab ((x : Int) - 8) w 8 0) p with h4 | h4 | h4
          · have := hp3 (p - (l + 8 * k)) (by omega) (by omega)
            rw [byte_exc hw3 (by omega), h88, show l + 8 * k + (p - (l + 8 * k)) = p by omega] at this
            omega
          · exact h4
          · exact absurd (by omega) (h.2.2.2 _ h4 (by omega))
        rw [this]
      · rw [if_neg hp]
        refine hnext ?_
        rcases Nat.lt_or_ge p (l + 8 * k) with h4 | h4
        · exact h4
        · have := hb hp (p - (l + 8 * k)) (by omega)
          rw [byte_exc hw3 (by omega), h88, show l + 8 * k + (p - (l + 8 * k)) = p by omega] at this
          omega
    · rw [if_neg h9]
      refine hnext ?_
      rcases Nat.lt_or_ge p (l + 8 * k) with h4 | h4
      · exact h4
      · have h5 := exc_bounds (bitAt mem) p (l + 8 * k + 8 - p)
        rw [show p + (l + 8 * k + 8 - p) = l + 8 * k + 8 by omega] at h5
        omega

theorem begin_le (i bs : Nat) : i / bs * bs ≤ i := Nat.div_mul_le_self i bs

/-- For block sizes that are multiples of 8. -/
theorem nearBwdExcess_no {i bs : Nat} {rel : Int} (h8 : bs % 8 = 0) (ht : t = exc (bitAt mem) (i + 2) + rel) (hn : NoHitL (bitAt mem) t (i / bs * bs) (i + 2))
    (hh : ∀ q, i / bs * bs < q → q ≤ i → t - exc (bitAt mem) q ≠ 8) (hl : i + 2 ≤ 64 * mem.length) :
    nearBwdExcess mem i rel bs = some (if i / bs * bs = 0 ∧ rel = -1 then 2 ^ 64 - 1 else i + 1) := by
  have hb := begin_le i bs
  have hb8 : i / bs * bs % 8 = 0 := by rw [Nat.mul_mod, h8]; simp
  rw [nearBwdExcess]
  generalize i / bs * bs = beg at *
  generalize hR : i / 8 * 8 = r at *
  rw [show (beg + 7) / 8 * 8 = beg by omega, show max r beg = r by omega, show min beg r - beg = 0 by omega]
  have h1 := bwdBits_no (t := t) (mem := mem) r (i + 2 - r) (by rw [show r + (i + 2 - r) = i + 2 by omega]; exact hn.right (by omega)) (by omega)
  rw [show r + (i + 2 - r) = i + 2 by omega, show t - exc (bitAt mem) (i + 2) = rel by omega] at h1
  rw [h1, sbind]
  dsimp only
  have h2 := bwdBytes_no (t := t) (mem := mem) (l := beg) hb8 ((r - beg) / 8) (by rw [show beg + 8 * ((r - beg) / 8) = r by omega]; exact hn.left (by omega))
    (fun q h1 h2 => hh q h1 (by omega)) (by omega)
  rw [show beg + 8 * ((r - beg) / 8) = r by omega] at h2
  rw [h2, sbind]
  dsimp only
  rw [bwdBits, sbind]
  dsimp only
  split <;> rfl

theorem nearBwdExcess_last {i bs p : Nat} {rel : Int} (h8 : bs % 8 = 0) (ht : t = exc (bitAt mem) (i + 2) + rel) (h : LastHit (bitAt mem) t (i / bs * bs) (i + 2) p)
    (hh : ∀ q, p < q → q ≤ i → t - exc (bitAt mem) q ≠ 8) (hl : i + 2 ≤ 64 * mem.length) :
    nearBwdExcess mem i rel bs = some ((p + (2 ^ 64 - 1)) % 2 ^ 64) := by
  have hb := begin_le i bs
  have hb8 : i / bs * bs % 8 = 0 := by rw [Nat.mul_mod, h8]; simp
  have hp1 := h.1
  have hp2 := h.2.1
  rw [nearBwdExcess]
  generalize i / bs * bs = beg at *
  generalize hR : i / 8 * 8 = r at *
  rw [show (beg + 7) / 8 * 8 = beg by omega, show max r beg = r by omega, show min beg r - beg = 0 by omega]
  rcases Nat.lt_or_ge p r with h3 | h3
  · have h1 := bwdBits_no (t := t) (mem := mem) r (i + 2 - r) (by rw [show r + (i + 2 - r) = i + 2 by omega]; exact h.noHit h3) (by omega)
    rw [show r + (i + 2 - r) = i + 2 by omega, show t - exc (bitAt mem) (i + 2) = rel by omega] at h1
    rw [h1, sbind]
    dsimp only
    have h2 := bwdBytes_last (t := t) (mem := mem) (l := beg) (p := p) hb8 ((r - beg) / 8) (by rw [show beg + 8 * ((r - beg) / 8) = r by omega]; exact h.left h3 (by omega))
      (fun q h1 h2 => hh q h1 (by omega)) (by omega)
    rw [show beg + 8 * ((r - beg) / 8) = r by omega] at h2
    rw [h2, sbind]
  · have h1 := bwdBits_last (t := t) (mem := mem) (p := p) r (i + 2 - r) (by rw [show r + (i + 2 - r) = i + 2 by omega]; exact h.right h3) (by omega)
    rw [show r + (i + 2 - r) = i + 2 by omega, show t - exc (bitAt mem) (i + 2) = rel by omega] at h1
    rw [h1, sbind]

/-! ### near_find_open, near_find_opening -/

section open_

variable {succ : Int}

theorem openBits_no (m : Nat) : ∀ k, t < exc (bitAt mem) (m + k) → NoHitL (bitAt mem) t m (m + k) → m + k ≤ 64 * mem.length →
    openBits mem succ m k (succ + t - exc (bitAt mem) (m + k)) = some (.ok (succ + t - exc (bitAt mem) m))
  | 0, _, _, _ => rfl
  | k + 1, ha, hn, hl => by
    have h3 := exc_succ (bitAt mem) (m + k)
    have h2 := hn (m + k) (by omega) (by omega)
    rw [show m + (k + 1) = m + k + 1 by omega] at ha ⊢
    have ih := openBits_no m k (by rcases sgn_cases (bitAt mem (m + k)) with h | h <;> omega) (hn.left (by omega)) (by omega)
    rw [openBits, bit_eq (by omega), sbind]
    rcases sgn_cases (bitAt mem (m + k)) with ⟨h4, h5⟩ | ⟨h4, h5⟩
    · rw [if_pos h4, if_neg (by omega), show succ + t - exc (bitAt mem) (m + k + 1) + 1 = succ + t - exc (bitAt mem) (m + k) by omega]
      exact ih
    · rw [if_neg (by rw [h4]; simp), show succ + t - exc (bitAt mem) (m + k + 1) - 1 = succ + t - exc (bitAt mem) (m + k) by omega]
      exact ih

theorem openBits_last {p : Nat} (m : Nat) : ∀ k, t < exc (bitAt mem) (m + k) → LastHit (bitAt mem) t m (m + k) p → m + k ≤ 64 * mem.length →
    openBits mem succ m k (succ + t - exc (bitAt mem) (m + k)) = some (.error p)
  | 0, _, h, _ => by have := h.1; have := h.2.1; omega
  | k + 1, ha, h, hl => by
    have h3 := exc_succ (bitAt mem) (m + k)
    have hp2 := h.2.1
    have hit := h.2.2.1
    rw [show m + (k + 1) = m + k + 1 by omega] at ha ⊢
    rw [openBits, bit_eq (by omega), sbind]
    by_cases e : p = m + k
    · rw [e] at hit ⊢
      rcases sgn_cases (bitAt mem (m + k)) with ⟨h4, h5⟩ | ⟨h4, h5⟩
      · rw [if_pos h4, if_pos (by omega)]
      · omega
    · have h2 := h.2.2.2 (m + k) (by omega) (by omega)
      have ih := openBits_last (p := p) m k (by rcases sgn_cases (bitAt mem (m + k)) with h | h <;> omega) (h.left (by omega) (by omega)) (by omega)
      rcases sgn_cases (bitAt mem (m + k)) with ⟨h4, h5⟩ | ⟨h4, h5⟩
      · rw [if_pos h4, if_neg (by omega), show succ + t - exc (bitAt mem) (m + k + 1) + 1 = succ + t - exc (bitAt mem) (m + k) by omega]
        exact ih
      · rw [if_neg (by rw [h4]; simp), show succ + t - exc (bitAt mem) (m + k + 1) - 1 = succ + t - exc (bitAt mem) (m + k) by omega]
        exact ih

theorem openBytes_no {l : Nat} (h8 : l % 8 = 0) : ∀ k, t < exc (bitAt mem) (l + 8 * k) → NoHitL (bitAt mem) t l (l + 8 * k) → l + 8 * k ≤ 64 * mem.length →
    openBytes mem succ l k (succ + t - exc (bitAt mem) (l + 8 * k)) = some (.ok (succ + t - exc (bitAt mem) l))
  | 0, _, _, _ => rfl
  | k + 1, ha, hn, hl => by
    rw [show l + 8 * (k + 1) = l + 8 * k + 8 by omega] at ha ⊢
    have h1 := NoHitL.above ha (hn.right (by omega))
    have ih := openBytes_no h8 k h1 (hn.left (by omega)) (by omega)
    obtain ⟨w, hw1, hw2, hw3⟩ := byte_eq (mem := mem) (j := l + 8 * k) (by omega) (by omega)
    have hs := tab_sum w hw2
    have h88 := byte_exc hw3 (Nat.le_refl 8)
    rw [h88] at hs
    rw [openBytes, hw1, sbind]
    have hnext : openBytes mem succ l k (succ + t - exc (bitAt mem) (l + 8 * k + 8) + wordSum w) = some (.ok (succ + t - exc (bitAt mem) l)) := by
      rw [show succ + t - exc (bitAt mem) (l + 8 * k + 8) + wordSum w = succ + t - exc (bitAt mem) (l + 8 * k) by omega]
      exact ih
    by_cases h9 : succ - (succ + t - exc (bitAt mem) (l + 8 * k + 8)) ≤ 8
    · rw [if_pos h9, if_neg (by omega)]
      dsimp only
      have hx : (((succ - (succ + t - exc (bitAt mem) (l + 8 * k + 8)) - 1).toNat : Nat) : Int) = exc (bitAt mem) (l + 8 * k + 8) - t - 1 := by omega
      generalize hX : (succ - (succ + t - exc (bitAt mem) (l + 8 * k + 8)) - 1).toNat = x at *
      obtain ⟨ha, hb⟩ := tab_maxMatch w hw2 x (by omega)
      by_cases hp : nib (maxMatchPacked w) x < 9
      · exfalso
        obtain ⟨hp8, hp2, _⟩ := ha hp
        rw [h88, byte_exc hw3 (by omega)] at hp2
        exact hn (l + 8 * k + nib (maxMatchPacked w) x) (by omega) (by omega) (by omega)
      · rw [if_neg hp]
        exact hnext
    · rw [if_neg h9]
      exact hnext

theorem openBytes_last {l p : Nat} (h8 : l % 8 = 0) : ∀ k, t < exc (bitAt mem) (l + 8 * k) → LastHit (bitAt mem) t l (l + 8 * k) p → l + 8 * k ≤ 64 * mem.length →
    openBytes mem succ l k (succ + t - exc (bitAt mem) (l + 8 * k)) = some (.error p)
  | 0, _, h, _ => by have := h.1; have := h.2.1; omega
  | k + 1, ha, h, hl => by
    rw [show l + 8 * (k + 1) = l + 8 * k + 8 by omega] at ha ⊢
    have hp2 := h.2.1
    have hit := h.2.2.1
    obtain ⟨w, hw1, hw2, hw3⟩ := byte_eq (mem := mem) (j := l + 8 * k) (by omega) (by omega)
    have hs := tab_sum w hw2
    have h88 := byte_exc hw3 (Nat.le_refl 8)
    rw [h88] at hs
    rw [openBytes, hw1, sbind]
    have hnext : p < l + 8 * k → openBytes mem succ l k (succ + t - exc (bitAt mem) (l + 8 * k + 8) + wordSum w) = some (.error p) := by
      intro hp8
      have h1 := NoHitL.above ha (h.noHit (k := l + 8 * k) hp8)
      have ih := openBytes_last (p := p) h8 k h1 (h.left hp8 (by omega)) (by omega)
      rw [show succ + t - exc (bitAt mem) (l + 8 * k + 8) + wordSum w = succ + t - exc (bitAt mem) (l + 8 * k) by omega]
      exact ih
    by_cases h9 : succ - (succ + t - exc (bitAt mem) (l + 8 * k + 8)) ≤ 8
    · rw [if_pos h9, if_neg (by omega)]
      dsimp only
      have hx : (((succ - (succ + t - exc (bitAt mem) (l + 8 * k + 8)) - 1).toNat : Nat) : Int) = exc (bitAt mem) (l + 8 * k + 8) - t - 1 := by omega
      generalize hX : (succ - (succ + t - exc (bitAt mem) (l + 8 * k + 8)) - 1).toNat = x at *
      obtain ⟨ha, hb⟩ := tab_maxMatch w hw2 x (by omega)
      by_cases hp : nib (maxMatchPacked w) x < 9
      · rw [if_pos hp]
        obtain ⟨hp8, hp2, hp3⟩ := ha hp
        rw [h88, byte_exc hw3 (by omega)] at hp2
        congr 2
        rcases Nat.lt_trichotomy (l + 8 * k + nib (maxMatchPacked w) x) p with h4 | h4 | h4
        · have := hp3 (p - (l + 8 * k)) (by omega) (by omega)
          rw [h88, byte_exc hw3 (by omega), show l + 8 * k + (p - (l + 8 * k)) = p by omega] at this
          omega
        · exact h4
        · exact absurd (by omega) (h.2.2.2 _ h4 (by omega))
      · rw [if_neg hp]
        refine hnext ?_
        rcases Nat.lt_or_ge p (l + 8 * k) with h4 | h4
        · exact h4
        · have := hb hp (p - (l + 8 * k)) (by omega)
          rw [h88, byte_exc hw3 (by omega), show l + 8 * k + (p - (l + 8 * k)) = p by omega] at this
          omega
    · rw [if_neg h9]
      refine hnext ?_
      rcases Nat.lt_or_ge p (l + 8 * k) with h4 | h4
      · exact h4
      · have h5 := exc_bounds (bitAt mem) p (l + 8 * k + 8 - p)
        rw [show p + (l + 8 * k + 8 - p) = l + 8 * k + 8 by omega] at h5
        omega

theorem openScan_no {i bs : Nat} (hi : t < exc (bitAt mem) (i + 1)) (hn : NoHitL (bitAt mem) t (i / bs * bs) (i + 1)) (hl : i + 1 ≤ 64 * mem.length) :
    openScan mem succ i bs (succ + t - exc (bitAt mem) (i + 1)) = some (.ok (succ + t - exc (bitAt mem) (i / bs * bs))) := by
  have hb := begin_le i bs
  rw [openScan]
  generalize i / bs * bs = beg at *
  generalize hR : i / 8 * 8 = r at *
  generalize hL : (beg + 7) / 8 * 8 = l at *
  have h1 := openBits_no (succ := succ) (t := t) (mem := mem) (max r beg) (i + 1 - max r beg) (by rw [show max r beg + (i + 1 - max r beg) = i + 1 by omega]; exact hi)
    (by rw [show max r beg + (i + 1 - max r beg) = i + 1 by omega]; exact hn.right (by omega)) (by omega)
  rw [show max r beg + (i + 1 - max r beg) = i + 1 by omega] at h1
  rw [h1, sbind]
  dsimp only
  rcases Nat.lt_or_ge r beg with h2 | h2
  · rw [show max r beg = beg by omega, show (r - l) / 8 = 0 by omega, openBytes, sbind]
    dsimp only
    rw [show min l r - beg = 0 by omega, openBits]
  · rw [show max r beg = r by omega]
    have ha1 : t < exc (bitAt mem) r := NoHitL.above (k := i + 1 - r) (by rw [show r + (i + 1 - r) = i + 1 by omega]; exact hi)
      (by rw [show r + (i + 1 - r) = i + 1 by omega]; exact hn.right (by omega))
    have h3 := openBytes_no (succ := succ) (t := t) (mem := mem) (l := l) (by omega) ((r - l) / 8) (by rw [show l + 8 * ((r - l) / 8) = r by omega]; exact ha1)
      (by rw [show l + 8 * ((r - l) / 8) = r by omega]; exact (hn.right (by omega)).left (by omega)) (by omega)
    rw [show l + 8 * ((r - l) / 8) = r by omega] at h3
    rw [h3, sbind]
    dsimp only
    have ha2 : t < exc (bitAt mem) l := NoHitL.above (k := r - l) (by rw [show l + (r - l) = r by omega]; exact ha1)
      (by rw [show l + (r - l) = r by omega]; exact (hn.right (by omega)).left (by omega))
    have h4 := openBits_no (succ := succ) (t := t) (mem := mem) beg (l - beg) (by rw [show beg + (l - beg) = l by omega]; exact ha2)
      (by rw [show beg + (l - beg) = l by omega]; exact hn.left (by omega)) (by omega)
    rw [show beg + (l - beg) = l by omega] at h4
    rw [show min l r = l by omega]
    exact h4

theorem openScan_last {i bs p : Nat} (hi : t < exc (bitAt mem) (i + 1)) (h : LastHit (bitAt mem) t (i / bs * bs) (i + 1) p) (hl : i + 1 ≤ 64 * mem.length) :
    openScan mem succ i bs (succ + t - exc (bitAt mem) (i + 1)) = some (.error p) := by
  have hb := begin_le i bs
  rw [openScan]
  have hp1 := h.1
  have hp2 := h.2.1
  generalize i / bs * bs = beg at *
  generalize hR : i / 8 * 8 = r at *
  generalize hL : (beg + 7) / 8 * 8 = l at *
  rcases Nat.lt_or_ge p (max r beg) with h2 | h2
  · have h1 := openBits_no (succ := succ) (t := t) (mem := mem) (max r beg) (i + 1 - max r beg) (by rw [show max r beg + (i + 1 - max r beg) = i + 1 by omega]; exact hi)
      (by rw [show max r beg + (i + 1 - max r beg) = i + 1 by omega]; exact h.noHit h2) (by omega)
    rw [show max r beg + (i + 1 - max r beg) = i + 1 by omega] at h1
    rw [h1, sbind]
    dsimp only
    rw [show max r beg = r by omega] at h2 ⊢
    have ha1 : t < exc (bitAt mem) r := NoHitL.above (k := i + 1 - r) (by rw [show r + (i + 1 - r) = i + 1 by omega]; exact hi)
      (by rw [show r + (i + 1 - r) = i + 1 by omega]; exact h.noHit h2)
    rcases Nat.lt_or_ge p l with h3 | h3
    · have h4 := openBytes_no (succ := succ) (t := t) (mem := mem) (l := l) (by omega) ((r - l) / 8) (by rw [show l + 8 * ((r - l) / 8) = r by omega]; exact ha1)
        (by rw [show l + 8 * ((r - l) / 8) = r by omega]; exact (h.noHit h3).left (by omega)) (by omega)
      rw [show l + 8 * ((r - l) / 8) = r by omega] at h4
      rw [h4, sbind]
      dsimp only
      have ha2 : t < exc (bitAt mem) l := NoHitL.above (k := r - l) (by rw [show l + (r - l) = r by omega]; exact ha1)
        (by rw [show l + (r - l) = r by omega]; exact (h.noHit h3).left (by omega))
      have h5 := openBits_last (succ := succ) (t := t) (mem := mem) (p := p) beg (l - beg) (by rw [show beg + (l - beg) = l by omega]; exact ha2)
        (by rw [show beg + (l - beg) = l by omega]; exact h.left h3 (by omega)) (by omega)
      rw [show beg + (l - beg) = l by omega] at h5
      rw [show min l r = l by omega]
      exact h5
    · have h4 := openBytes_last (succ := succ) (t := t) (mem := mem) (l := l) (p := p) (by omega) ((r - l) / 8) (by rw [show l + 8 * ((r - l) / 8) = r by omega]; exact ha1)
        (by rw [show l + 8 * ((r - l) / 8) = r by omega]; exact (h.left h2 (by omega)).right h3) (by omega)
      rw [show l + 8 * ((r - l) / 8) = r by omega] at h4
      rw [h4, sbind]
  · have h1 := openBits_last (succ := succ) (t := t) (mem := mem) (p := p) (max r beg) (i + 1 - max r beg) (by rw [show max r beg + (i + 1 - max r beg) = i + 1 by omega]; exact hi)
      (by rw [show max r beg + (i + 1 - max r beg) = i + 1 by omega]; exact h.right h2) (by omega)
    rw [show max r beg + (i + 1 - max r beg) = i + 1 by omega] at h1
    rw [h1, sbind]

end open_

end Sdsl.Bp
