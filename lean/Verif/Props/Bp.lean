/-
  C48: the block-local scans over balanced parentheses sequences (lib/bp_support_algorithm.cpp).

  A sequence is a function from positions to bits (1 = opening); for a `bit_vector` with words `mem` it is `bitAt mem`. Results `some _` include that no byte outside of the
  allocated words and no table entry outside of its table is read.
-/
import Verif.BpRmq

namespace Sdsl.Props

open Spec

/-- Opening minus closing parentheses at the positions `i, …, j - 1`. -/
def net (b : Nat → Bool) (i j : Nat) : Int := ((List.range' i (j - i)).countP b : Nat) - ((List.range' i (j - i)).countP (fun q => !b q) : Nat)

/-- The positions `i, …, j - 1` are a balanced sequence. -/
def Balanced (b : Nat → Bool) (i j : Nat) : Prop := i ≤ j ∧ net b i j = 0 ∧ ∀ k, i ≤ k → k ≤ j → 0 ≤ net b i k

/-- `i` and `j` are a matching pair: an opening and a closing parenthesis with a balanced sequence between them. -/
def Match (b : Nat → Bool) (i j : Nat) : Prop := b i = true ∧ b j = false ∧ Balanced b (i + 1) j

/-- `k` is the opening parenthesis of the closest pair around the opening parenthesis `i`: between them is a balanced sequence. -/
def Encloses (b : Nat → Bool) (k i : Nat) : Prop := b k = true ∧ Balanced b (k + 1) i

theorem net_eq (b : Nat → Bool) {i j : Nat} (h : i ≤ j) : net b i j = Bp.exc b j - Bp.exc b i := by
  obtain ⟨d, rfl⟩ := Nat.le.dest h
  clear h
  rw [net, show i + d - i = d by omega]
  induction d with
  | zero => simp
  | succ d ih =>
    rw [show i + (d + 1) = i + d + 1 by omega, Bp.exc_succ, List.range'_concat, List.countP_append, List.countP_append, Nat.one_mul]
    rcases Bp.sgn_cases (b (i + d)) with ⟨h1, h2⟩ | ⟨h1, h2⟩
    · rw [List.countP_cons_of_pos (by simpa using h1), List.countP_cons_of_neg (by simp [h1])]
      simp only [List.countP_nil]
      omega
    · rw [List.countP_cons_of_neg (by simp [h1]), List.countP_cons_of_pos (by simp [h1])]
      simp only [List.countP_nil]
      omega

theorem Balanced.exc {b : Nat → Bool} {i j : Nat} (h : Balanced b i j) : i ≤ j ∧ Bp.exc b j = Bp.exc b i ∧ ∀ k, i ≤ k → k ≤ j → Bp.exc b i ≤ Bp.exc b k := by
  obtain ⟨h1, h2, h3⟩ := h
  rw [net_eq b h1] at h2
  refine ⟨h1, by omega, fun k h4 h5 => ?_⟩
  have := h3 k h4 h5
  rw [net_eq b h4] at this
  omega

theorem balanced_of_exc {b : Nat → Bool} {i j : Nat} (h1 : i ≤ j) (h2 : Bp.exc b j = Bp.exc b i) (h3 : ∀ k, i ≤ k → k ≤ j → Bp.exc b i ≤ Bp.exc b k) : Balanced b i j := by
  refine ⟨h1, by rw [net_eq b h1]; omega, fun k h4 h5 => ?_⟩
  have := h3 k h4 h5
  rw [net_eq b h4]
  omega

/-- A matching pair, seen from the left: `j` is the first position after which the excess is one less than after `i`. -/
theorem Match.first {b : Nat → Bool} {i j stop : Nat} (h : Match b i j) (hs : j < stop) : Bp.FirstHit b (Bp.exc b (i + 1) - 1) (i + 1) stop j := by
  obtain ⟨h1, h2, h3⟩ := h
  obtain ⟨h4, h5, h6⟩ := h3.exc
  refine ⟨h4, hs, ?_, fun q h7 h8 => ?_⟩
  · have : Bp.sgn (b j) = -1 := by rw [h2]; rfl
    rw [Bp.exc_succ]
    omega
  · have := h6 (q + 1) (by omega) (by omega)
    omega

/-- Seen from the right: `i` is the last position before which the excess is one less than before `j`. -/
theorem Match.last {b : Nat → Bool} {i j m : Nat} (h : Match b i j) (hm : m ≤ i) : Bp.LastHit b (Bp.exc b j - 1) m j i := by
  obtain ⟨h1, h2, h3⟩ := h
  obtain ⟨h4, h5, h6⟩ := h3.exc
  refine ⟨hm, by omega, ?_, fun q h7 h8 => ?_⟩
  · have h7 : Bp.sgn (b i) = 1 := by rw [h1]; rfl
    have := Bp.exc_succ b i
    omega
  · have := h6 q (by omega) (by omega)
    omega

theorem Encloses.last {b : Nat → Bool} {k i m : Nat} (h : Encloses b k i) (hm : m ≤ k) : Bp.LastHit b (Bp.exc b i - 1) m i k := by
  obtain ⟨h1, h3⟩ := h
  obtain ⟨h4, h5, h6⟩ := h3.exc
  refine ⟨hm, by omega, ?_, fun q h7 h8 => ?_⟩
  · have h7 : Bp.sgn (b k) = 1 := by rw [h1]; rfl
    have := Bp.exc_succ b k
    omega
  · have := h6 q (by omega) (by omega)
    omega

theorem match_of_first {b : Nat → Bool} {i j stop : Nat} (hi : b i = true) (h : Bp.FirstHit b (Bp.exc b (i + 1) - 1) (i + 1) stop j) : Match b i j := by
  have h2 : ∀ q, i + 1 ≤ q → q ≤ j → Bp.exc b (i + 1) - 1 < Bp.exc b q := fun q h3 h4 => by
    have := Bp.NoHit.above (b := b) (t := Bp.exc b (i + 1) - 1) (j := i + 1) (k := q - (i + 1)) (by omega)
      (by rw [show i + 1 + (q - (i + 1)) = q by omega]; exact h.noHit h4)
    rwa [show i + 1 + (q - (i + 1)) = q by omega] at this
  have h1 := h.1
  have h3 := h.2.2.1
  have h4 := Bp.exc_succ b j
  have h5 := h2 j (by omega) (by omega)
  rcases Bp.sgn_cases (b j) with ⟨h8, h9⟩ | ⟨h8, h9⟩
  · omega
  · exact ⟨hi, h8, balanced_of_exc h1 (by omega) (fun q h10 h11 => by have := h2 q h10 h11; omega)⟩

/-- An opening parenthesis is not closed before `r` iff the excess does not fall below its own. -/
theorem unclosed_iff {b : Nat → Bool} {k r : Nat} (hk : b k = true) : (¬ ∃ j, j < r ∧ Match b k j) ↔ ∀ q, k < q → q ≤ r → Bp.exc b (k + 1) ≤ Bp.exc b q := by
  constructor
  · intro h q h1 h2
    rcases Bp.noHit_or_first b (Bp.exc b (k + 1) - 1) (k + 1) r with h3 | ⟨p, h3⟩
    · have := Bp.NoHit.above (b := b) (t := Bp.exc b (k + 1) - 1) (j := k + 1) (k := q - (k + 1)) (by omega)
        (by rw [show k + 1 + (q - (k + 1)) = q by omega]; exact h3.left h2)
      rw [show k + 1 + (q - (k + 1)) = q by omega] at this
      omega
    · exact absurd ⟨p, h3.2.1, match_of_first hk h3⟩ h
  · rintro h ⟨j, hj, hm⟩
    have := (hm.first (stop := j + 1) (by omega)).2.2.1
    have h4 := hm.2.2.1
    have := h (j + 1) (by omega) (by omega)
    omega

theorem above_of_last {b : Nat → Bool} {t : Int} {m i k : Nat} (h : Bp.LastHit b t m i k) (hi : t < Bp.exc b i) (q : Nat) (h1 : k < q) (h2 : q ≤ i) : t < Bp.exc b q := by
  refine Bp.NoHitL.above (k := i - q) (by rw [show q + (i - q) = i by omega]; exact hi) (fun r h3 h4 => h.2.2.2 r (by omega) (by omega))

theorem encloses_of_last {b : Nat → Bool} {m i k : Nat} (h : Bp.LastHit b (Bp.exc b i - 1) m i k) : Encloses b k i := by
  have h2 := above_of_last h (by omega)
  obtain ⟨_, h3, h4, h5⟩ := h
  have h6 := Bp.exc_succ b k
  have h7 := h2 (k + 1) (by omega) (by omega)
  rcases Bp.sgn_cases (b k) with ⟨h8, h9⟩ | ⟨h8, h9⟩
  · exact ⟨h8, balanced_of_exc (by omega) (by omega) (fun q h10 h11 => by have := h2 q (by omega) h11; omega)⟩
  · omega

/-- In a balanced sequence every opening parenthesis has a matching one, and it is unique. -/
theorem C48_match_open {b : Nat → Bool} {n i : Nat} (h : Balanced b 0 n) (hi : i < n) (hb : b i = true) : ∃ j, j < n ∧ Match b i j ∧ ∀ k, Match b i k → k = j := by
  obtain ⟨_, h1, h2⟩ := h.exc
  have h3 := h2 i (by omega) (by omega)
  have h4 : Bp.sgn (b i) = 1 := by rw [hb]; rfl
  have h5 := Bp.exc_succ b i
  rcases Bp.noHit_or_first b (Bp.exc b (i + 1) - 1) (i + 1) n with h6 | ⟨j, h6⟩
  · have := Bp.NoHit.above (b := b) (t := Bp.exc b (i + 1) - 1) (j := i + 1) (k := n - (i + 1)) (by omega) (by rw [show i + 1 + (n - (i + 1)) = n by omega]; exact h6)
    rw [show i + 1 + (n - (i + 1)) = n by omega] at this
    omega
  · refine ⟨j, h6.2.1, match_of_first hb h6, fun k hk => ?_⟩
    have h7 := hk.first (Nat.lt_succ_self k)
    rcases Nat.lt_trichotomy k j with h8 | h8 | h8
    · exact absurd h7.2.2.1 (h6.2.2.2 k h7.1 h8)
    · exact h8
    · exact absurd h6.2.2.1 (h7.2.2.2 j h6.1 h8)

theorem match_of_last {b : Nat → Bool} {m i j : Nat} (hb : b j = false) (h : Bp.LastHit b (Bp.exc b j - 1) m j i) : Match b i j :=
  have h1 := encloses_of_last h
  ⟨h1.1, hb, h1.2⟩

/-- Likewise for closing parentheses. -/
theorem C48_match_close {b : Nat → Bool} {n j : Nat} (h : Balanced b 0 n) (hj : j < n) (hb : b j = false) : ∃ i, i < j ∧ Match b i j ∧ ∀ k, Match b k j → k = i := by
  obtain ⟨_, h1, h2⟩ := h.exc
  have h3 := h2 (j + 1) (by omega) (by omega)
  have h4 : Bp.sgn (b j) = -1 := by rw [hb]; rfl
  have h5 := Bp.exc_succ b j
  rcases Bp.noHitL_or_last b (Bp.exc b j - 1) 0 j with h6 | ⟨i, h6⟩
  · have := Bp.NoHitL.above (b := b) (t := Bp.exc b j - 1) (m := 0) (k := j) (by rw [Nat.zero_add]; omega) (by rw [Nat.zero_add]; exact h6)
    omega
  · refine ⟨i, h6.2.1, match_of_last hb h6, fun k hk => ?_⟩
    have h7 := hk.last (Nat.zero_le k)
    rcases Nat.lt_trichotomy k i with h8 | h8 | h8
    · exact absurd h6.2.2.1 (h7.2.2.2 i h8 h6.2.1)
    · exact h8
    · exact absurd h7.2.2.1 (h6.2.2.2 k h8 h7.2.1)

/-- **C48**, `near_find_close`: the matching closing parenthesis if it is in the block of position `i + 1`, and `i` otherwise. -/
theorem C48_near_find_close {mem : Mem} {i j bs : Nat} (h : Match (bitAt mem) i j) (hj : j < 64 * mem.length) (hbs : 0 < bs) :
    Bp.nearFindClose mem i bs = some (if j / bs = (i + 1) / bs then j else i) := by
  have hst : (i + 1) / bs * bs ≤ i + 1 := Nat.div_mul_le_self _ _
  have h1 := h.2.2.1
  have hd : (i + 1) / bs ≤ j / bs := Nat.div_le_div_right h1
  have hlt : i + 1 < ((i + 1) / bs + 1) * bs := Nat.lt_mul_of_div_lt (Nat.lt_succ_self _) hbs
  have hiff : j / bs = (i + 1) / bs ↔ j < ((i + 1) / bs + 1) * bs := by
    rw [← Nat.div_lt_iff_lt_mul hbs]; omega
  rw [Bp.nearFindClose]
  by_cases hc : j / bs = (i + 1) / bs
  · rw [if_pos hc]
    have := Bp.closeScan_first (succ := 0) (stop := ((i + 1) / bs + 1) * bs) (by omega) (h.first (hiff.1 hc)) hj
    rw [show Bp.exc (bitAt mem) (i + 1) - (Bp.exc (bitAt mem) (i + 1) - 1) + 0 = 1 by omega] at this
    rw [this, sbind]
  · rw [if_neg hc]
    have hc2 := fun h => hc (hiff.2 h)
    have := Bp.closeScan_no (succ := 0) (stop := ((i + 1) / bs + 1) * bs) (by omega) (by omega) ((h.first (stop := j + 1) (by omega)).noHit (by omega)) (by omega)
    rw [show Bp.exc (bitAt mem) (i + 1) - (Bp.exc (bitAt mem) (i + 1) - 1) + 0 = 1 by omega] at this
    rw [this, sbind]

/-- **C48**, `near_find_open`: the matching opening parenthesis if it is in the block of position `j - 1`, and `j` otherwise. -/
theorem C48_near_find_open {mem : Mem} {i j bs : Nat} (h : Match (bitAt mem) i j) (hj : j < 64 * mem.length) (hbs : 0 < bs) :
    Bp.nearFindOpen mem j bs = some (if i / bs = (j - 1) / bs then i else j) := by
  have h1 := h.2.2.1
  have hd : i / bs ≤ (j - 1) / bs := Nat.div_le_div_right (by omega)
  have hiff : i / bs = (j - 1) / bs ↔ (j - 1) / bs * bs ≤ i := by
    rw [← Nat.le_div_iff_mul_le hbs]; omega
  rw [Bp.nearFindOpen, if_neg (by omega)]
  by_cases hc : i / bs = (j - 1) / bs
  · rw [if_pos hc]
    have := Bp.openScan_last (succ := 0) (t := Bp.exc (bitAt mem) j - 1) (i := j - 1) (bs := bs) (p := i) (mem := mem) (by rw [show j - 1 + 1 = j by omega]; omega)
      (by rw [show j - 1 + 1 = j by omega]; exact h.last (hiff.1 hc)) (by omega)
    rw [show j - 1 + 1 = j by omega, show 0 + (Bp.exc (bitAt mem) j - 1) - Bp.exc (bitAt mem) j = -1 by omega] at this
    rw [this, sbind]
  · rw [if_neg hc]
    have hc2 := fun h => hc (hiff.2 h)
    have := Bp.openScan_no (succ := 0) (t := Bp.exc (bitAt mem) j - 1) (i := j - 1) (bs := bs) (mem := mem) (by rw [show j - 1 + 1 = j by omega]; omega)
      (by rw [show j - 1 + 1 = j by omega]; exact (h.last (m := 0) (by omega)).noHit (by omega)) (by omega)
    rw [show j - 1 + 1 = j by omega, show 0 + (Bp.exc (bitAt mem) j - 1) - Bp.exc (bitAt mem) j = -1 by omega] at this
    rw [this, sbind]

/-- **C48**, `near_enclose`: the opening parenthesis of the closest enclosing pair if it is one of the `block_size - 1` positions before `i`, and `i` otherwise. -/
theorem C48_near_enclose {mem : Mem} {k i bs : Nat} (h : Encloses (bitAt mem) k i) (hi : i ≤ 64 * mem.length) (hbs : 0 < bs) (ho : i + bs < 2 ^ 63) :
    Bp.nearEnclose mem i bs = some (if i < k + bs then k else i) := by
  have h1 := h.2.1
  rw [Bp.nearEnclose]
  by_cases hc : i < k + bs
  · rw [if_pos hc, Bp.encloseLoop_last (p := k) ho hbs i 1 (by omega) (by omega) (by omega) (h.last (by omega)) hi, sbind]
  · rw [if_neg hc, Bp.encloseLoop_no ho hbs i 1 (by omega) (by omega) ((h.last (m := 0) (by omega)).noHit (by omega)) hi, sbind]

/-- **C48**, `near_enclose` without an enclosing pair. -/
theorem C48_near_enclose_none {mem : Mem} {i bs : Nat} (h : ∀ k, k < i → ¬ Encloses (bitAt mem) k i) (hi : i ≤ 64 * mem.length) (hbs : 0 < bs) (ho : i + bs < 2 ^ 63) :
    Bp.nearEnclose mem i bs = some i := by
  rw [Bp.nearEnclose, Bp.encloseLoop_no ho hbs i 1 (by omega) (by omega) ?_ hi, sbind]
  rcases Bp.noHitL_or_last (bitAt mem) (Bp.exc (bitAt mem) i - 1) (i + 1 - bs) i with h1 | ⟨p, h1⟩
  · exact h1
  · exact absurd (encloses_of_last h1) (h p h1.2.1)

/-- **C48**, `near_find_closing`: the first position `p ≥ i` with `closings` more closing than opening parentheses in `[i, p]` if it is in the block of `i`. -/
theorem C48_near_find_closing {mem : Mem} {i p c bs : Nat} (hc : 0 < c) (hip : i ≤ p) (h1 : net (bitAt mem) i (p + 1) = -(c : Int))
    (h2 : ∀ q, i ≤ q → q < p → net (bitAt mem) i (q + 1) ≠ -(c : Int)) (hp : p < 64 * mem.length) (hbs : 0 < bs) :
    Bp.nearFindClosing mem i c bs = some (if p / bs = i / bs then p else (i + (2 ^ 64 - 1)) % 2 ^ 64) := by
  have hd : i / bs ≤ p / bs := Nat.div_le_div_right hip
  have hlt : i < (i / bs + 1) * bs := Nat.lt_mul_of_div_lt (Nat.lt_succ_self _) hbs
  have hiff : p / bs = i / bs ↔ p < (i / bs + 1) * bs := by
    rw [← Nat.div_lt_iff_lt_mul hbs]; omega
  rw [net_eq _ (by omega)] at h1
  have hf : ∀ stop, p < stop → Bp.FirstHit (bitAt mem) (Bp.exc (bitAt mem) i - c) i stop p := fun stop hs => by
    refine ⟨hip, hs, by omega, fun q h3 h4 => ?_⟩
    have := h2 q h3 h4
    rw [net_eq _ (by omega)] at this
    omega
  rw [Bp.nearFindClosing]
  by_cases hcc : p / bs = i / bs
  · rw [if_pos hcc]
    have := Bp.closeScan_first (succ := -(c : Int)) (stop := (i / bs + 1) * bs) (by omega) (hf _ (hiff.1 hcc)) hp
    rw [show Bp.exc (bitAt mem) i - (Bp.exc (bitAt mem) i - c) + -(c : Int) = 0 by omega] at this
    rw [this, sbind]
  · rw [if_neg hcc]
    have hc2 := fun h => hcc (hiff.2 h)
    have := Bp.closeScan_no (succ := -(c : Int)) (stop := (i / bs + 1) * bs) (by omega) (by omega) ((hf (p + 1) (by omega)).noHit (by omega)) (by omega)
    rw [show Bp.exc (bitAt mem) i - (Bp.exc (bitAt mem) i - c) + -(c : Int) = 0 by omega] at this
    rw [this, sbind]

/-- **C48**, `near_find_opening`: the last position `p ≤ i` with `openings` more opening than closing parentheses in `[p, i]` if it is in the block of `i`. -/
theorem C48_near_find_opening {mem : Mem} {i p c bs : Nat} (hc : 0 < c) (hip : p ≤ i) (h1 : net (bitAt mem) p (i + 1) = c)
    (h2 : ∀ q, p < q → q ≤ i → net (bitAt mem) q (i + 1) ≠ c) (hp : i < 64 * mem.length) (hbs : 0 < bs) :
    Bp.nearFindOpening mem i c bs = some (if p / bs = i / bs then p else i + 1) := by
  have hd : p / bs ≤ i / bs := Nat.div_le_div_right hip
  have hiff : p / bs = i / bs ↔ i / bs * bs ≤ p := by
    rw [← Nat.le_div_iff_mul_le hbs]; omega
  rw [net_eq _ (by omega)] at h1
  have hf : ∀ m, m ≤ p → Bp.LastHit (bitAt mem) (Bp.exc (bitAt mem) (i + 1) - c) m (i + 1) p := fun m hm => by
    refine ⟨hm, by omega, by omega, fun q h3 h4 => ?_⟩
    have := h2 q h3 (by omega)
    rw [net_eq _ (by omega)] at this
    omega
  rw [Bp.nearFindOpening]
  by_cases hcc : p / bs = i / bs
  · rw [if_pos hcc]
    have := Bp.openScan_last (succ := (c : Int)) (bs := bs) (by omega) (hf _ (hiff.1 hcc)) (by omega)
    rw [show (c : Int) + (Bp.exc (bitAt mem) (i + 1) - c) - Bp.exc (bitAt mem) (i + 1) = 0 by omega] at this
    rw [this, sbind]
  · rw [if_neg hcc]
    have hc2 := fun h => hcc (hiff.2 h)
    have := Bp.openScan_no (succ := (c : Int)) (bs := bs) (t := Bp.exc (bitAt mem) (i + 1) - c) (mem := mem) (i := i) (by omega) ((hf 0 (by omega)).noHit (by omega)) (by omega)
    rw [show (c : Int) + (Bp.exc (bitAt mem) (i + 1) - c) - Bp.exc (bitAt mem) (i + 1) = 0 by omega] at this
    rw [this, sbind]

/-- **C48**, `near_fwd_excess` for a negative relative excess: the first position `p ≥ i` with excess `rel` in `[i, p]` if it is in the block of `i`. -/
theorem C48_near_fwd_excess {mem : Mem} {i p bs : Nat} {rel : Int} (hr : rel < 0) (hip : i ≤ p) (h1 : net (bitAt mem) i (p + 1) = rel)
    (h2 : ∀ q, i ≤ q → q < p → net (bitAt mem) i (q + 1) ≠ rel) (hp : p < 64 * mem.length) (hbs : 0 < bs) :
    Bp.nearFwdExcess mem i rel bs = some (if p / bs = i / bs then p else (i + (2 ^ 64 - 1)) % 2 ^ 64) := by
  have hd : i / bs ≤ p / bs := Nat.div_le_div_right hip
  have hlt : i < (i / bs + 1) * bs := Nat.lt_mul_of_div_lt (Nat.lt_succ_self _) hbs
  have hiff : p / bs = i / bs ↔ p < (i / bs + 1) * bs := by
    rw [← Nat.div_lt_iff_lt_mul hbs]; omega
  rw [net_eq _ (by omega)] at h1
  have hf : ∀ stop, p < stop → Bp.FirstHit (bitAt mem) (Bp.exc (bitAt mem) i + rel) i stop p := fun stop hs => by
    refine ⟨hip, hs, by omega, fun q h3 h4 => ?_⟩
    have := h2 q h3 h4
    rw [net_eq _ (by omega)] at this
    omega
  have hab : ∀ q, i ≤ q → q ≤ p → Bp.exc (bitAt mem) i + rel < Bp.exc (bitAt mem) q := fun q h3 h4 => by
    have := Bp.NoHit.above (b := bitAt mem) (t := Bp.exc (bitAt mem) i + rel) (j := i) (k := q - i) (by omega)
      (by rw [show i + (q - i) = q by omega]; exact (hf (p + 1) (by omega)).noHit h4)
    rwa [show i + (q - i) = q by omega] at this
  by_cases hcc : p / bs = i / bs
  · rw [if_pos hcc]
    exact Bp.nearFwdExcess_first rfl (hf _ (hiff.1 hcc)) (fun q h3 h4 => by have := hab q h3 h4; omega) hp
  · rw [if_neg hcc]
    have hc2 := fun h => hcc (hiff.2 h)
    exact Bp.nearFwdExcess_no hbs rfl ((hf (p + 1) (by omega)).noHit (by omega)) (fun q h3 h4 => by have := hab q h3 (by omega); omega) (by omega)

/-- **C48**, `near_bwd_excess` for block sizes that are multiples of 8 and a negative relative excess (or 0 behind a closing parenthesis): the position before the last `p ≤ i + 1`
    with excess `-rel` in `[p, i + 1]`, if `p` is not before the block of `i`. -/
theorem C48_near_bwd_excess_partial {mem : Mem} {i p bs : Nat} {rel : Int} (h8 : bs % 8 = 0) (hr : rel < 0 ∨ rel = 0 ∧ bitAt mem (i + 1) = false) (hip : p ≤ i + 1)
    (h1 : net (bitAt mem) p (i + 2) = -rel) (h2 : ∀ q, p < q → q ≤ i + 1 → net (bitAt mem) q (i + 2) ≠ -rel) (hp : i + 2 ≤ 64 * mem.length) :
    Bp.nearBwdExcess mem i rel bs =
      some (if i / bs * bs ≤ p then (p + (2 ^ 64 - 1)) % 2 ^ 64 else if i / bs * bs = 0 ∧ rel = -1 then 2 ^ 64 - 1 else i + 1) := by
  rw [net_eq _ (by omega)] at h1
  have hf : ∀ m, m ≤ p → Bp.LastHit (bitAt mem) (Bp.exc (bitAt mem) (i + 2) + rel) m (i + 2) p := fun m hm => by
    refine ⟨hm, by omega, by omega, fun q h3 h4 => ?_⟩
    have := h2 q h3 (by omega)
    rw [net_eq _ (by omega)] at this
    omega
  have hab : ∀ q, p < q → q ≤ i + 1 → Bp.exc (bitAt mem) (i + 2) + rel < Bp.exc (bitAt mem) q := fun q h3 h4 => by
    rcases hr with hr | ⟨hr, hb⟩
    · exact above_of_last (hf 0 (by omega)) (by omega) q h3 (by omega)
    · have h5 := Bp.exc_succ (bitAt mem) (i + 1)
      rw [hb] at h5
      simp only [Bp.sgn] at h5
      rw [show i + 1 + 1 = i + 2 by omega] at h5
      refine Bp.NoHitL.above (k := i + 1 - q) (by rw [show q + (i + 1 - q) = i + 1 by omega, hr]; simp at h5; omega) (fun r h3 h4 => (hf 0 (by omega)).2.2.2 r (by omega) (by omega))
  by_cases hcc : i / bs * bs ≤ p
  · rw [if_pos hcc]
    exact Bp.nearBwdExcess_last h8 rfl (hf _ hcc) (fun q h3 h4 => by have := hab q h3 (by omega); omega) hp
  · rw [if_neg hcc]
    exact Bp.nearBwdExcess_no h8 rfl ((hf 0 (by omega)).noHit (by omega)) (fun q h3 h4 => by have := hab q (by omega) (by omega); omega) hp

/-- **C48**, `near_rmq`: the last position with minimal excess in `[l, r]`, and its excess relative to `l`. -/
theorem C48_near_rmq {mem : Mem} {l r : Nat} (hlr : l ≤ r) (hr : r < 64 * mem.length) :
    ∃ p m, Bp.nearRmq mem l r = some (p, m) ∧ l ≤ p ∧ p ≤ r ∧ net (bitAt mem) (l + 1) (p + 1) = m ∧
      (∀ q, l ≤ q → q ≤ r → m ≤ net (bitAt mem) (l + 1) (q + 1)) ∧ ∀ q, p < q → q ≤ r → m < net (bitAt mem) (l + 1) (q + 1) := by
  obtain ⟨s, h1, h2, h3, h4, h5, h6, h7⟩ := Bp.nearRmq_ok hlr hr
  refine ⟨s.pos, s.min, h1, h3, by omega, by rw [net_eq _ (by omega)]; omega, fun q h8 h9 => ?_, fun q h8 h9 => ?_⟩
  · rw [net_eq _ (by omega)]; exact h6 q h8 (by omega)
  · rw [net_eq _ (by omega)]; exact h7 q h8 (by omega)

/-- **C48**, `near_rmq_open`: if there is an opening parenthesis in `[l, r)` that is not closed before `r`, the leftmost of them; otherwise `r`. -/
theorem C48_near_rmq_open {mem : Mem} {l r : Nat} (hlr : l ≤ r) (hr : r ≤ 64 * mem.length) :
    ∃ p, Bp.nearRmqOpen mem l r = some p ∧ (p = r ∧ (∀ k, l ≤ k → k < r → bitAt mem k = true → ∃ j, j < r ∧ Match (bitAt mem) k j) ∨
      l ≤ p ∧ p < r ∧ bitAt mem p = true ∧ (¬ ∃ j, j < r ∧ Match (bitAt mem) p j) ∧ ∀ k, l ≤ k → k < p → bitAt mem k = true → ∃ j, j < r ∧ Match (bitAt mem) k j) := by
  obtain ⟨s, h1, h2, h3⟩ := Bp.nearRmqOpen_ok hlr hr
  have hd : ∀ k, (∃ j, j < r ∧ Match (bitAt mem) k j) ∨ ¬ ∃ j, j < r ∧ Match (bitAt mem) k j := fun k => Classical.em _
  refine ⟨_, h1, ?_⟩
  by_cases hc : s.min ≤ s.ex
  · rw [if_pos hc]
    rcases h3 with ⟨h4, h5, h6⟩ | ⟨h4, h5, h6, h7, h8, h9⟩
    · have := Bp.exc_bounds (bitAt mem) l (r - l)
      rw [show l + (r - l) = r by omega] at this
      omega
    · refine Or.inr ⟨h4, h5, h6, (unclosed_iff h6).2 (fun q h10 h11 => ?_), fun k h10 h11 h12 => ?_⟩
      · -- the excess after the last opening parenthesis with minimal excess does not fall below: it would have to rise again at a later one
        obtain ⟨d, hd⟩ : ∃ d, d = r - q := ⟨_, rfl⟩
        rcases Int.lt_or_le (Bp.exc (bitAt mem) q) (Bp.exc (bitAt mem) (s.pos + 1)) with h12 | h12
        · exfalso
          induction d generalizing q with
          | zero =>
            obtain rfl : q = r := by omega
            omega
          | succ d ih =>
            have h13 := Bp.exc_succ (bitAt mem) q
            rcases Bp.sgn_cases (bitAt mem q) with ⟨h14, h15⟩ | ⟨h14, h15⟩
            · have := h9 q (by
                rcases Nat.lt_or_ge s.pos q with h | h
                · exact h
                · omega) (by omega) h14
              omega
            · exact ih (q + 1) (by omega) (by omega) (by omega) (by omega)
        · exact h12
      · rcases hd k with h13 | h13
        · exact h13
        · have := (unclosed_iff h12).1 h13 s.pos h11 (by omega)
          have h14 := Bp.exc_succ (bitAt mem) s.pos
          have h15 : Bp.sgn (bitAt mem s.pos) = 1 := by rw [h6]; rfl
          have := h8 k h10 (by omega) h12
          omega
  · rw [if_neg hc]
    refine Or.inl ⟨rfl, fun k h10 h11 h12 => ?_⟩
    rcases hd k with h13 | h13
    · exact h13
    · have := (unclosed_iff h12).1 h13 r h11 (Nat.le_refl _)
      rcases h3 with ⟨h4, h5, h6⟩ | ⟨h4, h5, h6, h7, h8, h9⟩
      · rw [h6 k h10 h11] at h12; cases h12
      · have := h8 k h10 h11 h12
        omega

/-! ### Examples -/

instance (b : Nat → Bool) (i j : Nat) : Decidable (Balanced b i j) :=
  decidable_of_iff (i ≤ j ∧ net b i j = 0 ∧ ∀ k, k ≤ j → i ≤ k → 0 ≤ net b i k) ⟨fun h => ⟨h.1, h.2.1, fun k h1 h2 => h.2.2 k h2 h1⟩, fun h => ⟨h.1, h.2.1, fun k h1 h2 => h.2.2 k h2 h1⟩⟩

instance (b : Nat → Bool) (i j : Nat) : Decidable (Match b i j) := by unfold Match; infer_instance
instance (b : Nat → Bool) (i j : Nat) : Decidable (Encloses b i j) := by unfold Encloses; infer_instance

/-- `((()())(()(()))(((()))()))` -/
def exBp : Mem := [0x478d97#64]

example : Balanced (bitAt exBp) 0 26 := by decide +kernel
example : Match (bitAt exBp) 15 24 ∧ Match (bitAt exBp) 7 14 ∧ Encloses (bitAt exBp) 15 22 ∧ Encloses (bitAt exBp) 0 15 := by decide +kernel

-- found in the block, and in another block (`near_find_close` looks at the block of `i + 1`)
example : Bp.nearFindClose exBp 7 16 = some 14 ∧ Bp.nearFindClose exBp 15 16 = some 24 ∧ Bp.nearFindClose exBp 15 8 = some 15 :=
  ⟨C48_near_find_close (j := 14) (by decide +kernel) (by decide) (by decide), C48_near_find_close (j := 24) (by decide +kernel) (by decide) (by decide),
    C48_near_find_close (j := 24) (by decide +kernel) (by decide) (by decide)⟩
example : Bp.nearFindOpen exBp 14 16 = some 7 ∧ Bp.nearFindOpen exBp 24 16 = some 24 :=
  ⟨C48_near_find_open (i := 7) (by decide +kernel) (by decide) (by decide), C48_near_find_open (i := 15) (by decide +kernel) (by decide) (by decide)⟩
example : Bp.nearEnclose exBp 22 8 = some 15 ∧ Bp.nearEnclose exBp 22 7 = some 22 ∧ Bp.nearEnclose exBp 0 7 = some 0 :=
  ⟨C48_near_enclose (k := 15) (by decide +kernel) (by decide) (by decide) (by decide), C48_near_enclose (k := 15) (by decide +kernel) (by decide) (by decide) (by decide),
    C48_near_enclose_none (by decide) (by decide) (by decide) (by decide)⟩
example : Bp.nearFindClosing exBp 16 2 32 = some 25 ∧ Bp.nearFindClosing exBp 17 2 8 = some 16 :=
  ⟨C48_near_find_closing (p := 25) (by decide) (by decide) (by decide +kernel) (fun q h1 h2 => (by decide +kernel : ∀ q, q < 25 → 16 ≤ q → net (bitAt exBp) 16 (q + 1) ≠ -2) q h2 h1) (by decide) (by decide),
    C48_near_find_closing (p := 24) (by decide) (by decide) (by decide +kernel) (fun q h1 h2 => (by decide +kernel : ∀ q, q < 24 → 17 ≤ q → net (bitAt exBp) 17 (q + 1) ≠ -2) q h2 h1) (by decide) (by decide)⟩
example : Bp.nearFindOpening exBp 12 2 32 = some 7 ∧ Bp.nearFindOpening exBp 12 2 8 = some 13 :=
  ⟨C48_near_find_opening (p := 7) (by decide) (by decide) (by decide +kernel) (fun q h1 h2 => (by decide +kernel : ∀ q, q ≤ 12 → 7 < q → net (bitAt exBp) q (12 + 1) ≠ (2 : Nat)) q h2 h1) (by decide) (by decide),
    C48_near_find_opening (p := 7) (by decide) (by decide) (by decide +kernel) (fun q h1 h2 => (by decide +kernel : ∀ q, q ≤ 12 → 7 < q → net (bitAt exBp) q (12 + 1) ≠ (2 : Nat)) q h2 h1) (by decide) (by decide)⟩
example : Bp.nearFwdExcess exBp 8 (-1) 8 = some 14 :=
  C48_near_fwd_excess (p := 14) (by decide) (by decide) (by decide +kernel) (fun q h1 h2 => (by decide +kernel : ∀ q, q < 14 → 8 ≤ q → net (bitAt exBp) 8 (q + 1) ≠ -1) q h2 h1) (by decide) (by decide)
example : Bp.nearBwdExcess exBp 13 0 16 = some 6 :=
  C48_near_bwd_excess_partial (p := 7) (by decide) (Or.inr ⟨rfl, by decide +kernel⟩) (by decide) (by decide +kernel)
    (fun q h1 h2 => (by decide +kernel : ∀ q, q ≤ 14 → 7 < q → net (bitAt exBp) q (13 + 2) ≠ -0) q h2 h1) (by decide)
example : Bp.nearRmq exBp 2 22 = some (14, -2) ∧ Bp.nearRmqOpen exBp 7 22 = some 15 ∧ Bp.nearRmqOpen exBp 1 15 = some 15 := by decide +kernel

/-! ### Findings -/

/-- Finding: `near_fwd_excess` admits the table index 16, for which there is no entry: for `rel = 8` at the begin of a byte the read is out of bounds, whatever the sequence is
    (and although eight opening parentheses are an answer). -/
theorem C48_near_fwd_excess_out_of_table (w : Word) (mem : Mem) : Bp.nearFwdExcess (w :: mem) 0 8 64 = none := by
  have h : w.toNat / 2 ^ (0 % 64) % 256 < 256 := Nat.mod_lt _ (by decide)
  rw [Bp.nearFwdExcess, show (0 / 64 + 1) * 64 = 64 by rfl, show (0 + 7) / 8 * 8 = 0 by rfl, show min 64 0 - 0 = 0 by rfl, Bp.fwdBits, sbind]
  dsimp only
  rw [show (64 - 0) / 8 = 7 + 1 by rfl, Bp.fwdBytes, show Bp.byte (w :: mem) 0 = some (w.toNat / 2 ^ (0 % 64) % 256) by rfl, sbind, if_pos (by decide), Bp.nearFwdPos,
    if_neg (by show ¬ 16 * 256 + _ < 16 * 256; omega)]
  rfl

/-- Finding: for block sizes that are not multiples of 8, `near_bwd_excess` reads one parenthesis twice and leaves out the first of the block: in
    `()()()()()()()(((())))` the parenthesis 20 is matched by 15, but the scan with block size 12 yields 15 (the position before 16). -/
theorem C48_near_bwd_excess_unaligned : Match (bitAt [0x3d555#64]) 15 20 ∧ Bp.nearBwdExcess [0x3d555#64] 19 0 12 = some 15 := by decide +kernel

/-- With multiples of 8 the result is right. -/
example : Bp.nearBwdExcess [0x3d555#64] 19 0 8 = some 20 ∧ Bp.nearBwdExcess [0x3d555#64] 19 0 32 = some 14 := by decide +kernel

end Sdsl.Props
