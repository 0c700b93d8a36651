/-
  What the block-local scans compute, continued: near_enclose, near_rmq, near_rmq_open.
-/
import Verif.BpNear

namespace Sdsl.Bp

open Spec

variable {mem : Mem}

/-! ### near_rmq -/

/-- State of `near_rmq` for the positions `[l, j)`: the last position with the minimal excess. -/
def RmqOk (b : Nat → Bool) (l j : Nat) (s : RmqSt) : Prop :=
  s.ex = exc b j - exc b (l + 1) ∧ l ≤ s.pos ∧ s.pos < j ∧ s.min = exc b (s.pos + 1) - exc b (l + 1) ∧
    (∀ q, l ≤ q → q < j → s.min ≤ exc b (q + 1) - exc b (l + 1)) ∧ ∀ q, s.pos < q → q < j → s.min < exc b (q + 1) - exc b (l + 1)

theorem rmqBits_ok {l : Nat} : ∀ k j s, RmqOk (bitAt mem) l j s → j + k ≤ 64 * mem.length → ∃ s', rmqBits mem k j s = some s' ∧ RmqOk (bitAt mem) l (j + k) s'
  | 0, _, s, h, _ => ⟨s, rfl, h⟩
  | k + 1, j, s, h, hl => by
    obtain ⟨h1, h2, h3, h4, h5, h6⟩ := h
    have h7 := exc_succ (bitAt mem) j
    have hm : s.min ≤ s.ex := by
      have := h5 (j - 1) (by omega) (by omega)
      rw [show j - 1 + 1 = j by omega] at this
      omega
    rw [rmqBits, bit_eq (by omega), sbind]
    have key : ∀ s1, RmqOk (bitAt mem) l (j + 1) s1 → ∃ s', rmqBits mem k (j + 1) s1 = some s' ∧ RmqOk (bitAt mem) l (j + (k + 1)) s' := fun s1 hs => by
      rw [show j + (k + 1) = j + 1 + k by omega]
      exact rmqBits_ok k (j + 1) s1 hs (by omega)
    rcases sgn_cases (bitAt mem j) with ⟨h8, h9⟩ | ⟨h8, h9⟩
    · rw [if_pos h8]
      refine key _ ⟨by dsimp only; omega, h2, by dsimp only; omega, h4, fun q h10 h11 => ?_, fun q h10 h11 => ?_⟩
      · rcases Nat.lt_or_ge q j with h12 | h12
        · exact h5 q h10 h12
        · obtain rfl : q = j := by omega
          dsimp only; omega
      · rcases Nat.lt_or_ge q j with h12 | h12
        · exact h6 q h10 h12
        · obtain rfl : q = j := by omega
          dsimp only; omega
    · rw [if_neg (by rw [h8]; simp)]
      by_cases h10 : s.ex - 1 ≤ s.min
      · rw [if_pos h10]
        refine key _ ⟨by dsimp only; omega, by dsimp only; omega, by dsimp only; omega, by dsimp only; omega, fun q h11 h12 => ?_, fun q h11 h12 => by dsimp only at h11; omega⟩
        rcases Nat.lt_or_ge q j with h13 | h13
        · have := h5 q h11 h13
          dsimp only; omega
        · obtain rfl : q = j := by omega
          dsimp only; omega
      · rw [if_neg h10]
        refine key _ ⟨by dsimp only; omega, h2, by dsimp only; omega, h4, fun q h11 h12 => ?_, fun q h11 h12 => ?_⟩
        · rcases Nat.lt_or_ge q j with h13 | h13
          · exact h5 q h11 h13
          · obtain rfl : q = j := by omega
            dsimp only; omega
        · rcases Nat.lt_or_ge q j with h13 | h13
          · exact h6 q h11 h13
          · obtain rfl : q = j := by omega
            dsimp only; omega

theorem rmqBytes_ok {l : Nat} : ∀ k j s, j % 8 = 0 → RmqOk (bitAt mem) l j s → j + 8 * k ≤ 64 * mem.length →
    ∃ s', rmqBytes mem k j s = some s' ∧ RmqOk (bitAt mem) l (j + 8 * k) s'
  | 0, _, s, _, h, _ => ⟨s, rfl, h⟩
  | k + 1, j, s, h8, h, hl => by
    obtain ⟨h1, h2, h3, h4, h5, h6⟩ := h
    obtain ⟨w, hw1, hw2, hw3⟩ := byte_eq (mem := mem) (j := j) (by omega) h8
    have hs := tab_sum w hw2
    rw [byte_exc hw3 (Nat.le_refl 8)] at hs
    obtain ⟨t1, t2, t3, t4⟩ := tab_min w hw2
    rw [byte_exc hw3 (by omega)] at t2
    have t3' : ∀ q, j ≤ q → q < j + 8 → minTab w ≤ exc (bitAt mem) (q + 1) - exc (bitAt mem) j := fun q h7 h9 => by
      have := t3 (q - j) (by omega)
      rwa [byte_exc hw3 (by omega), show j + (q - j + 1) = q + 1 by omega] at this
    have t4' : ∀ q, j + minPosMax w < q → q < j + 8 → minTab w < exc (bitAt mem) (q + 1) - exc (bitAt mem) j := fun q h7 h9 => by
      have := t4 (q - j) (by omega) (by omega)
      rwa [byte_exc hw3 (by omega), show j + (q - j + 1) = q + 1 by omega] at this
    have key : ∀ s1, RmqOk (bitAt mem) l (j + 8) s1 → ∃ s', rmqBytes mem k (j + 8) s1 = some s' ∧ RmqOk (bitAt mem) l (j + 8 * (k + 1)) s' := fun s1 hs => by
      rw [show j + 8 * (k + 1) = j + 8 + 8 * k by omega]
      exact rmqBytes_ok k (j + 8) s1 (by omega) hs (by omega)
    rw [rmqBytes, hw1, sbind]
    rw [← Nat.add_assoc] at t2
    by_cases h10 : s.ex + minTab w ≤ s.min
    · rw [if_pos h10]
      refine key _ ⟨by dsimp only; omega, by dsimp only; omega, by dsimp only; omega, by dsimp only; omega, fun q h11 h12 => ?_, fun q h11 h12 => ?_⟩
      · rcases Nat.lt_or_ge q j with h13 | h13
        · have := h5 q h11 h13
          dsimp only; omega
        · have := t3' q h13 h12
          dsimp only; omega
      · dsimp only at h11
        have := t4' q h11 h12
        dsimp only; omega
    · rw [if_neg h10]
      refine key _ ⟨by dsimp only; omega, h2, by dsimp only; omega, h4, fun q h11 h12 => ?_, fun q h11 h12 => ?_⟩
      · rcases Nat.lt_or_ge q j with h13 | h13
        · exact h5 q h11 h13
        · have := t3' q h13 h12
          dsimp only; omega
      · rcases Nat.lt_or_ge q j with h13 | h13
        · exact h6 q h11 h13
        · have := t3' q h13 h12
          dsimp only; omega

theorem nearRmq_ok {l r : Nat} (hlr : l ≤ r) (hl : r < 64 * mem.length) : ∃ s, nearRmq mem l r = some (s.pos, s.min) ∧ RmqOk (bitAt mem) l (r + 1) s := by
  rw [nearRmq]
  generalize hL : (l + 1 + 7) / 8 * 8 = l8
  generalize hR : r / 8 * 8 = r8
  have h0 : RmqOk (bitAt mem) l (l + 1) ⟨0, 0, l⟩ := by
    refine ⟨by dsimp only; omega, by dsimp only; omega, by dsimp only; omega, by dsimp only; omega, fun q h1 h2 => ?_, fun q h1 h2 => by dsimp only at h1; omega⟩
    obtain rfl : q = l := by omega
    dsimp only; omega
  obtain ⟨s1, h1, h2⟩ := rmqBits_ok (min l8 (r + 1) - (l + 1)) (l + 1) _ h0 (by omega)
  rw [h1, sbind]
  rw [show l + 1 + (min l8 (r + 1) - (l + 1)) = min l8 (r + 1) by omega] at h2
  rcases Nat.lt_or_ge r l8 with h3 | h3
  · rw [show (r8 - l8) / 8 = 0 by omega, rmqBytes, sbind, show r + 1 - max l8 r8 = 0 by omega, rmqBits, sbind]
    rw [show min l8 (r + 1) = r + 1 by omega] at h2
    exact ⟨s1, rfl, h2⟩
  · rw [show min l8 (r + 1) = l8 by omega] at h2
    obtain ⟨s2, h4, h5⟩ := rmqBytes_ok ((r8 - l8) / 8) l8 s1 (by omega) h2 (by omega)
    rw [h4, sbind, show max l8 r8 = r8 by omega]
    rw [show l8 + 8 * ((r8 - l8) / 8) = r8 by omega] at h5
    obtain ⟨s3, h6, h7⟩ := rmqBits_ok (r + 1 - r8) r8 s2 h5 (by omega)
    rw [h6, sbind]
    rw [show r8 + (r + 1 - r8) = r + 1 by omega] at h7
    exact ⟨s3, rfl, h7⟩

/-! ### near_rmq_open -/

/-- State of `near_rmq_open` for the positions `[beg, j)`: the last opening parenthesis with minimal excess, if there is one. -/
def RmqOpenOk (b : Nat → Bool) (beg end_ j : Nat) (s : RmqSt) : Prop :=
  s.ex = exc b j - exc b beg ∧
    ((s.pos = end_ ∧ s.min = (end_ : Int) - beg + 1 ∧ ∀ q, beg ≤ q → q < j → b q = false) ∨
     (beg ≤ s.pos ∧ s.pos < j ∧ b s.pos = true ∧ s.min = exc b (s.pos + 1) - exc b beg ∧
      (∀ q, beg ≤ q → q < j → b q = true → s.min ≤ exc b (q + 1) - exc b beg) ∧
      ∀ q, s.pos < q → q < j → b q = true → s.min < exc b (q + 1) - exc b beg))

/-- A state whose minimum is extended by a stretch `[j, j + d)` with its own last minimum, or by nothing. -/
theorem RmqOpenOk.extend {b : Nat → Bool} {beg end_ j d : Nat} {s : RmqSt} (h : RmqOpenOk b beg end_ j s) {ex : Int} (hex : ex = exc b (j + d) - exc b beg) {m : Int} {p : Nat}
    (hb : beg ≤ j) (hp1 : j ≤ p) (hp2 : p < j + d) (hpb : b p = true) (hm : m = exc b (p + 1) - exc b beg) (hle : j + d ≤ end_)
    (h5 : ∀ q, j ≤ q → q < j + d → b q = true → m ≤ exc b (q + 1) - exc b beg) (h6 : ∀ q, p < q → q < j + d → b q = true → m < exc b (q + 1) - exc b beg) :
    RmqOpenOk b beg end_ (j + d) (if m ≤ s.min then ⟨ex, m, p⟩ else ⟨ex, s.min, s.pos⟩) := by
  obtain ⟨h1, h2⟩ := h
  split
  · rename_i hle'
    refine ⟨hex, Or.inr ⟨by dsimp only; omega, hp2, hpb, hm, fun q h7 h8 h9 => ?_, fun q h7 h8 h9 => h6 q h7 h8 h9⟩⟩
    rcases Nat.lt_or_ge q j with h10 | h10
    · rcases h2 with ⟨_, _, h11⟩ | ⟨_, _, _, _, h11, _⟩
      · rw [h11 q h7 h10] at h9; cases h9
      · have := h11 q h7 h10 h9
        dsimp only; omega
    · exact h5 q h10 h8 h9
  · rename_i hgt
    refine ⟨hex, ?_⟩
    rcases h2 with ⟨h3, h4, h11⟩ | ⟨h3, h4, h12, h13, h11, h14⟩
    · exfalso
      have := exc_bounds b beg (p + 1 - beg)
      rw [show beg + (p + 1 - beg) = p + 1 by omega] at this
      omega
    · refine Or.inr ⟨h3, by dsimp only; omega, h12, h13, fun q h7 h8 h9 => ?_, fun q h7 h8 h9 => ?_⟩
      · rcases Nat.lt_or_ge q j with h10 | h10
        · exact h11 q h7 h10 h9
        · have := h5 q h10 h8 h9
          dsimp only; omega
      · rcases Nat.lt_or_ge q j with h10 | h10
        · exact h14 q h7 h10 h9
        · have := h5 q h10 h8 h9
          dsimp only; omega

theorem RmqOpenOk.skip {b : Nat → Bool} {beg end_ j d : Nat} {s : RmqSt} (h : RmqOpenOk b beg end_ j s) {ex : Int} (hex : ex = exc b (j + d) - exc b beg)
    (h5 : ∀ q, j ≤ q → q < j + d → b q = false) : RmqOpenOk b beg end_ (j + d) ⟨ex, s.min, s.pos⟩ := by
  obtain ⟨h1, h2⟩ := h
  refine ⟨hex, ?_⟩
  rcases h2 with ⟨h3, h4, h11⟩ | ⟨h3, h4, h12, h13, h11, h14⟩
  · refine Or.inl ⟨h3, h4, fun q h7 h8 => ?_⟩
    rcases Nat.lt_or_ge q j with h10 | h10
    · exact h11 q h7 h10
    · exact h5 q h10 h8
  · refine Or.inr ⟨h3, by dsimp only; omega, h12, h13, fun q h7 h8 h9 => ?_, fun q h7 h8 h9 => ?_⟩
    · rcases Nat.lt_or_ge q j with h10 | h10
      · exact h11 q h7 h10 h9
      · rw [h5 q h10 h8] at h9; cases h9
    · rcases Nat.lt_or_ge q j with h10 | h10
      · exact h14 q h7 h10 h9
      · rw [h5 q h10 h8] at h9; cases h9

theorem rmqOpenBits_ok {beg end_ : Nat} : ∀ k j s, beg ≤ j → j + k ≤ end_ → RmqOpenOk (bitAt mem) beg end_ j s → j + k ≤ 64 * mem.length →
    ∃ s', rmqOpenBits mem k j s = some s' ∧ RmqOpenOk (bitAt mem) beg end_ (j + k) s'
  | 0, _, s, _, _, h, _ => ⟨s, rfl, h⟩
  | k + 1, j, s, hb, he, h, hl => by
    have key : ∀ s1, RmqOpenOk (bitAt mem) beg end_ (j + 1) s1 → ∃ s', rmqOpenBits mem k (j + 1) s1 = some s' ∧ RmqOpenOk (bitAt mem) beg end_ (j + (k + 1)) s' := fun s1 hs => by
      rw [show j + (k + 1) = j + 1 + k by omega]
      exact rmqOpenBits_ok k (j + 1) s1 (by omega) (by omega) hs (by omega)
    have h7 := exc_succ (bitAt mem) j
    have h1 := h.1
    rw [rmqOpenBits, bit_eq (by omega), sbind]
    rcases sgn_cases (bitAt mem j) with ⟨h8, h9⟩ | ⟨h8, h9⟩
    · rw [if_pos h8]
      have := h.extend (d := 1) (ex := s.ex + 1) (m := s.ex + 1) (p := j) (by omega) hb (by omega) (by omega) h8 (by omega) (by omega)
        (fun q h2 h3 _ => by obtain rfl : q = j := by omega
                             omega) (fun q h2 h3 _ => by omega)
      split
      · rename_i h2; rw [if_pos h2] at this; exact key _ this
      · rename_i h2; rw [if_neg h2] at this; exact key _ this
    · rw [if_neg (by rw [h8]; simp)]
      exact key _ (h.skip (d := 1) (by omega) (fun q h2 h3 => by obtain rfl : q = j := by omega
                                                                 exact h8))

theorem rmqOpenBytes_ok {beg end_ : Nat} : ∀ k j s, j % 8 = 0 → beg ≤ j → j + 8 * k ≤ end_ → RmqOpenOk (bitAt mem) beg end_ j s → j + 8 * k ≤ 64 * mem.length →
    ∃ s', rmqOpenBytes mem k j s = some s' ∧ RmqOpenOk (bitAt mem) beg end_ (j + 8 * k) s'
  | 0, _, s, _, _, _, h, _ => ⟨s, rfl, h⟩
  | k + 1, j, s, h8, hb, he, h, hl => by
    have key : ∀ s1, RmqOpenOk (bitAt mem) beg end_ (j + 8) s1 → ∃ s', rmqOpenBytes mem k (j + 8) s1 = some s' ∧ RmqOpenOk (bitAt mem) beg end_ (j + 8 * (k + 1)) s' := fun s1 hs => by
      rw [show j + 8 * (k + 1) = j + 8 + 8 * k by omega]
      exact rmqOpenBytes_ok k (j + 8) s1 (by omega) (by omega) (by omega) hs (by omega)
    obtain ⟨w, hw1, hw2, hw3⟩ := byte_eq (mem := mem) (j := j) (by omega) h8
    obtain ⟨t1, t2, t3⟩ := tab_open w hw2
    rw [byte_exc hw3 (Nat.le_refl 8)] at t1
    have h1 := h.1
    rw [rmqOpenBytes, hw1, sbind]
    dsimp only
    generalize hO : minOpenInfo w / 2 ^ 12 = ones at *
    generalize hM : ((minOpenInfo w % 256 : Nat) : Int) - 8 = m at *
    generalize hP : minOpenInfo w / 256 % 16 = p at *
    by_cases h0 : ones = 0
    · rw [if_neg (by rintro ⟨h, _⟩; exact h h0)]
      refine key _ (h.skip (d := 8) (by omega) (fun q h2 h3 => ?_))
      have := t2 h0 (q - j) (by omega)
      rwa [hw3 (q - j) (by omega), show j + (q - j) = q by omega] at this
    · obtain ⟨u1, u2, u3, u4, u5⟩ := t3 h0
      rw [hw3 p u1] at u2
      rw [byte_exc hw3 (by omega), ← Nat.add_assoc] at u3
      have := h.extend (d := 8) (ex := s.ex + (2 * (ones : Int) - 8)) (m := s.ex + m) (p := j + p) (by omega) hb (by omega) (by omega) u2 (by omega) (by omega)
        (fun q h2 h3 h4 => by
          have := u4 (q - j) (by omega) (by rw [hw3 (q - j) (by omega), show j + (q - j) = q by omega]; exact h4)
          rw [byte_exc hw3 (by omega), show j + (q - j + 1) = q + 1 by omega] at this
          omega)
        (fun q h2 h3 h4 => by
          have := u5 (q - j) (by omega) (by omega) (by rw [hw3 (q - j) (by omega), show j + (q - j) = q by omega]; exact h4)
          rw [byte_exc hw3 (by omega), show j + (q - j + 1) = q + 1 by omega] at this
          omega)
      by_cases h2 : s.ex + m ≤ s.min
      · rw [if_pos h2] at this
        rw [if_pos ⟨h0, h2⟩]
        exact key _ this
      · rw [if_neg h2] at this
        rw [if_neg (fun h => h2 h.2)]
        exact key _ this

/-- The result is the last opening parenthesis with minimal excess, if its excess is at most that at the end of the interval. -/
theorem nearRmqOpen_ok {beg end_ : Nat} (hlr : beg ≤ end_) (hl : end_ ≤ 64 * mem.length) :
    ∃ s, nearRmqOpen mem beg end_ = some (if s.min ≤ s.ex then s.pos else end_) ∧ RmqOpenOk (bitAt mem) beg end_ end_ s := by
  rw [nearRmqOpen]
  generalize hL : (beg + 7) / 8 * 8 = l
  generalize hR : end_ / 8 * 8 = r
  have h0 : RmqOpenOk (bitAt mem) beg end_ beg ⟨0, (end_ : Int) - beg + 1, end_⟩ := ⟨by dsimp only; omega, Or.inl ⟨rfl, rfl, fun q h1 h2 => by omega⟩⟩
  obtain ⟨s1, h1, h2⟩ := rmqOpenBits_ok (min end_ l - beg) beg _ (Nat.le_refl _) (by omega) h0 (by omega)
  rw [h1, sbind]
  rw [show beg + (min end_ l - beg) = min end_ l by omega] at h2
  rcases Nat.lt_or_ge end_ l with h3 | h3
  · rw [show (r - l) / 8 = 0 by omega, rmqOpenBytes, sbind, show end_ - max r l = 0 by omega, rmqOpenBits, sbind]
    rw [show min end_ l = end_ by omega] at h2
    exact ⟨s1, by split <;> rfl, h2⟩
  · rw [show min end_ l = l by omega] at h2
    obtain ⟨s2, h4, h5⟩ := rmqOpenBytes_ok ((r - l) / 8) l s1 (by omega) (by omega) (by omega) h2 (by omega)
    rw [h4, sbind, show max r l = r by omega]
    rw [show l + 8 * ((r - l) / 8) = r by omega] at h5
    obtain ⟨s3, h6, h7⟩ := rmqOpenBits_ok (end_ - r) r s2 (by omega) (by omega) h5 (by omega)
    rw [h6, sbind]
    rw [show r + (end_ - r) = end_ by omega] at h7
    exact ⟨s3, by split <;> rfl, h7⟩

/-! ### near_enclose -/

theorem encloseLoop_no {i bs : Nat} (hi : i + bs < 2 ^ 63) (hbs : 0 < bs) : ∀ (j c : Nat), j ≤ i → (c : Int) = (1 + exc (bitAt mem) i - exc (bitAt mem) j) % 2 ^ 64 →
    NoHitL (bitAt mem) (exc (bitAt mem) i - 1) (i + 1 - bs) j → i ≤ 64 * mem.length → encloseLoop mem i bs j c = some none
  | 0, _, _, _, _, _ => rfl
  | j + 1, c, hj, hc, hn, hl => by
    rw [encloseLoop]
    by_cases h1 : (j + 1 + bs + (2 ^ 64 - 1)) % 2 ^ 64 > i
    · rw [if_pos h1, bit_eq (by omega), sbind]
      have h2 := exc_succ (bitAt mem) j
      have h3 := hn j (by omega) (by omega)
      have h4 := exc_bounds (bitAt mem) j (i - j)
      rw [show j + (i - j) = i by omega] at h4
      have h5 := exc_bounds (bitAt mem) (j + 1) (i - (j + 1))
      rw [show j + 1 + (i - (j + 1)) = i by omega] at h5
      have ih := fun c h => encloseLoop_no hi hbs j c (by omega) h (hn.left (by omega)) hl
      rcases sgn_cases (bitAt mem j) with ⟨h8, h9⟩ | ⟨h8, h9⟩
      · rw [if_pos h8, if_neg (by omega)]
        exact ih _ (by omega)
      · rw [if_neg (by rw [h8]; simp)]
        exact ih _ (by omega)
    · rw [if_neg h1]

theorem encloseLoop_last {i bs p : Nat} (hi : i + bs < 2 ^ 63) (hbs : 0 < bs) : ∀ (j c : Nat), j ≤ i → (c : Int) = (1 + exc (bitAt mem) i - exc (bitAt mem) j) % 2 ^ 64 →
    exc (bitAt mem) i ≤ exc (bitAt mem) j →
    LastHit (bitAt mem) (exc (bitAt mem) i - 1) (i + 1 - bs) j p → i ≤ 64 * mem.length → encloseLoop mem i bs j c = some (some p)
  | 0, _, _, _, _, h, _ => by have := h.1; have := h.2.1; omega
  | j + 1, c, hj, hc, ha, h, hl => by
    have hp1 := h.1
    have hp2 := h.2.1
    have hp3 := h.2.2.1
    rw [encloseLoop]
    rw [if_pos (by omega), bit_eq (by omega), sbind]
    have h2 := exc_succ (bitAt mem) j
    have h4 := exc_bounds (bitAt mem) j (i - j)
    rw [show j + (i - j) = i by omega] at h4
    have h5 := exc_bounds (bitAt mem) (j + 1) (i - (j + 1))
    rw [show j + 1 + (i - (j + 1)) = i by omega] at h5
    rcases sgn_cases (bitAt mem j) with ⟨h8, h9⟩ | ⟨h8, h9⟩
    · rw [if_pos h8]
      by_cases e : p = j
      · rw [e] at hp3 ⊢
        rw [if_pos (by omega)]
      · have h3 := h.2.2.2 j (by omega) (by omega)
        rw [if_neg (by omega)]
        exact encloseLoop_last hi hbs j _ (by omega) (by omega) (by omega) (h.left (by omega) (by omega)) hl
    · rw [if_neg (by rw [h8]; simp)]
      by_cases e : p = j
      · rw [e] at hp3; omega
      · exact encloseLoop_last hi hbs j _ (by omega) (by omega) (by omega) (h.left (by omega) (by omega)) hl

end Sdsl.Bp
