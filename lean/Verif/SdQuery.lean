/-
  The queries of `sd_vector` and its construction from a bit vector.
-/
import Verif.SdLemmas

namespace Sdsl.Sd

open Sdsl.Spec Sdsl.Bits

theorem divmod_le {x i W : Nat} (h : x / W = i / W) : (x % W ≤ i % W ↔ x ≤ i) ∧ (x % W = i % W ↔ x = i) := by
  have h1 := Nat.div_add_mod x W
  have h2 := Nat.div_add_mod i W
  rw [h] at h1
  generalize W * (i / W) = k at h1 h2
  constructor <;> omega

theorem getLsbD_one_shl {d k : Nat} (hk : k < 64) : (1#64 <<< d).getLsbD k = decide (k = d) := by
  rw [BitVec.getLsbD_shiftLeft, BitVec.getLsbD_one]
  rcases Nat.lt_trichotomy k d with h | h | h
  · simp [h]; omega
  · subst h; simp [hk]
  · have h1 : ¬ k < d := by omega
    have h2 : k - d ≠ 0 := by omega
    have h3 : k ≠ d := by omega
    simp [h2, h3]

theorem lt_of_div_lt {x i W : Nat} (h : x / W < i / W) : x < i := by
  rcases Nat.lt_or_ge x i with h1 | h1
  · exact h1
  · have := Nat.div_le_div_right (c := W) h1
    omega

section
variable {xs : List Nat} {n : Nat} {b : Sd} (h : Ok xs n b) (hp : xs.Pairwise (· < ·))

theorem X_mono_le (hp : xs.Pairwise (· < ·)) {i j : Nat} (hij : i ≤ j) (hj : j < xs.length) : X xs i ≤ X xs j := by
  rcases Nat.eq_or_lt_of_le hij with e | e
  · rw [e]; exact Nat.le_refl _
  · exact Nat.le_of_lt (X_mono hp e hj)

include hp h in
/-- The first scan of `operator[]` and `get_int`: it stops at the positions `≤ i`. -/
theorem scanDown_ok {i : Nat} (hi : i ≤ n) : ∀ (s c : Nat), State xs (2 ^ b.wl) (i / 2 ^ b.wl) c →
    s + 1 = i / 2 ^ b.wl + c → (∀ j, c ≤ j → j < xs.length → i < X xs j) →
    (scanDown b (i % 2 ^ b.wl) s (sub64 c 1) = some none ∧ ∀ j, j < xs.length → i < X xs j) ∨
    ∃ s' c', scanDown b (i % 2 ^ b.wl) s (sub64 c 1) = some (some (s', sub64 c' 1)) ∧ s' + 1 = i / 2 ^ b.wl + c' ∧
      State xs (2 ^ b.wl) (i / 2 ^ b.wl) c' ∧ (∀ j, c' ≤ j → j < xs.length → i < X xs j) ∧ (∀ j, j < c' → X xs j ≤ i) := by
  have hW : 0 < 2 ^ b.wl := Nat.pow_pos (by decide)
  have hh : i / 2 ^ b.wl ≤ n / 2 ^ b.wl := Nat.div_le_div_right hi
  have hnn := Nat.zero_le (i / 2 ^ b.wl)
  -- what the look at position `s` tells
  have stop : ∀ c, State xs (2 ^ b.wl) (i / 2 ^ b.wl) c →
      ¬ (1 ≤ c ∧ X xs (c - 1) / 2 ^ b.wl = i / 2 ^ b.wl) → ∀ j, j < c → X xs j ≤ i := by
    intro c hs hn j hj
    have h1 : X xs (c - 1) / 2 ^ b.wl ≤ i / 2 ^ b.wl := hs.lo (c - 1) (by omega)
    have h2 : X xs (c - 1) / 2 ^ b.wl < i / 2 ^ b.wl := by
      rcases Nat.lt_or_ge (X xs (c - 1) / 2 ^ b.wl) (i / 2 ^ b.wl) with h3 | h3
      · exact h3
      · exact absurd ⟨by omega, by omega⟩ hn
    have h3 := lt_of_div_lt h2
    have h4 := X_mono_le hp (show j ≤ c - 1 by omega) (by have := hs.le; omega)
    omega
  have stop2 : ∀ c, State xs (2 ^ b.wl) (i / 2 ^ b.wl) c → 1 ≤ c → X xs (c - 1) ≤ i → ∀ j, j < c → X xs j ≤ i := by
    intro c hs h1 h2 j hj
    have h4 := X_mono_le hp (show j ≤ c - 1 by omega) (by have := hs.le; omega)
    omega
  intro s
  induction s with
  | zero =>
    intro c hs he hgt
    have hpk := peek_ok h hs hh he
    simp only [scanDown]
    rw [hpk, sbind]
    by_cases hc : 1 ≤ c ∧ X xs (c - 1) / 2 ^ b.wl = i / 2 ^ b.wl
    · rw [if_pos hc]
      dsimp only
      by_cases hv : X xs (c - 1) % 2 ^ b.wl > i % 2 ^ b.wl
      · rw [if_pos hv]
        refine Or.inl ⟨rfl, fun j hj => ?_⟩
        have h1 := (divmod_le hc.2).1
        rcases Nat.lt_or_ge j c with h2 | h2
        · have : j = c - 1 := by omega
          subst this; omega
        · exact hgt j h2 hj
      · rw [if_neg hv]
        have h1 := (divmod_le hc.2).1
        exact Or.inr ⟨0, c, rfl, he, hs, hgt, stop2 c hs hc.1 (by omega)⟩
    · rw [if_neg hc]
      exact Or.inr ⟨0, c, rfl, he, hs, hgt, stop c hs hc⟩
  | succ s ih =>
    intro c hs he hgt
    have hpk := peek_ok h hs hh he
    simp only [scanDown]
    rw [hpk, sbind]
    by_cases hc : 1 ≤ c ∧ X xs (c - 1) / 2 ^ b.wl = i / 2 ^ b.wl
    · rw [if_pos hc]
      dsimp only
      have h1 := (divmod_le hc.2).1
      by_cases hv : X xs (c - 1) % 2 ^ b.wl > i % 2 ^ b.wl
      · rw [if_pos hv]
        have hcl := hs.le
        obtain ⟨z, z1, z2, z3⟩ := h.z
        rw [sub64_of_le hc.1 (by omega)]
        refine ih (c - 1) ⟨by omega, fun j hj => hs.lo j (by omega), fun j hj1 hj2 => ?_⟩ (by omega) (fun j hj1 hj2 => ?_)
        · rcases Nat.lt_or_ge j c with h2 | h2
          · have : j = c - 1 := by omega
            subst this; omega
          · exact hs.hi j h2 hj2
        · rcases Nat.lt_or_ge j c with h2 | h2
          · have : j = c - 1 := by omega
            subst this; omega
          · exact hgt j h2 hj2
      · rw [if_neg hv]
        exact Or.inr ⟨s + 1, c, rfl, he, hs, hgt, stop2 c hs hc.1 (by omega)⟩
    · rw [if_neg hc]
      exact Or.inr ⟨s + 1, c, rfl, he, hs, hgt, stop c hs hc⟩

theorem Cut.state {W hv c : Nat} (hc : Cut xs.length (fun j => X xs j / W ≤ hv) c) : State xs W hv c :=
  ⟨hc.le, hc.lo, fun j h1 h2 => Nat.le_of_not_le (fun h => hc.hi j h1 h2 h)⟩

theorem Cut.gt {i W c : Nat} (hc : Cut xs.length (fun j => X xs j / W ≤ i / W) c) (j : Nat) (h1 : c ≤ j) (h2 : j < xs.length) :
    i < X xs j := lt_of_div_lt (W := W) (Nat.lt_of_not_le (fun h => hc.hi j h1 h2 h))

include hp h in
theorem access_ok (hn : n < 2 ^ 64) {i : Nat} (hi : i < n) : access b i = some (decide (i ∈ xs)) := by
  have hW : 0 < 2 ^ b.wl := Nat.pow_pos (by decide)
  obtain ⟨z, z1, z2, z3⟩ := h.z
  obtain ⟨c, hc, es⟩ := sel0_ok h hp (hv := i / 2 ^ b.wl) (Nat.div_le_div_right (Nat.le_of_lt hi))
  have hcl := hc.le
  have hdi : i / 2 ^ b.wl ≤ n / 2 ^ b.wl := Nat.div_le_div_right (Nat.le_of_lt hi)
  have hnn := Nat.zero_le (i / 2 ^ b.wl)
  have hmem : (∀ j, j < xs.length → X xs j ≠ i) → decide (i ∈ xs) = false := by
    intro hh
    rw [decide_eq_false_iff_not, mem_iff_X]
    rintro ⟨j, hj, e⟩; exact hh j hj e
  unfold access
  rw [shr64_of_lt h.wl, sbind, es, sbind]
  dsimp only
  rw [sub64_of_le (by omega) (by omega), Nat.add_sub_cancel_left]
  by_cases h0 : c = 0
  · rw [if_pos h0, hmem (fun j hj => Nat.ne_of_gt (hc.gt j (by omega) hj))]; rfl
  · rw [if_neg h0, lowPart_ok h.wl (by omega), sbind]
    have esub : c - 1 = sub64 c 1 := (sub64_of_le (by omega) (by omega)).symm
    rw [esub]
    rcases scanDown_ok h hp (Nat.le_of_lt hi) (i / 2 ^ b.wl + c - 1) c hc.state (by omega) hc.gt with ⟨e, hgt⟩ | ⟨s', c', e, e2, hs, hgt, hle⟩
    · rw [e, sbind, hmem (fun j hj => Nat.ne_of_gt (hgt j hj))]; rfl
    · rw [e, sbind]
      simp only [accessEnd]
      rw [peek_ok h hs hdi e2, sbind]
      by_cases hc' : 1 ≤ c' ∧ X xs (c' - 1) / 2 ^ b.wl = i / 2 ^ b.wl
      · rw [if_pos hc']
        have hcl' := hs.le
        have h1 := (divmod_le hc'.2).2
        show some _ = some _
        refine congrArg some ?_
        rw [decide_eq_decide, h1, mem_iff_X]
        constructor
        · intro e; exact ⟨c' - 1, by omega, e⟩
        · rintro ⟨j, hj, e⟩
          rcases Nat.lt_or_ge j c' with h2 | h2
          · have h3 := X_mono_le hp (show j ≤ c' - 1 by omega) (by omega)
            have := hle (c' - 1) (by omega)
            omega
          · have := hgt j h2 hj; omega
      · rw [if_neg hc']
        rw [hmem ?_]
        · rfl
        intro j hj e
        rcases Nat.lt_or_ge j c' with h2 | h2
        · have h3 := X_mono_le hp (show j ≤ c' - 1 by omega) (by have := hs.le; omega)
          have h4 := hle (c' - 1) (by omega)
          have : X xs (c' - 1) = i := by omega
          exact hc' ⟨by omega, by rw [this]⟩
        · have := hgt j h2 hj; omega


include hp h in
theorem intLoop_ok (hx : ∀ x, x ∈ xs → x < n) (hn : n < 2 ^ 64) {idx : Nat} : ∀ (s hv c : Nat) (res : Word), hv ≤ n / 2 ^ b.wl →
    State xs (2 ^ b.wl) hv c → s + 1 = hv + c → (∀ j, j < c → X xs j < idx + 64) →
    ∃ w, intLoop b idx s hv (sub64 c 1) res = some w ∧
      ∀ k, k < 64 → (w.getLsbD k = true ↔ res.getLsbD k = true ∨ ∃ j, j < c ∧ X xs j = idx + k) := by
  have hW : 0 < 2 ^ b.wl := Nat.pow_pos (by decide)
  obtain ⟨z, z1, z2, z3⟩ := h.z
  have hnn := Nat.zero_le (n / 2 ^ b.wl)
  intro s
  induction s with
  | zero =>
    intro hv c res hh hs he hlt
    have hcl := hs.le
    have hmul : hv * 2 ^ b.wl ≤ n := Nat.le_trans (Nat.mul_le_mul_right _ hh) (Nat.div_mul_le_self _ _)
    rw [intLoop, peek_ok h hs hh he, sbind]
    by_cases hc : 1 ≤ c ∧ X xs (c - 1) / 2 ^ b.wl = hv
    · rw [if_pos hc]
      dsimp only
      rw [shl64_of_lt h.wl (by omega), sbind]
      have hval : add64 (hv * 2 ^ b.wl) (X xs (c - 1) % 2 ^ b.wl) = X xs (c - 1) := by
        have h1 := Nat.div_add_mod (X xs (c - 1)) (2 ^ b.wl)
        rw [hc.2, Nat.mul_comm] at h1
        have h2 := hx _ (X_mem (show c - 1 < xs.length by omega))
        unfold add64
        rw [h1]
        exact Nat.mod_eq_of_lt (by omega)
      rw [hval]
      by_cases hv2 : X xs (c - 1) ≥ idx
      · rw [if_pos hv2, shl_of_lt (by have := hlt (c - 1) (by omega); omega), sbind]
        refine ⟨_, rfl, fun k hk => ?_⟩
        rw [BitVec.getLsbD_or, getLsbD_one_shl hk, Bool.or_eq_true, decide_eq_true_iff]
        refine or_congr Iff.rfl ?_
        constructor
        · intro e; exact ⟨c - 1, by omega, by omega⟩
        · rintro ⟨j, hj, e⟩
          have : j = c - 1 := by omega
          subst this; omega
      · rw [if_neg hv2]
        refine ⟨_, rfl, fun k hk => ⟨Or.inl, ?_⟩⟩
        rintro (h1 | ⟨j, hj, e⟩)
        · exact h1
        · have : j = c - 1 := by omega
          subst this; omega
    · rw [if_neg hc]
      dsimp only
      rw [shl64_of_lt h.wl (by omega), sbind, if_neg (by omega)]
      refine ⟨_, rfl, fun k hk => ⟨Or.inl, ?_⟩⟩
      rintro (h1 | ⟨j, hj, e⟩)
      · exact h1
      · exfalso
        have h1 := hs.lo j hj
        have : j = c - 1 := by omega
        subst this
        have hnn2 := Nat.zero_le (X xs (c - 1) / 2 ^ b.wl)
        exact hc ⟨by omega, by omega⟩
  | succ s ih =>
    intro hv c res hh hs he hlt
    have hcl := hs.le
    have hmul : hv * 2 ^ b.wl ≤ n := Nat.le_trans (Nat.mul_le_mul_right _ hh) (Nat.div_mul_le_self _ _)
    rw [intLoop, peek_ok h hs hh he, sbind]
    by_cases hc : 1 ≤ c ∧ X xs (c - 1) / 2 ^ b.wl = hv
    · rw [if_pos hc]
      dsimp only
      rw [shl64_of_lt h.wl (by omega), sbind]
      have hval : add64 (hv * 2 ^ b.wl) (X xs (c - 1) % 2 ^ b.wl) = X xs (c - 1) := by
        have h1 := Nat.div_add_mod (X xs (c - 1)) (2 ^ b.wl)
        rw [hc.2, Nat.mul_comm] at h1
        have h2 := hx _ (X_mem (show c - 1 < xs.length by omega))
        unfold add64
        rw [h1]
        exact Nat.mod_eq_of_lt (by omega)
      rw [hval]
      by_cases hv2 : X xs (c - 1) ≥ idx
      · rw [if_pos hv2, shl_of_lt (by have := hlt (c - 1) (by omega); omega), sbind]
        rw [sub64_of_le hc.1 (by omega)]
        obtain ⟨w, ew, hw⟩ := ih hv (c - 1) (res ||| 1#64 <<< (X xs (c - 1) - idx)) hh
          ⟨by omega, fun j hj => hs.lo j (by omega), fun j h1 h2 => by
            rcases Nat.lt_or_ge j c with h3 | h3
            · have : j = c - 1 := by omega
              subst this; omega
            · exact hs.hi j h3 h2⟩ (by omega) (fun j hj => hlt j (by omega))
        refine ⟨w, ew, fun k hk => ?_⟩
        rw [hw k hk, BitVec.getLsbD_or, getLsbD_one_shl hk, Bool.or_eq_true, decide_eq_true_iff, or_assoc]
        refine or_congr Iff.rfl ?_
        constructor
        · rintro (e | ⟨j, hj, e⟩)
          · exact ⟨c - 1, by omega, by omega⟩
          · exact ⟨j, by omega, e⟩
        · rintro ⟨j, hj, e⟩
          rcases Nat.lt_or_ge j (c - 1) with h3 | h3
          · exact Or.inr ⟨j, h3, e⟩
          · have : j = c - 1 := by omega
            subst this; exact Or.inl (by omega)
      · rw [if_neg hv2]
        refine ⟨_, rfl, fun k hk => ⟨Or.inl, ?_⟩⟩
        rintro (h1 | ⟨j, hj, e⟩)
        · exact h1
        · have := X_mono_le hp (show j ≤ c - 1 by omega) (by omega)
          omega
    · rw [if_neg hc]
      dsimp only
      rw [shl64_of_lt h.wl (by omega), sbind]
      have hpos : 1 ≤ hv := by
        rcases Nat.eq_zero_or_pos hv with e | e
        · exfalso
          have h1 := hs.lo (c - 1) (by omega)
          have hnn2 := Nat.zero_le (X xs (c - 1) / 2 ^ b.wl)
          exact hc ⟨by omega, by omega⟩
        · exact e
      have hlo : ∀ j, j < c → X xs j / 2 ^ b.wl ≤ hv - 1 := by
        intro j hj
        have h1 := hs.lo (c - 1) (by omega)
        have h2 : X xs (c - 1) / 2 ^ b.wl ≠ hv := fun e => hc ⟨by omega, e⟩
        have h3 := Nat.div_le_div_right (c := 2 ^ b.wl) (X_mono_le hp (show j ≤ c - 1 by omega) (by omega))
        omega
      by_cases hcond : s + 1 > 0 ∧ hv * 2 ^ b.wl ≥ idx
      · rw [if_pos hcond, sub64_of_le hpos (by omega)]
        exact ih (hv - 1) c res (by omega) ⟨hcl, hlo, fun j h1 h2 => by have := hs.hi j h1 h2; omega⟩ (by omega) hlt
      · rw [if_neg hcond]
        refine ⟨_, rfl, fun k hk => ⟨Or.inl, ?_⟩⟩
        rintro (h1 | ⟨j, hj, e⟩)
        · exact h1
        · exfalso
          have h2 := hlo j hj
          have h3 : X xs j < hv * 2 ^ b.wl := by
            rw [← Nat.div_lt_iff_lt_mul hW]; omega
          omega

include hp h in
theorem getInt_ok (hx : ∀ x, x ∈ xs → x < n) (hn : n < 2 ^ 64) {idx len : Nat} (h1 : 1 ≤ len) (h64 : len ≤ 64) (hi : idx + len ≤ n) :
    getInt b idx len = some (BitVec.ofNat 64 (bitsVal (fun k => decide (idx + k ∈ xs)) len)) := by
  obtain ⟨z, z1, z2, z3⟩ := h.z
  have ei : sub64 (add64 idx len) 1 = idx + len - 1 := by rw [add64_of_lt (by omega), sub64_of_le (by omega) (by omega)]
  obtain ⟨i, hi'⟩ : ∃ i, i = idx + len - 1 := ⟨_, rfl⟩
  have hile : i ≤ n := by omega
  have hdi : i / 2 ^ b.wl ≤ n / 2 ^ b.wl := Nat.div_le_div_right hile
  obtain ⟨c, hc, es⟩ := sel0_ok h hp (hv := i / 2 ^ b.wl) hdi
  have hcl := hc.le
  have hnn := Nat.zero_le (i / 2 ^ b.wl)
  -- from the bits of the result to the number
  have fin : ∀ w : Word, (∀ k, k < 64 → (w.getLsbD k = true ↔ ∃ j, j < xs.length ∧ X xs j ≤ i ∧ X xs j = idx + k)) →
      w = BitVec.ofNat 64 (bitsVal (fun k => decide (idx + k ∈ xs)) len) := by
    intro w hw
    apply BitVec.eq_of_getLsbD_eq
    intro k hk
    rw [BitVec.getLsbD_ofNat, testBit_bitsVal, Bool.eq_iff_iff, hw k hk]
    simp only [hk, decide_true, Bool.true_and, Bool.and_eq_true, decide_eq_true_iff, mem_iff_X]
    constructor
    · rintro ⟨j, hj, h2, h3⟩
      exact ⟨by omega, j, hj, h3⟩
    · rintro ⟨h2, j, hj, h3⟩
      exact ⟨j, hj, by omega, h3⟩
  have zero : (∀ j, j < xs.length → i < X xs j) → (0#64 : Word) = BitVec.ofNat 64 (bitsVal (fun k => decide (idx + k ∈ xs)) len) := by
    intro hgt
    refine fin _ (fun k hk => ?_)
    rw [BitVec.getLsbD_zero]
    constructor
    · intro h; cases h
    · rintro ⟨j, hj, h2, _⟩
      have := hgt j hj; omega
  unfold getInt
  dsimp only
  rw [ei, ← hi', shr64_of_lt h.wl, sbind, es, sbind]
  rw [sub64_of_le (by omega) (by omega), Nat.add_sub_cancel_left]
  by_cases h0 : c = 0
  · rw [if_pos h0]
    exact congrArg some (zero (fun j hj => hc.gt j (by omega) hj))
  · rw [if_neg h0, lowPart_ok h.wl (by omega), sbind]
    have esub : c - 1 = sub64 c 1 := (sub64_of_le (by omega) (by omega)).symm
    rw [esub]
    rcases scanDown_ok h hp hile (i / 2 ^ b.wl + c - 1) c hc.state (by omega) hc.gt with ⟨e, hgt⟩ | ⟨s', c', e, e2, hs, hgt, hle⟩
    · rw [e, sbind]
      exact congrArg some (zero hgt)
    · rw [e, sbind]
      simp only [getIntEnd]
      obtain ⟨w, ew, hw⟩ := intLoop_ok h hp hx hn (idx := idx) s' (i / 2 ^ b.wl) c' 0#64 hdi hs e2
        (fun j hj => by have := hle j hj; omega)
      rw [ew]
      refine congrArg some (fin w (fun k hk => ?_))
      rw [hw k hk, BitVec.getLsbD_zero]
      have hcl' := hs.le
      constructor
      · rintro (e | ⟨j, hj, e⟩)
        · cases e
        · exact ⟨j, by omega, hle j hj, e⟩
      · rintro ⟨j, hj, h2, e⟩
        refine Or.inr ⟨j, ?_, e⟩
        rcases Nat.lt_or_ge j c' with h3 | h3
        · exact h3
        · have := hgt j h3 hj; omega

include hp h in
theorem rankLoop_ok {i : Nat} (hi : i ≤ n) : ∀ (s c : Nat), State xs (2 ^ b.wl) (i / 2 ^ b.wl) c → s = i / 2 ^ b.wl + c →
    (∀ j, c ≤ j → j < xs.length → i ≤ X xs j) →
    ∃ c', rankLoop b (i % 2 ^ b.wl) s c = some c' ∧ Cut xs.length (fun j => X xs j < i) c' := by
  have hh : i / 2 ^ b.wl ≤ n / 2 ^ b.wl := Nat.div_le_div_right hi
  have hnn := Nat.zero_le (i / 2 ^ b.wl)
  obtain ⟨z, z1, z2, z3⟩ := h.z
  intro s
  induction s with
  | zero =>
    intro c hs he hge
    refine ⟨0, rfl, Nat.zero_le _, fun j hj => absurd hj (by omega), fun j _ hj => ?_⟩
    have := hge j (by omega) hj
    omega
  | succ s ih =>
    intro c hs he hge
    have hcl := hs.le
    simp only [rankLoop]
    rw [peek_ok h hs hh (by omega), sbind]
    have back : add64 (sub64 c 1) 1 = c := by
      unfold add64 sub64; omega
    by_cases hc : 1 ≤ c ∧ X xs (c - 1) / 2 ^ b.wl = i / 2 ^ b.wl
    · rw [if_pos hc]
      dsimp only
      have h1 := (divmod_le hc.2).1
      have h1' := (divmod_le hc.2).2
      by_cases hv : X xs (c - 1) % 2 ^ b.wl ≥ i % 2 ^ b.wl
      · rw [if_pos hv, sub64_of_le hc.1 (by omega)]
        have hge' : ∀ j, c - 1 ≤ j → j < xs.length → i ≤ X xs j := by
          intro j hj1 hj2
          rcases Nat.lt_or_ge j c with h2 | h2
          · have : j = c - 1 := by omega
            subst this; omega
          · exact hge j h2 hj2
        exact ih (c - 1) ⟨by omega, fun j hj => hs.lo j (by omega), fun j hj1 hj2 => Nat.div_le_div_right (hge' j hj1 hj2)⟩ (by omega) hge'
      · rw [if_neg hv]
        refine ⟨c, by rw [back]; rfl, hcl, fun j hj => ?_, fun j hj1 hj2 => ?_⟩
        · have := X_mono_le hp (show j ≤ c - 1 by omega) (by omega)
          show X xs j < i
          omega
        · have := hge j hj1 hj2; omega
    · rw [if_neg hc]
      refine ⟨c, by dsimp only; rw [back]; rfl, hcl, fun j hj => ?_, fun j hj1 hj2 => ?_⟩
      · have h2 := hs.lo (c - 1) (by omega)
        have h3 : X xs (c - 1) / 2 ^ b.wl ≠ i / 2 ^ b.wl := fun e => hc ⟨by omega, e⟩
        have h4 := X_mono_le hp (show j ≤ c - 1 by omega) (by omega)
        have h5 := lt_of_div_lt (show X xs (c - 1) / 2 ^ b.wl < i / 2 ^ b.wl by omega)
        show X xs j < i
        omega
      · have := hge j hj1 hj2; omega

include hp in
theorem count_mem {i c : Nat} (hc : Cut xs.length (fun j => X xs j < i) c) : countTrue (fun p => decide (p ∈ xs)) i = c :=
  count_cut (P := X xs) (m := xs.length) (fun i j hij hj => X_mono hp hij hj)
    (fun p => by rw [decide_eq_true_iff, mem_iff_X]) i c hc

theorem count_tb (f : Nat → Bool) (i : Nat) (tb : Bool) :
    countTrue (fun p => f p == tb) i = if tb then countTrue f i else i - countTrue f i := by
  cases tb
  · rw [if_neg (by decide)]
    have := countTrue_not f i
    have e : countTrue (fun p => f p == false) i = countTrue (fun q => !(f q)) i :=
      countTrue_congr (fun q _ => by cases f q <;> rfl)
    have := countTrue_le f i
    omega
  · rw [if_pos rfl]
    exact countTrue_congr (fun q _ => by cases f q <;> rfl)

include hp h in
theorem rank_ok (hn : n < 2 ^ 64) (tb : Bool) {i : Nat} (hi : i ≤ n) :
    rank tb b i = some (countTrue (fun p => decide (p ∈ xs) == tb) i) := by
  obtain ⟨z, z1, z2, z3⟩ := h.z
  have hdi : i / 2 ^ b.wl ≤ n / 2 ^ b.wl := Nat.div_le_div_right hi
  obtain ⟨c, hc, es⟩ := sel0_ok h hp (hv := i / 2 ^ b.wl) hdi
  have hcl := hc.le
  have hnn := Nat.zero_le (i / 2 ^ b.wl)
  have adj : ∀ c', Cut xs.length (fun j => X xs j < i) c' →
      (if tb then c' else sub64 i c') = countTrue (fun p => decide (p ∈ xs) == tb) i := by
    intro c' h1
    have := countTrue_le (fun p => decide (p ∈ xs)) i
    rw [count_tb, count_mem hp h1, sub64_of_le (by rw [count_mem hp h1] at this; exact this) (by omega)]
  unfold rank
  rw [shr64_of_lt h.wl, sbind, es, sbind]
  dsimp only
  rw [sub64_of_le (by omega) (by omega), Nat.add_sub_cancel_left]
  by_cases h0 : c = 0
  · rw [if_pos h0]
    exact congrArg some (adj 0 ⟨Nat.zero_le _, fun j hj => absurd hj (by omega), fun j _ hj => by have := hc.gt j (by omega) hj; omega⟩)
  · rw [if_neg h0, lowPart_ok h.wl (by omega), sbind]
    obtain ⟨c', e, hc'⟩ := rankLoop_ok h hp hi (i / 2 ^ b.wl + c) c hc.state rfl (fun j h1 h2 => Nat.le_of_lt (hc.gt j h1 h2))
    rw [e, sbind]
    exact congrArg some (adj c' hc')

include hp h in
theorem select1_ok (hx : ∀ x, x ∈ xs → x < n) (hn : n < 2 ^ 64) {i : Nat} (h1 : 1 ≤ i) (h2 : i ≤ xs.length) :
    select1 b i = some (X xs (i - 1)) := by
  obtain ⟨z, z1, z2, z3⟩ := h.z
  have hx1 := hx _ (X_mem (show i - 1 < xs.length by omega))
  have hdm := Nat.div_add_mod (X xs (i - 1)) (2 ^ b.wl)
  have hdx : X xs (i - 1) / 2 ^ b.wl ≤ n / 2 ^ b.wl := Nat.div_le_div_right (Nat.le_of_lt hx1)
  have hlow : b.low.get (sub64 i 1) = some (X xs (i - 1) % 2 ^ b.wl) := by
    unfold Arr.get
    rw [sub64_of_le h1 (by omega), h.low, List.getElem?_map, List.getElem?_eq_getElem (by omega), X_eq (by omega)]
    rfl
  have hsel : Bv.select true b.high i = some (X xs (i - 1) / 2 ^ b.wl + (i - 1)) := by
    have hcnt : Bv.cnt true b.high (X xs (i - 1) / 2 ^ b.wl + (i - 1)) = i - 1 := by
      unfold Bv.cnt
      refine count_cut (P := fun j => X xs j / 2 ^ b.wl + j) (m := xs.length) (fun i j hij hj => P_mono hp _ hij hj) ?_ _ _ ?_
      · intro p
        rw [← h.bits p]
        cases Bv.bit b.high p <;> simp
      · refine ⟨by omega, fun j hj => P_mono hp _ hj (by omega), fun j h3 h4 => ?_⟩
        rcases Nat.eq_or_lt_of_le h3 with e | e
        · rw [← e]; omega
        · have := P_mono hp (2 ^ b.wl) e h4; omega
    have := Bv.select_eq (tb := true) (B := b.high) (p := X xs (i - 1) / 2 ^ b.wl + (i - 1)) (by omega)
      ((h.bits _).2 ⟨i - 1, by omega, rfl⟩)
    rw [hcnt, show i - 1 + 1 = i by omega] at this
    exact this
  unfold select1
  have hnn := Nat.zero_le (X xs (i - 1) / 2 ^ b.wl)
  rw [hlow, sbind, hsel, sbind, add64_of_lt (by omega), sub64_of_le (by omega) (by omega)]
  have e : X xs (i - 1) / 2 ^ b.wl + (i - 1) + 1 - i = X xs (i - 1) / 2 ^ b.wl := by omega
  have hle := Nat.div_mul_le_self (X xs (i - 1)) (2 ^ b.wl)
  rw [e, shl64_of_lt h.wl (by omega), sbind, Nat.mul_comm, add64_of_lt (by omega), Nat.add_comm, hdm]
  rfl

include hp h in
theorem sel0Loop_ok (hx : ∀ x, x ∈ xs → x < n) (hn : n < 2 ^ 64) {i : Nat} (hi : i < 2 ^ 64) : ∀ (fuel lb rb pos r0 : Nat), rb - lb ≤ fuel → 1 ≤ lb → lb ≤ rb →
    rb ≤ xs.length + 1 → (∀ k, 1 ≤ k → k < lb → X xs (k - 1) + 1 - k < i) →
    (∀ k, rb ≤ k → k ≤ xs.length → i ≤ X xs (k - 1) + 1 - k) →
    (lb = 1 → pos = 2 ^ 64 - 1 ∧ r0 = 0) → (lb ≠ 1 → pos = X xs (lb - 2) ∧ r0 = X xs (lb - 2) + 1 - (lb - 1)) →
    ∃ lb' p, sel0Loop b i fuel lb rb pos r0 = some p ∧ 1 ≤ lb' ∧ lb' ≤ xs.length + 1 ∧
      (∀ k, 1 ≤ k → k < lb' → X xs (k - 1) + 1 - k < i) ∧
      (∀ k, lb' ≤ k → k ≤ xs.length → i ≤ X xs (k - 1) + 1 - k) ∧
      (lb' = 1 → p = (2 ^ 64 - 1, 0)) ∧ (lb' ≠ 1 → p = (X xs (lb' - 2), X xs (lb' - 2) + 1 - (lb' - 1))) := by
  have hge : ∀ j, j < xs.length → j ≤ X xs j := by
    intro j
    induction j with
    | zero => intro _; omega
    | succ j ih => intro hj; have := ih (by omega); have := X_mono hp (show j < j + 1 by omega) hj; omega
  have hgap : ∀ j k, j ≤ k → k < xs.length → X xs j - j ≤ X xs k - k := by
    intro j k hjk
    induction k with
    | zero => intro _; have : j = 0 := by omega
              subst this; omega
    | succ k ih =>
      intro hk
      rcases Nat.eq_or_lt_of_le hjk with e | e
      · rw [e]; omega
      · have := ih (by omega) (by omega)
        have := X_mono hp (show k < k + 1 by omega) hk
        omega
  intro fuel
  induction fuel with
  | zero =>
    intro lb rb pos r0 hf h1 h2 h3 hlo hhi e1 e2
    have : lb = rb := by omega
    subst this
    refine ⟨lb, (pos, r0), ?_, h1, h3, hlo, hhi, ?_, ?_⟩
    · simp only [sel0Loop]; rw [if_neg (by omega)]
    · intro h; obtain ⟨a, c⟩ := e1 h; rw [a, c]
    · intro h; obtain ⟨a, c⟩ := e2 h; rw [a, c]
  | succ fuel ih =>
    intro lb rb pos r0 hf h1 h2 h3 hlo hhi e1 e2
    simp only [sel0Loop]
    by_cases hlt : lb < rb
    · rw [if_pos hlt]
      obtain ⟨mid, hm⟩ : ∃ mid, mid = lb + (rb - lb) / 2 := ⟨_, rfl⟩
      rw [← hm]
      have hm1 : lb ≤ mid := by omega
      have hm2 : mid < rb := by omega
      have hxm := hx _ (X_mem (show mid - 1 < xs.length by omega))
      have hgm := hge (mid - 1) (by omega)
      rw [select1_ok h hp hx hn (by omega) (by omega), sbind, add64_of_lt (by omega), sub64_of_le (by omega) (by omega)]
      by_cases hr : X xs (mid - 1) + 1 - mid ≥ i
      · rw [if_pos hr]
        refine ih lb mid pos r0 (by omega) h1 hm1 (by omega) hlo ?_ e1 e2
        intro k hk1 hk2
        have := hgap (mid - 1) (k - 1) (by omega) (by omega)
        omega
      · rw [if_neg hr]
        refine ih (mid + 1) rb _ _ (by omega) (by omega) (by omega) h3 ?_ hhi ?_ ?_
        · intro k hk1 hk2
          have := hgap (k - 1) (mid - 1) (by omega) (by omega)
          omega
        · intro; omega
        · intro _
          rw [show mid + 1 - 2 = mid - 1 by omega, show mid + 1 - 1 = mid by omega]
          exact ⟨rfl, rfl⟩
    · rw [if_neg hlt]
      have : lb = rb := by omega
      subst this
      refine ⟨lb, (pos, r0), rfl, h1, h3, hlo, hhi, ?_, ?_⟩
      · intro h; obtain ⟨a, c⟩ := e1 h; rw [a, c]
      · intro h; obtain ⟨a, c⟩ := e2 h; rw [a, c]

include hp h in
theorem select0_ok (hx : ∀ x, x ∈ xs → x < n) (hn : n < 2 ^ 64) {i : Nat} (h1 : 1 ≤ i) (h2 : i + xs.length ≤ n) :
    ∃ p, select0 b i = some p ∧ IsSelect (fun p => decide (p ∈ xs) == false) n i p := by
  have hl : b.low.xs.length = xs.length := by rw [h.low, List.length_map]
  obtain ⟨lb, p, e, hlb1, hlb2, hlo, hhi, e1, e2⟩ := sel0Loop_ok h hp hx hn (i := i) (by omega) (xs.length + 1) 1 (xs.length + 1) (2 ^ 64 - 1) 0
    (by omega) (by omega) (by omega) (by omega) (fun k h3 h4 => by omega) (fun k h3 h4 => by omega) (fun _ => ⟨rfl, rfl⟩) (fun h => absurd rfl h)
  have hge : ∀ j, j < xs.length → j ≤ X xs j := by
    intro j
    induction j with
    | zero => intro _; omega
    | succ j ih => intro hj; have := ih (by omega); have := X_mono hp (show j < j + 1 by omega) hj; omega
  have hres : sub64 (add64 p.1 i) p.2 = i + lb - 2 := by
    by_cases hl1 : lb = 1
    · rw [e1 hl1, hl1]; unfold sub64 add64; dsimp only; omega
    · rw [e2 hl1]
      have h3 := hlo (lb - 1) (by omega) (by omega)
      have h4 := hge (lb - 2) (by omega)
      have h5 := hx _ (X_mem (show lb - 2 < xs.length by omega))
      rw [show lb - 1 - 1 = lb - 2 by omega] at h3
      unfold sub64 add64; dsimp only; omega
  refine ⟨i + lb - 2, ?_, ?_⟩
  · unfold select0
    dsimp only
    rw [hl, e, sbind, hres]; rfl
  · have hcut : Cut xs.length (fun j => X xs j < i + lb - 2) (lb - 1) := by
      refine ⟨by omega, fun j hj => ?_, fun j hj1 hj2 => ?_⟩
      · have h3 := hlo (j + 1) (by omega) (by omega)
        rw [Nat.add_sub_cancel] at h3
        have := hge j (by omega)
        show X xs j < _
        omega
      · have h3 := hhi (j + 1) (by omega) (by omega)
        rw [Nat.add_sub_cancel] at h3
        omega
    refine ⟨by omega, ?_, ?_⟩
    · show (decide _ == false) = true
      simp only [beq_false, Bool.not_eq_true', decide_eq_false_iff_not, mem_iff_X]
      rintro ⟨j, hj, e3⟩
      rcases Nat.lt_or_ge j (lb - 1) with h3 | h3
      · have := hcut.lo j h3; omega
      · have h4 := hhi (j + 1) (by omega) (by omega)
        rw [Nat.add_sub_cancel] at h4
        have := hge j (by omega)
        omega
    · rw [count_tb, count_mem hp hcut, if_neg (by decide)]; omega

include hp h in
theorem select_one_ok (hx : ∀ x, x ∈ xs → x < n) (hn : n < 2 ^ 64) {i : Nat} (h1 : 1 ≤ i) (h2 : i ≤ xs.length) :
    ∃ p, select1 b i = some p ∧ IsSelect (fun p => decide (p ∈ xs) == true) n i p := by
  refine ⟨_, select1_ok h hp hx hn h1 h2, hx _ (X_mem (by omega)), ?_, ?_⟩
  · simp [X_mem (show i - 1 < xs.length by omega)]
  · rw [count_tb, if_pos rfl, count_mem hp (c := i - 1)]
    · omega
    · refine ⟨by omega, fun j hj => X_mono hp hj (by omega), fun j h3 h4 => ?_⟩
      have := X_mono_le hp h3 h4
      omega

end

/-! ## Construction from a bit vector -/

/-- The positions `q` with `a ≤ q < e` where `f` holds, in increasing order. -/
def ones (f : Nat → Bool) (a e : Nat) : List Nat := (List.range' a (e - a)).filter f

theorem ones_nil {f : Nat → Bool} {a e : Nat} (h : ∀ q, a ≤ q → q < e → f q = false) : ones f a e = [] := by
  unfold ones
  rw [List.filter_eq_nil_iff]
  intro q hq
  rw [List.mem_range'_1] at hq
  rw [h q (by omega) (by omega)]; decide

theorem ones_split {f : Nat → Bool} {a k e : Nat} (h1 : a ≤ k) (h2 : k ≤ e) : ones f a e = ones f a k ++ ones f k e := by
  unfold ones
  rw [← List.filter_append]
  congr 1
  rw [show e - a = (k - a) + (e - k) by omega, ← List.range'_append_1]
  rw [show a + (k - a) = k by omega]

theorem ones_cons {f : Nat → Bool} {a k e : Nat} (h1 : a ≤ k) (h2 : k < e) (hf : f k = true) (h : ∀ q, a ≤ q → q < k → f q = false) :
    ones f a e = k :: ones f (k + 1) e := by
  rw [ones_split h1 (Nat.le_of_lt h2), ones_nil h, List.nil_append, ones_split (Nat.le_succ k) h2]
  have : ones f k (k + 1) = [k] := by
    unfold ones
    rw [show k + 1 - k = 1 by omega]
    simp [hf]
  rw [Nat.succ_eq_add_one, this]; rfl

theorem mem_ones {f : Nat → Bool} {a e q : Nat} : q ∈ ones f a e ↔ a ≤ q ∧ q < e ∧ f q = true := by
  unfold ones
  rw [List.mem_filter, List.mem_range'_1]
  constructor
  · rintro ⟨h1, h2⟩; exact ⟨by omega, by omega, h2⟩
  · rintro ⟨h1, h2, h3⟩; exact ⟨by omega, h3⟩

theorem ones_pairwise (f : Nat → Bool) (a e : Nat) : (ones f a e).Pairwise (· < ·) :=
  List.Pairwise.filter _ List.pairwise_lt_range'

theorem ones_length (f : Nat → Bool) (n : Nat) : (ones f 0 n).length = countTrue f n := by
  induction n with
  | zero => rfl
  | succ n ih =>
    rw [ones_split (Nat.zero_le n) (Nat.le_succ n), List.length_append, ih]
    show _ = countTrue f n + _
    congr 1
    unfold ones
    rw [show n.succ - n = 1 by omega]
    cases e : f n <;> simp [e]

theorem pushAll_append (wl : Nat) : ∀ (xs ys : List Nat) (s : St),
    pushAll wl s (xs ++ ys) = (pushAll wl s xs).bind (fun s => pushAll wl s ys)
  | [], _, _ => rfl
  | x :: xs, ys, s => by
    simp only [List.cons_append, pushAll]
    cases push wl s x with
    | none => rfl
    | some s1 => rw [sbind, sbind]; exact pushAll_append wl xs ys s1

theorem wordLoop_eq {size wl : Nat} {m : Mem} {i : Nat} : ∀ (fuel off : Nat) (w : Word) (s : St), off + fuel = 64 →
    (∀ k, k < fuel → w.getLsbD k = bitAt m (64 * i + off + k)) → (∀ k, fuel ≤ k → w.getLsbD k = false) →
    wordLoop size wl fuel (64 * i + off) w s =
      pushAll wl s (ones (fun q => decide (q < size) && bitAt m q) (64 * i + off) (64 * i + 64))
  | 0, off, w, s, hf, _, hz => by
    have : w = 0#64 := BitVec.eq_of_getLsbD_eq (fun k _ => by rw [hz k (Nat.zero_le _), BitVec.getLsbD_zero])
    rw [wordLoop, if_pos this, ones_nil (fun q h1 h2 => by omega)]; rfl
  | fuel + 1, off, w, s, hf, hb, hz => by
    rw [wordLoop]
    by_cases hw : w = 0#64
    · rw [if_pos hw, ones_nil ?_]
      · rfl
      intro q h1 h2
      have := hb (q - (64 * i + off)) (by omega)
      rw [hw, BitVec.getLsbD_zero, show 64 * i + off + (q - (64 * i + off)) = q by omega] at this
      rw [← this, Bool.and_false]
    · rw [if_neg hw]
      obtain ⟨p, ep, hp64, hp1, hp2⟩ := lo_isLo hw
      have hpf : p < fuel + 1 := by
        rcases Nat.lt_or_ge p (fuel + 1) with h | h
        · exact h
        · rw [hz p h] at hp1; cases hp1
      have hbp := hb p hpf
      rw [hp1] at hbp
      rw [ep, sbind, shr_of_lt hp64, sbind]
      dsimp only
      by_cases hs : 64 * i + off + p ≥ size
      · rw [if_pos hs, ones_nil ?_]
        · rfl
        intro q h1 h2
        by_cases hq : q < size
        · have := hb (q - (64 * i + off)) (by omega)
          rw [hp2 _ (by omega), show 64 * i + off + (q - (64 * i + off)) = q by omega] at this
          rw [← this, Bool.and_false]
        · rw [decide_eq_false hq, Bool.false_and]
      · rw [if_neg hs]
        rw [ones_cons (k := 64 * i + off + p) (by omega) (by omega) ?_ ?_]
        · rw [pushAll]
          cases hpush : push wl s (64 * i + off + p) with
          | none => rfl
          | some s1 =>
            rw [sbind, sbind]
            have hsh : w >>> p >>> 1 = w >>> (p + 1) := by rw [← BitVec.shiftRight_add]
            rw [hsh]
            have wl_more : ∀ (f1 f2 : Nat) (o : Nat) (w' : Word) (s' : St), f1 ≤ f2 → (∀ k, f1 ≤ k → w'.getLsbD k = false) →
                wordLoop size wl f2 o w' s' = wordLoop size wl f1 o w' s' := by
              intro f1
              induction f1 with
              | zero =>
                intro f2 o w' s' _ hz'
                have : w' = 0#64 := BitVec.eq_of_getLsbD_eq (fun k _ => by rw [hz' k (Nat.zero_le _), BitVec.getLsbD_zero])
                cases f2 <;> simp only [wordLoop, if_pos this]
              | succ f1 ih =>
                intro f2 o w' s' hle hz'
                cases f2 with
                | zero => omega
                | succ f2 =>
                  simp only [wordLoop]
                  by_cases h0 : w' = 0#64
                  · rw [if_pos h0, if_pos h0]
                  · rw [if_neg h0, if_neg h0]
                    cases hlo : lo w' with
                    | none => rfl
                    | some o1 =>
                      rw [sbind, sbind]
                      cases hsr : shr w' o1 with
                      | none => rfl
                      | some w2 =>
                        rw [sbind, sbind]
                        by_cases hge : o + o1 ≥ size
                        · rw [if_pos hge, if_pos hge]
                        · rw [if_neg hge, if_neg hge]
                          cases push wl s' (o + o1) with
                          | none => rfl
                          | some s2 =>
                            rw [sbind, sbind]
                            refine ih f2 _ _ _ (by omega) (fun k hk => ?_)
                            have : w2 = w' >>> o1 := by
                              unfold shr at hsr
                              split at hsr
                              · exact (Option.some.inj hsr).symm
                              · cases hsr
                            rw [this, ← BitVec.shiftRight_add, BitVec.getLsbD_ushiftRight]
                            exact hz' _ (by omega)
            rw [wl_more (fuel - p) fuel _ _ _ (by omega) (fun k hk => by
              rw [BitVec.getLsbD_ushiftRight]; exact hz _ (by omega))]
            have := wordLoop_eq (size := size) (wl := wl) (m := m) (i := i) (fuel - p) (off + p + 1) (w >>> (p + 1)) s1 (by omega)
              (fun k hk => by
                rw [BitVec.getLsbD_ushiftRight, hb _ (by omega)]
                congr 1; omega)
              (fun k hk => by rw [BitVec.getLsbD_ushiftRight]; exact hz _ (by omega))
            rw [show 64 * i + (off + p + 1) = 64 * i + off + p + 1 by omega] at this
            exact this
        · rw [← hbp, decide_eq_true (by omega)]; rfl
        · intro q h1 h2
          have := hb (q - (64 * i + off)) (by omega)
          rw [hp2 _ (by omega), show 64 * i + off + (q - (64 * i + off)) = q by omega] at this
          rw [← this, Bool.and_false]
termination_by fuel => fuel
decreasing_by omega

theorem bvLoop_eq {size wl : Nat} {m : Mem} : ∀ (k i : Nat) (s : St), i + k ≤ m.length →
    bvLoop size wl m i k s = pushAll wl s (ones (fun q => decide (q < size) && bitAt m q) (64 * i) (64 * (i + k)))
  | 0, i, s, _ => by
    rw [bvLoop, ones_nil (fun q h1 h2 => by omega)]; rfl
  | k + 1, i, s, h => by
    rw [bvLoop, ld_of_lt (by omega), sbind]
    have := wordLoop_eq (size := size) (wl := wl) (m := m) (i := i) 64 0 m[i] s (by omega)
      (fun k hk => by rw [Nat.add_zero, bitAt_mul_add hk (by omega)]) (fun k hk => BitVec.getLsbD_of_ge _ _ hk)
    rw [Nat.add_zero] at this
    rw [this, ones_split (a := 64 * i) (k := 64 * i + 64) (e := 64 * (i + (k + 1))) (by omega) (by omega), pushAll_append]
    cases pushAll wl s (ones (fun q => decide (q < size) && bitAt m q) (64 * i) (64 * i + 64)) with
    | none => rfl
    | some s1 =>
      rw [sbind, Option.bind_some, bvLoop_eq k (i + 1) s1 (by omega)]
      rw [show 64 * (i + 1) = 64 * i + 64 by omega, show i + 1 + k = i + (k + 1) by omega]

theorem ofBitVector_ok {v : IntVec} (hf : (v.size + 63) / 64 ≤ v.data.length) (hs : v.size < 2 ^ 62) :
    ∃ b, ofBitVector v = some b ∧ Ok (ones (bitAt v.data) 0 v.size) v.size b := by
  have e : ones (fun q => decide (q < v.size) && bitAt v.data q) (64 * 0) (64 * (0 + (v.size + 63) / 64)) = ones (bitAt v.data) 0 v.size := by
    rw [ones_split (k := v.size) (by omega) (by omega), ones_nil (a := v.size) (fun q h1 _ => by
      rw [decide_eq_false (by omega), Bool.false_and]), List.append_nil]
    unfold ones
    refine List.filter_congr (fun q hq => ?_)
    rw [List.mem_range'_1] at hq
    rw [decide_eq_true (by omega), Bool.true_and]
  have hlen := ones_length (bitAt v.data) v.size
  have hc := countTrue_le (bitAt v.data) v.size
  obtain ⟨logm, wl, s0, s, e1, e2, e3, _, hok⟩ := build_ok (k := 8) (n := v.size) (xs := ones (bitAt v.data) 0 v.size) (by omega) (by omega)
    (ones_pairwise _ _ _) (fun x hx => (mem_ones.1 hx).2.1) (by omega)
  rw [hlen] at e1 e2
  refine ⟨_, ?_, hok⟩
  unfold ofBitVector
  rw [Util.cntOneBits_eq hf, sbind, e1, sbind]
  dsimp only
  rw [e2, sbind, bvLoop_eq _ _ _ (by omega), e, e3, sbind]
  rfl

end Sdsl.Sd
