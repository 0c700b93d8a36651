/-
  Properties of `select_0_support_sd` (C86).
-/
import Verif.SdSel0Build
import Verif.Props.SdVector

namespace Sdsl.Props

open Sdsl Sdsl.Spec Sdsl.Bits Sdsl.IntVec

/-- `b` is an sd_vector of `n` bits with its ones at the positions `xs`, built by one of the three constructors. -/
def SdFrom (xs : List Nat) (n : Nat) (b : Sd.Sd) : Prop :=
  xs.Pairwise (· < ·) ∧ (∀ x, x ∈ xs → x < n) ∧ xs.length < 2 ^ 62 ∧
  ((∃ v : IntVec, v.WF ∧ v.size = n ∧ n < 2 ^ 62 ∧ (∀ p, p < n → (p ∈ xs ↔ bitAt v.data p = true)) ∧ Sd.ofBitVector v = some b) ∨
    (n < 2 ^ 64 ∧ xs.getLast?.map (· + 1) = some n ∧ Sd.ofSorted xs = some (.ok b)) ∨
    (n < 2 ^ 64 ∧ ∃ b0 b1, Sd.Builder.new n xs.length = some (.ok b0) ∧ b0.setAll xs = some b1 ∧ Sd.ofBuilder b1 = .ok b))

theorem SdFrom.built {xs : List Nat} {n : Nat} {b : Sd.Sd} (h : SdFrom xs n b) : Sd.Built xs n b := by
  obtain ⟨hp, hx, hm, h⟩ := h
  rcases h with ⟨v, hv, rfl, hn, hb, e⟩ | ⟨hn, hl, e⟩ | ⟨hn, b0, b1, e1, e2, e3⟩
  · obtain ⟨b', e', hb'⟩ := Sd.ofBitVector_built hv.fit hn
    rw [e] at e'
    obtain rfl := Option.some.inj e'
    have : Sd.ones (bitAt v.data) 0 v.size = xs := by
      refine List.Perm.eq_of_pairwise (le := (· < ·)) (fun a c _ _ h1 h2 => by omega) (Sd.ones_pairwise _ _ _) hp ?_
      rw [List.perm_ext_iff_of_nodup ((Sd.ones_pairwise _ _ _).imp (fun h => Nat.ne_of_lt h)) (hp.imp (fun h => Nat.ne_of_lt h))]
      intro a
      rw [Sd.mem_ones]
      constructor
      · rintro ⟨-, h1, h2⟩; exact (hb a h1).2 h2
      · intro h1; exact ⟨Nat.zero_le _, hx a h1, (hb a (hx a h1)).1 h1⟩
    rw [this] at hb'
    exact hb'
  · obtain ⟨logm, wl, s0, s, e1, e2, e3, -, -, hok⟩ := Sd.build_built (k := 8) (by omega) hn hp hx hm
    rcases hg : xs.getLast? with _ | last
    · rw [hg] at hl; cases hl
    · rw [hg] at hl
      have hl : last + 1 = n := Option.some.inj hl
      unfold Sd.ofSorted at e
      rw [hg] at e
      dsimp only at e
      rw [if_pos (sd_isSorted_of_increasing xs hp), Sd.add64_of_lt (by omega), hl, e1, sbind] at e
      dsimp only at e
      rw [e2, sbind, e3, sbind] at e
      have := Option.some.inj e
      rw [Except.ok.injEq] at this
      rw [← this]; exact hok
  · obtain ⟨logm, wl, s0, s, f1, f2, f3, hmm, hmm0, hok⟩ := Sd.build_built (k := 64) (by omega) hn hp hx hm
    have hle := Sd.length_le_of_increasing hp hx
    obtain ⟨t, et⟩ := sd_setAll_eq xs ⟨n, xs.length, wl, 0, s0⟩ s (fun x h => ⟨Nat.zero_le _, hx x h⟩) hn hp
      (by show s0.mm + _ ≤ _; rw [hmm0]; show _ ≤ xs.length; omega) f3
    have g1 : Sd.Builder.new n xs.length = some (.ok ⟨n, xs.length, wl, 0, s0⟩) := by
      unfold Sd.Builder.new
      rw [if_neg (by omega), f1, sbind]
      dsimp only
      rw [f2, sbind]; rfl
    rw [g1] at e1
    have e1 := Option.some.inj e1
    rw [Except.ok.injEq] at e1
    subst e1
    rw [et] at e2
    obtain rfl := Option.some.inj e2
    unfold Sd.ofBuilder at e3
    rw [if_neg (by show ¬ s.mm ≠ xs.length; rw [hmm]; simp), Except.ok.injEq] at e3
    rw [← e3]; exact hok

/-- C86: the support is built and `select(i)` is the position of the `i`-th zero. Missing: vectors of `2^58` bits and more with fewer than four ones
    (`C86_long_vectors_wrong`), and those of `2^60` bits and more. -/
theorem C86_select_partial {xs : List Nat} {n : Nat} {b : Sd.Sd} (h : SdFrom xs n b) (hn : n < 2 ^ 58 ∨ (n < 2 ^ 60 ∧ 4 ≤ xs.length)) :
    ∃ t, Sd.Sel0.new b = some t ∧ ∀ i, 1 ≤ i → i ≤ n - xs.length → ∃ p, t.select b i = some p ∧ IsSelect (fun p => decide (p ∉ xs)) n i p := by
  obtain ⟨t, e, hs⟩ := h.built.sel0 (by omega) (h.built.wl_lt hn)
  refine ⟨t, e, fun i h1 h2 => ?_⟩
  have := hs i h1 (by have := Sd.length_le_of_increasing h.1 h.2.1; omega)
  rwa [show (fun p => decide (p ∈ xs) == false) = fun p => decide (p ∉ xs) from funext (fun p => by by_cases c : p ∈ xs <;> simp [c])] at this

/-- C86: both supports for zeros give the same answers. -/
theorem C86_agrees {xs : List Nat} {n : Nat} {b : Sd.Sd} (h : SdFrom xs n b) (hn : n < 2 ^ 58 ∨ (n < 2 ^ 60 ∧ 4 ≤ xs.length)) {t : Sd.Sel0} (ht : Sd.Sel0.new b = some t)
    {i : Nat} (h1 : 1 ≤ i) (h2 : i ≤ n - xs.length) : t.select b i = Sd.select false b i ∧ t.select b i ≠ none := by
  obtain ⟨t', e, hs⟩ := C86_select_partial h hn
  rw [ht] at e
  obtain rfl := Option.some.inj e
  have hle := Sd.length_le_of_increasing h.1 h.2.1
  obtain ⟨p, e1, p1⟩ := hs i h1 h2
  obtain ⟨q, e2, q1⟩ := Sd.select0_ok h.built.ok h.1 h.2.1 (by omega) h1 (by omega)
  have : (fun p => decide (p ∈ xs) == false) = fun p => decide (p ∉ xs) := funext (fun p => by by_cases c : p ∈ xs <;> simp [c])
  rw [this] at q1
  have := p1.unique q1
  rw [e1, Sd.select, if_neg (by decide), e2, this]
  exact ⟨rfl, by simp⟩

/-- C86 fails for long vectors with at most one one: the block size `64*bs` wraps around to 0 and the constructor divides by it. -/
theorem C86_long_vectors_wrong {xs : List Nat} {n : Nat} {b : Sd.Sd} (h : SdFrom xs n b) (hn : n < 2 ^ 64) (h1 : 2 ^ 58 ≤ n) (h2 : xs.length ≤ 1) : Sd.Sel0.new b = none :=
  h.built.sel0_none hn h1 h2

/-- Such vectors exist, and the other supports work for them (`C25_from_builder`, here the default `select_support_sd<0>`): `2^58` bits with a one at position 5. -/
theorem C86_long_vectors_exist : ∃ b, SdFrom [5] (2 ^ 58) b ∧ Sd.Sel0.new b = none ∧ Sd.select false b 6 = some 6 := by
  obtain ⟨b0, b1, b, e1, e2, e3, ha⟩ := C25_from_builder (2 ^ 58) (by decide) [5] (by simp) (by simp) (by simp)
  have hs : SdFrom [5] (2 ^ 58) b := ⟨by simp, by simp, by simp, Or.inr (Or.inr ⟨by decide, b0, b1, e1, e2, e3⟩)⟩
  refine ⟨b, hs, C86_long_vectors_wrong hs (by decide) (Nat.le_refl _) (by simp), ?_⟩
  obtain ⟨q, f2, q1⟩ := Sd.select0_ok hs.built.ok hs.1 hs.2.1 (by decide) (i := 6) (by decide) (by simp)
  have h6 : IsSelect (fun p => decide (p ∈ [5]) == false) (2 ^ 58) 6 6 := ⟨by decide, by decide, by decide⟩
  rw [Sd.select, if_neg (by decide), f2, q1.unique h6]

/-- The hypotheses hold: every strictly increasing sequence has such a vector. -/
theorem C86_construct {xs : List Nat} {n : Nat} (hn : n < 2 ^ 64) (hp : xs.Pairwise (· < ·)) (hx : ∀ x, x ∈ xs → x < n) (hm : xs.length < 2 ^ 62) : ∃ b, SdFrom xs n b := by
  obtain ⟨b0, b1, b, e1, e2, e3, -⟩ := C25_from_builder n hn xs hp hx hm
  exact ⟨b, hp, hx, hm, Or.inr (Or.inr ⟨hn, b0, b1, e1, e2, e3⟩)⟩

example : (Sd.ofSorted [3, 4, 70, 71, 500, 501, 502, 503, 1700]).bind (fun r => match r with
      | .ok b => do
        let t ← Sd.Sel0.new b
        pure (← t.select b 1, ← t.select b 4, ← t.select b 69, ← t.select b 497, ← t.select b 1692)
      | .error _ => none) = some (0, 5, 72, 504, 1699) := by decide +kernel

end Sdsl.Props
