/-
  C87: bidirectional search on the suffix arrays of a text and of the reversed text.

  `revText T` is the text without its sentinel, reversed, followed by the sentinel. `IsRows T SA P lo hi`: the rows `i` with `lo ≤ i < hi` of the suffix array are the suffixes that start with `P`.
  `occs T P` is the number of positions where `P` occurs (Props/Csa). The borders in the code are inclusive, `[l..r]`; an empty interval has `r + 1 = l` modulo `2^64`.
-/
import Verif.BidirNew
import Verif.Props.Csa

namespace Sdsl.Props

open Csa

theorem incl_sub {r : Nat} (hr : r < 2 ^ 64) : sub64 ((r + 1) % 2 ^ 64) 1 = r := by
  rcases Nat.lt_or_ge (r + 1) (2 ^ 64) with h | h
  · rw [Nat.mod_eq_of_lt h, sub64_eq (by omega) h]; omega
  · rw [show r + 1 = 2 ^ 64 by omega, Nat.mod_self, sub64]; omega

theorem revFits {tk : TreeKind} {ak : AlphaKind} {T : List Nat} (hT : IsText T) (h : Fits tk ak T) : Fits tk ak (revText T) := by
  have hm : ∀ c, c ∈ revText T ↔ c ∈ T := fun c => (revText_perm hT).mem_iff
  obtain ⟨h1, h2, h3, h4⟩ := h
  simp only [Fits, hm, revText_length hT]
  exact ⟨h1, h2, h3, h4⟩

theorem rows_occs {T SA P : List Nat} (hS : IsSA T SA) {lo hi : Nat} (h : IsRows T SA P lo hi) : hi - lo = occs T P := interval_count hS h.1 h.2.1 h.2.2

/-- C87 (partial: symbols below 256 and no 0 in the patterns): `bidirectional_search_backward` turns the interval of a pattern `S` in the suffix array of the text and the interval of the
    reversed pattern in the suffix array of the reversed text into the intervals of `P ++ S` and of its reversal, and returns the number of occurrences. It needs the forward array only. -/
theorem C87_backward_partial (tk : TreeKind) (hk : tk.lex = true) (ak : AlphaKind) (T SA SA' : List Nat) (hT : IsText T) (hS : IsSA T SA) (hS' : IsSA (revText T) SA') (hF : Fits tk ak T) :
    ∃ W A, csaWt tk ak T SA = some (W, A) ∧ ∀ (P S : List Nat) (l r lb rb : Nat), 0 ∉ P → 0 ∉ S → (∀ c ∈ P, c < 256) → r < 2 ^ 64 → rb < 2 ^ 64 →
      IsRows T SA S l ((r + 1) % 2 ^ 64) → IsRows (revText T) SA' S.reverse lb ((rb + 1) % 2 ^ 64) →
      ∃ l' r' lb' rb', bidirBackward W A l r lb rb P = some (l', r', lb', rb', occs T (P ++ S)) ∧
        IsRows T SA (P ++ S) l' ((r' + 1) % 2 ^ 64) ∧ IsRows (revText T) SA' (P ++ S).reverse lb' ((rb' + 1) % 2 ^ 64) := by
  obtain ⟨W, A, h1, h2, h3, h4⟩ := csaWt_lex hk hT hS hF
  refine ⟨W, A, h1, fun P S l r lb rb p0 s0 hP hr hrb g1 g2 => ?_⟩
  obtain ⟨lo, hi, lb', hb, k1, k2, k3⟩ := bidirBackLoop_spec h2 h3 hS' P.reverse S l ((r + 1) % 2 ^ 64) lb ((rb + 1) % 2 ^ 64) (fun h => p0 (List.mem_reverse.1 h))
    (fun c hc => by
      have := hP c (List.mem_reverse.1 hc)
      exact ⟨⟨by omega, fun _ => this⟩, this⟩) s0 g1 g2
  rw [incl_sub hr, incl_sub hrb] at k1
  rw [List.reverse_reverse] at k2 k3
  have b1 := k2.2.1
  have b2 := k3.2.1
  rw [revText_length hT] at b2
  have e1 : (sub64 hi 1 + 1) % 2 ^ 64 = hi := add_sub64 (by omega)
  have e2 : (sub64 hb 1 + 1) % 2 ^ 64 = hb := add_sub64 (by omega)
  refine ⟨lo, sub64 hi 1, lb', sub64 hb 1, ?_, by rw [e1]; exact k2, by rw [e2]; exact k3⟩
  rw [bidirBackward, k1, sbind]
  dsimp only
  rw [add_sub64 (by omega), sub64_eq k2.1 (by omega), rows_occs hS k2]
  rfl

/-- C87 (partial: as `C87_backward_partial`): `bidirectional_search_forward` extends the pattern to the right; it needs the suffix array of the reversed text only. -/
theorem C87_forward_partial (tk : TreeKind) (hk : tk.lex = true) (ak : AlphaKind) (T SA SA' : List Nat) (hT : IsText T) (hS : IsSA T SA) (hS' : IsSA (revText T) SA') (hF : Fits tk ak T) :
    ∃ W A, csaWt tk ak (revText T) SA' = some (W, A) ∧ ∀ (P S : List Nat) (l r lb rb : Nat), 0 ∉ P → 0 ∉ S → (∀ c ∈ P, c < 256) → r < 2 ^ 64 → rb < 2 ^ 64 →
      IsRows T SA S l ((r + 1) % 2 ^ 64) → IsRows (revText T) SA' S.reverse lb ((rb + 1) % 2 ^ 64) →
      ∃ l' r' lb' rb', bidirForward W A l r lb rb P = some (l', r', lb', rb', occs T (S ++ P)) ∧
        IsRows T SA (S ++ P) l' ((r' + 1) % 2 ^ 64) ∧ IsRows (revText T) SA' (S ++ P).reverse lb' ((rb' + 1) % 2 ^ 64) := by
  obtain ⟨W, A, h1, h2, h3, h4⟩ := csaWt_lex hk (revText_text hT) hS' (revFits hT hF)
  rw [revText_length hT] at h4
  refine ⟨W, A, h1, fun P S l r lb rb p0 s0 hP hr hrb g1 g2 => ?_⟩
  obtain ⟨lo, hi, lb', hb, k1, k2, k3⟩ := bidirFwdLoop_spec hT hS h2 h3 P S l ((r + 1) % 2 ^ 64) lb ((rb + 1) % 2 ^ 64) p0
    (fun c hc => by
      have := hP c hc
      exact ⟨⟨by omega, fun _ => this⟩, this⟩) s0 g1 g2
  rw [incl_sub hr, incl_sub hrb] at k1
  have b1 := k2.2.1
  have b2 := k3.2.1
  rw [revText_length hT] at b2
  have e1 : (sub64 hi 1 + 1) % 2 ^ 64 = hi := add_sub64 (by omega)
  have e2 : (sub64 hb 1 + 1) % 2 ^ 64 = hb := add_sub64 (by omega)
  refine ⟨lo, sub64 hi 1, lb', sub64 hb 1, ?_, by rw [e1]; exact k2, by rw [e2]; exact k3⟩
  rw [bidirForward, k1, sbind]
  dsimp only
  rw [add_sub64 (by omega), sub64_eq k2.1 (by omega), rows_occs hS k2]
  rfl

/-- C87: the borders before the first symbol: the whole suffix arrays are the intervals of the empty pattern. -/
theorem C87_start (T SA SA' : List Nat) (hT : IsText T) (hn : T.length < 2 ^ 64) :
    IsRows T SA [] 0 ((T.length - 1 + 1) % 2 ^ 64) ∧ IsRows (revText T) SA' [].reverse 0 ((T.length - 1 + 1) % 2 ^ 64) := by
  have hp := hT.pos
  have hl := revText_length hT
  rw [show T.length - 1 + 1 = T.length by omega, Nat.mod_eq_of_lt hn]
  exact ⟨⟨Nat.zero_le _, Nat.le_refl _, fun i hi => by simp [hi]⟩, ⟨Nat.zero_le _, by omega, fun i hi => by simp; omega⟩⟩

/-- C87 fails for integer alphabets with symbols from 256 on: the symbols of the pattern are cast to the symbol type of `csa_wt<>`, a byte. In the text `257 0` the pattern `257` occurs once, but
    0 occurrences are reported; in the text `1 0` the pattern `257` does not occur, but one occurrence is reported. -/
theorem C87_large_symbols_wrong :
    csaRun .wtInt .int [257, 0] [1, 0] (fun W A => (bidirBackward W A 0 1 0 1 [257]).map (·.2.2.2.2)) = some 0 ∧ occs [257, 0] [257] = 1 ∧
    csaRun .wtInt .int [1, 0] [1, 0] (fun W A => (bidirBackward W A 0 1 0 1 [257]).map (·.2.2.2.2)) = some 1 ∧ occs [1, 0] [257] = 0 := by decide +kernel

/-- C87 fails for patterns with a 0: in the text `1 2 0` the pattern `0 1` does not occur, but one occurrence is reported. -/
theorem C87_sentinel_wrong : csaRun (.blcd true) .byte [1, 2, 0] [2, 0, 1] (fun W A => (bidirBackward W A 0 2 0 2 [0, 1]).map (·.2.2.2.2)) = some 1 ∧ occs [1, 2, 0] [0, 1] = 0 := by decide +kernel

/-- The text `1 2 1 1 2 0`, its reversal `2 1 1 2 1 0` and their suffix arrays; from the intervals of the empty pattern to `2`, backward to `1 2`, and from there forward to `1 2 1`. -/
example : IsText [1, 2, 1, 1, 2, 0] ∧ IsSA [1, 2, 1, 1, 2, 0] [5, 2, 3, 0, 4, 1] ∧ revText [1, 2, 1, 1, 2, 0] = [2, 1, 1, 2, 1, 0] ∧ IsSA [2, 1, 1, 2, 1, 0] [5, 4, 1, 2, 3, 0] ∧
    Fits (.blcd true) .byte [1, 2, 1, 1, 2, 0] := by
  refine ⟨⟨[1, 2, 1, 1, 2], by decide, by decide⟩, ⟨by decide, by decide⟩, by decide, ⟨by decide, by decide⟩, ?_⟩
  simp [Fits, TreeKind.isByte, TreeKind.bounds]

example : csaRun (.blcd true) .byte [1, 2, 1, 1, 2, 0] [5, 2, 3, 0, 4, 1] (fun W A => bidirBackward W A 0 5 0 5 [1, 2]) = some (2, 3, 4, 5, 2) ∧
    csaRun (.blcd true) .byte [2, 1, 1, 2, 1, 0] [5, 4, 1, 2, 3, 0] (fun W A => bidirForward W A 2 3 4 5 [1]) = some (3, 3, 3, 3, 1) := by decide +kernel

end Sdsl.Props
