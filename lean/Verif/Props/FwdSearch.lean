/-
  C88: forward search by binary search, `forward_search` (include/sdsl/suffix_array_algorithm.hpp).

  `IsRows T SA P lo hi`: the rows `i` with `lo ≤ i < hi` of the suffix array are the suffixes that start with `P`. `occs T P` is the number of positions where `P` occurs (Props/Csa).
  The borders in the code are inclusive, `[l..r]`; an empty interval has `r + 1 = l` modulo `2^64`.
-/
import Verif.FwdSearchLemmas
import Verif.BidirLemmas
import Verif.Props.CsaPsi

namespace Sdsl.Props

open Csa CstSct3

/-- `fs l r P` is right for every interval `[l..r]` of rows and every pattern without 0: the result is the part of the interval with the suffixes that start with the pattern, and its size; on the whole
    array that is the interval of the pattern and the number of occurrences. -/
structure SearchOk (T SA : List Nat) (Q : Nat → Prop) (fs : Nat → Nat → List Nat → Option (Nat × Nat × Nat)) : Prop where
  part : ∀ (P : List Nat) (l r : Nat), 0 ∉ P → (∀ c ∈ P, Q c) → l ≤ r → r < T.length →
    ∃ l' r' m, fs l r P = some (l', r', m) ∧ r' < 2 ^ 64 ∧ (r' + 1) % 2 ^ 64 = l' + m ∧ l ≤ l' ∧ l' + m ≤ r + 1 ∧
      ∀ i, i < T.length → (l' ≤ i ∧ i < l' + m ↔ l ≤ i ∧ i ≤ r ∧ P <+: T.drop (sym SA i))
  whole : ∀ P : List Nat, 0 ∉ P → (∀ c ∈ P, Q c) → ∃ l' r', fs 0 (T.length - 1) P = some (l', r', occs T P) ∧ IsRows T SA P l' ((r' + 1) % 2 ^ 64)

theorem searchOk {A : Alpha} {T SA : List Nat} {Q : Nat → Prop} {ps : Nat → Nat} {psi : Nat → Option Nat} (hT : IsText T) (hS : IsSA T SA) (hA : AlphaOk A (bwtOf T SA) Q) (hp : IsPsi T SA ps)
    (hpsi : ∀ k, k < T.length → psi k = some (ps k)) (hn : T.length < 2 ^ 63) : SearchOk T SA Q (forwardSearch psi A T.length) := by
  have hpos := hT.pos
  refine ⟨fun P l r h0 hQ hlr hr => ?_, fun P h0 hQ => ?_⟩
  · obtain ⟨lo, hi, a1, a2, a3, a4, a5⟩ := forwardSearch_spec hT hS hA hp hpsi hn h0 hQ hlr hr
    have e := add_sub64 (a := hi) (by omega)
    rw [add64] at e
    refine ⟨lo, sub64 hi 1, hi - lo, a1, Nat.mod_lt _ (by decide), by rw [e]; omega, a2, by omega, fun i hi' => ?_⟩
    rw [show lo + (hi - lo) = hi by omega]
    exact a5 i hi'
  · obtain ⟨lo, hi, a1, a2, a3, a4, a5⟩ := forwardSearch_spec hT hS hA hp hpsi hn h0 hQ (l := 0) (r := T.length - 1) (Nat.zero_le _) (by omega)
    have e := add_sub64 (a := hi) (by omega)
    rw [add64] at e
    have hR : IsRows T SA P lo hi := ⟨a3, by omega, fun i hi' => by
      rw [a5 i hi']
      exact ⟨fun h => h.2.2, fun h => ⟨Nat.zero_le _, by omega, h⟩⟩⟩
    refine ⟨lo, sub64 hi 1, ?_, by rw [e]; exact hR⟩
    rw [a1, show hi - lo = occs T P from interval_count hS hR.1 hR.2.1 hR.2.2]

/-- C88 (partial: no 0 in the pattern): `forward_search` on `csa_wt` over every wavelet tree and every alphabet strategy. -/
theorem C88_csa_wt_partial (tk : TreeKind) (ak : AlphaKind) (T SA : List Nat) (hT : IsText T) (hS : IsSA T SA) (hF : Fits tk ak T) :
    ∃ W A, csaWt tk ak T SA = some (W, A) ∧ W.size = T.length ∧ SearchOk T SA (SymOk tk ak) (forwardSearch (psi W A) A W.size) := by
  obtain ⟨W, A, h1, h2, h3⟩ := csaWt_spec hT hS hF
  have hsz : W.size = T.length := by rw [h2.wt.size, hS.bwt_length]
  refine ⟨W, A, h1, hsz, ?_⟩
  rw [hsz]
  have hex : ∀ i, ∃ j, i < T.length → psi W A i = some j ∧ j < T.length ∧ sym SA j = nxt T.length (sym SA i) := fun i => by
    by_cases hi : i < T.length
    · obtain ⟨j, j1, j2, j3, _⟩ := h2.psi_spec hi
      exact ⟨j, fun _ => ⟨j1, j2, j3⟩⟩
    · exact ⟨0, fun h => absurd h hi⟩
  choose ps hps using hex
  exact searchOk hT hS h2.alpha (ps := ps) (fun k hk => ⟨(hps k hk).2.1, (hps k hk).2.2⟩) (fun k hk => (hps k hk).1) h3

/-- C88 (partial: as `C88_csa_wt_partial`): `forward_search` on `csa_sada`. -/
theorem C88_csa_sada_partial (ak : AlphaKind) (T SA : List Nat) (K : PsiCsa) (hT : IsText T) (hS : IsSA T SA) (hF : Fits .wmInt ak T) (h : IsSada ak T SA K) :
    SearchOk T SA (SymOk .wmInt ak) (forwardSearch K.psi K.alpha K.size) := by
  have h2 := sada_ok hT hS hF h
  obtain ⟨ps, p1, p2⟩ := h2.psi
  rw [h2.size]
  exact searchOk hT hS h2.alpha p1 p2 h2.len

/-- C88 (partial: as `C88_csa_wt_partial`): `forward_search` on `csa_bitcompressed`. -/
theorem C88_csa_bitcompressed_partial (ak : AlphaKind) (T SA : List Nat) (hT : IsText T) (hS : IsSA T SA) (hF : Fits .wmInt ak T) :
    ∃ K, newBit ak T SA = some K ∧ SearchOk T SA (SymOk .wmInt ak) (forwardSearch K.psi K.alpha K.size) := by
  obtain ⟨K, e1, _⟩ := newBit_ok hT hS hF
  have h2 := bit_ok hT hS hF e1
  obtain ⟨ps, p1, p2⟩ := h2.psi
  refine ⟨K, e1, ?_⟩
  rw [h2.size]
  exact searchOk hT hS h2.alpha p1 p2 h2.len

/-- C88 fails for patterns with the sentinel 0: in the text `1 2 0` the pattern `2 0` occurs once. `forward_search` reports no occurrence, `backward_search` one. -/
theorem C88_sentinel_wrong :
    csaRun (.blcd true) .byte [1, 2, 0] [2, 0, 1] (fun W A => (forwardSearch (psi W A) A W.size 0 2 [2, 0]).map (·.2.2)) = some 0 ∧ occs [1, 2, 0] [2, 0] = 1 ∧
    csaRun (.blcd true) .byte [1, 2, 0] [2, 0, 1] (fun W A => (backwardSearch W A 0 2 [2, 0]).map (·.2.2)) = some 1 := by decide +kernel

/-- The searches in the text `csaText`: a pattern that occurs twice, one that does not occur, and a part of the rows. -/
example : IsText csaText ∧ IsSA csaText csaSA ∧ Fits (.blcd true) .byte csaText := by
  refine ⟨csaText_isText, csaSA_isSA, ?_⟩
  simp [Fits, TreeKind.isByte, TreeKind.bounds, csaText]

example : csaRun (.blcd true) .byte csaText csaSA (fun W A => forwardSearch (psi W A) A W.size 0 11 [4, 4]) = some (10, 11, 2) ∧ occs csaText [4, 4] = 2 ∧
    csaRun (.blcd true) .byte csaText csaSA (fun W A => forwardSearch (psi W A) A W.size 11 11 [4, 4]) = some (11, 11, 1) ∧
    csaRun (.blcd true) .byte csaText csaSA (fun W A => (forwardSearch (psi W A) A W.size 0 11 [4, 2]).map (·.2.2)) = some 0 := by decide +kernel

example : sadaRun .byte (VC.comma 2) 3 csaText csaSA [] 3 5 (fun K => forwardSearch K.psi K.alpha K.size 0 11 [4, 4]) = some (10, 11, 2) ∧
    (newBit .byte csaText csaSA).bind (fun K => forwardSearch K.psi K.alpha K.size 0 11 [4, 4]) = some (10, 11, 2) := by decide +kernel

end Sdsl.Props
