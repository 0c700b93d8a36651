/-
  C36-C38, C57, C58: the compressed suffix array `csa_wt`, for the wavelet trees `wt_huff`, `wt_blcd` (byte and integer alphabets), `wt_int`, `wm_int` and the alphabet strategies
  `byte_alphabet`, `succinct_byte_alphabet`, `int_alphabet`, built from a text `T` and its suffix array `SA`.

  `IsText T`: the text ends with its only 0. `IsSA T SA`: `SA` sorts the suffixes. `sym L i` is the `i`-th entry of `L`. `prv n p = p-1` and `nxt n p = p+1` modulo `n`.
-/
import Verif.CsaNew

namespace Sdsl.Props

open Csa

/-- Every text has exactly one suffix array. -/
theorem suffixArray_unique (T : List Nat) : ∃! SA, IsSA T SA := by
  obtain ⟨SA, hSA⟩ : ∃ SA, SA = (List.range T.length).mergeSort (fun a b => decide (T.drop a ≤ T.drop b)) := ⟨_, rfl⟩
  have hp : SA.Perm (List.range T.length) := by rw [hSA]; exact List.mergeSort_perm _ _
  have hs : SA.Pairwise (fun a b => decide (T.drop a ≤ T.drop b) = true) := by
    rw [hSA]
    apply List.pairwise_mergeSort
    · intro a b c h1 h2
      rw [decide_eq_true_eq] at *
      exact le_trans h1 h2
    · intro a b
      rw [Bool.or_eq_true, decide_eq_true_eq, decide_eq_true_eq]
      exact le_total _ _
  have hn : SA.Nodup := hp.nodup_iff.2 List.nodup_range
  refine ⟨SA, ⟨hp, ?_⟩, ?_⟩
  · refine List.Pairwise.imp_of_mem ?_ (hs.and hn)
    intro a b ha hb hab
    have ha' := List.mem_range.1 (hp.mem_iff.1 ha)
    have hb' := List.mem_range.1 (hp.mem_iff.1 hb)
    rcases lt_or_eq_of_le (of_decide_eq_true hab.1) with h | h
    · exact h
    · exfalso
      have := congrArg List.length h
      rw [List.length_drop, List.length_drop] at this
      exact hab.2 (by omega)
  · rintro SA' ⟨hp', hs'⟩
    have hs1 : SA.Pairwise (fun a b => T.drop a < T.drop b) := by
      refine List.Pairwise.imp_of_mem ?_ (hs.and hn)
      intro a b ha hb hab
      have ha' := List.mem_range.1 (hp.mem_iff.1 ha)
      have hb' := List.mem_range.1 (hp.mem_iff.1 hb)
      rcases lt_or_eq_of_le (of_decide_eq_true hab.1) with h | h
      · exact h
      · exfalso
        have := congrArg List.length h
        rw [List.length_drop, List.length_drop] at this
        exact hab.2 (by omega)
    refine List.Perm.eq_of_pairwise ?_ hs' hs1 (hp'.trans hp.symm)
    intro a b _ _ h1 h2
    exact absurd h1 (List.lt_asymm h2)

/-- Number of positions of `T` where `P` occurs. -/
def occs (T P : List Nat) : Nat := (List.range T.length).countP (fun p => decide (P <+: T.drop p))

theorem cmatch_iff {T : List Nat} (hT : IsText T) : ∀ (P : List Nat) (p : Nat), p < T.length → 0 ∉ P.dropLast → (CMatch T p P ↔ P <+: T.drop p) := by
  intro P
  induction P with
  | nil => intro p _ _; simp [CMatch]
  | cons c P ih =>
    intro p hp h0
    rw [CMatch, drop_cons hp, List.cons_prefix_cons]
    by_cases e : P = []
    · subst e; simp [CMatch, eq_comm]
    · rw [List.dropLast_cons_of_ne_nil e, List.mem_cons, not_or] at h0
      by_cases e2 : p + 1 < T.length
      · rw [nxt_small e2, ih (p + 1) e2 h0.2, eq_comm]
      · have h1 : p = T.length - 1 := by omega
        constructor
        · rintro ⟨h2, _⟩
          rw [h1, hT.last] at h2
          exact absurd h2 h0.1
        · rintro ⟨h2, _⟩
          rw [h1, hT.last] at h2
          exact absurd h2.symm h0.1

theorem cmatch_cyc {T : List Nat} : ∀ (P : List Nat) (p : Nat), p < T.length → (CMatch T p P ↔ ∀ k (h : k < P.length), P[k] = sym T ((p + k) % T.length)) := by
  intro P
  induction P with
  | nil => intro p _; simp [CMatch]
  | cons c P ih =>
    intro p hp
    have hn := nxt_lt (n := T.length) (p := p) (by omega)
    rw [CMatch, ih _ hn]
    constructor
    · rintro ⟨h1, h2⟩ k hk
      cases k with
      | zero => rw [List.getElem_cons_zero, Nat.add_zero, Nat.mod_eq_of_lt hp, h1]
      | succ k => rw [List.getElem_cons_succ, h2 k (by simpa using hk), nxt, Nat.mod_add_mod]; congr 2; omega
    · intro h
      refine ⟨?_, fun k hk => ?_⟩
      · have := h 0 (by simp)
        rw [List.getElem_cons_zero, Nat.add_zero, Nat.mod_eq_of_lt hp] at this
        exact this.symm
      · have := h (k + 1) (by simpa using hk)
        rw [List.getElem_cons_succ] at this
        rw [this, nxt, Nat.mod_add_mod]; congr 2; omega

theorem count_interval {n lo hi : Nat} (h1 : lo ≤ hi) (h2 : hi ≤ n) : (List.range n).countP (fun i => decide (lo ≤ i ∧ i < hi)) = hi - lo := by
  induction n generalizing hi with
  | zero => simp; omega
  | succ n ih =>
    rw [List.range_succ, List.countP_append, List.countP_singleton]
    by_cases e : hi = n + 1
    · by_cases e2 : lo = n + 1
      · have : (List.range n).countP (fun i => decide (lo ≤ i ∧ i < hi)) = 0 := by
          rw [List.countP_eq_zero]; intro a ha; have := List.mem_range.1 ha; simp; omega
        rw [this, if_neg (by simp; omega)]; omega
      · have : (List.range n).countP (fun i => decide (lo ≤ i ∧ i < hi)) = (List.range n).countP (fun i => decide (lo ≤ i ∧ i < n)) := by
          apply List.countP_congr; intro a ha; have := List.mem_range.1 ha; simp; omega
        rw [this, ih (by omega) (by omega), if_pos (by simp; omega)]; omega
    · rw [ih h1 (by omega), if_neg (by simp; omega)]; omega

/-- An interval of the suffix array that holds the suffixes with a property has as many entries as there are such suffixes. -/
theorem interval_count {T SA : List Nat} (h : IsSA T SA) {R : Nat → Prop} [DecidablePred R] {lo hi : Nat} (h1 : lo ≤ hi) (h2 : hi ≤ T.length)
    (h3 : ∀ i, i < T.length → (lo ≤ i ∧ i < hi ↔ R (sym SA i))) : hi - lo = (List.range T.length).countP (fun p => decide (R p)) := by
  rw [← h.1.countP_eq, ← map_sym_range SA, List.countP_map, h.length, ← count_interval h1 h2]
  apply List.countP_congr
  intro i hi
  rw [List.mem_range] at hi
  simp only [decide_eq_true_eq, Function.comp_apply]
  exact h3 i hi

/-! ### C36 -/

/-- C36 (partial: the pattern has no 0 before its last symbol): `backward_search` on the whole suffix array returns the interval of exactly those suffixes that start with the pattern, and its
    size is the number of occurrences; `count` returns it. The interval is empty iff the pattern does not occur. Missing: patterns with 0 inside, which cannot occur but are found if they occur
    in the cyclic text (`C36_cyclic`, `C36_sentinel_wrong`). -/
theorem C36_backward_search_partial (tk : TreeKind) (ak : AlphaKind) (T SA : List Nat) (hT : IsText T) (hS : IsSA T SA) (hF : Fits tk ak T) :
    ∃ W A, csaWt tk ak T SA = some (W, A) ∧ ∀ P : List Nat, (∀ c ∈ P, SymOk tk ak c) → 0 ∉ P.dropLast →
      ∃ l r, backwardSearch W A 0 (sub64 T.length 1) P = some (l, r, occs T P) ∧ l + occs T P ≤ T.length ∧ (r + 1) % 2 ^ 64 = l + occs T P ∧
        (∀ i, i < T.length → (l ≤ i ∧ i < l + occs T P ↔ P <+: T.drop (sym SA i))) ∧ count W A P = some (occs T P) := by
  obtain ⟨W, A, h1, h2, h3⟩ := csaWt_spec hT hS hF
  refine ⟨W, A, h1, fun P hP h0 => ?_⟩
  obtain ⟨lo, hi, g1, g2, g3, g4⟩ := h2.backwardSearch_spec (P := P) (S := []) (lo := 0) (hi := T.length) hP (by omega) (by omega) (by
    intro i hi; simp [CMatch, hi])
  rw [List.append_nil] at g4
  have hm : ∀ i, i < T.length → (lo ≤ i ∧ i < hi ↔ P <+: T.drop (sym SA i)) := fun i hi => (g4 i hi).trans (cmatch_iff hT P _ (hS.sym_get_lt hi) h0)
  have hc : hi - lo = occs T P := interval_count hS g2 g3 hm
  rw [← hc]
  have he : lo + (hi - lo) = hi := by omega
  refine ⟨lo, sub64 hi 1, g1, by omega, ?_, ?_, ?_⟩
  · rw [he]; exact add_sub64 (by omega)
  · rw [he]; exact hm
  · rw [count, h2.size]
    by_cases e : T.length < P.length
    · rw [if_pos e, hc, occs]
      congr 1
      symm
      rw [List.countP_eq_zero]
      intro p _
      rw [decide_eq_true_eq]
      intro hpre
      have := hpre.length_le
      rw [List.length_drop] at this
      omega
    · rw [if_neg e, g1, sbind]; rfl

/-- C36: what `backward_search` computes for every pattern: the interval of the suffixes where the pattern occurs if the text is read cyclically; also from an interval `[l..r]` that belongs to a
    pattern `S`, which it extends to the left by `P`. -/
theorem C36_cyclic (tk : TreeKind) (ak : AlphaKind) (T SA : List Nat) (hT : IsText T) (hS : IsSA T SA) (hF : Fits tk ak T) :
    ∃ W A, csaWt tk ak T SA = some (W, A) ∧ ∀ (P S : List Nat) (l r : Nat), (∀ c ∈ P, SymOk tk ak c) → r < 2 ^ 64 → l ≤ (r + 1) % 2 ^ 64 → (r + 1) % 2 ^ 64 ≤ T.length →
      (∀ i, i < T.length → (l ≤ i ∧ i < (r + 1) % 2 ^ 64 ↔ ∀ k (h : k < S.length), S[k] = sym T ((sym SA i + k) % T.length))) →
      ∃ l' r' m, backwardSearch W A l r P = some (l', r', m) ∧ l' + m ≤ T.length ∧ (r' + 1) % 2 ^ 64 = l' + m ∧
        ∀ i, i < T.length → (l' ≤ i ∧ i < l' + m ↔ ∀ k (h : k < (P ++ S).length), (P ++ S)[k] = sym T ((sym SA i + k) % T.length)) := by
  obtain ⟨W, A, h1, h2, h3⟩ := csaWt_spec hT hS hF
  refine ⟨W, A, h1, fun P S l r hP hr hlr hrn hS' => ?_⟩
  obtain ⟨lo, hi, g1, g2, g3, g4⟩ := h2.backwardSearch_spec (P := P) (S := S) (lo := l) (hi := (r + 1) % 2 ^ 64) hP hlr hrn (fun i hi => by
    rw [cmatch_cyc S _ (hS.sym_get_lt hi)]; exact hS' i hi)
  have hr' : sub64 ((r + 1) % 2 ^ 64) 1 = r := by
    rcases Nat.lt_or_ge (r + 1) (2 ^ 64) with h | h
    · rw [Nat.mod_eq_of_lt h, sub64_eq (by omega) h]; omega
    · rw [show r + 1 = 2 ^ 64 by omega, Nat.mod_self, sub64]; omega
  rw [hr'] at g1
  have he : lo + (hi - lo) = hi := by omega
  refine ⟨lo, sub64 hi 1, hi - lo, g1, by omega, by rw [he]; exact add_sub64 (by omega), fun i hi' => ?_⟩
  rw [he, g4 i hi', cmatch_cyc _ _ (hS.sym_get_lt hi')]

/-- The result of a query on the CSA of a text. -/
def csaRun {α : Type} (tk : TreeKind) (ak : AlphaKind) (T SA : List Nat) (f : Csa.Wt → Alpha → Option α) : Option α := (csaWt tk ak T SA).bind fun wa => f wa.1 wa.2

/-- C36 fails for a pattern with a 0 inside: in the text `1 2 0` the pattern `0 1` does not occur, but it is counted once. -/
theorem C36_sentinel_wrong : csaRun (.huff true) .byte [1, 2, 0] [2, 0, 1] (fun W A => count W A [0, 1]) = some 1 ∧ occs [1, 2, 0] [0, 1] = 0 := by decide +kernel

/-! ### C37 -/

/-- C37: `lf` and `psi` walk the text and are inverse to each other, and the first column holds the first symbols of the suffixes. -/
theorem C37_lf_psi (tk : TreeKind) (ak : AlphaKind) (T SA : List Nat) (hT : IsText T) (hS : IsSA T SA) (hF : Fits tk ak T) :
    ∃ W A, csaWt tk ak T SA = some (W, A) ∧ ∀ i, i < T.length →
      (∃ j, lf W A i = some j ∧ j < T.length ∧ sym SA j = (sym SA i + (T.length - 1)) % T.length ∧ psi W A j = some i) ∧
      (∃ j, psi W A i = some j ∧ j < T.length ∧ sym SA j = (sym SA i + 1) % T.length ∧ lf W A j = some i) ∧
      firstRow A i = some (sym T (sym SA i)) := by
  obtain ⟨W, A, h1, h2, h3⟩ := csaWt_spec hT hS hF
  refine ⟨W, A, h1, fun i hi => ⟨?_, h2.psi_spec hi, h2.firstRow_spec hi⟩⟩
  obtain ⟨j, j1, _, j3, j4⟩ := h2.lf_spec hi
  obtain ⟨k, k1, k2, k3, k4⟩ := h2.psi_spec j3
  rw [j4, nxt_prv (hS.sym_get_lt hi)] at k3
  exact ⟨j, j1, j3, j4, by rw [k1, hS.inj k2 hi k3]⟩

/-! ### C38 -/

/-- C38: `csa[i]` with suffix-order and with text-order samples of any density: the loop ends after less than `n` steps, and the value is `SA[i]`. -/
theorem C38_access (tk : TreeKind) (ak : AlphaKind) (T SA : List Nat) (hT : IsText T) (hS : IsSA T SA) (hF : Fits tk ak T) (dens : Nat) (hd : 0 < dens) :
    ∃ W A S1 s2, csaWt tk ak T SA = some (W, A) ∧ saOrder dens SA = some S1 ∧ textOrder dens SA = some s2 ∧ ∀ fuel i, T.length ≤ fuel + 1 → i < T.length →
      saGet W A S1 fuel i = some (sym SA i) ∧ saGet W A (s2.sample dens) fuel i = some (sym SA i) := by
  obtain ⟨W, A, h1, h2, h3⟩ := csaWt_spec hT hS hF
  obtain ⟨S1, a1, a2, _⟩ := saOrder_spec hT hS hd (by omega)
  obtain ⟨s2, b1, b2⟩ := textOrder_spec hS hd (by omega)
  have b3 := (b2.sample hT hS (by omega)).1
  exact ⟨W, A, S1, s2, h1, a1, b1, fun fuel i hf hi => ⟨saGet_spec h2 a2 (by omega) hf hi, saGet_spec h2 b3 (by omega) hf hi⟩⟩

/-- C38: which rows are sampled: every `dens`-th row, or the rows of every `dens`-th suffix. -/
theorem C38_sampled (T SA : List Nat) (hT : IsText T) (hS : IsSA T SA) (hn : T.length < 2 ^ 64) (dens : Nat) (hd : 0 < dens) :
    ∃ S1 s2, saOrder dens SA = some S1 ∧ textOrder dens SA = some s2 ∧ ∀ i, i < T.length →
      S1.isSampled i = some (decide (dens ∣ i)) ∧ (s2.sample dens).isSampled i = some (decide (dens ∣ sym SA i)) := by
  obtain ⟨S1, a1, _, a3⟩ := saOrder_spec hT hS hd hn
  obtain ⟨s2, b1, b2⟩ := textOrder_spec hS hd hn
  have b3 := (b2.sample hT hS hn).2
  refine ⟨S1, s2, a1, b1, fun i hi => ⟨?_, ?_⟩⟩
  · rw [a3]; congr 1; rw [Bool.eq_iff_iff]; simp [Nat.dvd_iff_mod_eq_zero]
  · rw [b3 i hi]; congr 1; rw [Bool.eq_iff_iff]; simp [Nat.dvd_iff_mod_eq_zero]

/-- C38 fails for `_bwt_sampling` with a density above 1: the samples are stored in full but multiplied by the density on access. For the text `2 1 2 1 0` with
    density 2, `csa[3]` is 4 but `SA[3]` is 2. -/
theorem C38_bwt_sampling_wrong : csaRun (.huff true) .byte [2, 1, 2, 1, 0] [4, 3, 1, 2, 0] (fun W A => (bwtSampling 2 [] [4, 3, 1, 2, 0] [1, 2, 2, 1, 0]).bind (fun S => saGet W A S 10 3)) = some 4 ∧
    [4, 3, 1, 2, 0][3]? = some 2 ∧ bwtOf [2, 1, 2, 1, 0] [4, 3, 1, 2, 0] = [1, 2, 2, 1, 0] := by decide +kernel

/-! ### C57 -/

/-- C57: the inverse suffix array, the text and its substrings, with `_isa_sampling` and with `_text_order_isa_sampling_support` (which uses the samples of the suffix array and
    `inv_perm_support<ts>`), for every density. The loops of the inverse permutation need at most `ts` (or, for `ts = 0`, `2 n`) steps. -/
theorem C57_inverse_access (tk : TreeKind) (ak : AlphaKind) (T SA : List Nat) (hT : IsText T) (hS : IsSA T SA) (hF : Fits tk ak T) (dens : Nat) (hd : 0 < dens)
    (ts fuel : Nat) (hf : 2 * T.length ≤ fuel ∨ 0 < ts ∧ fuel = ts) :
    ∃ W A a s I2, csaWt tk ak T SA = some (W, A) ∧ isaSampling dens SA = some a ∧ textOrder dens SA = some s ∧ textOrderIsa dens ts fuel s = some I2 ∧
      ∀ I, I = isaSample dens a ∨ I = I2 →
        (∀ i, i < T.length → ∃ r, isaGet W A I i = some r ∧ r < T.length ∧ sym SA r = i) ∧
        (∀ i (h : i < T.length), textGet W A I i = some T[i]) ∧
        (∀ b e, b ≤ e → e < T.length → extract W A I b e = some ((T.drop b).take (e - b + 1))) := by
  obtain ⟨W, A, h1, h2, h3⟩ := csaWt_spec hT hS hF
  obtain ⟨a, a1, a2⟩ := isaSampling_spec hT hS hd (by omega)
  obtain ⟨s, b1, b2⟩ := textOrder_spec hS hd (by omega)
  obtain ⟨I2, c1, c2⟩ := textOrderIsa_spec hS hd b2 (by omega) hf
  refine ⟨W, A, a, s, I2, h1, a1, b1, c1, fun I hI => ?_⟩
  have hI' : IsaSampleOk I T SA := by
    rcases hI with rfl | rfl
    · exact a2
    · exact c2
  exact ⟨fun i hi => isaGet_spec h2 hI' hi, fun i hi => by rw [textGet_spec h2 hI' hi, sym_lt hi], fun b e hbe he => extract_spec h2 hI' hbe he⟩

/-- C57: `locate` returns the positions of the occurrences, each once (partial: the pattern has no 0 before its last symbol). -/
theorem C57_locate_partial (tk : TreeKind) (ak : AlphaKind) (T SA : List Nat) (hT : IsText T) (hS : IsSA T SA) (hF : Fits tk ak T) (dens : Nat) (hd : 0 < dens) :
    ∃ W A S1 s2, csaWt tk ak T SA = some (W, A) ∧ saOrder dens SA = some S1 ∧ textOrder dens SA = some s2 ∧ ∀ S, S = S1 ∨ S = s2.sample dens →
      ∀ (fuel : Nat) (P : List Nat), T.length ≤ fuel + 1 → (∀ c ∈ P, SymOk tk ak c) → 0 ∉ P.dropLast →
      ∃ L, locate W A S fuel P = some L ∧ L.Perm ((List.range T.length).filter (fun p => decide (P <+: T.drop p))) := by
  obtain ⟨W, A, h1, h2, h3⟩ := csaWt_spec hT hS hF
  obtain ⟨S1, a1, a2, _⟩ := saOrder_spec hT hS hd (by omega)
  obtain ⟨s2, b1, b2⟩ := textOrder_spec hS hd (by omega)
  have b3 := (b2.sample hT hS (by omega)).1
  refine ⟨W, A, S1, s2, h1, a1, b1, fun S hS' fuel P hf hP h0 => ?_⟩
  have hS'' : SaSampleOk S T SA := by
    rcases hS' with rfl | rfl
    · exact a2
    · exact b3
  obtain ⟨lo, hi, g1, g2, g3, g4⟩ := h2.backwardSearch_spec (P := P) (S := []) (lo := 0) (hi := T.length) hP (by omega) (by omega) (by
    intro i hi; simp [CMatch, hi])
  rw [List.append_nil] at g4
  have hm : ∀ i, i < T.length → (lo ≤ i ∧ i < hi ↔ P <+: T.drop (sym SA i)) := fun i hi => (g4 i hi).trans (cmatch_iff hT P _ (hS.sym_get_lt hi) h0)
  have key : ∀ ks : List Nat, (∀ k ∈ ks, lo + k < T.length) → ks.mapM (fun i => saGet W A S fuel (add64 lo i)) = some (ks.map (fun k => sym SA (lo + k))) := by
    intro ks
    induction ks with
    | nil => intro _; rfl
    | cons k ks ih =>
      intro hk
      have := hk k (by simp)
      rw [List.mapM_cons, add64_eq (by omega), saGet_spec h2 hS'' (by omega) hf this, sbind, ih (fun j hj => hk j (by simp [hj])), sbind]
      rfl
  refine ⟨(List.range (hi - lo)).map (fun k => sym SA (lo + k)), ?_, ?_⟩
  · rw [locate, h2.size, g1, sbind]
    dsimp only
    rw [key _ (fun k hk => by have := List.mem_range.1 hk; omega)]
  · rw [List.perm_ext_iff_of_nodup]
    · intro p
      rw [List.mem_map, List.mem_filter, List.mem_range, decide_eq_true_eq]
      constructor
      · rintro ⟨k, hk, rfl⟩
        rw [List.mem_range] at hk
        exact ⟨hS.sym_get_lt (by omega), (hm _ (by omega)).1 ⟨by omega, by omega⟩⟩
      · rintro ⟨hp, hpre⟩
        obtain ⟨i, hi', rfl⟩ := hS.surj hp
        obtain ⟨m1, m2⟩ := (hm i hi').2 hpre
        exact ⟨i - lo, List.mem_range.2 (by omega), by rw [show lo + (i - lo) = i by omega]⟩
    · rw [List.Nodup, List.pairwise_map]
      refine List.Pairwise.imp_of_mem ?_ List.nodup_range
      intro a b ha hb hab he
      rw [List.mem_range] at ha hb
      have := hS.inj (by omega) (by omega) he
      omega
    · exact List.Nodup.filter _ List.nodup_range

/-- C57: `bwt[i]`, `rank_bwt` and `select_bwt`; `select_bwt` returns the size of the text if there are fewer than `i` occurrences. -/
theorem C57_bwt (tk : TreeKind) (ak : AlphaKind) (T SA : List Nat) (hT : IsText T) (hS : IsSA T SA) (hF : Fits tk ak T) :
    ∃ W A B, csaWt tk ak T SA = some (W, A) ∧ constructBwt T SA = some B ∧ B.length = T.length ∧
      (∀ i, i < T.length → W.get i = some (sym B i) ∧ sym B i = sym T ((sym SA i + (T.length - 1)) % T.length)) ∧
      (∀ i c, i ≤ T.length → SymOk tk ak c → rankBwt W i c = some ((B.take i).count c)) ∧
      (∀ i c, 0 < i → i < 2 ^ 63 → SymOk tk ak c → T.count c < i → selectBwt W A i c = some T.length) ∧
      (∀ i c, 0 < i → i ≤ T.count c → ∃ p, p < T.length ∧ selectBwt W A i c = some p ∧ sym B p = c ∧ (B.take p).count c + 1 = i) := by
  obtain ⟨W, A, h1, h2, h3⟩ := csaWt_spec hT hS hF
  have hl := hS.bwt_length
  refine ⟨W, A, bwtOf T SA, h1, constructBwt_spec hS (by omega), hl, fun i hi => ⟨h2.wt.get i (by omega), hS.bwt_sym hi⟩, fun i c hi hc => h2.wt.rank i c (by omega) hc, ?_, ?_⟩
  · intro i c h0 hi hc hlt
    by_cases hcL : c ∈ bwtOf T SA
    · obtain ⟨k, g1, g2, g3, g4, g5, g6⟩ := h2.alpha.present hcL
      have hle := smaller_add_count_le_length T c
      rw [bwt_smaller hS] at g4
      rw [bwt_smaller hS, bwt_count hS] at g5
      rw [selectBwt, g1, sbind]
      by_cases e : k = 0 ∧ c ≠ 0
      · exfalso
        obtain ⟨i0, hi0, he0⟩ := hS.surj (p := 0) hT.pos
        have hm : (0 : Nat) ∈ bwtOf T SA := hS.bwt_perm.mem_iff.2 (by
          obtain ⟨U, rfl, _⟩ := hT
          simp)
        have := g6 e.1 0 hm
        exact e.2 (by omega)
      · rw [if_neg e, g4, sbind, g5, sbind, add64_eq (by omega), sub64_eq (by omega) (by omega), if_neg (by omega), h2.size]; rfl
    · have := h2.alpha.absent c hc hcL
      rw [selectBwt, this, sbind, if_pos, h2.size]; rfl
      refine ⟨rfl, ?_⟩
      rintro rfl
      exact hcL (hS.bwt_perm.mem_iff.2 (by
        obtain ⟨U, rfl, _⟩ := hT
        simp))
  · intro i c h0 hi
    have hcT : c ∈ T := by
      by_contra hc
      rw [List.count_eq_zero_of_not_mem hc] at hi
      omega
    have hcL : c ∈ bwtOf T SA := hS.bwt_perm.mem_iff.2 hcT
    obtain ⟨k, g1, g2, g3, g4, g5, g6⟩ := h2.alpha.present hcL
    have hle := smaller_add_count_le_length T c
    rw [bwt_smaller hS] at g4
    rw [bwt_smaller hS, bwt_count hS] at g5
    obtain ⟨p, _, p2, p3, p4⟩ := (count_image (L := bwtOf T SA) c 0 (bwtOf T SA).length (by omega) (by omega) (i - 1)).1
      ⟨by rw [List.take_zero, List.count_nil]; omega, by rw [List.take_length, bwt_count hS]; omega⟩
    refine ⟨p, by omega, ?_, p3, by omega⟩
    have hsel := h2.wt.select p p2
    rw [p3, p4, show i - 1 + 1 = i by omega] at hsel
    rw [selectBwt, g1, sbind]
    by_cases e : k = 0 ∧ c ≠ 0
    · exfalso
      have hm : (0 : Nat) ∈ bwtOf T SA := hS.bwt_perm.mem_iff.2 (by
        obtain ⟨U, rfl, _⟩ := hT
        simp)
      have := g6 e.1 0 hm
      exact e.2 (by omega)
    · rw [if_neg e, g4, sbind, g5, sbind, add64_eq (by omega), sub64_eq (by omega) (by omega), if_pos (by omega), hsel]

/-- C57: `construct_isa` inverts the suffix array. -/
theorem C57_construct_isa (T SA : List Nat) (hS : IsSA T SA) (hn : T.length < 2 ^ 64) :
    ∃ a, constructIsa SA = some a ∧ a.xs.length = T.length ∧ ∀ i (h : i < SA.length), a.get SA[i] = some i := by
  obtain ⟨b, b1, b2, b3⟩ := constructIsa_spec hS hn
  refine ⟨b, b1, b2, fun i h => ?_⟩
  rw [← sym_lt h, b3 i (by rw [← hS.length]; exact h)]

/-! ### C58 -/

/-- C58: the alphabet strategies number the symbols that occur in ascending order; `char2comp` and `comp2char` are inverse to each other, `char2comp` of a symbol that does not occur is 0, and
    `C[k]` is the number of symbols of the text that are smaller than the `k`-th symbol (`C[sigma]` is the length). `byte_alphabet` and `succinct_byte_alphabet` for bytes, `int_alphabet`
    for symbols below `2^64 - 1`. -/
theorem C58_alphabets (ak : AlphaKind) (L : List Nat) (hL : L ≠ []) (hn : L.length < 2 ^ 64) (hc : ∀ c ∈ L, c < (if ak = .int then 2 ^ 64 - 1 else 256)) :
    ∃ (A : Alpha) (ds : List Nat), newAlpha ak L = some A ∧ ds.Pairwise (· < ·) ∧ (∀ c, c ∈ ds ↔ c ∈ L) ∧ A.sigma = ds.length ∧
      (∀ k (h : k < ds.length), A.char2comp ds[k] = some k ∧ A.comp2char k = some ds[k] ∧ A.C k = some (L.countP (fun c => decide (c < ds[k])))) ∧
      A.C ds.length = some L.length ∧
      ∀ c, c ∉ L → c < (if ak = .byte then 256 else 2 ^ 64) → A.char2comp c = some 0 := by
  have key : ∀ (A : Alpha) (Q : Nat → Prop), newAlpha ak L = some A → AlphaOk A L Q → (∀ c, c < (if ak = .byte then 256 else 2 ^ 64) → Q c) →
      ∃ (A : Alpha) (ds : List Nat), newAlpha ak L = some A ∧ ds.Pairwise (· < ·) ∧ (∀ c, c ∈ ds ↔ c ∈ L) ∧ A.sigma = ds.length ∧
      (∀ k (h : k < ds.length), A.char2comp ds[k] = some k ∧ A.comp2char k = some ds[k] ∧ A.C k = some (L.countP (fun c => decide (c < ds[k])))) ∧
      A.C ds.length = some L.length ∧ ∀ c, c ∉ L → c < (if ak = .byte then 256 else 2 ^ 64) → A.char2comp c = some 0 := by
    intro A Q hA hO hQ
    obtain ⟨ds, d1, d2, d3, d4⟩ := hO.ex
    refine ⟨A, ds, hA, d1.sorted, d1.mem, d2, fun k hk => ⟨(d3 k hk).1, (d3 k hk).2, ?_⟩, ?_, fun c h1 h2 => hO.absent c (hQ c h2) h1⟩
    · rw [d4 k (by omega), ← d1.smaller_eq hk]; rfl
    · rw [d4 _ (Nat.le_refl _), List.take_length, ← d1.length_eq]
  cases ak with
  | byte =>
    obtain ⟨s, s1, s2⟩ := byteAlphabet_spec hL (by simpa using hc) hn
    exact key s.alpha _ (by rw [newAlpha, s1]; rfl) s2 (by simp)
  | succinct =>
    obtain ⟨A, s1, s2⟩ := succinctByteAlphabet_spec hL (by simpa using hc) hn
    exact key A _ s1 s2 (by simp)
  | int =>
    obtain ⟨A, s1, s2⟩ := intAlphabet_spec hL (by simpa using hc) hn
    exact key A _ s1 s2 (by simp)

/-- C58 fails for the symbol `2^64 - 1` in an `int_alphabet`: `largest_symbol+1` is 0 and the bit vector is written outside. -/
theorem C58_largest_symbol_undefined : (newAlpha .int [2 ^ 64 - 1, 0]).isNone = true := by decide +kernel

/-! ### Examples -/

/-- `mississippi$` over 1 = i, 2 = m, 3 = p, 4 = s. -/
def csaText : List Nat := [2, 1, 4, 4, 1, 4, 4, 1, 3, 3, 1, 0]

def csaSA : List Nat := [11, 10, 7, 4, 1, 0, 9, 8, 6, 3, 5, 2]

theorem csaText_isText : IsText csaText := ⟨[2, 1, 4, 4, 1, 4, 4, 1, 3, 3, 1], rfl, by decide⟩

theorem csaSA_isSA : IsSA csaText csaSA := by
  refine ⟨?_, ?_⟩
  · decide
  · decide

example (tk : TreeKind) (ak : AlphaKind) (h : 5 ≤ tk.bounds.1 ∧ 12 < tk.bounds.2) : IsText csaText ∧ IsSA csaText csaSA ∧ Fits tk ak csaText := by
  refine ⟨csaText_isText, csaSA_isSA, fun _ => by decide, fun c hc => ?_, by decide, h.2⟩
  have : c < 5 := by revert c; decide
  omega

example (ak : AlphaKind) : ∀ tk ∈ [TreeKind.huff true, .huff false, .blcd true, .wtInt, .wmInt, .rlmn (.huff true), .rlmn .wmInt, .ap (.huff true) .wmInt, .ap .wmInt (.rlmn .wtInt)], Fits tk ak csaText := by
  intro tk htk
  exact ⟨fun _ => by decide, by revert tk; decide, by decide, by revert tk; decide⟩

example : csaRun (.huff true) .byte csaText csaSA (fun W A => backwardSearch W A 0 11 [1, 4, 4]) = some (3, 4, 2) ∧ occs csaText [1, 4, 4] = 2 := by decide +kernel

example : csaRun (.rlmn (.huff true)) .byte csaText csaSA (fun W A => backwardSearch W A 0 11 [1, 4, 4]) = some (3, 4, 2) ∧
    csaRun (.ap (.huff true) .wmInt) .int csaText csaSA (fun W A => backwardSearch W A 0 11 [1, 4, 4]) = some (3, 4, 2) := by decide +kernel

example : csaRun .wtInt .int csaText csaSA (fun W A => count W A [4, 1, 3]) = some 1 ∧ csaRun .wmInt .int csaText csaSA (fun W A => count W A [4, 2]) = some 0 := by decide +kernel

example : csaRun (.blcd true) .succinct csaText csaSA (fun W A => (saOrder 3 csaSA).bind (fun S => locate W A S 11 [4, 4])) = some [5, 2] := by decide +kernel

example : csaRun (.huff true) .byte csaText csaSA (fun W A => (isaSampling 4 csaSA).bind (fun a => extract W A (isaSample 4 a) 2 7)) = some [4, 4, 1, 4, 4, 1] := by decide +kernel

example : csaRun (.huff false) .int csaText csaSA (fun W A => (textOrder 4 csaSA).bind (fun s => (textOrderIsa 4 2 24 s).bind (fun I => isaGet W A I 6))) = some 8 := by decide +kernel

example : csaRun (.huff true) .byte csaText csaSA (fun W A => selectBwt W A 2 3) = some 6 ∧ csaRun (.huff true) .byte csaText csaSA (fun W A => selectBwt W A 3 3) = some 12 := by decide +kernel

end Sdsl.Props
