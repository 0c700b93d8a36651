/-
  C90: fuzzy samples of the suffix array and of its inverse.
-/
import Verif.FuzzyLemmas
import Verif.LcpLemmas
import Verif.Props.CsaPsi
import Verif.Props.Csa

namespace Sdsl.Props

open Sdsl.Csa

/-- C90: the constructor samples exactly one suffix `ps[k]` of every block of `dens` suffixes. If some row of the block is not smaller than the row of the previous sample, the sample has the smallest such row;
    otherwise it has the smallest row of the block. The sampled rows are the rows of these suffixes, and for them the value of the suffix array is returned. (`R p` is the row of the suffix `p`.) -/
theorem C90_samples (T SA : List Nat) (hT : IsText T) (hS : IsSA T SA) (hn : T.length < 2 ^ 63) (dens : Nat) (hd : 0 < dens) (hd2 : dens ≤ 2 ^ 63) :
    ∃ (s : Fuzzy) (R : Nat → Nat) (ps : List Nat), fuzzy dens SA = some s ∧ (∀ p, p < T.length → R p < T.length ∧ sym SA (R p) = p) ∧ ps.length = (T.length + dens - 1) / dens ∧
      (∀ k (h : k < ps.length), k * dens ≤ ps[k] ∧ ps[k] < k * dens + dens ∧ ps[k] < T.length) ∧
      (∀ k (h : k < ps.length) prev, (k = 0 ∧ prev = 0 ∨ 0 < k ∧ ∃ q, ps[k - 1]? = some q ∧ prev = R q) →
        (prev ≤ R ps[k] ∧ ∀ t, k * dens ≤ t → t < k * dens + dens → t < T.length → prev ≤ R t → R ps[k] ≤ R t) ∨
        ∀ t, k * dens ≤ t → t < k * dens + dens → t < T.length → R t < prev ∧ R ps[k] ≤ R t) ∧
      ∀ i, i < T.length → s.sample.isSampled i = some (decide (sym SA i ∈ ps)) ∧ (sym SA i ∈ ps → s.sample.get i = some (sym SA i)) := by
  obtain ⟨s, R, ps, h1, h2, h3⟩ := fuzzy_spec hT hS hd hn hd2
  have hsm := h2.sample h3 hd hT.pos
  have hl := h2.lms
  have hb : ∀ i, i < T.length → s.sample.isSampled i = some (decide (sym SA i ∈ ps)) := by
    intro i hi
    show Bv.get s.markedSa i = _
    rw [Bv.get_of_lt (by omega), h2.ms.2 i (by omega)]
    congr 2
    rw [eq_iff_iff]
    constructor
    · intro h
      obtain ⟨p, hp, rfl⟩ := List.mem_map.1 h
      obtain ⟨k, hk, rfl⟩ := List.mem_iff_getElem.1 hp
      rw [(h3 _ (h2.lt hk)).2]; exact hp
    · intro h
      refine List.mem_map.2 ⟨_, h, ?_⟩
      have := h3 _ (hS.sym_get_lt hi)
      exact hS.inj this.1 hi this.2
  refine ⟨s, R, ps, h1, h3, h2.len, fun k h => ?_, fun k h prev hp => ?_, fun i hi => ⟨hb i hi, fun hm => ?_⟩⟩
  · have := h2.picked.block k h
    omega
  · have hc := h2.picked.choice k h
    have he : (if k = 0 then 0 else R (ps.getD (k - 1) 0)) = prev := by
      rcases hp with ⟨rfl, rfl⟩ | ⟨h0, q, q1, rfl⟩
      · rfl
      · rw [if_neg (by omega), List.getD_eq_getElem?_getD, q1]; rfl
    rw [he] at hc
    rcases hc with ⟨c1, c2⟩ | c
    · exact .inl ⟨c1, fun t a b c => c2 t a (by omega)⟩
    · exact .inr (fun t a b d => c t a (by omega))
  · obtain ⟨b, b1, b2⟩ := hsm.def_ i hi
    rw [hb i hi, Option.some.injEq] at b1
    exact b2 (by rw [← b1]; exact decide_eq_true hm)

/-- C90: `csa[i]` of a `csa_wt` and of a `csa_sada` with fuzzy samples is the value of the suffix array. -/
theorem C90_access (tk : TreeKind) (ak : AlphaKind) (T SA : List Nat) (hT : IsText T) (hS : IsSA T SA) (dens : Nat) (hd : 0 < dens) (hd2 : dens ≤ 2 ^ 63) :
    (Fits tk ak T → ∃ W A s, csaWt tk ak T SA = some (W, A) ∧ fuzzy dens SA = some s ∧ ∀ fuel i, T.length ≤ fuel + 1 → (h : i < SA.length) → saGet W A s.sample fuel i = some SA[i]) ∧
    (Fits .wmInt ak T → ∀ K, IsSada ak T SA K → ∃ s, fuzzy dens SA = some s ∧ ∀ fuel i, T.length ≤ fuel + 1 → (h : i < SA.length) → saPsi K.size K.psi s.sample fuel i = some SA[i]) := by
  have hl := hS.length
  refine ⟨fun hF => ?_, fun hF K hK => ?_⟩
  · obtain ⟨W, A, h1, h2, h3⟩ := csaWt_spec hT hS hF
    obtain ⟨s, R, ps, f1, f2, f3⟩ := fuzzy_spec hT hS hd (by have := tk.bounds_le; have := hF.2.2.2; omega) hd2
    exact ⟨W, A, s, h1, f1, fun fuel i hf hi => by rw [saGet_spec h2 (f2.sample f3 hd hT.pos) (by omega) hf (by omega), sym_lt hi]⟩
  · have hk := sada_ok hT hS hF hK
    obtain ⟨s, R, ps, f1, f2, f3⟩ := fuzzy_spec hT hS hd hk.len hd2
    obtain ⟨psi, p1, p2⟩ := hk.psi
    exact ⟨s, f1, fun fuel i hf hi => by rw [hk.size, saPsi_ok hS p2 p1 (f2.sample f3 hd hT.pos) hf (by omega), sym_lt hi]⟩

/-- C90: `sample_qeq(i)` returns the row and the position of the next sample at or behind `i`, or of the first sample if there is none; `sample_leq(i)` returns those of the last sample
    at or before `i`, or of the last sample at all if there is none. -/
theorem C90_neighbours (T SA : List Nat) (hT : IsText T) (hS : IsSA T SA) (hn : T.length < 2 ^ 63) (dens : Nat) (hd : 0 < dens) (hd2 : dens ≤ 2 ^ 63) :
    ∃ (s : Fuzzy) (ps : List Nat), fuzzy dens SA = some s ∧ ps.Pairwise (· < ·) ∧ (∀ i, i < T.length → s.sample.isSampled i = some (decide (sym SA i ∈ ps))) ∧ ∀ i, i < T.length →
      (∃ v q, (s.isaSample dens).qeq i = some (v, q) ∧ v < T.length ∧ sym SA v = q ∧ q ∈ ps ∧ (i ≤ q ∧ (∀ x ∈ ps, i ≤ x → q ≤ x) ∨ (∀ x ∈ ps, x < i ∧ q ≤ x))) ∧
      (∃ v q, (s.isaSample dens).leq i = some (v, q) ∧ v < T.length ∧ sym SA v = q ∧ q ∈ ps ∧ (q ≤ i ∧ (∀ x ∈ ps, x ≤ i → x ≤ q) ∨ (∀ x ∈ ps, i < x ∧ x ≤ q))) := by
  obtain ⟨s, R, ps, f1, f2, f3⟩ := fuzzy_spec hT hS hd hn hd2
  have hl := f2.lms
  have hs := List.pairwise_iff_getElem.1 f2.picked.sorted
  refine ⟨s, ps, f1, f2.picked.sorted, fun i hi => ?_, fun i hi => ⟨?_, ?_⟩⟩
  · show Bv.get s.markedSa i = _
    rw [Bv.get_of_lt (by omega), f2.ms.2 i (by omega)]
    congr 2
    rw [eq_iff_iff]
    constructor
    · intro h
      obtain ⟨p, hp, rfl⟩ := List.mem_map.1 h
      obtain ⟨k, hk, rfl⟩ := List.mem_iff_getElem.1 hp
      rw [(f3 _ (f2.lt hk)).2]; exact hp
    · intro h
      refine List.mem_map.2 ⟨_, h, ?_⟩
      have := f3 _ (hS.sym_get_lt hi)
      exact hS.inj this.1 hi this.2
  · obtain ⟨k, hk, k1, k2⟩ := f2.qeq f3 hd (by omega) hi
    refine ⟨_, _, k1, (f3 _ (f2.lt hk)).1, (f3 _ (f2.lt hk)).2, List.getElem_mem hk, ?_⟩
    rcases k2 with ⟨a, b⟩ | ⟨a, b⟩
    · refine .inl ⟨a, fun x hx hix => ?_⟩
      obtain ⟨l, hl, rfl⟩ := List.mem_iff_getElem.1 hx
      exact b l hl hix
    · refine .inr (fun x hx => ?_)
      obtain ⟨l, hl, rfl⟩ := List.mem_iff_getElem.1 hx
      refine ⟨b l hl, ?_⟩
      subst a
      rcases Nat.eq_zero_or_pos l with h | h
      · subst h; exact Nat.le_refl _
      · exact Nat.le_of_lt (hs 0 l _ _ h)
  · obtain ⟨k, hk, k1, k2⟩ := f2.leq f3 hd (by omega) hi
    refine ⟨_, _, k1, (f3 _ (f2.lt hk)).1, (f3 _ (f2.lt hk)).2, List.getElem_mem hk, ?_⟩
    rcases k2 with ⟨a, b⟩ | ⟨a, b⟩
    · refine .inl ⟨a, fun x hx hix => ?_⟩
      obtain ⟨l, hl, rfl⟩ := List.mem_iff_getElem.1 hx
      exact b l hl hix
    · refine .inr (fun x hx => ?_)
      obtain ⟨l, hl, rfl⟩ := List.mem_iff_getElem.1 hx
      refine ⟨b l hl, ?_⟩
      rcases Nat.eq_or_lt_of_le (show l ≤ k by omega) with h | h
      · subst h; exact Nat.le_refl _
      · exact Nat.le_of_lt (hs l k _ _ h)

/-- C90: the inverse suffix array, the text and its substrings of a `csa_wt` with `fuzzy_sa_sampling` and `fuzzy_isa_sampling_support`. -/
theorem C90_inverse_csa_wt (tk : TreeKind) (ak : AlphaKind) (T SA : List Nat) (hT : IsText T) (hS : IsSA T SA) (hF : Fits tk ak T) (dens : Nat) (hd : 0 < dens) (hd2 : dens ≤ 2 ^ 63) :
    ∃ W A s, csaWt tk ak T SA = some (W, A) ∧ fuzzy dens SA = some s ∧
      (∀ i, i < T.length → ∃ r, isaGet W A (s.isaSample dens) i = some r ∧ SA[r]? = some i) ∧
      (∀ i (h : i < T.length), textGet W A (s.isaSample dens) i = some T[i]) ∧
      (∀ b e, b ≤ e → e < T.length → extract W A (s.isaSample dens) b e = some ((T.drop b).take (e - b + 1))) := by
  have hl := hS.length
  have hn : T.length < 2 ^ 63 := by have := tk.bounds_le; have := hF.2.2.2; omega
  obtain ⟨W, A, h1, h2, h3⟩ := csaWt_spec hT hS hF
  obtain ⟨s, R, ps, f1, f2, f3⟩ := fuzzy_spec hT hS hd hn hd2
  have hisa : ∀ i, i < T.length → ∃ r, isaGet W A (s.isaSample dens) i = some r ∧ r < T.length ∧ sym SA r = i := by
    intro i hi
    obtain ⟨k, hk, k1, _⟩ := f2.qeq f3 hd (by omega) hi
    exact isaGet_wrap h2 hn hi k1 (f3 _ (f2.lt hk)).1 (f3 _ (f2.lt hk)).2
  refine ⟨W, A, s, h1, f1, fun i hi => ?_, fun i hi => ?_, fun b e hbe he => ?_⟩
  · obtain ⟨r, r1, r2, r3⟩ := hisa i hi
    exact ⟨r, r1, by rw [List.getElem?_eq_getElem (by omega), ← r3, sym_lt (by omega)]⟩
  · obtain ⟨r, r1, r2, r3⟩ := hisa i hi
    rw [textGet_of_isa h2 r1 r2 r3, sym_lt hi]
  · obtain ⟨r, r1, r2, r3⟩ := hisa e he
    exact extract_of_isa h2 hbe he r1 r2 r3

theorem fuzzy_isa_psi {ak : AlphaKind} {T SA : List Nat} {K : PsiCsa} (hT : IsText T) (hS : IsSA T SA) (hF : Fits .wmInt ak T) (h : IsSada ak T SA K) {dens : Nat} (hd : 0 < dens) (hd2 : dens ≤ 2 ^ 63) :
    ∃ s first, fuzzy dens SA = some s ∧ first < dens ∧ first < T.length ∧ (∀ a b, a < T.length → b < T.length → sym SA a = first → sym SA b < dens → a ≤ b) ∧
      ∀ i, i < T.length → ∃ r, isaPsi K.psi (s.isaSample dens) i = some r ∧ r < T.length ∧ sym SA r = if first ≤ i then i else (2 ^ 64 + i) % T.length := by
  have hk := sada_ok hT hS hF h
  have hn := hk.len
  obtain ⟨s, R, ps, f1, f2, f3⟩ := fuzzy_spec hT hS hd hn hd2
  obtain ⟨psi, p1, p2⟩ := hk.psi
  have hT0 := hT.pos
  have h0 : 0 < ps.length := by rw [f2.len, ceil_lt hd]; omega
  have hb := f2.picked.block 0 h0
  have hc := f2.picked.choice 0 h0
  rw [if_pos rfl, Nat.zero_mul, Nat.zero_add] at hc
  refine ⟨s, ps[0], f1, by omega, by omega, fun a b ha hb' e1 e2 => ?_, fun i hi => ?_⟩
  · have ea : R ps[0] = a := hS.inj (f3 _ (f2.lt h0)).1 ha (by rw [(f3 _ (f2.lt h0)).2, e1])
    have hbl := hS.sym_get_lt hb'
    have eb : R (sym SA b) = b := hS.inj (f3 _ hbl).1 hb' (f3 _ hbl).2
    rcases hc with ⟨_, c⟩ | c
    · have := c (sym SA b) (by omega) (by omega) (by omega)
      omega
    · have := (c (sym SA b) (by omega) (by omega)).1
      omega
  · obtain ⟨k, hk', k1, k2⟩ := f2.leq f3 hd (by omega) hi
    obtain ⟨r, r1, r2, r3⟩ := isaPsi_fuzzy (psi := K.psi) (fun x hx => ⟨psi x, p2 x hx, p1 x hx⟩) hS (by omega) hi k1 (f3 _ (f2.lt hk')).1 (f3 _ (f2.lt hk')).2
    refine ⟨r, r1, r2, ?_⟩
    rw [r3]
    have hs := List.pairwise_iff_getElem.1 f2.picked.sorted
    rcases k2 with ⟨a, b⟩ | ⟨a, b⟩
    · rw [if_pos a, if_pos]
      rcases Nat.eq_zero_or_pos k with e | e
      · subst e; exact a
      · have := hs 0 k h0 hk' e; omega
    · have e1 := b k hk'
      have e2 := b 0 h0
      rw [if_neg (by omega), if_neg (by omega)]

/-- C90 (partial): `isa[i]` of a `csa_sada` with fuzzy samples is right from the first sample on. Missing: the suffixes in front of the first sample, for which it is wrong (see below). -/
theorem C90_inverse_csa_sada_partial (ak : AlphaKind) (T SA : List Nat) (K : PsiCsa) (hT : IsText T) (hS : IsSA T SA) (hF : Fits .wmInt ak T) (h : IsSada ak T SA K) (dens : Nat) (hd : 0 < dens) (hd2 : dens ≤ 2 ^ 63) :
    ∃ s first, fuzzy dens SA = some s ∧ first < dens ∧ (∀ a b, a < T.length → b < T.length → sym SA a = first → sym SA b < dens → a ≤ b) ∧
      ∀ i, first ≤ i → i < T.length → ∃ r, isaPsi K.psi (s.isaSample dens) i = some r ∧ SA[r]? = some i := by
  obtain ⟨s, first, f1, f2, f3, f4, f5⟩ := fuzzy_isa_psi hT hS hF h hd hd2
  have hl := hS.length
  refine ⟨s, first, f1, f2, f4, fun i h1 h2 => ?_⟩
  obtain ⟨r, r1, r2, r3⟩ := f5 i h2
  rw [if_pos h1, sym_lt (by omega)] at r3
  exact ⟨r, r1, by rw [List.getElem?_eq_getElem (by omega), r3]⟩

/-- C90 fails for `isa[i]` of a `csa_sada`: in a text that is not longer than the density, every suffix `i` except the last one has no sample before it. `sample_leq` then returns the sample behind it, the number of steps
    wraps around, and after almost 2^64 steps the result is the row of the suffix `(2^64 + i) mod n` instead of `i`. -/
theorem C90_inverse_csa_sada_wrong (ak : AlphaKind) (T SA : List Nat) (K : PsiCsa) (hT : IsText T) (hS : IsSA T SA) (hF : Fits .wmInt ak T) (h : IsSada ak T SA K) (dens : Nat) (hd : T.length ≤ dens) (hd2 : dens ≤ 2 ^ 63) :
    ∃ s, fuzzy dens SA = some s ∧ ∀ i, i + 1 < T.length → ∃ r, isaPsi K.psi (s.isaSample dens) i = some r ∧ SA[r]? = some ((2 ^ 64 + i) % T.length) := by
  have hT0 := hT.pos
  have hl := hS.length
  obtain ⟨s, first, f1, f2, f3, f4, f5⟩ := fuzzy_isa_psi hT hS hF h (show 0 < dens by omega) hd2
  have hrow : ∀ p, p < T.length → ∃ j, j < T.length ∧ sym SA j = p := by
    intro p hp
    obtain ⟨j, h1, h2⟩ := List.mem_iff_getElem.1 (hS.mem.2 hp)
    exact ⟨j, by omega, by rw [sym_lt h1, h2]⟩
  have h0 : sym SA 0 = T.length - 1 := Lcp.sa_zero hT hS
  have hf : first = T.length - 1 := by
    obtain ⟨a, a1, a2⟩ := hrow first f3
    have := f4 a 0 a1 hT0 a2 (by omega)
    rw [← h0, ← a2]; congr 1; omega
  refine ⟨s, f1, fun i hi => ?_⟩
  obtain ⟨r, r1, r2, r3⟩ := f5 i (by omega)
  rw [if_neg (by omega), sym_lt (by omega)] at r3
  exact ⟨r, r1, by rw [List.getElem?_eq_getElem (by omega), r3]⟩

/-- C90 fails for the text `2 1 0` with any density from 3 on: `isa[0]` is 1, but the suffix 0 is in row 2. -/
theorem C90_inverse_csa_sada_witness (K : PsiCsa) (h : IsSada .byte [2, 1, 0] [2, 1, 0] K) (dens : Nat) (hd : 3 ≤ dens) (hd2 : dens ≤ 2 ^ 63) :
    ∃ s, fuzzy dens [2, 1, 0] = some s ∧ isaPsi K.psi (s.isaSample dens) 0 = some 1 ∧ [2, 1, 0][2]? = some 0 := by
  obtain ⟨s, s1, s2⟩ := C90_inverse_csa_sada_wrong .byte [2, 1, 0] [2, 1, 0] K ⟨[2, 1], rfl, by decide⟩ ⟨by decide, by decide⟩ ⟨by decide, by decide, by decide, by decide⟩ h dens hd hd2
  obtain ⟨r, r1, r2⟩ := s2 0 (by decide)
  have : r = 1 := by
    match r, r2 with
    | 0, h => simp at h
    | 1, _ => rfl
    | 2, h => simp at h
    | r + 3, h => simp at h
  subst this
  exact ⟨s, s1, r1, rfl⟩

example (ak : AlphaKind) : IsText csaText ∧ IsSA csaText csaSA ∧ Fits (.huff true) ak csaText ∧ Fits .wmInt ak csaText ∧ csaText.length < 2 ^ 63 :=
  ⟨csaText_isText, csaSA_isSA, ⟨fun _ => by decide, by decide, by decide, by decide⟩, ⟨fun _ => by decide, by decide, by decide, by decide⟩, by decide⟩

/-- The hypothesis of the refutation can be met. -/
example : ∃ K, IsSada .byte [2, 1, 0] [2, 1, 0] K := by
  have hT : IsText [2, 1, 0] := ⟨[2, 1], rfl, by decide⟩
  have hS : IsSA [2, 1, 0] [2, 1, 0] := ⟨by decide, by decide⟩
  obtain ⟨e, A, S, a, _, _, _, h⟩ := C66_construct .byte .delta trivial none hT hS ⟨by decide, by decide, by decide, by decide⟩ (by decide) (dens := 128) (d1 := 32) (d2 := 64) (by decide) (by decide) (by decide) (fun h => by cases h)
  exact ⟨_, h (List.replicate (bufSize 128) 0) [0#64] (by simp) (fun _ => .inl (by simp))⟩

example : (fuzzy 3 csaSA).bind (fun s => (List.range 12).mapM s.sample.isSampled) = some [false, false, true, false, true, false, true, false, false, true, false, false] := by decide +kernel

example : csaRun (.huff true) .byte csaText csaSA (fun W A => (fuzzy 3 csaSA).bind (fun s => (List.range 12).mapM (saGet W A s.sample 11))) = some csaSA := by decide +kernel

example : csaRun (.huff true) .byte csaText csaSA (fun W A => (fuzzy 3 csaSA).bind (fun s => (List.range 12).mapM (textGet W A (s.isaSample 3)))) = some csaText := by decide +kernel

end Sdsl.Props
