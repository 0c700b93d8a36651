/-
  C66, C67: the compressed suffix arrays that store Psi: csa_sada (include/sdsl/csa_sada.hpp) and csa_bitcompressed
  (include/sdsl/csa_bitcompressed.hpp), with the helper classes of include/sdsl/suffix_array_helper.hpp.
-/
import Verif.CsaPsiNew
import Verif.Props.Csa

namespace Sdsl.Props

open Csa Spec CstSct3

/-- `S` are the suffix array samples of a CSA: suffix order or text order, any density. -/
def IsSaSampling (SA : List Nat) (S : SaSample) : Prop :=
  (∃ d, 0 < d ∧ saOrder d SA = some S) ∨ ∃ d t, 0 < d ∧ textOrder d SA = some t ∧ S = t.sample d

/-- `I` are the samples of the inverse suffix array: `_isa_sampling` or `_text_order_isa_sampling_support`. -/
def IsIsaSampling (SA : List Nat) (I : IsaSample) : Prop :=
  (∃ d a, 0 < d ∧ isaSampling d SA = some a ∧ I = isaSample d a) ∨
  ∃ d t ts f, 0 < d ∧ textOrder d SA = some t ∧ textOrderIsa d ts f t = some I ∧ (2 * SA.length ≤ f ∨ 0 < ts ∧ f = ts)

/-- Samples exist for every density and are correct. -/
theorem saSampling_ok {T SA : List Nat} (hT : IsText T) (hS : IsSA T SA) (hn : T.length < 2 ^ 64) {S : SaSample} (h : IsSaSampling SA S) : SaSampleOk S T SA := by
  rcases h with ⟨d, hd, e⟩ | ⟨d, t, hd, e, rfl⟩
  · obtain ⟨S', a1, a2, _⟩ := saOrder_spec hT hS hd hn
    rw [a1] at e
    rw [← Option.some.inj e]; exact a2
  · obtain ⟨t', b1, b2⟩ := textOrder_spec hS hd hn
    rw [b1] at e
    rw [← Option.some.inj e]
    exact (b2.sample hT hS hn).1

theorem isaSampling_ok {T SA : List Nat} (hT : IsText T) (hS : IsSA T SA) (hn : T.length < 2 ^ 64) {I : IsaSample} (h : IsIsaSampling SA I) : IsaSampleOk I T SA := by
  rcases h with ⟨d, a, hd, e, rfl⟩ | ⟨d, t, ts, f, hd, e, e2, hf⟩
  · obtain ⟨a', a1, a2⟩ := isaSampling_spec hT hS hd hn
    rw [a1] at e
    rw [← Option.some.inj e]; exact a2
  · obtain ⟨t', b1, b2⟩ := textOrder_spec hS hd hn
    rw [b1] at e
    obtain rfl := Option.some.inj e
    rw [hS.length] at hf
    obtain ⟨I', c1, c2⟩ := textOrderIsa_spec hS hd b2 hn hf
    rw [c1] at e2
    rw [← Option.some.inj e2]; exact c2

/-- `K` is a `csa_sada<enc_vector<k, dens>, ..>` of the text: `e`, `A` come from the constructor, `S`, `I` are samples of any density, `buf` is the buffer for `rank_bwt` with any content, and `pad` are words
    behind the memory of the codes, which the Elias codes may read (see C30). -/
def IsSada (ak : AlphaKind) (T SA : List Nat) (K : PsiCsa) : Prop :=
  ∃ k sh dens e A pad S I buf fuel, CoderKind.Valid k ∧ 0 < dens ∧ (k = .fib → dens ≤ 2 ^ 23 ∧ T.length ≤ 35521738396875) ∧ 255 * T.length + 1 < 2 ^ 64 ∧ newSada ak (k.vc sh) dens T SA = some (e, A) ∧
    (k.elias = true → pad ≠ [] ∨ e.zbits % 64 ≤ 49) ∧ IsSaSampling SA S ∧ IsIsaSampling SA I ∧ buf.length = bufSize dens ∧ T.length ≤ fuel + 1 ∧ K = sadaCsa (encPsi (k.vc sh) dens e pad) A S I buf fuel

theorem sada_ok {ak : AlphaKind} {T SA : List Nat} {K : PsiCsa} (hT : IsText T) (hS : IsSA T SA) (hF : Fits .wmInt ak T) (h : IsSada ak T SA K) : PsiCsaOk K T SA (SymOk .wmInt ak) := by
  obtain ⟨k, sh, dens, e, A, pad, S, I, buf, fuel, h1, h2, h3, h4, h5, h6, h7, h8, h9, h10, rfl⟩ := h
  obtain ⟨e', A', e1, e2⟩ := newSada_ok (ak := ak) (k := k) h1 (sh := sh) h2 hT hS ⟨fun h c hc => hF.1 (by rcases h with h | h <;> simp [h]) c hc, hF.2.2.1, h4⟩ h3
  rw [h5] at e1
  have := Option.some.inj e1
  rw [Prod.mk.injEq] at this
  obtain ⟨rfl, rfl⟩ := this
  exact e2 pad h6 S I buf fuel (saSampling_ok hT hS (by omega) h7) (isaSampling_ok hT hS (by omega) h8) h9 h10

theorem bit_ok {ak : AlphaKind} {T SA : List Nat} {K : PsiCsa} (hT : IsText T) (hS : IsSA T SA) (hF : Fits .wmInt ak T) (h : newBit ak T SA = some K) : PsiCsaOk K T SA (SymOk .wmInt ak) := by
  obtain ⟨K', e1, e2⟩ := newBit_ok hT hS hF
  rw [h] at e1
  rw [Option.some.inj e1]; exact e2

/-- All queries to a CSA have the right answer. `sym L i` is `L[i]`; the suffix array of the text is `SA`; `Q` are the symbols that may be asked for. -/
structure PsiAnswers (T SA : List Nat) (Q : Nat → Prop) (K : PsiCsa) : Prop where
  size : K.size = T.length
  /-- `psi` goes to the next suffix, and `lf` is its inverse. -/
  psi : ∀ i, i < T.length → ∃ j, K.psi i = some j ∧ j < T.length ∧ sym SA j = (sym SA i + 1) % T.length ∧ lfPsi K j = some i
  lf : ∀ i, i < T.length → ∃ j, lfPsi K i = some j ∧ j < T.length ∧ sym SA j = (sym SA i + (T.length - 1)) % T.length ∧ K.psi j = some i
  sa : ∀ i (h : i < SA.length), K.sa i = some SA[i]
  isa : ∀ i, i < T.length → ∃ r, K.isa i = some r ∧ SA[r]? = some i
  first : ∀ i, i < T.length → firstRow K.alpha i = some (sym T (sym SA i))
  text : ∀ i (h : i < T.length), textPsi K i = some T[i]
  extract : ∀ b e, b ≤ e → e < T.length → extractPsi K b e = some ((T.drop b).take (e - b + 1))
  bwt : ∀ i, i < T.length → bwtPsi K i = some (sym T ((sym SA i + (T.length - 1)) % T.length))
  rank : ∀ i c, i ≤ T.length → Q c → K.rank i c = some (((bwtOf T SA).take i).count c)
  /-- `select_bwt(j, c)` is the row of the `j`-th `c`, and `size()` if there are fewer. -/
  select : ∀ i c, i < T.length → sym (bwtOf T SA) i = c → selectPsi K (((bwtOf T SA).take i).count c + 1) c = some i
  selectNone : ∀ j c, Q c → T.count c < j → j < 2 ^ 63 → selectPsi K j c = some T.length
  /-- The occurrences of a pattern (without 0 before its last symbol): the interval in the suffix array, their number and their positions. -/
  search : ∀ P : List Nat, (∀ c ∈ P, Q c) → 0 ∉ P.dropLast →
    (∃ l r, backwardSearch (psiWt K) K.alpha 0 (sub64 T.length 1) P = some (l, r, occs T P) ∧ l + occs T P ≤ T.length ∧ (r + 1) % 2 ^ 64 = l + occs T P ∧
      ∀ i, i < T.length → (l ≤ i ∧ i < l + occs T P ↔ P <+: T.drop (sym SA i))) ∧
    Csa.count (psiWt K) K.alpha P = some (occs T P) ∧
    ∃ L, locatePsi K P = some L ∧ L.Perm ((List.range T.length).filter (fun p => decide (P <+: T.drop p)))

theorem psi_answers {T SA : List Nat} {Q : Nat → Prop} {K : PsiCsa} (h : PsiCsaOk K T SA Q) : PsiAnswers T SA Q K := by
  have hT := h.text
  have hS := h.suf
  have hn := h.len
  have hl := hS.length
  have h2 := h.csaOk
  obtain ⟨ps, p1, p2⟩ := h.psi
  refine ⟨h.size, fun i hi => ?_, fun i hi => ?_, fun i hi => ?_, fun i hi => ?_, fun i hi => h.firstRow_ok hi, fun i hi => ?_, fun b e hbe he => h.extract_ok hbe he, fun i hi => ?_, h.rank, fun i c hi hc => ?_,
    fun j c hc hj hj2 => ?_, fun P hP h0 => ?_⟩
  · obtain ⟨q1, q2⟩ := p1 i hi
    obtain ⟨r, r1, r2, r3⟩ := h.lf_ok q1
    rw [q2, prv_nxt (hS.sym_get_lt hi)] at r3
    exact ⟨ps i, p2 i hi, q1, q2, by rw [r1, hS.inj r2 hi r3]⟩
  · obtain ⟨r, r1, r2, r3⟩ := h.lf_ok hi
    obtain ⟨q1, q2⟩ := p1 r r2
    rw [r3, nxt_prv (hS.sym_get_lt hi)] at q2
    exact ⟨r, r1, r2, r3, by rw [p2 r r2, hS.inj q1 hi q2]⟩
  · rw [h.sa i (by omega), sym_lt hi]
  · obtain ⟨r, r1, r2, r3⟩ := h.isa i hi
    rw [sym_lt (by omega)] at r3
    exact ⟨r, r1, by rw [List.getElem?_eq_getElem (by omega), r3]⟩
  · rw [h.text_ok hi, sym_lt hi]
  · rw [h.bwt_ok hi, hS.bwt_sym hi]; rfl
  · subst hc; exact h.select_ok hi
  · by_cases hm : c ∈ bwtOf T SA
    · obtain ⟨k, k1, k2, k3, k4, k5, k6, k7⟩ := alpha_rows hT hS h.alpha hm
      have := smaller_add_count_le_length T c
      rw [selectPsi, k1, sbind, if_neg k6, k4, sbind, k5, sbind, add64_eq (by omega), sub64_eq (by omega) (by omega), if_neg (by omega), h.size]; rfl
    · rw [selectPsi, h.alpha.absent c hc hm, sbind, if_pos ⟨rfl, fun h0 => hm (by rw [h0]; exact zero_mem hT hS)⟩, h.size]; rfl
  · obtain ⟨lo, hi, g1, g2, g3, g4⟩ := h2.backwardSearch_spec (P := P) (S := []) (lo := 0) (hi := T.length) hP (by omega) (by omega) (by
      intro i hi; simp [CMatch, hi])
    rw [List.append_nil] at g4
    have hm : ∀ i, i < T.length → (lo ≤ i ∧ i < hi ↔ P <+: T.drop (sym SA i)) := fun i hi => (g4 i hi).trans (cmatch_iff hT P _ (hS.sym_get_lt hi) h0)
    have hc : hi - lo = occs T P := interval_count hS g2 g3 hm
    rw [← hc]
    have he : lo + (hi - lo) = hi := by omega
    refine ⟨⟨lo, sub64 hi 1, g1, by omega, ?_, ?_⟩, ?_, ?_⟩
    · rw [he]; exact add_sub64 (by omega)
    · rw [he]; exact hm
    · rw [Csa.count, h2.size]
      by_cases e : T.length < P.length
      · rw [if_pos e, hc, occs]
        congr 1
        symm
        rw [List.countP_eq_zero]
        intro p _
        rw [decide_eq_true_eq]
        intro hpre
        have := hpre.length_le
        rw [List.length_drop] at this
        omega
      · rw [if_neg e, g1, sbind]; rfl
    have key : ∀ ks : List Nat, (∀ k ∈ ks, lo + k < T.length) → ks.mapM (fun i => K.sa (add64 lo i)) = some (ks.map (fun k => sym SA (lo + k))) := by
      intro ks
      induction ks with
      | nil => intro _; rfl
      | cons k ks ih =>
        intro hk
        have := hk k (by simp)
        rw [List.mapM_cons, add64_eq (by omega), h.sa _ (by omega), sbind, ih (fun j hj => hk j (by simp [hj])), sbind]
        rfl
    refine ⟨(List.range (hi - lo)).map (fun k => sym SA (lo + k)), ?_, ?_⟩
    · rw [locatePsi, h.size, g1, sbind]
      dsimp only
      rw [key _ (fun k hk => by have := List.mem_range.1 hk; omega)]
    · rw [List.perm_ext_iff_of_nodup]
      · intro p
        rw [List.mem_map, List.mem_filter, List.mem_range, decide_eq_true_eq]
        constructor
        · rintro ⟨k, hk, rfl⟩
          rw [List.mem_range] at hk
          exact ⟨hS.sym_get_lt (by omega), (hm _ (by omega)).1 ⟨by omega, by omega⟩⟩
        · rintro ⟨hp, hpre⟩
          obtain ⟨i, hi', rfl⟩ := hS.surj hp
          obtain ⟨m1, m2⟩ := (hm i hi').2 hpre
          exact ⟨i - lo, List.mem_range.2 (by omega), by rw [show lo + (i - lo) = i by omega]⟩
      · rw [List.Nodup, List.pairwise_map]
        refine List.Pairwise.imp_of_mem ?_ List.nodup_range
        intro a b ha hb hab he
        rw [List.mem_range] at ha hb
        have := hS.inj (by omega) (by omega) he
        omega
      · exact List.Nodup.filter _ List.nodup_range

/-! ### C66 -/

/-- **C66** The constructor of `csa_sada` succeeds for every text that the alphabet can represent, every coder and every density (of the three kinds of samples). -/
theorem C66_construct (ak : AlphaKind) (k : CoderKind) (hk : k.Valid) (sh : Option Word) {T SA : List Nat} (hT : IsText T) (hS : IsSA T SA) (hF : Fits .wmInt ak T) (hn : 255 * T.length + 1 < 2 ^ 64)
    {dens d1 d2 : Nat} (hd : 0 < dens) (h1 : 0 < d1) (h2 : 0 < d2) (hfib : k = .fib → dens ≤ 2 ^ 23 ∧ T.length ≤ 35521738396875) :
    ∃ e A S a, newSada ak (k.vc sh) dens T SA = some (e, A) ∧ saOrder d1 SA = some S ∧ isaSampling d2 SA = some a ∧ ∀ buf pad, buf.length = bufSize dens → (k.elias = true → pad ≠ [] ∨ e.zbits % 64 ≤ 49) →
      IsSada ak T SA (sadaCsa (encPsi (k.vc sh) dens e pad) A S (isaSample d2 a) buf T.length) := by
  obtain ⟨e, A, e1, -⟩ := newSada_ok (ak := ak) (k := k) hk (sh := sh) hd hT hS ⟨fun h c hc => hF.1 (by rcases h with h | h <;> simp [h]) c hc, hF.2.2.1, hn⟩ hfib
  obtain ⟨S', a1, a2, _⟩ := saOrder_spec hT hS h1 (by omega)
  obtain ⟨a, b1, b2⟩ := isaSampling_spec hT hS h2 (by omega)
  exact ⟨e, A, S', a, e1, a1, b1, fun buf pad hb hp => ⟨k, sh, dens, e, A, pad, S', _, buf, _, hk, hd, hfib, hn, e1, hp, Or.inl ⟨d1, h1, a1⟩, Or.inl ⟨d2, a, h2, b1, rfl⟩, hb, by omega, rfl⟩⟩

/-- **C66** (partial: for the Elias codes one word behind the codes must be readable, or the last word of the codes have 15 free bits) All queries to a `csa_sada` have the right answer.
    Missing: without that word `psi` can read past the end, `C66_reads_past_end`. -/
theorem C66_csa_sada_partial {ak : AlphaKind} {T SA : List Nat} {K : PsiCsa} (hT : IsText T) (hS : IsSA T SA) (hF : Fits .wmInt ak T) (h : IsSada ak T SA K) : PsiAnswers T SA (SymOk .wmInt ak) K :=
  psi_answers (sada_ok hT hS hF h)

/-- A query to a `csa_sada`. -/
def sadaRun {α : Type} (ak : AlphaKind) (c : VC) (dens : Nat) (T SA : List Nat) (pad : List Word) (d1 d2 : Nat) (f : PsiCsa → Option α) : Option α := do
  let ea ← newSada ak c dens T SA
  let s ← saOrder d1 SA
  let a ← isaSampling d2 SA
  f (sadaCsa (encPsi c dens ea.1 pad) ea.2 s (isaSample d2 a) (List.replicate (bufSize dens) 7) T.length)

/-- Finding (C66): in the default `csa_sada<>` of this text of nine symbols, `psi[8]` reads the word behind the memory of the codes; `lf`, `isa` and `text` use it. -/
theorem C66_reads_past_end : sadaRun .byte (VC.elias none Coder.delta) 128 [2, 2, 1, 1, 3, 2, 3, 1, 0] [8, 7, 2, 3, 1, 0, 5, 6, 4] [] 32 64 (fun K => some (K.psi 8, K.isa 5, textPsi K 5)) = some (none, none, none) ∧
    sadaRun .byte (VC.elias none Coder.delta) 128 [2, 2, 1, 1, 3, 2, 3, 1, 0] [8, 7, 2, 3, 1, 0, 5, 6, 4] [0#64] 32 64 (fun K => some (K.psi 8, K.isa 5, textPsi K 5)) = some (some 6, some 6, some 2) ∧
    IsText [2, 2, 1, 1, 3, 2, 3, 1, 0] ∧ IsSA [2, 2, 1, 1, 3, 2, 3, 1, 0] [8, 7, 2, 3, 1, 0, 5, 6, 4] := by
  refine ⟨by decide +kernel, by decide +kernel, ⟨[2, 2, 1, 1, 3, 2, 3, 1], rfl, by decide⟩, by decide, by decide⟩

/-! ### C67 -/

/-- **C67** The constructor of `csa_bitcompressed` succeeds, and all queries have the right answer. -/
theorem C67_csa_bitcompressed (ak : AlphaKind) {T SA : List Nat} (hT : IsText T) (hS : IsSA T SA) (hF : Fits .wmInt ak T) : ∃ K, newBit ak T SA = some K ∧ PsiAnswers T SA (SymOk .wmInt ak) K := by
  obtain ⟨K, e1, e2⟩ := newBit_ok (ak := ak) hT hS hF
  exact ⟨K, e1, psi_answers e2⟩

/-! ### Examples -/

example (ak : AlphaKind) : IsText csaText ∧ IsSA csaText csaSA ∧ Fits .wmInt ak csaText ∧ 255 * csaText.length + 1 < 2 ^ 64 :=
  ⟨csaText_isText, csaSA_isSA, ⟨fun _ => by decide, by decide, by decide, by decide⟩, by decide⟩

example : sadaRun .byte (VC.elias none Coder.delta) 4 csaText csaSA [0#64] 3 5 (fun K => (List.range 12).mapM K.psi) = some [5, 0, 7, 10, 11, 4, 1, 6, 2, 3, 8, 9] := by decide +kernel

example : sadaRun .succinct (VC.elias none Coder.delta) 4 csaText csaSA [0#64] 3 5 (fun K => (List.range 12).mapM K.sa) = some csaSA ∧
    sadaRun .byte VC.fib 4 csaText csaSA [] 3 5 (fun K => (List.range 12).mapM (textPsi K)) = some csaText := by decide +kernel

example : sadaRun .byte (VC.comma 2) 3 csaText csaSA [] 3 5 (fun K => locatePsi K [4, 4]) = some [5, 2] ∧
    sadaRun .byte (VC.comma 2) 3 csaText csaSA [] 3 5 (fun K => K.rank 7 4) = some 2 ∧ sadaRun .byte (VC.comma 2) 3 csaText csaSA [] 3 5 (fun K => selectPsi K 2 4) = some 3 := by decide +kernel

example : (newBit .byte csaText csaSA).bind (fun K => locatePsi K [4, 4]) = some [5, 2] ∧ (newBit .byte csaText csaSA).bind (fun K => extractPsi K 2 7) = some [4, 4, 1, 4, 4, 1] := by decide +kernel

end Sdsl.Props
