import Verif.SerialMore

/-! # C91: what `serialize` writes, `load` reads

`Restores` is the claim for one class: `serialize` writes bytes and returns their number; `load` called on any other object, with more
bytes behind, reads exactly these bytes and leaves an object with the same contents, whose supports point to its own members. -/
namespace Sdsl.Props
open Sdsl.Serial
open IntVec (Byte)

/-- `ok v p`: `v` is a possible object with pointer `p`, and its supports point to its own members; `tgt u q`: `u` is an object that
    `load` is called on, with arbitrary pointers; `same v v'`: all members have the same contents; `nn`: the pointer given to `load` must not
    be null. -/
def Restores {α : Type} (c : Codec α) (nn : Bool) (ok tgt : α → Ptr → Prop) (same : α → α → Prop) : Prop :=
  ∀ v p, ok v p → ∃ out, c.ser v = some (out, out.length) ∧
    ∀ u q p' rest, tgt u q → (nn = true → p' ≠ none) →
      ∃ v', c.load u p' (out ++ rest) = some (v', rest) ∧ same v v' ∧ ok v' p'

/-! ### Objects for the examples -/

/-- Three bits. -/
def exBits : IntVec := ⟨3, [5], 1⟩
/-- Two numbers of five bits. -/
def exInts : IntVec := ⟨10, [100], 5⟩
/-- Two words. -/
def exWords : IntVec := ⟨128, [0, 5], 64⟩
/-- Two bytes. -/
def exBytes : IntVec := ⟨16, [513], 8⟩
/-- Two numbers of four bits. -/
def exNibbles : IntVec := ⟨8, [33], 4⟩
/-- A superblock of seven bits. -/
def exSuper : IntVec := ⟨7, [3], 7⟩
/-- A rank support. -/
def exRank (p : Ptr) : RankSup := ⟨p, exWords⟩
/-- A select support of two arguments. -/
def exSel (p : Ptr) : SelMcl := ⟨p, 2, exSuper, none, [exInts]⟩
/-- A select support of five arguments with a long superblock. -/
def exSelLong (p : Ptr) : SelMcl := ⟨p, 5, exSuper, some [exInts], [fresh]⟩
/-- A new rank support. -/
def newRank : RankSup := ⟨none, ⟨0, [], 64⟩⟩
/-- A new select support. -/
def newSel : SelMcl := ⟨none, 0, fresh, none, []⟩

theorem exBits_ok : okVec 1 exBits none := ⟨⟨by decide, by decide, by decide⟩, by decide, fun _ => rfl⟩
theorem exInts_ok : okVec 0 exInts none := ⟨⟨by decide, by decide, by decide⟩, by decide, by simp⟩
theorem exWords_ok : okVec 64 exWords none := ⟨⟨by decide, by decide, by decide⟩, by decide, fun _ => rfl⟩
theorem exBytes_ok : okVec 8 exBytes none := ⟨⟨by decide, by decide, by decide⟩, by decide, fun _ => rfl⟩
theorem exNibbles_ok : okVec 4 exNibbles none := ⟨⟨by decide, by decide, by decide⟩, by decide, fun _ => rfl⟩
theorem exSuper_ok : okVec 0 exSuper none := ⟨⟨by decide, by decide, by decide⟩, by decide, by simp⟩
theorem exRank_ok (p : Ptr) : okRank (exRank p) p := ⟨rfl, exWords_ok⟩
theorem sb_two : SelMcl.sb 2 = 1 := by decide
theorem sb_five : SelMcl.sb 5 = 1 := by decide
theorem exSel_ok (p : Ptr) : okSel (exSel p) p := by
  refine ⟨rfl, by simp only [exSel]; decide, exSuper_ok, by simp [exSel, sb_two], ?_, ?_⟩
  · intro x hx; simp only [exSel, List.mem_singleton] at hx; rw [hx]; exact exInts_ok
  · intro l hl; simp [exSel] at hl
theorem exSelLong_ok (p : Ptr) : okSel (exSelLong p) p := by
  refine ⟨rfl, by simp only [exSelLong]; decide, exSuper_ok, by simp [exSelLong, sb_five], ?_, ?_⟩
  · intro x hx; simp only [exSelLong, List.mem_singleton] at hx; rw [hx]; exact fresh_ok
  · intro l hl
    simp only [exSelLong, Option.some.injEq] at hl
    subst hl
    refine ⟨by simp [exSelLong], by simp [exSelLong, sb_five], ?_, ?_⟩
    · intro x hx; simp only [List.mem_singleton] at hx; rw [hx]; exact exInts_ok
    · intro i x y hx hy
      right
      have := List.mem_of_getElem? hy
      simp only [exSelLong, List.mem_singleton] at this
      rw [this]; rfl
theorem newVec_ok {tw : Nat} (h : 1 ≤ tw ∧ tw ≤ 64) : okVec tw ⟨0, [], tw⟩ none := by
  refine ⟨⟨h.1, h.2, by simp⟩, Nat.pow_pos (by decide), fun _ => rfl⟩
theorem newRank_ok (p : Ptr) : lax okRank newRank p := ⟨none, rfl, newVec_ok (by decide)⟩
theorem newSel_ok (p : Ptr) : lax okSel newSel p :=
  ⟨none, rfl, by decide, fresh_ok, by decide, by simp [newSel], by simp [newSel]⟩
theorem num_ok (b x : Nat) (h : x < 256 ^ b := by decide) : okNum b x none := h

/-- A new `wm_int`: no pointer is set. -/
def newWm : WmInt IntVec RankSup SelMcl SelMcl :=
  ⟨0, 0, freshBits, newRank, newSel, newSel, 0, ⟨0, [], 64⟩, ⟨0, [], 64⟩⟩

theorem newWm_ok : okWmInt (okVec 1) (lax okRank) (lax okSel) (lax okSel) newWm none :=
  ⟨num_ok 8 0, num_ok 8 0, freshBits_ok, newRank_ok _, newSel_ok _, newSel_ok _, num_ok 4 0, newVec_ok (by decide), newVec_ok (by decide)⟩

/-! ### Rank and select supports -/

/-- `rank_support_v`, `rank_support_v5` (not with a null pointer, see below), `select_support_mcl`, `select_0_support_sd`. -/
theorem C91_supports (junk : Nat → Word) :
    Restores (rankV junk) false okRank (lax okRank) sameRank ∧
    Restores (rankV5 junk) true okRank (lax okRank) sameRank ∧
    Restores (selMcl junk) false okSel (lax okSel) sameSel ∧
    Restores (select0Sd junk) false okSelect0Sd (lax okSelect0Sd) sameSelect0Sd :=
  ⟨(rankV_good junk).rt,
   (rankV5_good junk).rt,
   (selMcl_good junk).rt,
   (select0Sd_good junk).rt⟩

/-- A support with a long superblock is read into a new one. -/
example (junk : Nat → Word) (rest : List Byte) : ∃ out v', (selMcl junk).ser (exSelLong (some "a")) = some (out, out.length) ∧
    (selMcl junk).load newSel (some "b") (out ++ rest) = some (v', rest) ∧ sameSel (exSelLong (some "a")) v' ∧ okSel v' (some "b") := by
  obtain ⟨out, h, l⟩ := (C91_supports junk).2.2.1 (exSelLong (some "a")) (some "a") (exSelLong_ok _)
  obtain ⟨v', h2⟩ := l newSel none (some "b") rest (newSel_ok _) (by simp)
  exact ⟨out, v', h, h2⟩

/-! ### Bit vectors -/

/-- `sd_vector<>`, `rrr_vector`, `bit_vector_il`, `hyb_vector`. -/
theorem C91_bit_vectors (junk : Nat → Word) :
    Restores (sdVector junk (vec junk 1) (selMcl junk) (selMcl junk)) false (okSdVector (okVec 1) okSel okSel) (okSdVector
        (okVec 1) (lax okSel) (lax okSel)) (sameSdVector sameVec sameSel sameSel) ∧
    Restores (rrrVector junk) false okRrrVector okRrrVector sameRrrVector ∧
    Restores (bitVectorIl junk) false okBitVectorIl okBitVectorIl sameBitVectorIl ∧
    Restores (hybVector junk) false okHybVector okHybVector sameHybVector :=
  ⟨(sdVector_good junk (vec_good junk 1) (selMcl_good junk) (selMcl_good junk)).rt,
   (rrrVector_good junk).rt,
   (bitVectorIl_good junk).rt,
   (hybVector_good junk).rt⟩

/-- An `sd_vector` is read into a new one. -/
example (junk : Nat → Word) (rest : List Byte) :
    let v : SdVector IntVec SelMcl SelMcl := ⟨300, 7, exInts, exBits, exSel (some "m_high"), exSelLong (some "m_high")⟩
    let c := sdVector junk (vec junk 1) (selMcl junk) (selMcl junk)
    ∃ out v', c.ser v = some (out, out.length) ∧
      c.load ⟨0, 0, fresh, freshBits, newSel, newSel⟩ none (out ++ rest) = some (v', rest) ∧
      sameSdVector sameVec sameSel sameSel v v' := by
  intro v c
  obtain ⟨out, h, l⟩ := (C91_bit_vectors junk).1 v none
    ⟨num_ok 8 300, num_ok 1 7, exInts_ok, exBits_ok, exSel_ok _, exSelLong_ok _⟩
  obtain ⟨v', h2, h3, -⟩ := l ⟨0, 0, fresh, freshBits, newSel, newSel⟩ none none rest
    ⟨num_ok 8 0, num_ok 1 0, fresh_ok, freshBits_ok, newSel_ok _, newSel_ok _⟩ (by simp)
  exact ⟨out, v', h, h2, h3⟩

/-! ### Integer vectors -/

/-- `enc_vector`, `vlc_vector`, `dac_vector<t_b>` for every `t_b`, `dac_vector_dp` with `bit_vector` and `rank_support_v`. -/
theorem C91_integer_vectors (junk : Nat → Word) (tb : Nat) :
    Restores (encVector junk) false okEncVector okEncVector sameEncVector ∧
    Restores (vlcVector junk) false okVlcVector okVlcVector sameVlcVector ∧
    Restores (dacVector junk tb (rankV5 junk)) false (okDacVector tb okRank) (okDacVector tb (lax okRank)) (sameDacVector
        sameRank) ∧
    Restores (dacDp junk (vec junk 1) (rankV junk)) false (okDacDp (okVec 1) okRank) (tgtDacDp (okVec 1) (lax okRank))
        (sameDacDp sameVec sameRank) :=
  ⟨(encVector_good junk).rt,
   (vlcVector_good junk).rt,
   (dacVector_good junk tb (rankV5_good junk)).rt,
   (dacDp_good junk (vec_good junk 1) (rankV_good junk)).rt⟩

/-- A `dac_vector<4>` is a possible object, and a new one can be read into. -/
example : okDacVector 4 okRank ⟨exNibbles, exBits, exRank (some "m_overflow"), exWords, 1⟩ none ∧
    okDacVector 4 (lax okRank) ⟨⟨0, [], 4⟩, freshBits, newRank, ⟨0, [], 64⟩, 0⟩ none :=
  ⟨⟨exNibbles_ok, exBits_ok, exRank_ok _, exWords_ok, num_ok 1 1⟩,
   ⟨newVec_ok (by decide), freshBits_ok, newRank_ok _, newVec_ok (by decide), num_ok 1 0⟩⟩

/-! ### Wavelet trees -/

/-- `wt_int<>`, `wm_int<>`, `wt_pc` over a byte and over an integer tree (`wt_huff<>`, `wt_huff_int<>`, `wt_blcd<>`, `wt_hutu<>`), `wt_rlmn<>`, `wt_ap<>`, `wt_gmr_rs<>`, `wt_gmr<>`. -/
theorem C91_wavelet_trees (junk : Nat → Word) :
    Restores (wtInt (vec junk 1) (rankV junk) (selMcl junk) (selMcl junk)) false (okWtInt (okVec 1) okRank okSel okSel)
        (okWtInt (okVec 1) (lax okRank) (lax okSel) (lax okSel)) (sameWtInt sameVec sameRank sameSel sameSel) ∧
    Restores (wmInt junk (vec junk 1) (rankV junk) (selMcl junk) (selMcl junk)) false (okWmInt (okVec 1) okRank okSel okSel)
        (okWmInt (okVec 1) (lax okRank) (lax okSel) (lax okSel)) (sameWmInt sameVec sameRank sameSel sameSel) ∧
    Restores (wtPc (vec junk 1) (rankV junk) (selMcl junk) (selMcl junk) byteTree) false (okWtPc (okVec 1) okRank okSel okSel
        okByteTree) (okWtPc (okVec 1) (lax okRank) (lax okSel) (lax okSel) okByteTree) (sameWtPc sameVec sameRank sameSel
        sameSel sameByteTree) ∧
    Restores (wtPc (vec junk 1) (rankV junk) (selMcl junk) (selMcl junk) intTree) false (okWtPc (okVec 1) okRank okSel okSel
        okIntTree) (okWtPc (okVec 1) (lax okRank) (lax okSel) (lax okSel) okIntTree) (sameWtPc sameVec sameRank sameSel
        sameSel sameIntTree) ∧
    Restores (wtRlmn junk (sdVector junk (vec junk 1) (selMcl junk) (selMcl junk)) emptySup emptySup (wtPc (vec junk 1) (rankV
        junk) (selMcl junk) (selMcl junk) byteTree)) false (okWtRlmn (okSdVector (okVec 1) okSel okSel) Eq Eq (okWtPc (okVec
        1) okRank okSel okSel okByteTree)) (okWtRlmn (okSdVector (okVec 1) (lax okSel) (lax okSel)) (lax Eq) (lax Eq) (okWtPc
        (okVec 1) (lax okRank) (lax okSel) (lax okSel) okByteTree)) (sameWtRlmn (sameSdVector sameVec sameSel sameSel) (fun (_
        _ : Ptr) => True) (fun (_ _ : Ptr) => True) (sameWtPc sameVec sameRank sameSel sameSel sameByteTree)) ∧
    Restores (wtAp (wtPc (vec junk 1) (rankV5 junk) (selMcl junk) (selMcl junk) byteTree) (wmInt junk (vec junk 1) (rankV
        junk) (selMcl junk) (selMcl junk)) newWm) false (okWtAp (okWtPc (okVec 1) okRank okSel okSel okByteTree) (okWmInt
        (okVec 1) okRank okSel okSel)) (okWtAp (okWtPc (okVec 1) (lax okRank) (lax okSel) (lax okSel) okByteTree) (okWmInt
        (okVec 1) (lax okRank) (lax okSel) (lax okSel))) (sameWtAp (sameWtPc sameVec sameRank sameSel sameSel sameByteTree)
        (sameWmInt sameVec sameRank sameSel sameSel)) ∧
    Restores (wtGmrRs junk (vec junk 1) (selMcl junk) (selMcl junk)) false (okWtGmrRs (okVec 1) okSel okSel) (okWtGmrRs (okVec
        1) (lax okSel) (lax okSel)) (sameWtGmrRs sameVec sameSel sameSel) ∧
    Restores (wtGmr junk (vec junk 1) (selMcl junk) (selMcl junk) (invMultiPerm junk (rankV junk))) false (okWtGmr (okVec 1)
        okSel okSel (okInvMultiPerm okRank)) (okWtGmr (okVec 1) (lax okSel) (lax okSel) (lax (okInvMultiPerm (lax okRank))))
        (sameWtGmr sameVec sameSel sameSel (sameInvMultiPerm sameRank)) :=
  ⟨(wtInt_good (vec_good junk 1) (rankV_good junk) (selMcl_good junk) (selMcl_good junk)).rt,
   (wmInt_good junk (vec_good junk 1) (rankV_good junk) (selMcl_good junk) (selMcl_good junk)).rt,
   (wtPc_good (vec_good junk 1) (rankV_good junk) (selMcl_good junk) (selMcl_good junk) byteTree_good).rt,
   (wtPc_good (vec_good junk 1) (rankV_good junk) (selMcl_good junk) (selMcl_good junk) intTree_good).rt,
   (wtRlmn_good junk (sdVector_good junk (vec_good junk 1) (selMcl_good junk) (selMcl_good junk)) emptySup_good emptySup_good (wtPc_good (vec_good junk 1) (rankV_good junk) (selMcl_good junk) (selMcl_good junk) byteTree_good)).rt,
   (wtAp_good (wtPc_good (vec_good junk 1) (rankV5_good junk) (selMcl_good junk) (selMcl_good junk) byteTree_good) (wmInt_good junk (vec_good junk 1) (rankV_good junk) (selMcl_good junk) (selMcl_good junk)) newWm_ok).rt,
   (wtGmrRs_good junk (vec_good junk 1) (selMcl_good junk) (selMcl_good junk)).rt,
   (wtGmr_good junk (vec_good junk 1) (selMcl_good junk) (selMcl_good junk) (invMultiPerm_good junk (rankV_good junk))).rt⟩

/-- A wavelet tree is read into a new one. -/
example (junk : Nat → Word) (rest : List Byte) :
    let v : WtInt IntVec RankSup SelMcl SelMcl := ⟨3, 2, exBits, exRank (some "m_tree"), exSel (some "m_tree"), exSel (some "m_tree"), 1⟩
    let c := wtInt (vec junk 1) (rankV junk) (selMcl junk) (selMcl junk)
    ∃ out v', c.ser v = some (out, out.length) ∧
      c.load ⟨0, 0, freshBits, newRank, newSel, newSel, 0⟩ none (out ++ rest) = some (v', rest) ∧
      sameVec exBits v'.m_tree ∧ v'.m_tree_rank.m_v = some "m_tree" := by
  intro v c
  obtain ⟨out, h, l⟩ := (C91_wavelet_trees junk).1 v none
    ⟨num_ok 8 3, num_ok 8 2, exBits_ok, exRank_ok _, exSel_ok _, exSel_ok _, num_ok 4 1⟩
  obtain ⟨v', h2, h3, h4⟩ := l ⟨0, 0, freshBits, newRank, newSel, newSel, 0⟩ none none rest
    ⟨num_ok 8 0, num_ok 8 0, freshBits_ok, newRank_ok _, newSel_ok _, newSel_ok _, num_ok 4 0⟩ (by simp)
  exact ⟨out, v', h, h2, h3.m_tree, h4.m_tree_rank.1⟩

/-! ### Suffix arrays -/

/-- `csa_sada<>`, `csa_wt<>`, `csa_bitcompressed<>`; `csa_wt` with `text_order_sa_sampling`, `text_order_isa_sampling_support` and `succinct_byte_alphabet`; `csa_wt` with the fuzzy samplings; `csa_wt` over integers with `int_alphabet<>`. -/
theorem C91_suffix_arrays (junk : Nat → Word) :
    Restores (csaSada (encVector junk) (vec junk 0) (vec junk 0) (byteAlphabet junk)) false (okCsaSada okEncVector (okVec 0)
        (okVec 0) okByteAlphabet) (okCsaSada okEncVector (okVec 0) (okVec 0) okByteAlphabet) (sameCsaSada sameEncVector
        sameVec sameVec sameByteAlphabet) ∧
    Restores (csaWt (wtPc (vec junk 1) (rankV junk) (selMcl junk) (selMcl junk) byteTree) (vec junk 0) (vec junk 0)
        (byteAlphabet junk)) false (okCsaWt (okWtPc (okVec 1) okRank okSel okSel okByteTree) (okVec 0) (okVec 0)
        okByteAlphabet) (okCsaWt (okWtPc (okVec 1) (lax okRank) (lax okSel) (lax okSel) okByteTree) (okVec 0) (okVec 0)
        okByteAlphabet) (sameCsaWt (sameWtPc sameVec sameRank sameSel sameSel sameByteTree) sameVec sameVec sameByteAlphabet) ∧
    Restores (csaBitcompressed junk (byteAlphabet junk)) false (okCsaBitcompressed okByteAlphabet) (okCsaBitcompressed
        okByteAlphabet) (sameCsaBitcompressed sameByteAlphabet) ∧
    Restores (csaWt (wtPc (vec junk 1) (rankV junk) (selMcl junk) (selMcl junk) byteTree) (markedSampling junk (vec junk 1)
        (rankV junk)) (textIsa junk (selMcl junk) (rankV junk)) (charAlphabet junk 2 (vec junk 1) (rankV junk) (selMcl junk)))
        false (okCsaWt (okWtPc (okVec 1) okRank okSel okSel okByteTree) (okMarkedSampling (okVec 1) okRank) (okTextIsa okSel
        okRank) (okCharAlphabet 2 (okVec 1) okRank okSel)) (okCsaWt (okWtPc (okVec 1) (lax okRank) (lax okSel) (lax okSel)
        okByteTree) (okMarkedSampling (okVec 1) (lax okRank)) (lax (okTextIsa (lax okSel) (lax okRank))) (okCharAlphabet 2
        (okVec 1) (lax okRank) (lax okSel))) (sameCsaWt (sameWtPc sameVec sameRank sameSel sameSel sameByteTree)
        (sameMarkedSampling sameVec sameRank) (sameTextIsa sameSel sameRank) (sameCharAlphabet sameVec sameRank sameSel)) ∧
    Restores (csaWt (wtPc (vec junk 1) (rankV junk) (selMcl junk) (selMcl junk) byteTree) (fuzzySampling (vec junk 1) (rankV
        junk) (vec junk 1) (selMcl junk) (wmInt junk (vec junk 1) (rankV junk) (selMcl junk) (selMcl junk))) (fuzzyIsa (selMcl
        junk)) (byteAlphabet junk)) false (okCsaWt (okWtPc (okVec 1) okRank okSel okSel okByteTree) (okFuzzySampling (okVec 1)
        okRank (okVec 1) okSel (okWmInt (okVec 1) okRank okSel okSel)) (okFuzzyIsa okSel) okByteAlphabet) (okCsaWt (okWtPc
        (okVec 1) (lax okRank) (lax okSel) (lax okSel) okByteTree) (okFuzzySampling (okVec 1) (lax okRank) (okVec 1) (lax
        okSel) (okWmInt (okVec 1) (lax okRank) (lax okSel) (lax okSel))) (lax (okFuzzyIsa (lax okSel))) okByteAlphabet)
        (sameCsaWt (sameWtPc sameVec sameRank sameSel sameSel sameByteTree) (sameFuzzySampling sameVec sameRank sameVec
        sameSel (sameWmInt sameVec sameRank sameSel sameSel)) (sameFuzzyIsa sameSel) sameByteAlphabet) ∧
    Restores (csaWt (wtInt (vec junk 1) (rankV junk) (selMcl junk) (selMcl junk)) (vec junk 0) (vec junk 0) (charAlphabet junk
        8 (sdVector junk (vec junk 1) (selMcl junk) (selMcl junk)) emptySup emptySup)) false (okCsaWt (okWtInt (okVec 1)
        okRank okSel okSel) (okVec 0) (okVec 0) (okCharAlphabet 8 (okSdVector (okVec 1) okSel okSel) Eq Eq)) (okCsaWt (okWtInt
        (okVec 1) (lax okRank) (lax okSel) (lax okSel)) (okVec 0) (okVec 0) (okCharAlphabet 8 (okSdVector (okVec 1) (lax
        okSel) (lax okSel)) (lax Eq) (lax Eq))) (sameCsaWt (sameWtInt sameVec sameRank sameSel sameSel) sameVec sameVec
        (sameCharAlphabet (sameSdVector sameVec sameSel sameSel) (fun (_ _ : Ptr) => True) fun (_ _ : Ptr) => True)) :=
  ⟨(csaSada_good (encVector_good junk) (vec_good junk 0) (vec_good junk 0) (byteAlphabet_good junk)).rt,
   (csaWt_good (wtPc_good (vec_good junk 1) (rankV_good junk) (selMcl_good junk) (selMcl_good junk) byteTree_good) (vec_good junk 0) (vec_good junk 0) (byteAlphabet_good junk)).rt,
   (csaBitcompressed_good junk (byteAlphabet_good junk)).rt,
   (csaWt_good (wtPc_good (vec_good junk 1) (rankV_good junk) (selMcl_good junk) (selMcl_good junk) byteTree_good) (markedSampling_good junk (vec_good junk 1) (rankV_good junk)) (textIsa_good junk (selMcl_good junk) (rankV_good junk)) (charAlphabet_good junk 2 (vec_good junk 1) (rankV_good junk) (selMcl_good junk))).rt,
   (csaWt_good (wtPc_good (vec_good junk 1) (rankV_good junk) (selMcl_good junk) (selMcl_good junk) byteTree_good) (fuzzySampling_good (vec_good junk 1) (rankV_good junk) (vec_good junk 1) (selMcl_good junk) (wmInt_good junk (vec_good junk 1) (rankV_good junk) (selMcl_good junk) (selMcl_good junk))) (fuzzyIsa_good (selMcl_good junk)) (byteAlphabet_good junk)).rt,
   (csaWt_good (wtInt_good (vec_good junk 1) (rankV_good junk) (selMcl_good junk) (selMcl_good junk)) (vec_good junk 0) (vec_good junk 0) (charAlphabet_good junk 8 (sdVector_good junk (vec_good junk 1) (selMcl_good junk) (selMcl_good junk)) emptySup_good emptySup_good)).rt⟩

/-- A suffix array is a possible object, and a new one can be read into. -/
example : okCsaSada okEncVector (okVec 0) (okVec 0) okByteAlphabet
      ⟨⟨exInts, exInts, 2⟩, exInts, exInts, ⟨exBytes, exBytes, exWords, 2⟩⟩ none ∧
    okCsaSada okEncVector (okVec 0) (okVec 0) okByteAlphabet
      ⟨⟨fresh, fresh, 0⟩, fresh, fresh, ⟨⟨0, [], 8⟩, ⟨0, [], 8⟩, ⟨0, [], 64⟩, 0⟩⟩ none :=
  ⟨⟨⟨exInts_ok, exInts_ok, num_ok 8 2⟩, exInts_ok, exInts_ok, ⟨exBytes_ok, exBytes_ok, exWords_ok, num_ok 2 2⟩⟩,
   ⟨⟨fresh_ok, fresh_ok, num_ok 8 0⟩, fresh_ok, fresh_ok,
    ⟨newVec_ok (by decide), newVec_ok (by decide), newVec_ok (by decide), num_ok 2 0⟩⟩⟩

/-! ### LCP arrays -/

/-- `lcp_byte`, `lcp_wt<>`, `lcp_support_sada<>`, `lcp_support_tree` and `lcp_support_tree2` (`lcp_bitcompressed`, `lcp_vlc` and `lcp_dac` consist of one vector). -/
theorem C91_lcp_arrays (junk : Nat → Word) :
    Restores (lcpByte junk) false okLcpByte okLcpByte sameLcpByte ∧
    Restores (lcpWt junk (wtPc (vec junk 1) (rankV junk) (selMcl junk) (selMcl junk) byteTree)) false (okLcpWt (okWtPc (okVec
        1) okRank okSel okSel okByteTree)) (okLcpWt (okWtPc (okVec 1) (lax okRank) (lax okSel) (lax okSel) okByteTree))
        (sameLcpWt (sameWtPc sameVec sameRank sameSel sameSel sameByteTree)) ∧
    Restores (lcpSada (vec junk 1) (selMcl junk)) false (okLcpSada (okVec 1) okSel) (lax (okLcpSada (okVec 1) (lax okSel)))
        (sameLcpSada sameVec sameSel) ∧
    Restores (lcpTree (dacVector junk 4 (rankV5 junk))) false (okLcpTree (okDacVector 4 okRank)) (lax (okLcpTree (okDacVector
        4 (lax okRank)))) (sameLcpTree (sameDacVector sameRank)) ∧
    Restores (lcpTree2 junk (wtPc (vec junk 1) (rankV junk) (selMcl junk) (selMcl junk) byteTree)) false (okLcpTree2 (okWtPc
        (okVec 1) okRank okSel okSel okByteTree)) (lax (okLcpTree2 (okWtPc (okVec 1) (lax okRank) (lax okSel) (lax okSel)
        okByteTree))) (sameLcpTree2 (sameWtPc sameVec sameRank sameSel sameSel sameByteTree)) :=
  ⟨(lcpByte_good junk).rt,
   (lcpWt_good junk (wtPc_good (vec_good junk 1) (rankV_good junk) (selMcl_good junk) (selMcl_good junk) byteTree_good)).rt,
   (lcpSada_good (vec_good junk 1) (selMcl_good junk)).rt,
   (lcpTree_good (dacVector_good junk 4 (rankV5_good junk))).rt,
   (lcpTree2_good junk (wtPc_good (vec_good junk 1) (rankV_good junk) (selMcl_good junk) (selMcl_good junk) byteTree_good)).rt⟩

/-- An LCP array on the suffix array `csa`, and a new one. -/
example : okLcpSada (okVec 1) okSel ⟨some "csa", exBits, exSel (some "m_data")⟩ (some "csa") ∧
    lax (okLcpSada (okVec 1) (lax okSel)) ⟨none, freshBits, newSel⟩ none :=
  ⟨⟨rfl, exBits_ok, exSel_ok _⟩, none, ⟨rfl, freshBits_ok, newSel_ok _⟩⟩

/-! ### Balanced parentheses and range minima -/

/-- `bp_support_sada<>`, `bp_support_g<>`, `nearest_neighbour_dictionary`, `nn_dict_dynamic`, `rmq_succinct_sct<>`, `rmq_succinct_sada<>`, `rmq_support_sparse_table<>`, `sorted_stack_support`, `sorted_multi_stack_support`. -/
theorem C91_parentheses (junk : Nat → Word) :
    Restores (bpSada junk (rankV5 junk) (selMcl junk)) true (okBpSada okRank okSel) (lax (okBpSada (lax okRank) (lax okSel)))
        (sameBpSada sameRank sameSel) ∧
    Restores (bpG junk (rankV5 junk) (selMcl junk) (nnd junk (rankV junk)) (rmqTable junk)) true (okBpG okRank okSel (okNnd
        okRank) okRmqTable) (lax (okBpG (lax okRank) (lax okSel) (okNnd (lax okRank)) (lax okRmqTable))) (sameBpG sameRank
        sameSel (sameNnd sameRank) sameRmqTable) ∧
    Restores (nnd junk (rankV junk)) false (okNnd okRank) (okNnd (lax okRank)) (sameNnd sameRank) ∧
    Restores (nnDict junk) false okNnDict okNnDict sameNnDict ∧
    Restores (rmqSct junk (bpSada junk (rankV5 junk) (selMcl junk))) false (okRmqSct (okBpSada okRank okSel)) (okRmqSct (lax
        (okBpSada (lax okRank) (lax okSel)))) (sameRmqSct (sameBpSada sameRank sameSel)) ∧
    Restores (rmqSada junk (bpSada junk (rankV5 junk) emptySup) (rankV junk) (selMcl junk)) false (okRmqSada (okBpSada okRank
        Eq) okRank okSel) (okRmqSada (lax (okBpSada (lax okRank) (lax Eq))) (lax okRank) (lax okSel)) (sameRmqSada (sameBpSada
        sameRank fun (_ _ : Ptr) => True) sameRank sameSel) ∧
    Restores (rmqTable junk) false okRmqTable (lax okRmqTable) sameRmqTable ∧
    Restores (sortedStack junk) false okSortedStack okSortedStack sameSortedStack ∧
    Restores (sortedMultiStack junk) false okSortedMultiStack okSortedMultiStack sameSortedMultiStack :=
  ⟨(bpSada_good junk (rankV5_good junk) ((selMcl_good junk).weak true)).rt,
   (bpG_good junk (rankV5_good junk) ((selMcl_good junk).weak true) (nnd_good junk (rankV_good junk)) (rmqTable_good junk)).rt,
   (nnd_good junk (rankV_good junk)).rt,
   (nnDict_good junk).rt,
   (rmqSct_good junk (bpSada_good junk (rankV5_good junk) ((selMcl_good junk).weak true))).rt,
   (rmqSada_good junk (bpSada_good junk (rankV5_good junk) (emptySup_good.weak true)) (rankV_good junk) (selMcl_good junk)).rt,
   (rmqTable_good junk).rt,
   (sortedStack_good junk).rt,
   (sortedMultiStack_good junk).rt⟩

/-- A support of the parentheses `bp` is read into a new one. -/
example (junk : Nat → Word) (rest : List Byte) :
    let v : BpSada RankSup SelMcl := ⟨some "bp", exRank (some "bp"), exSel (some "bp"), exInts, exInts, 3, 1, 1, 0⟩
    let c := bpSada junk (rankV5 junk) (selMcl junk)
    ∃ out v', c.ser v = some (out, out.length) ∧
      c.load ⟨none, newRank, newSel, fresh, fresh, 0, 0, 0, 0⟩ (some "copy") (out ++ rest) = some (v', rest) ∧
      sameBpSada sameRank sameSel v v' ∧ v'.m_bp_rank.m_v = some "copy" := by
  intro v c
  obtain ⟨out, h, l⟩ := (C91_parentheses junk).1 v (some "bp")
    ⟨rfl, exRank_ok _, exSel_ok _, exInts_ok, exInts_ok, num_ok 8 3, num_ok 8 1, num_ok 8 1, num_ok 8 0⟩
  obtain ⟨v', h2, h3, h4⟩ := l ⟨none, newRank, newSel, fresh, fresh, 0, 0, 0, 0⟩ none (some "copy") rest
    ⟨none, rfl, newRank_ok _, newSel_ok _, fresh_ok, fresh_ok, num_ok 8 0, num_ok 8 0, num_ok 8 0, num_ok 8 0⟩ (by simp)
  exact ⟨out, v', h, h2, h3, h4.m_bp_rank.1⟩

/-! ### Suffix trees -/

/-- `cst_sct3<>`, `cst_sada<>`, `cst_fully<>`. -/
theorem C91_suffix_trees (junk : Nat → Word) :
    Restores (cstSct3 junk (csaWt (wtPc (vec junk 1) (rankV junk) (selMcl junk) (selMcl junk) byteTree) (vec junk 0) (vec junk
        0) (byteAlphabet junk)) (dacVector junk 4 (rankV5 junk)) (bpSada junk (rankV5 junk) (selMcl junk)) (vec junk 1)
        (rankV5 junk) emptySup none) false (okCstSct3 (okCsaWt (okWtPc (okVec 1) okRank okSel okSel okByteTree) (okVec 0)
        (okVec 0) okByteAlphabet) (okDacVector 4 okRank) (okBpSada okRank okSel) (okVec 1) okRank Eq none) (okCstSct3 (okCsaWt
        (okWtPc (okVec 1) (lax okRank) (lax okSel) (lax okSel) okByteTree) (okVec 0) (okVec 0) okByteAlphabet) (okDacVector 4
        (lax okRank)) (lax (okBpSada (lax okRank) (lax okSel))) (okVec 1) (lax okRank) (lax Eq) none) (sameCstSct3 (sameCsaWt
        (sameWtPc sameVec sameRank sameSel sameSel sameByteTree) sameVec sameVec sameByteAlphabet) (sameDacVector sameRank)
        (sameBpSada sameRank sameSel) sameVec sameRank fun (_ _ : Ptr) => True) ∧
    Restores (cstSada junk (csaSada (encVector junk) (vec junk 0) (vec junk 0) (byteAlphabet junk)) (lcpSada (vec junk 1)
        (selMcl junk)) (bpSada junk (rankV5 junk) (selMcl junk)) (rankV5 junk) (selMcl junk) (some "m_csa")) false (okCstSada
        (okCsaSada okEncVector (okVec 0) (okVec 0) okByteAlphabet) (okLcpSada (okVec 1) okSel) (okBpSada okRank okSel) okRank
        okSel (some "m_csa")) (okCstSada (okCsaSada okEncVector (okVec 0) (okVec 0) okByteAlphabet) (lax (okLcpSada (okVec 1)
        (lax okSel))) (lax (okBpSada (lax okRank) (lax okSel))) (lax okRank) (lax okSel) (some "m_csa")) (sameCstSada
        (sameCsaSada sameEncVector sameVec sameVec sameByteAlphabet) (sameLcpSada sameVec sameSel) (sameBpSada sameRank
        sameSel) sameRank sameSel) ∧
    Restores (cstFully junk (csaWt (wtPc (vec junk 1) (rankV junk) (selMcl junk) (selMcl junk) byteTree) (vec junk 0) (vec
        junk 0) (byteAlphabet junk)) (bpSada junk (rankV5 junk) (selMcl junk)) (sdVector junk (vec junk 1) (selMcl junk)
        (selMcl junk)) (select0Sd junk) emptySup (dacVector junk 4 (rankV5 junk))) false (okCstFully (okCsaWt (okWtPc (okVec
        1) okRank okSel okSel okByteTree) (okVec 0) (okVec 0) okByteAlphabet) (okBpSada okRank okSel) (okSdVector (okVec 1)
        okSel okSel) okSelect0Sd Eq (okDacVector 4 okRank)) (okCstFully (okCsaWt (okWtPc (okVec 1) (lax okRank) (lax okSel)
        (lax okSel) okByteTree) (okVec 0) (okVec 0) okByteAlphabet) (lax (okBpSada (lax okRank) (lax okSel))) (okSdVector
        (okVec 1) (lax okSel) (lax okSel)) (lax okSelect0Sd) (lax Eq) (okDacVector 4 (lax okRank))) (sameCstFully (sameCsaWt
        (sameWtPc sameVec sameRank sameSel sameSel sameByteTree) sameVec sameVec sameByteAlphabet) (sameBpSada sameRank
        sameSel) (sameSdVector sameVec sameSel sameSel) sameSelect0Sd (fun (_ _ : Ptr) => True) (sameDacVector sameRank)) :=
  ⟨(cstSct3_good junk (csaWt_good (wtPc_good (vec_good junk 1) (rankV_good junk) (selMcl_good junk) (selMcl_good junk) byteTree_good) (vec_good junk 0) (vec_good junk 0) (byteAlphabet_good junk)) (dacVector_good junk 4 (rankV5_good junk)) (bpSada_good junk (rankV5_good junk) ((selMcl_good junk).weak true)) (vec_good junk 1) (rankV5_good junk) emptySup_good none).rt,
   (cstSada_good junk (csaSada_good (encVector_good junk) (vec_good junk 0) (vec_good junk 0) (byteAlphabet_good junk)) (lcpSada_good (vec_good junk 1) (selMcl_good junk)) (bpSada_good junk (rankV5_good junk) ((selMcl_good junk).weak true)) (rankV5_good junk) (selMcl_good junk) (some "m_csa")).rt,
   (cstFully_good junk (csaWt_good (wtPc_good (vec_good junk 1) (rankV_good junk) (selMcl_good junk) (selMcl_good junk) byteTree_good) (vec_good junk 0) (vec_good junk 0) (byteAlphabet_good junk)) (bpSada_good junk (rankV5_good junk) ((selMcl_good junk).weak true)) (sdVector_good junk (vec_good junk 1) (selMcl_good junk) (selMcl_good junk)) (select0Sd_good junk) emptySup_good (dacVector_good junk 4 (rankV5_good junk))).rt⟩

/-- A suffix tree is a possible object. -/
example : okCstSada (okCsaSada okEncVector (okVec 0) (okVec 0) okByteAlphabet) (okLcpSada (okVec 1) okSel) (okBpSada okRank okSel)
    okRank okSel (some "m_csa")
    ⟨⟨⟨exInts, exInts, 2⟩, exInts, exInts, ⟨exBytes, exBytes, exWords, 2⟩⟩, ⟨some "m_csa", exBits, exSel (some "m_data")⟩, exBits,
      ⟨some "m_bp", exRank (some "m_bp"), exSel (some "m_bp"), exInts, exInts, 3, 1, 1, 0⟩, exRank (some "m_bp"), exSel (some "m_bp")⟩
    none :=
  ⟨⟨⟨exInts_ok, exInts_ok, num_ok 8 2⟩, exInts_ok, exInts_ok, ⟨exBytes_ok, exBytes_ok, exWords_ok, num_ok 2 2⟩⟩,
   ⟨rfl, exBits_ok, exSel_ok _⟩, exBits_ok,
   ⟨rfl, exRank_ok _, exSel_ok _, exInts_ok, exInts_ok, num_ok 8 3, num_ok 8 1, num_ok 8 1, num_ok 8 0⟩, exRank_ok _, exSel_ok _⟩

/-! ### Graphs and grids -/

/-- `k2_tree` and `k2_treap` with `bit_vector` and `rank_support_v`. -/
theorem C91_k2 (junk : Nat → Word) :
    Restores (k2Tree (vec junk 1) (rankV junk)) false (okK2Tree (okVec 1) okRank) (okK2Tree (okVec 1) (lax okRank))
        (sameK2Tree sameVec sameRank) ∧
    Restores (k2Treap junk (vec junk 1) (rankV junk) (dacVector junk 4 (rankV5 junk))) false (okK2Treap (okVec 1) okRank
        (okDacVector 4 okRank)) (okK2Treap (okVec 1) (lax okRank) (okDacVector 4 (lax okRank))) (sameK2Treap sameVec sameRank
        (sameDacVector sameRank)) :=
  ⟨(k2Tree_good (vec_good junk 1) (rankV_good junk)).rt,
   (k2Treap_good junk (vec_good junk 1) (rankV_good junk) (dacVector_good junk 4 (rankV5_good junk))).rt⟩

/-- A graph is a possible object, and a new one can be read into. -/
example : okK2Tree (okVec 1) okRank ⟨exBits, exBits, exRank (some "k_t"), 2, 2⟩ none ∧
    okK2Tree (okVec 1) (lax okRank) ⟨freshBits, freshBits, newRank, 0, 0⟩ none :=
  ⟨⟨exBits_ok, exBits_ok, exRank_ok _, num_ok 1 2, num_ok 2 2⟩, ⟨freshBits_ok, freshBits_ok, newRank_ok _, num_ok 1 0, num_ok 2 0⟩⟩

/-! ### Loading a rank support without its vector

`k2_tree` (k2_tree.hpp:601-602), `k2_treap` (387-388), `dac_vector_dp` (dac_vector.hpp:297-298), the succinct alphabets and the text
order sampling call `load(in)` of the rank support and then `set_vector`. `rank_support_v5::load` asserts that the pointer is not null
(rank_support_v5.hpp:153), so with this rank support the claim is false: what `serialize` wrote is never read. -/

theorem C91_null_vector_wrong (junk : Nat → Word) (s : List Byte) (p : Ptr) :
    (∀ u, (k2Tree (vec junk 1) (rankV5 junk)).load u p s = none) ∧
    (∀ u, (k2Treap junk (vec junk 1) (rankV5 junk) (dacVector junk 4 (rankV5 junk))).load u p s = none) ∧
    (∀ u, (dacDp junk (vec junk 1) (rankV5 junk)).load u p s = none) := by
  have h : ∀ x s, (rankV5 junk).load x none s = none := fun _ _ => rfl
  refine ⟨fun u => ?_, fun u => ?_, fun u => ?_⟩
  · simp [k2Tree, K2Tree.load, h]
  · simp [k2Treap, K2Treap.load, h]
  · simp [dacDp, DacDp.load, h]

/-- The bytes of a graph are written but cannot be read. -/
example (junk : Nat → Word) : ∃ out, (k2Tree (vec junk 1) (rankV5 junk)).ser ⟨exBits, exBits, exRank (some "k_t"), 2, 2⟩ = some out ∧
    (k2Tree (vec junk 1) (rankV5 junk)).load ⟨freshBits, freshBits, newRank, 0, 0⟩ none out.1 = none := by
  obtain ⟨out, h, -⟩ := (C91_k2 junk).1 ⟨exBits, exBits, exRank (some "k_t"), 2, 2⟩ none
    ⟨exBits_ok, exBits_ok, exRank_ok _, num_ok 1 2, num_ok 2 2⟩
  exact ⟨_, h, (C91_null_vector_wrong junk _ none).1 _⟩


end Sdsl.Props
