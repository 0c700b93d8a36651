import Verif.SerialClasses
import Verif.SerialLemmas
import Verif.SerialMcl

/-! # Round trips of the classes

Every class is shown to restore its members if its template parameters do. -/
namespace Sdsl.Serial
open IntVec (Byte)

/-- An array of `n` numbers. -/
def okArr (b n : Nat) (l : List Nat) (_ : Ptr) : Prop := l.length = n ∧ ∀ x ∈ l, okNum b x none

theorem numArr_good (b n : Nat) : Good (numArr b n) false (okArr b n) (okArr b n) Eq := by
  refine ⟨fun v p hv => ?_, fun v w p p' h e => ⟨e, h⟩⟩
  obtain ⟨o, s, l⟩ := serVector_good (num_good b) v hv.2
  have ht : ∀ v : List Nat, v.length = n → v.take n = v := fun v h => List.take_of_length_le (by omega)
  refine ⟨o, by simp only [numArr, ht v hv.1, s], fun u q p' rest hu _ => ?_⟩
  obtain ⟨w, e, m, k⟩ := l u rest (by rw [hu.1, hv.1]) hu.2
  have hvw : v = w := by simpa using m
  subst hvw
  exact ⟨v, by simp only [numArr, ht u hu.1, e], rfl, hv⟩

/-- A possible object: every member is one, and the supports point to their own members. -/
structure okSdVector {H S1 S0 : Type} (okH : H → Ptr → Prop) (okS1 : S1 → Ptr → Prop) (okS0 : S0 → Ptr → Prop) (v : SdVector H
    S1 S0) (_ : Ptr) : Prop where
  m_size : okNum 8 v.m_size none
  m_wl : okNum 1 v.m_wl none
  m_low : okVec 0 v.m_low none
  m_high : okH v.m_high none
  m_high_1_select : okS1 v.m_high_1_select (some "m_high")
  m_high_0_select : okS0 v.m_high_0_select (some "m_high")

/-- Same contents. -/
structure sameSdVector {H S1 S0 : Type} (sameH : H → H → Prop) (sameS1 : S1 → S1 → Prop) (sameS0 : S0 → S0 → Prop) (v w :
    SdVector H S1 S0) : Prop where
  m_size : v.m_size = w.m_size
  m_wl : v.m_wl = w.m_wl
  m_low : sameVec v.m_low w.m_low
  m_high : sameH v.m_high w.m_high
  m_high_1_select : sameS1 v.m_high_1_select w.m_high_1_select
  m_high_0_select : sameS0 v.m_high_0_select w.m_high_0_select

theorem sdVector_good {H S1 S0 : Type} {cH : Codec H} {okH tgtH : H → Ptr → Prop} {sameH : H → H → Prop} {cS1 : Codec S1} {okS1
    tgtS1 : S1 → Ptr → Prop} {sameS1 : S1 → S1 → Prop} {cS0 : Codec S0} {okS0 tgtS0 : S0 → Ptr → Prop} {sameS0 : S0 → S0 →
        Prop} {nS1 nS0 : Bool} (junk : Nat → Word) (hH : Good cH false okH tgtH sameH) (hS1 : Good cS1 nS1 okS1 tgtS1 sameS1)
            (hS0 : Good cS0 nS0 okS0 tgtS0 sameS0) :
    Good (sdVector junk cH cS1 cS0) false (okSdVector okH okS1 okS0) (okSdVector tgtH tgtS1 tgtS0) (sameSdVector sameH sameS1
        sameS0) := by
  refine ⟨fun v p hv => ?_, fun v w p p' h e => ⟨e, ⟨h.m_size, h.m_wl, h.m_low, h.m_high, h.m_high_1_select, h.m_high_0_select⟩⟩⟩
  obtain ⟨o0, s0, l0⟩ := (num_good 8).rt v.m_size _ hv.m_size
  obtain ⟨o1, s1, l1⟩ := (num_good 1).rt v.m_wl _ hv.m_wl
  obtain ⟨o2, s2, l2⟩ := (vec_good junk 0).rt v.m_low _ hv.m_low
  obtain ⟨o3, s3, l3⟩ := hH.rt v.m_high _ hv.m_high
  obtain ⟨o4, s4, l4⟩ := hS1.rt v.m_high_1_select _ hv.m_high_1_select
  obtain ⟨o5, s5, l5⟩ := hS0.rt v.m_high_0_select _ hv.m_high_0_select
  refine ⟨o0 ++ (o1 ++ (o2 ++ (o3 ++ (o4 ++ (o5))))), ?_, fun u q p' rest hu _ => ?_⟩
  · simp only [sdVector, SdVector.serialize, s0, s1, s2, s3, s4, s5, andThen_some]
  · obtain ⟨w5, e5, m5, k5⟩ := l5 u.m_high_0_select _ (some "m_high") (rest) hu.m_high_0_select (by simp)
    obtain ⟨w4, e4, m4, k4⟩ := l4 u.m_high_1_select _ (some "m_high") (o5 ++ rest) hu.m_high_1_select (by simp)
    obtain ⟨w3, e3, m3, k3⟩ := l3 u.m_high _ none (o4 ++ (o5 ++ rest)) hu.m_high (by simp)
    obtain ⟨w2, e2, m2, k2⟩ := l2 u.m_low _ none (o3 ++ (o4 ++ (o5 ++ rest))) hu.m_low (by simp)
    obtain ⟨w1, e1, m1, k1⟩ := l1 u.m_wl _ none (o2 ++ (o3 ++ (o4 ++ (o5 ++ rest)))) hu.m_wl (by simp)
    obtain ⟨w0, e0, m0, k0⟩ := l0 u.m_size _ none (o1 ++ (o2 ++ (o3 ++ (o4 ++ (o5 ++ rest))))) hu.m_size (by simp)
    refine ⟨⟨w0, w1, w2, w3, w4, w5⟩, ?_, ⟨m0, m1, m2, m3, m4, m5⟩,
      ⟨k0, k1, k2, k3, k4, k5⟩⟩
    simp only [sdVector, SdVector.load, List.append_assoc, e0, e1, e2, e3, e4, e5, Option.bind_eq_bind, Option.bind_some]

/-- A possible object: every member is one. -/
structure okSelect0Sd  (v : Select0Sd) (p : Ptr) : Prop where
  m_v : v.m_v = p
  m_pointer : okVec 0 v.m_pointer none
  m_rank1 : okVec 0 v.m_rank1 none

/-- Same contents. -/
structure sameSelect0Sd  (v w : Select0Sd) : Prop where
  m_pointer : sameVec v.m_pointer w.m_pointer
  m_rank1 : sameVec v.m_rank1 w.m_rank1

theorem select0Sd_good (junk : Nat → Word) :
    Good (select0Sd junk) false (okSelect0Sd) (lax (okSelect0Sd)) (sameSelect0Sd) := by
  refine ⟨fun v p hv => ?_, fun v w p p' h e => ⟨⟨e.m_pointer, e.m_rank1⟩,
    ⟨rfl, h.m_pointer, h.m_rank1⟩⟩⟩
  obtain ⟨o0, s0, l0⟩ := (vec_good junk 0).rt v.m_pointer _ hv.m_pointer
  obtain ⟨o1, s1, l1⟩ := (vec_good junk 0).rt v.m_rank1 _ hv.m_rank1
  refine ⟨o0 ++ (o1), ?_, fun u q p' rest hu _ => ?_⟩
  · simp only [select0Sd, Select0Sd.serialize, s0, s1, andThen_some]
  · obtain ⟨_, hu⟩ := hu
    obtain ⟨w1, e1, m1, k1⟩ := l1 u.m_rank1 _ none (rest) hu.m_rank1 (by simp)
    obtain ⟨w0, e0, m0, k0⟩ := l0 u.m_pointer _ none (o1 ++ rest) hu.m_pointer (by simp)
    refine ⟨⟨p', w0, w1⟩, ?_, ⟨m0, m1⟩,
      ⟨rfl, k0, k1⟩⟩
    simp only [select0Sd, Select0Sd.load, List.append_assoc, e0, e1, Option.bind_eq_bind, Option.bind_some]

/-- A possible object: every member is one. -/
structure okRrrVector  (v : RrrVector) (_ : Ptr) : Prop where
  m_size : okNum 8 v.m_size none
  m_bt : okVec 0 v.m_bt none
  m_btnr : okVec 1 v.m_btnr none
  m_btnrp : okVec 0 v.m_btnrp none
  m_rank : okVec 0 v.m_rank none
  m_invert : okVec 1 v.m_invert none

/-- Same contents. -/
structure sameRrrVector  (v w : RrrVector) : Prop where
  m_size : v.m_size = w.m_size
  m_bt : sameVec v.m_bt w.m_bt
  m_btnr : sameVec v.m_btnr w.m_btnr
  m_btnrp : sameVec v.m_btnrp w.m_btnrp
  m_rank : sameVec v.m_rank w.m_rank
  m_invert : sameVec v.m_invert w.m_invert

theorem rrrVector_good (junk : Nat → Word) :
    Good (rrrVector junk) false (okRrrVector) (okRrrVector) (sameRrrVector) := by
  refine ⟨fun v p hv => ?_, fun v w p p' h e => ⟨e, ⟨h.m_size, h.m_bt, h.m_btnr, h.m_btnrp, h.m_rank, h.m_invert⟩⟩⟩
  obtain ⟨o0, s0, l0⟩ := (num_good 8).rt v.m_size _ hv.m_size
  obtain ⟨o1, s1, l1⟩ := (vec_good junk 0).rt v.m_bt _ hv.m_bt
  obtain ⟨o2, s2, l2⟩ := (vec_good junk 1).rt v.m_btnr _ hv.m_btnr
  obtain ⟨o3, s3, l3⟩ := (vec_good junk 0).rt v.m_btnrp _ hv.m_btnrp
  obtain ⟨o4, s4, l4⟩ := (vec_good junk 0).rt v.m_rank _ hv.m_rank
  obtain ⟨o5, s5, l5⟩ := (vec_good junk 1).rt v.m_invert _ hv.m_invert
  refine ⟨o0 ++ (o1 ++ (o2 ++ (o3 ++ (o4 ++ (o5))))), ?_, fun u q p' rest hu _ => ?_⟩
  · simp only [rrrVector, RrrVector.serialize, s0, s1, s2, s3, s4, s5, andThen_some]
  · obtain ⟨w5, e5, m5, k5⟩ := l5 u.m_invert _ none (rest) hu.m_invert (by simp)
    obtain ⟨w4, e4, m4, k4⟩ := l4 u.m_rank _ none (o5 ++ rest) hu.m_rank (by simp)
    obtain ⟨w3, e3, m3, k3⟩ := l3 u.m_btnrp _ none (o4 ++ (o5 ++ rest)) hu.m_btnrp (by simp)
    obtain ⟨w2, e2, m2, k2⟩ := l2 u.m_btnr _ none (o3 ++ (o4 ++ (o5 ++ rest))) hu.m_btnr (by simp)
    obtain ⟨w1, e1, m1, k1⟩ := l1 u.m_bt _ none (o2 ++ (o3 ++ (o4 ++ (o5 ++ rest)))) hu.m_bt (by simp)
    obtain ⟨w0, e0, m0, k0⟩ := l0 u.m_size _ none (o1 ++ (o2 ++ (o3 ++ (o4 ++ (o5 ++ rest))))) hu.m_size (by simp)
    refine ⟨⟨w0, w1, w2, w3, w4, w5⟩, ?_, ⟨m0, m1, m2, m3, m4, m5⟩,
      ⟨k0, k1, k2, k3, k4, k5⟩⟩
    simp only [rrrVector, RrrVector.load, List.append_assoc, e0, e1, e2, e3, e4, e5, Option.bind_eq_bind, Option.bind_some]

/-- A possible object: every member is one. -/
structure okBitVectorIl  (v : BitVectorIl) (_ : Ptr) : Prop where
  m_size : okNum 8 v.m_size none
  m_block_num : okNum 8 v.m_block_num none
  m_superblocks : okNum 8 v.m_superblocks none
  m_block_shift : okNum 8 v.m_block_shift none
  m_data : okVec 64 v.m_data none
  m_rank_samples : okVec 64 v.m_rank_samples none

/-- Same contents. -/
structure sameBitVectorIl  (v w : BitVectorIl) : Prop where
  m_size : v.m_size = w.m_size
  m_block_num : v.m_block_num = w.m_block_num
  m_superblocks : v.m_superblocks = w.m_superblocks
  m_block_shift : v.m_block_shift = w.m_block_shift
  m_data : sameVec v.m_data w.m_data
  m_rank_samples : sameVec v.m_rank_samples w.m_rank_samples

theorem bitVectorIl_good (junk : Nat → Word) :
    Good (bitVectorIl junk) false (okBitVectorIl) (okBitVectorIl) (sameBitVectorIl) := by
  refine ⟨fun v p hv => ?_, fun v w p p' h e => ⟨e, ⟨h.m_size, h.m_block_num, h.m_superblocks, h.m_block_shift, h.m_data,
      h.m_rank_samples⟩⟩⟩
  obtain ⟨o0, s0, l0⟩ := (num_good 8).rt v.m_size _ hv.m_size
  obtain ⟨o1, s1, l1⟩ := (num_good 8).rt v.m_block_num _ hv.m_block_num
  obtain ⟨o2, s2, l2⟩ := (num_good 8).rt v.m_superblocks _ hv.m_superblocks
  obtain ⟨o3, s3, l3⟩ := (num_good 8).rt v.m_block_shift _ hv.m_block_shift
  obtain ⟨o4, s4, l4⟩ := (vec_good junk 64).rt v.m_data _ hv.m_data
  obtain ⟨o5, s5, l5⟩ := (vec_good junk 64).rt v.m_rank_samples _ hv.m_rank_samples
  refine ⟨o0 ++ (o1 ++ (o2 ++ (o3 ++ (o4 ++ (o5))))), ?_, fun u q p' rest hu _ => ?_⟩
  · simp only [bitVectorIl, BitVectorIl.serialize, s0, s1, s2, s3, s4, s5, andThen_some]
  · obtain ⟨w5, e5, m5, k5⟩ := l5 u.m_rank_samples _ none (rest) hu.m_rank_samples (by simp)
    obtain ⟨w4, e4, m4, k4⟩ := l4 u.m_data _ none (o5 ++ rest) hu.m_data (by simp)
    obtain ⟨w3, e3, m3, k3⟩ := l3 u.m_block_shift _ none (o4 ++ (o5 ++ rest)) hu.m_block_shift (by simp)
    obtain ⟨w2, e2, m2, k2⟩ := l2 u.m_superblocks _ none (o3 ++ (o4 ++ (o5 ++ rest))) hu.m_superblocks (by simp)
    obtain ⟨w1, e1, m1, k1⟩ := l1 u.m_block_num _ none (o2 ++ (o3 ++ (o4 ++ (o5 ++ rest)))) hu.m_block_num (by simp)
    obtain ⟨w0, e0, m0, k0⟩ := l0 u.m_size _ none (o1 ++ (o2 ++ (o3 ++ (o4 ++ (o5 ++ rest))))) hu.m_size (by simp)
    refine ⟨⟨w0, w1, w2, w3, w4, w5⟩, ?_, ⟨m0, m1, m2, m3, m4, m5⟩,
      ⟨k0, k1, k2, k3, k4, k5⟩⟩
    simp only [bitVectorIl, BitVectorIl.load, List.append_assoc, e0, e1, e2, e3, e4, e5, Option.bind_eq_bind, Option.bind_some]

/-- A possible object: every member is one. -/
structure okHybVector  (v : HybVector) (_ : Ptr) : Prop where
  m_size : okNum 8 v.m_size none
  m_trunk : okVec 8 v.m_trunk none
  m_sblock_header : okVec 8 v.m_sblock_header none
  m_hblock_header : okVec 64 v.m_hblock_header none

/-- Same contents. -/
structure sameHybVector  (v w : HybVector) : Prop where
  m_size : v.m_size = w.m_size
  m_trunk : sameVec v.m_trunk w.m_trunk
  m_sblock_header : sameVec v.m_sblock_header w.m_sblock_header
  m_hblock_header : sameVec v.m_hblock_header w.m_hblock_header

theorem hybVector_good (junk : Nat → Word) :
    Good (hybVector junk) false (okHybVector) (okHybVector) (sameHybVector) := by
  refine ⟨fun v p hv => ?_, fun v w p p' h e => ⟨e, ⟨h.m_size, h.m_trunk, h.m_sblock_header, h.m_hblock_header⟩⟩⟩
  obtain ⟨o0, s0, l0⟩ := (num_good 8).rt v.m_size _ hv.m_size
  obtain ⟨o1, s1, l1⟩ := (vec_good junk 8).rt v.m_trunk _ hv.m_trunk
  obtain ⟨o2, s2, l2⟩ := (vec_good junk 8).rt v.m_sblock_header _ hv.m_sblock_header
  obtain ⟨o3, s3, l3⟩ := (vec_good junk 64).rt v.m_hblock_header _ hv.m_hblock_header
  refine ⟨o0 ++ (o1 ++ (o2 ++ (o3))), ?_, fun u q p' rest hu _ => ?_⟩
  · simp only [hybVector, HybVector.serialize, s0, s1, s2, s3, andThen_some]
  · obtain ⟨w3, e3, m3, k3⟩ := l3 u.m_hblock_header _ none (rest) hu.m_hblock_header (by simp)
    obtain ⟨w2, e2, m2, k2⟩ := l2 u.m_sblock_header _ none (o3 ++ rest) hu.m_sblock_header (by simp)
    obtain ⟨w1, e1, m1, k1⟩ := l1 u.m_trunk _ none (o2 ++ (o3 ++ rest)) hu.m_trunk (by simp)
    obtain ⟨w0, e0, m0, k0⟩ := l0 u.m_size _ none (o1 ++ (o2 ++ (o3 ++ rest))) hu.m_size (by simp)
    refine ⟨⟨w0, w1, w2, w3⟩, ?_, ⟨m0, m1, m2, m3⟩,
      ⟨k0, k1, k2, k3⟩⟩
    simp only [hybVector, HybVector.load, List.append_assoc, e0, e1, e2, e3, Option.bind_eq_bind, Option.bind_some]

/-- A possible object: every member is one. -/
structure okEncVector  (v : EncVector) (_ : Ptr) : Prop where
  m_z : okVec 0 v.m_z none
  m_sample_vals_and_pointer : okVec 0 v.m_sample_vals_and_pointer none
  m_size : okNum 8 v.m_size none

/-- Same contents. -/
structure sameEncVector  (v w : EncVector) : Prop where
  m_z : sameVec v.m_z w.m_z
  m_sample_vals_and_pointer : sameVec v.m_sample_vals_and_pointer w.m_sample_vals_and_pointer
  m_size : v.m_size = w.m_size

theorem encVector_good (junk : Nat → Word) :
    Good (encVector junk) false (okEncVector) (okEncVector) (sameEncVector) := by
  refine ⟨fun v p hv => ?_, fun v w p p' h e => ⟨e, ⟨h.m_z, h.m_sample_vals_and_pointer, h.m_size⟩⟩⟩
  obtain ⟨o0, s0, l0⟩ := (num_good 8).rt v.m_size _ hv.m_size
  obtain ⟨o1, s1, l1⟩ := (vec_good junk 0).rt v.m_z _ hv.m_z
  obtain ⟨o2, s2, l2⟩ := (vec_good junk 0).rt v.m_sample_vals_and_pointer _ hv.m_sample_vals_and_pointer
  refine ⟨o0 ++ (o1 ++ (o2)), ?_, fun u q p' rest hu _ => ?_⟩
  · simp only [encVector, EncVector.serialize, s0, s1, s2, andThen_some]
  · obtain ⟨w2, e2, m2, k2⟩ := l2 u.m_sample_vals_and_pointer _ none (rest) hu.m_sample_vals_and_pointer (by simp)
    obtain ⟨w1, e1, m1, k1⟩ := l1 u.m_z _ none (o2 ++ rest) hu.m_z (by simp)
    obtain ⟨w0, e0, m0, k0⟩ := l0 u.m_size _ none (o1 ++ (o2 ++ rest)) hu.m_size (by simp)
    refine ⟨⟨w1, w2, w0⟩, ?_, ⟨m1, m2, m0⟩,
      ⟨k1, k2, k0⟩⟩
    simp only [encVector, EncVector.load, List.append_assoc, e0, e1, e2, Option.bind_eq_bind, Option.bind_some]

/-- A possible object: every member is one. -/
structure okVlcVector  (v : VlcVector) (_ : Ptr) : Prop where
  m_z : okVec 0 v.m_z none
  m_sample_pointer : okVec 0 v.m_sample_pointer none
  m_size : okNum 8 v.m_size none

/-- Same contents. -/
structure sameVlcVector  (v w : VlcVector) : Prop where
  m_z : sameVec v.m_z w.m_z
  m_sample_pointer : sameVec v.m_sample_pointer w.m_sample_pointer
  m_size : v.m_size = w.m_size

theorem vlcVector_good (junk : Nat → Word) :
    Good (vlcVector junk) false (okVlcVector) (okVlcVector) (sameVlcVector) := by
  refine ⟨fun v p hv => ?_, fun v w p p' h e => ⟨e, ⟨h.m_z, h.m_sample_pointer, h.m_size⟩⟩⟩
  obtain ⟨o0, s0, l0⟩ := (num_good 8).rt v.m_size _ hv.m_size
  obtain ⟨o1, s1, l1⟩ := (vec_good junk 0).rt v.m_z _ hv.m_z
  obtain ⟨o2, s2, l2⟩ := (vec_good junk 0).rt v.m_sample_pointer _ hv.m_sample_pointer
  refine ⟨o0 ++ (o1 ++ (o2)), ?_, fun u q p' rest hu _ => ?_⟩
  · simp only [vlcVector, VlcVector.serialize, s0, s1, s2, andThen_some]
  · obtain ⟨w2, e2, m2, k2⟩ := l2 u.m_sample_pointer _ none (rest) hu.m_sample_pointer (by simp)
    obtain ⟨w1, e1, m1, k1⟩ := l1 u.m_z _ none (o2 ++ rest) hu.m_z (by simp)
    obtain ⟨w0, e0, m0, k0⟩ := l0 u.m_size _ none (o1 ++ (o2 ++ rest)) hu.m_size (by simp)
    refine ⟨⟨w1, w2, w0⟩, ?_, ⟨m1, m2, m0⟩,
      ⟨k1, k2, k0⟩⟩
    simp only [vlcVector, VlcVector.load, List.append_assoc, e0, e1, e2, Option.bind_eq_bind, Option.bind_some]

/-- A possible object: every member is one, and the supports point to their own members. -/
structure okDacVector {R : Type} (tb : Nat) (okR : R → Ptr → Prop) (v : DacVector R) (_ : Ptr) : Prop where
  m_data : okVec tb v.m_data none
  m_overflow : okVec 1 v.m_overflow none
  m_overflow_rank : okR v.m_overflow_rank (some "m_overflow")
  m_level_pointer_and_rank : okVec 64 v.m_level_pointer_and_rank none
  m_max_level : okNum 1 v.m_max_level none

/-- Same contents. -/
structure sameDacVector {R : Type} (sameR : R → R → Prop) (v w : DacVector R) : Prop where
  m_data : sameVec v.m_data w.m_data
  m_overflow : sameVec v.m_overflow w.m_overflow
  m_overflow_rank : sameR v.m_overflow_rank w.m_overflow_rank
  m_level_pointer_and_rank : sameVec v.m_level_pointer_and_rank w.m_level_pointer_and_rank
  m_max_level : v.m_max_level = w.m_max_level

theorem dacVector_good {R : Type} {cR : Codec R} {okR tgtR : R → Ptr → Prop} {sameR : R → R → Prop} {nR : Bool} (junk : Nat →
    Word) (tb : Nat) (hR : Good cR nR okR tgtR sameR) :
    Good (dacVector junk tb cR) false (okDacVector tb okR) (okDacVector tb tgtR) (sameDacVector sameR) := by
  refine ⟨fun v p hv => ?_, fun v w p p' h e => ⟨e, ⟨h.m_data, h.m_overflow, h.m_overflow_rank, h.m_level_pointer_and_rank,
      h.m_max_level⟩⟩⟩
  obtain ⟨o0, s0, l0⟩ := (vec_good junk tb).rt v.m_data _ hv.m_data
  obtain ⟨o1, s1, l1⟩ := (vec_good junk 1).rt v.m_overflow _ hv.m_overflow
  obtain ⟨o2, s2, l2⟩ := hR.rt v.m_overflow_rank _ hv.m_overflow_rank
  obtain ⟨o3, s3, l3⟩ := (vec_good junk 64).rt v.m_level_pointer_and_rank _ hv.m_level_pointer_and_rank
  obtain ⟨o4, s4, l4⟩ := (num_good 1).rt v.m_max_level _ hv.m_max_level
  refine ⟨o0 ++ (o1 ++ (o2 ++ (o3 ++ (o4)))), ?_, fun u q p' rest hu _ => ?_⟩
  · simp only [dacVector, DacVector.serialize, s0, s1, s2, s3, s4, andThen_some]
  · obtain ⟨w4, e4, m4, k4⟩ := l4 u.m_max_level _ none (rest) hu.m_max_level (by simp)
    obtain ⟨w3, e3, m3, k3⟩ := l3 u.m_level_pointer_and_rank _ none (o4 ++ rest) hu.m_level_pointer_and_rank (by simp)
    obtain ⟨w2, e2, m2, k2⟩ := l2 u.m_overflow_rank _ (some "m_overflow") (o3 ++ (o4 ++ rest)) hu.m_overflow_rank (by simp)
    obtain ⟨w1, e1, m1, k1⟩ := l1 u.m_overflow _ none (o2 ++ (o3 ++ (o4 ++ rest))) hu.m_overflow (by simp)
    obtain ⟨w0, e0, m0, k0⟩ := l0 u.m_data _ none (o1 ++ (o2 ++ (o3 ++ (o4 ++ rest)))) hu.m_data (by simp)
    refine ⟨⟨w0, w1, w2, w3, w4⟩, ?_, ⟨m0, m1, m2, m3, m4⟩,
      ⟨k0, k1, k2, k3, k4⟩⟩
    simp only [dacVector, DacVector.load, List.append_assoc, e0, e1, e2, e3, e4, Option.bind_eq_bind, Option.bind_some]

/-- A possible object: every member is one, and the supports point to their own members. -/
structure okWtInt {B R S1 S0 : Type} (okB : B → Ptr → Prop) (okR : R → Ptr → Prop) (okS1 : S1 → Ptr → Prop) (okS0 : S0 → Ptr →
    Prop) (v : WtInt B R S1 S0) (_ : Ptr) : Prop where
  m_size : okNum 8 v.m_size none
  m_sigma : okNum 8 v.m_sigma none
  m_tree : okB v.m_tree none
  m_tree_rank : okR v.m_tree_rank (some "m_tree")
  m_tree_select1 : okS1 v.m_tree_select1 (some "m_tree")
  m_tree_select0 : okS0 v.m_tree_select0 (some "m_tree")
  m_max_level : okNum 4 v.m_max_level none

/-- Same contents. -/
structure sameWtInt {B R S1 S0 : Type} (sameB : B → B → Prop) (sameR : R → R → Prop) (sameS1 : S1 → S1 → Prop) (sameS0 : S0 →
    S0 → Prop) (v w : WtInt B R S1 S0) : Prop where
  m_size : v.m_size = w.m_size
  m_sigma : v.m_sigma = w.m_sigma
  m_tree : sameB v.m_tree w.m_tree
  m_tree_rank : sameR v.m_tree_rank w.m_tree_rank
  m_tree_select1 : sameS1 v.m_tree_select1 w.m_tree_select1
  m_tree_select0 : sameS0 v.m_tree_select0 w.m_tree_select0
  m_max_level : v.m_max_level = w.m_max_level

theorem wtInt_good {B R S1 S0 : Type} {cB : Codec B} {okB tgtB : B → Ptr → Prop} {sameB : B → B → Prop} {cR : Codec R} {okR
    tgtR : R → Ptr → Prop} {sameR : R → R → Prop} {cS1 : Codec S1} {okS1 tgtS1 : S1 → Ptr → Prop} {sameS1 : S1 → S1 → Prop}
        {cS0 : Codec S0} {okS0 tgtS0 : S0 → Ptr → Prop} {sameS0 : S0 → S0 → Prop} {nR nS1 nS0 : Bool}  (hB : Good cB false okB
            tgtB sameB) (hR : Good cR nR okR tgtR sameR) (hS1 : Good cS1 nS1 okS1 tgtS1 sameS1) (hS0 : Good cS0 nS0 okS0 tgtS0
                sameS0) :
    Good (wtInt  cB cR cS1 cS0) false (okWtInt okB okR okS1 okS0) (okWtInt tgtB tgtR tgtS1 tgtS0) (sameWtInt sameB sameR sameS1
        sameS0) := by
  refine ⟨fun v p hv => ?_, fun v w p p' h e => ⟨e, ⟨h.m_size, h.m_sigma, h.m_tree, h.m_tree_rank, h.m_tree_select1,
      h.m_tree_select0, h.m_max_level⟩⟩⟩
  obtain ⟨o0, s0, l0⟩ := (num_good 8).rt v.m_size _ hv.m_size
  obtain ⟨o1, s1, l1⟩ := (num_good 8).rt v.m_sigma _ hv.m_sigma
  obtain ⟨o2, s2, l2⟩ := hB.rt v.m_tree _ hv.m_tree
  obtain ⟨o3, s3, l3⟩ := hR.rt v.m_tree_rank _ hv.m_tree_rank
  obtain ⟨o4, s4, l4⟩ := hS1.rt v.m_tree_select1 _ hv.m_tree_select1
  obtain ⟨o5, s5, l5⟩ := hS0.rt v.m_tree_select0 _ hv.m_tree_select0
  obtain ⟨o6, s6, l6⟩ := (num_good 4).rt v.m_max_level _ hv.m_max_level
  refine ⟨o0 ++ (o1 ++ (o2 ++ (o3 ++ (o4 ++ (o5 ++ (o6)))))), ?_, fun u q p' rest hu _ => ?_⟩
  · simp only [wtInt, WtInt.serialize, s0, s1, s2, s3, s4, s5, s6, andThen_some]
  · obtain ⟨w6, e6, m6, k6⟩ := l6 u.m_max_level _ none (rest) hu.m_max_level (by simp)
    obtain ⟨w5, e5, m5, k5⟩ := l5 u.m_tree_select0 _ (some "m_tree") (o6 ++ rest) hu.m_tree_select0 (by simp)
    obtain ⟨w4, e4, m4, k4⟩ := l4 u.m_tree_select1 _ (some "m_tree") (o5 ++ (o6 ++ rest)) hu.m_tree_select1 (by simp)
    obtain ⟨w3, e3, m3, k3⟩ := l3 u.m_tree_rank _ (some "m_tree") (o4 ++ (o5 ++ (o6 ++ rest))) hu.m_tree_rank (by simp)
    obtain ⟨w2, e2, m2, k2⟩ := l2 u.m_tree _ none (o3 ++ (o4 ++ (o5 ++ (o6 ++ rest)))) hu.m_tree (by simp)
    obtain ⟨w1, e1, m1, k1⟩ := l1 u.m_sigma _ none (o2 ++ (o3 ++ (o4 ++ (o5 ++ (o6 ++ rest))))) hu.m_sigma (by simp)
    obtain ⟨w0, e0, m0, k0⟩ := l0 u.m_size _ none (o1 ++ (o2 ++ (o3 ++ (o4 ++ (o5 ++ (o6 ++ rest)))))) hu.m_size (by simp)
    refine ⟨⟨w0, w1, w2, w3, w4, w5, w6⟩, ?_, ⟨m0, m1, m2, m3, m4, m5, m6⟩,
      ⟨k0, k1, k2, k3, k4, k5, k6⟩⟩
    simp only [wtInt, WtInt.load, List.append_assoc, e0, e1, e2, e3, e4, e5, e6, Option.bind_eq_bind, Option.bind_some]

/-- A possible object: every member is one, and the supports point to their own members. -/
structure okWmInt {B R S1 S0 : Type} (okB : B → Ptr → Prop) (okR : R → Ptr → Prop) (okS1 : S1 → Ptr → Prop) (okS0 : S0 → Ptr →
    Prop) (v : WmInt B R S1 S0) (_ : Ptr) : Prop where
  m_size : okNum 8 v.m_size none
  m_sigma : okNum 8 v.m_sigma none
  m_tree : okB v.m_tree none
  m_tree_rank : okR v.m_tree_rank (some "m_tree")
  m_tree_select1 : okS1 v.m_tree_select1 (some "m_tree")
  m_tree_select0 : okS0 v.m_tree_select0 (some "m_tree")
  m_max_level : okNum 4 v.m_max_level none
  m_zero_cnt : okVec 64 v.m_zero_cnt none
  m_rank_level : okVec 64 v.m_rank_level none

/-- Same contents. -/
structure sameWmInt {B R S1 S0 : Type} (sameB : B → B → Prop) (sameR : R → R → Prop) (sameS1 : S1 → S1 → Prop) (sameS0 : S0 →
    S0 → Prop) (v w : WmInt B R S1 S0) : Prop where
  m_size : v.m_size = w.m_size
  m_sigma : v.m_sigma = w.m_sigma
  m_tree : sameB v.m_tree w.m_tree
  m_tree_rank : sameR v.m_tree_rank w.m_tree_rank
  m_tree_select1 : sameS1 v.m_tree_select1 w.m_tree_select1
  m_tree_select0 : sameS0 v.m_tree_select0 w.m_tree_select0
  m_max_level : v.m_max_level = w.m_max_level
  m_zero_cnt : sameVec v.m_zero_cnt w.m_zero_cnt
  m_rank_level : sameVec v.m_rank_level w.m_rank_level

theorem wmInt_good {B R S1 S0 : Type} {cB : Codec B} {okB tgtB : B → Ptr → Prop} {sameB : B → B → Prop} {cR : Codec R} {okR
    tgtR : R → Ptr → Prop} {sameR : R → R → Prop} {cS1 : Codec S1} {okS1 tgtS1 : S1 → Ptr → Prop} {sameS1 : S1 → S1 → Prop}
        {cS0 : Codec S0} {okS0 tgtS0 : S0 → Ptr → Prop} {sameS0 : S0 → S0 → Prop} {nR nS1 nS0 : Bool} (junk : Nat → Word) (hB :
            Good cB false okB tgtB sameB) (hR : Good cR nR okR tgtR sameR) (hS1 : Good cS1 nS1 okS1 tgtS1 sameS1) (hS0 : Good
                cS0 nS0 okS0 tgtS0 sameS0) :
    Good (wmInt junk cB cR cS1 cS0) false (okWmInt okB okR okS1 okS0) (okWmInt tgtB tgtR tgtS1 tgtS0) (sameWmInt sameB sameR
        sameS1 sameS0) := by
  refine ⟨fun v p hv => ?_, fun v w p p' h e => ⟨e, ⟨h.m_size, h.m_sigma, h.m_tree, h.m_tree_rank, h.m_tree_select1,
      h.m_tree_select0, h.m_max_level, h.m_zero_cnt, h.m_rank_level⟩⟩⟩
  obtain ⟨o0, s0, l0⟩ := (num_good 8).rt v.m_size _ hv.m_size
  obtain ⟨o1, s1, l1⟩ := (num_good 8).rt v.m_sigma _ hv.m_sigma
  obtain ⟨o2, s2, l2⟩ := hB.rt v.m_tree _ hv.m_tree
  obtain ⟨o3, s3, l3⟩ := hR.rt v.m_tree_rank _ hv.m_tree_rank
  obtain ⟨o4, s4, l4⟩ := hS1.rt v.m_tree_select1 _ hv.m_tree_select1
  obtain ⟨o5, s5, l5⟩ := hS0.rt v.m_tree_select0 _ hv.m_tree_select0
  obtain ⟨o6, s6, l6⟩ := (num_good 4).rt v.m_max_level _ hv.m_max_level
  obtain ⟨o7, s7, l7⟩ := (vec_good junk 64).rt v.m_zero_cnt _ hv.m_zero_cnt
  obtain ⟨o8, s8, l8⟩ := (vec_good junk 64).rt v.m_rank_level _ hv.m_rank_level
  refine ⟨o0 ++ (o1 ++ (o2 ++ (o3 ++ (o4 ++ (o5 ++ (o6 ++ (o7 ++ (o8)))))))), ?_, fun u q p' rest hu _ => ?_⟩
  · simp only [wmInt, WmInt.serialize, s0, s1, s2, s3, s4, s5, s6, s7, s8, andThen_some]
  · obtain ⟨w8, e8, m8, k8⟩ := l8 u.m_rank_level _ none (rest) hu.m_rank_level (by simp)
    obtain ⟨w7, e7, m7, k7⟩ := l7 u.m_zero_cnt _ none (o8 ++ rest) hu.m_zero_cnt (by simp)
    obtain ⟨w6, e6, m6, k6⟩ := l6 u.m_max_level _ none (o7 ++ (o8 ++ rest)) hu.m_max_level (by simp)
    obtain ⟨w5, e5, m5, k5⟩ := l5 u.m_tree_select0 _ (some "m_tree") (o6 ++ (o7 ++ (o8 ++ rest))) hu.m_tree_select0 (by simp)
    obtain ⟨w4, e4, m4, k4⟩ := l4 u.m_tree_select1 _ (some "m_tree") (o5 ++ (o6 ++ (o7 ++ (o8 ++ rest)))) hu.m_tree_select1 (by
        simp)
    obtain ⟨w3, e3, m3, k3⟩ := l3 u.m_tree_rank _ (some "m_tree") (o4 ++ (o5 ++ (o6 ++ (o7 ++ (o8 ++ rest))))) hu.m_tree_rank
        (by simp)
    obtain ⟨w2, e2, m2, k2⟩ := l2 u.m_tree _ none (o3 ++ (o4 ++ (o5 ++ (o6 ++ (o7 ++ (o8 ++ rest)))))) hu.m_tree (by simp)
    obtain ⟨w1, e1, m1, k1⟩ := l1 u.m_sigma _ none (o2 ++ (o3 ++ (o4 ++ (o5 ++ (o6 ++ (o7 ++ (o8 ++ rest))))))) hu.m_sigma (by
        simp)
    obtain ⟨w0, e0, m0, k0⟩ := l0 u.m_size _ none (o1 ++ (o2 ++ (o3 ++ (o4 ++ (o5 ++ (o6 ++ (o7 ++ (o8 ++ rest))))))))
        hu.m_size (by simp)
    refine ⟨⟨w0, w1, w2, w3, w4, w5, w6, w7, w8⟩, ?_, ⟨m0, m1, m2, m3, m4, m5, m6, m7, m8⟩,
      ⟨k0, k1, k2, k3, k4, k5, k6, k7, k8⟩⟩
    simp only [wmInt, WmInt.load, List.append_assoc, e0, e1, e2, e3, e4, e5, e6, e7, e8, Option.bind_eq_bind, Option.bind_some]

/-- A possible object: every member is one, and the supports point to their own members. -/
structure okWtPc {B R S1 S0 T : Type} (okB : B → Ptr → Prop) (okR : R → Ptr → Prop) (okS1 : S1 → Ptr → Prop) (okS0 : S0 → Ptr →
    Prop) (okT : T → Ptr → Prop) (v : WtPc B R S1 S0 T) (_ : Ptr) : Prop where
  m_size : okNum 8 v.m_size none
  m_sigma : okNum 8 v.m_sigma none
  m_bv : okB v.m_bv none
  m_bv_rank : okR v.m_bv_rank (some "m_bv")
  m_bv_select1 : okS1 v.m_bv_select1 (some "m_bv")
  m_bv_select0 : okS0 v.m_bv_select0 (some "m_bv")
  m_tree : okT v.m_tree none

/-- Same contents. -/
structure sameWtPc {B R S1 S0 T : Type} (sameB : B → B → Prop) (sameR : R → R → Prop) (sameS1 : S1 → S1 → Prop) (sameS0 : S0 →
    S0 → Prop) (sameT : T → T → Prop) (v w : WtPc B R S1 S0 T) : Prop where
  m_size : v.m_size = w.m_size
  m_sigma : v.m_sigma = w.m_sigma
  m_bv : sameB v.m_bv w.m_bv
  m_bv_rank : sameR v.m_bv_rank w.m_bv_rank
  m_bv_select1 : sameS1 v.m_bv_select1 w.m_bv_select1
  m_bv_select0 : sameS0 v.m_bv_select0 w.m_bv_select0
  m_tree : sameT v.m_tree w.m_tree

theorem wtPc_good {B R S1 S0 T : Type} {cB : Codec B} {okB tgtB : B → Ptr → Prop} {sameB : B → B → Prop} {cR : Codec R} {okR
    tgtR : R → Ptr → Prop} {sameR : R → R → Prop} {cS1 : Codec S1} {okS1 tgtS1 : S1 → Ptr → Prop} {sameS1 : S1 → S1 → Prop}
        {cS0 : Codec S0} {okS0 tgtS0 : S0 → Ptr → Prop} {sameS0 : S0 → S0 → Prop} {cT : Codec T} {okT tgtT : T → Ptr → Prop}
            {sameT : T → T → Prop} {nR nS1 nS0 : Bool}  (hB : Good cB false okB tgtB sameB) (hR : Good cR nR okR tgtR sameR)
                (hS1 : Good cS1 nS1 okS1 tgtS1 sameS1) (hS0 : Good cS0 nS0 okS0 tgtS0 sameS0) (hT : Good cT false okT tgtT
                    sameT) :
    Good (wtPc  cB cR cS1 cS0 cT) false (okWtPc okB okR okS1 okS0 okT) (okWtPc tgtB tgtR tgtS1 tgtS0 tgtT) (sameWtPc sameB
        sameR sameS1 sameS0 sameT) := by
  refine ⟨fun v p hv => ?_, fun v w p p' h e => ⟨e, ⟨h.m_size, h.m_sigma, h.m_bv, h.m_bv_rank, h.m_bv_select1, h.m_bv_select0,
      h.m_tree⟩⟩⟩
  obtain ⟨o0, s0, l0⟩ := (num_good 8).rt v.m_size _ hv.m_size
  obtain ⟨o1, s1, l1⟩ := (num_good 8).rt v.m_sigma _ hv.m_sigma
  obtain ⟨o2, s2, l2⟩ := hB.rt v.m_bv _ hv.m_bv
  obtain ⟨o3, s3, l3⟩ := hR.rt v.m_bv_rank _ hv.m_bv_rank
  obtain ⟨o4, s4, l4⟩ := hS1.rt v.m_bv_select1 _ hv.m_bv_select1
  obtain ⟨o5, s5, l5⟩ := hS0.rt v.m_bv_select0 _ hv.m_bv_select0
  obtain ⟨o6, s6, l6⟩ := hT.rt v.m_tree _ hv.m_tree
  refine ⟨o0 ++ (o1 ++ (o2 ++ (o3 ++ (o4 ++ (o5 ++ (o6)))))), ?_, fun u q p' rest hu _ => ?_⟩
  · simp only [wtPc, WtPc.serialize, s0, s1, s2, s3, s4, s5, s6, andThen_some]
  · obtain ⟨w6, e6, m6, k6⟩ := l6 u.m_tree _ none (rest) hu.m_tree (by simp)
    obtain ⟨w5, e5, m5, k5⟩ := l5 u.m_bv_select0 _ (some "m_bv") (o6 ++ rest) hu.m_bv_select0 (by simp)
    obtain ⟨w4, e4, m4, k4⟩ := l4 u.m_bv_select1 _ (some "m_bv") (o5 ++ (o6 ++ rest)) hu.m_bv_select1 (by simp)
    obtain ⟨w3, e3, m3, k3⟩ := l3 u.m_bv_rank _ (some "m_bv") (o4 ++ (o5 ++ (o6 ++ rest))) hu.m_bv_rank (by simp)
    obtain ⟨w2, e2, m2, k2⟩ := l2 u.m_bv _ none (o3 ++ (o4 ++ (o5 ++ (o6 ++ rest)))) hu.m_bv (by simp)
    obtain ⟨w1, e1, m1, k1⟩ := l1 u.m_sigma _ none (o2 ++ (o3 ++ (o4 ++ (o5 ++ (o6 ++ rest))))) hu.m_sigma (by simp)
    obtain ⟨w0, e0, m0, k0⟩ := l0 u.m_size _ none (o1 ++ (o2 ++ (o3 ++ (o4 ++ (o5 ++ (o6 ++ rest)))))) hu.m_size (by simp)
    refine ⟨⟨w0, w1, w2, w3, w4, w5, w6⟩, ?_, ⟨m0, m1, m2, m3, m4, m5, m6⟩,
      ⟨k0, k1, k2, k3, k4, k5, k6⟩⟩
    simp only [wtPc, WtPc.load, List.append_assoc, e0, e1, e2, e3, e4, e5, e6, Option.bind_eq_bind, Option.bind_some]

/-- A possible object: every member is one, and the supports point to their own members. -/
structure okWtRlmn {B R S W : Type} (okB : B → Ptr → Prop) (okR : R → Ptr → Prop) (okS : S → Ptr → Prop) (okW : W → Ptr → Prop)
    (v : WtRlmn B R S W) (_ : Ptr) : Prop where
  m_size : okNum 8 v.m_size none
  m_bl : okB v.m_bl none
  m_bf : okB v.m_bf none
  m_wt : okW v.m_wt none
  m_bl_rank : okR v.m_bl_rank (some "m_bl")
  m_bf_rank : okR v.m_bf_rank (some "m_bf")
  m_bl_select : okS v.m_bl_select (some "m_bl")
  m_bf_select : okS v.m_bf_select (some "m_bf")
  m_C : okVec 64 v.m_C none
  m_C_bf_rank : okVec 64 v.m_C_bf_rank none

/-- Same contents. -/
structure sameWtRlmn {B R S W : Type} (sameB : B → B → Prop) (sameR : R → R → Prop) (sameS : S → S → Prop) (sameW : W → W →
    Prop) (v w : WtRlmn B R S W) : Prop where
  m_size : v.m_size = w.m_size
  m_bl : sameB v.m_bl w.m_bl
  m_bf : sameB v.m_bf w.m_bf
  m_wt : sameW v.m_wt w.m_wt
  m_bl_rank : sameR v.m_bl_rank w.m_bl_rank
  m_bf_rank : sameR v.m_bf_rank w.m_bf_rank
  m_bl_select : sameS v.m_bl_select w.m_bl_select
  m_bf_select : sameS v.m_bf_select w.m_bf_select
  m_C : sameVec v.m_C w.m_C
  m_C_bf_rank : sameVec v.m_C_bf_rank w.m_C_bf_rank

theorem wtRlmn_good {B R S W : Type} {cB : Codec B} {okB tgtB : B → Ptr → Prop} {sameB : B → B → Prop} {cR : Codec R} {okR tgtR
    : R → Ptr → Prop} {sameR : R → R → Prop} {cS : Codec S} {okS tgtS : S → Ptr → Prop} {sameS : S → S → Prop} {cW : Codec W}
        {okW tgtW : W → Ptr → Prop} {sameW : W → W → Prop} {nR nS : Bool} (junk : Nat → Word) (hB : Good cB false okB tgtB
            sameB) (hR : Good cR nR okR tgtR sameR) (hS : Good cS nS okS tgtS sameS) (hW : Good cW false okW tgtW sameW) :
    Good (wtRlmn junk cB cR cS cW) false (okWtRlmn okB okR okS okW) (okWtRlmn tgtB tgtR tgtS tgtW) (sameWtRlmn sameB sameR
        sameS sameW) := by
  refine ⟨fun v p hv => ?_, fun v w p p' h e => ⟨e, ⟨h.m_size, h.m_bl, h.m_bf, h.m_wt, h.m_bl_rank, h.m_bf_rank, h.m_bl_select,
      h.m_bf_select, h.m_C, h.m_C_bf_rank⟩⟩⟩
  obtain ⟨o0, s0, l0⟩ := (num_good 8).rt v.m_size _ hv.m_size
  obtain ⟨o1, s1, l1⟩ := hB.rt v.m_bl _ hv.m_bl
  obtain ⟨o2, s2, l2⟩ := hB.rt v.m_bf _ hv.m_bf
  obtain ⟨o3, s3, l3⟩ := hW.rt v.m_wt _ hv.m_wt
  obtain ⟨o4, s4, l4⟩ := hR.rt v.m_bl_rank _ hv.m_bl_rank
  obtain ⟨o5, s5, l5⟩ := hR.rt v.m_bf_rank _ hv.m_bf_rank
  obtain ⟨o6, s6, l6⟩ := hS.rt v.m_bl_select _ hv.m_bl_select
  obtain ⟨o7, s7, l7⟩ := hS.rt v.m_bf_select _ hv.m_bf_select
  obtain ⟨o8, s8, l8⟩ := (vec_good junk 64).rt v.m_C _ hv.m_C
  obtain ⟨o9, s9, l9⟩ := (vec_good junk 64).rt v.m_C_bf_rank _ hv.m_C_bf_rank
  refine ⟨o0 ++ (o1 ++ (o2 ++ (o3 ++ (o4 ++ (o5 ++ (o6 ++ (o7 ++ (o8 ++ (o9))))))))), ?_, fun u q p' rest hu _ => ?_⟩
  · simp only [wtRlmn, WtRlmn.serialize, s0, s1, s2, s3, s4, s5, s6, s7, s8, s9, andThen_some]
  · obtain ⟨w9, e9, m9, k9⟩ := l9 u.m_C_bf_rank _ none (rest) hu.m_C_bf_rank (by simp)
    obtain ⟨w8, e8, m8, k8⟩ := l8 u.m_C _ none (o9 ++ rest) hu.m_C (by simp)
    obtain ⟨w7, e7, m7, k7⟩ := l7 u.m_bf_select _ (some "m_bf") (o8 ++ (o9 ++ rest)) hu.m_bf_select (by simp)
    obtain ⟨w6, e6, m6, k6⟩ := l6 u.m_bl_select _ (some "m_bl") (o7 ++ (o8 ++ (o9 ++ rest))) hu.m_bl_select (by simp)
    obtain ⟨w5, e5, m5, k5⟩ := l5 u.m_bf_rank _ (some "m_bf") (o6 ++ (o7 ++ (o8 ++ (o9 ++ rest)))) hu.m_bf_rank (by simp)
    obtain ⟨w4, e4, m4, k4⟩ := l4 u.m_bl_rank _ (some "m_bl") (o5 ++ (o6 ++ (o7 ++ (o8 ++ (o9 ++ rest))))) hu.m_bl_rank (by simp)
    obtain ⟨w3, e3, m3, k3⟩ := l3 u.m_wt _ none (o4 ++ (o5 ++ (o6 ++ (o7 ++ (o8 ++ (o9 ++ rest)))))) hu.m_wt (by simp)
    obtain ⟨w2, e2, m2, k2⟩ := l2 u.m_bf _ none (o3 ++ (o4 ++ (o5 ++ (o6 ++ (o7 ++ (o8 ++ (o9 ++ rest))))))) hu.m_bf (by simp)
    obtain ⟨w1, e1, m1, k1⟩ := l1 u.m_bl _ none (o2 ++ (o3 ++ (o4 ++ (o5 ++ (o6 ++ (o7 ++ (o8 ++ (o9 ++ rest)))))))) hu.m_bl
        (by simp)
    obtain ⟨w0, e0, m0, k0⟩ := l0 u.m_size _ none (o1 ++ (o2 ++ (o3 ++ (o4 ++ (o5 ++ (o6 ++ (o7 ++ (o8 ++ (o9 ++ rest)))))))))
        hu.m_size (by simp)
    refine ⟨⟨w0, w1, w2, w3, w4, w5, w6, w7, w8, w9⟩, ?_, ⟨m0, m1, m2, m3, m4, m5, m6, m7, m8, m9⟩,
      ⟨k0, k1, k2, k3, k4, k5, k6, k7, k8, k9⟩⟩
    simp only [wtRlmn, WtRlmn.load, List.append_assoc, e0, e1, e2, e3, e4, e5, e6, e7, e8, e9, Option.bind_eq_bind,
        Option.bind_some]

/-- A possible object: every member is one. -/
structure okWtAp {W I : Type} (okW : W → Ptr → Prop) (okI : I → Ptr → Prop) (v : WtAp W I) (_ : Ptr) : Prop where
  m_size : okNum 8 v.m_size none
  m_sigma : okNum 8 v.m_sigma none
  m_singleton_class_cnt : okNum 8 v.m_singleton_class_cnt none
  m_class_cnt : okNum 8 v.m_class_cnt none
  m_char2class : okW v.m_char2class none
  m_class : okW v.m_class none
  m_offset : v.m_offset.length = v.m_class_cnt - v.m_singleton_class_cnt ∧ ∀ x ∈ v.m_offset, okI x none

/-- Same contents. -/
structure sameWtAp {W I : Type} (sameW : W → W → Prop) (sameI : I → I → Prop) (v w : WtAp W I) : Prop where
  m_size : v.m_size = w.m_size
  m_sigma : v.m_sigma = w.m_sigma
  m_singleton_class_cnt : v.m_singleton_class_cnt = w.m_singleton_class_cnt
  m_class_cnt : v.m_class_cnt = w.m_class_cnt
  m_char2class : sameW v.m_char2class w.m_char2class
  m_class : sameW v.m_class w.m_class
  m_offset : List.Forall₂ sameI v.m_offset w.m_offset

theorem wtAp_good {W I : Type} {cW : Codec W} {okW tgtW : W → Ptr → Prop} {sameW : W → W → Prop} {cI : Codec I} {okI tgtI : I →
    Ptr → Prop} {sameI : I → I → Prop}  (hW : Good cW false okW tgtW sameW) (hI : Good cI false okI tgtI sameI) {dI : I} (hdI :
        tgtI dI none) :
    Good (wtAp  cW cI dI) false (okWtAp okW okI) (okWtAp tgtW tgtI) (sameWtAp sameW sameI) := by
  refine ⟨fun v p hv => ?_, fun v w p p' h e => ⟨e, ⟨h.m_size, h.m_sigma, h.m_singleton_class_cnt, h.m_class_cnt,
      h.m_char2class, h.m_class, h.m_offset⟩⟩⟩
  obtain ⟨o0, s0, l0⟩ := (num_good 8).rt v.m_size _ hv.m_size
  obtain ⟨o1, s1, l1⟩ := (num_good 8).rt v.m_sigma _ hv.m_sigma
  obtain ⟨o2, s2, l2⟩ := (num_good 8).rt v.m_singleton_class_cnt _ hv.m_singleton_class_cnt
  obtain ⟨o3, s3, l3⟩ := (num_good 8).rt v.m_class_cnt _ hv.m_class_cnt
  obtain ⟨o4, s4, l4⟩ := hW.rt v.m_char2class _ hv.m_char2class
  obtain ⟨o5, s5, l5⟩ := hW.rt v.m_class _ hv.m_class
  obtain ⟨o6, s6, l6⟩ := serVector_good hI v.m_offset hv.m_offset.2
  refine ⟨o0 ++ (o1 ++ (o2 ++ (o3 ++ (o4 ++ (o5 ++ (o6)))))), ?_, fun u q p' rest hu _ => ?_⟩
  · simp only [wtAp, WtAp.serialize, s0, s1, s2, s3, s4, s5, s6, andThen_some]
  · obtain ⟨w6, e6, m6, k6⟩ := l6 (resize dI u.m_offset (v.m_class_cnt - v.m_singleton_class_cnt)) (rest)
      (by rw [resize_length, hv.m_offset.1]) (resize_mem hdI hu.m_offset.2)
    obtain ⟨w5, e5, m5, k5⟩ := l5 u.m_class _ none (o6 ++ rest) hu.m_class (by simp)
    obtain ⟨w4, e4, m4, k4⟩ := l4 u.m_char2class _ none (o5 ++ (o6 ++ rest)) hu.m_char2class (by simp)
    obtain ⟨w3, e3, m3, k3⟩ := l3 u.m_class_cnt _ none (o4 ++ (o5 ++ (o6 ++ rest))) hu.m_class_cnt (by simp)
    obtain ⟨w2, e2, m2, k2⟩ := l2 u.m_singleton_class_cnt _ none (o3 ++ (o4 ++ (o5 ++ (o6 ++ rest)))) hu.m_singleton_class_cnt
        (by simp)
    obtain ⟨w1, e1, m1, k1⟩ := l1 u.m_sigma _ none (o2 ++ (o3 ++ (o4 ++ (o5 ++ (o6 ++ rest))))) hu.m_sigma (by simp)
    obtain ⟨w0, e0, m0, k0⟩ := l0 u.m_size _ none (o1 ++ (o2 ++ (o3 ++ (o4 ++ (o5 ++ (o6 ++ rest)))))) hu.m_size (by simp)
    refine ⟨⟨w0, w1, w2, w3, w4, w5, w6⟩, ?_, ⟨m0, m1, m2, m3, m4, m5, m6⟩,
      ⟨k0, k1, k2, k3, k4, k5, ⟨by have h1 := m6.length_eq; have h2 := hv.m_offset.1; have g0 := m3; have g1 := m2; simp only; omega, k6⟩⟩⟩
    rw [← m3] at e3; rw [← m2] at e2
    rw [← m3, ← m2]
    simp only [wtAp, WtAp.load, List.append_assoc, e0, e1, e2, e3, e4, e5, e6, Option.bind_eq_bind, Option.bind_some]

/-- A possible object: every member is one, and the supports point to their own members. -/
structure okInvMultiPerm {R : Type} (okR : R → Ptr → Prop) (v : InvMultiPerm R) (p : Ptr) : Prop where
  m_iv : v.m_iv = p
  m_chunksize : okNum 8 v.m_chunksize none
  m_back_pointer : okVec 0 v.m_back_pointer none
  m_marked : okVec 1 v.m_marked none
  m_marked_rank : okR v.m_marked_rank (some "m_marked")

/-- Same contents. -/
structure sameInvMultiPerm {R : Type} (sameR : R → R → Prop) (v w : InvMultiPerm R) : Prop where
  m_chunksize : v.m_chunksize = w.m_chunksize
  m_back_pointer : sameVec v.m_back_pointer w.m_back_pointer
  m_marked : sameVec v.m_marked w.m_marked
  m_marked_rank : sameR v.m_marked_rank w.m_marked_rank

theorem invMultiPerm_good {R : Type} {cR : Codec R} {okR tgtR : R → Ptr → Prop} {sameR : R → R → Prop} {nR : Bool} (junk : Nat
    → Word) (hR : Good cR nR okR tgtR sameR) :
    Good (invMultiPerm junk cR) false (okInvMultiPerm okR) (lax (okInvMultiPerm tgtR)) (sameInvMultiPerm sameR) := by
  refine ⟨fun v p hv => ?_, fun v w p p' h e => ⟨⟨e.m_chunksize, e.m_back_pointer, e.m_marked, e.m_marked_rank⟩,
    ⟨rfl, h.m_chunksize, h.m_back_pointer, h.m_marked, h.m_marked_rank⟩⟩⟩
  obtain ⟨o0, s0, l0⟩ := (num_good 8).rt v.m_chunksize _ hv.m_chunksize
  obtain ⟨o1, s1, l1⟩ := (vec_good junk 0).rt v.m_back_pointer _ hv.m_back_pointer
  obtain ⟨o2, s2, l2⟩ := (vec_good junk 1).rt v.m_marked _ hv.m_marked
  obtain ⟨o3, s3, l3⟩ := hR.rt v.m_marked_rank _ hv.m_marked_rank
  refine ⟨o0 ++ (o1 ++ (o2 ++ (o3))), ?_, fun u q p' rest hu _ => ?_⟩
  · simp only [invMultiPerm, InvMultiPerm.serialize, s0, s1, s2, s3, andThen_some]
  · obtain ⟨_, hu⟩ := hu
    obtain ⟨w3, e3, m3, k3⟩ := l3 u.m_marked_rank _ (some "m_marked") (rest) hu.m_marked_rank (by simp)
    obtain ⟨w2, e2, m2, k2⟩ := l2 u.m_marked _ none (o3 ++ rest) hu.m_marked (by simp)
    obtain ⟨w1, e1, m1, k1⟩ := l1 u.m_back_pointer _ none (o2 ++ (o3 ++ rest)) hu.m_back_pointer (by simp)
    obtain ⟨w0, e0, m0, k0⟩ := l0 u.m_chunksize _ none (o1 ++ (o2 ++ (o3 ++ rest))) hu.m_chunksize (by simp)
    refine ⟨⟨p', w0, w1, w2, w3⟩, ?_, ⟨m0, m1, m2, m3⟩,
      ⟨rfl, k0, k1, k2, k3⟩⟩
    simp only [invMultiPerm, InvMultiPerm.load, List.append_assoc, e0, e1, e2, e3, Option.bind_eq_bind, Option.bind_some]

/-- A possible object: every member is one, and the supports point to their own members. -/
structure okWtGmrRs {B S0 S1 : Type} (okB : B → Ptr → Prop) (okS0 : S0 → Ptr → Prop) (okS1 : S1 → Ptr → Prop) (v : WtGmrRs B S0
    S1) (_ : Ptr) : Prop where
  m_size : okNum 8 v.m_size none
  m_block_size : okNum 8 v.m_block_size none
  m_blocks : okNum 8 v.m_blocks none
  m_sigma : okNum 8 v.m_sigma none
  m_e : okVec 0 v.m_e none
  m_bv_blocks : okB v.m_bv_blocks none
  m_bv_blocks_select0 : okS0 v.m_bv_blocks_select0 (some "m_bv_blocks")
  m_bv_blocks_select1 : okS1 v.m_bv_blocks_select1 (some "m_bv_blocks")

/-- Same contents. -/
structure sameWtGmrRs {B S0 S1 : Type} (sameB : B → B → Prop) (sameS0 : S0 → S0 → Prop) (sameS1 : S1 → S1 → Prop) (v w :
    WtGmrRs B S0 S1) : Prop where
  m_size : v.m_size = w.m_size
  m_block_size : v.m_block_size = w.m_block_size
  m_blocks : v.m_blocks = w.m_blocks
  m_sigma : v.m_sigma = w.m_sigma
  m_e : sameVec v.m_e w.m_e
  m_bv_blocks : sameB v.m_bv_blocks w.m_bv_blocks
  m_bv_blocks_select0 : sameS0 v.m_bv_blocks_select0 w.m_bv_blocks_select0
  m_bv_blocks_select1 : sameS1 v.m_bv_blocks_select1 w.m_bv_blocks_select1

theorem wtGmrRs_good {B S0 S1 : Type} {cB : Codec B} {okB tgtB : B → Ptr → Prop} {sameB : B → B → Prop} {cS0 : Codec S0} {okS0
    tgtS0 : S0 → Ptr → Prop} {sameS0 : S0 → S0 → Prop} {cS1 : Codec S1} {okS1 tgtS1 : S1 → Ptr → Prop} {sameS1 : S1 → S1 →
        Prop} {nS0 nS1 : Bool} (junk : Nat → Word) (hB : Good cB false okB tgtB sameB) (hS0 : Good cS0 nS0 okS0 tgtS0 sameS0)
            (hS1 : Good cS1 nS1 okS1 tgtS1 sameS1) :
    Good (wtGmrRs junk cB cS0 cS1) false (okWtGmrRs okB okS0 okS1) (okWtGmrRs tgtB tgtS0 tgtS1) (sameWtGmrRs sameB sameS0
        sameS1) := by
  refine ⟨fun v p hv => ?_, fun v w p p' h e => ⟨e, ⟨h.m_size, h.m_block_size, h.m_blocks, h.m_sigma, h.m_e, h.m_bv_blocks,
      h.m_bv_blocks_select0, h.m_bv_blocks_select1⟩⟩⟩
  obtain ⟨o0, s0, l0⟩ := (num_good 8).rt v.m_size _ hv.m_size
  obtain ⟨o1, s1, l1⟩ := (num_good 8).rt v.m_block_size _ hv.m_block_size
  obtain ⟨o2, s2, l2⟩ := (num_good 8).rt v.m_blocks _ hv.m_blocks
  obtain ⟨o3, s3, l3⟩ := (num_good 8).rt v.m_sigma _ hv.m_sigma
  obtain ⟨o4, s4, l4⟩ := (vec_good junk 0).rt v.m_e _ hv.m_e
  obtain ⟨o5, s5, l5⟩ := hB.rt v.m_bv_blocks _ hv.m_bv_blocks
  obtain ⟨o6, s6, l6⟩ := hS0.rt v.m_bv_blocks_select0 _ hv.m_bv_blocks_select0
  obtain ⟨o7, s7, l7⟩ := hS1.rt v.m_bv_blocks_select1 _ hv.m_bv_blocks_select1
  refine ⟨o0 ++ (o1 ++ (o2 ++ (o3 ++ (o4 ++ (o5 ++ (o6 ++ (o7))))))), ?_, fun u q p' rest hu _ => ?_⟩
  · simp only [wtGmrRs, WtGmrRs.serialize, s0, s1, s2, s3, s4, s5, s6, s7, andThen_some]
  · obtain ⟨w7, e7, m7, k7⟩ := l7 u.m_bv_blocks_select1 _ (some "m_bv_blocks") (rest) hu.m_bv_blocks_select1 (by simp)
    obtain ⟨w6, e6, m6, k6⟩ := l6 u.m_bv_blocks_select0 _ (some "m_bv_blocks") (o7 ++ rest) hu.m_bv_blocks_select0 (by simp)
    obtain ⟨w5, e5, m5, k5⟩ := l5 u.m_bv_blocks _ none (o6 ++ (o7 ++ rest)) hu.m_bv_blocks (by simp)
    obtain ⟨w4, e4, m4, k4⟩ := l4 u.m_e _ none (o5 ++ (o6 ++ (o7 ++ rest))) hu.m_e (by simp)
    obtain ⟨w3, e3, m3, k3⟩ := l3 u.m_sigma _ none (o4 ++ (o5 ++ (o6 ++ (o7 ++ rest)))) hu.m_sigma (by simp)
    obtain ⟨w2, e2, m2, k2⟩ := l2 u.m_blocks _ none (o3 ++ (o4 ++ (o5 ++ (o6 ++ (o7 ++ rest))))) hu.m_blocks (by simp)
    obtain ⟨w1, e1, m1, k1⟩ := l1 u.m_block_size _ none (o2 ++ (o3 ++ (o4 ++ (o5 ++ (o6 ++ (o7 ++ rest)))))) hu.m_block_size
        (by simp)
    obtain ⟨w0, e0, m0, k0⟩ := l0 u.m_size _ none (o1 ++ (o2 ++ (o3 ++ (o4 ++ (o5 ++ (o6 ++ (o7 ++ rest))))))) hu.m_size (by simp)
    refine ⟨⟨w0, w1, w2, w3, w4, w5, w6, w7⟩, ?_, ⟨m0, m1, m2, m3, m4, m5, m6, m7⟩,
      ⟨k0, k1, k2, k3, k4, k5, k6, k7⟩⟩
    simp only [wtGmrRs, WtGmrRs.load, List.append_assoc, e0, e1, e2, e3, e4, e5, e6, e7, Option.bind_eq_bind, Option.bind_some]

/-- A possible object: every member is one, and the supports point to their own members. -/
structure okWtGmr {B S0 S1 P : Type} (okB : B → Ptr → Prop) (okS0 : S0 → Ptr → Prop) (okS1 : S1 → Ptr → Prop) (okP : P → Ptr →
    Prop) (v : WtGmr B S0 S1 P) (_ : Ptr) : Prop where
  m_size : okNum 8 v.m_size none
  m_max_symbol : okNum 8 v.m_max_symbol none
  m_chunks : okNum 8 v.m_chunks none
  m_chunksize : okNum 8 v.m_chunksize none
  m_sigma : okNum 8 v.m_sigma none
  m_bv_blocks : okB v.m_bv_blocks none
  m_bv_blocks_select0 : okS0 v.m_bv_blocks_select0 (some "m_bv_blocks")
  m_bv_blocks_select1 : okS1 v.m_bv_blocks_select1 (some "m_bv_blocks")
  m_bv_chunks : okB v.m_bv_chunks none
  m_bv_chunks_select0 : okS0 v.m_bv_chunks_select0 (some "m_bv_chunks")
  m_bv_chunks_select1 : okS1 v.m_bv_chunks_select1 (some "m_bv_chunks")
  m_perm : okVec 0 v.m_perm none
  m_ips : okP v.m_ips (some "m_perm")

/-- Same contents. -/
structure sameWtGmr {B S0 S1 P : Type} (sameB : B → B → Prop) (sameS0 : S0 → S0 → Prop) (sameS1 : S1 → S1 → Prop) (sameP : P →
    P → Prop) (v w : WtGmr B S0 S1 P) : Prop where
  m_size : v.m_size = w.m_size
  m_max_symbol : v.m_max_symbol = w.m_max_symbol
  m_chunks : v.m_chunks = w.m_chunks
  m_chunksize : v.m_chunksize = w.m_chunksize
  m_sigma : v.m_sigma = w.m_sigma
  m_bv_blocks : sameB v.m_bv_blocks w.m_bv_blocks
  m_bv_blocks_select0 : sameS0 v.m_bv_blocks_select0 w.m_bv_blocks_select0
  m_bv_blocks_select1 : sameS1 v.m_bv_blocks_select1 w.m_bv_blocks_select1
  m_bv_chunks : sameB v.m_bv_chunks w.m_bv_chunks
  m_bv_chunks_select0 : sameS0 v.m_bv_chunks_select0 w.m_bv_chunks_select0
  m_bv_chunks_select1 : sameS1 v.m_bv_chunks_select1 w.m_bv_chunks_select1
  m_perm : sameVec v.m_perm w.m_perm
  m_ips : sameP v.m_ips w.m_ips

theorem wtGmr_good {B S0 S1 P : Type} {cB : Codec B} {okB tgtB : B → Ptr → Prop} {sameB : B → B → Prop} {cS0 : Codec S0} {okS0
    tgtS0 : S0 → Ptr → Prop} {sameS0 : S0 → S0 → Prop} {cS1 : Codec S1} {okS1 tgtS1 : S1 → Ptr → Prop} {sameS1 : S1 → S1 →
        Prop} {cP : Codec P} {okP tgtP : P → Ptr → Prop} {sameP : P → P → Prop} {nS0 nS1 nP : Bool} (junk : Nat → Word) (hB :
            Good cB false okB tgtB sameB) (hS0 : Good cS0 nS0 okS0 tgtS0 sameS0) (hS1 : Good cS1 nS1 okS1 tgtS1 sameS1) (hP :
                Good cP nP okP tgtP sameP) :
    Good (wtGmr junk cB cS0 cS1 cP) false (okWtGmr okB okS0 okS1 okP) (okWtGmr tgtB tgtS0 tgtS1 tgtP) (sameWtGmr sameB sameS0
        sameS1 sameP) := by
  refine ⟨fun v p hv => ?_, fun v w p p' h e => ⟨e, ⟨h.m_size, h.m_max_symbol, h.m_chunks, h.m_chunksize, h.m_sigma,
      h.m_bv_blocks, h.m_bv_blocks_select0, h.m_bv_blocks_select1, h.m_bv_chunks, h.m_bv_chunks_select0, h.m_bv_chunks_select1,
          h.m_perm, h.m_ips⟩⟩⟩
  obtain ⟨o0, s0, l0⟩ := (num_good 8).rt v.m_size _ hv.m_size
  obtain ⟨o1, s1, l1⟩ := (num_good 8).rt v.m_max_symbol _ hv.m_max_symbol
  obtain ⟨o2, s2, l2⟩ := (num_good 8).rt v.m_chunks _ hv.m_chunks
  obtain ⟨o3, s3, l3⟩ := (num_good 8).rt v.m_chunksize _ hv.m_chunksize
  obtain ⟨o4, s4, l4⟩ := (num_good 8).rt v.m_sigma _ hv.m_sigma
  obtain ⟨o5, s5, l5⟩ := hB.rt v.m_bv_blocks _ hv.m_bv_blocks
  obtain ⟨o6, s6, l6⟩ := hS0.rt v.m_bv_blocks_select0 _ hv.m_bv_blocks_select0
  obtain ⟨o7, s7, l7⟩ := hS1.rt v.m_bv_blocks_select1 _ hv.m_bv_blocks_select1
  obtain ⟨o8, s8, l8⟩ := hB.rt v.m_bv_chunks _ hv.m_bv_chunks
  obtain ⟨o9, s9, l9⟩ := hS0.rt v.m_bv_chunks_select0 _ hv.m_bv_chunks_select0
  obtain ⟨o10, s10, l10⟩ := hS1.rt v.m_bv_chunks_select1 _ hv.m_bv_chunks_select1
  obtain ⟨o11, s11, l11⟩ := (vec_good junk 0).rt v.m_perm _ hv.m_perm
  obtain ⟨o12, s12, l12⟩ := hP.rt v.m_ips _ hv.m_ips
  refine ⟨o0 ++ (o1 ++ (o2 ++ (o3 ++ (o4 ++ (o5 ++ (o6 ++ (o7 ++ (o8 ++ (o9 ++ (o10 ++ (o11 ++ (o12)))))))))))), ?_, fun u q p'
      rest hu _ => ?_⟩
  · simp only [wtGmr, WtGmr.serialize, s0, s1, s2, s3, s4, s5, s6, s7, s8, s9, s10, s11, s12, andThen_some]
  · obtain ⟨w12, e12, m12, k12⟩ := l12 u.m_ips _ (some "m_perm") (rest) hu.m_ips (by simp)
    obtain ⟨w11, e11, m11, k11⟩ := l11 u.m_perm _ none (o12 ++ rest) hu.m_perm (by simp)
    obtain ⟨w10, e10, m10, k10⟩ := l10 u.m_bv_chunks_select1 _ (some "m_bv_chunks") (o11 ++ (o12 ++ rest))
        hu.m_bv_chunks_select1 (by simp)
    obtain ⟨w9, e9, m9, k9⟩ := l9 u.m_bv_chunks_select0 _ (some "m_bv_chunks") (o10 ++ (o11 ++ (o12 ++ rest)))
        hu.m_bv_chunks_select0 (by simp)
    obtain ⟨w8, e8, m8, k8⟩ := l8 u.m_bv_chunks _ none (o9 ++ (o10 ++ (o11 ++ (o12 ++ rest)))) hu.m_bv_chunks (by simp)
    obtain ⟨w7, e7, m7, k7⟩ := l7 u.m_bv_blocks_select1 _ (some "m_bv_blocks") (o8 ++ (o9 ++ (o10 ++ (o11 ++ (o12 ++ rest)))))
        hu.m_bv_blocks_select1 (by simp)
    obtain ⟨w6, e6, m6, k6⟩ := l6 u.m_bv_blocks_select0 _ (some "m_bv_blocks") (o7 ++ (o8 ++ (o9 ++ (o10 ++ (o11 ++ (o12 ++
        rest)))))) hu.m_bv_blocks_select0 (by simp)
    obtain ⟨w5, e5, m5, k5⟩ := l5 u.m_bv_blocks _ none (o6 ++ (o7 ++ (o8 ++ (o9 ++ (o10 ++ (o11 ++ (o12 ++ rest)))))))
        hu.m_bv_blocks (by simp)
    obtain ⟨w4, e4, m4, k4⟩ := l4 u.m_sigma _ none (o5 ++ (o6 ++ (o7 ++ (o8 ++ (o9 ++ (o10 ++ (o11 ++ (o12 ++ rest))))))))
        hu.m_sigma (by simp)
    obtain ⟨w3, e3, m3, k3⟩ := l3 u.m_chunksize _ none (o4 ++ (o5 ++ (o6 ++ (o7 ++ (o8 ++ (o9 ++ (o10 ++ (o11 ++ (o12 ++
        rest))))))))) hu.m_chunksize (by simp)
    obtain ⟨w2, e2, m2, k2⟩ := l2 u.m_chunks _ none (o3 ++ (o4 ++ (o5 ++ (o6 ++ (o7 ++ (o8 ++ (o9 ++ (o10 ++ (o11 ++ (o12 ++
        rest)))))))))) hu.m_chunks (by simp)
    obtain ⟨w1, e1, m1, k1⟩ := l1 u.m_max_symbol _ none (o2 ++ (o3 ++ (o4 ++ (o5 ++ (o6 ++ (o7 ++ (o8 ++ (o9 ++ (o10 ++ (o11 ++
        (o12 ++ rest))))))))))) hu.m_max_symbol (by simp)
    obtain ⟨w0, e0, m0, k0⟩ := l0 u.m_size _ none (o1 ++ (o2 ++ (o3 ++ (o4 ++ (o5 ++ (o6 ++ (o7 ++ (o8 ++ (o9 ++ (o10 ++ (o11
        ++ (o12 ++ rest)))))))))))) hu.m_size (by simp)
    refine ⟨⟨w0, w1, w2, w3, w4, w5, w6, w7, w8, w9, w10, w11, w12⟩, ?_, ⟨m0, m1, m2, m3, m4, m5, m6, m7, m8, m9, m10, m11, m12⟩,
      ⟨k0, k1, k2, k3, k4, k5, k6, k7, k8, k9, k10, k11, k12⟩⟩
    simp only [wtGmr, WtGmr.load, List.append_assoc, e0, e1, e2, e3, e4, e5, e6, e7, e8, e9, e10, e11, e12,
        Option.bind_eq_bind, Option.bind_some]

/-- A possible object: every member is one. -/
structure okByteAlphabet  (v : ByteAlphabet) (_ : Ptr) : Prop where
  m_char2comp : okVec 8 v.m_char2comp none
  m_comp2char : okVec 8 v.m_comp2char none
  m_C : okVec 64 v.m_C none
  m_sigma : okNum 2 v.m_sigma none

/-- Same contents. -/
structure sameByteAlphabet  (v w : ByteAlphabet) : Prop where
  m_char2comp : sameVec v.m_char2comp w.m_char2comp
  m_comp2char : sameVec v.m_comp2char w.m_comp2char
  m_C : sameVec v.m_C w.m_C
  m_sigma : v.m_sigma = w.m_sigma

theorem byteAlphabet_good (junk : Nat → Word) :
    Good (byteAlphabet junk) false (okByteAlphabet) (okByteAlphabet) (sameByteAlphabet) := by
  refine ⟨fun v p hv => ?_, fun v w p p' h e => ⟨e, ⟨h.m_char2comp, h.m_comp2char, h.m_C, h.m_sigma⟩⟩⟩
  obtain ⟨o0, s0, l0⟩ := (vec_good junk 8).rt v.m_char2comp _ hv.m_char2comp
  obtain ⟨o1, s1, l1⟩ := (vec_good junk 8).rt v.m_comp2char _ hv.m_comp2char
  obtain ⟨o2, s2, l2⟩ := (vec_good junk 64).rt v.m_C _ hv.m_C
  obtain ⟨o3, s3, l3⟩ := (num_good 2).rt v.m_sigma _ hv.m_sigma
  refine ⟨o0 ++ (o1 ++ (o2 ++ (o3))), ?_, fun u q p' rest hu _ => ?_⟩
  · simp only [byteAlphabet, ByteAlphabet.serialize, s0, s1, s2, s3, andThen_some]
  · obtain ⟨w3, e3, m3, k3⟩ := l3 u.m_sigma _ none (rest) hu.m_sigma (by simp)
    obtain ⟨w2, e2, m2, k2⟩ := l2 u.m_C _ none (o3 ++ rest) hu.m_C (by simp)
    obtain ⟨w1, e1, m1, k1⟩ := l1 u.m_comp2char _ none (o2 ++ (o3 ++ rest)) hu.m_comp2char (by simp)
    obtain ⟨w0, e0, m0, k0⟩ := l0 u.m_char2comp _ none (o1 ++ (o2 ++ (o3 ++ rest))) hu.m_char2comp (by simp)
    refine ⟨⟨w0, w1, w2, w3⟩, ?_, ⟨m0, m1, m2, m3⟩,
      ⟨k0, k1, k2, k3⟩⟩
    simp only [byteAlphabet, ByteAlphabet.load, List.append_assoc, e0, e1, e2, e3, Option.bind_eq_bind, Option.bind_some]

/-- A possible object: every member is one, and the supports point to their own members. -/
structure okCharAlphabet {B R S : Type} (sb : Nat) (okB : B → Ptr → Prop) (okR : R → Ptr → Prop) (okS : S → Ptr → Prop) (v :
    CharAlphabet B R S) (_ : Ptr) : Prop where
  m_char : okB v.m_char none
  m_char_rank : okR v.m_char_rank (some "m_char")
  m_char_select : okS v.m_char_select (some "m_char")
  m_C : okVec 0 v.m_C none
  m_sigma : okNum sb v.m_sigma none

/-- Same contents. -/
structure sameCharAlphabet {B R S : Type} (sameB : B → B → Prop) (sameR : R → R → Prop) (sameS : S → S → Prop) (v w :
    CharAlphabet B R S) : Prop where
  m_char : sameB v.m_char w.m_char
  m_char_rank : sameR v.m_char_rank w.m_char_rank
  m_char_select : sameS v.m_char_select w.m_char_select
  m_C : sameVec v.m_C w.m_C
  m_sigma : v.m_sigma = w.m_sigma

theorem charAlphabet_good {B R S : Type} {cB : Codec B} {okB tgtB : B → Ptr → Prop} {sameB : B → B → Prop} {cR : Codec R} {okR
    tgtR : R → Ptr → Prop} {sameR : R → R → Prop} {cS : Codec S} {okS tgtS : S → Ptr → Prop} {sameS : S → S → Prop} (junk : Nat
        → Word) (sb : Nat) (hB : Good cB false okB tgtB sameB) (hR : Good cR false okR tgtR sameR) (hS : Good cS false okS tgtS
            sameS) :
    Good (charAlphabet junk sb cB cR cS) false (okCharAlphabet sb okB okR okS) (okCharAlphabet sb tgtB tgtR tgtS)
        (sameCharAlphabet sameB sameR sameS) := by
  refine ⟨fun v p hv => ?_, fun v w p p' h e => ⟨e, ⟨h.m_char, h.m_char_rank, h.m_char_select, h.m_C, h.m_sigma⟩⟩⟩
  obtain ⟨o0, s0, l0⟩ := hB.rt v.m_char _ hv.m_char
  obtain ⟨o1, s1, l1⟩ := hR.rt v.m_char_rank _ hv.m_char_rank
  obtain ⟨o2, s2, l2⟩ := hS.rt v.m_char_select _ hv.m_char_select
  obtain ⟨o3, s3, l3⟩ := (vec_good junk 0).rt v.m_C _ hv.m_C
  obtain ⟨o4, s4, l4⟩ := (num_good sb).rt v.m_sigma _ hv.m_sigma
  refine ⟨o0 ++ (o1 ++ (o2 ++ (o3 ++ (o4)))), ?_, fun u q p' rest hu _ => ?_⟩
  · simp only [charAlphabet, CharAlphabet.serialize, s0, s1, s2, s3, s4, andThen_some]
  · obtain ⟨w4, e4, m4, k4⟩ := l4 u.m_sigma _ none (rest) hu.m_sigma (by simp)
    obtain ⟨w3, e3, m3, k3⟩ := l3 u.m_C _ none (o4 ++ rest) hu.m_C (by simp)
    obtain ⟨w2, e2, m2, k2⟩ := l2 u.m_char_select _ none (o3 ++ (o4 ++ rest)) hu.m_char_select (by simp)
    obtain ⟨mm2, kk2⟩ := hS.setVec v.m_char_select w2 none (some "m_char") k2 m2
    obtain ⟨w1, e1, m1, k1⟩ := l1 u.m_char_rank _ none (o2 ++ (o3 ++ (o4 ++ rest))) hu.m_char_rank (by simp)
    obtain ⟨mm1, kk1⟩ := hR.setVec v.m_char_rank w1 none (some "m_char") k1 m1
    obtain ⟨w0, e0, m0, k0⟩ := l0 u.m_char _ none (o1 ++ (o2 ++ (o3 ++ (o4 ++ rest)))) hu.m_char (by simp)
    refine ⟨⟨w0, cR.setVec w1 (some "m_char"), cS.setVec w2 (some "m_char"), w3, w4⟩, ?_, ⟨m0, mm1, mm2, m3, m4⟩,
      ⟨k0, kk1, kk2, k3, k4⟩⟩
    simp only [charAlphabet, CharAlphabet.load, List.append_assoc, e0, e1, e2, e3, e4, Option.bind_eq_bind, Option.bind_some]

/-- A possible object: every member is one, and the supports point to their own members. -/
structure okMarkedSampling {B R : Type} (okB : B → Ptr → Prop) (okR : R → Ptr → Prop) (v : MarkedSampling B R) (_ : Ptr) : Prop
    where
  samples : okVec 0 v.samples none
  m_marked : okB v.m_marked none
  m_rank_marked : okR v.m_rank_marked (some "m_marked")

/-- Same contents. -/
structure sameMarkedSampling {B R : Type} (sameB : B → B → Prop) (sameR : R → R → Prop) (v w : MarkedSampling B R) : Prop where
  samples : sameVec v.samples w.samples
  m_marked : sameB v.m_marked w.m_marked
  m_rank_marked : sameR v.m_rank_marked w.m_rank_marked

theorem markedSampling_good {B R : Type} {cB : Codec B} {okB tgtB : B → Ptr → Prop} {sameB : B → B → Prop} {cR : Codec R} {okR
    tgtR : R → Ptr → Prop} {sameR : R → R → Prop} (junk : Nat → Word) (hB : Good cB false okB tgtB sameB) (hR : Good cR false
        okR tgtR sameR) :
    Good (markedSampling junk cB cR) false (okMarkedSampling okB okR) (okMarkedSampling tgtB tgtR) (sameMarkedSampling sameB
        sameR) := by
  refine ⟨fun v p hv => ?_, fun v w p p' h e => ⟨e, ⟨h.samples, h.m_marked, h.m_rank_marked⟩⟩⟩
  obtain ⟨o0, s0, l0⟩ := (vec_good junk 0).rt v.samples _ hv.samples
  obtain ⟨o1, s1, l1⟩ := hB.rt v.m_marked _ hv.m_marked
  obtain ⟨o2, s2, l2⟩ := hR.rt v.m_rank_marked _ hv.m_rank_marked
  refine ⟨o0 ++ (o1 ++ (o2)), ?_, fun u q p' rest hu _ => ?_⟩
  · simp only [markedSampling, MarkedSampling.serialize, s0, s1, s2, andThen_some]
  · obtain ⟨w2, e2, m2, k2⟩ := l2 u.m_rank_marked _ none (rest) hu.m_rank_marked (by simp)
    obtain ⟨mm2, kk2⟩ := hR.setVec v.m_rank_marked w2 none (some "m_marked") k2 m2
    obtain ⟨w1, e1, m1, k1⟩ := l1 u.m_marked _ none (o2 ++ rest) hu.m_marked (by simp)
    obtain ⟨w0, e0, m0, k0⟩ := l0 u.samples _ none (o1 ++ (o2 ++ rest)) hu.samples (by simp)
    refine ⟨⟨w0, w1, cR.setVec w2 (some "m_marked")⟩, ?_, ⟨m0, m1, mm2⟩,
      ⟨k0, k1, kk2⟩⟩
    simp only [markedSampling, MarkedSampling.load, List.append_assoc, e0, e1, e2, Option.bind_eq_bind, Option.bind_some]

/-- A possible object: every member is one, and the supports point to their own members. -/
structure okFuzzySampling {BS RS BI SI W : Type} (okBS : BS → Ptr → Prop) (okRS : RS → Ptr → Prop) (okBI : BI → Ptr → Prop)
    (okSI : SI → Ptr → Prop) (okW : W → Ptr → Prop) (v : FuzzySampling BS RS BI SI W) (_ : Ptr) : Prop where
  m_marked_sa : okBS v.m_marked_sa none
  m_rank_marked_sa : okRS v.m_rank_marked_sa (some "m_marked_sa")
  m_marked_isa : okBI v.m_marked_isa none
  m_select_marked_isa : okSI v.m_select_marked_isa (some "m_marked_isa")
  m_inv_perm : okW v.m_inv_perm none

/-- Same contents. -/
structure sameFuzzySampling {BS RS BI SI W : Type} (sameBS : BS → BS → Prop) (sameRS : RS → RS → Prop) (sameBI : BI → BI →
    Prop) (sameSI : SI → SI → Prop) (sameW : W → W → Prop) (v w : FuzzySampling BS RS BI SI W) : Prop where
  m_marked_sa : sameBS v.m_marked_sa w.m_marked_sa
  m_rank_marked_sa : sameRS v.m_rank_marked_sa w.m_rank_marked_sa
  m_marked_isa : sameBI v.m_marked_isa w.m_marked_isa
  m_select_marked_isa : sameSI v.m_select_marked_isa w.m_select_marked_isa
  m_inv_perm : sameW v.m_inv_perm w.m_inv_perm

theorem fuzzySampling_good {BS RS BI SI W : Type} {cBS : Codec BS} {okBS tgtBS : BS → Ptr → Prop} {sameBS : BS → BS → Prop}
    {cRS : Codec RS} {okRS tgtRS : RS → Ptr → Prop} {sameRS : RS → RS → Prop} {cBI : Codec BI} {okBI tgtBI : BI → Ptr → Prop}
        {sameBI : BI → BI → Prop} {cSI : Codec SI} {okSI tgtSI : SI → Ptr → Prop} {sameSI : SI → SI → Prop} {cW : Codec W} {okW
            tgtW : W → Ptr → Prop} {sameW : W → W → Prop}  (hBS : Good cBS false okBS tgtBS sameBS) (hRS : Good cRS false okRS
                tgtRS sameRS) (hBI : Good cBI false okBI tgtBI sameBI) (hSI : Good cSI false okSI tgtSI sameSI) (hW : Good cW
                    false okW tgtW sameW) :
    Good (fuzzySampling  cBS cRS cBI cSI cW) false (okFuzzySampling okBS okRS okBI okSI okW) (okFuzzySampling tgtBS tgtRS tgtBI
        tgtSI tgtW) (sameFuzzySampling sameBS sameRS sameBI sameSI sameW) := by
  refine ⟨fun v p hv => ?_, fun v w p p' h e => ⟨e, ⟨h.m_marked_sa, h.m_rank_marked_sa, h.m_marked_isa, h.m_select_marked_isa,
      h.m_inv_perm⟩⟩⟩
  obtain ⟨o0, s0, l0⟩ := hBS.rt v.m_marked_sa _ hv.m_marked_sa
  obtain ⟨o1, s1, l1⟩ := hRS.rt v.m_rank_marked_sa _ hv.m_rank_marked_sa
  obtain ⟨o2, s2, l2⟩ := hBI.rt v.m_marked_isa _ hv.m_marked_isa
  obtain ⟨o3, s3, l3⟩ := hSI.rt v.m_select_marked_isa _ hv.m_select_marked_isa
  obtain ⟨o4, s4, l4⟩ := hW.rt v.m_inv_perm _ hv.m_inv_perm
  refine ⟨o0 ++ (o1 ++ (o2 ++ (o3 ++ (o4)))), ?_, fun u q p' rest hu _ => ?_⟩
  · simp only [fuzzySampling, FuzzySampling.serialize, s0, s1, s2, s3, s4, andThen_some]
  · obtain ⟨w4, e4, m4, k4⟩ := l4 u.m_inv_perm _ none (rest) hu.m_inv_perm (by simp)
    obtain ⟨w3, e3, m3, k3⟩ := l3 u.m_select_marked_isa _ none (o4 ++ rest) hu.m_select_marked_isa (by simp)
    obtain ⟨mm3, kk3⟩ := hSI.setVec v.m_select_marked_isa w3 none (some "m_marked_isa") k3 m3
    obtain ⟨w2, e2, m2, k2⟩ := l2 u.m_marked_isa _ none (o3 ++ (o4 ++ rest)) hu.m_marked_isa (by simp)
    obtain ⟨w1, e1, m1, k1⟩ := l1 u.m_rank_marked_sa _ none (o2 ++ (o3 ++ (o4 ++ rest))) hu.m_rank_marked_sa (by simp)
    obtain ⟨mm1, kk1⟩ := hRS.setVec v.m_rank_marked_sa w1 none (some "m_marked_sa") k1 m1
    obtain ⟨w0, e0, m0, k0⟩ := l0 u.m_marked_sa _ none (o1 ++ (o2 ++ (o3 ++ (o4 ++ rest)))) hu.m_marked_sa (by simp)
    refine ⟨⟨w0, cRS.setVec w1 (some "m_marked_sa"), w2, cSI.setVec w3 (some "m_marked_isa"), w4⟩, ?_, ⟨m0, mm1, m2, mm3, m4⟩,
      ⟨k0, kk1, k2, kk3, k4⟩⟩
    simp only [fuzzySampling, FuzzySampling.load, List.append_assoc, e0, e1, e2, e3, e4, Option.bind_eq_bind, Option.bind_some]

/-- A possible object: every member is one, and the supports point to their own members. -/
structure okCsaSada {E SA IS A : Type} (okE : E → Ptr → Prop) (okSA : SA → Ptr → Prop) (okIS : IS → Ptr → Prop) (okA : A → Ptr
    → Prop) (v : CsaSada E SA IS A) (_ : Ptr) : Prop where
  m_psi : okE v.m_psi none
  m_sa_sample : okSA v.m_sa_sample none
  m_isa_sample : okIS v.m_isa_sample (some "m_sa_sample")
  m_alphabet : okA v.m_alphabet none

/-- Same contents. -/
structure sameCsaSada {E SA IS A : Type} (sameE : E → E → Prop) (sameSA : SA → SA → Prop) (sameIS : IS → IS → Prop) (sameA : A
    → A → Prop) (v w : CsaSada E SA IS A) : Prop where
  m_psi : sameE v.m_psi w.m_psi
  m_sa_sample : sameSA v.m_sa_sample w.m_sa_sample
  m_isa_sample : sameIS v.m_isa_sample w.m_isa_sample
  m_alphabet : sameA v.m_alphabet w.m_alphabet

theorem csaSada_good {E SA IS A : Type} {cE : Codec E} {okE tgtE : E → Ptr → Prop} {sameE : E → E → Prop} {cSA : Codec SA}
    {okSA tgtSA : SA → Ptr → Prop} {sameSA : SA → SA → Prop} {cIS : Codec IS} {okIS tgtIS : IS → Ptr → Prop} {sameIS : IS → IS
        → Prop} {cA : Codec A} {okA tgtA : A → Ptr → Prop} {sameA : A → A → Prop} {nIS : Bool}  (hE : Good cE false okE tgtE
            sameE) (hSA : Good cSA false okSA tgtSA sameSA) (hIS : Good cIS nIS okIS tgtIS sameIS) (hA : Good cA false okA tgtA
                sameA) :
    Good (csaSada  cE cSA cIS cA) false (okCsaSada okE okSA okIS okA) (okCsaSada tgtE tgtSA tgtIS tgtA) (sameCsaSada sameE
        sameSA sameIS sameA) := by
  refine ⟨fun v p hv => ?_, fun v w p p' h e => ⟨e, ⟨h.m_psi, h.m_sa_sample, h.m_isa_sample, h.m_alphabet⟩⟩⟩
  obtain ⟨o0, s0, l0⟩ := hE.rt v.m_psi _ hv.m_psi
  obtain ⟨o1, s1, l1⟩ := hSA.rt v.m_sa_sample _ hv.m_sa_sample
  obtain ⟨o2, s2, l2⟩ := hIS.rt v.m_isa_sample _ hv.m_isa_sample
  obtain ⟨o3, s3, l3⟩ := hA.rt v.m_alphabet _ hv.m_alphabet
  refine ⟨o0 ++ (o1 ++ (o2 ++ (o3))), ?_, fun u q p' rest hu _ => ?_⟩
  · simp only [csaSada, CsaSada.serialize, s0, s1, s2, s3, andThen_some]
  · obtain ⟨w3, e3, m3, k3⟩ := l3 u.m_alphabet _ none (rest) hu.m_alphabet (by simp)
    obtain ⟨w2, e2, m2, k2⟩ := l2 u.m_isa_sample _ (some "m_sa_sample") (o3 ++ rest) hu.m_isa_sample (by simp)
    obtain ⟨w1, e1, m1, k1⟩ := l1 u.m_sa_sample _ none (o2 ++ (o3 ++ rest)) hu.m_sa_sample (by simp)
    obtain ⟨w0, e0, m0, k0⟩ := l0 u.m_psi _ none (o1 ++ (o2 ++ (o3 ++ rest))) hu.m_psi (by simp)
    refine ⟨⟨w0, w1, w2, w3⟩, ?_, ⟨m0, m1, m2, m3⟩,
      ⟨k0, k1, k2, k3⟩⟩
    simp only [csaSada, CsaSada.load, List.append_assoc, e0, e1, e2, e3, Option.bind_eq_bind, Option.bind_some]

/-- A possible object: every member is one, and the supports point to their own members. -/
structure okCsaWt {W SA IS A : Type} (okW : W → Ptr → Prop) (okSA : SA → Ptr → Prop) (okIS : IS → Ptr → Prop) (okA : A → Ptr →
    Prop) (v : CsaWt W SA IS A) (_ : Ptr) : Prop where
  m_wavelet_tree : okW v.m_wavelet_tree none
  m_sa_sample : okSA v.m_sa_sample none
  m_isa_sample : okIS v.m_isa_sample (some "m_sa_sample")
  m_alphabet : okA v.m_alphabet none

/-- Same contents. -/
structure sameCsaWt {W SA IS A : Type} (sameW : W → W → Prop) (sameSA : SA → SA → Prop) (sameIS : IS → IS → Prop) (sameA : A →
    A → Prop) (v w : CsaWt W SA IS A) : Prop where
  m_wavelet_tree : sameW v.m_wavelet_tree w.m_wavelet_tree
  m_sa_sample : sameSA v.m_sa_sample w.m_sa_sample
  m_isa_sample : sameIS v.m_isa_sample w.m_isa_sample
  m_alphabet : sameA v.m_alphabet w.m_alphabet

theorem csaWt_good {W SA IS A : Type} {cW : Codec W} {okW tgtW : W → Ptr → Prop} {sameW : W → W → Prop} {cSA : Codec SA} {okSA
    tgtSA : SA → Ptr → Prop} {sameSA : SA → SA → Prop} {cIS : Codec IS} {okIS tgtIS : IS → Ptr → Prop} {sameIS : IS → IS →
        Prop} {cA : Codec A} {okA tgtA : A → Ptr → Prop} {sameA : A → A → Prop} {nIS : Bool}  (hW : Good cW false okW tgtW
            sameW) (hSA : Good cSA false okSA tgtSA sameSA) (hIS : Good cIS nIS okIS tgtIS sameIS) (hA : Good cA false okA tgtA
                sameA) :
    Good (csaWt  cW cSA cIS cA) false (okCsaWt okW okSA okIS okA) (okCsaWt tgtW tgtSA tgtIS tgtA) (sameCsaWt sameW sameSA
        sameIS sameA) := by
  refine ⟨fun v p hv => ?_, fun v w p p' h e => ⟨e, ⟨h.m_wavelet_tree, h.m_sa_sample, h.m_isa_sample, h.m_alphabet⟩⟩⟩
  obtain ⟨o0, s0, l0⟩ := hW.rt v.m_wavelet_tree _ hv.m_wavelet_tree
  obtain ⟨o1, s1, l1⟩ := hSA.rt v.m_sa_sample _ hv.m_sa_sample
  obtain ⟨o2, s2, l2⟩ := hIS.rt v.m_isa_sample _ hv.m_isa_sample
  obtain ⟨o3, s3, l3⟩ := hA.rt v.m_alphabet _ hv.m_alphabet
  refine ⟨o0 ++ (o1 ++ (o2 ++ (o3))), ?_, fun u q p' rest hu _ => ?_⟩
  · simp only [csaWt, CsaWt.serialize, s0, s1, s2, s3, andThen_some]
  · obtain ⟨w3, e3, m3, k3⟩ := l3 u.m_alphabet _ none (rest) hu.m_alphabet (by simp)
    obtain ⟨w2, e2, m2, k2⟩ := l2 u.m_isa_sample _ (some "m_sa_sample") (o3 ++ rest) hu.m_isa_sample (by simp)
    obtain ⟨w1, e1, m1, k1⟩ := l1 u.m_sa_sample _ none (o2 ++ (o3 ++ rest)) hu.m_sa_sample (by simp)
    obtain ⟨w0, e0, m0, k0⟩ := l0 u.m_wavelet_tree _ none (o1 ++ (o2 ++ (o3 ++ rest))) hu.m_wavelet_tree (by simp)
    refine ⟨⟨w0, w1, w2, w3⟩, ?_, ⟨m0, m1, m2, m3⟩,
      ⟨k0, k1, k2, k3⟩⟩
    simp only [csaWt, CsaWt.load, List.append_assoc, e0, e1, e2, e3, Option.bind_eq_bind, Option.bind_some]

/-- A possible object: every member is one. -/
structure okCsaBitcompressed {A : Type} (okA : A → Ptr → Prop) (v : CsaBitcompressed A) (_ : Ptr) : Prop where
  m_sa : okVec 0 v.m_sa none
  m_isa : okVec 0 v.m_isa none
  m_alphabet : okA v.m_alphabet none

/-- Same contents. -/
structure sameCsaBitcompressed {A : Type} (sameA : A → A → Prop) (v w : CsaBitcompressed A) : Prop where
  m_sa : sameVec v.m_sa w.m_sa
  m_isa : sameVec v.m_isa w.m_isa
  m_alphabet : sameA v.m_alphabet w.m_alphabet

theorem csaBitcompressed_good {A : Type} {cA : Codec A} {okA tgtA : A → Ptr → Prop} {sameA : A → A → Prop} (junk : Nat → Word)
    (hA : Good cA false okA tgtA sameA) :
    Good (csaBitcompressed junk cA) false (okCsaBitcompressed okA) (okCsaBitcompressed tgtA) (sameCsaBitcompressed sameA) := by
  refine ⟨fun v p hv => ?_, fun v w p p' h e => ⟨e, ⟨h.m_sa, h.m_isa, h.m_alphabet⟩⟩⟩
  obtain ⟨o0, s0, l0⟩ := (vec_good junk 0).rt v.m_sa _ hv.m_sa
  obtain ⟨o1, s1, l1⟩ := (vec_good junk 0).rt v.m_isa _ hv.m_isa
  obtain ⟨o2, s2, l2⟩ := hA.rt v.m_alphabet _ hv.m_alphabet
  refine ⟨o0 ++ (o1 ++ (o2)), ?_, fun u q p' rest hu _ => ?_⟩
  · simp only [csaBitcompressed, CsaBitcompressed.serialize, s0, s1, s2, andThen_some]
  · obtain ⟨w2, e2, m2, k2⟩ := l2 u.m_alphabet _ none (rest) hu.m_alphabet (by simp)
    obtain ⟨w1, e1, m1, k1⟩ := l1 u.m_isa _ none (o2 ++ rest) hu.m_isa (by simp)
    obtain ⟨w0, e0, m0, k0⟩ := l0 u.m_sa _ none (o1 ++ (o2 ++ rest)) hu.m_sa (by simp)
    refine ⟨⟨w0, w1, w2⟩, ?_, ⟨m0, m1, m2⟩,
      ⟨k0, k1, k2⟩⟩
    simp only [csaBitcompressed, CsaBitcompressed.load, List.append_assoc, e0, e1, e2, Option.bind_eq_bind, Option.bind_some]

/-- A possible object: every member is one. -/
structure okLcpByte  (v : LcpByte) (_ : Ptr) : Prop where
  m_small_lcp : okVec 8 v.m_small_lcp none
  m_big_lcp : okVec 0 v.m_big_lcp none
  m_big_lcp_idx : okVec 0 v.m_big_lcp_idx none

/-- Same contents. -/
structure sameLcpByte  (v w : LcpByte) : Prop where
  m_small_lcp : sameVec v.m_small_lcp w.m_small_lcp
  m_big_lcp : sameVec v.m_big_lcp w.m_big_lcp
  m_big_lcp_idx : sameVec v.m_big_lcp_idx w.m_big_lcp_idx

theorem lcpByte_good (junk : Nat → Word) :
    Good (lcpByte junk) false (okLcpByte) (okLcpByte) (sameLcpByte) := by
  refine ⟨fun v p hv => ?_, fun v w p p' h e => ⟨e, ⟨h.m_small_lcp, h.m_big_lcp, h.m_big_lcp_idx⟩⟩⟩
  obtain ⟨o0, s0, l0⟩ := (vec_good junk 8).rt v.m_small_lcp _ hv.m_small_lcp
  obtain ⟨o1, s1, l1⟩ := (vec_good junk 0).rt v.m_big_lcp _ hv.m_big_lcp
  obtain ⟨o2, s2, l2⟩ := (vec_good junk 0).rt v.m_big_lcp_idx _ hv.m_big_lcp_idx
  refine ⟨o0 ++ (o1 ++ (o2)), ?_, fun u q p' rest hu _ => ?_⟩
  · simp only [lcpByte, LcpByte.serialize, s0, s1, s2, andThen_some]
  · obtain ⟨w2, e2, m2, k2⟩ := l2 u.m_big_lcp_idx _ none (rest) hu.m_big_lcp_idx (by simp)
    obtain ⟨w1, e1, m1, k1⟩ := l1 u.m_big_lcp _ none (o2 ++ rest) hu.m_big_lcp (by simp)
    obtain ⟨w0, e0, m0, k0⟩ := l0 u.m_small_lcp _ none (o1 ++ (o2 ++ rest)) hu.m_small_lcp (by simp)
    refine ⟨⟨w0, w1, w2⟩, ?_, ⟨m0, m1, m2⟩,
      ⟨k0, k1, k2⟩⟩
    simp only [lcpByte, LcpByte.load, List.append_assoc, e0, e1, e2, Option.bind_eq_bind, Option.bind_some]

/-- A possible object: every member is one. -/
structure okLcpWt {W : Type} (okW : W → Ptr → Prop) (v : LcpWt W) (_ : Ptr) : Prop where
  m_small_lcp : okW v.m_small_lcp none
  m_big_lcp : okVec 0 v.m_big_lcp none

/-- Same contents. -/
structure sameLcpWt {W : Type} (sameW : W → W → Prop) (v w : LcpWt W) : Prop where
  m_small_lcp : sameW v.m_small_lcp w.m_small_lcp
  m_big_lcp : sameVec v.m_big_lcp w.m_big_lcp

theorem lcpWt_good {W : Type} {cW : Codec W} {okW tgtW : W → Ptr → Prop} {sameW : W → W → Prop} (junk : Nat → Word) (hW : Good
    cW false okW tgtW sameW) :
    Good (lcpWt junk cW) false (okLcpWt okW) (okLcpWt tgtW) (sameLcpWt sameW) := by
  refine ⟨fun v p hv => ?_, fun v w p p' h e => ⟨e, ⟨h.m_small_lcp, h.m_big_lcp⟩⟩⟩
  obtain ⟨o0, s0, l0⟩ := hW.rt v.m_small_lcp _ hv.m_small_lcp
  obtain ⟨o1, s1, l1⟩ := (vec_good junk 0).rt v.m_big_lcp _ hv.m_big_lcp
  refine ⟨o0 ++ (o1), ?_, fun u q p' rest hu _ => ?_⟩
  · simp only [lcpWt, LcpWt.serialize, s0, s1, andThen_some]
  · obtain ⟨w1, e1, m1, k1⟩ := l1 u.m_big_lcp _ none (rest) hu.m_big_lcp (by simp)
    obtain ⟨w0, e0, m0, k0⟩ := l0 u.m_small_lcp _ none (o1 ++ rest) hu.m_small_lcp (by simp)
    refine ⟨⟨w0, w1⟩, ?_, ⟨m0, m1⟩,
      ⟨k0, k1⟩⟩
    simp only [lcpWt, LcpWt.load, List.append_assoc, e0, e1, Option.bind_eq_bind, Option.bind_some]

/-- A possible object: every member is one, and the supports point to their own members. -/
structure okLcpSada {B S : Type} (okB : B → Ptr → Prop) (okS : S → Ptr → Prop) (v : LcpSada B S) (p : Ptr) : Prop where
  m_csa : v.m_csa = p
  m_data : okB v.m_data none
  m_select_support : okS v.m_select_support (some "m_data")

/-- Same contents. -/
structure sameLcpSada {B S : Type} (sameB : B → B → Prop) (sameS : S → S → Prop) (v w : LcpSada B S) : Prop where
  m_data : sameB v.m_data w.m_data
  m_select_support : sameS v.m_select_support w.m_select_support

theorem lcpSada_good {B S : Type} {cB : Codec B} {okB tgtB : B → Ptr → Prop} {sameB : B → B → Prop} {cS : Codec S} {okS tgtS :
    S → Ptr → Prop} {sameS : S → S → Prop} {nS : Bool}  (hB : Good cB false okB tgtB sameB) (hS : Good cS nS okS tgtS sameS) :
    Good (lcpSada  cB cS) false (okLcpSada okB okS) (lax (okLcpSada tgtB tgtS)) (sameLcpSada sameB sameS) := by
  refine ⟨fun v p hv => ?_, fun v w p p' h e => ⟨⟨e.m_data, e.m_select_support⟩,
    ⟨rfl, h.m_data, h.m_select_support⟩⟩⟩
  obtain ⟨o0, s0, l0⟩ := hB.rt v.m_data _ hv.m_data
  obtain ⟨o1, s1, l1⟩ := hS.rt v.m_select_support _ hv.m_select_support
  refine ⟨o0 ++ (o1), ?_, fun u q p' rest hu _ => ?_⟩
  · simp only [lcpSada, LcpSada.serialize, s0, s1, andThen_some]
  · obtain ⟨_, hu⟩ := hu
    obtain ⟨w1, e1, m1, k1⟩ := l1 u.m_select_support _ (some "m_data") (rest) hu.m_select_support (by simp)
    obtain ⟨w0, e0, m0, k0⟩ := l0 u.m_data _ none (o1 ++ rest) hu.m_data (by simp)
    refine ⟨⟨p', w0, w1⟩, ?_, ⟨m0, m1⟩,
      ⟨rfl, k0, k1⟩⟩
    simp only [lcpSada, LcpSada.load, List.append_assoc, e0, e1, Option.bind_eq_bind, Option.bind_some]

/-- A possible object: every member is one. -/
structure okLcpTree2 {W : Type} (okW : W → Ptr → Prop) (v : LcpTree2 W) (p : Ptr) : Prop where
  m_cst : v.m_cst = p
  m_small_lcp : okW v.m_small_lcp none
  m_big_lcp : okVec 0 v.m_big_lcp none

/-- Same contents. -/
structure sameLcpTree2 {W : Type} (sameW : W → W → Prop) (v w : LcpTree2 W) : Prop where
  m_small_lcp : sameW v.m_small_lcp w.m_small_lcp
  m_big_lcp : sameVec v.m_big_lcp w.m_big_lcp

theorem lcpTree2_good {W : Type} {cW : Codec W} {okW tgtW : W → Ptr → Prop} {sameW : W → W → Prop} (junk : Nat → Word) (hW :
    Good cW false okW tgtW sameW) :
    Good (lcpTree2 junk cW) false (okLcpTree2 okW) (lax (okLcpTree2 tgtW)) (sameLcpTree2 sameW) := by
  refine ⟨fun v p hv => ?_, fun v w p p' h e => ⟨⟨e.m_small_lcp, e.m_big_lcp⟩,
    ⟨rfl, h.m_small_lcp, h.m_big_lcp⟩⟩⟩
  obtain ⟨o0, s0, l0⟩ := hW.rt v.m_small_lcp _ hv.m_small_lcp
  obtain ⟨o1, s1, l1⟩ := (vec_good junk 0).rt v.m_big_lcp _ hv.m_big_lcp
  refine ⟨o0 ++ (o1), ?_, fun u q p' rest hu _ => ?_⟩
  · simp only [lcpTree2, LcpTree2.serialize, s0, s1, andThen_some]
  · obtain ⟨_, hu⟩ := hu
    obtain ⟨w1, e1, m1, k1⟩ := l1 u.m_big_lcp _ none (rest) hu.m_big_lcp (by simp)
    obtain ⟨w0, e0, m0, k0⟩ := l0 u.m_small_lcp _ none (o1 ++ rest) hu.m_small_lcp (by simp)
    refine ⟨⟨p', w0, w1⟩, ?_, ⟨m0, m1⟩,
      ⟨rfl, k0, k1⟩⟩
    simp only [lcpTree2, LcpTree2.load, List.append_assoc, e0, e1, Option.bind_eq_bind, Option.bind_some]

/-- A possible object: every member is one. -/
structure okLcpTree {L : Type} (okL : L → Ptr → Prop) (v : LcpTree L) (p : Ptr) : Prop where
  m_cst : v.m_cst = p
  m_lcp : okL v.m_lcp none

/-- Same contents. -/
structure sameLcpTree {L : Type} (sameL : L → L → Prop) (v w : LcpTree L) : Prop where
  m_lcp : sameL v.m_lcp w.m_lcp

theorem lcpTree_good {L : Type} {cL : Codec L} {okL tgtL : L → Ptr → Prop} {sameL : L → L → Prop}  (hL : Good cL false okL tgtL
    sameL) :
    Good (lcpTree  cL) false (okLcpTree okL) (lax (okLcpTree tgtL)) (sameLcpTree sameL) := by
  refine ⟨fun v p hv => ?_, fun v w p p' h e => ⟨⟨e.m_lcp⟩,
    ⟨rfl, h.m_lcp⟩⟩⟩
  obtain ⟨o0, s0, l0⟩ := hL.rt v.m_lcp _ hv.m_lcp
  refine ⟨o0, ?_, fun u q p' rest hu _ => ?_⟩
  · simp only [lcpTree, LcpTree.serialize, s0]
  · obtain ⟨_, hu⟩ := hu
    obtain ⟨w0, e0, m0, k0⟩ := l0 u.m_lcp _ none (rest) hu.m_lcp (by simp)
    refine ⟨⟨p', w0⟩, ?_, ⟨m0⟩,
      ⟨rfl, k0⟩⟩
    simp only [lcpTree, LcpTree.load, e0, Option.bind_eq_bind, Option.bind_some]

/-- A possible object: every member is one, and the supports point to their own members. -/
structure okBpSada {R S : Type} (okR : R → Ptr → Prop) (okS : S → Ptr → Prop) (v : BpSada R S) (p : Ptr) : Prop where
  m_bp : v.m_bp = p
  m_bp_rank : okR v.m_bp_rank p
  m_bp_select : okS v.m_bp_select p
  m_sml_block_min_max : okVec 0 v.m_sml_block_min_max none
  m_med_block_min_max : okVec 0 v.m_med_block_min_max none
  m_size : okNum 8 v.m_size none
  m_sml_blocks : okNum 8 v.m_sml_blocks none
  m_med_blocks : okNum 8 v.m_med_blocks none
  m_med_inner_blocks : okNum 8 v.m_med_inner_blocks none

/-- Same contents. -/
structure sameBpSada {R S : Type} (sameR : R → R → Prop) (sameS : S → S → Prop) (v w : BpSada R S) : Prop where
  m_bp_rank : sameR v.m_bp_rank w.m_bp_rank
  m_bp_select : sameS v.m_bp_select w.m_bp_select
  m_sml_block_min_max : sameVec v.m_sml_block_min_max w.m_sml_block_min_max
  m_med_block_min_max : sameVec v.m_med_block_min_max w.m_med_block_min_max
  m_size : v.m_size = w.m_size
  m_sml_blocks : v.m_sml_blocks = w.m_sml_blocks
  m_med_blocks : v.m_med_blocks = w.m_med_blocks
  m_med_inner_blocks : v.m_med_inner_blocks = w.m_med_inner_blocks

theorem bpSada_good {R S : Type} {cR : Codec R} {okR tgtR : R → Ptr → Prop} {sameR : R → R → Prop} {cS : Codec S} {okS tgtS : S
    → Ptr → Prop} {sameS : S → S → Prop} {nn : Bool} (junk : Nat → Word) (hR : Good cR nn okR tgtR sameR) (hS : Good cS nn okS
        tgtS sameS) :
    Good (bpSada junk cR cS) nn (okBpSada okR okS) (lax (okBpSada tgtR tgtS)) (sameBpSada sameR sameS) := by
  refine ⟨fun v p hv => ?_, fun v w p p' h e => ⟨⟨(hR.setVec v.m_bp_rank w.m_bp_rank _ p' h.m_bp_rank e.m_bp_rank).1,
      (hS.setVec v.m_bp_select w.m_bp_select _ p' h.m_bp_select e.m_bp_select).1, e.m_sml_block_min_max, e.m_med_block_min_max,
          e.m_size, e.m_sml_blocks, e.m_med_blocks, e.m_med_inner_blocks⟩,
    ⟨rfl, (hR.setVec v.m_bp_rank w.m_bp_rank _ p' h.m_bp_rank e.m_bp_rank).2, (hS.setVec v.m_bp_select w.m_bp_select _ p'
        h.m_bp_select e.m_bp_select).2, h.m_sml_block_min_max, h.m_med_block_min_max, h.m_size, h.m_sml_blocks, h.m_med_blocks,
            h.m_med_inner_blocks⟩⟩⟩
  obtain ⟨o0, s0, l0⟩ := (num_good 8).rt v.m_size _ hv.m_size
  obtain ⟨o1, s1, l1⟩ := (num_good 8).rt v.m_sml_blocks _ hv.m_sml_blocks
  obtain ⟨o2, s2, l2⟩ := (num_good 8).rt v.m_med_blocks _ hv.m_med_blocks
  obtain ⟨o3, s3, l3⟩ := (num_good 8).rt v.m_med_inner_blocks _ hv.m_med_inner_blocks
  obtain ⟨o4, s4, l4⟩ := hR.rt v.m_bp_rank _ hv.m_bp_rank
  obtain ⟨o5, s5, l5⟩ := hS.rt v.m_bp_select _ hv.m_bp_select
  obtain ⟨o6, s6, l6⟩ := (vec_good junk 0).rt v.m_sml_block_min_max _ hv.m_sml_block_min_max
  obtain ⟨o7, s7, l7⟩ := (vec_good junk 0).rt v.m_med_block_min_max _ hv.m_med_block_min_max
  refine ⟨o0 ++ (o1 ++ (o2 ++ (o3 ++ (o4 ++ (o5 ++ (o6 ++ (o7))))))), ?_, fun u q p' rest hu hn => ?_⟩
  · simp only [bpSada, BpSada.serialize, s0, s1, s2, s3, s4, s5, s6, s7, andThen_some]
  · obtain ⟨_, hu⟩ := hu
    obtain ⟨w7, e7, m7, k7⟩ := l7 u.m_med_block_min_max _ none (rest) hu.m_med_block_min_max (by simp)
    obtain ⟨w6, e6, m6, k6⟩ := l6 u.m_sml_block_min_max _ none (o7 ++ rest) hu.m_sml_block_min_max (by simp)
    obtain ⟨w5, e5, m5, k5⟩ := l5 u.m_bp_select _ p' (o6 ++ (o7 ++ rest)) hu.m_bp_select hn
    obtain ⟨w4, e4, m4, k4⟩ := l4 u.m_bp_rank _ p' (o5 ++ (o6 ++ (o7 ++ rest))) hu.m_bp_rank hn
    obtain ⟨w3, e3, m3, k3⟩ := l3 u.m_med_inner_blocks _ none (o4 ++ (o5 ++ (o6 ++ (o7 ++ rest)))) hu.m_med_inner_blocks (by simp)
    obtain ⟨w2, e2, m2, k2⟩ := l2 u.m_med_blocks _ none (o3 ++ (o4 ++ (o5 ++ (o6 ++ (o7 ++ rest))))) hu.m_med_blocks (by simp)
    obtain ⟨w1, e1, m1, k1⟩ := l1 u.m_sml_blocks _ none (o2 ++ (o3 ++ (o4 ++ (o5 ++ (o6 ++ (o7 ++ rest)))))) hu.m_sml_blocks
        (by simp)
    obtain ⟨w0, e0, m0, k0⟩ := l0 u.m_size _ none (o1 ++ (o2 ++ (o3 ++ (o4 ++ (o5 ++ (o6 ++ (o7 ++ rest))))))) hu.m_size (by simp)
    refine ⟨⟨p', w4, w5, w6, w7, w0, w1, w2, w3⟩, ?_, ⟨m4, m5, m6, m7, m0, m1, m2, m3⟩,
      ⟨rfl, k4, k5, k6, k7, k0, k1, k2, k3⟩⟩
    simp only [bpSada, BpSada.load, List.append_assoc, e0, e1, e2, e3, e4, e5, e6, e7, Option.bind_eq_bind, Option.bind_some]

/-- A possible object: every member is one, and the supports point to their own members. -/
structure okBpG {R S D Q : Type} (okR : R → Ptr → Prop) (okS : S → Ptr → Prop) (okD : D → Ptr → Prop) (okQ : Q → Ptr → Prop) (v
    : BpG R S D Q) (p : Ptr) : Prop where
  m_bp : v.m_bp = p
  m_rank_bp : okR v.m_rank_bp p
  m_select_bp : okS v.m_select_bp p
  m_nnd : okD v.m_nnd none
  m_pioneer_bp : okVec 1 v.m_pioneer_bp none
  m_rank_pioneer_bp : okR v.m_rank_pioneer_bp (some "m_pioneer_bp")
  m_nnd2 : okD v.m_nnd2 none
  m_match : okVec 0 v.m_match none
  m_enclose : okVec 0 v.m_enclose none
  m_range_max_match : okQ v.m_range_max_match (some "m_match")
  m_size : okNum 8 v.m_size none
  m_blocks : okNum 8 v.m_blocks none

/-- Same contents. -/
structure sameBpG {R S D Q : Type} (sameR : R → R → Prop) (sameS : S → S → Prop) (sameD : D → D → Prop) (sameQ : Q → Q → Prop)
    (v w : BpG R S D Q) : Prop where
  m_rank_bp : sameR v.m_rank_bp w.m_rank_bp
  m_select_bp : sameS v.m_select_bp w.m_select_bp
  m_nnd : sameD v.m_nnd w.m_nnd
  m_pioneer_bp : sameVec v.m_pioneer_bp w.m_pioneer_bp
  m_rank_pioneer_bp : sameR v.m_rank_pioneer_bp w.m_rank_pioneer_bp
  m_nnd2 : sameD v.m_nnd2 w.m_nnd2
  m_match : sameVec v.m_match w.m_match
  m_enclose : sameVec v.m_enclose w.m_enclose
  m_range_max_match : sameQ v.m_range_max_match w.m_range_max_match
  m_size : v.m_size = w.m_size
  m_blocks : v.m_blocks = w.m_blocks

theorem bpG_good {R S D Q : Type} {cR : Codec R} {okR tgtR : R → Ptr → Prop} {sameR : R → R → Prop} {cS : Codec S} {okS tgtS :
    S → Ptr → Prop} {sameS : S → S → Prop} {cD : Codec D} {okD tgtD : D → Ptr → Prop} {sameD : D → D → Prop} {cQ : Codec Q}
        {okQ tgtQ : Q → Ptr → Prop} {sameQ : Q → Q → Prop} {nn nQ : Bool} (junk : Nat → Word) (hR : Good cR nn okR tgtR sameR)
            (hS : Good cS nn okS tgtS sameS) (hD : Good cD false okD tgtD sameD) (hQ : Good cQ nQ okQ tgtQ sameQ) :
    Good (bpG junk cR cS cD cQ) nn (okBpG okR okS okD okQ) (lax (okBpG tgtR tgtS tgtD tgtQ)) (sameBpG sameR sameS sameD sameQ)
        := by
  refine ⟨fun v p hv => ?_, fun v w p p' h e => ⟨⟨(hR.setVec v.m_rank_bp w.m_rank_bp _ p' h.m_rank_bp e.m_rank_bp).1,
      (hS.setVec v.m_select_bp w.m_select_bp _ p' h.m_select_bp e.m_select_bp).1, e.m_nnd, e.m_pioneer_bp, e.m_rank_pioneer_bp,
          e.m_nnd2, e.m_match, e.m_enclose, e.m_range_max_match, e.m_size, e.m_blocks⟩,
    ⟨rfl, (hR.setVec v.m_rank_bp w.m_rank_bp _ p' h.m_rank_bp e.m_rank_bp).2, (hS.setVec v.m_select_bp w.m_select_bp _ p'
        h.m_select_bp e.m_select_bp).2, h.m_nnd, h.m_pioneer_bp, h.m_rank_pioneer_bp, h.m_nnd2, h.m_match, h.m_enclose,
            h.m_range_max_match, h.m_size, h.m_blocks⟩⟩⟩
  obtain ⟨o0, s0, l0⟩ := hR.rt v.m_rank_bp _ hv.m_rank_bp
  obtain ⟨o1, s1, l1⟩ := hS.rt v.m_select_bp _ hv.m_select_bp
  obtain ⟨o2, s2, l2⟩ := hD.rt v.m_nnd _ hv.m_nnd
  obtain ⟨o3, s3, l3⟩ := (vec_good junk 1).rt v.m_pioneer_bp _ hv.m_pioneer_bp
  obtain ⟨o4, s4, l4⟩ := hR.rt v.m_rank_pioneer_bp _ hv.m_rank_pioneer_bp
  obtain ⟨o5, s5, l5⟩ := hD.rt v.m_nnd2 _ hv.m_nnd2
  obtain ⟨o6, s6, l6⟩ := (vec_good junk 0).rt v.m_match _ hv.m_match
  obtain ⟨o7, s7, l7⟩ := (vec_good junk 0).rt v.m_enclose _ hv.m_enclose
  obtain ⟨o8, s8, l8⟩ := hQ.rt v.m_range_max_match _ hv.m_range_max_match
  obtain ⟨o9, s9, l9⟩ := (num_good 8).rt v.m_size _ hv.m_size
  obtain ⟨o10, s10, l10⟩ := (num_good 8).rt v.m_blocks _ hv.m_blocks
  refine ⟨o0 ++ (o1 ++ (o2 ++ (o3 ++ (o4 ++ (o5 ++ (o6 ++ (o7 ++ (o8 ++ (o9 ++ (o10)))))))))), ?_, fun u q p' rest hu hn => ?_⟩
  · simp only [bpG, BpG.serialize, s0, s1, s2, s3, s4, s5, s6, s7, s8, s9, s10, andThen_some]
  · obtain ⟨_, hu⟩ := hu
    obtain ⟨w10, e10, m10, k10⟩ := l10 u.m_blocks _ none (rest) hu.m_blocks (by simp)
    obtain ⟨w9, e9, m9, k9⟩ := l9 u.m_size _ none (o10 ++ rest) hu.m_size (by simp)
    obtain ⟨w8, e8, m8, k8⟩ := l8 u.m_range_max_match _ (some "m_match") (o9 ++ (o10 ++ rest)) hu.m_range_max_match (by simp)
    obtain ⟨w7, e7, m7, k7⟩ := l7 u.m_enclose _ none (o8 ++ (o9 ++ (o10 ++ rest))) hu.m_enclose (by simp)
    obtain ⟨w6, e6, m6, k6⟩ := l6 u.m_match _ none (o7 ++ (o8 ++ (o9 ++ (o10 ++ rest)))) hu.m_match (by simp)
    obtain ⟨w5, e5, m5, k5⟩ := l5 u.m_nnd2 _ none (o6 ++ (o7 ++ (o8 ++ (o9 ++ (o10 ++ rest))))) hu.m_nnd2 (by simp)
    obtain ⟨w4, e4, m4, k4⟩ := l4 u.m_rank_pioneer_bp _ (some "m_pioneer_bp") (o5 ++ (o6 ++ (o7 ++ (o8 ++ (o9 ++ (o10 ++
        rest)))))) hu.m_rank_pioneer_bp (by simp)
    obtain ⟨w3, e3, m3, k3⟩ := l3 u.m_pioneer_bp _ none (o4 ++ (o5 ++ (o6 ++ (o7 ++ (o8 ++ (o9 ++ (o10 ++ rest)))))))
        hu.m_pioneer_bp (by simp)
    obtain ⟨w2, e2, m2, k2⟩ := l2 u.m_nnd _ none (o3 ++ (o4 ++ (o5 ++ (o6 ++ (o7 ++ (o8 ++ (o9 ++ (o10 ++ rest)))))))) hu.m_nnd
        (by simp)
    obtain ⟨w1, e1, m1, k1⟩ := l1 u.m_select_bp _ p' (o2 ++ (o3 ++ (o4 ++ (o5 ++ (o6 ++ (o7 ++ (o8 ++ (o9 ++ (o10 ++
        rest))))))))) hu.m_select_bp hn
    obtain ⟨w0, e0, m0, k0⟩ := l0 u.m_rank_bp _ p' (o1 ++ (o2 ++ (o3 ++ (o4 ++ (o5 ++ (o6 ++ (o7 ++ (o8 ++ (o9 ++ (o10 ++
        rest)))))))))) hu.m_rank_bp hn
    refine ⟨⟨p', w0, w1, w2, w3, w4, w5, w6, w7, w8, w9, w10⟩, ?_, ⟨m0, m1, m2, m3, m4, m5, m6, m7, m8, m9, m10⟩,
      ⟨rfl, k0, k1, k2, k3, k4, k5, k6, k7, k8, k9, k10⟩⟩
    simp only [bpG, BpG.load, List.append_assoc, e0, e1, e2, e3, e4, e5, e6, e7, e8, e9, e10, Option.bind_eq_bind,
        Option.bind_some]

/-- A possible object: every member is one, and the supports point to their own members. -/
structure okRmqSct {P : Type} (okP : P → Ptr → Prop) (v : RmqSct P) (_ : Ptr) : Prop where
  m_sct_bp : okVec 1 v.m_sct_bp none
  m_sct_bp_support : okP v.m_sct_bp_support (some "m_sct_bp")

/-- Same contents. -/
structure sameRmqSct {P : Type} (sameP : P → P → Prop) (v w : RmqSct P) : Prop where
  m_sct_bp : sameVec v.m_sct_bp w.m_sct_bp
  m_sct_bp_support : sameP v.m_sct_bp_support w.m_sct_bp_support

theorem rmqSct_good {P : Type} {cP : Codec P} {okP tgtP : P → Ptr → Prop} {sameP : P → P → Prop} {nP : Bool} (junk : Nat →
    Word) (hP : Good cP nP okP tgtP sameP) :
    Good (rmqSct junk cP) false (okRmqSct okP) (okRmqSct tgtP) (sameRmqSct sameP) := by
  refine ⟨fun v p hv => ?_, fun v w p p' h e => ⟨e, ⟨h.m_sct_bp, h.m_sct_bp_support⟩⟩⟩
  obtain ⟨o0, s0, l0⟩ := (vec_good junk 1).rt v.m_sct_bp _ hv.m_sct_bp
  obtain ⟨o1, s1, l1⟩ := hP.rt v.m_sct_bp_support _ hv.m_sct_bp_support
  refine ⟨o0 ++ (o1), ?_, fun u q p' rest hu _ => ?_⟩
  · simp only [rmqSct, RmqSct.serialize, s0, s1, andThen_some]
  · obtain ⟨w1, e1, m1, k1⟩ := l1 u.m_sct_bp_support _ (some "m_sct_bp") (rest) hu.m_sct_bp_support (by simp)
    obtain ⟨w0, e0, m0, k0⟩ := l0 u.m_sct_bp _ none (o1 ++ rest) hu.m_sct_bp (by simp)
    refine ⟨⟨w0, w1⟩, ?_, ⟨m0, m1⟩,
      ⟨k0, k1⟩⟩
    simp only [rmqSct, RmqSct.load, List.append_assoc, e0, e1, Option.bind_eq_bind, Option.bind_some]

/-- A possible object: every member is one, and the supports point to their own members. -/
structure okRmqSada {P R S : Type} (okP : P → Ptr → Prop) (okR : R → Ptr → Prop) (okS : S → Ptr → Prop) (v : RmqSada P R S) (_
    : Ptr) : Prop where
  m_ect_bp : okVec 1 v.m_ect_bp none
  m_ect_bp_support : okP v.m_ect_bp_support (some "m_ect_bp")
  m_ect_bp_rank10 : okR v.m_ect_bp_rank10 (some "m_ect_bp")
  m_ect_bp_select10 : okS v.m_ect_bp_select10 (some "m_ect_bp")

/-- Same contents. -/
structure sameRmqSada {P R S : Type} (sameP : P → P → Prop) (sameR : R → R → Prop) (sameS : S → S → Prop) (v w : RmqSada P R S)
    : Prop where
  m_ect_bp : sameVec v.m_ect_bp w.m_ect_bp
  m_ect_bp_support : sameP v.m_ect_bp_support w.m_ect_bp_support
  m_ect_bp_rank10 : sameR v.m_ect_bp_rank10 w.m_ect_bp_rank10
  m_ect_bp_select10 : sameS v.m_ect_bp_select10 w.m_ect_bp_select10

theorem rmqSada_good {P R S : Type} {cP : Codec P} {okP tgtP : P → Ptr → Prop} {sameP : P → P → Prop} {cR : Codec R} {okR tgtR
    : R → Ptr → Prop} {sameR : R → R → Prop} {cS : Codec S} {okS tgtS : S → Ptr → Prop} {sameS : S → S → Prop} {nP nR nS :
        Bool} (junk : Nat → Word) (hP : Good cP nP okP tgtP sameP) (hR : Good cR nR okR tgtR sameR) (hS : Good cS nS okS tgtS
            sameS) :
    Good (rmqSada junk cP cR cS) false (okRmqSada okP okR okS) (okRmqSada tgtP tgtR tgtS) (sameRmqSada sameP sameR sameS) := by
  refine ⟨fun v p hv => ?_, fun v w p p' h e => ⟨e, ⟨h.m_ect_bp, h.m_ect_bp_support, h.m_ect_bp_rank10, h.m_ect_bp_select10⟩⟩⟩
  obtain ⟨o0, s0, l0⟩ := (vec_good junk 1).rt v.m_ect_bp _ hv.m_ect_bp
  obtain ⟨o1, s1, l1⟩ := hP.rt v.m_ect_bp_support _ hv.m_ect_bp_support
  obtain ⟨o2, s2, l2⟩ := hR.rt v.m_ect_bp_rank10 _ hv.m_ect_bp_rank10
  obtain ⟨o3, s3, l3⟩ := hS.rt v.m_ect_bp_select10 _ hv.m_ect_bp_select10
  refine ⟨o0 ++ (o1 ++ (o2 ++ (o3))), ?_, fun u q p' rest hu _ => ?_⟩
  · simp only [rmqSada, RmqSada.serialize, s0, s1, s2, s3, andThen_some]
  · obtain ⟨w3, e3, m3, k3⟩ := l3 u.m_ect_bp_select10 _ (some "m_ect_bp") (rest) hu.m_ect_bp_select10 (by simp)
    obtain ⟨w2, e2, m2, k2⟩ := l2 u.m_ect_bp_rank10 _ (some "m_ect_bp") (o3 ++ rest) hu.m_ect_bp_rank10 (by simp)
    obtain ⟨w1, e1, m1, k1⟩ := l1 u.m_ect_bp_support _ (some "m_ect_bp") (o2 ++ (o3 ++ rest)) hu.m_ect_bp_support (by simp)
    obtain ⟨w0, e0, m0, k0⟩ := l0 u.m_ect_bp _ none (o1 ++ (o2 ++ (o3 ++ rest))) hu.m_ect_bp (by simp)
    refine ⟨⟨w0, w1, w2, w3⟩, ?_, ⟨m0, m1, m2, m3⟩,
      ⟨k0, k1, k2, k3⟩⟩
    simp only [rmqSada, RmqSada.load, List.append_assoc, e0, e1, e2, e3, Option.bind_eq_bind, Option.bind_some]

/-- A possible object: every member is one, and the supports point to their own members. -/
structure okNnd {R : Type} (okR : R → Ptr → Prop) (v : Nnd R) (_ : Ptr) : Prop where
  m_abs_samples : okVec 0 v.m_abs_samples none
  m_differences : okVec 0 v.m_differences none
  m_ones : okNum 8 v.m_ones none
  m_size : okNum 8 v.m_size none
  m_contains_abs_sample : okVec 1 v.m_contains_abs_sample none
  m_rank_contains_abs_sample : okR v.m_rank_contains_abs_sample (some "m_contains_abs_sample")

/-- Same contents. -/
structure sameNnd {R : Type} (sameR : R → R → Prop) (v w : Nnd R) : Prop where
  m_abs_samples : sameVec v.m_abs_samples w.m_abs_samples
  m_differences : sameVec v.m_differences w.m_differences
  m_ones : v.m_ones = w.m_ones
  m_size : v.m_size = w.m_size
  m_contains_abs_sample : sameVec v.m_contains_abs_sample w.m_contains_abs_sample
  m_rank_contains_abs_sample : sameR v.m_rank_contains_abs_sample w.m_rank_contains_abs_sample

theorem nnd_good {R : Type} {cR : Codec R} {okR tgtR : R → Ptr → Prop} {sameR : R → R → Prop} {nR : Bool} (junk : Nat → Word)
    (hR : Good cR nR okR tgtR sameR) :
    Good (nnd junk cR) false (okNnd okR) (okNnd tgtR) (sameNnd sameR) := by
  refine ⟨fun v p hv => ?_, fun v w p p' h e => ⟨e, ⟨h.m_abs_samples, h.m_differences, h.m_ones, h.m_size,
      h.m_contains_abs_sample, h.m_rank_contains_abs_sample⟩⟩⟩
  obtain ⟨o0, s0, l0⟩ := (vec_good junk 0).rt v.m_abs_samples _ hv.m_abs_samples
  obtain ⟨o1, s1, l1⟩ := (vec_good junk 0).rt v.m_differences _ hv.m_differences
  obtain ⟨o2, s2, l2⟩ := (num_good 8).rt v.m_ones _ hv.m_ones
  obtain ⟨o3, s3, l3⟩ := (num_good 8).rt v.m_size _ hv.m_size
  obtain ⟨o4, s4, l4⟩ := (vec_good junk 1).rt v.m_contains_abs_sample _ hv.m_contains_abs_sample
  obtain ⟨o5, s5, l5⟩ := hR.rt v.m_rank_contains_abs_sample _ hv.m_rank_contains_abs_sample
  refine ⟨o0 ++ (o1 ++ (o2 ++ (o3 ++ (o4 ++ (o5))))), ?_, fun u q p' rest hu _ => ?_⟩
  · simp only [nnd, Nnd.serialize, s0, s1, s2, s3, s4, s5, andThen_some]
  · obtain ⟨w5, e5, m5, k5⟩ := l5 u.m_rank_contains_abs_sample _ (some "m_contains_abs_sample") (rest)
      hu.m_rank_contains_abs_sample (by simp)
    obtain ⟨w4, e4, m4, k4⟩ := l4 u.m_contains_abs_sample _ none (o5 ++ rest) hu.m_contains_abs_sample (by simp)
    obtain ⟨w3, e3, m3, k3⟩ := l3 u.m_size _ none (o4 ++ (o5 ++ rest)) hu.m_size (by simp)
    obtain ⟨w2, e2, m2, k2⟩ := l2 u.m_ones _ none (o3 ++ (o4 ++ (o5 ++ rest))) hu.m_ones (by simp)
    obtain ⟨w1, e1, m1, k1⟩ := l1 u.m_differences _ none (o2 ++ (o3 ++ (o4 ++ (o5 ++ rest)))) hu.m_differences (by simp)
    obtain ⟨w0, e0, m0, k0⟩ := l0 u.m_abs_samples _ none (o1 ++ (o2 ++ (o3 ++ (o4 ++ (o5 ++ rest))))) hu.m_abs_samples (by simp)
    refine ⟨⟨w0, w1, w2, w3, w4, w5⟩, ?_, ⟨m0, m1, m2, m3, m4, m5⟩,
      ⟨k0, k1, k2, k3, k4, k5⟩⟩
    simp only [nnd, Nnd.load, List.append_assoc, e0, e1, e2, e3, e4, e5, Option.bind_eq_bind, Option.bind_some]

/-- A possible object: every member is one. -/
structure okNnDict  (v : NnDict) (_ : Ptr) : Prop where
  m_depth : okNum 8 v.m_depth none
  m_v_begin_leaves : okNum 8 v.m_v_begin_leaves none
  m_size : okNum 8 v.m_size none
  m_offset : okVec 64 v.m_offset none
  m_tree : okVec 64 v.m_tree none

/-- Same contents. -/
structure sameNnDict  (v w : NnDict) : Prop where
  m_depth : v.m_depth = w.m_depth
  m_v_begin_leaves : v.m_v_begin_leaves = w.m_v_begin_leaves
  m_size : v.m_size = w.m_size
  m_offset : sameVec v.m_offset w.m_offset
  m_tree : sameVec v.m_tree w.m_tree

theorem nnDict_good (junk : Nat → Word) :
    Good (nnDict junk) false (okNnDict) (okNnDict) (sameNnDict) := by
  refine ⟨fun v p hv => ?_, fun v w p p' h e => ⟨e, ⟨h.m_depth, h.m_v_begin_leaves, h.m_size, h.m_offset, h.m_tree⟩⟩⟩
  obtain ⟨o0, s0, l0⟩ := (num_good 8).rt v.m_depth _ hv.m_depth
  obtain ⟨o1, s1, l1⟩ := (num_good 8).rt v.m_v_begin_leaves _ hv.m_v_begin_leaves
  obtain ⟨o2, s2, l2⟩ := (num_good 8).rt v.m_size _ hv.m_size
  obtain ⟨o3, s3, l3⟩ := (vec_good junk 64).rt v.m_offset _ hv.m_offset
  obtain ⟨o4, s4, l4⟩ := (vec_good junk 64).rt v.m_tree _ hv.m_tree
  refine ⟨o0 ++ (o1 ++ (o2 ++ (o3 ++ (o4)))), ?_, fun u q p' rest hu _ => ?_⟩
  · simp only [nnDict, NnDict.serialize, s0, s1, s2, s3, s4, andThen_some]
  · obtain ⟨w4, e4, m4, k4⟩ := l4 u.m_tree _ none (rest) hu.m_tree (by simp)
    obtain ⟨w3, e3, m3, k3⟩ := l3 u.m_offset _ none (o4 ++ rest) hu.m_offset (by simp)
    obtain ⟨w2, e2, m2, k2⟩ := l2 u.m_size _ none (o3 ++ (o4 ++ rest)) hu.m_size (by simp)
    obtain ⟨w1, e1, m1, k1⟩ := l1 u.m_v_begin_leaves _ none (o2 ++ (o3 ++ (o4 ++ rest))) hu.m_v_begin_leaves (by simp)
    obtain ⟨w0, e0, m0, k0⟩ := l0 u.m_depth _ none (o1 ++ (o2 ++ (o3 ++ (o4 ++ rest)))) hu.m_depth (by simp)
    refine ⟨⟨w0, w1, w2, w3, w4⟩, ?_, ⟨m0, m1, m2, m3, m4⟩,
      ⟨k0, k1, k2, k3, k4⟩⟩
    simp only [nnDict, NnDict.load, List.append_assoc, e0, e1, e2, e3, e4, Option.bind_eq_bind, Option.bind_some]

/-- A possible object: every member is one, and the supports point to their own members. -/
structure okK2Tree {B R : Type} (okB : B → Ptr → Prop) (okR : R → Ptr → Prop) (v : K2Tree B R) (_ : Ptr) : Prop where
  k_t : okB v.k_t none
  k_l : okB v.k_l none
  k_t_rank : okR v.k_t_rank (some "k_t")
  k_k : okNum 1 v.k_k none
  k_height : okNum 2 v.k_height none

/-- Same contents. -/
structure sameK2Tree {B R : Type} (sameB : B → B → Prop) (sameR : R → R → Prop) (v w : K2Tree B R) : Prop where
  k_t : sameB v.k_t w.k_t
  k_l : sameB v.k_l w.k_l
  k_t_rank : sameR v.k_t_rank w.k_t_rank
  k_k : v.k_k = w.k_k
  k_height : v.k_height = w.k_height

theorem k2Tree_good {B R : Type} {cB : Codec B} {okB tgtB : B → Ptr → Prop} {sameB : B → B → Prop} {cR : Codec R} {okR tgtR : R
    → Ptr → Prop} {sameR : R → R → Prop}  (hB : Good cB false okB tgtB sameB) (hR : Good cR false okR tgtR sameR) :
    Good (k2Tree  cB cR) false (okK2Tree okB okR) (okK2Tree tgtB tgtR) (sameK2Tree sameB sameR) := by
  refine ⟨fun v p hv => ?_, fun v w p p' h e => ⟨e, ⟨h.k_t, h.k_l, h.k_t_rank, h.k_k, h.k_height⟩⟩⟩
  obtain ⟨o0, s0, l0⟩ := hB.rt v.k_t _ hv.k_t
  obtain ⟨o1, s1, l1⟩ := hB.rt v.k_l _ hv.k_l
  obtain ⟨o2, s2, l2⟩ := hR.rt v.k_t_rank _ hv.k_t_rank
  obtain ⟨o3, s3, l3⟩ := (num_good 1).rt v.k_k _ hv.k_k
  obtain ⟨o4, s4, l4⟩ := (num_good 2).rt v.k_height _ hv.k_height
  refine ⟨o0 ++ (o1 ++ (o2 ++ (o3 ++ (o4)))), ?_, fun u q p' rest hu _ => ?_⟩
  · simp only [k2Tree, K2Tree.serialize, s0, s1, s2, s3, s4, andThen_some]
  · obtain ⟨w4, e4, m4, k4⟩ := l4 u.k_height _ none (rest) hu.k_height (by simp)
    obtain ⟨w3, e3, m3, k3⟩ := l3 u.k_k _ none (o4 ++ rest) hu.k_k (by simp)
    obtain ⟨w2, e2, m2, k2⟩ := l2 u.k_t_rank _ none (o3 ++ (o4 ++ rest)) hu.k_t_rank (by simp)
    obtain ⟨mm2, kk2⟩ := hR.setVec v.k_t_rank w2 none (some "k_t") k2 m2
    obtain ⟨w1, e1, m1, k1⟩ := l1 u.k_l _ none (o2 ++ (o3 ++ (o4 ++ rest))) hu.k_l (by simp)
    obtain ⟨w0, e0, m0, k0⟩ := l0 u.k_t _ none (o1 ++ (o2 ++ (o3 ++ (o4 ++ rest)))) hu.k_t (by simp)
    refine ⟨⟨w0, w1, cR.setVec w2 (some "k_t"), w3, w4⟩, ?_, ⟨m0, m1, mm2, m3, m4⟩,
      ⟨k0, k1, kk2, k3, k4⟩⟩
    simp only [k2Tree, K2Tree.load, List.append_assoc, e0, e1, e2, e3, e4, Option.bind_eq_bind, Option.bind_some]

/-- A possible object: every member is one, and the supports point to their own members. -/
structure okK2Treap {B R M : Type} (okB : B → Ptr → Prop) (okR : R → Ptr → Prop) (okM : M → Ptr → Prop) (v : K2Treap B R M) (_
    : Ptr) : Prop where
  m_t : okNum 1 v.m_t none
  m_bp : okB v.m_bp none
  m_bp_rank : okR v.m_bp_rank (some "m_bp")
  m_maxval : okM v.m_maxval none
  m_coord : v.m_coord.length = v.m_t ∧ ∀ x ∈ v.m_coord, okVec 0 x none
  m_level_idx : okVec 64 v.m_level_idx none

/-- Same contents. -/
structure sameK2Treap {B R M : Type} (sameB : B → B → Prop) (sameR : R → R → Prop) (sameM : M → M → Prop) (v w : K2Treap B R M)
    : Prop where
  m_t : v.m_t = w.m_t
  m_bp : sameB v.m_bp w.m_bp
  m_bp_rank : sameR v.m_bp_rank w.m_bp_rank
  m_maxval : sameM v.m_maxval w.m_maxval
  m_coord : List.Forall₂ sameVec v.m_coord w.m_coord
  m_level_idx : sameVec v.m_level_idx w.m_level_idx

theorem k2Treap_good {B R M : Type} {cB : Codec B} {okB tgtB : B → Ptr → Prop} {sameB : B → B → Prop} {cR : Codec R} {okR tgtR
    : R → Ptr → Prop} {sameR : R → R → Prop} {cM : Codec M} {okM tgtM : M → Ptr → Prop} {sameM : M → M → Prop} (junk : Nat →
        Word) (hB : Good cB false okB tgtB sameB) (hR : Good cR false okR tgtR sameR) (hM : Good cM false okM tgtM sameM) :
    Good (k2Treap junk cB cR cM) false (okK2Treap okB okR okM) (okK2Treap tgtB tgtR tgtM) (sameK2Treap sameB sameR sameM) := by
  refine ⟨fun v p hv => ?_, fun v w p p' h e => ⟨e, ⟨h.m_t, h.m_bp, h.m_bp_rank, h.m_maxval, h.m_coord, h.m_level_idx⟩⟩⟩
  obtain ⟨o0, s0, l0⟩ := (num_good 1).rt v.m_t _ hv.m_t
  obtain ⟨o1, s1, l1⟩ := hB.rt v.m_bp _ hv.m_bp
  obtain ⟨o2, s2, l2⟩ := hR.rt v.m_bp_rank _ hv.m_bp_rank
  obtain ⟨o3, s3, l3⟩ := serVector_good (vec_good junk 0) v.m_coord hv.m_coord.2
  obtain ⟨o4, s4, l4⟩ := hM.rt v.m_maxval _ hv.m_maxval
  obtain ⟨o5, s5, l5⟩ := (vec_good junk 64).rt v.m_level_idx _ hv.m_level_idx
  refine ⟨o0 ++ (o1 ++ (o2 ++ (o3 ++ (o4 ++ (o5))))), ?_, fun u q p' rest hu _ => ?_⟩
  · simp only [k2Treap, K2Treap.serialize, s0, s1, s2, s3, s4, s5, andThen_some]
  · obtain ⟨w5, e5, m5, k5⟩ := l5 u.m_level_idx _ none (rest) hu.m_level_idx (by simp)
    obtain ⟨w4, e4, m4, k4⟩ := l4 u.m_maxval _ none (o5 ++ rest) hu.m_maxval (by simp)
    obtain ⟨w3, e3, m3, k3⟩ := l3 (resize fresh u.m_coord (v.m_t)) (o4 ++ (o5 ++ rest))
      (by rw [resize_length, hv.m_coord.1]) (resize_mem fresh_ok hu.m_coord.2)
    obtain ⟨w2, e2, m2, k2⟩ := l2 u.m_bp_rank _ none (o3 ++ (o4 ++ (o5 ++ rest))) hu.m_bp_rank (by simp)
    obtain ⟨mm2, kk2⟩ := hR.setVec v.m_bp_rank w2 none (some "m_bp") k2 m2
    obtain ⟨w1, e1, m1, k1⟩ := l1 u.m_bp _ none (o2 ++ (o3 ++ (o4 ++ (o5 ++ rest)))) hu.m_bp (by simp)
    obtain ⟨w0, e0, m0, k0⟩ := l0 u.m_t _ none (o1 ++ (o2 ++ (o3 ++ (o4 ++ (o5 ++ rest))))) hu.m_t (by simp)
    refine ⟨⟨w0, w1, cR.setVec w2 (some "m_bp"), w4, w3, w5⟩, ?_, ⟨m0, m1, mm2, m4, m3, m5⟩,
      ⟨k0, k1, kk2, k4, ⟨by have h1 := m3.length_eq; have h2 := hv.m_coord.1; have g0 := m0; simp only; omega, k3⟩, k5⟩⟩
    rw [← m0] at e0
    rw [← m0]
    simp only [k2Treap, K2Treap.load, List.append_assoc, e0, e1, e2, e3, e4, e5, Option.bind_eq_bind, Option.bind_some]

/-- A possible object: every member is one. -/
structure okSortedStack  (v : SortedStack) (_ : Ptr) : Prop where
  m_n : okNum 8 v.m_n none
  m_cnt : okNum 8 v.m_cnt none
  m_top : okNum 8 v.m_top none
  m_stack : okVec 64 v.m_stack none

/-- Same contents. -/
structure sameSortedStack  (v w : SortedStack) : Prop where
  m_n : v.m_n = w.m_n
  m_cnt : v.m_cnt = w.m_cnt
  m_top : v.m_top = w.m_top
  m_stack : sameVec v.m_stack w.m_stack

theorem sortedStack_good (junk : Nat → Word) :
    Good (sortedStack junk) false (okSortedStack) (okSortedStack) (sameSortedStack) := by
  refine ⟨fun v p hv => ?_, fun v w p p' h e => ⟨e, ⟨h.m_n, h.m_cnt, h.m_top, h.m_stack⟩⟩⟩
  obtain ⟨o0, s0, l0⟩ := (num_good 8).rt v.m_n _ hv.m_n
  obtain ⟨o1, s1, l1⟩ := (num_good 8).rt v.m_top _ hv.m_top
  obtain ⟨o2, s2, l2⟩ := (num_good 8).rt v.m_cnt _ hv.m_cnt
  obtain ⟨o3, s3, l3⟩ := (vec_good junk 64).rt v.m_stack _ hv.m_stack
  refine ⟨o0 ++ (o1 ++ (o2 ++ (o3))), ?_, fun u q p' rest hu _ => ?_⟩
  · simp only [sortedStack, SortedStack.serialize, s0, s1, s2, s3, andThen_some]
  · obtain ⟨w3, e3, m3, k3⟩ := l3 u.m_stack _ none (rest) hu.m_stack (by simp)
    obtain ⟨w2, e2, m2, k2⟩ := l2 u.m_cnt _ none (o3 ++ rest) hu.m_cnt (by simp)
    obtain ⟨w1, e1, m1, k1⟩ := l1 u.m_top _ none (o2 ++ (o3 ++ rest)) hu.m_top (by simp)
    obtain ⟨w0, e0, m0, k0⟩ := l0 u.m_n _ none (o1 ++ (o2 ++ (o3 ++ rest))) hu.m_n (by simp)
    refine ⟨⟨w0, w2, w1, w3⟩, ?_, ⟨m0, m2, m1, m3⟩,
      ⟨k0, k2, k1, k3⟩⟩
    simp only [sortedStack, SortedStack.load, List.append_assoc, e0, e1, e2, e3, Option.bind_eq_bind, Option.bind_some]

/-- A possible object: every member is one. -/
structure okSortedMultiStack  (v : SortedMultiStack) (_ : Ptr) : Prop where
  m_n : okNum 8 v.m_n none
  m_cnt : okNum 8 v.m_cnt none
  m_top : okNum 8 v.m_top none
  m_stack : okVec 64 v.m_stack none
  m_duplication_stack : okVec 1 v.m_duplication_stack none

/-- Same contents. -/
structure sameSortedMultiStack  (v w : SortedMultiStack) : Prop where
  m_n : v.m_n = w.m_n
  m_cnt : v.m_cnt = w.m_cnt
  m_top : v.m_top = w.m_top
  m_stack : sameVec v.m_stack w.m_stack
  m_duplication_stack : sameVec v.m_duplication_stack w.m_duplication_stack

theorem sortedMultiStack_good (junk : Nat → Word) :
    Good (sortedMultiStack junk) false (okSortedMultiStack) (okSortedMultiStack) (sameSortedMultiStack) := by
  refine ⟨fun v p hv => ?_, fun v w p p' h e => ⟨e, ⟨h.m_n, h.m_cnt, h.m_top, h.m_stack, h.m_duplication_stack⟩⟩⟩
  obtain ⟨o0, s0, l0⟩ := (num_good 8).rt v.m_n _ hv.m_n
  obtain ⟨o1, s1, l1⟩ := (num_good 8).rt v.m_top _ hv.m_top
  obtain ⟨o2, s2, l2⟩ := (num_good 8).rt v.m_cnt _ hv.m_cnt
  obtain ⟨o3, s3, l3⟩ := (vec_good junk 64).rt v.m_stack _ hv.m_stack
  obtain ⟨o4, s4, l4⟩ := (vec_good junk 1).rt v.m_duplication_stack _ hv.m_duplication_stack
  refine ⟨o0 ++ (o1 ++ (o2 ++ (o3 ++ (o4)))), ?_, fun u q p' rest hu _ => ?_⟩
  · simp only [sortedMultiStack, SortedMultiStack.serialize, s0, s1, s2, s3, s4, andThen_some]
  · obtain ⟨w4, e4, m4, k4⟩ := l4 u.m_duplication_stack _ none (rest) hu.m_duplication_stack (by simp)
    obtain ⟨w3, e3, m3, k3⟩ := l3 u.m_stack _ none (o4 ++ rest) hu.m_stack (by simp)
    obtain ⟨w2, e2, m2, k2⟩ := l2 u.m_cnt _ none (o3 ++ (o4 ++ rest)) hu.m_cnt (by simp)
    obtain ⟨w1, e1, m1, k1⟩ := l1 u.m_top _ none (o2 ++ (o3 ++ (o4 ++ rest))) hu.m_top (by simp)
    obtain ⟨w0, e0, m0, k0⟩ := l0 u.m_n _ none (o1 ++ (o2 ++ (o3 ++ (o4 ++ rest)))) hu.m_n (by simp)
    refine ⟨⟨w0, w2, w1, w3, w4⟩, ?_, ⟨m0, m2, m1, m3, m4⟩,
      ⟨k0, k2, k1, k3, k4⟩⟩
    simp only [sortedMultiStack, SortedMultiStack.load, List.append_assoc, e0, e1, e2, e3, e4, Option.bind_eq_bind,
        Option.bind_some]

/-- A possible object: every member is one, and the supports point to their own members. -/
structure okCstSct3 {A L P B R S : Type} (okA : A → Ptr → Prop) (okL : L → Ptr → Prop) (okP : P → Ptr → Prop) (okB : B → Ptr →
    Prop) (okR : R → Ptr → Prop) (okS : S → Ptr → Prop) (lp : Ptr) (v : CstSct3 A L P B R S) (_ : Ptr) : Prop where
  m_csa : okA v.m_csa none
  m_lcp : okL v.m_lcp lp
  m_bp : okVec 1 v.m_bp none
  m_bp_support : okP v.m_bp_support (some "m_bp")
  m_first_child : okB v.m_first_child none
  m_first_child_rank : okR v.m_first_child_rank (some "m_first_child")
  m_first_child_select : okS v.m_first_child_select (some "m_first_child")
  m_nodes : okNum 8 v.m_nodes none

/-- Same contents. -/
structure sameCstSct3 {A L P B R S : Type} (sameA : A → A → Prop) (sameL : L → L → Prop) (sameP : P → P → Prop) (sameB : B → B
    → Prop) (sameR : R → R → Prop) (sameS : S → S → Prop) (v w : CstSct3 A L P B R S) : Prop where
  m_csa : sameA v.m_csa w.m_csa
  m_lcp : sameL v.m_lcp w.m_lcp
  m_bp : sameVec v.m_bp w.m_bp
  m_bp_support : sameP v.m_bp_support w.m_bp_support
  m_first_child : sameB v.m_first_child w.m_first_child
  m_first_child_rank : sameR v.m_first_child_rank w.m_first_child_rank
  m_first_child_select : sameS v.m_first_child_select w.m_first_child_select
  m_nodes : v.m_nodes = w.m_nodes

theorem cstSct3_good {A L P B R S : Type} {cA : Codec A} {okA tgtA : A → Ptr → Prop} {sameA : A → A → Prop} {cL : Codec L} {okL
    tgtL : L → Ptr → Prop} {sameL : L → L → Prop} {cP : Codec P} {okP tgtP : P → Ptr → Prop} {sameP : P → P → Prop} {cB : Codec
        B} {okB tgtB : B → Ptr → Prop} {sameB : B → B → Prop} {cR : Codec R} {okR tgtR : R → Ptr → Prop} {sameR : R → R → Prop}
            {cS : Codec S} {okS tgtS : S → Ptr → Prop} {sameS : S → S → Prop} {nP nR nS : Bool} (junk : Nat → Word) (hA : Good
                cA false okA tgtA sameA) (hL : Good cL false okL tgtL sameL) (hP : Good cP nP okP tgtP sameP) (hB : Good cB
                    false okB tgtB sameB) (hR : Good cR nR okR tgtR sameR) (hS : Good cS nS okS tgtS sameS) (lp : Ptr) :
    Good (cstSct3 junk cA cL cP cB cR cS lp) false (okCstSct3 okA okL okP okB okR okS lp) (okCstSct3 tgtA tgtL tgtP tgtB tgtR
        tgtS lp) (sameCstSct3 sameA sameL sameP sameB sameR sameS) := by
  refine ⟨fun v p hv => ?_, fun v w p p' h e => ⟨e, ⟨h.m_csa, h.m_lcp, h.m_bp, h.m_bp_support, h.m_first_child,
      h.m_first_child_rank, h.m_first_child_select, h.m_nodes⟩⟩⟩
  obtain ⟨o0, s0, l0⟩ := hA.rt v.m_csa _ hv.m_csa
  obtain ⟨o1, s1, l1⟩ := hL.rt v.m_lcp _ hv.m_lcp
  obtain ⟨o2, s2, l2⟩ := (vec_good junk 1).rt v.m_bp _ hv.m_bp
  obtain ⟨o3, s3, l3⟩ := hP.rt v.m_bp_support _ hv.m_bp_support
  obtain ⟨o4, s4, l4⟩ := hB.rt v.m_first_child _ hv.m_first_child
  obtain ⟨o5, s5, l5⟩ := hR.rt v.m_first_child_rank _ hv.m_first_child_rank
  obtain ⟨o6, s6, l6⟩ := hS.rt v.m_first_child_select _ hv.m_first_child_select
  obtain ⟨o7, s7, l7⟩ := (num_good 8).rt v.m_nodes _ hv.m_nodes
  refine ⟨o0 ++ (o1 ++ (o2 ++ (o3 ++ (o4 ++ (o5 ++ (o6 ++ (o7))))))), ?_, fun u q p' rest hu _ => ?_⟩
  · simp only [cstSct3, CstSct3.serialize, s0, s1, s2, s3, s4, s5, s6, s7, andThen_some]
  · obtain ⟨w7, e7, m7, k7⟩ := l7 u.m_nodes _ none (rest) hu.m_nodes (by simp)
    obtain ⟨w6, e6, m6, k6⟩ := l6 u.m_first_child_select _ (some "m_first_child") (o7 ++ rest) hu.m_first_child_select (by simp)
    obtain ⟨w5, e5, m5, k5⟩ := l5 u.m_first_child_rank _ (some "m_first_child") (o6 ++ (o7 ++ rest)) hu.m_first_child_rank (by
        simp)
    obtain ⟨w4, e4, m4, k4⟩ := l4 u.m_first_child _ none (o5 ++ (o6 ++ (o7 ++ rest))) hu.m_first_child (by simp)
    obtain ⟨w3, e3, m3, k3⟩ := l3 u.m_bp_support _ (some "m_bp") (o4 ++ (o5 ++ (o6 ++ (o7 ++ rest)))) hu.m_bp_support (by simp)
    obtain ⟨w2, e2, m2, k2⟩ := l2 u.m_bp _ none (o3 ++ (o4 ++ (o5 ++ (o6 ++ (o7 ++ rest))))) hu.m_bp (by simp)
    obtain ⟨w1, e1, m1, k1⟩ := l1 u.m_lcp _ lp (o2 ++ (o3 ++ (o4 ++ (o5 ++ (o6 ++ (o7 ++ rest)))))) hu.m_lcp (by simp)
    obtain ⟨w0, e0, m0, k0⟩ := l0 u.m_csa _ none (o1 ++ (o2 ++ (o3 ++ (o4 ++ (o5 ++ (o6 ++ (o7 ++ rest))))))) hu.m_csa (by simp)
    refine ⟨⟨w0, w1, w2, w3, w4, w5, w6, w7⟩, ?_, ⟨m0, m1, m2, m3, m4, m5, m6, m7⟩,
      ⟨k0, k1, k2, k3, k4, k5, k6, k7⟩⟩
    simp only [cstSct3, CstSct3.load, List.append_assoc, e0, e1, e2, e3, e4, e5, e6, e7, Option.bind_eq_bind, Option.bind_some]

/-- A possible object: every member is one, and the supports point to their own members. -/
structure okCstSada {A L P R S : Type} (okA : A → Ptr → Prop) (okL : L → Ptr → Prop) (okP : P → Ptr → Prop) (okR : R → Ptr →
    Prop) (okS : S → Ptr → Prop) (lp : Ptr) (v : CstSada A L P R S) (_ : Ptr) : Prop where
  m_csa : okA v.m_csa none
  m_lcp : okL v.m_lcp lp
  m_bp : okVec 1 v.m_bp none
  m_bp_support : okP v.m_bp_support (some "m_bp")
  m_bp_rank10 : okR v.m_bp_rank10 (some "m_bp")
  m_bp_select10 : okS v.m_bp_select10 (some "m_bp")

/-- Same contents. -/
structure sameCstSada {A L P R S : Type} (sameA : A → A → Prop) (sameL : L → L → Prop) (sameP : P → P → Prop) (sameR : R → R →
    Prop) (sameS : S → S → Prop) (v w : CstSada A L P R S) : Prop where
  m_csa : sameA v.m_csa w.m_csa
  m_lcp : sameL v.m_lcp w.m_lcp
  m_bp : sameVec v.m_bp w.m_bp
  m_bp_support : sameP v.m_bp_support w.m_bp_support
  m_bp_rank10 : sameR v.m_bp_rank10 w.m_bp_rank10
  m_bp_select10 : sameS v.m_bp_select10 w.m_bp_select10

theorem cstSada_good {A L P R S : Type} {cA : Codec A} {okA tgtA : A → Ptr → Prop} {sameA : A → A → Prop} {cL : Codec L} {okL
    tgtL : L → Ptr → Prop} {sameL : L → L → Prop} {cP : Codec P} {okP tgtP : P → Ptr → Prop} {sameP : P → P → Prop} {cR : Codec
        R} {okR tgtR : R → Ptr → Prop} {sameR : R → R → Prop} {cS : Codec S} {okS tgtS : S → Ptr → Prop} {sameS : S → S → Prop}
            {nP nR nS : Bool} (junk : Nat → Word) (hA : Good cA false okA tgtA sameA) (hL : Good cL false okL tgtL sameL) (hP :
                Good cP nP okP tgtP sameP) (hR : Good cR nR okR tgtR sameR) (hS : Good cS nS okS tgtS sameS) (lp : Ptr) :
    Good (cstSada junk cA cL cP cR cS lp) false (okCstSada okA okL okP okR okS lp) (okCstSada tgtA tgtL tgtP tgtR tgtS lp)
        (sameCstSada sameA sameL sameP sameR sameS) := by
  refine ⟨fun v p hv => ?_, fun v w p p' h e => ⟨e, ⟨h.m_csa, h.m_lcp, h.m_bp, h.m_bp_support, h.m_bp_rank10, h.m_bp_select10⟩⟩⟩
  obtain ⟨o0, s0, l0⟩ := hA.rt v.m_csa _ hv.m_csa
  obtain ⟨o1, s1, l1⟩ := hL.rt v.m_lcp _ hv.m_lcp
  obtain ⟨o2, s2, l2⟩ := (vec_good junk 1).rt v.m_bp _ hv.m_bp
  obtain ⟨o3, s3, l3⟩ := hP.rt v.m_bp_support _ hv.m_bp_support
  obtain ⟨o4, s4, l4⟩ := hR.rt v.m_bp_rank10 _ hv.m_bp_rank10
  obtain ⟨o5, s5, l5⟩ := hS.rt v.m_bp_select10 _ hv.m_bp_select10
  refine ⟨o0 ++ (o1 ++ (o2 ++ (o3 ++ (o4 ++ (o5))))), ?_, fun u q p' rest hu _ => ?_⟩
  · simp only [cstSada, CstSada.serialize, s0, s1, s2, s3, s4, s5, andThen_some]
  · obtain ⟨w5, e5, m5, k5⟩ := l5 u.m_bp_select10 _ (some "m_bp") (rest) hu.m_bp_select10 (by simp)
    obtain ⟨w4, e4, m4, k4⟩ := l4 u.m_bp_rank10 _ (some "m_bp") (o5 ++ rest) hu.m_bp_rank10 (by simp)
    obtain ⟨w3, e3, m3, k3⟩ := l3 u.m_bp_support _ (some "m_bp") (o4 ++ (o5 ++ rest)) hu.m_bp_support (by simp)
    obtain ⟨w2, e2, m2, k2⟩ := l2 u.m_bp _ none (o3 ++ (o4 ++ (o5 ++ rest))) hu.m_bp (by simp)
    obtain ⟨w1, e1, m1, k1⟩ := l1 u.m_lcp _ lp (o2 ++ (o3 ++ (o4 ++ (o5 ++ rest)))) hu.m_lcp (by simp)
    obtain ⟨w0, e0, m0, k0⟩ := l0 u.m_csa _ none (o1 ++ (o2 ++ (o3 ++ (o4 ++ (o5 ++ rest))))) hu.m_csa (by simp)
    refine ⟨⟨w0, w1, w2, w3, w4, w5⟩, ?_, ⟨m0, m1, m2, m3, m4, m5⟩,
      ⟨k0, k1, k2, k3, k4, k5⟩⟩
    simp only [cstSada, CstSada.load, List.append_assoc, e0, e1, e2, e3, e4, e5, Option.bind_eq_bind, Option.bind_some]

/-- A possible object: every member is one, and the supports point to their own members. -/
structure okCstFully {A P B S0 S1 D : Type} (okA : A → Ptr → Prop) (okP : P → Ptr → Prop) (okB : B → Ptr → Prop) (okS0 : S0 →
    Ptr → Prop) (okS1 : S1 → Ptr → Prop) (okD : D → Ptr → Prop) (v : CstFully A P B S0 S1 D) (_ : Ptr) : Prop where
  m_delta : okNum 8 v.m_delta none
  m_nodes : okNum 8 v.m_nodes none
  m_csa : okA v.m_csa none
  m_s : okVec 1 v.m_s none
  m_s_support : okP v.m_s_support (some "m_s")
  m_b : okB v.m_b none
  m_b_select0 : okS0 v.m_b_select0 (some "m_b")
  m_b_select1 : okS1 v.m_b_select1 (some "m_b")
  m_depth : okD v.m_depth none

/-- Same contents. -/
structure sameCstFully {A P B S0 S1 D : Type} (sameA : A → A → Prop) (sameP : P → P → Prop) (sameB : B → B → Prop) (sameS0 : S0
    → S0 → Prop) (sameS1 : S1 → S1 → Prop) (sameD : D → D → Prop) (v w : CstFully A P B S0 S1 D) : Prop where
  m_delta : v.m_delta = w.m_delta
  m_nodes : v.m_nodes = w.m_nodes
  m_csa : sameA v.m_csa w.m_csa
  m_s : sameVec v.m_s w.m_s
  m_s_support : sameP v.m_s_support w.m_s_support
  m_b : sameB v.m_b w.m_b
  m_b_select0 : sameS0 v.m_b_select0 w.m_b_select0
  m_b_select1 : sameS1 v.m_b_select1 w.m_b_select1
  m_depth : sameD v.m_depth w.m_depth

theorem cstFully_good {A P B S0 S1 D : Type} {cA : Codec A} {okA tgtA : A → Ptr → Prop} {sameA : A → A → Prop} {cP : Codec P}
    {okP tgtP : P → Ptr → Prop} {sameP : P → P → Prop} {cB : Codec B} {okB tgtB : B → Ptr → Prop} {sameB : B → B → Prop} {cS0 :
        Codec S0} {okS0 tgtS0 : S0 → Ptr → Prop} {sameS0 : S0 → S0 → Prop} {cS1 : Codec S1} {okS1 tgtS1 : S1 → Ptr → Prop}
            {sameS1 : S1 → S1 → Prop} {cD : Codec D} {okD tgtD : D → Ptr → Prop} {sameD : D → D → Prop} {nP nS0 nS1 : Bool}
                (junk : Nat → Word) (hA : Good cA false okA tgtA sameA) (hP : Good cP nP okP tgtP sameP) (hB : Good cB false
                    okB tgtB sameB) (hS0 : Good cS0 nS0 okS0 tgtS0 sameS0) (hS1 : Good cS1 nS1 okS1 tgtS1 sameS1) (hD : Good cD
                        false okD tgtD sameD) :
    Good (cstFully junk cA cP cB cS0 cS1 cD) false (okCstFully okA okP okB okS0 okS1 okD) (okCstFully tgtA tgtP tgtB tgtS0
        tgtS1 tgtD) (sameCstFully sameA sameP sameB sameS0 sameS1 sameD) := by
  refine ⟨fun v p hv => ?_, fun v w p p' h e => ⟨e, ⟨h.m_delta, h.m_nodes, h.m_csa, h.m_s, h.m_s_support, h.m_b, h.m_b_select0,
      h.m_b_select1, h.m_depth⟩⟩⟩
  obtain ⟨o0, s0, l0⟩ := (num_good 8).rt v.m_delta _ hv.m_delta
  obtain ⟨o1, s1, l1⟩ := (num_good 8).rt v.m_nodes _ hv.m_nodes
  obtain ⟨o2, s2, l2⟩ := hA.rt v.m_csa _ hv.m_csa
  obtain ⟨o3, s3, l3⟩ := (vec_good junk 1).rt v.m_s _ hv.m_s
  obtain ⟨o4, s4, l4⟩ := hP.rt v.m_s_support _ hv.m_s_support
  obtain ⟨o5, s5, l5⟩ := hB.rt v.m_b _ hv.m_b
  obtain ⟨o6, s6, l6⟩ := hS0.rt v.m_b_select0 _ hv.m_b_select0
  obtain ⟨o7, s7, l7⟩ := hS1.rt v.m_b_select1 _ hv.m_b_select1
  obtain ⟨o8, s8, l8⟩ := hD.rt v.m_depth _ hv.m_depth
  refine ⟨o0 ++ (o1 ++ (o2 ++ (o3 ++ (o4 ++ (o5 ++ (o6 ++ (o7 ++ (o8)))))))), ?_, fun u q p' rest hu _ => ?_⟩
  · simp only [cstFully, CstFully.serialize, s0, s1, s2, s3, s4, s5, s6, s7, s8, andThen_some]
  · obtain ⟨w8, e8, m8, k8⟩ := l8 u.m_depth _ none (rest) hu.m_depth (by simp)
    obtain ⟨w7, e7, m7, k7⟩ := l7 u.m_b_select1 _ (some "m_b") (o8 ++ rest) hu.m_b_select1 (by simp)
    obtain ⟨w6, e6, m6, k6⟩ := l6 u.m_b_select0 _ (some "m_b") (o7 ++ (o8 ++ rest)) hu.m_b_select0 (by simp)
    obtain ⟨w5, e5, m5, k5⟩ := l5 u.m_b _ none (o6 ++ (o7 ++ (o8 ++ rest))) hu.m_b (by simp)
    obtain ⟨w4, e4, m4, k4⟩ := l4 u.m_s_support _ (some "m_s") (o5 ++ (o6 ++ (o7 ++ (o8 ++ rest)))) hu.m_s_support (by simp)
    obtain ⟨w3, e3, m3, k3⟩ := l3 u.m_s _ none (o4 ++ (o5 ++ (o6 ++ (o7 ++ (o8 ++ rest))))) hu.m_s (by simp)
    obtain ⟨w2, e2, m2, k2⟩ := l2 u.m_csa _ none (o3 ++ (o4 ++ (o5 ++ (o6 ++ (o7 ++ (o8 ++ rest)))))) hu.m_csa (by simp)
    obtain ⟨w1, e1, m1, k1⟩ := l1 u.m_nodes _ none (o2 ++ (o3 ++ (o4 ++ (o5 ++ (o6 ++ (o7 ++ (o8 ++ rest))))))) hu.m_nodes (by
        simp)
    obtain ⟨w0, e0, m0, k0⟩ := l0 u.m_delta _ none (o1 ++ (o2 ++ (o3 ++ (o4 ++ (o5 ++ (o6 ++ (o7 ++ (o8 ++ rest))))))))
        hu.m_delta (by simp)
    refine ⟨⟨w0, w1, w2, w3, w4, w5, w6, w7, w8⟩, ?_, ⟨m0, m1, m2, m3, m4, m5, m6, m7, m8⟩,
      ⟨k0, k1, k2, k3, k4, k5, k6, k7, k8⟩⟩
    simp only [cstFully, CstFully.load, List.append_assoc, e0, e1, e2, e3, e4, e5, e6, e7, e8, Option.bind_eq_bind,
        Option.bind_some]

/-- A possible object: every member is one. -/
structure okNode (b : Nat) (v : Node) (_ : Ptr) : Prop where
  bv_pos : okNum 8 v.bv_pos none
  bv_pos_rank : okNum 8 v.bv_pos_rank none
  parent : okNum b v.parent none
  child0 : okNum b v.child0 none
  child1 : okNum b v.child1 none

/-- Same contents. -/
structure sameNode  (v w : Node) : Prop where
  bv_pos : v.bv_pos = w.bv_pos
  bv_pos_rank : v.bv_pos_rank = w.bv_pos_rank
  parent : v.parent = w.parent
  child0 : v.child0 = w.child0
  child1 : v.child1 = w.child1

theorem node_good  (b : Nat) :
    Good (node  b) false (okNode b) (okNode b) (sameNode) := by
  refine ⟨fun v p hv => ?_, fun v w p p' h e => ⟨e, ⟨h.bv_pos, h.bv_pos_rank, h.parent, h.child0, h.child1⟩⟩⟩
  obtain ⟨o0, s0, l0⟩ := (num_good 8).rt v.bv_pos _ hv.bv_pos
  obtain ⟨o1, s1, l1⟩ := (num_good 8).rt v.bv_pos_rank _ hv.bv_pos_rank
  obtain ⟨o2, s2, l2⟩ := (num_good b).rt v.parent _ hv.parent
  obtain ⟨o3, s3, l3⟩ := (num_good b).rt v.child0 _ hv.child0
  obtain ⟨o4, s4, l4⟩ := (num_good b).rt v.child1 _ hv.child1
  refine ⟨o0 ++ (o1 ++ (o2 ++ (o3 ++ (o4)))), ?_, fun u q p' rest hu _ => ?_⟩
  · simp only [node, Node.serialize, s0, s1, s2, s3, s4, andThen_some]
  · obtain ⟨w4, e4, m4, k4⟩ := l4 u.child1 _ none (rest) hu.child1 (by simp)
    obtain ⟨w3, e3, m3, k3⟩ := l3 u.child0 _ none (o4 ++ rest) hu.child0 (by simp)
    obtain ⟨w2, e2, m2, k2⟩ := l2 u.parent _ none (o3 ++ (o4 ++ rest)) hu.parent (by simp)
    obtain ⟨w1, e1, m1, k1⟩ := l1 u.bv_pos_rank _ none (o2 ++ (o3 ++ (o4 ++ rest))) hu.bv_pos_rank (by simp)
    obtain ⟨w0, e0, m0, k0⟩ := l0 u.bv_pos _ none (o1 ++ (o2 ++ (o3 ++ (o4 ++ rest)))) hu.bv_pos (by simp)
    refine ⟨⟨w0, w1, w2, w3, w4⟩, ?_, ⟨m0, m1, m2, m3, m4⟩,
      ⟨k0, k1, k2, k3, k4⟩⟩
    simp only [node, Node.load, List.append_assoc, e0, e1, e2, e3, e4, Option.bind_eq_bind, Option.bind_some]

theorem node_zero (b : Nat) : okNode b ⟨0, 0, 0, 0, 0⟩ none := by
  have h : ∀ b, okNum b 0 none := fun b => Nat.pow_pos (by decide)
  exact ⟨h 8, h 8, h b, h b, h b⟩

theorem okNum_zero (b : Nat) : okNum b 0 none := Nat.pow_pos (by decide)

/-- A possible object: every member is one. -/
structure okByteTree  (v : ByteTree) (_ : Ptr) : Prop where
  m_nodes : okList (okNode 2) v.m_nodes none
  m_c_to_leaf : okArr 2 256 v.m_c_to_leaf none
  m_path : okArr 8 256 v.m_path none

/-- Same contents. -/
structure sameByteTree  (v w : ByteTree) : Prop where
  m_nodes : List.Forall₂ sameNode v.m_nodes w.m_nodes
  m_c_to_leaf : v.m_c_to_leaf = w.m_c_to_leaf
  m_path : v.m_path = w.m_path

theorem byteTree_good  :
    Good (byteTree ) false (okByteTree) (okByteTree) (sameByteTree) := by
  refine ⟨fun v p hv => ?_, fun v w p p' h e => ⟨e, ⟨h.m_nodes, h.m_c_to_leaf, h.m_path⟩⟩⟩
  obtain ⟨o0, s0, l0⟩ := (stdVector_good (node_good 2) (node_zero 2)).rt v.m_nodes _ hv.m_nodes
  obtain ⟨o1, s1, l1⟩ := (numArr_good 2 256).rt v.m_c_to_leaf _ hv.m_c_to_leaf
  obtain ⟨o2, s2, l2⟩ := (numArr_good 8 256).rt v.m_path _ hv.m_path
  refine ⟨o0 ++ (o1 ++ (o2)), ?_, fun u q p' rest hu _ => ?_⟩
  · simp only [byteTree, ByteTree.serialize, s0, s1, s2, andThen_some]
  · obtain ⟨w2, e2, m2, k2⟩ := l2 u.m_path _ none (rest) hu.m_path (by simp)
    obtain ⟨w1, e1, m1, k1⟩ := l1 u.m_c_to_leaf _ none (o2 ++ rest) hu.m_c_to_leaf (by simp)
    obtain ⟨w0, e0, m0, k0⟩ := l0 u.m_nodes _ none (o1 ++ (o2 ++ rest)) hu.m_nodes (by simp)
    refine ⟨⟨w0, w1, w2⟩, ?_, ⟨m0, m1, m2⟩,
      ⟨k0, k1, k2⟩⟩
    simp only [byteTree, ByteTree.load, List.append_assoc, e0, e1, e2, Option.bind_eq_bind, Option.bind_some]

/-- A possible object: every member is one. -/
structure okIntTree  (v : IntTree) (_ : Ptr) : Prop where
  m_nodes : okList (okNode 8) v.m_nodes none
  m_c_to_leaf : okList (okNum 8) v.m_c_to_leaf none
  m_path : okList (okNum 8) v.m_path none

/-- Same contents. -/
structure sameIntTree  (v w : IntTree) : Prop where
  m_nodes : List.Forall₂ sameNode v.m_nodes w.m_nodes
  m_c_to_leaf : List.Forall₂ Eq v.m_c_to_leaf w.m_c_to_leaf
  m_path : List.Forall₂ Eq v.m_path w.m_path

theorem intTree_good  :
    Good (intTree ) false (okIntTree) (okIntTree) (sameIntTree) := by
  refine ⟨fun v p hv => ?_, fun v w p p' h e => ⟨e, ⟨h.m_nodes, h.m_c_to_leaf, h.m_path⟩⟩⟩
  obtain ⟨o0, s0, l0⟩ := (stdVector_good (node_good 8) (node_zero 8)).rt v.m_nodes _ hv.m_nodes
  obtain ⟨o1, s1, l1⟩ := (stdVector_good (num_good 8) (okNum_zero 8)).rt v.m_c_to_leaf _ hv.m_c_to_leaf
  obtain ⟨o2, s2, l2⟩ := (stdVector_good (num_good 8) (okNum_zero 8)).rt v.m_path _ hv.m_path
  refine ⟨o0 ++ (o1 ++ (o2)), ?_, fun u q p' rest hu _ => ?_⟩
  · simp only [intTree, IntTree.serialize, s0, s1, s2, andThen_some]
  · obtain ⟨w2, e2, m2, k2⟩ := l2 u.m_path _ none (rest) hu.m_path (by simp)
    obtain ⟨w1, e1, m1, k1⟩ := l1 u.m_c_to_leaf _ none (o2 ++ rest) hu.m_c_to_leaf (by simp)
    obtain ⟨w0, e0, m0, k0⟩ := l0 u.m_nodes _ none (o1 ++ (o2 ++ rest)) hu.m_nodes (by simp)
    refine ⟨⟨w0, w1, w2⟩, ?_, ⟨m0, m1, m2⟩,
      ⟨k0, k1, k2⟩⟩
    simp only [intTree, IntTree.load, List.append_assoc, e0, e1, e2, Option.bind_eq_bind, Option.bind_some]

end Sdsl.Serial
