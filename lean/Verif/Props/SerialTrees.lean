import Verif.Props.SerialAnswers
import Verif.Props.RrrVector
import Verif.Props.Hyb
import Verif.Props.BitVectorIl
import Verif.Props.WtInt
import Verif.Props.WmInt

/-! # C92, continued: compressed bit vectors and wavelet trees -/
namespace Sdsl.Props
open Sdsl.Serial Sdsl.Spec
open IntVec (Byte)

/-! ### rrr_vector, hyb_vector, bit_vector_il -/

/-- An `rrr_vector` by its elements and bits, as in RrrVec.lean. -/
def rrrOf (x : RrrVector) : Rrr.Vec := ⟨x.m_size, arrOf x.m_bt, bitList x.m_btnr, arrOf x.m_btnrp, arrOf x.m_rank, bitList x.m_invert⟩

/-- A `hyb_vector` by its elements, as in Hyb.lean. -/
def hybOf (x : HybVector) : Hyb.Hyb := ⟨x.m_size, x.m_trunk.elems, x.m_sblock_header.elems, x.m_hblock_header.elems⟩

/-- A `bit_vector_il` by its words, as in Il.lean. -/
def ilOf (x : BitVectorIl) : Il.Il := ⟨x.m_size, x.m_superblocks, wordsOf x.m_data, wordsOf x.m_rank_samples⟩

/-- C92: an `rrr_vector` that was built for the bits `B`, written and read answers like `B`. -/
theorem C92_rrr_vector (junk : Nat → Word) (n tk : Nat) (hn : 1 ≤ n) (h256 : n ≤ 256) (htk : 1 ≤ tk) (B : List Bool) (hB : B.length + n < 2 ^ 64)
    {x : RrrVector} (hx : okRrrVector x none) (hb : Rrr.build n tk B = some (rrrOf x)) :
    ∃ out, (rrrVector junk).ser x = some (out, out.length) ∧ ∀ u rest, okRrrVector u none →
      ∃ y, (rrrVector junk).load u none (out ++ rest) = some (y, rest) ∧ RrrAnswers n tk (rrrOf y) B.length (fun i => B.getD i false) := by
  obtain ⟨t, f1, f2⟩ := C24_rrr_generic n tk hn h256 htk B hB
  rw [hb, Option.some.injEq] at f1
  subst f1
  obtain ⟨out, h1, h2⟩ := (rrrVector_good junk).rt x none hx
  refine ⟨out, h1, fun u rest hu => ?_⟩
  obtain ⟨y, e, hy, -⟩ := h2 u none none rest hu (by simp)
  refine ⟨y, e, ?_⟩
  have : rrrOf y = rrrOf x := by
    unfold rrrOf arrOf
    rw [hy.m_size, hy.m_bt.1, hy.m_bt.2.2, hy.m_btnrp.1, hy.m_btnrp.2.2, hy.m_rank.1, hy.m_rank.2.2,
      bitList_same (hx.m_btnr.2.2 (by decide)) hy.m_btnr, bitList_same (hx.m_invert.2.2 (by decide)) hy.m_invert]
  rw [this]
  exact f2

/-- An `rrr_vector<15>` of three bits. -/
def exRrr : RrrVector := ⟨3, ⟨4, [2], 4⟩, ⟨64, [103], 1⟩, ⟨3, [0], 3⟩, ⟨4, [8], 2⟩, ⟨1, [0], 1⟩⟩

deriving instance DecidableEq for Rrr.Vec

example : Rrr.build 15 1 [true, false, true] = some (rrrOf exRrr) ∧ okRrrVector exRrr none := by
  refine ⟨by decide +kernel, ?_⟩
  · exact ⟨num_ok 8 3, ⟨⟨by decide, by decide, by decide⟩, by decide, by simp⟩, ⟨⟨by decide, by decide, by decide⟩, by decide, fun _ => rfl⟩,
      ⟨⟨by decide, by decide, by decide⟩, by decide, by simp⟩, ⟨⟨by decide, by decide, by decide⟩, by decide, by simp⟩,
      ⟨⟨by decide, by decide, by decide⟩, by decide, fun _ => rfl⟩⟩

/-- C92: a `hyb_vector`. -/
theorem C92_hyb_vector (junk : Nat → Word) {rate : Nat} (hr : 0 < rate) (hr2 : rate < 2 ^ 24) {v : IntVec} (hv : v.WF)
    (hd : rate ∣ 2 ^ 23 ∨ v.size ≤ 2 ^ 31) {x : HybVector} (hx : okHybVector x none) (hb : Hyb.new rate v = some (hybOf x)) :
    ∃ out, (hybVector junk).ser x = some (out, out.length) ∧ ∀ u rest, okHybVector u none →
      ∃ y, (hybVector junk).load u none (out ++ rest) = some (y, rest) ∧ y.m_size = v.size ∧
        (∀ i, i < v.size → Hyb.access rate (hybOf y) i = some (bitAt v.data i)) ∧
        (∀ i, i ≤ v.size → Hyb.rank true rate (hybOf y) i = some (countTrue (fun p => bitAt v.data p) i) ∧
          Hyb.rank false rate (hybOf y) i = some (countTrue (fun p => !bitAt v.data p) i)) ∧
        (∀ idx len, len ≤ 64 → idx + len ≤ v.size → ∃ w, Hyb.getInt rate (hybOf y) idx len = some w ∧ w.toNat = field v.data idx len) := by
  obtain ⟨t, f1, f2, f3⟩ := C81_hyb_vector hr hr2 hv hd
  rw [hb, Option.some.injEq] at f1
  subst f1
  obtain ⟨out, h1, h2⟩ := (hybVector_good junk).rt x none hx
  refine ⟨out, h1, fun u rest hu => ?_⟩
  obtain ⟨y, e, hy, -⟩ := h2 u none none rest hu (by simp)
  have hs : hybOf y = hybOf x := by
    unfold hybOf
    rw [hy.m_size, hy.m_trunk.2.2, hy.m_sblock_header.2.2, hy.m_hblock_header.2.2]
  refine ⟨y, e, by rw [← hy.m_size]; exact f2, ?_⟩
  rw [hs]
  exact f3

/-- A `hyb_vector` of three bits. -/
def exHyb : HybVector := ⟨3, ⟨16, [512], 8⟩, ⟨80, [0, 0xA02], 8⟩, ⟨128, [0, 0], 64⟩⟩

set_option maxRecDepth 100000 in
example : Hyb.new 1 exBits = some (hybOf exHyb) ∧ okHybVector exHyb none := by
  refine ⟨?_, num_ok 8 3, ⟨⟨by decide, by decide, by decide⟩, by decide, fun _ => rfl⟩,
    ⟨⟨by decide, by decide, by decide⟩, by decide, fun _ => rfl⟩, ⟨⟨by decide, by decide, by decide⟩, by decide, fun _ => rfl⟩⟩
  obtain ⟨t, e, -⟩ := Hyb.lookup_spec
  rw [Hyb.new, e]
  rfl

/-- C92: a `bit_vector_il` (for the condition on the last word see C23). -/
theorem C92_bit_vector_il (junk : Nat → Word) (sr : Nat) (hsr : 0 < sr) (v : IntVec) (hv : v.WF)
    (hpad : v.size % 64 ≠ 0 ∨ v.size / 64 < v.data.length) (hs : v.size + 64 * sr < 2 ^ 64)
    {x : BitVectorIl} (hx : okBitVectorIl x none) (hb : Il.build sr v = some (ilOf x)) :
    ∃ out, (bitVectorIl junk).ser x = some (out, out.length) ∧ ∀ u rest, okBitVectorIl u none →
      ∃ y, (bitVectorIl junk).load u none (out ++ rest) = some (y, rest) ∧ y.m_size = v.size ∧
        (∀ i, i < v.size → Il.access sr (ilOf y) i = some (if bitAt v.data i then 1#64 else 0#64)) ∧
        (∀ idx len, 1 ≤ len → len ≤ 64 → idx + len ≤ v.size →
          Il.getInt sr (ilOf y) idx len = some (BitVec.ofNat 64 (field v.data idx len))) ∧
        (∀ tb i, i ≤ v.size → Il.rank tb sr (ilOf y) i = some (countTrue (fun q => bitAt v.data q == tb) i)) ∧
        (∀ tb i, 1 ≤ i → i ≤ countTrue (fun q => bitAt v.data q == tb) v.size →
          ∃ p, Il.select tb sr (ilOf y) i = some p ∧ IsSelect (fun q => bitAt v.data q == tb) v.size i p) := by
  obtain ⟨t, f1, f2, f3⟩ := C23_il_partial sr hsr v hv hpad hs
  rw [hb, Option.some.injEq] at f1
  subst f1
  obtain ⟨out, h1, h2⟩ := (bitVectorIl_good junk).rt x none hx
  refine ⟨out, h1, fun u rest hu => ?_⟩
  obtain ⟨y, e, hy, -⟩ := h2 u none none rest hu (by simp)
  have hs : ilOf y = ilOf x := by
    unfold ilOf wordsOf
    rw [hy.m_size, hy.m_superblocks, hy.m_data.2.2, hy.m_rank_samples.2.2]
  refine ⟨y, e, by rw [← hy.m_size]; exact f2, ?_⟩
  rw [hs]
  exact f3

/-- A `bit_vector_il<64>` of three bits. -/
def exIl : BitVectorIl := ⟨3, 3, 1, 6, ⟨192, [0, 5, 2], 64⟩, ⟨0, [], 64⟩⟩

example : Il.build 1 exBits = some (ilOf exIl) ∧ okBitVectorIl exIl none :=
  ⟨by decide +kernel, num_ok 8 3, num_ok 8 3, num_ok 8 1, num_ok 8 6, ⟨⟨by decide, by decide, by decide⟩, by decide, fun _ => rfl⟩,
    newVec_ok (by decide)⟩

/-! ### Wavelet trees over a bit vector -/

/-- The supports of the bits of a wavelet tree were built for them, and their vectors are possible vectors. -/
structure SupBuilt (tree : IntVec) (r : RankSup) (s1 s0 : SelMcl) : Prop where
  okTree : okVec 1 tree none
  size : tree.size + 4095 < 2 ^ 64
  rank : okVec 64 r.m_basic_block none ∧ ∃ junk, Rank.V.build .p1 junk tree = some (wordsOf r.m_basic_block)
  sel1 : okParts s1 ∧ ∃ junk, Select.mclBuild .p1 junk tree = some s1.toMcl
  sel0 : okParts s0 ∧ ∃ junk, Select.mclBuild .p0 junk tree = some s0.toMcl
  rankPtr : r.m_v = some "m_tree"
  sel1Ptr : s1.m_v = some "m_tree"
  sel0Ptr : s0.m_v = some "m_tree"

/-- The supports answer for the bits of the tree. -/
structure SupAnswers (tree : IntVec) (r : RankSup) (s1 s0 : SelMcl) : Prop where
  rank : ∀ i, i ≤ tree.size → (Rank.V.rank .p1 tree (wordsOf r.m_basic_block) i).map BitVec.toNat = Bv.rank true (bitList tree) i
  sel1 : ∀ i, 1 ≤ i → i ≤ Bv.cnt true (bitList tree) tree.size → Select.mclSelect .p1 tree s1.toMcl i = Bv.select true (bitList tree) i
  sel0 : ∀ i, 1 ≤ i → i ≤ Bv.cnt false (bitList tree) tree.size → Select.mclSelect .p0 tree s0.toMcl i = Bv.select false (bitList tree) i
  rankPtr : r.m_v = some "m_tree"
  sel1Ptr : s1.m_v = some "m_tree"
  sel0Ptr : s0.m_v = some "m_tree"

theorem SupBuilt.ok {tree : IntVec} {r : RankSup} {s1 s0 : SelMcl} (h : SupBuilt tree r s1 s0) :
    okRank r (some "m_tree") ∧ okSel s1 (some "m_tree") ∧ okSel s0 (some "m_tree") := by
  obtain ⟨j1, e1⟩ := h.sel1.2
  obtain ⟨j0, e0⟩ := h.sel0.2
  have k1 := (select_loaded (y := s1) h.okTree.1 h.size e1 h.sel1.1 h.okTree.1 rfl (fun _ _ => rfl)).1
  have k0 := (select_loaded (y := s0) h.okTree.1 h.size e0 h.sel0.1 h.okTree.1 rfl (fun _ _ => rfl)).1
  rw [h.sel1Ptr] at k1
  rw [h.sel0Ptr] at k0
  exact ⟨⟨h.rankPtr, h.rank.1⟩, k1, k0⟩

theorem SupBuilt.answers {t t' : IntVec} {r r' : RankSup} {s1 s1' s0 s0' : SelMcl} (h : SupBuilt t r s1 s0) (ht : sameVec t t')
    (ht' : t'.WF) (hr : sameRank r r') (h1 : sameSel s1 s1') (h0 : sameSel s0 s0') (pr : r'.m_v = some "m_tree")
    (p1 : s1'.m_v = some "m_tree") (p0 : s0'.m_v = some "m_tree") : SupAnswers t' r' s1' s0' := by
  have hw : t.width = 1 := h.okTree.2.2 (by decide)
  have hbits : ∀ i, i < t.size → bitAt t'.data i = bitAt t.data i := fun i hi => bits_of_same hw ht hi
  have hbl := bitList_same hw ht
  have hsz : t'.size = t.size := ht.2.1
  have hsel : ∀ (tb : Bool) (j : Nat → Nat) (s s' : SelMcl), Select.mclBuild (patOf tb) j t = some s.toMcl → okParts s → sameSel s s' →
      ∀ i, 1 ≤ i → i ≤ Bv.cnt tb (bitList t) t.size → Select.mclSelect (patOf tb) t' s'.toMcl i = Bv.select tb (bitList t) i := by
    intro tb j s s' hbt hst hsame i hi1 hi2
    rw [cnt_bitList tb _ (Nat.le_refl _), ← occ_fun] at hi2
    obtain ⟨a, q1, q2⟩ := (select_loaded h.okTree.1 h.size hbt hst ht' hsz hbits).2 hsame i hi1 hi2
    rw [occ_fun] at q2
    rw [q1]
    exact (select_bitList q2).symm
  obtain ⟨j1, e1⟩ := h.sel1.2
  obtain ⟨j0, e0⟩ := h.sel0.2
  obtain ⟨jr, er⟩ := h.rank.2
  refine ⟨fun i hi => ?_, ?_, ?_, pr, p1, p0⟩
  · rw [hsz] at hi
    obtain ⟨bb, f1, f2⟩ := bv_rank_v true jr t h.okTree.1 h.okTree.2.1
    have er' : Rank.V.build (patOf true) jr t = some (wordsOf r.m_basic_block) := er
    rw [er', Option.some.injEq] at f1
    have hf := ht'.fit
    rw [hsz] at hf
    rw [hbl, ← f2 i hi, show wordsOf r'.m_basic_block = bb by rw [← f1]; unfold wordsOf; rw [hr.2.2],
      V_rank_of_bits hbits bb hi h.okTree.1.fit hf]
    rfl
  · rw [hbl, hsz]; exact hsel true j1 s1 s1' e1 h.sel1.1 h1
  · rw [hbl, hsz]; exact hsel false j0 s0 s0' e0 h.sel0.1 h0

/-- A `wt_int<>` by its bits, as in WtInt.lean. -/
def wtIntOf (x : Serial.WtInt IntVec RankSup SelMcl SelMcl) : Wt.WtInt := ⟨x.m_size, x.m_sigma, bitList x.m_tree, x.m_max_level⟩

/-- A `wm_int<>` by its bits and numbers, as in WmInt.lean. -/
def wmIntOf (x : Serial.WmInt IntVec RankSup SelMcl SelMcl) : Wt.WmInt :=
  ⟨x.m_size, x.m_sigma, bitList x.m_tree, x.m_max_level, x.m_zero_cnt.elems, x.m_rank_level.elems⟩

/-- C92: a `wt_int<>` that was built for `xs`, written and read answers like `xs`, and its supports answer for the bits that were read. -/
theorem C92_wt_int (junk : Nat → Word) (maxLevel : Nat) (xs : List Word) (hne : xs ≠ []) (hm : maxLevel ≤ 63)
    (hlt : ∀ x ∈ xs, x.toNat < 2 ^ (if maxLevel = 0 then 63 else maxLevel)) {x : Serial.WtInt IntVec RankSup SelMcl SelMcl}
    (hs : SupBuilt x.m_tree x.m_tree_rank x.m_tree_select1 x.m_tree_select0) (hx : x.m_size < 256 ^ 8 ∧ x.m_sigma < 256 ^ 8 ∧ x.m_max_level < 256 ^ 4)
    (hb : Wt.WtInt.new maxLevel xs = some (wtIntOf x)) :
    ∃ out, (wtInt (vec junk 1) (rankV junk) (selMcl junk) (selMcl junk)).ser x = some (out, out.length) ∧
      ∀ u rest, okWtInt (okVec 1) (lax okRank) (lax okSel) (lax okSel) u none →
        ∃ y, (wtInt (vec junk 1) (rankV junk) (selMcl junk) (selMcl junk)).load u none (out ++ rest) = some (y, rest) ∧ y.m_size = xs.length ∧
          (∀ i (h : i < xs.length), Wt.WtInt.get (wtIntOf y) i = some xs[i]) ∧
          (∀ i c, i ≤ xs.length → Wt.WtInt.rank (wtIntOf y) i c = some ((xs.take i).count c)) ∧
          (∀ i c, 0 < i → i ≤ xs.count c → ∃ p, ∃ h : p < xs.length, Wt.WtInt.select (wtIntOf y) i c = some (.ok p) ∧ xs[p] = c ∧
            (xs.take p).count c + 1 = i) ∧
          (∀ i (h : i < xs.length), Wt.WtInt.inverseSelect (wtIntOf y) i = some ((xs.take i).count xs[i], xs[i])) ∧
          SupAnswers y.m_tree y.m_tree_rank y.m_tree_select1 y.m_tree_select0 := by
  obtain ⟨t, f1, f2, -, f3, f4, f5, f6⟩ := C33_wt_int_partial maxLevel xs hne hm hlt
  rw [hb, Option.some.injEq] at f1
  subst f1
  obtain ⟨k1, k2, k3⟩ := hs.ok
  obtain ⟨out, h1, h2⟩ := (C91_wavelet_trees junk).1 x none ⟨hx.1, hx.2.1, hs.okTree, k1, k2, k3, hx.2.2⟩
  refine ⟨out, h1, fun u rest hu => ?_⟩
  obtain ⟨y, e, hy, hy'⟩ := h2 u none none rest hu (by simp)
  have hsame : wtIntOf y = wtIntOf x := by
    unfold wtIntOf
    rw [hy.m_size, hy.m_sigma, hy.m_max_level, bitList_same (hs.okTree.2.2 (by decide)) hy.m_tree]
  refine ⟨y, e, by rw [← hy.m_size]; exact f2, ?_⟩
  rw [hsame]
  exact ⟨f3, f4, f5, f6, hs.answers hy.m_tree hy'.m_tree.1 hy.m_tree_rank hy.m_tree_select1 hy.m_tree_select0 hy'.m_tree_rank.1
    hy'.m_tree_select1.ptr hy'.m_tree_select0.ptr⟩

/-- C92: a `wm_int<>`. -/
theorem C92_wm_int (junk : Nat → Word) (maxLevel : Nat) (xs : List Word) (hne : xs ≠ []) (hm : maxLevel ≤ 64)
    (hlt : maxLevel ≠ 0 → ∀ x ∈ xs, x.toNat < 2 ^ maxLevel) {x : Serial.WmInt IntVec RankSup SelMcl SelMcl}
    (hs : SupBuilt x.m_tree x.m_tree_rank x.m_tree_select1 x.m_tree_select0) (hx : x.m_size < 256 ^ 8 ∧ x.m_sigma < 256 ^ 8 ∧ x.m_max_level < 256 ^ 4)
    (hv : okVec 64 x.m_zero_cnt none ∧ okVec 64 x.m_rank_level none) (hb : Wt.WmInt.new maxLevel xs = some (wmIntOf x)) :
    ∃ out, (wmInt junk (vec junk 1) (rankV junk) (selMcl junk) (selMcl junk)).ser x = some (out, out.length) ∧
      ∀ u rest, okWmInt (okVec 1) (lax okRank) (lax okSel) (lax okSel) u none →
        ∃ y, (wmInt junk (vec junk 1) (rankV junk) (selMcl junk) (selMcl junk)).load u none (out ++ rest) = some (y, rest) ∧ y.m_size = xs.length ∧
          (∀ i (h : i < xs.length), Wt.WmInt.get (wmIntOf y) i = some xs[i]) ∧
          (∀ i c, 0 < i → i ≤ xs.count c → ∃ p, ∃ h : p < xs.length, Wt.WmInt.select (wmIntOf y) i c = some p ∧ xs[p] = c ∧
            (xs.take p).count c + 1 = i) ∧
          (∀ i (h : i < xs.length), Wt.WmInt.inverseSelect (wmIntOf y) i = some ((xs.take i).count xs[i], xs[i])) ∧
          SupAnswers y.m_tree y.m_tree_rank y.m_tree_select1 y.m_tree_select0 := by
  obtain ⟨t, f1, f2, -, f3, f4, f5⟩ := C34_wm_int maxLevel xs hne hm hlt
  rw [hb, Option.some.injEq] at f1
  subst f1
  obtain ⟨k1, k2, k3⟩ := hs.ok
  obtain ⟨out, h1, h2⟩ := (C91_wavelet_trees junk).2.1 x none ⟨hx.1, hx.2.1, hs.okTree, k1, k2, k3, hx.2.2, hv.1, hv.2⟩
  refine ⟨out, h1, fun u rest hu => ?_⟩
  obtain ⟨y, e, hy, hy'⟩ := h2 u none none rest hu (by simp)
  have hsame : wmIntOf y = wmIntOf x := by
    unfold wmIntOf
    rw [hy.m_size, hy.m_sigma, hy.m_max_level, bitList_same (hs.okTree.2.2 (by decide)) hy.m_tree, hy.m_zero_cnt.2.2, hy.m_rank_level.2.2]
  refine ⟨y, e, by rw [← hy.m_size]; exact f2, ?_⟩
  rw [hsame]
  exact ⟨f3, f4, f5, hs.answers hy.m_tree hy'.m_tree.1 hy.m_tree_rank hy.m_tree_select1 hy.m_tree_select0 hy'.m_tree_rank.1
    hy'.m_tree_select1.ptr hy'.m_tree_select0.ptr⟩

/-- The bits of a wavelet tree of the numbers 2, 1, 3 and their supports. -/
def exTree : IntVec := ⟨6, [45], 1⟩
/-- Rank support. -/
def exTreeRank : RankSup := ⟨some "m_tree", ⟨128, [0, 72057594037927936], 64⟩⟩
/-- Select support for ones. -/
def exTreeSel1 : SelMcl := ⟨some "m_tree", 4, ⟨7, [0], 7⟩, none, [⟨192, [0, 0, 0], 3⟩]⟩
/-- Select support for zeros. -/
def exTreeSel0 : SelMcl := ⟨some "m_tree", 2, ⟨7, [1], 7⟩, none, [⟨128, [0, 0], 2⟩]⟩

theorem exTree_built : SupBuilt exTree exTreeRank exTreeSel1 exTreeSel0 := by
  refine ⟨⟨⟨by decide, by decide, by decide⟩, by decide, fun _ => rfl⟩, by simp [exTree],
    ⟨⟨⟨by decide, by decide, by decide⟩, by decide, fun _ => rfl⟩, fun _ => 7, by decide +kernel⟩,
    ⟨⟨⟨⟨by decide, by decide, by decide⟩, by decide, by simp⟩, ?_, by simp [exTreeSel1]⟩, fun _ => 7, by decide +kernel⟩,
    ⟨⟨⟨⟨by decide, by decide, by decide⟩, by decide, by simp⟩, ?_, by simp [exTreeSel0]⟩, fun _ => 7, by decide +kernel⟩, rfl, rfl, rfl⟩
  · intro y hy
    simp only [exTreeSel1, List.mem_singleton] at hy
    subst hy
    exact ⟨⟨⟨by decide, by decide, by decide⟩, by decide, by simp⟩, by decide⟩
  · intro y hy
    simp only [exTreeSel0, List.mem_singleton] at hy
    subst hy
    exact ⟨⟨⟨by decide, by decide, by decide⟩, by decide, by simp⟩, by decide⟩

example : Wt.WtInt.new 2 [2#64, 1#64, 3#64] = some (wtIntOf ⟨3, 3, exTree, exTreeRank, exTreeSel1, exTreeSel0, 2⟩) := by decide +kernel

example : Wt.WmInt.new 2 [2#64, 1#64, 3#64] =
      some (wmIntOf ⟨3, 3, exTree, exTreeRank, exTreeSel1, exTreeSel0, 2, ⟨128, [1, 1], 64⟩, ⟨128, [0, 2], 64⟩⟩) ∧
    okVec 64 ⟨128, [1, 1], 64⟩ none ∧ okVec 64 ⟨128, [0, 2], 64⟩ none :=
  ⟨by decide +kernel, ⟨⟨by decide, by decide, by decide⟩, by decide, fun _ => rfl⟩, ⟨⟨by decide, by decide, by decide⟩, by decide, fun _ => rfl⟩⟩

end Sdsl.Props
