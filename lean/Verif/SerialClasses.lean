import Verif.Serial

/-! # `serialize` and `load` of the classes

A type parameter stands for a template parameter (a bit vector, a support, a wavelet tree, ...), its `Codec` for the two
    functions of
that class. The order of the members in `serialize` and in `load` is that of the code, read off separately. `sdsl`'s structure
    tree
argument (`structure_tree_node* v`) does not influence the stream and is left out. Addresses are member names: `load(in, &m_bv)`
passes `some "m_bv"`. -/
namespace Sdsl.Serial
open IntVec (Byte)

/-- An array of `n` unsigned integers of `b` bytes, written and read as one block (`out.write((char*) m_path, ...)`,
    wt_helper.hpp:273-276 and 287-288). -/
def numArr (b n : Nat) : Codec (List Nat) where
  ser l := serVector (num b) (l.take n)
  load u _ s := loadVector (num b) (u.take n) s
  setVec l _ := l

/-- `sd_vector<t_hi, t_sel1, t_sel0>`: members sd_vector.hpp:151-157, `serialize` 404-416, `load` 419-427. -/
structure SdVector (H S1 S0 : Type) where
  m_size : Nat
  m_wl : Nat
  m_low : IntVec
  m_high : H
  m_high_1_select : S1
  m_high_0_select : S0

/-- `serialize`. -/
def SdVector.serialize {H S1 S0 : Type} (junk : Nat → Word) (cH : Codec H) (cS1 : Codec S1) (cS0 : Codec S0) (v : SdVector H S1
    S0) : Option Out :=
  (num 8).ser v.m_size +>
  (num 1).ser v.m_wl +>
  (vec junk 0).ser v.m_low +>
  cH.ser v.m_high +>
  cS1.ser v.m_high_1_select +>
  cS0.ser v.m_high_0_select

/-- `load`. -/
def SdVector.load {H S1 S0 : Type} (junk : Nat → Word) (cH : Codec H) (cS1 : Codec S1) (cS0 : Codec S0) (u : SdVector H S1 S0)
    (_ : Ptr) (s : List Byte) :
    Option (SdVector H S1 S0 × List Byte) := do
  let (m_size, s) ← (num 8).load u.m_size none s
  let (m_wl, s) ← (num 1).load u.m_wl none s
  let (m_low, s) ← (vec junk 0).load u.m_low none s
  let (m_high, s) ← cH.load u.m_high none s
  let (m_high_1_select, s) ← cS1.load u.m_high_1_select (some "m_high") s
  let (m_high_0_select, s) ← cS0.load u.m_high_0_select (some "m_high") s
  some (⟨m_size, m_wl, m_low, m_high, m_high_1_select, m_high_0_select⟩, s)

/-- The two functions of the class. -/
def sdVector {H S1 S0 : Type} (junk : Nat → Word) (cH : Codec H) (cS1 : Codec S1) (cS0 : Codec S0) : Codec (SdVector H S1 S0) :=
  ⟨SdVector.serialize junk cH cS1 cS0, SdVector.load junk cH cS1 cS0, fun v _ => v⟩

/-- `select_0_support_sd`: `load` sd_vector.hpp:817-822, `serialize` 824-832. -/
structure Select0Sd where
  m_v : Ptr
  m_pointer : IntVec
  m_rank1 : IntVec

/-- `serialize`. -/
def Select0Sd.serialize (junk : Nat → Word) (v : Select0Sd) : Option Out :=
  (vec junk 0).ser v.m_pointer +>
  (vec junk 0).ser v.m_rank1

/-- `load`. -/
def Select0Sd.load (junk : Nat → Word) (u : Select0Sd) (p : Ptr) (s : List Byte) :
    Option (Select0Sd × List Byte) := do
  let (m_pointer, s) ← (vec junk 0).load u.m_pointer none s
  let (m_rank1, s) ← (vec junk 0).load u.m_rank1 none s
  some (⟨p, m_pointer, m_rank1⟩, s)

/-- The two functions of the class. -/
def select0Sd (junk : Nat → Word) : Codec Select0Sd :=
  ⟨Select0Sd.serialize junk, Select0Sd.load junk, fun v p => { v with m_v := p }⟩

/-- `rrr_vector<t_bs, int_vector<>, t_k>`: members rrr_vector.hpp:96-103, `serialize` 350-362, `load` 365-373; `rrr_vector<15>`
    (rrr_vector_15.hpp) has the same members and the same order. -/
structure RrrVector where
  m_size : Nat
  m_bt : IntVec
  m_btnr : IntVec
  m_btnrp : IntVec
  m_rank : IntVec
  m_invert : IntVec

/-- `serialize`. -/
def RrrVector.serialize (junk : Nat → Word) (v : RrrVector) : Option Out :=
  (num 8).ser v.m_size +>
  (vec junk 0).ser v.m_bt +>
  (vec junk 1).ser v.m_btnr +>
  (vec junk 0).ser v.m_btnrp +>
  (vec junk 0).ser v.m_rank +>
  (vec junk 1).ser v.m_invert

/-- `load`. -/
def RrrVector.load (junk : Nat → Word) (u : RrrVector) (_ : Ptr) (s : List Byte) :
    Option (RrrVector × List Byte) := do
  let (m_size, s) ← (num 8).load u.m_size none s
  let (m_bt, s) ← (vec junk 0).load u.m_bt none s
  let (m_btnr, s) ← (vec junk 1).load u.m_btnr none s
  let (m_btnrp, s) ← (vec junk 0).load u.m_btnrp none s
  let (m_rank, s) ← (vec junk 0).load u.m_rank none s
  let (m_invert, s) ← (vec junk 1).load u.m_invert none s
  some (⟨m_size, m_bt, m_btnr, m_btnrp, m_rank, m_invert⟩, s)

/-- The two functions of the class. -/
def rrrVector (junk : Nat → Word) : Codec RrrVector :=
  ⟨RrrVector.serialize junk, RrrVector.load junk, fun v _ => v⟩

/-- `bit_vector_il`: members bit_vector_il.hpp:80-85, `serialize` 201-213, `load` 216-224. -/
structure BitVectorIl where
  m_size : Nat
  m_block_num : Nat
  m_superblocks : Nat
  m_block_shift : Nat
  m_data : IntVec
  m_rank_samples : IntVec

/-- `serialize`. -/
def BitVectorIl.serialize (junk : Nat → Word) (v : BitVectorIl) : Option Out :=
  (num 8).ser v.m_size +>
  (num 8).ser v.m_block_num +>
  (num 8).ser v.m_superblocks +>
  (num 8).ser v.m_block_shift +>
  (vec junk 64).ser v.m_data +>
  (vec junk 64).ser v.m_rank_samples

/-- `load`. -/
def BitVectorIl.load (junk : Nat → Word) (u : BitVectorIl) (_ : Ptr) (s : List Byte) :
    Option (BitVectorIl × List Byte) := do
  let (m_size, s) ← (num 8).load u.m_size none s
  let (m_block_num, s) ← (num 8).load u.m_block_num none s
  let (m_superblocks, s) ← (num 8).load u.m_superblocks none s
  let (m_block_shift, s) ← (num 8).load u.m_block_shift none s
  let (m_data, s) ← (vec junk 64).load u.m_data none s
  let (m_rank_samples, s) ← (vec junk 64).load u.m_rank_samples none s
  some (⟨m_size, m_block_num, m_superblocks, m_block_shift, m_data, m_rank_samples⟩, s)

/-- The two functions of the class. -/
def bitVectorIl (junk : Nat → Word) : Codec BitVectorIl :=
  ⟨BitVectorIl.serialize junk, BitVectorIl.load junk, fun v _ => v⟩

/-- `hyb_vector`: members hyb_vector.hpp:84-87, `serialize` 564-574, `load` 577-583. -/
structure HybVector where
  m_size : Nat
  m_trunk : IntVec
  m_sblock_header : IntVec
  m_hblock_header : IntVec

/-- `serialize`. -/
def HybVector.serialize (junk : Nat → Word) (v : HybVector) : Option Out :=
  (num 8).ser v.m_size +>
  (vec junk 8).ser v.m_trunk +>
  (vec junk 8).ser v.m_sblock_header +>
  (vec junk 64).ser v.m_hblock_header

/-- `load`. -/
def HybVector.load (junk : Nat → Word) (u : HybVector) (_ : Ptr) (s : List Byte) :
    Option (HybVector × List Byte) := do
  let (m_size, s) ← (num 8).load u.m_size none s
  let (m_trunk, s) ← (vec junk 8).load u.m_trunk none s
  let (m_sblock_header, s) ← (vec junk 8).load u.m_sblock_header none s
  let (m_hblock_header, s) ← (vec junk 64).load u.m_hblock_header none s
  some (⟨m_size, m_trunk, m_sblock_header, m_hblock_header⟩, s)

/-- The two functions of the class. -/
def hybVector (junk : Nat → Word) : Codec HybVector :=
  ⟨HybVector.serialize junk, HybVector.load junk, fun v _ => v⟩

/-- `enc_vector<t_coder, t_dens, 0>`: members enc_vector.hpp:80-83, `serialize` 341-350, `load` 353-358. -/
structure EncVector where
  m_z : IntVec
  m_sample_vals_and_pointer : IntVec
  m_size : Nat

/-- `serialize`. -/
def EncVector.serialize (junk : Nat → Word) (v : EncVector) : Option Out :=
  (num 8).ser v.m_size +>
  (vec junk 0).ser v.m_z +>
  (vec junk 0).ser v.m_sample_vals_and_pointer

/-- `load`. -/
def EncVector.load (junk : Nat → Word) (u : EncVector) (_ : Ptr) (s : List Byte) :
    Option (EncVector × List Byte) := do
  let (m_size, s) ← (num 8).load u.m_size none s
  let (m_z, s) ← (vec junk 0).load u.m_z none s
  let (m_sample_vals_and_pointer, s) ← (vec junk 0).load u.m_sample_vals_and_pointer none s
  some (⟨m_z, m_sample_vals_and_pointer, m_size⟩, s)

/-- The two functions of the class. -/
def encVector (junk : Nat → Word) : Codec EncVector :=
  ⟨EncVector.serialize junk, EncVector.load junk, fun v _ => v⟩

/-- `vlc_vector<t_coder, t_dens, 0>`: `serialize` vlc_vector.hpp:267-276, `load` 279-284. -/
structure VlcVector where
  m_z : IntVec
  m_sample_pointer : IntVec
  m_size : Nat

/-- `serialize`. -/
def VlcVector.serialize (junk : Nat → Word) (v : VlcVector) : Option Out :=
  (num 8).ser v.m_size +>
  (vec junk 0).ser v.m_z +>
  (vec junk 0).ser v.m_sample_pointer

/-- `load`. -/
def VlcVector.load (junk : Nat → Word) (u : VlcVector) (_ : Ptr) (s : List Byte) :
    Option (VlcVector × List Byte) := do
  let (m_size, s) ← (num 8).load u.m_size none s
  let (m_z, s) ← (vec junk 0).load u.m_z none s
  let (m_sample_pointer, s) ← (vec junk 0).load u.m_sample_pointer none s
  some (⟨m_z, m_sample_pointer, m_size⟩, s)

/-- The two functions of the class. -/
def vlcVector (junk : Nat → Word) : Codec VlcVector :=
  ⟨VlcVector.serialize junk, VlcVector.load junk, fun v _ => v⟩

/-- `dac_vector<t_b, t_rank>`; `tb` is `t_b`: members dac_vector.hpp:353-357, `load` 479-486, `serialize` 643-656. -/
structure DacVector (R : Type) where
  m_data : IntVec
  m_overflow : IntVec
  m_overflow_rank : R
  m_level_pointer_and_rank : IntVec
  m_max_level : Nat

/-- `serialize`. -/
def DacVector.serialize {R : Type} (junk : Nat → Word) (tb : Nat) (cR : Codec R) (v : DacVector R) : Option Out :=
  (vec junk tb).ser v.m_data +>
  (vec junk 1).ser v.m_overflow +>
  cR.ser v.m_overflow_rank +>
  (vec junk 64).ser v.m_level_pointer_and_rank +>
  (num 1).ser v.m_max_level

/-- `load`. -/
def DacVector.load {R : Type} (junk : Nat → Word) (tb : Nat) (cR : Codec R) (u : DacVector R) (_ : Ptr) (s : List Byte) :
    Option (DacVector R × List Byte) := do
  let (m_data, s) ← (vec junk tb).load u.m_data none s
  let (m_overflow, s) ← (vec junk 1).load u.m_overflow none s
  let (m_overflow_rank, s) ← cR.load u.m_overflow_rank (some "m_overflow") s
  let (m_level_pointer_and_rank, s) ← (vec junk 64).load u.m_level_pointer_and_rank none s
  let (m_max_level, s) ← (num 1).load u.m_max_level none s
  some (⟨m_data, m_overflow, m_overflow_rank, m_level_pointer_and_rank, m_max_level⟩, s)

/-- The two functions of the class. -/
def dacVector {R : Type} (junk : Nat → Word) (tb : Nat) (cR : Codec R) : Codec (DacVector R) :=
  ⟨DacVector.serialize junk tb cR, DacVector.load junk tb cR, fun v _ => v⟩

/-- `wt_int`: members wt_int.hpp:83-90, `serialize` 693-705, `load` 708-716. -/
structure WtInt (B R S1 S0 : Type) where
  m_size : Nat
  m_sigma : Nat
  m_tree : B
  m_tree_rank : R
  m_tree_select1 : S1
  m_tree_select0 : S0
  m_max_level : Nat

/-- `serialize`. -/
def WtInt.serialize {B R S1 S0 : Type} (cB : Codec B) (cR : Codec R) (cS1 : Codec S1) (cS0 : Codec S0) (v : WtInt B R S1 S0) :
    Option Out :=
  (num 8).ser v.m_size +>
  (num 8).ser v.m_sigma +>
  cB.ser v.m_tree +>
  cR.ser v.m_tree_rank +>
  cS1.ser v.m_tree_select1 +>
  cS0.ser v.m_tree_select0 +>
  (num 4).ser v.m_max_level

/-- `load`. -/
def WtInt.load {B R S1 S0 : Type} (cB : Codec B) (cR : Codec R) (cS1 : Codec S1) (cS0 : Codec S0) (u : WtInt B R S1 S0) (_ :
    Ptr) (s : List Byte) :
    Option (WtInt B R S1 S0 × List Byte) := do
  let (m_size, s) ← (num 8).load u.m_size none s
  let (m_sigma, s) ← (num 8).load u.m_sigma none s
  let (m_tree, s) ← cB.load u.m_tree none s
  let (m_tree_rank, s) ← cR.load u.m_tree_rank (some "m_tree") s
  let (m_tree_select1, s) ← cS1.load u.m_tree_select1 (some "m_tree") s
  let (m_tree_select0, s) ← cS0.load u.m_tree_select0 (some "m_tree") s
  let (m_max_level, s) ← (num 4).load u.m_max_level none s
  some (⟨m_size, m_sigma, m_tree, m_tree_rank, m_tree_select1, m_tree_select0, m_max_level⟩, s)

/-- The two functions of the class. -/
def wtInt {B R S1 S0 : Type} (cB : Codec B) (cR : Codec R) (cS1 : Codec S1) (cS0 : Codec S0) : Codec (WtInt B R S1 S0) :=
  ⟨WtInt.serialize  cB cR cS1 cS0, WtInt.load  cB cR cS1 cS0, fun v _ => v⟩

/-- `wm_int`: `serialize` wm_int.hpp:522-537, `load` 540-551. -/
structure WmInt (B R S1 S0 : Type) where
  m_size : Nat
  m_sigma : Nat
  m_tree : B
  m_tree_rank : R
  m_tree_select1 : S1
  m_tree_select0 : S0
  m_max_level : Nat
  m_zero_cnt : IntVec
  m_rank_level : IntVec

/-- `serialize`. -/
def WmInt.serialize {B R S1 S0 : Type} (junk : Nat → Word) (cB : Codec B) (cR : Codec R) (cS1 : Codec S1) (cS0 : Codec S0) (v :
    WmInt B R S1 S0) : Option Out :=
  (num 8).ser v.m_size +>
  (num 8).ser v.m_sigma +>
  cB.ser v.m_tree +>
  cR.ser v.m_tree_rank +>
  cS1.ser v.m_tree_select1 +>
  cS0.ser v.m_tree_select0 +>
  (num 4).ser v.m_max_level +>
  (vec junk 64).ser v.m_zero_cnt +>
  (vec junk 64).ser v.m_rank_level

/-- `load`. -/
def WmInt.load {B R S1 S0 : Type} (junk : Nat → Word) (cB : Codec B) (cR : Codec R) (cS1 : Codec S1) (cS0 : Codec S0) (u :
    WmInt B R S1 S0) (_ : Ptr) (s : List Byte) :
    Option (WmInt B R S1 S0 × List Byte) := do
  let (m_size, s) ← (num 8).load u.m_size none s
  let (m_sigma, s) ← (num 8).load u.m_sigma none s
  let (m_tree, s) ← cB.load u.m_tree none s
  let (m_tree_rank, s) ← cR.load u.m_tree_rank (some "m_tree") s
  let (m_tree_select1, s) ← cS1.load u.m_tree_select1 (some "m_tree") s
  let (m_tree_select0, s) ← cS0.load u.m_tree_select0 (some "m_tree") s
  let (m_max_level, s) ← (num 4).load u.m_max_level none s
  let (m_zero_cnt, s) ← (vec junk 64).load u.m_zero_cnt none s
  let (m_rank_level, s) ← (vec junk 64).load u.m_rank_level none s
  some (⟨m_size, m_sigma, m_tree, m_tree_rank, m_tree_select1, m_tree_select0, m_max_level, m_zero_cnt, m_rank_level⟩, s)

/-- The two functions of the class. -/
def wmInt {B R S1 S0 : Type} (junk : Nat → Word) (cB : Codec B) (cR : Codec R) (cS1 : Codec S1) (cS0 : Codec S0) : Codec (WmInt
    B R S1 S0) :=
  ⟨WmInt.serialize junk cB cR cS1 cS0, WmInt.load junk cB cR cS1 cS0, fun v _ => v⟩

/-- `wt_pc`: `serialize` wt_pc.hpp:656-671, `load` 674-683. -/
structure WtPc (B R S1 S0 T : Type) where
  m_size : Nat
  m_sigma : Nat
  m_bv : B
  m_bv_rank : R
  m_bv_select1 : S1
  m_bv_select0 : S0
  m_tree : T

/-- `serialize`. -/
def WtPc.serialize {B R S1 S0 T : Type} (cB : Codec B) (cR : Codec R) (cS1 : Codec S1) (cS0 : Codec S0) (cT : Codec T) (v :
    WtPc B R S1 S0 T) : Option Out :=
  (num 8).ser v.m_size +>
  (num 8).ser v.m_sigma +>
  cB.ser v.m_bv +>
  cR.ser v.m_bv_rank +>
  cS1.ser v.m_bv_select1 +>
  cS0.ser v.m_bv_select0 +>
  cT.ser v.m_tree

/-- `load`. -/
def WtPc.load {B R S1 S0 T : Type} (cB : Codec B) (cR : Codec R) (cS1 : Codec S1) (cS0 : Codec S0) (cT : Codec T) (u : WtPc B R
    S1 S0 T) (_ : Ptr) (s : List Byte) :
    Option (WtPc B R S1 S0 T × List Byte) := do
  let (m_size, s) ← (num 8).load u.m_size none s
  let (m_sigma, s) ← (num 8).load u.m_sigma none s
  let (m_bv, s) ← cB.load u.m_bv none s
  let (m_bv_rank, s) ← cR.load u.m_bv_rank (some "m_bv") s
  let (m_bv_select1, s) ← cS1.load u.m_bv_select1 (some "m_bv") s
  let (m_bv_select0, s) ← cS0.load u.m_bv_select0 (some "m_bv") s
  let (m_tree, s) ← cT.load u.m_tree none s
  some (⟨m_size, m_sigma, m_bv, m_bv_rank, m_bv_select1, m_bv_select0, m_tree⟩, s)

/-- The two functions of the class. -/
def wtPc {B R S1 S0 T : Type} (cB : Codec B) (cR : Codec R) (cS1 : Codec S1) (cS0 : Codec S0) (cT : Codec T) : Codec (WtPc B R
    S1 S0 T) :=
  ⟨WtPc.serialize  cB cR cS1 cS0 cT, WtPc.load  cB cR cS1 cS0 cT, fun v _ => v⟩

/-- `wt_rlmn`: `serialize` wt_rlmn.hpp:403-420, `load` 423-434. -/
structure WtRlmn (B R S W : Type) where
  m_size : Nat
  m_bl : B
  m_bf : B
  m_wt : W
  m_bl_rank : R
  m_bf_rank : R
  m_bl_select : S
  m_bf_select : S
  m_C : IntVec
  m_C_bf_rank : IntVec

/-- `serialize`. -/
def WtRlmn.serialize {B R S W : Type} (junk : Nat → Word) (cB : Codec B) (cR : Codec R) (cS : Codec S) (cW : Codec W) (v :
    WtRlmn B R S W) : Option Out :=
  (num 8).ser v.m_size +>
  cB.ser v.m_bl +>
  cB.ser v.m_bf +>
  cW.ser v.m_wt +>
  cR.ser v.m_bl_rank +>
  cR.ser v.m_bf_rank +>
  cS.ser v.m_bl_select +>
  cS.ser v.m_bf_select +>
  (vec junk 64).ser v.m_C +>
  (vec junk 64).ser v.m_C_bf_rank

/-- `load`. -/
def WtRlmn.load {B R S W : Type} (junk : Nat → Word) (cB : Codec B) (cR : Codec R) (cS : Codec S) (cW : Codec W) (u : WtRlmn B
    R S W) (_ : Ptr) (s : List Byte) :
    Option (WtRlmn B R S W × List Byte) := do
  let (m_size, s) ← (num 8).load u.m_size none s
  let (m_bl, s) ← cB.load u.m_bl none s
  let (m_bf, s) ← cB.load u.m_bf none s
  let (m_wt, s) ← cW.load u.m_wt none s
  let (m_bl_rank, s) ← cR.load u.m_bl_rank (some "m_bl") s
  let (m_bf_rank, s) ← cR.load u.m_bf_rank (some "m_bf") s
  let (m_bl_select, s) ← cS.load u.m_bl_select (some "m_bl") s
  let (m_bf_select, s) ← cS.load u.m_bf_select (some "m_bf") s
  let (m_C, s) ← (vec junk 64).load u.m_C none s
  let (m_C_bf_rank, s) ← (vec junk 64).load u.m_C_bf_rank none s
  some (⟨m_size, m_bl, m_bf, m_wt, m_bl_rank, m_bf_rank, m_bl_select, m_bf_select, m_C, m_C_bf_rank⟩, s)

/-- The two functions of the class. -/
def wtRlmn {B R S W : Type} (junk : Nat → Word) (cB : Codec B) (cR : Codec R) (cS : Codec S) (cW : Codec W) : Codec (WtRlmn B R
    S W) :=
  ⟨WtRlmn.serialize junk cB cR cS cW, WtRlmn.load junk cB cR cS cW, fun v _ => v⟩

/-- `wt_ap`: members wt_ap.hpp:68-74, `serialize` 381-397, `load` 400-412; `d` is the value of new elements of `m_offset`. -/
structure WtAp (W I : Type) where
  m_size : Nat
  m_sigma : Nat
  m_singleton_class_cnt : Nat
  m_class_cnt : Nat
  m_char2class : W
  m_class : W
  m_offset : List I

/-- `serialize`. -/
def WtAp.serialize {W I : Type} (cW : Codec W) (cI : Codec I) (v : WtAp W I) : Option Out :=
  (num 8).ser v.m_size +>
  (num 8).ser v.m_sigma +>
  (num 8).ser v.m_singleton_class_cnt +>
  (num 8).ser v.m_class_cnt +>
  cW.ser v.m_char2class +>
  cW.ser v.m_class +>
  serVector cI v.m_offset

/-- `load`. -/
def WtAp.load {W I : Type} (cW : Codec W) (cI : Codec I) (dI : I) (u : WtAp W I) (_ : Ptr) (s : List Byte) :
    Option (WtAp W I × List Byte) := do
  let (m_size, s) ← (num 8).load u.m_size none s
  let (m_sigma, s) ← (num 8).load u.m_sigma none s
  let (m_singleton_class_cnt, s) ← (num 8).load u.m_singleton_class_cnt none s
  let (m_class_cnt, s) ← (num 8).load u.m_class_cnt none s
  let (m_char2class, s) ← cW.load u.m_char2class none s
  let (m_class, s) ← cW.load u.m_class none s
  let (m_offset, s) ← loadVector cI (resize dI u.m_offset (m_class_cnt - m_singleton_class_cnt)) s
  some (⟨m_size, m_sigma, m_singleton_class_cnt, m_class_cnt, m_char2class, m_class, m_offset⟩, s)

/-- The two functions of the class. -/
def wtAp {W I : Type} (cW : Codec W) (cI : Codec I) (dI : I) : Codec (WtAp W I) :=
  ⟨WtAp.serialize  cW cI, WtAp.load  cW cI dI, fun v _ => v⟩

/-- `inv_multi_perm_support`: `serialize` wt_gmr.hpp:243-253, `load` 256-263. -/
structure InvMultiPerm (R : Type) where
  m_iv : Ptr
  m_chunksize : Nat
  m_back_pointer : IntVec
  m_marked : IntVec
  m_marked_rank : R

/-- `serialize`. -/
def InvMultiPerm.serialize {R : Type} (junk : Nat → Word) (cR : Codec R) (v : InvMultiPerm R) : Option Out :=
  (num 8).ser v.m_chunksize +>
  (vec junk 0).ser v.m_back_pointer +>
  (vec junk 1).ser v.m_marked +>
  cR.ser v.m_marked_rank

/-- `load`. -/
def InvMultiPerm.load {R : Type} (junk : Nat → Word) (cR : Codec R) (u : InvMultiPerm R) (p : Ptr) (s : List Byte) :
    Option (InvMultiPerm R × List Byte) := do
  let (m_chunksize, s) ← (num 8).load u.m_chunksize none s
  let (m_back_pointer, s) ← (vec junk 0).load u.m_back_pointer none s
  let (m_marked, s) ← (vec junk 1).load u.m_marked none s
  let (m_marked_rank, s) ← cR.load u.m_marked_rank (some "m_marked") s
  some (⟨p, m_chunksize, m_back_pointer, m_marked, m_marked_rank⟩, s)

/-- The two functions of the class. -/
def invMultiPerm {R : Type} (junk : Nat → Word) (cR : Codec R) : Codec (InvMultiPerm R) :=
  ⟨InvMultiPerm.serialize junk cR, InvMultiPerm.load junk cR, fun v p => { v with m_iv := p }⟩

/-- `wt_gmr_rs`: `serialize` wt_gmr.hpp:589-603, `load` 606-616. -/
structure WtGmrRs (B S0 S1 : Type) where
  m_size : Nat
  m_block_size : Nat
  m_blocks : Nat
  m_sigma : Nat
  m_e : IntVec
  m_bv_blocks : B
  m_bv_blocks_select0 : S0
  m_bv_blocks_select1 : S1

/-- `serialize`. -/
def WtGmrRs.serialize {B S0 S1 : Type} (junk : Nat → Word) (cB : Codec B) (cS0 : Codec S0) (cS1 : Codec S1) (v : WtGmrRs B S0
    S1) : Option Out :=
  (num 8).ser v.m_size +>
  (num 8).ser v.m_block_size +>
  (num 8).ser v.m_blocks +>
  (num 8).ser v.m_sigma +>
  (vec junk 0).ser v.m_e +>
  cB.ser v.m_bv_blocks +>
  cS0.ser v.m_bv_blocks_select0 +>
  cS1.ser v.m_bv_blocks_select1

/-- `load`. -/
def WtGmrRs.load {B S0 S1 : Type} (junk : Nat → Word) (cB : Codec B) (cS0 : Codec S0) (cS1 : Codec S1) (u : WtGmrRs B S0 S1) (_
    : Ptr) (s : List Byte) :
    Option (WtGmrRs B S0 S1 × List Byte) := do
  let (m_size, s) ← (num 8).load u.m_size none s
  let (m_block_size, s) ← (num 8).load u.m_block_size none s
  let (m_blocks, s) ← (num 8).load u.m_blocks none s
  let (m_sigma, s) ← (num 8).load u.m_sigma none s
  let (m_e, s) ← (vec junk 0).load u.m_e none s
  let (m_bv_blocks, s) ← cB.load u.m_bv_blocks none s
  let (m_bv_blocks_select0, s) ← cS0.load u.m_bv_blocks_select0 (some "m_bv_blocks") s
  let (m_bv_blocks_select1, s) ← cS1.load u.m_bv_blocks_select1 (some "m_bv_blocks") s
  some (⟨m_size, m_block_size, m_blocks, m_sigma, m_e, m_bv_blocks, m_bv_blocks_select0, m_bv_blocks_select1⟩, s)

/-- The two functions of the class. -/
def wtGmrRs {B S0 S1 : Type} (junk : Nat → Word) (cB : Codec B) (cS0 : Codec S0) (cS1 : Codec S1) : Codec (WtGmrRs B S0 S1) :=
  ⟨WtGmrRs.serialize junk cB cS0 cS1, WtGmrRs.load junk cB cS0 cS1, fun v _ => v⟩

/-- `wt_gmr`: `serialize` wt_gmr.hpp:927-946, `load` 949-964. -/
structure WtGmr (B S0 S1 P : Type) where
  m_size : Nat
  m_max_symbol : Nat
  m_chunks : Nat
  m_chunksize : Nat
  m_sigma : Nat
  m_bv_blocks : B
  m_bv_blocks_select0 : S0
  m_bv_blocks_select1 : S1
  m_bv_chunks : B
  m_bv_chunks_select0 : S0
  m_bv_chunks_select1 : S1
  m_perm : IntVec
  m_ips : P

/-- `serialize`. -/
def WtGmr.serialize {B S0 S1 P : Type} (junk : Nat → Word) (cB : Codec B) (cS0 : Codec S0) (cS1 : Codec S1) (cP : Codec P) (v :
    WtGmr B S0 S1 P) : Option Out :=
  (num 8).ser v.m_size +>
  (num 8).ser v.m_max_symbol +>
  (num 8).ser v.m_chunks +>
  (num 8).ser v.m_chunksize +>
  (num 8).ser v.m_sigma +>
  cB.ser v.m_bv_blocks +>
  cS0.ser v.m_bv_blocks_select0 +>
  cS1.ser v.m_bv_blocks_select1 +>
  cB.ser v.m_bv_chunks +>
  cS0.ser v.m_bv_chunks_select0 +>
  cS1.ser v.m_bv_chunks_select1 +>
  (vec junk 0).ser v.m_perm +>
  cP.ser v.m_ips

/-- `load`. -/
def WtGmr.load {B S0 S1 P : Type} (junk : Nat → Word) (cB : Codec B) (cS0 : Codec S0) (cS1 : Codec S1) (cP : Codec P) (u :
    WtGmr B S0 S1 P) (_ : Ptr) (s : List Byte) :
    Option (WtGmr B S0 S1 P × List Byte) := do
  let (m_size, s) ← (num 8).load u.m_size none s
  let (m_max_symbol, s) ← (num 8).load u.m_max_symbol none s
  let (m_chunks, s) ← (num 8).load u.m_chunks none s
  let (m_chunksize, s) ← (num 8).load u.m_chunksize none s
  let (m_sigma, s) ← (num 8).load u.m_sigma none s
  let (m_bv_blocks, s) ← cB.load u.m_bv_blocks none s
  let (m_bv_blocks_select0, s) ← cS0.load u.m_bv_blocks_select0 (some "m_bv_blocks") s
  let (m_bv_blocks_select1, s) ← cS1.load u.m_bv_blocks_select1 (some "m_bv_blocks") s
  let (m_bv_chunks, s) ← cB.load u.m_bv_chunks none s
  let (m_bv_chunks_select0, s) ← cS0.load u.m_bv_chunks_select0 (some "m_bv_chunks") s
  let (m_bv_chunks_select1, s) ← cS1.load u.m_bv_chunks_select1 (some "m_bv_chunks") s
  let (m_perm, s) ← (vec junk 0).load u.m_perm none s
  let (m_ips, s) ← cP.load u.m_ips (some "m_perm") s
  some (⟨m_size, m_max_symbol, m_chunks, m_chunksize, m_sigma, m_bv_blocks, m_bv_blocks_select0, m_bv_blocks_select1,
      m_bv_chunks, m_bv_chunks_select0, m_bv_chunks_select1, m_perm, m_ips⟩, s)

/-- The two functions of the class. -/
def wtGmr {B S0 S1 P : Type} (junk : Nat → Word) (cB : Codec B) (cS0 : Codec S0) (cS1 : Codec S1) (cP : Codec P) : Codec (WtGmr
    B S0 S1 P) :=
  ⟨WtGmr.serialize junk cB cS0 cS1 cP, WtGmr.load junk cB cS0 cS1 cP, fun v _ => v⟩

/-- `byte_alphabet`: members csa_alphabet_strategy.hpp:144-147, `serialize` and `load` lib/csa_alphabet_strategy.cpp:103-121. -/
structure ByteAlphabet where
  m_char2comp : IntVec
  m_comp2char : IntVec
  m_C : IntVec
  m_sigma : Nat

/-- `serialize`. -/
def ByteAlphabet.serialize (junk : Nat → Word) (v : ByteAlphabet) : Option Out :=
  (vec junk 8).ser v.m_char2comp +>
  (vec junk 8).ser v.m_comp2char +>
  (vec junk 64).ser v.m_C +>
  (num 2).ser v.m_sigma

/-- `load`. -/
def ByteAlphabet.load (junk : Nat → Word) (u : ByteAlphabet) (_ : Ptr) (s : List Byte) :
    Option (ByteAlphabet × List Byte) := do
  let (m_char2comp, s) ← (vec junk 8).load u.m_char2comp none s
  let (m_comp2char, s) ← (vec junk 8).load u.m_comp2char none s
  let (m_C, s) ← (vec junk 64).load u.m_C none s
  let (m_sigma, s) ← (num 2).load u.m_sigma none s
  some (⟨m_char2comp, m_comp2char, m_C, m_sigma⟩, s)

/-- The two functions of the class. -/
def byteAlphabet (junk : Nat → Word) : Codec ByteAlphabet :=
  ⟨ByteAlphabet.serialize junk, ByteAlphabet.load junk, fun v _ => v⟩

/-- `succinct_byte_alphabet` and `int_alphabet`; `sb` is the size of `sigma_type` (2 and 8 bytes): members
    csa_alphabet_strategy.hpp:243-247, `serialize` 356-367, `load` 370-379; 453-457, 582-593, 596-605. -/
structure CharAlphabet (B R S : Type) where
  m_char : B
  m_char_rank : R
  m_char_select : S
  m_C : IntVec
  m_sigma : Nat

/-- `serialize`. -/
def CharAlphabet.serialize {B R S : Type} (junk : Nat → Word) (sb : Nat) (cB : Codec B) (cR : Codec R) (cS : Codec S) (v :
    CharAlphabet B R S) : Option Out :=
  cB.ser v.m_char +>
  cR.ser v.m_char_rank +>
  cS.ser v.m_char_select +>
  (vec junk 0).ser v.m_C +>
  (num sb).ser v.m_sigma

/-- `load`. -/
def CharAlphabet.load {B R S : Type} (junk : Nat → Word) (sb : Nat) (cB : Codec B) (cR : Codec R) (cS : Codec S) (u :
    CharAlphabet B R S) (_ : Ptr) (s : List Byte) :
    Option (CharAlphabet B R S × List Byte) := do
  let (m_char, s) ← cB.load u.m_char none s
  let (m_char_rank, s) ← cR.load u.m_char_rank none s
  let m_char_rank := cR.setVec m_char_rank (some "m_char")
  let (m_char_select, s) ← cS.load u.m_char_select none s
  let m_char_select := cS.setVec m_char_select (some "m_char")
  let (m_C, s) ← (vec junk 0).load u.m_C none s
  let (m_sigma, s) ← (num sb).load u.m_sigma none s
  some (⟨m_char, m_char_rank, m_char_select, m_C, m_sigma⟩, s)

/-- The two functions of the class. -/
def charAlphabet {B R S : Type} (junk : Nat → Word) (sb : Nat) (cB : Codec B) (cR : Codec R) (cS : Codec S) : Codec
    (CharAlphabet B R S) :=
  ⟨CharAlphabet.serialize junk sb cB cR cS, CharAlphabet.load junk sb cB cR cS, fun v _ => v⟩

/-- `_text_order_sampling` and `_bwt_sampling` (the samples are the base class `int_vector<0>`):
    csa_sampling_strategy.hpp:218-235 and 576-593. -/
structure MarkedSampling (B R : Type) where
  samples : IntVec
  m_marked : B
  m_rank_marked : R

/-- `serialize`. -/
def MarkedSampling.serialize {B R : Type} (junk : Nat → Word) (cB : Codec B) (cR : Codec R) (v : MarkedSampling B R) : Option
    Out :=
  (vec junk 0).ser v.samples +>
  cB.ser v.m_marked +>
  cR.ser v.m_rank_marked

/-- `load`. -/
def MarkedSampling.load {B R : Type} (junk : Nat → Word) (cB : Codec B) (cR : Codec R) (u : MarkedSampling B R) (_ : Ptr) (s :
    List Byte) :
    Option (MarkedSampling B R × List Byte) := do
  let (samples, s) ← (vec junk 0).load u.samples none s
  let (m_marked, s) ← cB.load u.m_marked none s
  let (m_rank_marked, s) ← cR.load u.m_rank_marked none s
  let m_rank_marked := cR.setVec m_rank_marked (some "m_marked")
  some (⟨samples, m_marked, m_rank_marked⟩, s)

/-- The two functions of the class. -/
def markedSampling {B R : Type} (junk : Nat → Word) (cB : Codec B) (cR : Codec R) : Codec (MarkedSampling B R) :=
  ⟨MarkedSampling.serialize junk cB cR, MarkedSampling.load junk cB cR, fun v _ => v⟩

/-- `_fuzzy_sa_sampling`: members csa_sampling_strategy.hpp:257-261, `serialize` 408-419, `load` 421-430. -/
structure FuzzySampling (BS RS BI SI W : Type) where
  m_marked_sa : BS
  m_rank_marked_sa : RS
  m_marked_isa : BI
  m_select_marked_isa : SI
  m_inv_perm : W

/-- `serialize`. -/
def FuzzySampling.serialize {BS RS BI SI W : Type} (cBS : Codec BS) (cRS : Codec RS) (cBI : Codec BI) (cSI : Codec SI) (cW :
    Codec W) (v : FuzzySampling BS RS BI SI W) : Option Out :=
  cBS.ser v.m_marked_sa +>
  cRS.ser v.m_rank_marked_sa +>
  cBI.ser v.m_marked_isa +>
  cSI.ser v.m_select_marked_isa +>
  cW.ser v.m_inv_perm

/-- `load`. -/
def FuzzySampling.load {BS RS BI SI W : Type} (cBS : Codec BS) (cRS : Codec RS) (cBI : Codec BI) (cSI : Codec SI) (cW : Codec
    W) (u : FuzzySampling BS RS BI SI W) (_ : Ptr) (s : List Byte) :
    Option (FuzzySampling BS RS BI SI W × List Byte) := do
  let (m_marked_sa, s) ← cBS.load u.m_marked_sa none s
  let (m_rank_marked_sa, s) ← cRS.load u.m_rank_marked_sa none s
  let m_rank_marked_sa := cRS.setVec m_rank_marked_sa (some "m_marked_sa")
  let (m_marked_isa, s) ← cBI.load u.m_marked_isa none s
  let (m_select_marked_isa, s) ← cSI.load u.m_select_marked_isa none s
  let m_select_marked_isa := cSI.setVec m_select_marked_isa (some "m_marked_isa")
  let (m_inv_perm, s) ← cW.load u.m_inv_perm none s
  some (⟨m_marked_sa, m_rank_marked_sa, m_marked_isa, m_select_marked_isa, m_inv_perm⟩, s)

/-- The two functions of the class. -/
def fuzzySampling {BS RS BI SI W : Type} (cBS : Codec BS) (cRS : Codec RS) (cBI : Codec BI) (cSI : Codec SI) (cW : Codec W) :
    Codec (FuzzySampling BS RS BI SI W) :=
  ⟨FuzzySampling.serialize  cBS cRS cBI cSI cW, FuzzySampling.load  cBS cRS cBI cSI cW, fun v _ => v⟩

/-- `csa_sada`: members csa_sada.hpp:115-118, `serialize` 461-471, `load` 474-480. The buffer `m_psi_buf` is scratch space. -/
structure CsaSada (E SA IS A : Type) where
  m_psi : E
  m_sa_sample : SA
  m_isa_sample : IS
  m_alphabet : A

/-- `serialize`. -/
def CsaSada.serialize {E SA IS A : Type} (cE : Codec E) (cSA : Codec SA) (cIS : Codec IS) (cA : Codec A) (v : CsaSada E SA IS
    A) : Option Out :=
  cE.ser v.m_psi +>
  cSA.ser v.m_sa_sample +>
  cIS.ser v.m_isa_sample +>
  cA.ser v.m_alphabet

/-- `load`. -/
def CsaSada.load {E SA IS A : Type} (cE : Codec E) (cSA : Codec SA) (cIS : Codec IS) (cA : Codec A) (u : CsaSada E SA IS A) (_
    : Ptr) (s : List Byte) :
    Option (CsaSada E SA IS A × List Byte) := do
  let (m_psi, s) ← cE.load u.m_psi none s
  let (m_sa_sample, s) ← cSA.load u.m_sa_sample none s
  let (m_isa_sample, s) ← cIS.load u.m_isa_sample (some "m_sa_sample") s
  let (m_alphabet, s) ← cA.load u.m_alphabet none s
  some (⟨m_psi, m_sa_sample, m_isa_sample, m_alphabet⟩, s)

/-- The two functions of the class. -/
def csaSada {E SA IS A : Type} (cE : Codec E) (cSA : Codec SA) (cIS : Codec IS) (cA : Codec A) : Codec (CsaSada E SA IS A) :=
  ⟨CsaSada.serialize  cE cSA cIS cA, CsaSada.load  cE cSA cIS cA, fun v _ => v⟩

/-- `csa_wt`: members csa_wt.hpp:120-123, `serialize` 374-384, `load` 387-393. -/
structure CsaWt (W SA IS A : Type) where
  m_wavelet_tree : W
  m_sa_sample : SA
  m_isa_sample : IS
  m_alphabet : A

/-- `serialize`. -/
def CsaWt.serialize {W SA IS A : Type} (cW : Codec W) (cSA : Codec SA) (cIS : Codec IS) (cA : Codec A) (v : CsaWt W SA IS A) :
    Option Out :=
  cW.ser v.m_wavelet_tree +>
  cSA.ser v.m_sa_sample +>
  cIS.ser v.m_isa_sample +>
  cA.ser v.m_alphabet

/-- `load`. -/
def CsaWt.load {W SA IS A : Type} (cW : Codec W) (cSA : Codec SA) (cIS : Codec IS) (cA : Codec A) (u : CsaWt W SA IS A) (_ :
    Ptr) (s : List Byte) :
    Option (CsaWt W SA IS A × List Byte) := do
  let (m_wavelet_tree, s) ← cW.load u.m_wavelet_tree none s
  let (m_sa_sample, s) ← cSA.load u.m_sa_sample none s
  let (m_isa_sample, s) ← cIS.load u.m_isa_sample (some "m_sa_sample") s
  let (m_alphabet, s) ← cA.load u.m_alphabet none s
  some (⟨m_wavelet_tree, m_sa_sample, m_isa_sample, m_alphabet⟩, s)

/-- The two functions of the class. -/
def csaWt {W SA IS A : Type} (cW : Codec W) (cSA : Codec SA) (cIS : Codec IS) (cA : Codec A) : Codec (CsaWt W SA IS A) :=
  ⟨CsaWt.serialize  cW cSA cIS cA, CsaWt.load  cW cSA cIS cA, fun v _ => v⟩

/-- `csa_bitcompressed`: members csa_bitcompressed.hpp:95-97, `serialize` 250-259, `load` 261-266. -/
structure CsaBitcompressed (A : Type) where
  m_sa : IntVec
  m_isa : IntVec
  m_alphabet : A

/-- `serialize`. -/
def CsaBitcompressed.serialize {A : Type} (junk : Nat → Word) (cA : Codec A) (v : CsaBitcompressed A) : Option Out :=
  (vec junk 0).ser v.m_sa +>
  (vec junk 0).ser v.m_isa +>
  cA.ser v.m_alphabet

/-- `load`. -/
def CsaBitcompressed.load {A : Type} (junk : Nat → Word) (cA : Codec A) (u : CsaBitcompressed A) (_ : Ptr) (s : List Byte) :
    Option (CsaBitcompressed A × List Byte) := do
  let (m_sa, s) ← (vec junk 0).load u.m_sa none s
  let (m_isa, s) ← (vec junk 0).load u.m_isa none s
  let (m_alphabet, s) ← cA.load u.m_alphabet none s
  some (⟨m_sa, m_isa, m_alphabet⟩, s)

/-- The two functions of the class. -/
def csaBitcompressed {A : Type} (junk : Nat → Word) (cA : Codec A) : Codec (CsaBitcompressed A) :=
  ⟨CsaBitcompressed.serialize junk cA, CsaBitcompressed.load junk cA, fun v _ => v⟩

/-- `lcp_byte`: members lcp_byte.hpp:78-80, `serialize` 180-191, `load` 194-199. -/
structure LcpByte where
  m_small_lcp : IntVec
  m_big_lcp : IntVec
  m_big_lcp_idx : IntVec

/-- `serialize`. -/
def LcpByte.serialize (junk : Nat → Word) (v : LcpByte) : Option Out :=
  (vec junk 8).ser v.m_small_lcp +>
  (vec junk 0).ser v.m_big_lcp +>
  (vec junk 0).ser v.m_big_lcp_idx

/-- `load`. -/
def LcpByte.load (junk : Nat → Word) (u : LcpByte) (_ : Ptr) (s : List Byte) :
    Option (LcpByte × List Byte) := do
  let (m_small_lcp, s) ← (vec junk 8).load u.m_small_lcp none s
  let (m_big_lcp, s) ← (vec junk 0).load u.m_big_lcp none s
  let (m_big_lcp_idx, s) ← (vec junk 0).load u.m_big_lcp_idx none s
  some (⟨m_small_lcp, m_big_lcp, m_big_lcp_idx⟩, s)

/-- The two functions of the class. -/
def lcpByte (junk : Nat → Word) : Codec LcpByte :=
  ⟨LcpByte.serialize junk, LcpByte.load junk, fun v _ => v⟩

/-- `lcp_wt`: `serialize` lcp_wt.hpp:187-197, `load` 200-204. -/
structure LcpWt (W : Type) where
  m_small_lcp : W
  m_big_lcp : IntVec

/-- `serialize`. -/
def LcpWt.serialize {W : Type} (junk : Nat → Word) (cW : Codec W) (v : LcpWt W) : Option Out :=
  cW.ser v.m_small_lcp +>
  (vec junk 0).ser v.m_big_lcp

/-- `load`. -/
def LcpWt.load {W : Type} (junk : Nat → Word) (cW : Codec W) (u : LcpWt W) (_ : Ptr) (s : List Byte) :
    Option (LcpWt W × List Byte) := do
  let (m_small_lcp, s) ← cW.load u.m_small_lcp none s
  let (m_big_lcp, s) ← (vec junk 0).load u.m_big_lcp none s
  some (⟨m_small_lcp, m_big_lcp⟩, s)

/-- The two functions of the class. -/
def lcpWt {W : Type} (junk : Nat → Word) (cW : Codec W) : Codec (LcpWt W) :=
  ⟨LcpWt.serialize junk cW, LcpWt.load junk cW, fun v _ => v⟩

/-- `_lcp_support_sada`: `serialize` lcp_support_sada.hpp:219-231, `load` 234-239. -/
structure LcpSada (B S : Type) where
  m_csa : Ptr
  m_data : B
  m_select_support : S

/-- `serialize`. -/
def LcpSada.serialize {B S : Type} (cB : Codec B) (cS : Codec S) (v : LcpSada B S) : Option Out :=
  cB.ser v.m_data +>
  cS.ser v.m_select_support

/-- `load`. -/
def LcpSada.load {B S : Type} (cB : Codec B) (cS : Codec S) (u : LcpSada B S) (p : Ptr) (s : List Byte) :
    Option (LcpSada B S × List Byte) := do
  let (m_data, s) ← cB.load u.m_data none s
  let (m_select_support, s) ← cS.load u.m_select_support (some "m_data") s
  some (⟨p, m_data, m_select_support⟩, s)

/-- The two functions of the class. -/
def lcpSada {B S : Type} (cB : Codec B) (cS : Codec S) : Codec (LcpSada B S) :=
  ⟨LcpSada.serialize  cB cS, LcpSada.load  cB cS, fun v p => { v with m_csa := p }⟩

/-- `_lcp_support_tree2`: `serialize` lcp_support_tree2.hpp:167-175, `load` 178-183. -/
structure LcpTree2 (W : Type) where
  m_cst : Ptr
  m_small_lcp : W
  m_big_lcp : IntVec

/-- `serialize`. -/
def LcpTree2.serialize {W : Type} (junk : Nat → Word) (cW : Codec W) (v : LcpTree2 W) : Option Out :=
  cW.ser v.m_small_lcp +>
  (vec junk 0).ser v.m_big_lcp

/-- `load`. -/
def LcpTree2.load {W : Type} (junk : Nat → Word) (cW : Codec W) (u : LcpTree2 W) (p : Ptr) (s : List Byte) :
    Option (LcpTree2 W × List Byte) := do
  let (m_small_lcp, s) ← cW.load u.m_small_lcp none s
  let (m_big_lcp, s) ← (vec junk 0).load u.m_big_lcp none s
  some (⟨p, m_small_lcp, m_big_lcp⟩, s)

/-- The two functions of the class. -/
def lcpTree2 {W : Type} (junk : Nat → Word) (cW : Codec W) : Codec (LcpTree2 W) :=
  ⟨LcpTree2.serialize junk cW, LcpTree2.load junk cW, fun v p => { v with m_cst := p }⟩

/-- `_lcp_support_tree`: `serialize` lcp_support_tree.hpp:134-140, `load` 143-146. -/
structure LcpTree (L : Type) where
  m_cst : Ptr
  m_lcp : L

/-- `serialize`. -/
def LcpTree.serialize {L : Type} (cL : Codec L) (v : LcpTree L) : Option Out :=
  cL.ser v.m_lcp

/-- `load`. -/
def LcpTree.load {L : Type} (cL : Codec L) (u : LcpTree L) (p : Ptr) (s : List Byte) :
    Option (LcpTree L × List Byte) := do
  let (m_lcp, s) ← cL.load u.m_lcp none s
  some (⟨p, m_lcp⟩, s)

/-- The two functions of the class. -/
def lcpTree {L : Type} (cL : Codec L) : Codec (LcpTree L) :=
  ⟨LcpTree.serialize  cL, LcpTree.load  cL, fun v p => { v with m_cst := p }⟩

/-- `bp_support_sada` (the minima are `int_vector<>`): members bp_support_sada.hpp:86-96, `serialize` 909-927, `load` 933-947.
    The assertion that `m_size` is the size of the sequence (line 937) is not modelled. -/
structure BpSada (R S : Type) where
  m_bp : Ptr
  m_bp_rank : R
  m_bp_select : S
  m_sml_block_min_max : IntVec
  m_med_block_min_max : IntVec
  m_size : Nat
  m_sml_blocks : Nat
  m_med_blocks : Nat
  m_med_inner_blocks : Nat

/-- `serialize`. -/
def BpSada.serialize {R S : Type} (junk : Nat → Word) (cR : Codec R) (cS : Codec S) (v : BpSada R S) : Option Out :=
  (num 8).ser v.m_size +>
  (num 8).ser v.m_sml_blocks +>
  (num 8).ser v.m_med_blocks +>
  (num 8).ser v.m_med_inner_blocks +>
  cR.ser v.m_bp_rank +>
  cS.ser v.m_bp_select +>
  (vec junk 0).ser v.m_sml_block_min_max +>
  (vec junk 0).ser v.m_med_block_min_max

/-- `load`. -/
def BpSada.load {R S : Type} (junk : Nat → Word) (cR : Codec R) (cS : Codec S) (u : BpSada R S) (p : Ptr) (s : List Byte) :
    Option (BpSada R S × List Byte) := do
  let (m_size, s) ← (num 8).load u.m_size none s
  let (m_sml_blocks, s) ← (num 8).load u.m_sml_blocks none s
  let (m_med_blocks, s) ← (num 8).load u.m_med_blocks none s
  let (m_med_inner_blocks, s) ← (num 8).load u.m_med_inner_blocks none s
  let (m_bp_rank, s) ← cR.load u.m_bp_rank p s
  let (m_bp_select, s) ← cS.load u.m_bp_select p s
  let (m_sml_block_min_max, s) ← (vec junk 0).load u.m_sml_block_min_max none s
  let (m_med_block_min_max, s) ← (vec junk 0).load u.m_med_block_min_max none s
  some (⟨p, m_bp_rank, m_bp_select, m_sml_block_min_max, m_med_block_min_max, m_size, m_sml_blocks, m_med_blocks,
      m_med_inner_blocks⟩, s)

/-- The two functions of the class. -/
def bpSada {R S : Type} (junk : Nat → Word) (cR : Codec R) (cS : Codec S) : Codec (BpSada R S) :=
  ⟨BpSada.serialize junk cR cS, BpSada.load junk cR cS, fun v p => { v with m_bp := p, m_bp_rank := cR.setVec v.m_bp_rank p, m_bp_select := cS.setVec v.m_bp_select p }⟩

/-- `bp_support_g`: members bp_support_g.hpp:79-93, `serialize` 602-619, `load` 627-642. The assertion that `m_size` is the
    size of the sequence is not modelled. -/
structure BpG (R S D Q : Type) where
  m_bp : Ptr
  m_rank_bp : R
  m_select_bp : S
  m_nnd : D
  m_pioneer_bp : IntVec
  m_rank_pioneer_bp : R
  m_nnd2 : D
  m_match : IntVec
  m_enclose : IntVec
  m_range_max_match : Q
  m_size : Nat
  m_blocks : Nat

/-- `serialize`. -/
def BpG.serialize {R S D Q : Type} (junk : Nat → Word) (cR : Codec R) (cS : Codec S) (cD : Codec D) (cQ : Codec Q) (v : BpG R S
    D Q) : Option Out :=
  cR.ser v.m_rank_bp +>
  cS.ser v.m_select_bp +>
  cD.ser v.m_nnd +>
  (vec junk 1).ser v.m_pioneer_bp +>
  cR.ser v.m_rank_pioneer_bp +>
  cD.ser v.m_nnd2 +>
  (vec junk 0).ser v.m_match +>
  (vec junk 0).ser v.m_enclose +>
  cQ.ser v.m_range_max_match +>
  (num 8).ser v.m_size +>
  (num 8).ser v.m_blocks

/-- `load`. -/
def BpG.load {R S D Q : Type} (junk : Nat → Word) (cR : Codec R) (cS : Codec S) (cD : Codec D) (cQ : Codec Q) (u : BpG R S D Q)
    (p : Ptr) (s : List Byte) :
    Option (BpG R S D Q × List Byte) := do
  let (m_rank_bp, s) ← cR.load u.m_rank_bp p s
  let (m_select_bp, s) ← cS.load u.m_select_bp p s
  let (m_nnd, s) ← cD.load u.m_nnd none s
  let (m_pioneer_bp, s) ← (vec junk 1).load u.m_pioneer_bp none s
  let (m_rank_pioneer_bp, s) ← cR.load u.m_rank_pioneer_bp (some "m_pioneer_bp") s
  let (m_nnd2, s) ← cD.load u.m_nnd2 none s
  let (m_match, s) ← (vec junk 0).load u.m_match none s
  let (m_enclose, s) ← (vec junk 0).load u.m_enclose none s
  let (m_range_max_match, s) ← cQ.load u.m_range_max_match (some "m_match") s
  let (m_size, s) ← (num 8).load u.m_size none s
  let (m_blocks, s) ← (num 8).load u.m_blocks none s
  some (⟨p, m_rank_bp, m_select_bp, m_nnd, m_pioneer_bp, m_rank_pioneer_bp, m_nnd2, m_match, m_enclose, m_range_max_match,
      m_size, m_blocks⟩, s)

/-- The two functions of the class. -/
def bpG {R S D Q : Type} (junk : Nat → Word) (cR : Codec R) (cS : Codec S) (cD : Codec D) (cQ : Codec Q) : Codec (BpG R S D Q) :=
  ⟨BpG.serialize junk cR cS cD cQ, BpG.load junk cR cS cD cQ, fun v p => { v with m_bp := p, m_rank_bp := cR.setVec v.m_rank_bp p, m_select_bp := cS.setVec v.m_select_bp p }⟩

/-- `rmq_succinct_sct`: `serialize` rmq_succinct_sct.hpp:163-170, `load` 172-175. -/
structure RmqSct (P : Type) where
  m_sct_bp : IntVec
  m_sct_bp_support : P

/-- `serialize`. -/
def RmqSct.serialize {P : Type} (junk : Nat → Word) (cP : Codec P) (v : RmqSct P) : Option Out :=
  (vec junk 1).ser v.m_sct_bp +>
  cP.ser v.m_sct_bp_support

/-- `load`. -/
def RmqSct.load {P : Type} (junk : Nat → Word) (cP : Codec P) (u : RmqSct P) (_ : Ptr) (s : List Byte) :
    Option (RmqSct P × List Byte) := do
  let (m_sct_bp, s) ← (vec junk 1).load u.m_sct_bp none s
  let (m_sct_bp_support, s) ← cP.load u.m_sct_bp_support (some "m_sct_bp") s
  some (⟨m_sct_bp, m_sct_bp_support⟩, s)

/-- The two functions of the class. -/
def rmqSct {P : Type} (junk : Nat → Word) (cP : Codec P) : Codec (RmqSct P) :=
  ⟨RmqSct.serialize junk cP, RmqSct.load junk cP, fun v _ => v⟩

/-- `rmq_succinct_sada`: `serialize` rmq_succinct_sada.hpp:231-240, `load` 242-247. -/
structure RmqSada (P R S : Type) where
  m_ect_bp : IntVec
  m_ect_bp_support : P
  m_ect_bp_rank10 : R
  m_ect_bp_select10 : S

/-- `serialize`. -/
def RmqSada.serialize {P R S : Type} (junk : Nat → Word) (cP : Codec P) (cR : Codec R) (cS : Codec S) (v : RmqSada P R S) :
    Option Out :=
  (vec junk 1).ser v.m_ect_bp +>
  cP.ser v.m_ect_bp_support +>
  cR.ser v.m_ect_bp_rank10 +>
  cS.ser v.m_ect_bp_select10

/-- `load`. -/
def RmqSada.load {P R S : Type} (junk : Nat → Word) (cP : Codec P) (cR : Codec R) (cS : Codec S) (u : RmqSada P R S) (_ : Ptr)
    (s : List Byte) :
    Option (RmqSada P R S × List Byte) := do
  let (m_ect_bp, s) ← (vec junk 1).load u.m_ect_bp none s
  let (m_ect_bp_support, s) ← cP.load u.m_ect_bp_support (some "m_ect_bp") s
  let (m_ect_bp_rank10, s) ← cR.load u.m_ect_bp_rank10 (some "m_ect_bp") s
  let (m_ect_bp_select10, s) ← cS.load u.m_ect_bp_select10 (some "m_ect_bp") s
  some (⟨m_ect_bp, m_ect_bp_support, m_ect_bp_rank10, m_ect_bp_select10⟩, s)

/-- The two functions of the class. -/
def rmqSada {P R S : Type} (junk : Nat → Word) (cP : Codec P) (cR : Codec R) (cS : Codec S) : Codec (RmqSada P R S) :=
  ⟨RmqSada.serialize junk cP cR cS, RmqSada.load junk cP cR cS, fun v _ => v⟩

/-- `nearest_neighbour_dictionary`: members nearest_neighbour_dictionary.hpp:55-61, `serialize` 240-252, `load` 256-263. -/
structure Nnd (R : Type) where
  m_abs_samples : IntVec
  m_differences : IntVec
  m_ones : Nat
  m_size : Nat
  m_contains_abs_sample : IntVec
  m_rank_contains_abs_sample : R

/-- `serialize`. -/
def Nnd.serialize {R : Type} (junk : Nat → Word) (cR : Codec R) (v : Nnd R) : Option Out :=
  (vec junk 0).ser v.m_abs_samples +>
  (vec junk 0).ser v.m_differences +>
  (num 8).ser v.m_ones +>
  (num 8).ser v.m_size +>
  (vec junk 1).ser v.m_contains_abs_sample +>
  cR.ser v.m_rank_contains_abs_sample

/-- `load`. -/
def Nnd.load {R : Type} (junk : Nat → Word) (cR : Codec R) (u : Nnd R) (_ : Ptr) (s : List Byte) :
    Option (Nnd R × List Byte) := do
  let (m_abs_samples, s) ← (vec junk 0).load u.m_abs_samples none s
  let (m_differences, s) ← (vec junk 0).load u.m_differences none s
  let (m_ones, s) ← (num 8).load u.m_ones none s
  let (m_size, s) ← (num 8).load u.m_size none s
  let (m_contains_abs_sample, s) ← (vec junk 1).load u.m_contains_abs_sample none s
  let (m_rank_contains_abs_sample, s) ← cR.load u.m_rank_contains_abs_sample (some "m_contains_abs_sample") s
  some (⟨m_abs_samples, m_differences, m_ones, m_size, m_contains_abs_sample, m_rank_contains_abs_sample⟩, s)

/-- The two functions of the class. -/
def nnd {R : Type} (junk : Nat → Word) (cR : Codec R) : Codec (Nnd R) :=
  ⟨Nnd.serialize junk cR, Nnd.load junk cR, fun v _ => v⟩

/-- `nn_dict_dynamic`: members nn_dict_dynamic.hpp:51-55, `load` 273-280, `serialize` 283-294. -/
structure NnDict where
  m_depth : Nat
  m_v_begin_leaves : Nat
  m_size : Nat
  m_offset : IntVec
  m_tree : IntVec

/-- `serialize`. -/
def NnDict.serialize (junk : Nat → Word) (v : NnDict) : Option Out :=
  (num 8).ser v.m_depth +>
  (num 8).ser v.m_v_begin_leaves +>
  (num 8).ser v.m_size +>
  (vec junk 64).ser v.m_offset +>
  (vec junk 64).ser v.m_tree

/-- `load`. -/
def NnDict.load (junk : Nat → Word) (u : NnDict) (_ : Ptr) (s : List Byte) :
    Option (NnDict × List Byte) := do
  let (m_depth, s) ← (num 8).load u.m_depth none s
  let (m_v_begin_leaves, s) ← (num 8).load u.m_v_begin_leaves none s
  let (m_size, s) ← (num 8).load u.m_size none s
  let (m_offset, s) ← (vec junk 64).load u.m_offset none s
  let (m_tree, s) ← (vec junk 64).load u.m_tree none s
  some (⟨m_depth, m_v_begin_leaves, m_size, m_offset, m_tree⟩, s)

/-- The two functions of the class. -/
def nnDict (junk : Nat → Word) : Codec NnDict :=
  ⟨NnDict.serialize junk, NnDict.load junk, fun v _ => v⟩

/-- `k2_tree`: members k2_tree.hpp:60-67, `serialize` 576-590, `load` 597-605. -/
structure K2Tree (B R : Type) where
  k_t : B
  k_l : B
  k_t_rank : R
  k_k : Nat
  k_height : Nat

/-- `serialize`. -/
def K2Tree.serialize {B R : Type} (cB : Codec B) (cR : Codec R) (v : K2Tree B R) : Option Out :=
  cB.ser v.k_t +>
  cB.ser v.k_l +>
  cR.ser v.k_t_rank +>
  (num 1).ser v.k_k +>
  (num 2).ser v.k_height

/-- `load`. -/
def K2Tree.load {B R : Type} (cB : Codec B) (cR : Codec R) (u : K2Tree B R) (_ : Ptr) (s : List Byte) :
    Option (K2Tree B R × List Byte) := do
  let (k_t, s) ← cB.load u.k_t none s
  let (k_l, s) ← cB.load u.k_l none s
  let (k_t_rank, s) ← cR.load u.k_t_rank none s
  let k_t_rank := cR.setVec k_t_rank (some "k_t")
  let (k_k, s) ← (num 1).load u.k_k none s
  let (k_height, s) ← (num 2).load u.k_height none s
  some (⟨k_t, k_l, k_t_rank, k_k, k_height⟩, s)

/-- The two functions of the class. -/
def k2Tree {B R : Type} (cB : Codec B) (cR : Codec R) : Codec (K2Tree B R) :=
  ⟨K2Tree.serialize  cB cR, K2Tree.load  cB cR, fun v _ => v⟩

/-- `k2_treap` (`m_maxval` a `t_max_vec`): members k2_treap.hpp:76-81, `serialize` 366-380, `load` 383-393 (`t` is `m_t`, line
    104). -/
structure K2Treap (B R M : Type) where
  m_t : Nat
  m_bp : B
  m_bp_rank : R
  m_maxval : M
  m_coord : List IntVec
  m_level_idx : IntVec

/-- `serialize`. -/
def K2Treap.serialize {B R M : Type} (junk : Nat → Word) (cB : Codec B) (cR : Codec R) (cM : Codec M) (v : K2Treap B R M) :
    Option Out :=
  (num 1).ser v.m_t +>
  cB.ser v.m_bp +>
  cR.ser v.m_bp_rank +>
  serVector (vec junk 0) v.m_coord +>
  cM.ser v.m_maxval +>
  (vec junk 64).ser v.m_level_idx

/-- `load`. -/
def K2Treap.load {B R M : Type} (junk : Nat → Word) (cB : Codec B) (cR : Codec R) (cM : Codec M) (u : K2Treap B R M) (_ : Ptr)
    (s : List Byte) :
    Option (K2Treap B R M × List Byte) := do
  let (m_t, s) ← (num 1).load u.m_t none s
  let (m_bp, s) ← cB.load u.m_bp none s
  let (m_bp_rank, s) ← cR.load u.m_bp_rank none s
  let m_bp_rank := cR.setVec m_bp_rank (some "m_bp")
  let (m_coord, s) ← loadVector (vec junk 0) (resize fresh u.m_coord (m_t)) s
  let (m_maxval, s) ← cM.load u.m_maxval none s
  let (m_level_idx, s) ← (vec junk 64).load u.m_level_idx none s
  some (⟨m_t, m_bp, m_bp_rank, m_maxval, m_coord, m_level_idx⟩, s)

/-- The two functions of the class. -/
def k2Treap {B R M : Type} (junk : Nat → Word) (cB : Codec B) (cR : Codec R) (cM : Codec M) : Codec (K2Treap B R M) :=
  ⟨K2Treap.serialize junk cB cR cM, K2Treap.load junk cB cR cM, fun v _ => v⟩

/-- `sorted_stack_support`: `serialize` sorted_stack_support.hpp:149-160, `load` 162-168. -/
structure SortedStack where
  m_n : Nat
  m_cnt : Nat
  m_top : Nat
  m_stack : IntVec

/-- `serialize`. -/
def SortedStack.serialize (junk : Nat → Word) (v : SortedStack) : Option Out :=
  (num 8).ser v.m_n +>
  (num 8).ser v.m_top +>
  (num 8).ser v.m_cnt +>
  (vec junk 64).ser v.m_stack

/-- `load`. -/
def SortedStack.load (junk : Nat → Word) (u : SortedStack) (_ : Ptr) (s : List Byte) :
    Option (SortedStack × List Byte) := do
  let (m_n, s) ← (num 8).load u.m_n none s
  let (m_top, s) ← (num 8).load u.m_top none s
  let (m_cnt, s) ← (num 8).load u.m_cnt none s
  let (m_stack, s) ← (vec junk 64).load u.m_stack none s
  some (⟨m_n, m_cnt, m_top, m_stack⟩, s)

/-- The two functions of the class. -/
def sortedStack (junk : Nat → Word) : Codec SortedStack :=
  ⟨SortedStack.serialize junk, SortedStack.load junk, fun v _ => v⟩

/-- `sorted_multi_stack_support`: `serialize` sorted_multi_stack_support.hpp:165-177, `load` 179-186. -/
structure SortedMultiStack where
  m_n : Nat
  m_cnt : Nat
  m_top : Nat
  m_stack : IntVec
  m_duplication_stack : IntVec

/-- `serialize`. -/
def SortedMultiStack.serialize (junk : Nat → Word) (v : SortedMultiStack) : Option Out :=
  (num 8).ser v.m_n +>
  (num 8).ser v.m_top +>
  (num 8).ser v.m_cnt +>
  (vec junk 64).ser v.m_stack +>
  (vec junk 1).ser v.m_duplication_stack

/-- `load`. -/
def SortedMultiStack.load (junk : Nat → Word) (u : SortedMultiStack) (_ : Ptr) (s : List Byte) :
    Option (SortedMultiStack × List Byte) := do
  let (m_n, s) ← (num 8).load u.m_n none s
  let (m_top, s) ← (num 8).load u.m_top none s
  let (m_cnt, s) ← (num 8).load u.m_cnt none s
  let (m_stack, s) ← (vec junk 64).load u.m_stack none s
  let (m_duplication_stack, s) ← (vec junk 1).load u.m_duplication_stack none s
  some (⟨m_n, m_cnt, m_top, m_stack, m_duplication_stack⟩, s)

/-- The two functions of the class. -/
def sortedMultiStack (junk : Nat → Word) : Codec SortedMultiStack :=
  ⟨SortedMultiStack.serialize junk, SortedMultiStack.load junk, fun v _ => v⟩

/-- `cst_sct3`; `lp` is the address `load_lcp` passes on (lcp.hpp:182-211): members cst_sct3.hpp:127-134, `serialize`
    1176-1190, `load` 1193-1203. -/
structure CstSct3 (A L P B R S : Type) where
  m_csa : A
  m_lcp : L
  m_bp : IntVec
  m_bp_support : P
  m_first_child : B
  m_first_child_rank : R
  m_first_child_select : S
  m_nodes : Nat

/-- `serialize`. -/
def CstSct3.serialize {A L P B R S : Type} (junk : Nat → Word) (cA : Codec A) (cL : Codec L) (cP : Codec P) (cB : Codec B) (cR
    : Codec R) (cS : Codec S) (v : CstSct3 A L P B R S) : Option Out :=
  cA.ser v.m_csa +>
  cL.ser v.m_lcp +>
  (vec junk 1).ser v.m_bp +>
  cP.ser v.m_bp_support +>
  cB.ser v.m_first_child +>
  cR.ser v.m_first_child_rank +>
  cS.ser v.m_first_child_select +>
  (num 8).ser v.m_nodes

/-- `load`. -/
def CstSct3.load {A L P B R S : Type} (junk : Nat → Word) (cA : Codec A) (cL : Codec L) (cP : Codec P) (cB : Codec B) (cR :
    Codec R) (cS : Codec S) (lp : Ptr) (u : CstSct3 A L P B R S) (_ : Ptr) (s : List Byte) :
    Option (CstSct3 A L P B R S × List Byte) := do
  let (m_csa, s) ← cA.load u.m_csa none s
  let (m_lcp, s) ← cL.load u.m_lcp lp s
  let (m_bp, s) ← (vec junk 1).load u.m_bp none s
  let (m_bp_support, s) ← cP.load u.m_bp_support (some "m_bp") s
  let (m_first_child, s) ← cB.load u.m_first_child none s
  let (m_first_child_rank, s) ← cR.load u.m_first_child_rank (some "m_first_child") s
  let (m_first_child_select, s) ← cS.load u.m_first_child_select (some "m_first_child") s
  let (m_nodes, s) ← (num 8).load u.m_nodes none s
  some (⟨m_csa, m_lcp, m_bp, m_bp_support, m_first_child, m_first_child_rank, m_first_child_select, m_nodes⟩, s)

/-- The two functions of the class. -/
def cstSct3 {A L P B R S : Type} (junk : Nat → Word) (cA : Codec A) (cL : Codec L) (cP : Codec P) (cB : Codec B) (cR : Codec R)
    (cS : Codec S) (lp : Ptr) : Codec (CstSct3 A L P B R S) :=
  ⟨CstSct3.serialize junk cA cL cP cB cR cS, CstSct3.load junk cA cL cP cB cR cS lp, fun v _ => v⟩

/-- `cst_sada`: members cst_sada.hpp:109-114, `serialize` 390-402, `load` 407-415. -/
structure CstSada (A L P R S : Type) where
  m_csa : A
  m_lcp : L
  m_bp : IntVec
  m_bp_support : P
  m_bp_rank10 : R
  m_bp_select10 : S

/-- `serialize`. -/
def CstSada.serialize {A L P R S : Type} (junk : Nat → Word) (cA : Codec A) (cL : Codec L) (cP : Codec P) (cR : Codec R) (cS :
    Codec S) (v : CstSada A L P R S) : Option Out :=
  cA.ser v.m_csa +>
  cL.ser v.m_lcp +>
  (vec junk 1).ser v.m_bp +>
  cP.ser v.m_bp_support +>
  cR.ser v.m_bp_rank10 +>
  cS.ser v.m_bp_select10

/-- `load`. -/
def CstSada.load {A L P R S : Type} (junk : Nat → Word) (cA : Codec A) (cL : Codec L) (cP : Codec P) (cR : Codec R) (cS : Codec
    S) (lp : Ptr) (u : CstSada A L P R S) (_ : Ptr) (s : List Byte) :
    Option (CstSada A L P R S × List Byte) := do
  let (m_csa, s) ← cA.load u.m_csa none s
  let (m_lcp, s) ← cL.load u.m_lcp lp s
  let (m_bp, s) ← (vec junk 1).load u.m_bp none s
  let (m_bp_support, s) ← cP.load u.m_bp_support (some "m_bp") s
  let (m_bp_rank10, s) ← cR.load u.m_bp_rank10 (some "m_bp") s
  let (m_bp_select10, s) ← cS.load u.m_bp_select10 (some "m_bp") s
  some (⟨m_csa, m_lcp, m_bp, m_bp_support, m_bp_rank10, m_bp_select10⟩, s)

/-- The two functions of the class. -/
def cstSada {A L P R S : Type} (junk : Nat → Word) (cA : Codec A) (cL : Codec L) (cP : Codec P) (cR : Codec R) (cS : Codec S)
    (lp : Ptr) : Codec (CstSada A L P R S) :=
  ⟨CstSada.serialize junk cA cL cP cR cS, CstSada.load junk cA cL cP cR cS lp, fun v _ => v⟩

/-- `cst_fully` (its `m_lcp` only holds a pointer to the tree): members cst_fully.hpp:147-156, `serialize` 279-294, `load`
    299-310. -/
structure CstFully (A P B S0 S1 D : Type) where
  m_delta : Nat
  m_nodes : Nat
  m_csa : A
  m_s : IntVec
  m_s_support : P
  m_b : B
  m_b_select0 : S0
  m_b_select1 : S1
  m_depth : D

/-- `serialize`. -/
def CstFully.serialize {A P B S0 S1 D : Type} (junk : Nat → Word) (cA : Codec A) (cP : Codec P) (cB : Codec B) (cS0 : Codec S0)
    (cS1 : Codec S1) (cD : Codec D) (v : CstFully A P B S0 S1 D) : Option Out :=
  (num 8).ser v.m_delta +>
  (num 8).ser v.m_nodes +>
  cA.ser v.m_csa +>
  (vec junk 1).ser v.m_s +>
  cP.ser v.m_s_support +>
  cB.ser v.m_b +>
  cS0.ser v.m_b_select0 +>
  cS1.ser v.m_b_select1 +>
  cD.ser v.m_depth

/-- `load`. -/
def CstFully.load {A P B S0 S1 D : Type} (junk : Nat → Word) (cA : Codec A) (cP : Codec P) (cB : Codec B) (cS0 : Codec S0) (cS1
    : Codec S1) (cD : Codec D) (u : CstFully A P B S0 S1 D) (_ : Ptr) (s : List Byte) :
    Option (CstFully A P B S0 S1 D × List Byte) := do
  let (m_delta, s) ← (num 8).load u.m_delta none s
  let (m_nodes, s) ← (num 8).load u.m_nodes none s
  let (m_csa, s) ← cA.load u.m_csa none s
  let (m_s, s) ← (vec junk 1).load u.m_s none s
  let (m_s_support, s) ← cP.load u.m_s_support (some "m_s") s
  let (m_b, s) ← cB.load u.m_b none s
  let (m_b_select0, s) ← cS0.load u.m_b_select0 (some "m_b") s
  let (m_b_select1, s) ← cS1.load u.m_b_select1 (some "m_b") s
  let (m_depth, s) ← cD.load u.m_depth none s
  some (⟨m_delta, m_nodes, m_csa, m_s, m_s_support, m_b, m_b_select0, m_b_select1, m_depth⟩, s)

/-- The two functions of the class. -/
def cstFully {A P B S0 S1 D : Type} (junk : Nat → Word) (cA : Codec A) (cP : Codec P) (cB : Codec B) (cS0 : Codec S0) (cS1 :
    Codec S1) (cD : Codec D) : Codec (CstFully A P B S0 S1 D) :=
  ⟨CstFully.serialize junk cA cP cB cS0 cS1 cD, CstFully.load junk cA cP cB cS0 cS1 cD, fun v _ => v⟩

/-- `_node`; `b` is the size of `node_type` (2 bytes for byte trees, 8 for integer trees): wt_helper.hpp:76-127. `child` is an
    array of two. -/
structure Node where
  bv_pos : Nat
  bv_pos_rank : Nat
  parent : Nat
  child0 : Nat
  child1 : Nat

/-- `serialize`. -/
def Node.serialize (b : Nat) (v : Node) : Option Out :=
  (num 8).ser v.bv_pos +>
  (num 8).ser v.bv_pos_rank +>
  (num b).ser v.parent +>
  (num b).ser v.child0 +>
  (num b).ser v.child1

/-- `load`. -/
def Node.load (b : Nat) (u : Node) (_ : Ptr) (s : List Byte) :
    Option (Node × List Byte) := do
  let (bv_pos, s) ← (num 8).load u.bv_pos none s
  let (bv_pos_rank, s) ← (num 8).load u.bv_pos_rank none s
  let (parent, s) ← (num b).load u.parent none s
  let (child0, s) ← (num b).load u.child0 none s
  let (child1, s) ← (num b).load u.child1 none s
  some (⟨bv_pos, bv_pos_rank, parent, child0, child1⟩, s)

/-- The two functions of the class. -/
def node (b : Nat) : Codec Node :=
  ⟨Node.serialize  b, Node.load  b, fun v _ => v⟩

/-- `_byte_tree`: `serialize` wt_helper.hpp:264-279, `load` 282-289. `m_nodes` is written with its size before it, the two arrays have `fixed_sigma` = 256 entries of 2 and of 8 bytes. -/
structure ByteTree where
  m_nodes : List Node
  m_c_to_leaf : List Nat
  m_path : List Nat

/-- `serialize`. -/
def ByteTree.serialize  (v : ByteTree) : Option Out :=
  (stdVector (node 2) ⟨0, 0, 0, 0, 0⟩).ser v.m_nodes +>
  (numArr 2 256).ser v.m_c_to_leaf +>
  (numArr 8 256).ser v.m_path

/-- `load`. -/
def ByteTree.load  (u : ByteTree) (_ : Ptr) (s : List Byte) :
    Option (ByteTree × List Byte) := do
  let (m_nodes, s) ← (stdVector (node 2) ⟨0, 0, 0, 0, 0⟩).load u.m_nodes none s
  let (m_c_to_leaf, s) ← (numArr 2 256).load u.m_c_to_leaf none s
  let (m_path, s) ← (numArr 8 256).load u.m_path none s
  some (⟨m_nodes, m_c_to_leaf, m_path⟩, s)

/-- The two functions of the class. -/
def byteTree  : Codec ByteTree :=
  ⟨ByteTree.serialize , ByteTree.load , fun v _ => v⟩

/-- `_int_tree`: `serialize` wt_helper.hpp:508-523, `load` 526-539; every vector is written with its size before it. -/
structure IntTree where
  m_nodes : List Node
  m_c_to_leaf : List Nat
  m_path : List Nat

/-- `serialize`. -/
def IntTree.serialize  (v : IntTree) : Option Out :=
  (stdVector (node 8) ⟨0, 0, 0, 0, 0⟩).ser v.m_nodes +>
  (stdVector (num 8) 0).ser v.m_c_to_leaf +>
  (stdVector (num 8) 0).ser v.m_path

/-- `load`. -/
def IntTree.load  (u : IntTree) (_ : Ptr) (s : List Byte) :
    Option (IntTree × List Byte) := do
  let (m_nodes, s) ← (stdVector (node 8) ⟨0, 0, 0, 0, 0⟩).load u.m_nodes none s
  let (m_c_to_leaf, s) ← (stdVector (num 8) 0).load u.m_c_to_leaf none s
  let (m_path, s) ← (stdVector (num 8) 0).load u.m_path none s
  some (⟨m_nodes, m_c_to_leaf, m_path⟩, s)

/-- The two functions of the class. -/
def intTree  : Codec IntTree :=
  ⟨IntTree.serialize , IntTree.load , fun v _ => v⟩

end Sdsl.Serial
