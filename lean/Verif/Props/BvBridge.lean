/-
  The contract functions of Bv.lean are met by the concrete structures: plain bit vectors with `rank_support_v` and
  `select_support_mcl`, and `bit_vector_il`. (rank_support_v5, rank_support_scan and select_support_scan meet them in the same
  way by C19-C21, with the restriction stated there.)
-/
import Verif.BvInt
import Verif.Props.RankSelect
import Verif.Props.BitVectorIl

namespace Sdsl.Props

open Sdsl Sdsl.Spec Sdsl.Bits Sdsl.IntVec

/-- The bits of a bit vector as a list. -/
def bitList (v : IntVec) : List Bool := (List.range v.size).map (bitAt v.data)

/-- The pattern for a single bit. -/
def patOf (tb : Bool) : Pat := if tb then .p1 else .p0

theorem bitList_length (v : IntVec) : (bitList v).length = v.size := by simp [bitList]

theorem bitList_bit (v : IntVec) {q : Nat} (h : q < v.size) : Bv.bit (bitList v) q = bitAt v.data q := by
  rw [Bv.bit_of_lt (by rw [bitList_length]; exact h)]
  simp [bitList]

theorem occ_patOf (tb : Bool) (m : Mem) (q : Nat) : occ (patOf tb) m q = (bitAt m q == tb) := by
  cases tb <;> simp [patOf, occ, endsAt, Pat.bits]

theorem cnt_bitList (tb : Bool) (v : IntVec) {i : Nat} (h : i ≤ v.size) :
    Bv.cnt tb (bitList v) i = countTrue (fun q => bitAt v.data q == tb) i :=
  countTrue_congr (fun q hq => by rw [bitList_bit v (by omega)])

theorem select_bitList {tb : Bool} {v : IntVec} {i p : Nat} (h : IsSelect (fun q => bitAt v.data q == tb) v.size i p) :
    Bv.select tb (bitList v) i = some p := by
  obtain ⟨h1, h2, h3⟩ := h
  rw [Bv.select_iff]
  refine ⟨by rw [bitList_length]; exact h1, by dsimp only; rw [bitList_bit v h1]; exact h2, ?_⟩
  rw [← h3]
  exact congrArg (· + 1) (cnt_bitList tb v (Nat.le_of_lt h1))

theorem occ_fun (tb : Bool) (m : Mem) : occ (patOf tb) m = fun q => bitAt m q == tb := funext (occ_patOf tb m)

/-- `rank_support_v` on a plain bit vector meets the rank contract. -/
theorem bv_rank_v (tb : Bool) (junk : Nat → Word) (v : IntVec) (hv : v.WF) (hs : v.size < 2 ^ 64) :
    ∃ bb, Rank.V.build (patOf tb) junk v = some bb ∧ ∀ i, i ≤ v.size →
      (Rank.V.rank (patOf tb) v bb i).map BitVec.toNat = Bv.rank tb (bitList v) i := by
  obtain ⟨bb, e, h⟩ := C18_rank_v (patOf tb) junk v hv hs
  refine ⟨bb, e, fun i hi => ?_⟩
  obtain ⟨r, er, h2⟩ := h i hi
  rw [er, Bv.rank_of_le (by rw [bitList_length]; exact hi), cnt_bitList tb v hi, Option.map_some, h2, occ_fun]

/-- `select_support_mcl` on a plain bit vector meets the select contract. -/
theorem bv_select_mcl (tb : Bool) (junk : Nat → Nat) (v : IntVec) (hv : v.WF) (hs : v.size + 63 < 2 ^ 64) :
    ∃ s, Select.mclBuild (patOf tb) junk v = some s ∧ ∀ i, 1 ≤ i → i ≤ Bv.cnt tb (bitList v) v.size →
      Select.mclSelect (patOf tb) v s i = Bv.select tb (bitList v) i := by
  obtain ⟨s, e, _, h⟩ := C22_select_mcl (patOf tb) junk v hv hs
  refine ⟨s, e, fun i h1 h2 => ?_⟩
  rw [cnt_bitList tb v (Nat.le_refl _), ← occ_fun] at h2
  obtain ⟨p, ep, hp⟩ := h i h1 h2
  rw [occ_fun] at hp
  rw [ep, select_bitList hp]

/-- `bit_vector_il` with its supports meets all contracts. -/
theorem bv_il (sr : Nat) (hsr : 0 < sr) (v : IntVec) (hv : v.WF) (hpad : v.size % 64 ≠ 0 ∨ v.size / 64 < v.data.length)
    (hs : v.size + 64 * sr < 2 ^ 64) :
    ∃ b, Il.build sr v = some b ∧
      (∀ i, i < v.size → (Il.access sr b i).map (fun w => w == 1#64) = Bv.get (bitList v) i) ∧
      (∀ tb i, i ≤ v.size → Il.rank tb sr b i = Bv.rank tb (bitList v) i) ∧
      (∀ tb i, 1 ≤ i → i ≤ Bv.cnt tb (bitList v) v.size → Il.select tb sr b i = Bv.select tb (bitList v) i) := by
  obtain ⟨b, e, _, h1, _, h3, h4⟩ := C23_il_partial sr hsr v hv hpad hs
  refine ⟨b, e, fun i hi => ?_, fun tb i hi => ?_, fun tb i hi1 hi2 => ?_⟩
  · rw [h1 i hi, Bv.get_of_lt (by rw [bitList_length]; exact hi), bitList_bit v hi]
    cases bitAt v.data i <;> rfl
  · rw [h3 tb i hi, Bv.rank_of_le (by rw [bitList_length]; exact hi), cnt_bitList tb v hi]
  · rw [cnt_bitList tb v (Nat.le_refl _)] at hi2
    obtain ⟨p, ep, hp⟩ := h4 tb i hi1 hi2
    rw [ep, select_bitList hp]

/-- `get_int` of a plain bit vector meets its contract. (Word `size/64` exists in every vector made by a constructor.) -/
theorem bv_getInt (v : IntVec) (hp : v.size / 64 < v.data.length) {idx len : Nat} (h : idx + len ≤ v.size) (hl : len ≤ 64) :
    (IntVec.getInt v idx len).map BitVec.toNat = Bv.getInt (bitList v) idx len := by
  unfold IntVec.getInt
  rw [readInt_eq (Nat.mod_lt _ (by omega)) hl (by omega) (by omega), Bv.getInt_of_le (by rw [bitList_length]; exact h) hl,
    Nat.div_add_mod, Option.map_some, BitVec.toNat_ofNat]
  have := field_lt v.data idx len
  have h2 := Nat.pow_le_pow_right (show 2 > 0 by omega) hl
  rw [Nat.mod_eq_of_lt (by omega)]
  exact congrArg some (bitsVal_congr (fun j hj => (bitList_bit v (by omega)).symm))

/-- `set_int` of a plain bit vector meets its contract. -/
theorem bv_setInt (v : IntVec) (hp : v.size / 64 < v.data.length) {idx len : Nat} (x : Word) (h : idx + len ≤ v.size) (hl : len ≤ 64) :
    ∃ v', IntVec.setInt v idx x len = some v' ∧ v'.size = v.size ∧ v'.width = v.width ∧ v'.data.length = v.data.length ∧
      Bv.setInt (bitList v) idx x.toNat len = some (bitList v') := by
  unfold IntVec.setInt
  obtain ⟨m, e, hw⟩ := writeInt_eq (m := v.data) (x := x) (Nat.mod_lt idx (by omega : 64 > 0)) hl (by omega : idx / 64 < v.data.length) (by omega)
  rw [Nat.div_add_mod] at hw
  have hle : idx + len ≤ (bitList v).length := by rw [bitList_length]; exact h
  refine ⟨{ v with data := m }, by rw [e]; rfl, rfl, rfl, hw.length, ?_⟩
  rw [Bv.setInt_of_le hle hl]
  refine congrArg some (List.ext_getElem (by rw [Bv.length_wr hle, bitList_length, bitList_length]) fun q h1 h2 => ?_)
  rw [bitList_length] at h2
  have e1 := Bv.bit_wr (x := x.toNat) hle q
  rw [Bv.bit_of_lt h1, bitList_bit v h2] at e1
  have e2 := bitList_bit { v with data := m } h2
  rw [Bv.bit_of_lt (by rw [bitList_length]; exact h2)] at e2
  rw [e1, e2, hw.bits]
  rfl

example : bitList ⟨5, [0x1A#64], 1⟩ = [false, true, false, true, true] ∧
    Bv.select true (bitList ⟨5, [0x1A#64], 1⟩) 2 = some 3 := by decide +kernel

example : Bv.getInt (bitList ⟨70, [0x1A#64, 0x2#64], 1⟩) 1 66 = none ∧ Bv.getInt (bitList ⟨70, [0x1A#64, 0x2#64], 1⟩) 3 63 = some (3 + 2 ^ 62) := by
  decide +kernel

end Sdsl.Props
