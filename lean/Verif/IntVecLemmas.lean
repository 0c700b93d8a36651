/-
  Lemmas about the model of `int_vector`: element access and element histories.
-/
import Verif.IntVec
import Verif.BitsFib

namespace Sdsl

open Spec Bits

namespace IntVec

/-- The vector's representation is usable: the width is legal and enough words are allocated for its bits. -/
structure WF (v : IntVec) : Prop where
  w1 : 1 ≤ v.width
  w64 : v.width ≤ 64
  fit : (v.size + 63) / 64 ≤ v.data.length

/-- Element `i`: the number stored in bits `[i*width, (i+1)*width)`. -/
def elem (v : IntVec) (i : Nat) : Nat := field v.data (i * v.width) v.width

/-- The sequence of elements. -/
def elems (v : IntVec) : List Nat := (List.range (v.size / v.width)).map v.elem

theorem elems_length (v : IntVec) : v.elems.length = v.size / v.width := by simp [elems]

theorem elems_get? (v : IntVec) (i : Nat) : v.elems[i]? = if i < v.size / v.width then some (v.elem i) else none := by
  unfold elems
  rw [List.getElem?_map]
  by_cases h : i < v.size / v.width
  · rw [List.getElem?_range h, if_pos h]; rfl
  · rw [List.getElem?_eq_none (by simpa using h), if_neg h]; rfl

theorem elem_lt (v : IntVec) (i : Nat) : v.elem i < 2 ^ v.width := field_lt _ _ _

theorem elem_lt64 {v : IntVec} (h : v.WF) (i : Nat) : v.elem i < 2 ^ 64 :=
  Nat.lt_of_lt_of_le (v.elem_lt i) (Nat.pow_le_pow_right (by omega) h.w64)

theorem WF.end_le {v : IntVec} (_ : v.WF) {i : Nat} (hi : i < v.size / v.width) :
    i * v.width + v.width ≤ v.size := by
  have := Nat.div_mul_le_self v.size v.width
  have h2 : (i + 1) * v.width ≤ v.size / v.width * v.width := Nat.mul_le_mul_right _ hi
  rw [Nat.add_mul] at h2; omega

theorem WF.bits_le {v : IntVec} (h : v.WF) : v.size ≤ 64 * v.data.length := by
  have := h.fit; omega

theorem get_eq {v : IntVec} (h : v.WF) {i : Nat} (hi : i < v.size / v.width) :
    v.get i = some (BitVec.ofNat 64 (v.elem i)) := by
  have h1 := h.end_le hi
  have h2 := h.bits_le
  have h3 := h.w64
  have h4 := h.w1
  unfold get elem
  generalize i * v.width = b at *
  rw [readInt_eq (by omega) h3 (by omega) (by omega)]
  congr 3
  omega

theorem set_eq {v : IntVec} (h : v.WF) {i : Nat} (hi : i < v.size / v.width) (x : Word) :
    ∃ d, v.set i x = some { v with data := d } ∧ Written v.data d (i * v.width) v.width x := by
  have h1 := h.end_le hi
  have h2 := h.bits_le
  have h3 := h.w64
  have h4 := h.w1
  unfold set
  generalize i * v.width = b at *
  obtain ⟨d, hd, hw⟩ := writeInt_eq (m := v.data) (p := b / 64) (off := b % 64) (len := v.width) (x := x)
    (by omega) h3 (by omega) (by omega)
  refine ⟨d, by rw [hd]; rfl, ?_⟩
  rwa [show 64 * (b / 64) + b % 64 = b by omega] at hw

theorem disjoint_elems {w i j : Nat} (h : i ≠ j) : i * w + w ≤ j * w ∨ j * w + w ≤ i * w := by
  rcases Nat.lt_or_gt_of_ne h with h | h
  · left; have := Nat.mul_le_mul_right w h; rw [Nat.succ_mul] at this; exact this
  · right; have := Nat.mul_le_mul_right w h; rw [Nat.succ_mul] at this; exact this

theorem elem_written {v : IntVec} {d : Mem} {i : Nat} {x : Word} (hw : Written v.data d (i * v.width) v.width x) (j : Nat) :
    elem { v with data := d } j = if j = i then x.toNat % 2 ^ v.width else v.elem j := by
  by_cases e : j = i
  · subst e; rw [if_pos rfl]; exact hw.field_self
  · rw [if_neg e]
    exact hw.field_other (disjoint_elems e)

/-- The abstract effect of one assignment. -/
theorem elems_written {v : IntVec} {d : Mem} {i : Nat} {x : Word}
    (hw : Written v.data d (i * v.width) v.width x) :
    elems { v with data := d } = v.elems.set i (x.toNat % 2 ^ v.width) := by
  apply List.ext_getElem?
  intro j
  rw [elems_get?, List.getElem?_set, elems_get?, elems_length]
  simp only [elem_written hw]
  by_cases hj : j < v.size / v.width
  · by_cases e : j = i
    · subst e; simp [hj]
    · simp [hj, e, Ne.symm e]
  · by_cases e : i = j
    · subst e; simp [hj]
    · simp [hj, e]

theorem WF.written {v : IntVec} {d : Mem} {p l : Nat} {x : Word} (h : v.WF) (hw : Written v.data d p l x) :
    WF { v with data := d } := ⟨h.w1, h.w64, by have := hw.length; have := h.fit; show (v.size + 63) / 64 ≤ d.length; omega⟩

/-- Indices mentioned by an element operation. -/
def ElemOp.idxs : ElemOp → List Nat
  | .assign i _ => [i]
  | .copy i j => [i, j]
  | .add i _ => [i]
  | .sub i _ => [i]
  | .inc i => [i]
  | .dec i => [i]
  | .swap i j => [i, j]

/-- Element operations on a plain array of numbers, arithmetic modulo `2^w`. -/
def ElemOp.apply (w : Nat) (l : List Nat) : ElemOp → List Nat
  | .assign i x => l.set i (x.toNat % 2 ^ w)
  | .copy i j => l.set i (l.getD j 0)
  | .add i x => l.set i ((l.getD i 0 + x.toNat) % 2 ^ w)
  | .sub i x => l.set i (((l.getD i 0 : Int) - x.toNat) % 2 ^ w).toNat
  | .inc i => l.set i ((l.getD i 0 + 1) % 2 ^ w)
  | .dec i => l.set i (((l.getD i 0 : Int) - 1) % 2 ^ w).toNat
  | .swap i j => (l.set i (l.getD j 0)).set j (l.getD i 0)

theorem elems_getD {v : IntVec} {i : Nat} (hi : i < v.size / v.width) : v.elems.getD i 0 = v.elem i := by
  rw [List.getD_eq_getElem?_getD, elems_get?, if_pos hi]; rfl

theorem toNat_ofNat_elem {v : IntVec} (h : v.WF) (i : Nat) : (BitVec.ofNat 64 (v.elem i)).toNat = v.elem i := by
  rw [BitVec.toNat_ofNat]; exact Nat.mod_eq_of_lt (elem_lt64 h i)

theorem mod_pow64 {w x : Nat} (hw : w ≤ 64) : x % 2 ^ 64 % 2 ^ w = x % 2 ^ w :=
  Nat.mod_mod_of_dvd _ (Nat.pow_dvd_pow 2 hw)

theorem sub_mod_pow {w a b : Nat} (hw : w ≤ 64) (hb : b < 2 ^ 64) :
    (2 ^ 64 - b + a) % 2 ^ 64 % 2 ^ w = (((a : Int) - b) % 2 ^ w).toNat := by
  rw [mod_pow64 hw]
  have hd : ((2 ^ w : Nat) : Int) ∣ ((2 ^ 64 : Nat) : Int) := Int.natCast_dvd_natCast.mpr (Nat.pow_dvd_pow 2 hw)
  obtain ⟨c, hc⟩ := hd
  have h1 : ((a : Int) - b) % (2 ^ w : Nat) = (((2 ^ 64 - b + a : Nat) : Int)) % (2 ^ w : Nat) := by
    have : ((2 ^ 64 - b + a : Nat) : Int) = ((a : Int) - b) + ((2 ^ w : Nat) : Int) * c := by
      rw [← hc]; omega
    rw [this, Int.add_mul_emod_self_left]
  have h2 : ((2 ^ w : Nat) : Int) = 2 ^ w := by norm_cast
  rw [← h2, h1, ← Int.natCast_emod, Int.toNat_natCast]

theorem step_eq {v : IntVec} (h : v.WF) (op : ElemOp) (hi : ∀ i ∈ op.idxs, i < v.size / v.width) :
    ∃ v', v.step op = some v' ∧ v'.WF ∧ v'.size = v.size ∧ v'.width = v.width ∧ v'.data.length = v.data.length ∧
      (∀ q, v.size ≤ q → bitAt v'.data q = bitAt v.data q) ∧ v'.elems = op.apply v.width v.elems := by
  have one : ∀ (i : Nat) (x : Word), i < v.size / v.width → ∃ v', v.set i x = some v' ∧ v'.WF ∧ v'.size = v.size ∧
      v'.width = v.width ∧ v'.data.length = v.data.length ∧ (∀ q, v.size ≤ q → bitAt v'.data q = bitAt v.data q) ∧
      v'.elems = v.elems.set i (x.toNat % 2 ^ v.width) := by
    intro i x hi
    obtain ⟨d, hd, hw⟩ := set_eq h hi x
    refine ⟨_, hd, h.written hw, rfl, rfl, hw.length, ?_, elems_written hw⟩
    intro q hq
    have := h.end_le hi
    rw [hw.bits, if_neg (by omega)]
  cases op with
  | assign i x => exact one i x (hi i (by simp [ElemOp.idxs]))
  | copy i j =>
    have hj := hi j (by simp [ElemOp.idxs])
    obtain ⟨v', h1, h2, h3, h4, h5, h5', h6⟩ := one i (BitVec.ofNat 64 (v.elem j)) (hi i (by simp [ElemOp.idxs]))
    refine ⟨v', ?_, h2, h3, h4, h5, h5', ?_⟩
    · simp only [step, get_eq h hj]; exact h1
    · rw [h6, toNat_ofNat_elem h, Nat.mod_eq_of_lt (v.elem_lt j)]; simp only [ElemOp.apply, elems_getD hj]
  | add i x =>
    have hj := hi i (by simp [ElemOp.idxs])
    obtain ⟨v', h1, h2, h3, h4, h5, h5', h6⟩ := one i (BitVec.ofNat 64 (v.elem i) + x) hj
    refine ⟨v', ?_, h2, h3, h4, h5, h5', ?_⟩
    · simp only [step, get_eq h hj]; exact h1
    · rw [h6, BitVec.toNat_add, toNat_ofNat_elem h, mod_pow64 h.w64]; simp only [ElemOp.apply, elems_getD hj]
  | sub i x =>
    have hj := hi i (by simp [ElemOp.idxs])
    obtain ⟨v', h1, h2, h3, h4, h5, h5', h6⟩ := one i (BitVec.ofNat 64 (v.elem i) - x) hj
    refine ⟨v', ?_, h2, h3, h4, h5, h5', ?_⟩
    · simp only [step, get_eq h hj]; exact h1
    · rw [h6, BitVec.toNat_sub, toNat_ofNat_elem h, sub_mod_pow h.w64 x.isLt]; simp only [ElemOp.apply, elems_getD hj]
  | inc i =>
    have hj := hi i (by simp [ElemOp.idxs])
    obtain ⟨v', h1, h2, h3, h4, h5, h5', h6⟩ := one i (BitVec.ofNat 64 (v.elem i) + 1#64) hj
    refine ⟨v', ?_, h2, h3, h4, h5, h5', ?_⟩
    · simp only [step, get_eq h hj]; exact h1
    · rw [h6, BitVec.toNat_add, toNat_ofNat_elem h, mod_pow64 h.w64]; simp only [ElemOp.apply, elems_getD hj]; rfl
  | dec i =>
    have hj := hi i (by simp [ElemOp.idxs])
    obtain ⟨v', h1, h2, h3, h4, h5, h5', h6⟩ := one i (BitVec.ofNat 64 (v.elem i) - 1#64) hj
    refine ⟨v', ?_, h2, h3, h4, h5, h5', ?_⟩
    · simp only [step, get_eq h hj]; exact h1
    · rw [h6, BitVec.toNat_sub, toNat_ofNat_elem h, sub_mod_pow h.w64 (1#64).isLt]; simp only [ElemOp.apply, elems_getD hj]
      rfl
  | swap i j =>
    have hi' := hi i (by simp [ElemOp.idxs])
    have hj := hi j (by simp [ElemOp.idxs])
    obtain ⟨d, hd, hw⟩ := set_eq h hi' (BitVec.ofNat 64 (v.elem j))
    obtain ⟨d2, hd2, hw2⟩ := set_eq (v := { v with data := d }) (h.written hw) hj (BitVec.ofNat 64 (v.elem i))
    have e := WF.end_le h hi'
    have e2 := WF.end_le h hj
    refine ⟨{ v with data := d2 }, ?_, (h.written hw).written hw2, rfl, rfl, hw2.length.trans hw.length, ?_, ?_⟩
    · simp only [step, get_eq h hi', get_eq h hj, hd, Option.bind_eq_bind, Option.bind_some]
      exact hd2
    · intro q hq
      have h1 := hw2.bits q
      rw [if_neg (by simp only; omega)] at h1
      rw [h1, hw.bits, if_neg (by omega)]
    · have := elems_written hw2
      rw [elems_written hw] at this
      rw [toNat_ofNat_elem h, toNat_ofNat_elem h, Nat.mod_eq_of_lt (v.elem_lt j), Nat.mod_eq_of_lt (v.elem_lt i)] at this
      simp only [ElemOp.apply, elems_getD hi', elems_getD hj]
      exact this

theorem run_eq {v : IntVec} (h : v.WF) (ops : List ElemOp) (hi : ∀ op ∈ ops, ∀ i ∈ op.idxs, i < v.size / v.width) :
    ∃ v', v.run ops = some v' ∧ v'.WF ∧ v'.size = v.size ∧ v'.width = v.width ∧ v'.data.length = v.data.length ∧
      (∀ q, v.size ≤ q → bitAt v'.data q = bitAt v.data q) ∧ v'.elems = ops.foldl (ElemOp.apply v.width) v.elems := by
  induction ops generalizing v with
  | nil => exact ⟨v, rfl, h, rfl, rfl, rfl, fun _ _ => rfl, rfl⟩
  | cons op ops ih =>
    obtain ⟨v1, h1, h2, h3, h4, h5, h5', h6⟩ := step_eq h op (hi op (by simp))
    obtain ⟨v2, g1, g2, g3, g4, g5, g5', g6⟩ := ih h2 (fun o ho i hii => by rw [h3, h4]; exact hi o (by simp [ho]) i hii)
    refine ⟨v2, ?_, g2, g3.trans h3, g4.trans h4, g5.trans h5, ?_, ?_⟩
    · simp only [run]; rw [h1, Option.bind_some]; exact g1
    · intro q hq; rw [g5' q (by omega), h5' q hq]
    · rw [g6, h6, h4]; rfl

/-! ### single bits -/

theorem bit1_ne_zero {w : Word} {k : Nat} : ((w >>> k) &&& 1#64 != 0#64) = w.getLsbD k := by
  have : (w >>> k) &&& 1#64 = if w.getLsbD k then 1#64 else 0#64 := by
    apply BitVec.eq_of_getLsbD_eq
    intro i hi
    rw [BitVec.getLsbD_and, BitVec.getLsbD_ushiftRight]
    by_cases e : i = 0
    · subst e; cases w.getLsbD k <;> simp
    · have : (1#64).getLsbD i = false := by rw [BitVec.getLsbD_one]; simp [e]
      rw [this]
      split <;> simp [this]
  rw [this]; cases w.getLsbD k <;> simp

theorem and_mask_ne_zero {w : Word} {k : Nat} (hk : k < 64) : (w &&& (1#64 <<< k) != 0#64) = w.getLsbD k := by
  have : w &&& (1#64 <<< k) = if w.getLsbD k then 1#64 <<< k else 0#64 := by
    apply BitVec.eq_of_getLsbD_eq
    intro i hi
    rw [BitVec.getLsbD_and, BitVec.getLsbD_shiftLeft]
    by_cases e : i = k
    · subst e; cases h : w.getLsbD i <;> simp [hi]
    · have : (1#64).getLsbD (i - k) = false ∨ i < k := by
        rw [BitVec.getLsbD_one]; simp; omega
      rcases this with this | this
      · rw [this]; split <;> simp [this]
      · split <;> simp [this]
  rw [this]
  cases w.getLsbD k
  · simp
  · simp only [if_true]
    have : (1#64 <<< k) ≠ 0#64 := by
      intro h
      have := congrArg (fun x : Word => x.getLsbD k) h
      simp [hk] at this
    simp [this]

theorem mask_getLsbD {k i : Nat} (hi : i < 64) : (1#64 <<< k).getLsbD i = decide (i = k) := by
  rw [BitVec.getLsbD_shiftLeft, BitVec.getLsbD_one]
  by_cases e : i = k
  · subst e; simp [hi]
  · simp [e, hi]; omega

theorem get1_eq {v : IntVec} {i : Nat} (h : i / 64 < v.data.length) : v.get1 i = some (bitAt v.data i) := by
  unfold get1
  rw [ld_of_lt h]
  simp only [Option.bind_eq_bind, Option.bind_some, shr_of_lt (show i % 64 < 64 by omega)]
  rw [bit1_ne_zero, bitAt_of_lt h]; rfl

theorem getRef1_eq {v : IntVec} {i : Nat} (h : i / 64 < v.data.length) : v.getRef1 i = some (bitAt v.data i) := by
  unfold getRef1
  rw [ld_of_lt h]
  simp only [Option.bind_eq_bind, Option.bind_some, shl_of_lt (show i % 64 < 64 by omega)]
  rw [and_mask_ne_zero (by omega), bitAt_of_lt h]; rfl

theorem set1_eq {v : IntVec} {i : Nat} (x : Bool) (h : i / 64 < v.data.length) :
    ∃ d, v.set1 i x = some { v with data := d } ∧ d.length = v.data.length ∧
      ∀ q, bitAt d q = if q = i then x else bitAt v.data q := by
  unfold set1
  rw [ld_of_lt h]
  simp only [Option.bind_eq_bind, Option.bind_some, shl_of_lt (show i % 64 < 64 by omega), st_of_lt h]
  refine ⟨_, rfl, by simp, ?_⟩
  intro q
  rw [bitAt_set h]
  by_cases e : q / 64 = i / 64
  · rw [if_pos e]
    have hq : bitAt v.data q = v.data[i / 64].getLsbD (q % 64) := by
      rw [bitAt_of_lt (by omega)]; congr 1; simp only [e]
    rw [hq]
    by_cases e2 : q = i
    · subst e2; cases x <;> simp [Nat.mod_lt]
    · have hm : (1#64 <<< (i % 64)).getLsbD (q % 64) = false := by
        rw [mask_getLsbD (by omega)]; simp; omega
      rw [if_neg e2]
      cases x
      · simp only [Bool.false_eq_true, if_false]; rw [BitVec.getLsbD_and, BitVec.getLsbD_not, hm]
        simp [Nat.mod_lt]
      · simp only [if_true]; rw [BitVec.getLsbD_or, hm, Bool.or_false]
  · rw [if_neg e, if_neg (by rintro rfl; exact e rfl)]

end IntVec
end Sdsl
