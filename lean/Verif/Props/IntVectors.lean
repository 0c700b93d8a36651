/-
  Properties of `int_vector` and of the vector utilities (C11-C17, C51-C53).

  `IntVec.elems v` is the sequence of numbers held in the bit fields `[i*width, (i+1)*width)`; `IntVec.WF v` says
  that the width is in 1..64 and the words covering `size` bits are allocated. `C11_ctor` shows that constructed
  vectors satisfy it and every theorem below that returns a vector states it for the result.
-/
import Verif.UtilScan
import Verif.IntVecIO

namespace Sdsl.Props

open Sdsl Sdsl.Spec Sdsl.Bits Sdsl.IntVec

/-! ## C11 array behaviour -/

/-- C11: any history of element assignments, compound assignments, increments and swaps on valid indices acts on the
    element sequence as on a plain array with arithmetic modulo `2^width`; no access leaves the allocation; size, width
    and the bits beyond the vector are unchanged. -/
theorem C11_history (v : IntVec) (hv : v.WF) (ops : List ElemOp) (hi : ∀ op ∈ ops, ∀ i ∈ op.idxs, i < v.size / v.width) :
    ∃ v', v.run ops = some v' ∧ v'.WF ∧ v'.size = v.size ∧ v'.width = v.width ∧
      (∀ q, v.size ≤ q → bitAt v'.data q = bitAt v.data q) ∧ v'.elems = ops.foldl (ElemOp.apply v.width) v.elems := by
  obtain ⟨v', h1, h2, h3, h4, -, h6, h7⟩ := run_eq hv ops hi
  exact ⟨v', h1, h2, h3, h4, h6, h7⟩

/-- C11: reading element `i` gives entry `i` of the element sequence. -/
theorem C11_get (v : IntVec) (hv : v.WF) (i : Nat) (hi : i < v.size / v.width) :
    ∃ x, v.elems[i]? = some x ∧ x < 2 ^ v.width ∧ v.get i = some (BitVec.ofNat 64 x) :=
  ⟨v.elem i, by rw [elems_get?, if_pos hi], v.elem_lt i, get_eq hv hi⟩

/-- C11: a value assigned to element `i` and read back is the value modulo `2^width`; reading any other element gives
    what it gave before. -/
theorem C11_read_write (v : IntVec) (hv : v.WF) (i j : Nat) (x : Word) (hi : i < v.size / v.width) (hj : j < v.size / v.width) :
    ∃ v', v.set i x = some v' ∧ v'.get j = if j = i then some (BitVec.ofNat 64 (x.toNat % 2 ^ v.width)) else v.get j := by
  obtain ⟨d, hd, hw⟩ := set_eq hv hi x
  refine ⟨_, hd, ?_⟩
  rw [get_eq (hv.written hw) hj, elem_written hw]
  split
  · rfl
  · rw [get_eq hv hj]

/-- C11: the specialisations for `bit_vector` (both the const operator and the proxy) agree with the field semantics. -/
theorem C11_bit (v : IntVec) (hv : v.WF) (hw : v.width = 1) (i : Nat) (hi : i < v.size) (x : Bool) :
    v.get1 i = some (bitAt v.data i) ∧ v.getRef1 i = some (bitAt v.data i) ∧
    ∃ v', v.set1 i x = some v' ∧ v'.WF ∧ v'.size = v.size ∧ v'.width = 1 ∧
      ∀ q, bitAt v'.data q = if q = i then x else bitAt v.data q := by
  have hl : i / 64 < v.data.length := by have := hv.fit; omega
  refine ⟨get1_eq hl, getRef1_eq hl, ?_⟩
  obtain ⟨d, h1, h2, h3⟩ := set1_eq x hl
  refine ⟨_, h1, ⟨hv.w1, hv.w64, ?_⟩, rfl, hw, h3⟩
  have := hv.fit
  show (v.size + 63) / 64 ≤ d.length
  omega

/-- C11: the specialisation for width 64 agrees with the generic code. -/
theorem C11_word (v : IntVec) (hv : v.WF) (hw : v.width = 64) (i : Nat) (hi : i < v.size / v.width) (x : Word) :
    v.get64 i = v.get i ∧ v.set64 i x = v.set i x := by
  have hf := hv.fit
  have hi' := hi
  rw [hw] at hi'
  have hl : i < v.data.length := by omega
  constructor
  · rw [get_eq hv hi]
    unfold get64 elem
    rw [ld_of_lt hl, hw, Nat.mul_comm, field_word hl]
    simp
  · obtain ⟨d, hd, hwr⟩ := set_eq hv hi x
    rw [hd]
    unfold set64
    rw [st_of_lt hl, Option.map_some]
    congr 2
    rw [hw, Nat.mul_comm] at hwr
    apply mem_ext
    · rw [List.length_set, hwr.length]
    · intro q
      rw [bitAt_set hl, hwr.bits]
      by_cases h : q / 64 = i
      · rw [if_pos h, if_pos (by omega)]; congr 1; omega
      · rw [if_neg h, if_neg (by omega)]

/-- C11: the constructor `int_vector<tw>(n, k, w)` gives `n` elements equal to `k` modulo `2^width`, whatever fresh memory
    holds. For width 64 the pattern loop evaluates a shift by 64; `ub` is the value that shift yields, and it does not matter. -/
theorem C11_ctor (tw : Nat) (junk : Nat → Word) (ub : Option Word) (n : Nat) (k : Word) (w : Nat)
    (htw : tw ≤ 64) (hw1 : tw = 0 → 1 ≤ w ∧ w ≤ 64) (hub : (if tw = 0 then w else tw) < 64 ∨ k = 0#64 ∨ k = allSet ∨ ∃ x, ub = some x) :
    ∃ v, Util.ctor tw junk ub n k w = some v ∧ v.WF ∧ v.width = (if tw = 0 then w else tw) ∧ v.size = n * v.width ∧
      v.elems = List.replicate n (k.toNat % 2 ^ v.width) := by
  have hcw : (if tw = 0 then clampWidth w else tw) = (if tw = 0 then w else tw) := by
    by_cases h : tw = 0
    · rw [if_pos h, if_pos h]; unfold clampWidth; rw [if_pos (by have := hw1 h; omega)]
    · rw [if_neg h, if_neg h]
  unfold Util.ctor
  rw [hcw]
  generalize hW : (if tw = 0 then w else tw) = W at *
  have hW1 : 1 ≤ W ∧ W ≤ 64 := by
    by_cases h : tw = 0
    · rw [if_pos h] at hW; have := hw1 h; omega
    · rw [if_neg h] at hW; omega
  obtain ⟨d, r1, r2, -, -, -, -⟩ := bitResize_eq junk ⟨0, [], W⟩ (by simp) (n * W)
  unfold resize
  simp only at r1 r2 ⊢
  rw [r1, sbind]
  obtain ⟨d2, s1, s2, s3⟩ := Util.setToValue_eq ub (v := ⟨n * W, d, W⟩) ⟨hW1.1, hW1.2, r2⟩ k hub
  refine ⟨_, s1, ⟨hW1.1, hW1.2, by simp only at s2 ⊢; omega⟩, rfl, rfl, ?_⟩
  have := Util.elems_replicate (v := ⟨n * W, d2, W⟩) ⟨hW1.1, hW1.2, by simp only at s2 ⊢; omega⟩ (x := k.toNat) (fun q hq => s3 q hq)
  simp only at this
  rw [Nat.mul_div_cancel _ (by omega)] at this
  exact this

theorem foldl_assign {xs : List Word} {w : Nat} : ∀ (i : Nat) (l : List Nat), l.length = i + xs.length →
    ((xs.zipIdx i).map fun p => ElemOp.assign p.2 p.1).foldl (ElemOp.apply w) l = l.take i ++ xs.map (fun x => x.toNat % 2 ^ w) := by
  induction xs with
  | nil => intro i l h; simp at h; simp [List.take_of_length_le (Nat.le_of_eq h)]
  | cons x xs ih =>
    intro i l h
    rw [List.length_cons] at h
    simp only [List.zipIdx_cons, List.map_cons, List.foldl_cons, ElemOp.apply]
    rw [ih (i + 1) _ (by rw [List.length_set]; omega), List.take_set]
    have e : i < l.length := by omega
    rw [List.take_add_one, List.getElem?_eq_getElem e]
    have hl : (l.take i).length = i := by rw [List.length_take]; omega
    rw [List.set_append, if_neg (by omega), hl, Nat.sub_self]
    simp

/-- C11: the initializer-list constructor gives exactly the listed values modulo `2^width`. -/
theorem C11_ctor_list (tw : Nat) (junk : Nat → Word) (htw : tw ≤ 64) (xs : List Word) :
    ∃ v, Util.ctorList tw junk xs = some v ∧ v.WF ∧ v.width = (if tw = 0 then 64 else tw) ∧
      v.elems = xs.map (fun x => x.toNat % 2 ^ v.width) := by
  unfold Util.ctorList Util.ctor
  have hcw : (if tw = 0 then clampWidth tw else tw) = (if tw = 0 then 64 else tw) := by
    by_cases h : tw = 0
    · rw [if_pos h, if_pos h, h]; rfl
    · rw [if_neg h, if_neg h]
  rw [hcw]
  generalize hW : (if tw = 0 then 64 else tw) = W at *
  have hW1 : 1 ≤ W ∧ W ≤ 64 := by
    by_cases h : tw = 0
    · rw [if_pos h] at hW; omega
    · rw [if_neg h] at hW; omega
  obtain ⟨d, r1, r2, -, -, -, -⟩ := bitResize_eq junk ⟨0, [], W⟩ (by simp) (0 * W)
  unfold resize
  simp only [Nat.zero_mul] at r1 r2 ⊢
  rw [r1, sbind]
  have e0 : Util.setToValue none ⟨0, d, W⟩ 0#64 = some ⟨0, d, W⟩ := by unfold Util.setToValue; rfl
  rw [e0, sbind]
  obtain ⟨d2, s1, s2, -, -, -, -⟩ := bitResize_eq junk ⟨0, d, W⟩ r2 (xs.length * W)
  simp only at s1 s2 ⊢
  rw [s1, sbind]
  have hdiv : xs.length * W / W = xs.length := Nat.mul_div_cancel _ (by omega)
  obtain ⟨v, g1, g2, g3, g4, -, -, g7⟩ := run_eq (v := ⟨xs.length * W, d2, W⟩) ⟨hW1.1, hW1.2, s2⟩
    (xs.zipIdx.map fun p => .assign p.2 p.1) (by
      intro op hop i hi
      obtain ⟨p, hp, rfl⟩ := List.mem_map.mp hop
      simp only [ElemOp.idxs, List.mem_singleton] at hi
      subst hi
      have := (List.mem_zipIdx' hp).1
      simp only [hdiv]; exact this)
  refine ⟨v, g1, g2, g4, ?_⟩
  rw [g7, foldl_assign 0]
  · simp [g4]
  · rw [elems_length]; simp only [hdiv]; omega

/-- C11: `get_int(idx, len)` and `set_int(idx, x, len)` access the bit field at any bit position inside the vector. -/
theorem C11_get_set_int (v : IntVec) (hv : v.WF) (idx len : Nat) (x : Word) (h1 : 1 ≤ len) (h64 : len ≤ 64) (h : idx + len ≤ v.size) :
    v.getInt idx len = some (BitVec.ofNat 64 (field v.data idx len)) ∧
    ∃ d, v.setInt idx x len = some { v with data := d } ∧ d.length = v.data.length ∧
      (∀ j, j < len → bitAt d (idx + j) = x.getLsbD j) ∧
      (∀ q, q < idx ∨ idx + len ≤ q → bitAt d q = bitAt v.data q) := by
  have hf := hv.bits_le
  constructor
  · have := readInt_eq (m := v.data) (p := idx / 64) (off := idx % 64) (len := len) (by omega) h64 (by omega) (by omega)
    rw [Util.div_mod_64] at this
    exact this
  · obtain ⟨d, hd, hw⟩ := writeInt_eq (m := v.data) (p := idx / 64) (off := idx % 64) (len := len) (x := x) (by omega) h64
      (by omega) (by omega)
    rw [Util.div_mod_64] at hw
    refine ⟨d, by unfold setInt; rw [hd]; rfl, hw.length, ?_, ?_⟩
    · intro j hj; rw [hw.bits, if_pos (by omega)]; congr 1; omega
    · intro q hq; rw [hw.bits, if_neg (by omega)]

-- three 30-bit elements, one crossing a word boundary
example : (Util.ctorList 30 (fun _ => 0xdeadbeef#64) [5#64, 5#64, 5#64] = some ⟨90, [0x5000000140000005#64, 0x0#64], 30⟩) ∧
    IntVec.run ⟨90, [0x5000000140000005#64, 0x0#64], 30⟩ [.assign 2 0xFFFFFFFFFF#64, .inc 2, .sub 0 6#64, .swap 0 1] = some ⟨90, [0xFFFFFFFC0000005#64, 0x0#64], 30⟩ := by
  decide +kernel

/-! ## C12 resize -/

/-- C12: `resize(n)` keeps the first `min(old, n)` elements, and all `n` elements lie inside the allocation. -/
theorem C12_resize (junk : Nat → Word) (v : IntVec) (hv : v.WF) (n : Nat) :
    ∃ v', v.resize junk n = some v' ∧ v'.WF ∧ v'.width = v.width ∧ v'.elems.length = n ∧
      v'.elems.take (min n v.elems.length) = v.elems.take (min n v.elems.length) := by
  obtain ⟨d, r1, r2, -, r4, -, -⟩ := bitResize_eq junk v hv.fit (n * v.width)
  have hdiv : n * v.width / v.width = n := Nat.mul_div_cancel _ (by have := hv.w1; omega)
  refine ⟨_, r1, ⟨hv.w1, hv.w64, r2⟩, rfl, by rw [elems_length]; exact hdiv, ?_⟩
  apply List.ext_getElem?
  intro i
  rw [List.getElem?_take, List.getElem?_take]
  by_cases h : i < min n v.elems.length
  · rw [if_pos h, if_pos h, elems_get?, elems_get?]
    rw [elems_length] at h
    simp only [hdiv]
    rw [if_pos (by omega), if_pos (by omega)]
    congr 1
    refine elem_congr (u := ⟨_, d, v.width⟩) (v := v) rfl ?_
    intro q h1 h2
    have a := hv.end_le (show i < v.size / v.width by omega)
    have b : (i + 1) * v.width ≤ n * v.width := Nat.mul_le_mul_right _ (by omega)
    rw [Nat.add_mul] at b
    exact r4 q (by omega) (by omega)
  · rw [if_neg h, if_neg h]

/-- C12: whenever the number of words changes, all bits behind the vector up to the end of the allocation are zero. -/
theorem C12_clean_padding (junk : Nat → Word) (v : IntVec) (hv : v.WF) (n : Nat) (h : (v.size + 63) / 64 ≠ (n + 63) / 64) :
    ∃ v', v.bitResize junk n = some v' ∧ v'.data.length = (n + 64) / 64 ∧ ∀ q, n ≤ q → bitAt v'.data q = false := by
  obtain ⟨d, r1, -, -, -, r5, -⟩ := bitResize_eq junk v hv.fit n
  exact ⟨_, r1, (r5 (Or.inl h)).1, (r5 (Or.inl h)).2⟩

/-- C12: but shrinking inside the same word keeps stale bits behind the vector, and growing from 60 to 64 bits keeps an
    allocation of one word, although the comment in `memory_manager::resize` asks for one more word when the size is a
    multiple of 64. -/
theorem C12_padding_word_missing (junk : Nat → Word) :
    ∃ v v1 v2 : IntVec, v.WF ∧ v.size = 60 ∧ v.resize junk 64 = some v1 ∧ v1.size = 64 ∧ v1.data.length = 1 ∧
      v.resize junk 5 = some v2 ∧ v2.size = 5 ∧ bitAt v2.data 7 = true :=
  ⟨⟨60, [allSet], 1⟩, ⟨64, [allSet], 1⟩, ⟨5, [allSet], 1⟩, ⟨by decide, by decide, by decide⟩, rfl, rfl, rfl, rfl, rfl, rfl, by decide⟩

example : (resize (fun _ => 7#64) ⟨60, [0x123456789#64], 20⟩ 2).map (·.elems) = some [0x56789, 0x1234] := by decide +kernel

/-! ## C13 comparison -/

/-- C13, the part that holds: for vectors of equal width `operator==` is equality of the element sequences of vectors built from
    whole elements. Missing from the full claim: the documented comparison of widths, see `C13_eq_ignores_width`. -/
theorem C13_eq_partial (v w : IntVec) (hv : v.WF) (hw : w.WF) (hwd : v.width = w.width) (h1 : v.width ∣ v.size) (h2 : w.width ∣ w.size) :
    ∃ b, v.eqv w = some b ∧ (b = true ↔ v.elems = w.elems) := by
  obtain ⟨b, hb1, hb2⟩ := eqv_eq hv.fit hw.fit
  refine ⟨b, hb1, hb2.trans ?_⟩
  have hw1 := hv.w1
  constructor
  · rintro ⟨hs, hq⟩
    apply List.ext_getElem?
    intro i
    rw [elems_get?, elems_get?, ← hwd, ← hs]
    split
    · rename_i hi
      congr 1
      symm
      apply elem_congr hwd.symm
      intro q a b
      have := hv.end_le hi
      exact (hq q (by omega)).symm
    · rfl
  · intro he
    have hlen := congrArg List.length he
    rw [elems_length, elems_length, ← hwd] at hlen
    obtain ⟨a, ha⟩ := h1
    obtain ⟨b, hb⟩ := h2
    rw [← hwd] at hb
    rw [ha, hb, Nat.mul_div_cancel_left _ (by omega), Nat.mul_div_cancel_left _ (by omega)] at hlen
    subst hlen
    have hs : v.size = w.size := by rw [ha, hb]
    refine ⟨hs, ?_⟩
    intro q hq
    have hi : q / v.width < v.size / v.width := by
      rw [ha, Nat.mul_div_cancel_left _ (by omega)]
      rw [ha] at hq
      exact Nat.div_lt_of_lt_mul hq
    have hj : q % v.width < v.width := Nat.mod_lt _ (by omega)
    have e := congrArg (fun l => l[q / v.width]?) he
    simp only [elems_get?] at e
    rw [if_pos hi, ← hwd, ← hs, if_pos hi, Option.some_inj] at e
    have e2 := congrArg (fun x => x.testBit (q % v.width)) e
    simp only [elem, ← hwd] at e2
    rw [testBit_field, testBit_field] at e2
    simp only [hj, decide_true, Bool.true_and] at e2
    rwa [Nat.mul_comm, Nat.div_add_mod] at e2

/-- C13: `operator==` compares exactly the bit sizes and the bits inside the vectors; padding bits do not matter. -/
theorem C13_eq_bits (v w : IntVec) (hv : v.WF) (hw : w.WF) :
    ∃ b, v.eqv w = some b ∧ (b = true ↔ v.size = w.size ∧ ∀ q, q < v.size → bitAt v.data q = bitAt w.data q) :=
  eqv_eq hv.fit hw.fit

/-- C13, negation of the documented claim: `operator==` returns true for two vectors of different width holding different
    sequences, and `operator<` holds for the same pair. -/
theorem C13_eq_ignores_width : ∃ v w : IntVec, v.WF ∧ w.WF ∧ v.width ≠ w.width ∧ v.elems = [1, 1] ∧ w.elems = [17] ∧
    v.eqv w = some true ∧ v.less w = some true :=
  ⟨⟨8, [0x11#64], 4⟩, ⟨8, [0x11#64], 8⟩, ⟨by decide, by decide, by decide⟩, ⟨by decide, by decide, by decide⟩, by decide,
    by decide +kernel, by decide +kernel, by decide +kernel, by decide +kernel⟩

/-- C13: `operator<` and `operator>` are the lexicographic order of the element sequences (the list order of Lean),
    also for vectors of different widths and lengths. -/
theorem C13_less (v w : IntVec) (hv : v.WF) (hw : w.WF) :
    v.less w = some (decide (v.elems < w.elems)) ∧ v.greater w = some (decide (w.elems < v.elems)) :=
  ⟨less_eq hv hw, greater_eq hv hw⟩

/-- C13: `operator<=` is `==` or `<`; for vectors of the same width and whole elements it is the reflexive closure. -/
theorem C13_lessEq (v w : IntVec) (hv : v.WF) (hw : w.WF) (hwd : v.width = w.width) (h1 : v.width ∣ v.size) (h2 : w.width ∣ w.size) :
    ∃ b, v.lessEq w = some b ∧ (b = true ↔ v.elems = w.elems ∨ v.elems < w.elems) := by
  obtain ⟨b, hb1, hb2⟩ := C13_eq_partial v w hv hw hwd h1 h2
  unfold lessEq
  rw [hb1, sbind]
  cases b
  · rw [if_neg (by simp), less_eq hv hw]
    have : v.elems ≠ w.elems := fun h => by simpa using hb2.mpr h
    exact ⟨_, rfl, by simp [this]⟩
  · rw [if_pos rfl]
    exact ⟨true, rfl, by simp [hb2.mp rfl]⟩

example : IntVec.eqv ⟨70, [5#64, 0xFF#64], 7⟩ ⟨70, [5#64, 0x3F#64], 7⟩ = some true ∧
    IntVec.less ⟨70, [5#64, 0xFF#64], 7⟩ ⟨14, [6#64], 7⟩ = some true := by decide +kernel

/-! ## C14 serialisation -/

/-- C14: loading what `serialize` wrote restores width, size and all elements, whatever the previous contents of the target;
    data behind it in the stream stays unread, and the returned byte count is the number of bytes written.
    `tw` is the template width, 0 for run-time width. -/
theorem C14_round_trip (tw : Nat) (junk : Nat → Word) (v u : IntVec) (hv : v.WF) (hu : u.WF) (hs : v.size < 2 ^ 64)
    (htw : tw ≠ 0 → v.width = tw ∧ u.width = tw) (rest : List Byte) :
    ∃ out n, v.serialize tw false = some (out, n) ∧ n = out.length ∧
      ∃ v', load tw junk u (out ++ rest) = some (v', rest) ∧ v'.WF ∧ v'.width = v.width ∧ v'.size = v.size ∧ v'.elems = v.elems := by
  have hvw := hv.w64
  have hser := serialize_eq (tw := tw) hv.fit false
  have hcap : (v.data.take v.capWords).length = v.capWords := by
    rw [List.length_take]; have := hv.fit; unfold capWords; omega
  refine ⟨_, _, hser, ?_, ?_⟩
  · simp only [Bool.false_eq_true, if_false, or_false]
    by_cases h : tw = 0
    · simp only [h, if_true]
      rw [List.length_append, List.length_append, wordBytes_length, bytesOf_length, hcap, List.length_singleton]; omega
    · simp only [h, if_false]
      rw [List.length_append, wordBytes_length, bytesOf_length, hcap]; omega
  · simp only [Bool.false_eq_true, if_false]
    obtain ⟨d, l1, l2, l3⟩ := load_eq (tw := tw) junk hu.fit hs (show v.width < 256 by omega) (v.data.take v.capWords)
      (by rw [hcap]; rfl) rest (fun h => by rw [(htw h).2, (htw h).1])
    refine ⟨_, l1, ⟨hv.w1, hvw, l2⟩, rfl, rfl, ?_⟩
    have hb := load_bits l3
    apply List.ext_getElem?
    intro i
    rw [elems_get?, elems_get?]
    simp only
    split
    · rename_i hi
      congr 1
      refine elem_congr (u := ⟨_, d, v.width⟩) (v := v) rfl ?_
      intro q _ h2
      have := hv.end_le hi
      exact hb q (by omega)
    · rfl

/-- C14: a vector of fixed width written with `write_fixed_as_variable` can be loaded as a vector of run-time width. -/
theorem C14_fixed_as_variable (tw : Nat) (junk : Nat → Word) (v u : IntVec) (hv : v.WF) (hu : u.WF) (hs : v.size < 2 ^ 64)
    (htw : tw ≠ 0) (hvw : v.width = tw) (rest : List Byte) :
    ∃ out n, v.serialize tw true = some (out, n) ∧ n = out.length ∧
      ∃ v', load 0 junk u (out ++ rest) = some (v', rest) ∧ v'.WF ∧ v'.width = v.width ∧ v'.size = v.size ∧ v'.elems = v.elems := by
  have hw64 := hv.w64
  have hser := serialize_eq (tw := tw) hv.fit true
  have hcap : (v.data.take v.capWords).length = v.capWords := by
    rw [List.length_take]; have := hv.fit; unfold capWords; omega
  refine ⟨_, _, hser, ?_, ?_⟩
  · simp only [htw, if_true, if_false]
    rw [List.length_append, List.length_append, wordBytes_length, bytesOf_length, hcap, List.length_singleton]
    simp only [or_true, if_true]; omega
  · simp only [htw, if_true, if_false]
    rw [← hvw]
    obtain ⟨d, l1, l2, l3⟩ := load_eq (tw := 0) junk hu.fit hs (show v.width < 256 by omega) (v.data.take v.capWords)
      (by rw [hcap]; rfl) rest (fun h => by omega)
    simp only [if_true] at l1
    refine ⟨_, l1, ⟨hv.w1, hw64, l2⟩, rfl, rfl, ?_⟩
    have hb := load_bits l3
    apply List.ext_getElem?
    intro i
    rw [elems_get?, elems_get?]
    simp only
    split
    · rename_i hi
      congr 1
      refine elem_congr (u := ⟨_, d, v.width⟩) (v := v) rfl ?_
      intro q _ h2
      have := hv.end_le hi
      exact hb q (by omega)
    · rfl

example : (⟨21, [0x1FFFFF#64], 7⟩ : IntVec).WF ∧
    serialize 0 ⟨21, [0x15ABCD#64], 7⟩ false =
      some ([21#8, 0#8, 0#8, 0#8, 0#8, 0#8, 0#8, 0#8, 7#8, 0xCD#8, 0xAB#8, 0x15#8, 0#8, 0#8, 0#8, 0#8, 0#8], 17) := by
  refine ⟨⟨by decide, by decide, by decide⟩, ?_⟩
  rw [serialize_eq (by decide)]
  decide +kernel

/-! ## C15 width changes -/

/-- C15: `bit_compress` on a vector of run-time width keeps all elements, and the new width is the smallest positive width
    that holds all of them. -/
theorem C15_bit_compress (junk : Nat → Word) (v : IntVec) (hv : v.WF) :
    ∃ u, Util.bitCompress 0 junk v = some u ∧ u.WF ∧ u.elems = v.elems ∧
      ∀ w', 1 ≤ w' → (∀ x ∈ v.elems, x < 2 ^ w') → u.width ≤ w' := by
  obtain ⟨u, M, h1, h2, h3, h4, h5, h6⟩ := Util.bitCompress_eq junk hv
  refine ⟨u, h1, h2, h3, ?_⟩
  intro w' hw' hx
  rw [h6]
  rcases h5 with h5 | ⟨i, hi, h5⟩
  · subst h5
    have : Nat.log2 0 = 0 := rfl
    omega
  · have := hx (v.elem i) (by
      unfold elems; exact List.mem_map.mpr ⟨i, List.mem_range.mpr hi, rfl⟩)
    rw [h5] at this
    by_cases hz : M = 0
    · subst hz
      have : Nat.log2 0 = 0 := rfl
      omega
    · have := (Nat.log2_lt hz).mpr this
      omega

/-- C15: `expand_width` keeps all elements and sets the width to the larger of old and new width. -/
theorem C15_expand_width (junk : Nat → Word) (v : IntVec) (hv : v.WF) (newW : Nat) (h64 : newW ≤ 64) :
    ∃ u, Util.expandWidth junk v newW = some u ∧ u.WF ∧ u.width = max v.width newW ∧ u.elems = v.elems :=
  Util.expandWidth_eq junk hv h64

/-- C15, a defect: on a vector of fixed width `bit_compress` compiles and silently destroys the contents, because
    setting the width has no effect there while the data is packed and the vector is shrunk. -/
theorem C15_bit_compress_fixed_width (junk : Nat → Word) :
    ∃ v u : IntVec, v.WF ∧ v.width = 8 ∧ v.elems = [1, 2, 3, 1] ∧ Util.bitCompress 8 junk v = some u ∧ u.width = 8 ∧ u.elems = [0x79] := by
  refine ⟨⟨32, [0x01030201#64], 8⟩, ⟨8, [0x01030279#64], 8⟩, ⟨by decide, by decide, by decide⟩, rfl, by decide +kernel, ?_, rfl, by decide +kernel⟩
  have hm : Util.maxElem ⟨32, [0x01030201#64], 8⟩ 4 = some 3#64 := by decide +kernel
  have hc : Util.compressLoop 8 2 4 [0x01030201#64] 0 0 0 0 = some [0x01030279#64] := by decide +kernel
  have hh : hi 3#64 = some 1 := by decide +kernel
  simp [Util.bitCompress, numElems, hm, hh, hc, bitResize]

example : Util.bitCompress 0 (fun _ => 0#64) ⟨160, [0xFF00000001#64, 7#64, 0#64], 40⟩ = some ⟨160, [0xFF00000001#64, 7#64, 0#64], 40⟩ ∧
    (Util.bitCompress 0 (fun _ => 0#64) ⟨160, [0x0000000001#64, 7#64, 0#64], 40⟩).map (fun u => (u.width, u.elems)) = some (27, [1, 0x7000000, 0, 0]) := by
  decide +kernel
example : (Util.expandWidth (fun _ => 0xABC#64) ⟨160, [0xFF00000001#64, 7#64, 0#64], 40⟩ 50).map (fun u => (u.width, u.elems)) =
    some (50, [0xFF00000001, 0x7000000, 0, 0]) := by decide +kernel

/-! ## C16 bulk fills -/

/-- C16: `util::set_to_value(v, k)` makes every element `k` modulo `2^width`. The shift by 64 evaluated for width 64 yields some
    value `ub` that does not influence the result. -/
theorem C16_set_to_value (ub : Option Word) (v : IntVec) (hv : v.WF) (k : Word)
    (hub : v.width < 64 ∨ k = 0#64 ∨ k = allSet ∨ ∃ x, ub = some x) :
    ∃ u, Util.setToValue ub v k = some u ∧ u.WF ∧ u.size = v.size ∧ u.width = v.width ∧
      u.elems = List.replicate v.elems.length (k.toNat % 2 ^ v.width) := by
  obtain ⟨d, h1, h2, h3⟩ := Util.setToValue_eq ub hv k hub
  have hwf : WF { v with data := d } := ⟨hv.w1, hv.w64, by have := hv.fit; simp only; omega⟩
  refine ⟨_, h1, hwf, rfl, rfl, ?_⟩
  rw [elems_length]
  exact Util.elems_replicate (v := { v with data := d }) hwf (x := k.toNat) (fun q hq => h3 q hq)

/-- C16, a defect: for width 64 and a value other than 0 and `2^64-1` the code evaluates `k >> 64`, which is undefined
    behaviour (its result is never read). -/
theorem C16_set_to_value_shift64 (v : IntVec) (h0 : v.size ≠ 0) (hw : v.width = 64) (k : Word) (hk0 : k ≠ 0#64) (hk1 : k ≠ allSet) :
    Util.setToValue none v k = none := Util.setToValue_ub h0 hw hk0 hk1

/-- C16: `util::set_to_id` makes element `i` equal to `i` modulo `2^width`. -/
theorem C16_set_to_id (v : IntVec) (hv : v.WF) :
    ∃ u, Util.setToId v = some u ∧ u.WF ∧ u.size = v.size ∧ u.width = v.width ∧
      u.elems = (List.range v.elems.length).map (· % 2 ^ v.width) := by
  obtain ⟨d, h1, h2, h3⟩ := Util.setToId_eq hv
  refine ⟨_, h1, ⟨hv.w1, hv.w64, by have := hv.fit; simp only; omega⟩, rfl, rfl, ?_⟩
  rw [elems_length]
  unfold elems
  apply List.map_congr_left
  intro i hi
  exact h3 i (List.mem_range.mp hi)

/-- C16: `flip` negates every bit of the vector. -/
theorem C16_flip (v : IntVec) (hv : v.WF) :
    ∃ u, v.flip = some u ∧ u.WF ∧ u.size = v.size ∧ u.width = v.width ∧ ∀ q, q < v.size → bitAt u.data q = !bitAt v.data q := by
  obtain ⟨d, h1, h2, h3⟩ := Util.flip_eq hv.fit
  exact ⟨_, h1, ⟨hv.w1, hv.w64, by have := hv.fit; simp only; omega⟩, rfl, rfl, h3⟩

/-- C16: `util::mod(v, m)` reduces every element modulo a non-zero `m`. -/
theorem C16_mod (v : IntVec) (hv : v.WF) (m : Word) (hm : m ≠ 0#64) :
    ∃ u, Util.mod v m = some u ∧ u.WF ∧ u.width = v.width ∧ u.elems = v.elems.map (· % m.toNat) := by
  obtain ⟨u, h1, h2, h3, h4, h5⟩ := Util.modLoop_eq hm v.numElems 0 v hv (by simp [numElems])
  refine ⟨u, h1, h2, h4, ?_⟩
  unfold elems
  rw [h3, h4, List.map_map]
  apply List.map_congr_left
  intro i hi
  have := List.mem_range.mp hi
  rw [h5, if_pos (by unfold numElems; omega)]; rfl

example : (Util.setToValue none ⟨100, [0#64, 0#64], 10⟩ 0xFABC#64).map (·.elems) = some (List.replicate 10 0x2BC) ∧
    (Util.setToId ⟨20, [0xFFFFFFFF#64], 2⟩).map (·.elems) = some [0, 1, 2, 3, 0, 1, 2, 3, 0, 1] ∧
    (Util.mod ⟨20, [0xFFFFFFFF#64], 5⟩ 7#64).map (·.elems) = some [3, 3, 3, 3] := by decide +kernel

/-! ## C17 next_bit and prev_bit -/

/-- C17: `util::next_bit` returns the smallest set position at or behind `i` inside the vector if there is one. -/
theorem C17_next_bit_found (v : IntVec) (hv : v.WF) (i r : Nat) (hr : r < v.size) (h : IsNext v.data i r) :
    Util.nextBit v i = some r := by
  have hi := h.1
  obtain ⟨s, h1, h2⟩ := Util.nextBit_eq hv.fit (show i < v.size by omega)
  rw [h1]
  congr 1
  rcases h2 with ⟨⟨a, b, c⟩, -⟩ | ⟨-, b⟩
  · rcases Nat.lt_trichotomy s r with hlt | heq | hgt
    · rw [h.2.2 s a hlt] at b; contradiction
    · exact heq
    · have := c r hi hgt; rw [h.2.1] at this; contradiction
  · have := b r hi (by omega); rw [h.2.1] at this; contradiction

/-- C17, the part that holds when there is no set position: if the bits behind the vector in its last word are zero, the bit
    size is returned. Missing from the full claim: independence of those bits, see `C17_next_bit_stale`. -/
theorem C17_next_bit_none_partial (v : IntVec) (hv : v.WF) (i : Nat) (hi : i < v.size)
    (h : ∀ j, i ≤ j → j < v.size → bitAt v.data j = false) (hpad : ∀ j, v.size ≤ j → bitAt v.data j = false) :
    Util.nextBit v i = some v.size := by
  obtain ⟨s, h1, h2⟩ := Util.nextBit_eq hv.fit hi
  rw [h1]
  congr 1
  rcases h2 with ⟨⟨a, b, -⟩, -⟩ | ⟨a, -⟩
  · by_cases hs : s < v.size
    · rw [h s a hs] at b; contradiction
    · rw [hpad s (by omega)] at b; contradiction
  · exact a

/-- C17, negation of the full claim: after `resize` inside one word `next_bit` returns a position behind the vector that is not the bit size. -/
theorem C17_next_bit_stale (junk : Nat → Word) :
    ∃ v u : IntVec, v.WF ∧ v.resize junk 5 = some u ∧ u.size = 5 ∧ (∀ j, j < u.size → bitAt u.data j = false) ∧ Util.nextBit u 0 = some 10 :=
  ⟨⟨64, [0x400#64], 1⟩, ⟨5, [0x400#64], 1⟩, ⟨by decide, by decide, by decide⟩, rfl, rfl, by decide +kernel, by decide +kernel⟩

/-- C17: `util::prev_bit` returns the greatest set position at or before `i` if there is one, otherwise the bit size. -/
theorem C17_prev_bit (v : IntVec) (hv : v.WF) (i : Nat) (hi : i < v.size) :
    (∀ r, IsPrev v.data i r → Util.prevBit v i = some r) ∧
    ((∀ j, j ≤ i → bitAt v.data j = false) → Util.prevBit v i = some v.size) := by
  obtain ⟨s, h1, h2⟩ := Util.prevBit_eq hv.fit hi
  rw [h1]
  constructor
  · intro r h
    congr 1
    rcases h2 with ⟨a, b, c⟩ | ⟨-, b⟩
    · rcases Nat.lt_trichotomy s r with hlt | heq | hgt
      · have := c r hlt h.1; rw [h.2.1] at this; contradiction
      · exact heq
      · rw [h.2.2 s hgt a] at b; contradiction
    · have := b r h.1; rw [h.2.1] at this; contradiction
  · intro h
    congr 1
    rcases h2 with ⟨a, b, -⟩ | ⟨a, -⟩
    · rw [h s a] at b; contradiction
    · exact a

example : Util.nextBit ⟨200, [0x8#64, 0#64, 0x20#64, 0#64], 1⟩ 4 = some 133 ∧ Util.prevBit ⟨200, [0x8#64, 0#64, 0x20#64, 0#64], 1⟩ 132 = some 3 ∧
    Util.prevBit ⟨200, [0x8#64, 0#64, 0x20#64, 0#64], 1⟩ 2 = some 200 ∧ Util.nextBit ⟨200, [0x8#64, 0#64, 0x20#64, 0#64], 1⟩ 134 = some 200 := by
  decide +kernel

/-! ## C51 iterators -/

/-- An iterator standing at element `i`. -/
def AtElem (v : IntVec) (it : It) (i : Int) : Prop :=
  it.off < 64 ∧ it.len = v.width ∧ 64 * it.word + it.off = i * v.width

/-- C51: `begin()` stands at element 0 and `end()` at element `size()`. -/
theorem C51_begin_end (v : IntVec) : AtElem v v.itBegin 0 ∧ AtElem v v.itEnd (v.numElems : Int) := by
  obtain ⟨b1, b2, b3⟩ := v.itAt_spec 0
  obtain ⟨e1, e2, e3⟩ := v.itAt_spec (v.numElems * v.width)
  refine ⟨⟨b1, b2, ?_⟩, ⟨e1, e2, ?_⟩⟩
  · have := b3; unfold It.pos at this; simp only [itBegin]; rw [this]; simp
  · have := e3; unfold It.pos at this; simp only [itEnd]; rw [this]; push_cast; rfl

/-- C51: `++`, `--`, `+=`, `-=` (with positive and negative arguments) move an iterator by exactly that many elements. -/
theorem C51_moves (v : IntVec) (hv : v.WF) (it : It) (i : Int) (h : AtElem v it i) (k : Int) :
    AtElem v it.next (i + 1) ∧ AtElem v it.prev (i - 1) ∧ AtElem v (it.add k) (i + k) ∧ AtElem v (it.sub k) (i - k) := by
  obtain ⟨h1, h2, h3⟩ := h
  have w64 := hv.w64
  obtain ⟨a1, a2, a3⟩ := It.next_spec (it := it) h1 (by omega)
  obtain ⟨b1, b2, b3⟩ := It.prev_spec (it := it) h1 (by omega)
  obtain ⟨c1, c2, c3⟩ := It.add_spec (it := it) h1 k
  obtain ⟨d1, d2, d3⟩ := It.sub_spec (it := it) h1 k
  unfold It.pos at a3 b3 c3 d3
  rw [h2] at a3 b3 c3 d3
  refine ⟨⟨a1, by rw [a2, h2], ?_⟩, ⟨b1, by rw [b2, h2], ?_⟩, ⟨c1, by rw [c2, h2], ?_⟩, ⟨d1, by rw [d2, h2], ?_⟩⟩
  · rw [a3, h3, Int.add_mul]; omega
  · rw [b3, h3, Int.sub_mul]; omega
  · rw [c3, h3, Int.add_mul]
  · rw [d3, h3, Int.sub_mul]

/-- C51: `==` and `<` compare element positions and `a - b` is the distance in elements. -/
theorem C51_compare (v : IntVec) (hv : v.WF) (a b : It) (i j : Int) (ha : AtElem v a i) (hb : AtElem v b j) :
    a.eq b = decide (i = j) ∧ a.lt b = decide (i < j) ∧ a.diff b = i - j := by
  obtain ⟨a1, a2, a3⟩ := ha
  obtain ⟨b1, b2, b3⟩ := hb
  have w1 := hv.w1
  rw [It.eq_spec a1 b1, It.lt_spec a1 b1, It.diff_spec]
  unfold It.pos
  rw [a3, b3, a2]
  have hpos : (0 : Int) < v.width := by omega
  refine ⟨?_, ?_, ?_⟩
  · rw [decide_eq_decide]
    constructor
    · intro h; exact Int.eq_of_mul_eq_mul_right (by omega) h
    · intro h; rw [h]
  · rw [decide_eq_decide]
    constructor
    · intro h; exact Int.lt_of_mul_lt_mul_right h (by omega)
    · intro h; exact Int.mul_lt_mul_of_pos_right h hpos
  · rw [← Int.sub_mul]; exact Int.mul_tdiv_cancel _ (by omega)

/-- C51: dereferencing reads, and assigning through the iterator writes, the element it stands at. -/
theorem C51_deref (v : IntVec) (hv : v.WF) (it : It) (i : Nat) (h : AtElem v it i) (hi : i < v.size / v.width) (x : Word) :
    it.deref v.data = v.get i ∧ (it.store v.data x).map (fun d => { v with data := d }) = v.set i x := by
  obtain ⟨h1, h2, h3⟩ := h
  have b1 := hv.end_le hi
  have b2 := hv.bits_le
  have hp : it.pos = (i * v.width : Nat) := by unfold It.pos; rw [h3]; push_cast; rfl
  constructor
  · rw [get_eq hv hi, It.deref_spec h1 (by rw [h2]; exact hv.w64) (by rw [h2]; exact hv.w1) hp (by rw [h2]; omega), h2]; rfl
  · obtain ⟨d, hd, hw⟩ := It.store_spec (m := v.data) (x := x) h1 (by rw [h2]; exact hv.w64) (by rw [h2]; exact hv.w1) hp (by rw [h2]; omega)
    obtain ⟨d', hd', hw'⟩ := set_eq hv hi x
    rw [hd, hd', Option.map_some]
    rw [h2] at hw
    rw [hw.unique hw']

example : AtElem ⟨140, [0#64, 0#64, 0#64], 20⟩ (It.add ⟨0, 0, 20⟩ 5) 5 ∧ (It.add ⟨0, 0, 20⟩ 5).word = 1 ∧ (It.add ⟨0, 0, 20⟩ 5).off = 36 ∧
    It.add ⟨1, 36, 20⟩ (-2) = ⟨0, 60, 20⟩ := by
  refine ⟨⟨by decide, by decide, by decide⟩, by decide, by decide, by decide⟩

/-! ## C52 bit statistics -/

/-- C52: `util::cnt_one_bits` counts the ones of the vector, whatever the bits behind it are. -/
theorem C52_cnt_one_bits (v : IntVec) (hv : v.WF) : Util.cntOneBits v = some (countTrue (fun q => bitAt v.data q) v.size) :=
  Util.cntOneBits_eq hv.fit

/-- C52: `util::cnt_onezero_bits` counts the positions `q >= 1` with bit `q-1` one and bit `q` zero. -/
theorem C52_cnt_onezero_bits (v : IntVec) (hv : v.WF) :
    Util.cntOneZeroBits v = some (countTrue (fun q => decide (1 ≤ q) && bitAt v.data (q - 1) && !bitAt v.data q) v.size) := by
  rw [Util.cntOneZeroBits_eq hv.fit]
  congr 1
  apply countTrue_congr
  intro q _
  unfold Util.before
  by_cases h : q = 0
  · simp [h]
  · have : 1 ≤ q := by omega
    simp [h, this]

/-- C52: `util::cnt_zeroone_bits` counts the positions `q >= 1` with bit `q-1` zero and bit `q` one. -/
theorem C52_cnt_zeroone_bits (v : IntVec) (hv : v.WF) :
    Util.cntZeroOneBits v = some (countTrue (fun q => decide (1 ≤ q) && !bitAt v.data (q - 1) && bitAt v.data q) v.size) := by
  rw [Util.cntZeroOneBits_eq hv.fit]
  congr 1
  apply countTrue_congr
  intro q _
  unfold Util.before
  by_cases h : q = 0
  · simp [h]
  · have : 1 ≤ q := by omega
    simp [h, this]

example : Util.cntOneBits ⟨70, [0xFF#64, 0xFFF#64], 1⟩ = some 14 ∧ Util.cntOneZeroBits ⟨70, [0x5#64, 0xFBF#64], 1⟩ = some 2 ∧
    Util.cntZeroOneBits ⟨70, [0x5#64, 0xF2#64], 1⟩ = some 3 := by decide +kernel

/-! ## C53 copies and bitwise assignment -/

/-- C53: a copy has the same width, size and elements as the original; the same for assignment over any vector. -/
theorem C53_copy (junk : Nat → Word) (v u : IntVec) (hv : v.WF) (hu : u.WF) :
    (∃ c, v.copyCtor junk = some c ∧ c.WF ∧ c.size = v.size ∧ c.width = v.width ∧ c.elems = v.elems) ∧
    (∃ c, u.copyAssign junk v = some c ∧ c.WF ∧ c.size = v.size ∧ c.width = v.width ∧ c.elems = v.elems) := by
  have hf := hv.fit
  have w1 := hv.w1
  have w64 := hv.w64
  have fin : ∀ d : Mem, (∀ j, j < (v.size + 63) / 64 → d[j]? = v.data[j]?) → elems ⟨v.size, d, v.width⟩ = v.elems := by
    intro d hd
    apply List.ext_getElem?
    intro i
    rw [elems_get?, elems_get?]
    simp only
    split
    · rename_i hi
      congr 1
      refine elem_congr (u := ⟨_, d, v.width⟩) (v := v) rfl ?_
      intro q _ h2
      have := hv.end_le hi
      exact bitAt_of_getElem? (hd _ (by omega))
    · rfl
  constructor
  · obtain ⟨d, r1, r2, -, -, -, -⟩ := bitResize_eq junk ⟨0, [], v.width⟩ (by simp) v.size
    unfold copyCtor
    rw [r1, sbind]
    by_cases h : v.capWords > 0
    · rw [if_pos h]
      obtain ⟨d2, m1, m2, m3⟩ := memcpy_eq (src := v.data) v.capWords d 0 (by unfold capWords; omega) (by unfold capWords; omega)
      simp only
      rw [m1, sbind]
      refine ⟨_, rfl, ⟨w1, w64, by simp only; omega⟩, rfl, rfl, fin d2 ?_⟩
      intro j hj
      rw [m3, if_pos (by unfold capWords; omega)]
    · rw [if_neg h]
      exact ⟨_, rfl, ⟨w1, w64, r2⟩, rfl, rfl, fin d (fun j hj => by unfold capWords at h; omega)⟩
  · obtain ⟨d, r1, r2, -, -, -, -⟩ := bitResize_eq junk u hu.fit v.size
    have hcl : clampWidth v.width = v.width := by unfold clampWidth; rw [if_pos (by omega)]
    unfold copyAssign
    rw [r1, sbind]
    by_cases h : v.size > 0
    · rw [if_pos h]
      obtain ⟨d2, m1, m2, m3⟩ := memcpy_eq (src := v.data) v.capWords d 0 (by unfold capWords; omega) (by unfold capWords; omega)
      simp only
      rw [m1, sbind]
      simp only [pure, Option.bind_eq_bind, Option.bind_some, hcl]
      refine ⟨_, rfl, ⟨w1, w64, by simp only; omega⟩, rfl, rfl, fin d2 ?_⟩
      intro j hj
      rw [m3, if_pos (by unfold capWords; omega)]
    · rw [if_neg h]
      simp only [pure, Option.bind_eq_bind, Option.bind_some, hcl]
      exact ⟨_, rfl, ⟨w1, w64, r2⟩, rfl, rfl, fin d (fun j hj => by omega)⟩

/-- C53: `&=`, `|=`, `^=` between vectors of equal bit size combine all bits; size and width are kept. -/
theorem C53_bitwise (v w : IntVec) (hv : v.WF) (hw : w.WF) (hs : v.size = w.size) :
    (∃ u, v.andAssign w = some u ∧ u.WF ∧ u.size = v.size ∧ u.width = v.width ∧
      ∀ q, q < v.size → bitAt u.data q = (bitAt v.data q && bitAt w.data q)) ∧
    (∃ u, v.orAssign w = some u ∧ u.WF ∧ u.size = v.size ∧ u.width = v.width ∧
      ∀ q, q < v.size → bitAt u.data q = (bitAt v.data q || bitAt w.data q)) ∧
    (∃ u, v.xorAssign w = some u ∧ u.WF ∧ u.size = v.size ∧ u.width = v.width ∧
      ∀ q, q < v.size → bitAt u.data q = (bitAt v.data q ^^ bitAt w.data q)) := by
  have key : ∀ (f : Word → Word → Word) (g : Bool → Bool → Bool),
      (∀ x y j, j < 64 → (f x y).getLsbD j = g (x.getLsbD j) (y.getLsbD j)) →
      ∃ u, (zipLoop f v.data w.data 0 w.capWords).map (fun d => { v with data := d }) = some u ∧ u.WF ∧ u.size = v.size ∧ u.width = v.width ∧
      ∀ q, q < v.size → bitAt u.data q = g (bitAt v.data q) (bitAt w.data q) := by
    intro f g hfg
    have h1 := hv.fit
    have h2 := hw.fit
    obtain ⟨d, z1, z2, z3⟩ := zipLoop_bits hfg (a := v.data) (b := w.data) (k := w.capWords) (by unfold capWords; omega) (by unfold capWords; omega)
    refine ⟨{ v with data := d }, by rw [z1]; rfl, ⟨hv.w1, hv.w64, by simp only; omega⟩, rfl, rfl, ?_⟩
    intro q hq
    simp only
    rw [z3, if_pos (by unfold capWords; omega)]
  exact ⟨key _ _ (fun x y j _ => BitVec.getLsbD_and), key _ _ (fun x y j _ => BitVec.getLsbD_or),
    key _ _ (fun x y j _ => BitVec.getLsbD_xor)⟩

example : IntVec.xorAssign ⟨70, [5#64, 3#64], 1⟩ ⟨70, [6#64, 1#64], 1⟩ = some ⟨70, [3#64, 2#64], 1⟩ ∧
    IntVec.copyCtor (fun _ => 9#64) ⟨70, [5#64, 3#64, 4#64], 7⟩ = some ⟨70, [5#64, 3#64], 7⟩ := by decide +kernel

end Sdsl.Props
