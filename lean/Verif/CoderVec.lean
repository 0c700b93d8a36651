/-
  Sequences of codes: encoding and decoding of whole vectors.
-/
import Verif.CoderLemmas
import Verif.IntVecOps

namespace Sdsl.Coder

open Bits Spec

/-- The single-value functions of `c` implement the code with code words `bits`. -/
structure Good (c : Code) (bits : Word → List Bool) : Prop where
  pos : ∀ w, 0 < (bits w).length
  encLen : ∀ w, c.encLen w = some (bits w).length
  encode1 : ∀ {m : Mem} {pos : Nat} {w : Word}, pos + (bits w).length ≤ 64 * m.length →
    ∃ m', c.encode1 m (pos / 64) (pos % 64) w = some (m', (pos + (bits w).length) / 64, (pos + (bits w).length) % 64) ∧
      WB m m' pos (bits w)
  dec1 : ∀ {sh : Option Word} {m : Mem} {pos : Nat} {w : Word}, (sh ≠ none ∨ w ≠ 0#64) → At m pos (bits w) →
    c.dec1 sh m (pos / 64) (pos % 64) = some (w, (pos + (bits w).length) / 64, (pos + (bits w).length) % 64)

/-- `skip` moves over a code word. -/
def GoodSkip (c : Code) (bits : Word → List Bool) : Prop :=
  ∀ {m : Mem} {pos : Nat} {w : Word}, At m pos (bits w) →
    c.skip m (pos / 64) (pos % 64) = some ((pos + (bits w).length) / 64, (pos + (bits w).length) % 64)

theorem good_gamma : Good gamma gammaBits :=
  ⟨fun w => by rw [length_gammaBits]; omega, gamma_encLen, gamma_encode1, gamma_dec1⟩

theorem good_delta : Good delta deltaBits :=
  ⟨fun w => by rw [length_deltaBits]; omega, delta_encLen, delta_encode1, delta_dec1⟩

/-- Encoding a sequence with the single-value function. -/
def encSeq (c : Code) : Mem → Nat → Nat → List Word → Option (Mem × Nat × Nat)
  | m, p, off, [] => some (m, p, off)
  | m, p, off, w :: l => do
    let r ← c.encode1 m p off w
    encSeq c r.1 r.2.1 r.2.2 l

theorem encSeq_eq {c : Code} {bits : Word → List Bool} (g : Good c bits) (ys : List Word) {m : Mem} {pos : Nat}
    (h : pos + (ys.flatMap bits).length ≤ 64 * m.length) :
    ∃ m', encSeq c m (pos / 64) (pos % 64) ys =
        some (m', (pos + (ys.flatMap bits).length) / 64, (pos + (ys.flatMap bits).length) % 64) ∧
      WB m m' pos (ys.flatMap bits) := by
  induction ys generalizing m pos with
  | nil => exact ⟨m, rfl, WB.nil _ _⟩
  | cons w l ih =>
    rw [List.flatMap_cons, List.length_append] at h ⊢
    obtain ⟨m1, a1, b1⟩ := g.encode1 (m := m) (pos := pos) (w := w) (by omega)
    obtain ⟨m2, a2, b2⟩ := ih (m := m1) (pos := pos + (bits w).length) (by rw [b1.length]; omega)
    refine ⟨m2, ?_, b1.append b2⟩
    unfold encSeq
    rw [a1, sbind]; dsimp only
    rw [a2, Nat.add_assoc]

theorem decLoop_false {c : Code} {bits : Word → List Bool} (g : Good c bits) {sh : Option Word} (ys : List Word)
    (hs : sh ≠ none ∨ 0#64 ∉ ys) {m : Mem} {pos : Nat} (h : At m pos (ys.flatMap bits)) (v : Word) :
    decLoop c false sh m ys.length (pos / 64) (pos % 64) v = some (ys.getLastD v, ys) := by
  induction ys generalizing pos v with
  | nil => rfl
  | cons w l ih =>
    rw [List.flatMap_cons, At.append] at h
    simp only [List.length_cons]
    unfold decLoop
    have hw : sh ≠ none ∨ w ≠ 0#64 := hs.imp_right (fun h1 h2 => h1 (by simp [h2]))
    have hl : sh ≠ none ∨ 0#64 ∉ l := hs.imp_right (fun h1 h2 => h1 (by simp [h2]))
    dsimp only
    rw [g.dec1 hw h.1, sbind]; dsimp only
    rw [ih hl h.2, sbind]
    simp [List.getLast?_cons]

theorem sumW_cons (w : Word) (l : List Word) : sumW (w :: l) = w + sumW l := rfl

theorem decLoop_true {c : Code} {bits : Word → List Bool} (g : Good c bits) {sh : Option Word} (ys : List Word)
    (hs : sh ≠ none ∨ 0#64 ∉ ys) {m : Mem} {pos : Nat} (h : At m pos (ys.flatMap bits)) (v : Word) :
    decLoop c true sh m ys.length (pos / 64) (pos % 64) v =
      some (v + sumW ys, (List.range ys.length).map (fun i => v + sumW (ys.take (i + 1)))) := by
  induction ys generalizing pos v with
  | nil => simp [decLoop, sumW]
  | cons w l ih =>
    rw [List.flatMap_cons, At.append] at h
    simp only [List.length_cons]
    unfold decLoop
    have hw : sh ≠ none ∨ w ≠ 0#64 := hs.imp_right (fun h1 h2 => h1 (by simp [h2]))
    have hl : sh ≠ none ∨ 0#64 ∉ l := hs.imp_right (fun h1 h2 => h1 (by simp [h2]))
    dsimp only
    rw [g.dec1 hw h.1, sbind]; dsimp only
    rw [ih hl h.2, sbind]
    simp only [if_true, List.range_succ_eq_map, List.map_cons, List.map_map, List.take_succ_cons, sumW_cons, BitVec.add_assoc]
    simp [sumW, Function.comp_def]

theorem decode_false {c : Code} {bits : Word → List Bool} (g : Good c bits) {sh : Option Word} (ys : List Word)
    (hs : sh ≠ none ∨ 0#64 ∉ ys) {m : Mem} {pos : Nat} (h : At m pos (ys.flatMap bits)) :
    decode c false sh m pos ys.length = some (ys.getLastD 0#64, ys) := decLoop_false g ys hs h _

theorem decode_true {c : Code} {bits : Word → List Bool} (g : Good c bits) {sh : Option Word} (ys : List Word)
    (hs : sh ≠ none ∨ 0#64 ∉ ys) {m : Mem} {pos : Nat} (h : At m pos (ys.flatMap bits)) :
    decode c true sh m pos ys.length = some (sumW ys, (List.range ys.length).map (fun i => sumW (ys.take (i + 1)))) := by
  have := decLoop_true g ys hs h 0#64
  simpa [decode] using this

/-- The values encoded by `encode(v, z)`. -/
def encVals (zero : Word) (v : IntVec) : List Word :=
  v.elems.map (fun e => if BitVec.ofNat 64 e = 0#64 then zero else BitVec.ofNat 64 e)

theorem encVals_drop {zero : Word} {v : IntVec} {i k : Nat} (h : i + (k + 1) = v.size / v.width) :
    (encVals zero v).drop i =
      (if BitVec.ofNat 64 (v.elem i) = 0#64 then zero else BitVec.ofNat 64 (v.elem i)) :: (encVals zero v).drop (i + 1) := by
  have hl : i < (encVals zero v).length := by simp [encVals, IntVec.elems_length]; omega
  rw [List.drop_eq_getElem_cons hl]
  congr 1
  have := v.elems_get? i
  rw [if_pos (by omega)] at this
  obtain ⟨h1, h2⟩ := List.getElem?_eq_some_iff.1 this
  simp [encVals, h2]

theorem length_encVals (zero : Word) (v : IntVec) : (encVals zero v).length = v.numElems := by
  simp [encVals, IntVec.elems_length, IntVec.numElems]

theorem encSize_eq {c : Code} {bits : Word → List Bool} (g : ∀ w, c.encLen w = some (bits w).length) {v : IntVec} (hv : v.WF) (zero : Word) (k i : Nat)
    (h : i + k = v.size / v.width) :
    encSize c v zero k i = some (((encVals zero v).drop i).flatMap bits).length := by
  induction k generalizing i with
  | zero =>
    rw [List.drop_eq_nil_of_le (by rw [length_encVals]; show v.size / v.width ≤ i; omega)]; rfl
  | succ k ih =>
    unfold encSize
    rw [IntVec.get_eq hv (by omega), sbind, g, sbind, ih (i + 1) (by omega), sbind, encVals_drop h, List.flatMap_cons, List.length_append]
    rfl

theorem encLoop_eq {c : Code} {v : IntVec} (hv : v.WF) (zero : Word) (k i : Nat) (h : i + k = v.size / v.width)
    (m : Mem) (p off : Nat) :
    encLoop c v zero k i m p off = (encSeq c m p off ((encVals zero v).drop i)).map (·.1) := by
  induction k generalizing i m p off with
  | zero =>
    rw [List.drop_eq_nil_of_le (by rw [length_encVals]; show v.size / v.width ≤ i; omega)]; rfl
  | succ k ih =>
    unfold encLoop
    rw [IntVec.get_eq hv (by omega), sbind, encVals_drop h]
    unfold encSeq
    cases c.encode1 m p off _ with
    | none => rfl
    | some r => rw [sbind, sbind, ih (i + 1) (by omega)]

/-- The outcome of `encode(v, z)`: size, width and content. -/
theorem encode_bits {c : Code} {bits : Word → List Bool} (g : Good c bits) (junk : Nat → Word) {v z : IntVec} (hv : v.WF)
    (hz : z.WF) (zero : Word) (clear : Bool) :
    ∃ z', (do
      let size ← encSize c v zero v.numElems 0
      let z ← IntVec.bitResize junk { z with width := v.width } size
      let d ← if clear = true ∧ size % 64 ≠ 0 then st z.data (size / 64) 0#64 else pure z.data
      let d ← encLoop c v zero v.numElems 0 d 0 0
      pure { z with data := d }) = some z' ∧ z'.WF ∧ z'.width = v.width ∧
      z'.size = ((encVals zero v).flatMap bits).length ∧ At z'.data 0 ((encVals zero v).flatMap bits) := by
  have e1 := encSize_eq g.encLen hv zero v.numElems 0 (by simp [IntVec.numElems])
  rw [List.drop_zero] at e1
  rw [e1, sbind]
  obtain ⟨d, h1, h2, -⟩ := IntVec.bitResize_eq junk { z with width := v.width } hz.fit ((encVals zero v).flatMap bits).length
  rw [h1, sbind]
  generalize hL : ((encVals zero v).flatMap bits).length = L at *
  have key : ∀ d' : Mem, d'.length = d.length → ∃ z' : IntVec, (encLoop c v zero v.numElems 0 d' 0 0 >>= fun d =>
      pure ({ size := L, data := d, width := v.width } : IntVec)) = some z' ∧ z'.WF ∧ z'.width = v.width ∧ z'.size = L ∧
      At z'.data 0 ((encVals zero v).flatMap bits) := by
    intro d' hd'
    rw [encLoop_eq hv zero v.numElems 0 (by simp [IntVec.numElems]), List.drop_zero]
    obtain ⟨m', a, b⟩ := encSeq_eq g (encVals zero v) (m := d') (pos := 0) (by omega)
    rw [show (0 : Nat) / 64 = 0 from rfl, show (0 : Nat) % 64 = 0 from rfl] at a
    rw [a]
    refine ⟨⟨L, m', v.width⟩, rfl, ⟨hv.w1, hv.w64, ?_⟩, rfl, rfl, b.at (by omega)⟩
    show (L + 63) / 64 ≤ m'.length
    rw [b.length]; omega
  dsimp only
  by_cases hc : clear = true ∧ L % 64 ≠ 0
  · rw [if_pos hc, st_of_lt (by omega), sbind]
    exact key _ (by simp)
  · rw [if_neg hc]
    exact key _ rfl

theorem countLoop_eq {c : Code} {bits : Word → List Bool} (g : Good c bits) (gs : GoodSkip c bits) {m : Mem} (ys : List Word)
    {pos size f n : Nat} (h : At m pos (ys.flatMap bits)) (hz : size = pos + (ys.flatMap bits).length) (hf : ys.length < f) :
    countLoop c m size f (pos / 64) (pos % 64) n = some (n + ys.length) := by
  induction ys generalizing pos f n with
  | nil =>
    obtain ⟨f, rfl⟩ : ∃ f', f = f' + 1 := ⟨f - 1, by simp at hf; omega⟩
    unfold countLoop
    simp only [List.flatMap_nil, List.length_nil, Nat.add_zero] at hz ⊢
    rw [if_neg (by omega)]
  | cons w l ih =>
    obtain ⟨f, rfl⟩ : ∃ f', f = f' + 1 := ⟨f - 1, by simp at hf; omega⟩
    rw [List.flatMap_cons] at h hz
    rw [At.append] at h
    rw [List.length_append] at hz
    have hp := g.pos w
    unfold countLoop
    rw [if_pos (by omega), gs h.1, sbind]
    rw [ih h.2 (by omega) (by simp at hf; omega)]
    simp; omega

theorem storeAll_eq (l : List Word) {v : IntVec} (hv : v.WF) {i : Nat} (h : i + l.length = v.size / v.width) :
    ∃ v', storeAll v i l = some v' ∧ v'.WF ∧ v'.width = v.width ∧ v'.size = v.size ∧
      v'.elems = v.elems.take i ++ l.map (fun x => x.toNat % 2 ^ v.width) := by
  induction l generalizing v i with
  | nil =>
    refine ⟨v, rfl, hv, rfl, rfl, ?_⟩
    rw [List.take_of_length_le (by rw [IntVec.elems_length]; simp at h; omega)]; simp
  | cons x l ih =>
    simp only [List.length_cons] at h
    obtain ⟨d, h1, h2⟩ := IntVec.set_eq hv (i := i) (by omega) x
    obtain ⟨v', a1, a2, a3, a4, a5⟩ := ih (v := { v with data := d }) (hv.written h2) (i := i + 1)
      (by show i + 1 + l.length = v.size / v.width; omega)
    refine ⟨v', ?_, a2, a3, a4, ?_⟩
    · unfold storeAll; rw [h1, sbind]; exact a1
    · rw [a5, IntVec.elems_written h2]
      have hl : i < v.elems.length := by rw [IntVec.elems_length]; omega
      rw [List.take_add_one, List.take_set_of_le (Nat.le_refl i), List.getElem?_set_self hl]
      simp

/-- `decode` of a vector, after the number of values is known. -/
theorem decode_store {c : Code} {bits : Word → List Bool} (g : Good c bits) {sh : Option Word} (junk : Nat → Word) (ys : List Word)
    (hs : sh ≠ none ∨ 0#64 ∉ ys) {m : Mem} (h : At m 0 (ys.flatMap bits)) {v : IntVec} {w : Nat} (hv : v.WF) (h1 : 1 ≤ w)
    (h64 : w ≤ 64) :
    ∃ v', (do
      let v ← IntVec.resize junk { v with width := w } ys.length
      let r ← decode c false sh m 0 ys.length
      storeAll v 0 r.2) = some v' ∧ v'.WF ∧ v'.width = w ∧ v'.elems = ys.map (fun x => x.toNat % 2 ^ w) := by
  unfold IntVec.resize
  dsimp only
  obtain ⟨d, a1, a2, -⟩ := IntVec.bitResize_eq junk { v with width := w } hv.fit (ys.length * w)
  rw [a1, sbind, decode_false g ys hs h, sbind]
  obtain ⟨v', b1, b2, b3, b4, b5⟩ := storeAll_eq ys (v := ⟨ys.length * w, d, w⟩) ⟨h1, h64, a2⟩ (i := 0)
    (by show 0 + ys.length = ys.length * w / w; rw [Nat.mul_div_cancel _ h1]; omega)
  exact ⟨v', b1, b2, b3, by simpa using b5⟩

theorem mem_map_enc {width : Nat} {e : Nat} (hw : width ≤ 64) (he : e < 2 ^ width) :
    (if BitVec.ofNat 64 e = 0#64 then zeroVal width else BitVec.ofNat 64 e).toNat % 2 ^ width = e := by
  have hp : 2 ^ width ≤ 2 ^ 64 := Nat.pow_le_pow_right (by omega) hw
  have e64 : (BitVec.ofNat 64 e).toNat = e := by rw [BitVec.toNat_ofNat]; exact Nat.mod_eq_of_lt (by omega)
  by_cases h0 : BitVec.ofNat 64 e = 0#64
  · rw [if_pos h0]
    rw [h0] at e64
    have : e = 0 := by simpa using e64.symm
    subst this
    unfold zeroVal
    split
    · rename_i hlt
      simp [BitVec.toNat_shiftLeft, Nat.shiftLeft_eq, Nat.mod_eq_of_lt (Nat.pow_lt_pow_right (a := 2) (by omega) hlt)]
    · simp
  · rw [if_neg h0, e64, Nat.mod_eq_of_lt he]

/-- No value is encoded as the 64-bit number 0 unless the width is 64 and the vector contains 0. -/
theorem encVals_ne {v : IntVec} (hv : v.WF) (h : v.width < 64 ∨ 0 ∉ v.elems) : 0#64 ∉ encVals (zeroVal v.width) v := by
  intro hm
  unfold encVals at hm
  rw [List.mem_map] at hm
  obtain ⟨e, h1, h2⟩ := hm
  have he : e < 2 ^ 64 := by
    unfold IntVec.elems at h1
    rw [List.mem_map] at h1
    obtain ⟨i, _, rfl⟩ := h1
    exact IntVec.elem_lt64 hv i
  by_cases h0 : BitVec.ofNat 64 e = 0#64
  · rw [if_pos h0] at h2
    have : e = 0 := by
      have := congrArg BitVec.toNat h0
      rw [BitVec.toNat_ofNat, Nat.mod_eq_of_lt he] at this; simpa using this
    subst this
    rcases h with h | h
    · unfold zeroVal at h2
      rw [if_pos h] at h2
      have := congrArg BitVec.toNat h2
      simp [BitVec.toNat_shiftLeft, Nat.shiftLeft_eq, Nat.mod_eq_of_lt (Nat.pow_lt_pow_right (a := 2) (by omega) h)] at this
    · exact h h1
  · rw [if_neg h0] at h2; exact h0 h2

theorem elems_lt_pow {v : IntVec} {e : Nat} (h : e ∈ v.elems) : e < 2 ^ v.width := by
  unfold IntVec.elems at h
  rw [List.mem_map] at h
  obtain ⟨i, _, rfl⟩ := h
  exact IntVec.elem_lt v i

theorem encodeVec_eq {c : Code} {bits : Word → List Bool} (g : Good c bits) (junk : Nat → Word) {v z : IntVec} (hv : v.WF)
    (hz : z.WF) :
    ∃ z', encodeVec c junk v z = some z' ∧ z'.WF ∧ z'.width = v.width ∧
      z'.size = ((encVals (zeroVal v.width) v).flatMap bits).length ∧
      At z'.data 0 ((encVals (zeroVal v.width) v).flatMap bits) := by
  have := encode_bits g junk hv hz (zeroVal v.width) true
  simpa [encodeVec] using this

theorem decodeVec_eq {c : Code} {bits : Word → List Bool} (g : Good c bits) (gs : GoodSkip c bits) {sh : Option Word}
    (junk : Nat → Word) (ys : List Word) (hs : sh ≠ none ∨ 0#64 ∉ ys) {z v : IntVec} (hz : z.WF) (hv : v.WF)
    (h : At z.data 0 (ys.flatMap bits)) (hsz : z.size = (ys.flatMap bits).length) :
    ∃ v', decodeVec c sh junk z v = some v' ∧ v'.WF ∧ v'.width = z.width ∧ v'.elems = ys.map (fun x => x.toNat % 2 ^ z.width) := by
  unfold decodeVec
  have hle : ys.length ≤ (ys.flatMap bits).length := by
    clear h hsz hs
    induction ys with
    | nil => simp
    | cons w l ih => have := g.pos w; simp only [List.flatMap_cons, List.length_append, List.length_cons]; omega
  have := countLoop_eq g gs ys (pos := 0) (size := z.size) (f := z.size + 1) (n := 0) h (by omega) (by omega)
  rw [show (0 : Nat) / 64 = 0 from rfl, show (0 : Nat) % 64 = 0 from rfl, Nat.zero_add] at this
  rw [this, sbind]
  exact decode_store g junk ys hs h hv hz.w1 hz.w64

theorem vec_roundtrip {c : Code} {bits : Word → List Bool} (g : Good c bits) (gs : GoodSkip c bits) {sh : Option Word}
    (j1 j2 : Nat → Word) {v z u : IntVec} (hv : v.WF) (hz : z.WF) (hu : u.WF)
    (hs : sh ≠ none ∨ v.width < 64 ∨ 0 ∉ v.elems) :
    ∃ z' v', encodeVec c j1 v z = some z' ∧ decodeVec c sh j2 z' u = some v' ∧ v'.WF ∧ v'.width = v.width ∧
      v'.elems = v.elems := by
  obtain ⟨z', a1, a2, a3, a4, a5⟩ := encodeVec_eq g j1 hv hz
  obtain ⟨v', b1, b2, b3, b4⟩ := decodeVec_eq g gs j2 _ (hs.imp_right (encVals_ne hv)) a2 hu a5 a4
  refine ⟨z', v', a1, b1, b2, b3.trans a3, ?_⟩
  rw [b4, a3]
  unfold encVals
  rw [List.map_map]
  conv => rhs; rw [← List.map_id v.elems]
  apply List.map_congr_left
  intro e he
  exact mem_map_enc hv.w64 (elems_lt_pow he)

end Sdsl.Coder
