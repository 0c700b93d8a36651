/-
  The operations of `int_vector_buffer` keep the invariant and agree with a growing list.
-/
import Verif.IntVecBufInv

namespace Sdsl.Ivb

open Spec Bits IntVec

theorem abits_elem {w i j : Nat} (hw : 0 < w) (hj : j < w) (l : List Nat) : abits w l (i * w + j) = (l.getD i 0).testBit j := by
  unfold abits
  rw [Nat.mul_comm i w, Nat.mul_add_div hw, Nat.div_eq_of_lt hj, Nat.add_zero, Nat.mul_add_mod, Nat.mod_eq_of_lt hj]

theorem getD_lt {w : Nat} {l : List Nat} (h : ∀ x ∈ l, x < 2 ^ w) (i : Nat) : l.getD i 0 < 2 ^ w := by
  rw [List.getD_eq_getElem?_getD]
  by_cases hi : i < l.length
  · rw [List.getElem?_eq_getElem hi]; exact h _ (List.getElem_mem hi)
  · rw [List.getElem?_eq_none (by omega)]; exact Nat.two_pow_pos w

theorem field_abits {w i p : Nat} {m : Mem} {l : List Nat} (hw : 0 < w) (hl : ∀ x ∈ l, x < 2 ^ w)
    (h : ∀ j, j < w → bitAt m (p + j) = abits w l (i * w + j)) : field m p w = l.getD i 0 := by
  unfold field
  rw [bitsVal_congr (fun j hj => by rw [h j hj, abits_elem hw hj]), bitsVal_testBit, Nat.mod_eq_of_lt (getD_lt hl i)]

/-- The configuration that operations do not change. -/
structure Same (s s' : State) : Prop where
  tw : s'.tw = s.tw
  offset : s'.offset = s.offset
  width : s'.buffer.width = s.buffer.width

theorem Same.refl (s : State) : Same s s := ⟨rfl, rfl, rfl⟩

theorem Same.trans {a b c : State} (h1 : Same a b) (h2 : Same b c) : Same a c :=
  ⟨h2.tw.trans h1.tw, h2.offset.trans h1.offset, h2.width.trans h1.width⟩

theorem fetch_spec {P : Prop} {s : State} {l : List Nat} (h : Inv P s l) (idx : Nat) :
    ∃ s', fetch s idx = some s' ∧ Inv P s' l ∧ Same s s' ∧ s'.beg ≤ idx ∧ idx < s'.beg + s'.bufsize := by
  unfold fetch
  by_cases c : idx < s.beg ∨ s.beg + s.bufsize ≤ idx
  · rw [if_pos c]
    obtain ⟨f, f1, f2⟩ := writeBlock_spec h
    obtain ⟨d, d1, d2⟩ := readBlock_spec f2.toBase (f2.onDisk rfl) idx
    rw [f1, sbind, d1]
    refine ⟨_, rfl, d2, ⟨rfl, rfl, rfl⟩, ?_, ?_⟩
    · exact Nat.div_mul_le_self _ _
    · dsimp only
      have := Nat.div_add_mod idx s.bufsize
      have := Nat.mod_lt idx h.pos
      rw [Nat.mul_comm s.bufsize] at *
      omega
  · rw [if_neg c]
    exact ⟨s, rfl, h, Same.refl s, by omega, by omega⟩

theorem Base.numElems {s : State} {l : List Nat} (h : Base s l) : s.buffer.size / s.buffer.width = s.bufsize := by
  rw [h.bsz, Nat.mul_div_cancel _ h.wf.w1]

theorem read_spec {P : Prop} {s : State} {l : List Nat} (h : Inv P s l) (idx : Nat) :
    ∃ s' x, read s idx = some (s', x) ∧ Inv P s' l ∧ Same s s' ∧ x.toNat = l.getD idx 0 := by
  obtain ⟨s', h1, h2, h3, h4, h5⟩ := fetch_spec h idx
  unfold read
  have hn := h2.numElems
  rw [h1, sbind, get_eq h2.wf (by omega), sbind]
  refine ⟨s', _, rfl, h2, h3, ?_⟩
  rw [toNat_ofNat_elem h2.wf]
  have hw1 := h2.wf.w1
  unfold elem
  apply field_abits hw1 h2.lt
  intro j hj
  have e : (idx - s'.beg) * s'.buffer.width + s'.buffer.width ≤ s'.bufsize * s'.buffer.width := by
    have := Nat.mul_le_mul_right s'.buffer.width (show idx - s'.beg + 1 ≤ s'.bufsize by omega)
    rwa [Nat.add_mul, Nat.one_mul] at this
  rw [h2.buf _ (by omega), ← Nat.add_assoc, ← Nat.add_mul, show s'.beg + (idx - s'.beg) = idx by omega]

theorem div_eq_iff' {q w i : Nat} (hw : 0 < w) : q / w = i ↔ i * w ≤ q ∧ q < i * w + w := by
  rw [Nat.div_eq_iff hw]; omega

theorem write_spec {P : Prop} {s : State} {l : List Nat} (h : Inv P s l) (idx : Nat) (x : Word)
    (hg : P ∨ idx ≤ l.length) :
    ∃ s', write s idx x = some s' ∧ Inv P s' (growSet l idx (x.toNat % 2 ^ s.buffer.width)) ∧ Same s s' := by
  obtain ⟨t, h1, h2, h3, h4, h5⟩ := fetch_spec h idx
  unfold write
  have hn := h2.numElems
  obtain ⟨d, d1, d2⟩ := set_eq h2.wf (i := idx - t.beg) (by omega) x
  rw [h1, sbind, d1, sbind]
  have hw1 := h2.wf.w1
  have hsz := h2.size
  rw [← h3.width]
  generalize hl' : growSet l idx (x.toNat % 2 ^ t.buffer.width) = l'
  have hlen : l'.length = max l.length (idx + 1) := by rw [← hl', growSet_length]
  have hab : ∀ q, abits t.buffer.width l' q = if q / t.buffer.width = idx then x.getLsbD (q % t.buffer.width)
      else abits t.buffer.width l q := by
    intro q
    rw [← hl', abits_growSet]
    congr 1
    rw [Nat.testBit_mod_two_pow]
    simp only [Nat.mod_lt _ hw1, decide_true, Bool.true_and]
    rfl
  have hsize : (if t.size ≤ idx then idx + 1 else t.size) = l'.length := by split <;> omega
  generalize (if t.size ≤ idx then idx + 1 else t.size) = size' at hsize
  have hmono : t.size ≤ size' := by omega
  have hmw : t.size * t.buffer.width ≤ size' * t.buffer.width := Nat.mul_le_mul_right _ hmono
  refine ⟨_, rfl, ?_, ⟨h3.tw, h3.offset, h3.width⟩⟩
  refine { wf := h2.wf.written d2, bsz := h2.bsz, pos := h2.pos, al := h2.al, size := hsize, lt := ?_, tw := h2.tw,
           off := h2.off, upper := ?_, beg := h2.beg, buf := ?_, file := ?_, tail := ?_, cover := ?_, dsize := ?_ }
  · dsimp only
    rw [← hl']
    exact growSet_lt h2.lt (Nat.mod_lt _ (Nat.two_pow_pos _))
  · dsimp only
    exact Nat.le_trans h2.upper (Nat.add_le_add_left (padLen_mono _ hmw) _)
  · dsimp only
    intro q hq
    rw [d2.bits, hab]
    have hdiv := div_eq_iff' (q := t.beg * t.buffer.width + q) (i := idx) hw1
    have e : t.beg * t.buffer.width + (idx - t.beg) * t.buffer.width = idx * t.buffer.width := by
      rw [← Nat.add_mul, show t.beg + (idx - t.beg) = idx by omega]
    by_cases c : (idx - t.beg) * t.buffer.width ≤ q ∧ q < (idx - t.beg) * t.buffer.width + t.buffer.width
    · rw [if_pos c, if_pos (hdiv.2 (by omega))]
      congr 1
      rw [show t.beg * t.buffer.width + q = idx * t.buffer.width + (q - (idx - t.beg) * t.buffer.width) by omega,
        Nat.mul_comm idx, Nat.mul_add_mod, Nat.mod_eq_of_lt (by omega)]
    · rw [if_neg c, if_neg (fun e => by have := hdiv.1 e; omega)]
      exact h2.buf q hq
  · dsimp only
    intro q hq hout
    have hout' : q < t.beg * t.buffer.width ∨ t.beg * t.buffer.width + t.bufsize * t.buffer.width ≤ q := by
      rcases hout with c | c
      · exact absurd c (by simp)
      · exact c
    have e1 : t.beg * t.buffer.width ≤ idx * t.buffer.width := Nat.mul_le_mul_right _ h4
    have e2 : idx * t.buffer.width + t.buffer.width ≤ t.beg * t.buffer.width + t.bufsize * t.buffer.width := by
      have := Nat.mul_le_mul_right t.buffer.width (show idx + 1 ≤ t.beg + t.bufsize by omega)
      rwa [Nat.add_mul, Nat.add_mul, Nat.one_mul] at this
    have hne : ¬ q / t.buffer.width = idx := by rw [div_eq_iff' hw1]; omega
    rw [hab, if_neg hne]
    by_cases hq2 : q < t.size * t.buffer.width
    · exact h2.file q hq2 (Or.inr hout')
    · rcases hg with hP | hle
      · rw [h2.tail hP q (by omega), abits_ge hw1 (by rw [← hsz]; omega)]
      · exfalso
        apply hne
        rw [div_eq_iff' hw1]
        have hs : size' = t.size ∨ (size' = t.size + 1 ∧ idx = t.size) := by omega
        rcases hs with hs | ⟨hs, hi⟩
        · rw [hs] at hq; omega
        · rw [hs, Nat.add_mul, Nat.one_mul] at hq; rw [hi]; omega
  · dsimp only
    intro hP q hq
    exact h2.tail hP q (by omega)
  · dsimp only
    by_cases c : t.size ≤ idx
    · right; right; exact ⟨rfl, by omega⟩
    · have hs : size' = t.size := by omega
      rw [hs]
      rcases h2.cover with c2 | c2 | c2
      · exact Or.inl c2
      · exact Or.inr (Or.inl c2)
      · exact Or.inr (Or.inr ⟨rfl, c2.2⟩)
  · dsimp only
    intro _
    omega

theorem blockElems_spec {w n : Nat} (hn : 0 < n) : 0 < blockElems w n ∧ blockElems w n * w % 8 = 0 := by
  unfold blockElems
  by_cases c : n * 8 % w = 0
  · rw [if_pos c]
    have hd : n * 8 / w * w = n * 8 := Nat.div_mul_cancel (Nat.dvd_of_mod_eq_zero c)
    constructor
    · apply Nat.pos_of_ne_zero
      intro e; rw [e] at hd; omega
    · rw [hd]; omega
  · rw [if_neg c]
    dsimp only
    generalize n * 8 / w = e
    have h8 : (e + 1 + 7 - (e + 1 + 7) % 8) % 8 = 0 := by omega
    constructor
    · omega
    · rw [Nat.mul_mod, h8]; simp

/-- `buffersize(n)` on a state whose file is up to date. -/
theorem setBuffersize_clean {P : Prop} {s : State} {l : List Nat} (w1 : 1 ≤ s.buffer.width) (w64 : s.buffer.width ≤ 64)
    (size : s.size = l.length) (lt : ∀ x ∈ l, x < 2 ^ s.buffer.width) (tw : s.tw ≠ 0 → s.buffer.width = s.tw)
    (off : s.offset = 0 ∨ s.offset = if s.tw ≠ 0 then 8 else 9)
    (upper : s.file.length ≤ s.offset + padLen s.offset (s.size * s.buffer.width)) (hdk : OnDisk P s l)
    (n : Nat) (junk : Nat → Word) :
    ∃ s', setBuffersize s n junk = some s' ∧ Inv P s' l ∧ Same s s' := by
  unfold setBuffersize
  dsimp only
  have hwb : writeBlock s = some s := by unfold writeBlock; rw [if_neg (by rw [hdk.clean]; simp)]
  have hk := blockElems_spec (w := s.buffer.width) (n := if n = 0 then 8 else n) (by split <;> omega)
  rw [hwb, sbind]
  generalize blockElems s.buffer.width (if n = 0 then 8 else n) = k at hk
  -- the new buffer
  obtain ⟨d, c1, c2⟩ : ∃ d, Util.ctor s.tw junk none k 0#64 s.buffer.width = some ⟨k * s.buffer.width, d, s.buffer.width⟩ ∧
      (k * s.buffer.width + 63) / 64 ≤ d.length := by
    have hcw : (if s.tw = 0 then clampWidth s.buffer.width else s.tw) = s.buffer.width := by
      by_cases h : s.tw = 0
      · rw [if_pos h]; unfold clampWidth; rw [if_pos (by omega)]
      · rw [if_neg h, tw h]
    unfold Util.ctor
    rw [hcw]
    obtain ⟨d, r1, r2, -, -, -, -⟩ := bitResize_eq junk ⟨0, [], s.buffer.width⟩ (by simp) (k * s.buffer.width)
    unfold resize
    simp only at r1 r2 ⊢
    rw [r1, sbind]
    obtain ⟨d2, s1, s2, s3⟩ := Util.setToValue_eq none (v := ⟨k * s.buffer.width, d, s.buffer.width⟩) ⟨w1, w64, r2⟩ 0#64
      (Or.inr (Or.inl rfl))
    exact ⟨d2, s1, by simp only at s2; omega⟩
  rw [c1, sbind, if_pos (by omega)]
  have hb : Base { s with bufsize := k, buffer := ⟨k * s.buffer.width, d, s.buffer.width⟩ } l :=
    ⟨⟨w1, w64, c2⟩, rfl, hk.1, hk.2, size, lt, tw, off, upper⟩
  have hd : OnDisk P { s with bufsize := k, buffer := ⟨k * s.buffer.width, d, s.buffer.width⟩ } l :=
    ⟨hdk.file, hdk.tail, hdk.cover, hdk.clean⟩
  obtain ⟨d', g1, g2⟩ := readBlock_spec hb hd 0
  rw [g1]
  exact ⟨_, rfl, g2, ⟨rfl, rfl, rfl⟩⟩

theorem setBuffersize_spec {P : Prop} {s : State} {l : List Nat} (h : Inv P s l) (n : Nat) (junk : Nat → Word) :
    ∃ s', setBuffersize s n junk = some s' ∧ Inv P s' l ∧ Same s s' := by
  obtain ⟨f, f1, f2⟩ := writeBlock_spec h
  have e : setBuffersize s n junk = setBuffersize { s with file := f, dirty := false } n junk := by
    unfold setBuffersize
    have hwb : writeBlock { s with file := f, dirty := false } = some { s with file := f, dirty := false } := by
      unfold writeBlock; rw [if_neg (by simp)]
    rw [f1, hwb]
  rw [e]
  obtain ⟨s', h1, h2, h3⟩ :=
    setBuffersize_clean f2.wf.w1 f2.wf.w64 f2.size f2.lt f2.tw f2.off f2.upper (f2.onDisk rfl) n junk
  exact ⟨s', h1, h2, ⟨h3.tw, h3.offset, h3.width⟩⟩

theorem reset_spec {P : Prop} {s : State} {l : List Nat} (h : Inv P s l) :
    ∃ s', reset s = some s' ∧ Inv P s' [] ∧ Same s s' := by
  unfold reset
  have hb : Base { s with file := [], dirty := false, size := 0 } [] :=
    ⟨h.wf, h.bsz, h.pos, h.al, rfl, fun x hx => by simp at hx, h.tw, h.off, by simp⟩
  have hd : OnDisk P { s with file := [], dirty := false, size := 0 } [] :=
    ⟨fun q hq => by simp at hq, fun _ q _ => fbit_ge (by simp), Or.inl rfl, rfl⟩
  obtain ⟨d', g1, g2⟩ := readBlock_spec hb hd 0
  rw [g1]
  exact ⟨_, rfl, g2, ⟨rfl, rfl, rfl⟩⟩

/-! ### Files -/

/-- File `f` is what an `int_vector<tw>` of width `w` with elements `l` serialises to. `P` says that the unused bits of
    its last word are zero. -/
def Holds (P : Prop) (tw w : Nat) (l : List Nat) (f : List Byte) : Prop :=
  ∃ v : IntVec, v.WF ∧ v.width = w ∧ v.size = l.length * w ∧ v.elems = l ∧
    (P → ∀ q, v.size ≤ q → q < 64 * v.capWords → bitAt v.data q = false) ∧ ∃ n, v.serialize tw false = some (f, n)

theorem header_length (tw size w : Nat) : (writeHeader tw size w).1.length = if tw ≠ 0 then 8 else 9 := by
  unfold writeHeader
  by_cases h : tw = 0
  · rw [if_pos h, if_neg (by simpa using h)]; simp [wordBytes_length]
  · rw [if_neg h, if_pos h]; simp [wordBytes_length]

theorem serialize_header {tw : Nat} {v : IntVec} (hv : (v.size + 63) / 64 ≤ v.data.length) :
    ∃ n, v.serialize tw false = some ((writeHeader tw v.size v.width).1 ++ bytesOf (v.data.take v.capWords), n) := by
  refine ⟨(if tw = 0 ∨ false = true then 9 else 8) + v.capWords * 8, (serialize_eq hv false).trans ?_⟩
  unfold writeHeader
  by_cases h : tw = 0 <;> simp [h]

theorem elems_of_abits {v : IntVec} {l : List Nat} (hw : 0 < v.width) (hs : v.size = l.length * v.width)
    (hl : ∀ x ∈ l, x < 2 ^ v.width) (h : ∀ q, q < v.size → bitAt v.data q = abits v.width l q) : v.elems = l := by
  apply List.ext_getElem?
  intro i
  rw [elems_get?, hs, Nat.mul_div_cancel _ hw]
  by_cases hi : i < l.length
  · rw [if_pos hi, List.getElem?_eq_getElem hi]
    congr 1
    unfold elem
    rw [field_abits (i := i) hw hl]
    · rw [List.getD_eq_getElem?_getD, List.getElem?_eq_getElem hi]; rfl
    · intro j hj
      apply h
      rw [hs]
      have := Nat.mul_le_mul_right v.width (show i + 1 ≤ l.length from hi)
      rw [Nat.add_mul, Nat.one_mul] at this
      omega
  · rw [if_neg hi, List.getElem?_eq_none (by omega)]

/-- `close` writes a file that holds the list. -/
theorem close_spec {P : Prop} {s : State} {l : List Nat} (h : Inv P s l) (ho : s.offset ≠ 0) :
    ∃ f, close s = some f ∧ Holds P s.tw s.buffer.width l f := by
  obtain ⟨f0, f1, f2⟩ := writeBlock_spec h
  have hd := f2.onDisk rfl
  have hfile := hd.file
  have htail := hd.tail
  have hcov := hd.cover
  have hup := f2.upper
  have hoff : s.offset = if s.tw ≠ 0 then 8 else 9 := h.off.resolve_left ho
  have hw1 := h.wf.w1
  dsimp only at hfile htail hcov hup
  unfold padLen at hup
  rw [if_neg ho] at hup
  unfold close
  rw [f1, sbind]
  dsimp only
  rw [if_pos (by omega)]
  have hhl := header_length s.tw (s.size * s.buffer.width) s.buffer.width
  rw [← hoff] at hhl
  generalize hH : (writeHeader s.tw (s.size * s.buffer.width) s.buffer.width).1 = H at hhl
  have hHne : H ≠ [] := by intro e; rw [e] at hhl; simp at hhl; omega
  have hl1 := seekWrite_length (f := f0) (pos := 0) hHne
  have hb1 := fbit_seekWrite f0 0 H
  generalize hF1 : seekWrite f0 0 H = F1 at hl1 hb1
  have hs0 : s.size = 0 → s.size * s.buffer.width = 0 := by intro e; rw [e]; simp
  have hsz := h.size
  generalize hN : s.size * s.buffer.width = N at *
  -- the final file
  obtain ⟨F, hFe, hFl, hFb⟩ : ∃ F, (if ((N + 7) / 8) % 8 ≠ 0 then
        seekWrite F1 (s.offset + (N + 7) / 8) (List.replicate (8 - (N + 7) / 8 % 8) 0#8) else F1) = F ∧
      F.length = s.offset + 8 * ((N + 63) / 64) ∧ ∀ q, fbit F q = if q < 8 * s.offset then fbit H q
        else if 8 * (s.offset + (N + 7) / 8) ≤ q ∧ q < 8 * (s.offset + 8 * ((N + 63) / 64)) then false else fbit f0 q := by
    by_cases c : ((N + 7) / 8) % 8 ≠ 0
    · refine ⟨_, if_pos c, ?_, ?_⟩
      · rw [seekWrite_length (by intro e; have := congrArg List.length e; simp at this; omega), List.length_replicate, hl1]
        rcases hcov with c2 | c2
        · have := hs0 c2; omega
        · omega
      · intro q
        rw [fbit_seekWrite, List.length_replicate, fbit_zeros, hb1]
        by_cases c1 : q < 8 * s.offset
        · rw [if_pos c1, if_neg (by omega), if_pos (by omega)]; rfl
        · rw [if_neg c1]
          by_cases c2 : 8 * (s.offset + (N + 7) / 8) ≤ q ∧ q < 8 * (s.offset + 8 * ((N + 63) / 64))
          · rw [if_pos c2, if_pos (by omega)]
          · rw [if_neg c2, if_neg (by omega), if_neg (by omega)]
    · refine ⟨_, if_neg c, ?_, ?_⟩
      · rw [hl1]
        rcases hcov with c2 | c2
        · have := hs0 c2; omega
        · omega
      · intro q
        rw [hb1]
        by_cases c1 : q < 8 * s.offset
        · rw [if_pos c1, if_pos (by omega)]; rfl
        · rw [if_neg c1, if_neg (by omega), if_neg (by omega)]
  rw [hFe]
  obtain ⟨ws, w1, w2⟩ := exists_words ((N + 63) / 64) (F.drop s.offset) (by rw [List.length_drop]; omega)
  have hbits : ∀ q, q < 64 * ((N + 63) / 64) → bitAt ws q = if 8 * ((N + 7) / 8) ≤ q then false else fbit f0 (8 * s.offset + q) := by
    intro q hq
    rw [← fbit_bytesOf, w1, fbit_drop, hFb, if_neg (by omega)]
    by_cases c : 8 * ((N + 7) / 8) ≤ q
    · rw [if_pos (by omega), if_pos c]
    · rw [if_neg (by omega), if_neg c]
  have hNl : N = l.length * s.buffer.width := by rw [← hN, hsz]
  have hv : ((⟨N, ws, s.buffer.width⟩ : IntVec).size + 63) / 64 ≤ (⟨N, ws, s.buffer.width⟩ : IntVec).data.length := by
    simp only; omega
  refine ⟨F, rfl, ⟨N, ws, s.buffer.width⟩, ⟨h.wf.w1, h.wf.w64, hv⟩, rfl, hNl, ?_, ?_, ?_⟩
  · apply elems_of_abits (v := ⟨N, ws, s.buffer.width⟩) hw1 hNl h.lt
    dsimp only
    intro q hq
    rw [hbits q (by omega), if_neg (by omega), hfile q hq]
  · intro hP q hq hq2
    unfold capWords at hq2
    dsimp only at hq hq2 ⊢
    rw [hbits q hq2]
    split
    · rfl
    · exact htail hP q hq
  · obtain ⟨n, hn⟩ := serialize_header (tw := s.tw) hv
    refine ⟨n, hn.trans ?_⟩
    congr 2
    unfold capWords
    dsimp only
    rw [hH, List.take_of_length_le (by omega), w1]
    apply file_ext
    · rw [List.length_append, List.length_drop]; omega
    · intro q hq
      rw [fbit_append, hhl, fbit_drop]
      by_cases c : q < 8 * s.offset
      · rw [if_pos c, hFb, if_pos c]
      · rw [if_neg c]; congr 1; omega

/-- Plain files: `close` leaves exactly the bits of the list. -/
theorem close_plain {P : Prop} {s : State} {l : List Nat} (h : Inv P s l) (ho : s.offset = 0)
    (h8 : s.buffer.width % 8 = 0) :
    ∃ f, close s = some f ∧ 8 * f.length = l.length * s.buffer.width ∧
      ∀ q, q < l.length * s.buffer.width → fbit f q = abits s.buffer.width l q := by
  obtain ⟨f0, f1, f2⟩ := writeBlock_spec h
  have hd := f2.onDisk rfl
  have hfile := hd.file
  have hcov := hd.cover
  have hup := f2.upper
  have hsz := h.size
  dsimp only at hfile hcov hup
  unfold padLen at hup
  rw [if_pos ho] at hup
  unfold close
  rw [f1, sbind]
  dsimp only
  rw [if_neg (by omega)]
  have hm : s.size * s.buffer.width % 8 = 0 := by rw [Nat.mul_mod, h8]; simp
  rw [← hsz]
  refine ⟨f0, rfl, ?_, ?_⟩
  · rcases hcov with c | c
    · rw [c] at hup ⊢; simp at hup ⊢; rw [ho] at hup; omega
    · omega
  · intro q hq
    rw [← hfile q hq, ho]; simp

theorem headerLen_off (tw : Nat) (plain : Bool) :
    headerLen tw plain = 0 ∨ headerLen tw plain = if tw ≠ 0 then 8 else 9 := by
  unfold headerLen; cases plain <;> simp

theorem openOut_spec (P : Prop) (tw : Nat) (plain : Bool) (w n : Nat) (junk : Nat → Word) (htw : tw ≤ 64) :
    ∃ s, openOut tw plain w n junk = some s ∧ Inv P s [] ∧ s.tw = tw ∧ s.offset = headerLen tw plain ∧
      s.buffer.width = if tw = 0 then clampWidth w else tw := by
  unfold openOut
  have hw : 1 ≤ (if tw = 0 then clampWidth w else tw) ∧ (if tw = 0 then clampWidth w else tw) ≤ 64 := by
    unfold clampWidth; split <;> (try split) <;> omega
  obtain ⟨s, h1, h2, h3⟩ := setBuffersize_clean (P := P) (l := [])
    (s := { tw := tw, file := [], buffer := ⟨0, [], if tw = 0 then clampWidth w else tw⟩, dirty := false,
            offset := headerLen tw plain, bufsize := 8, size := 0, beg := 0 }) hw.1 hw.2 rfl (fun x hx => by simp at hx)
    (fun h => by dsimp only at h ⊢; rw [if_neg h]) (headerLen_off tw plain) (by simp)
    ⟨fun q hq => by simp at hq, fun _ q _ => fbit_ge (by simp), Or.inl rfl, rfl⟩ n junk
  exact ⟨s, h1, h2, h3.tw, h3.offset, h3.width⟩

theorem elems_bits {v : IntVec} (hw : 0 < v.width) (hs : ∃ k, v.size = k * v.width) {q : Nat} (hq : q < v.size) :
    abits v.width v.elems q = bitAt v.data q := by
  obtain ⟨k, hk⟩ := hs
  unfold abits
  have hi : q / v.width < v.size / v.width := by
    rw [hk, Nat.mul_div_cancel _ hw]
    exact (Nat.div_lt_iff_lt_mul hw).2 (by omega)
  rw [elems_getD hi]
  unfold elem
  rw [testBit_field]
  simp only [Nat.mod_lt _ hw, decide_true, Bool.true_and]
  rw [Nat.mul_comm, Nat.div_add_mod]

/-- Opening a plain file whose length is a multiple of the element size. -/
theorem openIn_plain {P : Prop} {tw W : Nat} {l : List Nat} {f : List Byte} (w n : Nat) (junk : Nat → Word)
    (htw : tw ≤ 64) (hW : (if tw = 0 then clampWidth w else tw) = W) (hl : ∀ x ∈ l, x < 2 ^ W)
    (hlen : 8 * f.length = l.length * W) (hb : ∀ q, q < l.length * W → fbit f q = abits W l q) :
    ∃ s, openIn tw true w n junk f = some s ∧ Inv P s l ∧ s.tw = tw ∧ s.offset = 0 ∧ s.buffer.width = W := by
  have hw : 1 ≤ W ∧ W ≤ 64 := by
    rw [← hW]; unfold clampWidth; split <;> (try split) <;> omega
  have hopen : openIn tw true w n junk f = setBuffersize
      { tw := tw, file := f, buffer := ⟨0, [], W⟩, dirty := false, offset := 0, bufsize := 8, size := l.length, beg := 0 }
      n junk := by
    unfold openIn
    dsimp only
    rw [hW, if_pos rfl, sbind]
    dsimp only
    rw [show f.length * 8 = l.length * W by omega, Nat.mul_div_cancel _ hw.1]
    rfl
  rw [hopen]
  obtain ⟨s, h1, h2, h3⟩ := setBuffersize_clean (P := P) (l := l)
    (s := { tw := tw, file := f, buffer := ⟨0, [], W⟩, dirty := false, offset := 0, bufsize := 8, size := l.length, beg := 0 })
    hw.1 hw.2 rfl hl (fun h => by dsimp only at h ⊢; rw [← hW, if_neg h]) (Or.inl rfl)
    (by dsimp only; unfold padLen; rw [if_pos rfl]; omega)
    ⟨fun q hq => by dsimp only at hq ⊢; rw [← hb q hq]; simp, fun _ q hq => fbit_ge (by dsimp only at hq ⊢; omega),
      by dsimp only; right; omega, rfl⟩ n junk
  exact ⟨s, h1, h2, h3.tw, h3.offset, h3.width⟩

/-- Opening an int_vector file. -/
theorem openIn_spec {P : Prop} {tw W : Nat} {l : List Nat} {f : List Byte} (hf : Holds P tw W l f) (w n : Nat)
    (junk : Nat → Word) (htw : tw ≠ 0 → W = tw) (hs : l.length * W < 2 ^ 64) :
    ∃ s, openIn tw false w n junk f = some s ∧ Inv P s l ∧ s.tw = tw ∧ s.offset = headerLen tw false ∧ s.buffer.width = W := by
  obtain ⟨v, v1, v2, v3, v4, v5, k, v6⟩ := hf
  have hw1 := v1.w1
  have hw64 := v1.w64
  subst v2
  obtain ⟨k2, hser⟩ := serialize_header (tw := tw) v1.fit
  rw [v6] at hser
  simp only [Option.some.injEq, Prod.mk.injEq] at hser
  obtain ⟨hser, -⟩ := hser
  have hhl := header_length tw v.size v.width
  have hcap : (v.data.take v.capWords).length = v.capWords := by
    rw [List.length_take]; have := v1.fit; unfold capWords; omega
  have hfl : f.length = headerLen tw false + 8 * v.capWords := by
    rw [hser, List.length_append, bytesOf_length, hhl, hcap]; rfl
  have hfb : ∀ q, q < 64 * v.capWords → fbit f (8 * headerLen tw false + q) = bitAt v.data q := by
    intro q hq
    have e : (writeHeader tw v.size v.width).1.length = headerLen tw false := by rw [hhl]; rfl
    rw [hser, fbit_append, e, if_neg (by omega), fbit_bytesOf, Nat.add_sub_cancel_left]
    apply bitAt_of_getElem?
    rw [List.getElem?_take, if_pos (by omega)]
  have hsize : (BitVec.ofNat 64 v.size).toNat = v.size := by
    rw [BitVec.toNat_ofNat]; exact Nat.mod_eq_of_lt (by rw [v3]; exact hs)
  have htake : bytesWord (f.take 8) = some (BitVec.ofNat 64 v.size) := by
    rw [hser]
    unfold writeHeader
    split
    · rw [List.append_assoc, take_append_wordBytes, bytesWord_wordBytes]
    · rw [take_append_wordBytes, bytesWord_wordBytes]
  have hcapN : v.size ≤ 64 * v.capWords := by unfold capWords; omega
  have hne : v.size / v.width = l.length := by rw [v3, Nat.mul_div_cancel _ hw1]
  have hl' : ∀ x ∈ l, x < 2 ^ v.width := by
    intro x hx
    rw [← v4] at hx
    unfold elems at hx
    obtain ⟨i, -, rfl⟩ := List.mem_map.1 hx
    exact v.elem_lt i
  have hcl : clampWidth (BitVec.ofNat 8 v.width).toNat = v.width := by
    rw [BitVec.toNat_ofNat, Nat.mod_eq_of_lt (by omega)]; unfold clampWidth; rw [if_pos (by omega)]
  have hopen : openIn tw false w n junk f = setBuffersize
      { tw := tw, file := f, buffer := ⟨0, [], v.width⟩, dirty := false, offset := headerLen tw false, bufsize := 8,
        size := l.length, beg := 0 } n junk := by
    unfold openIn
    dsimp only
    rw [if_neg (by simp), htake, sbind]
    by_cases h : tw = 0
    · have h9 : f[8]? = some (BitVec.ofNat 8 v.width) := by
        rw [hser]
        unfold writeHeader
        rw [if_pos h]
        dsimp only
        rw [List.append_assoc, List.getElem?_append_right (by rw [wordBytes_length]; omega), wordBytes_length]
        rfl
      rw [if_pos h, h9, sbind]
      simp only [hcl, hsize]
      rw [← hne]
      rfl
    · rw [if_neg h, if_neg h]
      have := htw h
      simp only [hsize]
      rw [← this, ← hne]
      rfl
  rw [hopen]
  obtain ⟨s, h1, h2, h3⟩ := setBuffersize_clean (P := P) (l := l)
    (s := { tw := tw, file := f, buffer := ⟨0, [], v.width⟩, dirty := false, offset := headerLen tw false, bufsize := 8,
            size := l.length, beg := 0 }) hw1 hw64 rfl hl' htw (headerLen_off tw false)
    (by
      dsimp only
      rw [hfl, ← v3]
      have : headerLen tw false ≠ 0 := by unfold headerLen; simp; split <;> omega
      unfold padLen capWords
      rw [if_neg this]; omega)
    (by
      constructor
      · dsimp only
        intro q hq
        rw [← v3] at hq
        rw [hfb q (by omega), ← v4, elems_bits hw1 ⟨_, v3⟩ hq]
      · dsimp only
        intro hP q hq
        rw [← v3] at hq
        by_cases c : q < 64 * v.capWords
        · rw [hfb q c]; exact v5 hP q hq c
        · exact fbit_ge (by omega)
      · dsimp only
        right; rw [← v3]; omega
      · rfl) n junk
  exact ⟨s, h1, h2, h3.tw, h3.offset, h3.width⟩

/-! ### Histories -/

/-- The operations on a plain list of numbers below `2^w`: the new list and the returned values. -/
def specStep (w : Nat) (l : List Nat) : Op → List Nat × List Nat
  | .read i => (l, [l.getD i 0])
  | .write i x => (growSet l i (x.toNat % 2 ^ w), [])
  | .pushBack x => (l ++ [x.toNat % 2 ^ w], [])
  | .copy i j => (growSet l i (l.getD j 0), [])
  | .add i x => (growSet l i ((l.getD i 0 + x.toNat) % 2 ^ w), [])
  | .sub i x => (growSet l i (((l.getD i 0 : Int) - x.toNat) % 2 ^ w).toNat, [])
  | .postInc i => (growSet l i ((l.getD i 0 + 1) % 2 ^ w), [l.getD i 0])
  | .postDec i => (growSet l i (((l.getD i 0 : Int) - 1) % 2 ^ w).toNat, [l.getD i 0])
  | .less i j => (l, [if l.getD i 0 < l.getD j 0 then 1 else 0])
  | .buffersize _ _ => (l, [])
  | .reset => ([], [])

/-- A history on a plain list. -/
def specRun (w : Nat) (l : List Nat) : List Op → List Nat × List Nat
  | [] => (l, [])
  | op :: ops =>
    let r := specStep w l op
    let t := specRun w r.1 ops
    (t.1, r.2 ++ t.2)

/-- The operation does not write behind the end of a list of length `n`, except by appending. -/
def Op.dense (n : Nat) : Op → Prop
  | .write i _ | .copy i _ | .add i _ | .sub i _ | .postInc i | .postDec i => i ≤ n
  | _ => True

/-- No operation of the history leaves a gap. -/
def denseRun (w : Nat) (l : List Nat) : List Op → Prop
  | [] => True
  | op :: ops => op.dense l.length ∧ denseRun w (specStep w l op).1 ops

theorem growSet_append (l : List Nat) (x : Nat) : growSet l l.length x = l ++ [x] := by
  unfold growSet
  rw [show l.length + 1 - l.length = 1 by omega, List.set_append, if_neg (by omega), Nat.sub_self]
  rfl

theorem sub_toNat {w a : Nat} (hw : w ≤ 64) {y : Word} (hy : y.toNat = a) (x : Word) :
    (y - x).toNat % 2 ^ w = (((a : Int) - x.toNat) % 2 ^ w).toNat := by
  rw [BitVec.toNat_sub, hy]
  exact sub_mod_pow hw x.isLt

theorem step_spec {P : Prop} {s : State} {l : List Nat} (h : Inv P s l) (op : Op) (hg : P ∨ op.dense l.length) :
    ∃ s', step s op = some (s', (specStep s.buffer.width l op).2) ∧ Inv P s' (specStep s.buffer.width l op).1 ∧ Same s s' := by
  have hw64 := h.wf.w64
  have hmod : ∀ i, l.getD i 0 % 2 ^ s.buffer.width = l.getD i 0 := fun i => Nat.mod_eq_of_lt (getD_lt h.lt i)
  cases op with
  | read i =>
    obtain ⟨s1, x, r1, r2, r3, r4⟩ := read_spec h i
    refine ⟨s1, ?_, r2, r3⟩
    simp only [step, specStep, r1, sbind, r4]; rfl
  | write i x =>
    obtain ⟨s1, r1, r2, r3⟩ := write_spec h i x hg
    refine ⟨s1, ?_, r2, r3⟩
    simp only [step, specStep, r1, sbind]; rfl
  | pushBack x =>
    obtain ⟨s1, r1, r2, r3⟩ := write_spec h l.length x (Or.inr (Nat.le_refl _))
    rw [growSet_append] at r2
    refine ⟨s1, ?_, r2, r3⟩
    simp only [step, specStep, pushBack, h.size, r1, sbind]; rfl
  | copy i j =>
    obtain ⟨s1, x, r1, r2, r3, r4⟩ := read_spec h j
    obtain ⟨s2, g1, g2, g3⟩ := write_spec r2 i x hg
    rw [r4, r3.width, hmod] at g2
    refine ⟨s2, ?_, g2, r3.trans g3⟩
    simp only [step, specStep, r1, sbind, g1]; rfl
  | add i x =>
    obtain ⟨s1, y, r1, r2, r3, r4⟩ := read_spec h i
    obtain ⟨s2, g1, g2, g3⟩ := write_spec r2 i (y + x) hg
    rw [BitVec.toNat_add, mod_pow64 r2.wf.w64, r4, r3.width] at g2
    refine ⟨s2, ?_, g2, r3.trans g3⟩
    simp only [step, specStep, r1, sbind, g1]; rfl
  | sub i x =>
    obtain ⟨s1, y, r1, r2, r3, r4⟩ := read_spec h i
    obtain ⟨s2, g1, g2, g3⟩ := write_spec r2 i (y - x) hg
    rw [sub_toNat r2.wf.w64 r4, r3.width] at g2
    refine ⟨s2, ?_, g2, r3.trans g3⟩
    simp only [step, specStep, r1, sbind, g1]; rfl
  | postInc i =>
    obtain ⟨s0, z, q1, q2, q3, q4⟩ := read_spec h i
    obtain ⟨s1, y, r1, r2, r3, r4⟩ := read_spec q2 i
    obtain ⟨s2, g1, g2, g3⟩ := write_spec r2 i (y + 1#64) hg
    rw [BitVec.toNat_add, mod_pow64 r2.wf.w64, r4, r3.width, q3.width] at g2
    refine ⟨s2, ?_, g2, (q3.trans r3).trans g3⟩
    simp only [step, specStep, q1, r1, sbind, g1, q4]; rfl
  | postDec i =>
    obtain ⟨s0, z, q1, q2, q3, q4⟩ := read_spec h i
    obtain ⟨s1, y, r1, r2, r3, r4⟩ := read_spec q2 i
    obtain ⟨s2, g1, g2, g3⟩ := write_spec r2 i (y - 1#64) hg
    rw [sub_toNat r2.wf.w64 r4, r3.width, q3.width] at g2
    refine ⟨s2, ?_, g2, (q3.trans r3).trans g3⟩
    simp only [step, specStep, q1, r1, sbind, g1, q4]; rfl
  | less i j =>
    obtain ⟨s0, z, q1, q2, q3, q4⟩ := read_spec h i
    obtain ⟨s1, y, r1, r2, r3, r4⟩ := read_spec q2 j
    refine ⟨s1, ?_, r2, q3.trans r3⟩
    simp only [step, specStep, q1, r1, sbind, q4, r4]; rfl
  | buffersize n junk =>
    obtain ⟨s1, r1, r2, r3⟩ := setBuffersize_spec h n junk
    refine ⟨s1, ?_, r2, r3⟩
    simp only [step, specStep, r1, sbind]; rfl
  | reset =>
    obtain ⟨s1, r1, r2, r3⟩ := reset_spec h
    refine ⟨s1, ?_, r2, r3⟩
    simp only [step, specStep, r1, sbind]; rfl

theorem run_spec {P : Prop} (ops : List Op) : ∀ {s : State} {l : List Nat}, Inv P s l →
    (P ∨ denseRun s.buffer.width l ops) →
    ∃ s', run s ops = some (s', (specRun s.buffer.width l ops).2) ∧ Inv P s' (specRun s.buffer.width l ops).1 ∧ Same s s' := by
  induction ops with
  | nil => intro s l h _; exact ⟨s, rfl, h, Same.refl s⟩
  | cons op ops ih =>
    intro s l h hg
    obtain ⟨s1, h1, h2, h3⟩ := step_spec h op (hg.imp id (·.1))
    obtain ⟨s2, g1, g2, g3⟩ := ih h2 (by rw [h3.width]; exact hg.imp id (·.2))
    rw [h3.width] at g1 g2
    refine ⟨s2, ?_, g2, h3.trans g3⟩
    simp only [run, h1, sbind, g1, specRun]; rfl

end Sdsl.Ivb
