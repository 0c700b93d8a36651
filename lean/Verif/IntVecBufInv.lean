/-
  The invariant of `int_vector_buffer` and its preservation by the block operations.
-/
import Verif.IntVecBufLemmas

namespace Sdsl.Ivb

open Spec Bits IntVec

/-- Bit `q` of the abstract sequence `l` of `w`-bit numbers, `false` beyond its end. -/
def abits (w : Nat) (l : List Nat) (q : Nat) : Bool := (l.getD (q / w) 0).testBit (q % w)

theorem abits_ge {w : Nat} {l : List Nat} {q : Nat} (hw : 0 < w) (h : l.length * w ≤ q) : abits w l q = false := by
  unfold abits
  have : l.length ≤ q / w := (Nat.le_div_iff_mul_le hw).2 h
  rw [List.getD_eq_getElem?_getD, List.getElem?_eq_none this]
  simp

/-- The abstract write: the list grows with zeros if needed. -/
def growSet (l : List Nat) (i x : Nat) : List Nat := (l ++ List.replicate (i + 1 - l.length) 0).set i x

theorem growSet_length (l : List Nat) (i x : Nat) : (growSet l i x).length = max l.length (i + 1) := by
  unfold growSet; rw [List.length_set, List.length_append, List.length_replicate]; omega

theorem growSet_getD (l : List Nat) (i x j : Nat) : (growSet l i x).getD j 0 = if j = i then x else l.getD j 0 := by
  unfold growSet
  rw [List.getD_eq_getElem?_getD, List.getElem?_set, List.getD_eq_getElem?_getD]
  by_cases h : j = i
  · subst h
    rw [if_pos rfl, if_pos (by rw [List.length_append, List.length_replicate]; omega), if_pos rfl]; rfl
  · rw [if_neg (Ne.symm h), if_neg h, List.getElem?_append]
    by_cases h2 : j < l.length
    · rw [if_pos h2]
    · rw [if_neg h2, List.getElem?_replicate, List.getElem?_eq_none (by omega)]
      split <;> rfl

theorem growSet_lt {w : Nat} {l : List Nat} {i x : Nat} (hl : ∀ y ∈ l, y < 2 ^ w) (hx : x < 2 ^ w) :
    ∀ y ∈ growSet l i x, y < 2 ^ w := by
  intro y hy
  unfold growSet at hy
  rcases List.mem_or_eq_of_mem_set hy with h | h
  · rcases List.mem_append.1 h with h | h
    · exact hl y h
    · rw [(List.mem_replicate.1 h).2]; exact Nat.two_pow_pos w
  · omega

theorem abits_growSet (w : Nat) (l : List Nat) (i x q : Nat) :
    abits w (growSet l i x) q = if q / w = i then x.testBit (q % w) else abits w l q := by
  unfold abits
  rw [growSet_getD]
  split <;> rfl

/-- Length of the data part of a file for `n` bits: whole words in an int_vector file, whole bytes in a plain file. -/
def padLen (offset n : Nat) : Nat := if offset = 0 then (n + 7) / 8 else (n + 63) / 64 * 8

theorem padLen_mono (offset : Nat) {a b : Nat} (h : a ≤ b) : padLen offset a ≤ padLen offset b := by
  unfold padLen; split <;> omega

theorem le_padLen (offset n : Nat) : (n + 7) / 8 ≤ padLen offset n := by
  unfold padLen; split <;> omega

/-- Shape of the state and its relation to the abstract list. -/
structure Base (s : State) (l : List Nat) : Prop where
  wf : s.buffer.WF
  bsz : s.buffer.size = s.bufsize * s.buffer.width
  pos : 0 < s.bufsize
  al : s.bufsize * s.buffer.width % 8 = 0
  size : s.size = l.length
  lt : ∀ x ∈ l, x < 2 ^ s.buffer.width
  tw : s.tw ≠ 0 → s.buffer.width = s.tw
  off : s.offset = 0 ∨ s.offset = if s.tw ≠ 0 then 8 else 9
  upper : s.file.length ≤ s.offset + padLen s.offset (s.size * s.buffer.width)

/-- The file holds the list. `P` says that the bits after the last element are zero. -/
structure OnDisk (P : Prop) (s : State) (l : List Nat) : Prop where
  file : ∀ q, q < s.size * s.buffer.width → fbit s.file (8 * s.offset + q) = abits s.buffer.width l q
  tail : P → ∀ q, s.size * s.buffer.width ≤ q → fbit s.file (8 * s.offset + q) = false
  cover : s.size = 0 ∨ 8 * s.offset + s.size * s.buffer.width ≤ 8 * s.file.length
  clean : s.dirty = false

/-- The invariant between operations. -/
structure Inv (P : Prop) (s : State) (l : List Nat) : Prop extends Base s l where
  beg : ∃ k, s.beg = k * s.bufsize
  buf : ∀ q, q < s.bufsize * s.buffer.width → bitAt s.buffer.data q = abits s.buffer.width l (s.beg * s.buffer.width + q)
  file : ∀ q, q < s.size * s.buffer.width →
    (s.dirty = false ∨ q < s.beg * s.buffer.width ∨ s.beg * s.buffer.width + s.bufsize * s.buffer.width ≤ q) →
    fbit s.file (8 * s.offset + q) = abits s.buffer.width l q
  tail : P → ∀ q, s.size * s.buffer.width ≤ q → fbit s.file (8 * s.offset + q) = false
  cover : s.size = 0 ∨ 8 * s.offset + s.size * s.buffer.width ≤ 8 * s.file.length ∨
    (s.dirty = true ∧ s.size ≤ s.beg + s.bufsize)
  dsize : s.dirty = true → s.beg < s.size

theorem Inv.onDisk {P : Prop} {s : State} {l : List Nat} (h : Inv P s l) (hd : s.dirty = false) : OnDisk P s l := by
  refine ⟨fun q hq => h.file q hq (Or.inl hd), h.tail, ?_, hd⟩
  rcases h.cover with c | c | c
  · exact Or.inl c
  · exact Or.inr c
  · rw [hd] at c; exact absurd c.1 (by simp)

theorem Inv.beg8 {P : Prop} {s : State} {l : List Nat} (h : Inv P s l) : s.beg * s.buffer.width % 8 = 0 := by
  obtain ⟨k, hk⟩ := h.beg
  rw [hk, Nat.mul_assoc, Nat.mul_mod, h.al]; simp

/-- `write_block` leaves the same buffer and brings the file up to date. -/
theorem writeBlock_spec {P : Prop} {s : State} {l : List Nat} (h : Inv P s l) :
    ∃ f, writeBlock s = some { s with file := f, dirty := false } ∧ Inv P { s with file := f, dirty := false } l := by
  unfold writeBlock
  by_cases hd : s.dirty = true
  rotate_left
  · have hd' : s.dirty = false := by simpa using hd
    rw [if_neg hd]
    refine ⟨s.file, by cases s; simp only at hd'; subst hd'; rfl, ?_⟩
    have : ({ s with file := s.file, dirty := false } : State) = s := by cases s; simp only at hd'; subst hd'; rfl
    rw [this]; exact h
  rw [if_pos hd]
  have hsz := h.dsize hd
  have hw1 := h.wf.w1
  have hal := h.al
  have hb8 := h.beg8
  have hfit := h.wf.fit
  rw [h.bsz] at hfit
  have hle : s.beg * s.buffer.width + s.buffer.width ≤ s.size * s.buffer.width := by
    have := Nat.mul_le_mul_right s.buffer.width (show s.beg + 1 ≤ s.size from hsz); rwa [Nat.add_mul, Nat.one_mul] at this
  have hsub : (s.size - s.beg) * s.buffer.width = s.size * s.buffer.width - s.beg * s.buffer.width := Nat.sub_mul _ _ _
  generalize hwb : (if s.beg + s.bufsize ≥ s.size then ((s.size - s.beg) * s.buffer.width + 7) / 8
      else s.bufsize * s.buffer.width / 8) = wb
  have hcase : (s.size ≤ s.beg + s.bufsize ∧ wb = ((s.size * s.buffer.width - s.beg * s.buffer.width) + 7) / 8 ∧
        s.size * s.buffer.width ≤ s.beg * s.buffer.width + s.bufsize * s.buffer.width) ∨
      (¬ s.size ≤ s.beg + s.bufsize ∧ wb = s.bufsize * s.buffer.width / 8 ∧
        s.beg * s.buffer.width + s.bufsize * s.buffer.width ≤ s.size * s.buffer.width) := by
    by_cases c : s.size ≤ s.beg + s.bufsize
    · rw [if_pos c, hsub] at hwb
      exact Or.inl ⟨c, hwb.symm, by rw [← Nat.add_mul]; exact Nat.mul_le_mul_right _ c⟩
    · rw [if_neg c] at hwb
      exact Or.inr ⟨c, hwb.symm, by rw [← Nat.add_mul]; exact Nat.mul_le_mul_right _ (by omega)⟩
  have hup := h.upper
  have hpad := le_padLen s.offset (s.size * s.buffer.width)
  have hbuf := h.buf
  have hfile := h.file
  have htail := h.tail
  have hcov := h.cover
  have hK0 : 0 < s.bufsize * s.buffer.width := Nat.mul_pos h.pos hw1
  generalize hB : s.beg * s.buffer.width = B at *
  generalize hN : s.size * s.buffer.width = N at *
  generalize hK : s.bufsize * s.buffer.width = K at *
  have hpos8 : 8 * (s.offset + B / 8) = 8 * s.offset + B := by omega
  obtain ⟨bs, o1, o2, o3⟩ := outBytes_eq s.buffer.data wb 0 (by omega)
  have hne : bs ≠ [] := by
    intro e; rw [e] at o2; simp only [List.length_nil] at o2; omega
  have hlen := seekWrite_length (f := s.file) (pos := s.offset + B / 8) hne
  dsimp only
  rw [o1, sbind]
  refine ⟨_, rfl, { h with upper := ?_, beg := h.beg, buf := ?_, file := ?_, tail := ?_, cover := ?_, dsize := ?_ }⟩
  · dsimp only
    rw [hN, hlen, o2]
    omega
  · dsimp only; rw [hK, hB]; exact hbuf
  · dsimp only
    intro q hq _
    rw [hN] at hq
    rw [fbit_seekWrite, o2]
    by_cases c : 8 * (s.offset + B / 8) ≤ 8 * s.offset + q ∧ 8 * s.offset + q < 8 * (s.offset + B / 8 + wb)
    · rw [if_pos c, o3 _ (by omega), hbuf _ (by omega)]
      congr 1; omega
    · rw [if_neg c]
      apply hfile q hq
      omega
  · dsimp only
    rw [hN]
    intro hP q hq
    rw [fbit_seekWrite, o2]
    by_cases c : 8 * (s.offset + B / 8) ≤ 8 * s.offset + q ∧ 8 * s.offset + q < 8 * (s.offset + B / 8 + wb)
    · rw [if_pos c, o3 _ (by omega), hbuf _ (by omega)]
      apply abits_ge hw1
      rw [← h.size, hN]; omega
    · rw [if_neg c]
      exact htail hP q hq
  · dsimp only
    rw [hN, hlen, o2]
    right; left
    rcases hcov with c | c | c
    · omega
    · omega
    · omega
  · intro e; exact absurd e (by simp)

theorem zeroFrom_spec (k : Nat) : ∀ (v : IntVec) (i : Nat), v.WF → i + k ≤ v.size / v.width →
    ∃ d, zeroFrom v i k = some { v with data := d } ∧ d.length = v.data.length ∧
      ∀ q, bitAt d q = if i * v.width ≤ q ∧ q < (i + k) * v.width then false else bitAt v.data q := by
  induction k with
  | zero => intro v i _ _; exact ⟨v.data, rfl, rfl, fun q => by rw [Nat.add_zero, if_neg (by omega)]⟩
  | succ k ih =>
    intro v i hv hi
    obtain ⟨d, h1, h2⟩ := set_eq hv (i := i) (by omega) 0#64
    obtain ⟨d2, g1, g2, g3⟩ := ih { v with data := d } (i + 1) (hv.written h2) (by show _ ≤ v.size / v.width; omega)
    refine ⟨d2, ?_, by have := h2.length; simp only at g2; omega, ?_⟩
    · unfold zeroFrom
      rw [h1, sbind, g1]
    · intro q
      rw [g3]
      dsimp only
      rw [h2.bits]
      have e : i + 1 + k = i + (k + 1) := by omega
      rw [e]
      have e2 : (i + 1) * v.width ≤ (i + (k + 1)) * v.width := Nat.mul_le_mul_right _ (by omega)
      rw [Nat.add_mul i 1, Nat.one_mul] at e2 ⊢
      by_cases c1 : i * v.width + v.width ≤ q ∧ q < (i + (k + 1)) * v.width
      · rw [if_pos c1, if_pos (by omega)]
      · rw [if_neg c1]
        by_cases c2 : i * v.width ≤ q ∧ q < i * v.width + v.width
        · rw [if_pos c2, if_pos (by omega)]; simp
        · rw [if_neg c2, if_neg (by omega)]

/-- `read_block` brings the block of `idx` into the buffer. -/
theorem readBlock_spec {P : Prop} {s : State} {l : List Nat} (h : Base s l) (hdk : OnDisk P s l) (idx : Nat) :
    ∃ d, readBlock s idx = some { s with buffer := { s.buffer with data := d }, beg := idx / s.bufsize * s.bufsize } ∧
      Inv P { s with buffer := { s.buffer with data := d }, beg := idx / s.bufsize * s.bufsize } l := by
  have hpos := h.pos
  have hw1 := h.wf.w1
  have hfit := h.wf.fit
  rw [h.bsz] at hfit
  -- it suffices to describe the buffer
  have key : ∀ d, d.length = s.buffer.data.length →
      (∀ q, q < s.bufsize * s.buffer.width →
        bitAt d q = abits s.buffer.width l (idx / s.bufsize * s.bufsize * s.buffer.width + q)) →
      Inv P { s with buffer := { s.buffer with data := d }, beg := idx / s.bufsize * s.bufsize } l := by
    intro d hd hb
    refine { wf := ⟨h.wf.w1, h.wf.w64, ?_⟩, bsz := h.bsz, pos := h.pos, al := h.al, size := h.size, lt := h.lt,
             tw := h.tw, off := h.off, upper := h.upper, beg := ⟨_, rfl⟩, buf := hb, file := fun q hq _ => hdk.file q hq,
             tail := hdk.tail, cover := ?_, dsize := ?_ }
    · have := h.wf.fit
      show (s.buffer.size + 63) / 64 ≤ d.length
      omega
    · rcases hdk.cover with c | c
      · exact Or.inl c
      · exact Or.inr (Or.inl c)
    · intro e; rw [hdk.clean] at e; exact absurd e (by simp)
  unfold readBlock
  rw [if_neg (by omega)]
  dsimp only
  by_cases hlt : s.size ≤ idx / s.bufsize * s.bufsize
  · rw [if_pos hlt]
    obtain ⟨d, d1, d2, d3⟩ := Util.setToValue_eq none h.wf 0#64 (Or.inr (Or.inl rfl))
    rw [d1, sbind]
    refine ⟨d, rfl, key d d2 ?_⟩
    intro q hq
    rw [d3 q (by rw [h.bsz]; exact hq)]
    rw [abits_ge hw1 ?_]
    · simp
    · rw [← h.size]
      exact Nat.le_trans (Nat.mul_le_mul_right _ hlt) (Nat.le_add_right _ _)
  · rw [if_neg hlt]
    have hal := h.al
    have hb8 : idx / s.bufsize * s.bufsize * s.buffer.width % 8 = 0 := by
      rw [Nat.mul_assoc, Nat.mul_mod, hal]; simp
    generalize hBe : idx / s.bufsize * s.bufsize = be at *
    have hsub : (s.size - be) * s.buffer.width = s.size * s.buffer.width - be * s.buffer.width := Nat.sub_mul _ _ _
    have hle : be * s.buffer.width ≤ s.size * s.buffer.width := Nat.mul_le_mul_right _ (by omega)
    have hfile := hdk.file
    have hcov := hdk.cover
    generalize hgot : (s.file.drop (s.offset + be * s.buffer.width / 8)).take (s.bufsize * s.buffer.width / 8) = got
    have hgl : got.length = min (s.bufsize * s.buffer.width / 8) (s.file.length - (s.offset + be * s.buffer.width / 8)) := by
      rw [← hgot, List.length_take, List.length_drop]
    obtain ⟨d, d1, d2, d3⟩ := inBytes_eq got s.buffer.data 0 (by omega)
    have hwf2 : WF { s.buffer with data := d } := ⟨h.wf.w1, h.wf.w64, by have := h.wf.fit; simp only; omega⟩
    have hdiv : s.buffer.size / s.buffer.width = s.bufsize := by rw [h.bsz, Nat.mul_div_cancel _ hw1]
    obtain ⟨d', g1, g2, g3⟩ : ∃ d', zeroFrom { s.buffer with data := d } (s.size - be) (s.bufsize - (s.size - be)) =
        some { s.buffer with data := d' } ∧ d'.length = d.length ∧ ∀ q, q < s.bufsize * s.buffer.width →
        bitAt d' q = if (s.size - be) * s.buffer.width ≤ q then false else bitAt d q := by
      by_cases c : s.size - be ≤ s.bufsize
      · obtain ⟨d', g1, g2, g3⟩ := zeroFrom_spec (s.bufsize - (s.size - be)) { s.buffer with data := d } (s.size - be) hwf2
          (by simp only; rw [hdiv]; omega)
        refine ⟨d', g1, g2, fun q hq => ?_⟩
        rw [g3]
        dsimp only
        rw [show s.size - be + (s.bufsize - (s.size - be)) = s.bufsize by omega]
        by_cases c2 : (s.size - be) * s.buffer.width ≤ q
        · rw [if_pos ⟨c2, hq⟩, if_pos c2]
        · rw [if_neg (by omega), if_neg c2]
      · rw [show s.bufsize - (s.size - be) = 0 by omega]
        refine ⟨d, rfl, rfl, fun q hq => ?_⟩
        have : s.bufsize * s.buffer.width ≤ (s.size - be) * s.buffer.width := Nat.mul_le_mul_right _ (by omega)
        rw [if_neg (by omega)]
    rw [d1, sbind, g1, sbind]
    refine ⟨d', rfl, key d' (by omega) ?_⟩
    intro q hq
    rw [g3 q hq, hsub]
    by_cases c : s.size * s.buffer.width - be * s.buffer.width ≤ q
    · rw [if_pos c, abits_ge hw1 (by rw [← h.size]; omega)]
    · rw [if_neg c, d3]
      have hsz0 : s.size ≠ 0 := by omega
      have : 8 * s.offset + s.size * s.buffer.width ≤ 8 * s.file.length := by
        rcases hcov with c | c
        · exact absurd c hsz0
        · exact c
      rw [if_pos (by omega), ← hgot, fbit_take (by omega), fbit_drop]
      rw [← hfile _ (by omega)]
      congr 1; omega

end Sdsl.Ivb
