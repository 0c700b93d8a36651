/-
  C44: `int_vector_buffer`.
-/
import Verif.IntVecBufOps

namespace Sdsl.Props

open Spec Bits IntVec Ivb

/-- The element width of an `int_vector_buffer<tw>` constructed with `int_width = w`. -/
def ivbWidth (tw w : Nat) : Nat := if tw = 0 then clampWidth w else tw

/-- C44: a buffer on a new file behaves like a list that grows with zeros, under every history of reads, writes (also far
    behind the end), appends, proxy arithmetic, changes of the buffer size and resets, for every width and buffer size.
    After `close` the file is byte for byte what `serialize` writes for an int_vector with these elements (with zero
    padding). -/
theorem C44_new_file (tw w n : Nat) (junk : Nat → Word) (htw : tw ≤ 64) (ops : List Op) :
    ∃ s s' f, openOut tw false w n junk = some s ∧
      run s ops = some (s', (specRun (ivbWidth tw w) [] ops).2) ∧
      s'.size = (specRun (ivbWidth tw w) [] ops).1.length ∧
      close s' = some f ∧ Holds True tw (ivbWidth tw w) (specRun (ivbWidth tw w) [] ops).1 f := by
  obtain ⟨s, h1, h2, h3, h4, h5⟩ := openOut_spec True tw false w n junk htw
  obtain ⟨s', r1, r2, r3⟩ := run_spec ops h2 (Or.inl trivial)
  obtain ⟨f, c1, c2⟩ := close_spec r2 (by rw [r3.offset, h4]; unfold headerLen; simp; split <;> omega)
  rw [h5] at r1 r2
  rw [r3.tw, r3.width, h3, h5] at c2
  exact ⟨s, s', f, h1, r1, r2.size, c1, c2⟩

/-- C44: the same for a buffer that is opened on an existing file with zero padding, such as one written by this class. -/
theorem C44_existing_file (tw W w n : Nat) (junk : Nat → Word) (l : List Nat) (f : List Byte)
    (htw : tw ≠ 0 → W = tw) (hf : Holds True tw W l f) (hs : l.length * W < 2 ^ 64) (ops : List Op) :
    ∃ s s' f', openIn tw false w n junk f = some s ∧ s.size = l.length ∧ run s ops = some (s', (specRun W l ops).2) ∧
      s'.size = (specRun W l ops).1.length ∧ close s' = some f' ∧ Holds True tw W (specRun W l ops).1 f' := by
  obtain ⟨s, h1, h2, h3, h4, h5⟩ := openIn_spec hf w n junk htw hs
  obtain ⟨s', r1, r2, r3⟩ := run_spec ops h2 (Or.inl trivial)
  obtain ⟨f', c1, c2⟩ := close_spec r2 (by rw [r3.offset, h4]; unfold headerLen; simp; split <;> omega)
  rw [h5] at r1 r2
  rw [r3.tw, r3.width, h3, h5] at c2
  exact ⟨s, s', f', h1, h2.size, r1, r2.size, c1, c2⟩

/-- C44: on a file whose padding bits are arbitrary, everything holds as long as no operation writes more than one element
    behind the end. Missing for the full claim: writes that leave a gap, for which it is false (`C44_stale_padding`). -/
theorem C44_arbitrary_padding_partial (tw W w n : Nat) (junk : Nat → Word) (l : List Nat) (f : List Byte)
    (htw : tw ≠ 0 → W = tw) (hf : Holds False tw W l f) (hs : l.length * W < 2 ^ 64) (ops : List Op)
    (hd : denseRun W l ops) :
    ∃ s s' f', openIn tw false w n junk f = some s ∧ s.size = l.length ∧ run s ops = some (s', (specRun W l ops).2) ∧
      s'.size = (specRun W l ops).1.length ∧ close s' = some f' ∧ Holds False tw W (specRun W l ops).1 f' := by
  obtain ⟨s, h1, h2, h3, h4, h5⟩ := openIn_spec hf w n junk htw hs
  obtain ⟨s', r1, r2, r3⟩ := run_spec ops h2 (Or.inr (by rw [h5]; exact hd))
  obtain ⟨f', c1, c2⟩ := close_spec r2 (by rw [r3.offset, h4]; unfold headerLen; simp; split <;> omega)
  rw [h5] at r1 r2
  rw [r3.tw, r3.width, h3, h5] at c2
  exact ⟨s, s', f', h1, h2.size, r1, r2.size, c1, c2⟩

/-- C44: the file left by `close` loads as an int_vector with the elements of the list, into any previous vector. -/
theorem C44_file_loads (tw W : Nat) (P : Prop) (l : List Nat) (f : List Byte) (hf : Holds P tw W l f)
    (htw : tw ≠ 0 → W = tw) (hs : l.length * W < 2 ^ 64) (junk : Nat → Word) (u : IntVec) (hu : u.WF)
    (hut : tw ≠ 0 → u.width = tw) :
    ∃ v, load tw junk u f = some (v, []) ∧ v.WF ∧ v.width = W ∧ v.elems = l := by
  obtain ⟨v, v1, v2, v3, v4, -, k, v6⟩ := hf
  have hcap : (v.data.take v.capWords).length = v.capWords := by
    rw [List.length_take]; have := v1.fit; unfold capWords; omega
  have hser := serialize_eq (tw := tw) v1.fit false
  rw [v6] at hser
  simp only [Option.some.injEq, Prod.mk.injEq] at hser
  obtain ⟨d, l1, l2, l3⟩ := load_eq (tw := tw) junk hu.fit (size := v.size) (width := v.width) (by rw [v3]; exact hs)
    (by have := v1.w64; omega) (v.data.take v.capWords) hcap []
    (fun h => by rw [hut h, v2, htw h])
  rw [List.append_nil] at l1
  have hf : f = (if tw = 0 then wordBytes (BitVec.ofNat 64 v.size) ++ [BitVec.ofNat 8 v.width]
      else wordBytes (BitVec.ofNat 64 v.size)) ++ bytesOf (v.data.take v.capWords) := by
    rw [hser.1]; simp
  rw [← hf] at l1
  refine ⟨_, l1, ⟨v1.w1, v1.w64, l2⟩, v2, ?_⟩
  rw [← v4]
  unfold elems
  apply List.map_congr_left
  intro i hi
  have hi' : i < v.size / v.width := List.mem_range.1 hi
  unfold elem
  dsimp only
  apply field_congr
  intro j hj
  have := v1.end_le hi'
  exact load_bits l3 _ (by omega)

/-- Sessions: a file is created, filled and closed; then repeatedly opened, modified and closed. Returns what the
    operations returned and the final file. -/
def ivbSessions (tw w : Nat) : Option (List Byte) → List (Nat × (Nat → Word) × List Op) → Option (List Nat × List Byte)
  | none, [] => none
  | some f, [] => some ([], f)
  | f, (n, junk, ops) :: rest => do
    let s ← (match f with
      | none => openOut tw false w n junk
      | some f => openIn tw false w n junk f)
    let r ← run s ops
    let f ← close r.1
    let t ← ivbSessions tw w (some f) rest
    pure (r.2 ++ t.1, t.2)

theorem ivbSessions_some (tw w : Nat) (rest : List (Nat × (Nat → Word) × List Op)) : ∀ (l : List Nat) (f : List Byte),
    Holds True tw (ivbWidth tw w) l f →
    (∀ k, (specRun (ivbWidth tw w) l ((rest.take k).flatMap (·.2.2))).1.length * ivbWidth tw w < 2 ^ 64) →
    ∃ f', ivbSessions tw w (some f) rest = some ((specRun (ivbWidth tw w) l (rest.flatMap (·.2.2))).2, f') ∧
      Holds True tw (ivbWidth tw w) (specRun (ivbWidth tw w) l (rest.flatMap (·.2.2))).1 f' := by
  have happ : ∀ (a b : List Op) (l : List Nat), specRun (ivbWidth tw w) l (a ++ b) =
      ((specRun (ivbWidth tw w) (specRun (ivbWidth tw w) l a).1 b).1,
       (specRun (ivbWidth tw w) l a).2 ++ (specRun (ivbWidth tw w) (specRun (ivbWidth tw w) l a).1 b).2) := by
    intro a
    induction a with
    | nil => intro b l; rfl
    | cons op a ih => intro b l; simp only [List.cons_append, specRun, ih, List.append_assoc]
  induction rest with
  | nil => intro l f hf _; exact ⟨f, rfl, hf⟩
  | cons x rest ih =>
    intro l f hf hk
    obtain ⟨n, junk, ops⟩ := x
    have h0 := hk 0
    obtain ⟨s, s', f', o1, -, o2, -, o3, o4⟩ := C44_existing_file tw (ivbWidth tw w) w n junk l f
      (fun h => by unfold ivbWidth; rw [if_neg h]) hf h0 ops
    obtain ⟨f2, g1, g2⟩ := ih _ f' o4 (fun k => by
      have := hk (k + 1)
      rw [List.take_succ_cons, List.flatMap_cons, happ] at this
      exact this)
    refine ⟨f2, ?_, ?_⟩
    · unfold ivbSessions
      simp only [o1, o2, o3, g1, sbind, List.flatMap_cons, happ]; rfl
    · rw [List.flatMap_cons, happ]; exact g2

/-- C44: any number of sessions on one file, each with its own buffer size, behaves like one list that survives between
    the sessions. -/
theorem C44_sessions (tw w : Nat) (htw : tw ≤ 64) (ss : List (Nat × (Nat → Word) × List Op)) (hne : ss ≠ [])
    (hs : ∀ k, (specRun (ivbWidth tw w) [] ((ss.take k).flatMap (·.2.2))).1.length * ivbWidth tw w < 2 ^ 64) :
    ∃ f, ivbSessions tw w none ss = some ((specRun (ivbWidth tw w) [] (ss.flatMap (·.2.2))).2, f) ∧
      Holds True tw (ivbWidth tw w) (specRun (ivbWidth tw w) [] (ss.flatMap (·.2.2))).1 f := by
  have happ : ∀ (a b : List Op) (l : List Nat), specRun (ivbWidth tw w) l (a ++ b) =
      ((specRun (ivbWidth tw w) (specRun (ivbWidth tw w) l a).1 b).1,
       (specRun (ivbWidth tw w) l a).2 ++ (specRun (ivbWidth tw w) (specRun (ivbWidth tw w) l a).1 b).2) := by
    intro a
    induction a with
    | nil => intro b l; rfl
    | cons op a ih => intro b l; simp only [List.cons_append, specRun, ih, List.append_assoc]
  cases ss with
  | nil => exact absurd rfl hne
  | cons x rest =>
    obtain ⟨n, junk, ops⟩ := x
    obtain ⟨s, s', f', o1, o2, -, o3, o4⟩ := C44_new_file tw w n junk htw ops
    obtain ⟨f2, g1, g2⟩ := ivbSessions_some tw w rest _ f' o4 (fun k => by
      have := hs (k + 1)
      rw [List.take_succ_cons, List.flatMap_cons, happ] at this
      exact this)
    refine ⟨f2, ?_, ?_⟩
    · unfold ivbSessions
      simp only [o1, o2, o3, g1, sbind, List.flatMap_cons, happ]; rfl
    · rw [List.flatMap_cons, happ]; exact g2

/-- The elements of a plain file: consecutive groups of `b` bytes, least significant byte first. -/
def plainElems (b : Nat) (f : List Byte) : List Nat :=
  (List.range (f.length / b)).map fun i => bitsVal (fun k => (f.getD (i * b + k / 8) 0#8).getLsbD (k % 8)) (8 * b)

theorem plainElems_eq {b : Nat} (hb : 0 < b) {l : List Nat} {f : List Byte} (hl : ∀ x ∈ l, x < 2 ^ (8 * b))
    (hlen : 8 * f.length = l.length * (8 * b)) (h : ∀ q, q < l.length * (8 * b) → fbit f q = abits (8 * b) l q) :
    plainElems b f = l := by
  have hfl : f.length = l.length * b := by
    rw [Nat.mul_left_comm] at hlen; omega
  unfold plainElems
  rw [hfl, Nat.mul_div_cancel _ hb]
  apply List.ext_getElem (by simp)
  intro i h1 h2
  rw [List.getElem_map, List.getElem_range]
  have hg : l.getD i 0 = l[i] := by rw [List.getD_eq_getElem?_getD, List.getElem?_eq_getElem h2]; rfl
  have hc : bitsVal (fun k => (f.getD (i * b + k / 8) 0#8).getLsbD (k % 8)) (8 * b) = bitsVal (fun k => (l.getD i 0).testBit k) (8 * b) := by
    apply bitsVal_congr
    intro k hk
    rw [← abits_elem (w := 8 * b) (by omega) hk, ← h]
    · unfold fbit
      have e : i * (8 * b) = 8 * (i * b) := Nat.mul_left_comm _ _ _
      rw [e, show (8 * (i * b) + k) / 8 = i * b + k / 8 by omega, show (8 * (i * b) + k) % 8 = k % 8 by omega]
    · have := Nat.mul_le_mul_right (8 * b) (show i + 1 ≤ l.length from h2)
      rw [Nat.add_mul, Nat.one_mul] at this
      omega
  rw [hc, bitsVal_testBit, Nat.mod_eq_of_lt (getD_lt hl i), hg]

theorem plainElems_bits {b : Nat} (hb : 0 < b) {f : List Byte} (hf : f.length % b = 0) :
    8 * f.length = (plainElems b f).length * (8 * b) ∧ (∀ x ∈ plainElems b f, x < 2 ^ (8 * b)) ∧
    ∀ q, q < (plainElems b f).length * (8 * b) → fbit f q = abits (8 * b) (plainElems b f) q := by
  have hlen : (plainElems b f).length = f.length / b := by unfold plainElems; simp
  have hd : f.length / b * b = f.length := Nat.div_mul_cancel (Nat.dvd_of_mod_eq_zero hf)
  refine ⟨?_, ?_, ?_⟩
  · rw [hlen, Nat.mul_left_comm, hd]
  · intro x hx
    unfold plainElems at hx
    obtain ⟨i, -, rfl⟩ := List.mem_map.1 hx
    exact bitsVal_lt _ _
  · intro q hq
    rw [hlen] at hq
    have h0 : 0 < 8 * b := by omega
    have hi : q / (8 * b) < f.length / b := (Nat.div_lt_iff_lt_mul h0).2 hq
    unfold abits plainElems
    rw [List.getD_eq_getElem?_getD, List.getElem?_map, List.getElem?_range hi]
    simp only [Option.map_some, Option.getD_some]
    rw [testBit_bitsVal]
    have hm := Nat.mod_lt q h0
    have hdm := Nat.div_add_mod q (8 * b)
    have e : 8 * b * (q / (8 * b)) = 8 * (q / (8 * b) * b) := by
      rw [Nat.mul_assoc, Nat.mul_comm b]
    rw [e] at hdm
    simp only [hm, decide_true, Bool.true_and]
    unfold fbit
    rw [show q / 8 = q / (8 * b) * b + q % (8 * b) / 8 by omega, show q % (8 * b) % 8 = q % 8 by omega]

/-- C44: plain files. A buffer of `b`-byte elements on a new plain file behaves like a growing list, and `close` leaves
    exactly these elements in the file. -/
theorem C44_plain_new (tw w n b : Nat) (junk : Nat → Word) (htw : tw ≤ 64) (hb : 0 < b) (hw : ivbWidth tw w = 8 * b)
    (ops : List Op) :
    ∃ s s' f, openOut tw true w n junk = some s ∧ run s ops = some (s', (specRun (8 * b) [] ops).2) ∧
      close s' = some f ∧ plainElems b f = (specRun (8 * b) [] ops).1 ∧ f.length = (specRun (8 * b) [] ops).1.length * b := by
  obtain ⟨s, h1, h2, h3, h4, h5⟩ := openOut_spec True tw true w n junk htw
  obtain ⟨s', r1, r2, r3⟩ := run_spec ops h2 (Or.inl trivial)
  have e : s.buffer.width = 8 * b := by rw [h5]; exact hw
  have e' : s'.buffer.width = 8 * b := by rw [r3.width, e]
  obtain ⟨f, c1, c2, c3⟩ := close_plain r2 (by rw [r3.offset, h4]; rfl) (by rw [e']; omega)
  have hlt := r2.lt
  rw [e] at r1
  rw [e, e'] at c2 c3
  rw [e', e] at hlt
  refine ⟨s, s', f, h1, r1, c1, plainElems_eq hb hlt c2 c3, ?_⟩
  rw [Nat.mul_left_comm] at c2; omega

/-- C44: a plain file whose length is a multiple of the element size is opened as the list of its elements, and behaves
    like that list. -/
theorem C44_plain_existing (tw w n b : Nat) (junk : Nat → Word) (htw : tw ≤ 64) (hb : 0 < b) (hw : ivbWidth tw w = 8 * b)
    (f : List Byte) (hf : f.length % b = 0) (ops : List Op) :
    ∃ s s' f', openIn tw true w n junk f = some s ∧ run s ops = some (s', (specRun (8 * b) (plainElems b f) ops).2) ∧
      close s' = some f' ∧ plainElems b f' = (specRun (8 * b) (plainElems b f) ops).1 ∧ f'.length % b = 0 := by
  obtain ⟨p1, p2, p3⟩ := plainElems_bits hb hf
  obtain ⟨s, h1, h2, h3, h4, h5⟩ := openIn_plain (P := True) w n junk htw hw p2 p1 p3
  obtain ⟨s', r1, r2, r3⟩ := run_spec ops h2 (Or.inl trivial)
  have e' : s'.buffer.width = 8 * b := by rw [r3.width, h5]
  obtain ⟨f', c1, c2, c3⟩ := close_plain r2 (by rw [r3.offset, h4]) (by rw [e']; omega)
  have hlt := r2.lt
  rw [h5] at r1
  rw [h5, e'] at c2 c3
  rw [e', h5] at hlt
  refine ⟨s, s', f', h1, r1, c1, plainElems_eq hb hlt c2 c3, ?_⟩
  rw [Nat.mul_left_comm] at c2
  rw [show f'.length = (specRun (8 * b) (plainElems b f) ops).1.length * b by omega, Nat.mul_mod_left]

/-- C44 is false for files with non-zero padding. The constructor `int_vector<> v(9, 31, 5)` fills the whole
    last word with ones, and `serialize` writes that word to the file. A buffer opened on this file to which element 40 is
    written reads 31 instead of 0 at the new index 9. -/
theorem C44_stale_padding :
    ∃ v f, Util.ctor 0 (fun _ => 0#64) none 9 31#64 5 = some v ∧ v.WF ∧
      v.serialize 0 false = some f ∧
      ((openIn 0 false 0 8 (fun _ => 0#64) f.1).bind fun s => (run s [.write 40 1#64, .read 9]).map (·.2)) = some [31] ∧
      (specRun 5 v.elems [.write 40 1#64, .read 9]).2 = [0] := by
  refine ⟨⟨45, [BitVec.allOnes 64], 5⟩, ([45#8] ++ List.replicate 7 0#8 ++ [5#8] ++ List.replicate 8 255#8, 17), by decide +kernel,
    ⟨by decide, by decide, by decide⟩, by decide +kernel, by decide +kernel, by decide +kernel⟩

/-- Hypotheses of `C44_new_file`, `C44_existing_file`, `C44_file_loads`, `C44_arbitrary_padding_partial` are met: a file of 7-bit
    numbers written with gaps, blocks of 16 elements, reopened with another block size. -/
example : ((openOut 0 false 7 8 (fun _ => 5#64)).bind fun s => run s
      [.write 40 200#64, .pushBack 3#64, .read 40, .read 0, .write 2 9#64, .add 40 100#64, .read 40, .buffersize 24 (fun _ => 7#64),
       .postDec 3, .read 3, .less 2 3, .read 41, .sub 41 1#64, .copy 5 41, .read 5]).map (·.2) =
    some [72, 0, 44, 0, 127, 1, 3, 2] := by decide +kernel

example : ivbSessions 0 7 none [(8, fun _ => 5#64, [.write 20 200#64, .pushBack 3#64]), (16, fun _ => 6#64, [.read 20, .write 70 1#64, .read 21, .read 69])]
    = some ([72, 3, 0], [0xf1#8, 1#8, 0#8, 0#8, 0#8, 0#8, 0#8, 0#8, 7#8] ++ (List.replicate 17 0#8 ++ [0x80#8, 0x1c#8] ++ List.replicate 42 0#8 ++
      [4#8, 0#8, 0#8])) := by decide +kernel

/-- Hypothesis `Holds` is met by the file of a three element vector with non-zero padding. -/
example : Holds False 0 5 [31, 1, 2] [15#8, 0#8, 0#8, 0#8, 0#8, 0#8, 0#8, 0#8, 5#8, 0x3f#8, 0x88#8, 0#8, 0#8, 0#8, 0#8, 0#8, 0#8] ∧
    denseRun 5 [31, 1, 2] [.pushBack 7#64, .write 4 1#64] :=
  ⟨⟨⟨15, [0x883f#64], 5⟩, ⟨by decide, by decide, by decide⟩, rfl, rfl, by decide +kernel, fun h => h.elim, 17, by decide +kernel⟩,
    trivial, by show 4 ≤ 4; omega, trivial⟩

/-- Hypotheses of `C44_plain_new` and `C44_plain_existing` are met. -/
example : plainElems 2 [1#8, 2#8, 3#8, 0#8] = [513, 3] ∧ ivbWidth 16 0 = 8 * 2 ∧
    ((openIn 16 true 0 8 (fun _ => 5#64) [1#8, 2#8, 3#8, 0#8]).bind fun s => (run s [.read 1, .write 5 0x1234#64, .read 4]).bind fun r =>
      (close r.1).map fun f => (r.2, f)) =
    some ([3, 0], [1#8, 2#8, 3#8, 0#8, 0#8, 0#8, 0#8, 0#8, 0#8, 0#8, 0x34#8, 0x12#8]) := by decide +kernel

end Sdsl.Props
