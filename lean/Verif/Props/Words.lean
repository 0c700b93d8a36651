/-
  Properties C01-C10: word-level primitives of include/sdsl/bits.hpp.
  Each theorem is about the model functions of `Verif.Bits`; the specification vocabulary is in `Verif.Spec`.
-/
import Verif.BitsFib

namespace Sdsl.Props
open Sdsl Sdsl.Spec Sdsl.Bits

/-! ## C01 popcount -/

/-- C01, arithmetic variant: the 64-bit result word is the number of ones. -/
theorem C01_cnt (x : Word) : (cnt x).toNat = popcount x := by
  rw [cnt_eq, BitVec.toNat_ofNat]
  have : popcount x ≤ 64 := by unfold popcount; exact countTrue_le _ _
  omega

/-- C01, byte-table variant. -/
theorem C01_cnt_table (x : Word) : cntTL x = some (popcount x) := cntTL_eq x

example : (cnt 0xF0F0000000000001#64).toNat = 9 := by decide +kernel
example : popcount 0xF0F0000000000001#64 = 9 := by decide +kernel

/-! ## C02 lowest / highest one -/

/-- C02: `bits::hi` of a non-zero word is the position of its most significant one. -/
theorem C02_hi (x : Word) (hx : x ≠ 0#64) :
    ∃ p, hi x = some p ∧ p < 64 ∧ x.getLsbD p = true ∧ ∀ q, p < q → x.getLsbD q = false :=
  ⟨_, hi_eq x, log2_isHi hx⟩

/-- C02: `bits::lo` of a non-zero word is the position of its least significant one. -/
theorem C02_lo (x : Word) (hx : x ≠ 0#64) :
    ∃ p, lo x = some p ∧ p < 64 ∧ x.getLsbD p = true ∧ ∀ q, q < p → x.getLsbD q = false :=
  lo_isLo hx

/-- C02: both return 0 for the zero word. -/
theorem C02_zero : hi 0#64 = some 0 ∧ lo 0#64 = some 0 := ⟨by decide +kernel, lo_zero⟩

example : (0x0000400000001000#64 : Word) ≠ 0#64 ∧ hi 0x0000400000001000#64 = some 46 ∧ lo 0x0000400000001000#64 = some 12 := by
  decide +kernel

/-! ## C03 select in a word -/

/-- C03: the portable variant `_sel`. -/
theorem C03_sel (x : Word) (i : Nat) (h1 : 1 ≤ i) (h2 : i ≤ popcount x) :
    ∃ p, sel x i = some p ∧ p < 64 ∧ x.getLsbD p = true ∧ countTrue (fun j => x.getLsbD j) p + 1 = i :=
  sel_eq h1 h2

/-- C03: the SSE4.2 variant. -/
theorem C03_sel_sse (x : Word) (i : Nat) (h1 : 1 ≤ i) (h2 : i ≤ popcount x) :
    ∃ p, selSse x i = some p ∧ p < 64 ∧ x.getLsbD p = true ∧ countTrue (fun j => x.getLsbD j) p + 1 = i :=
  selSse_eq h1 h2

/-- C03: the BMI2 variant. -/
theorem C03_sel_bmi2 (x : Word) (i : Nat) (h1 : 1 ≤ i) (h2 : i ≤ popcount x) :
    ∃ p, selBmi2 x i = some p ∧ p < 64 ∧ x.getLsbD p = true ∧ countTrue (fun j => x.getLsbD j) p + 1 = i :=
  selBmi2_eq h1 h2

example : 1 ≤ 9 ∧ 9 ≤ popcount 0x8000000000FF0000#64 ∧ sel 0x8000000000FF0000#64 9 = some 63 ∧
    selSse 0x8000000000FF0000#64 9 = some 63 := by decide +kernel

/-! ## C04 bit fields -/

/-- C04: `write_int` of the low `len` bits of `x` at bit position `64*p+off` succeeds (no undefined shift, no access
    outside the array; word `p+1` is needed only if the field crosses into it), keeps the number of words, and
    changes exactly the bits of the field. -/
theorem C04_write (m : Mem) (p off len : Nat) (x : Word) (ho : off < 64) (hl : len ≤ 64)
    (hp : p < m.length) (hp1 : off + len > 64 → p + 1 < m.length) :
    ∃ m', writeInt m p x off len = some m' ∧ m'.length = m.length ∧
      ∀ q, bitAt m' q = if 64 * p + off ≤ q ∧ q < 64 * p + off + len then x.getLsbD (q - (64 * p + off)) else bitAt m q := by
  obtain ⟨m', h, hw⟩ := writeInt_eq (x := x) ho hl hp hp1
  exact ⟨m', h, hw.length, hw.bits⟩

/-- C04: `read_int` returns the number whose binary digits are the bits of the field. -/
theorem C04_read (m : Mem) (p off len : Nat) (ho : off < 64) (hl : len ≤ 64)
    (hp : p < m.length) (hp1 : off + len > 64 → p + 1 < m.length) :
    ∃ w, readInt m p off len = some w ∧ w.toNat = bitsVal (fun j => bitAt m (64 * p + off + j)) len := by
  refine ⟨_, readInt_eq ho hl hp hp1, ?_⟩
  rw [BitVec.toNat_ofNat, Nat.mod_eq_of_lt]; rfl
  exact Nat.lt_of_lt_of_le (field_lt _ _ _) (Nat.pow_le_pow_right (by omega) hl)

/-- C04: reading back a written field gives the value modulo `2^len`. -/
theorem C04_write_read (m : Mem) (p off len : Nat) (x : Word) (ho : off < 64) (hl : len ≤ 64)
    (hp : p < m.length) (hp1 : off + len > 64 → p + 1 < m.length) :
    ∃ m' w, writeInt m p x off len = some m' ∧ readInt m' p off len = some w ∧ w.toNat = x.toNat % 2 ^ len := by
  obtain ⟨m', h, hw⟩ := writeInt_eq (x := x) ho hl hp hp1
  have hlen := hw.length
  refine ⟨m', _, h, readInt_eq ho hl (by omega) (by omega), ?_⟩
  rw [hw.field_self, BitVec.toNat_ofNat]
  have := x.isLt
  exact Nat.mod_eq_of_lt (Nat.lt_of_le_of_lt (Nat.mod_le _ _) this)

/-- C04: reading a disjoint field after a write gives what it gave before. -/
theorem C04_write_frame (m : Mem) (p off len : Nat) (x : Word) (p' off' len' : Nat) (ho : off < 64) (hl : len ≤ 64)
    (hp : p < m.length) (hp1 : off + len > 64 → p + 1 < m.length)
    (ho' : off' < 64) (hl' : len' ≤ 64) (hp' : p' < m.length) (hp1' : off' + len' > 64 → p' + 1 < m.length)
    (hd : 64 * p' + off' + len' ≤ 64 * p + off ∨ 64 * p + off + len ≤ 64 * p' + off') :
    ∃ m', writeInt m p x off len = some m' ∧ readInt m' p' off' len' = readInt m p' off' len' := by
  obtain ⟨m', h, hw⟩ := writeInt_eq (x := x) ho hl hp hp1
  have hlen := hw.length
  refine ⟨m', h, ?_⟩
  rw [readInt_eq ho' hl' (by omega) (by omega), readInt_eq ho' hl' hp' hp1', hw.field_other hd]

/-- C04: a field inside one word touches that word only; a field crossing a word boundary touches two words. -/
theorem C04_write_words (m : Mem) (p off len : Nat) (x : Word) (ho : off < 64) (hl : len ≤ 64)
    (hp : p < m.length) (hp1 : off + len > 64 → p + 1 < m.length) :
    ∃ m', writeInt m p x off len = some m' ∧
      ∀ k, k ≠ p → (off + len > 64 → k ≠ p + 1) → m'[k]? = m[k]? := by
  obtain ⟨m', h, hw⟩ := writeInt_eq (x := x) ho hl hp hp1
  have hlen := hw.length
  refine ⟨m', h, ?_⟩
  intro k hk hk1
  by_cases hkl : k < m.length
  · rw [List.getElem?_eq_getElem hkl, List.getElem?_eq_getElem (by omega)]
    congr 1
    apply BitVec.eq_of_getLsbD_eq
    intro j hj
    rw [← bitAt_mul_add hj, ← bitAt_mul_add hj, hw.bits, if_neg]
    omega
  · rw [List.getElem?_eq_none (by omega), List.getElem?_eq_none (by omega)]

example : writeInt [0x1111111111111111#64, 0x2222222222222222#64] 0 0xABCDEF#64 52 24 =
    some [0xDEF1111111111111#64, 0x2222222222222ABC#64] := by decide +kernel
example : readInt [0xDEF1111111111111#64, 0x2222222222222ABC#64] 0 52 24 = some 0xABCDEF#64 := by decide +kernel

/-! ## C05 moving cursor -/

/-- A client writing a sequence of (value, length) pairs with `write_int_and_move`. -/
def writeSeq (m : Mem) (p off : Nat) : List (Word × Nat) → Option (Mem × Nat × Nat)
  | [] => some (m, p, off)
  | (x, len) :: xs => (writeIntAndMove m p x off len).bind fun r => writeSeq r.1 r.2.1 r.2.2 xs

/-- A client reading a sequence of fields of given lengths with `read_int_and_move`. -/
def readSeq (m : Mem) (p off : Nat) : List Nat → Option (List Word × Nat × Nat)
  | [] => some ([], p, off)
  | len :: ls => (readIntAndMove m p off len).bind fun r => (readSeq m r.2.1 r.2.2 ls).map fun t => (r.1 :: t.1, t.2)

/-- Total number of bits of a sequence of fields. -/
def totalLen (xs : List (Word × Nat)) : Nat := (xs.map Prod.snd).sum

/-- C05: one step. The moving read returns what `read_int` returns, and the cursor advances by exactly `len` bits. -/
theorem C05_read_step (m : Mem) (p off len : Nat) (ho : off < 64) (hl : len ≤ 64)
    (hp : p < m.length) (hp1 : off + len > 64 → p + 1 < m.length) :
    ∃ w p' off', readIntAndMove m p off len = some (w, p', off') ∧ readInt m p off len = some w ∧
      off' < 64 ∧ 64 * p' + off' = 64 * p + off + len := by
  exact ⟨_, _, _, readIntAndMove_eq ho hl hp hp1, readInt_eq ho hl hp hp1, by omega, by omega⟩

/-- C05: one step. The moving write writes what `write_int` writes, and the cursor advances by exactly `len` bits. -/
theorem C05_write_step (m : Mem) (p off len : Nat) (x : Word) (ho : off < 64) (hl : len ≤ 64)
    (hp : p < m.length) (hp1 : off + len > 64 → p + 1 < m.length) :
    ∃ m' p' off', writeIntAndMove m p x off len = some (m', p', off') ∧ writeInt m p x off len = some m' ∧
      off' < 64 ∧ 64 * p' + off' = 64 * p + off + len := by
  obtain ⟨m1, h1, w1⟩ := writeInt_eq (x := x) ho hl hp hp1
  obtain ⟨m2, h2, w2⟩ := writeIntAndMove_eq (x := x) ho hl hp hp1
  have := w1.unique w2
  subst this
  exact ⟨_, _, _, h2, h1, by omega, by omega⟩

theorem writeSeq_ok (m : Mem) (p off : Nat) (xs : List (Word × Nat)) (ho : off < 64)
    (hl : ∀ e ∈ xs, 1 ≤ e.2 ∧ e.2 ≤ 64) (hfit : 64 * p + off + totalLen xs ≤ 64 * m.length) :
    ∃ m' p' off', writeSeq m p off xs = some (m', p', off') ∧ m'.length = m.length ∧ off' < 64 ∧
      64 * p' + off' = 64 * p + off + totalLen xs ∧ (∀ q, q < 64 * p + off → bitAt m' q = bitAt m q) ∧
      (∀ q, 64 * p + off + totalLen xs ≤ q → bitAt m' q = bitAt m q) ∧
      ∃ ws, readSeq m' p off (xs.map Prod.snd) = some (ws, p', off') ∧
        ws.map BitVec.toNat = xs.map (fun e => e.1.toNat % 2 ^ e.2) := by
  induction xs generalizing m p off with
  | nil => exact ⟨m, p, off, rfl, rfl, ho, by simp [totalLen], fun _ _ => rfl, fun _ _ => rfl, [], rfl, rfl⟩
  | cons e xs ih =>
    obtain ⟨x, len⟩ := e
    have ⟨hl1, hl2⟩ := hl (x, len) (by simp)
    simp only at hl1 hl2
    have ht : totalLen ((x, len) :: xs) = len + totalLen xs := by simp [totalLen]
    rw [ht] at hfit
    obtain ⟨m1, h1, w1⟩ := writeIntAndMove_eq (m := m) (p := p) (off := off) (len := len) (x := x) ho hl2 (by omega) (by omega)
    have hlen1 := w1.length
    obtain ⟨m2, p2, off2, h2, hlen2, ho2, hpos2, hlow, hhigh, ws, hr, hws⟩ :=
      ih m1 ((64 * p + off + len) / 64) ((64 * p + off + len) % 64) (by omega) (fun e he => hl e (by simp [he])) (by omega)
    have hc : 64 * ((64 * p + off + len) / 64) + (64 * p + off + len) % 64 = 64 * p + off + len := by omega
    rw [hc] at hpos2 hlow hhigh
    refine ⟨m2, p2, off2, ?_, by omega, ho2, by rw [ht]; omega, ?_, ?_, BitVec.ofNat 64 (field m2 (64 * p + off) len) :: ws, ?_, ?_⟩
    · simp only [writeSeq]; rw [h1, Option.bind_some]; exact h2
    · intro q hq; rw [hlow q (by omega), w1.bits, if_neg (by omega)]
    · intro q hq; rw [ht] at hq; rw [hhigh q (by omega), w1.bits, if_neg (by omega)]
    · simp only [List.map_cons, readSeq]
      rw [readIntAndMove_eq ho hl2 (by omega) (by omega), Option.bind_some]
      simp only [hr, Option.map_some]
    · simp only [List.map_cons, hws]
      congr 1
      have : field m2 (64 * p + off) len = field m1 (64 * p + off) len := by
        apply field_congr; intro j hj; exact hlow _ (by omega)
      rw [this, w1.field_self, BitVec.toNat_ofNat]
      exact Nat.mod_eq_of_lt (Nat.lt_of_le_of_lt (Nat.mod_le _ _) x.isLt)

/-- C05: any sequence of moving writes that fits into the array, followed by the same sequence of moving reads from
    the same start, succeeds, returns the written values (modulo `2^len`) in order, moves both cursors by the total
    length, and leaves all bits outside the written range unchanged. -/
theorem C05_write_read_seq (m : Mem) (p off : Nat) (xs : List (Word × Nat)) (ho : off < 64)
    (hl : ∀ e ∈ xs, 1 ≤ e.2 ∧ e.2 ≤ 64) (hfit : 64 * p + off + totalLen xs ≤ 64 * m.length) :
    ∃ m' p' off' ws, writeSeq m p off xs = some (m', p', off') ∧
      readSeq m' p off (xs.map Prod.snd) = some (ws, p', off') ∧
      ws.map BitVec.toNat = xs.map (fun e => e.1.toNat % 2 ^ e.2) ∧
      off' < 64 ∧ 64 * p' + off' = 64 * p + off + totalLen xs ∧
      (∀ q, q < 64 * p + off ∨ 64 * p + off + totalLen xs ≤ q → bitAt m' q = bitAt m q) := by
  obtain ⟨m', p', off', h1, _, h3, h4, h5, h6, ws, h7, h8⟩ := writeSeq_ok m p off xs ho hl hfit
  exact ⟨m', p', off', ws, h1, h7, h8, h3, h4, fun q hq => hq.elim (h5 q) (h6 q)⟩

/-- C05: `move_right` and `move_left` change the bit position by exactly `len`. -/
theorem C05_move (p : Int) (off len : Nat) (ho : off < 64) (hl : len ≤ 64) :
    (moveRight p off len).2 < 64 ∧ 64 * (moveRight p off len).1 + (moveRight p off len).2 = 64 * p + off + len ∧
    (moveLeft p off len).2 < 64 ∧ 64 * (moveLeft p off len).1 + (moveLeft p off len).2 = 64 * p + off - len :=
  ⟨(moveRight_eq ho hl).1, (moveRight_eq ho hl).2, (moveLeft_eq ho hl).1, (moveLeft_eq ho hl).2⟩

example : (writeSeq [0#64, 0#64, 0#64] 0 60 [(5#64, 3), (0xFFFF#64, 64), (7#64, 2)]).isSome = true ∧
    60 + totalLen [(5#64, 3), (0xFFFF#64, 64), (7#64, 2)] ≤ 64 * 3 := by decide +kernel
example : moveLeft 7 3 10 = (6, 57) ∧ moveRight 7 60 64 = (8, 60) := by decide +kernel

/-! ## C06 32-bit popcount: false; exact domain of correctness -/

/-- C06 as stated is false: on 0xFFFFFFFF `cnt32` does not return 32. -/
theorem C06_cnt32_wrong : ¬ ∀ x : BitVec 32, (cnt32 x).toNat = countTrue (fun i => x.getLsbD i) 32 := by
  intro h
  have := h 0xFFFFFFFF#32
  revert this
  decide +kernel

/-- C06, what holds: `cnt32` is right exactly on the words in which neither all even nor all odd nibbles are `F`.
    (Missing with respect to the full property: the other words, where the result is wrong.) -/
theorem C06_cnt32_partial (x : BitVec 32) :
    (cnt32 x).toNat = countTrue (fun i => x.getLsbD i) 32 ↔
      x &&& 0x0F0F0F0F#32 ≠ 0x0F0F0F0F#32 ∧ x &&& 0xF0F0F0F0#32 ≠ 0xF0F0F0F0#32 := by
  obtain ⟨e, o, h1, h2, h3, h4, h5, h6⟩ := cnt32_toNat x
  rw [h6, ← h1, ne_eq, ne_eq, ← h4, ← h5]
  omega

example : (cnt32 0xFFFFFFFE#32).toNat = 31 - 16 ∧ (cnt32 0xF0FFEFFE#32).toNat = 26 ∧
    0xF0FFEFFE#32 &&& 0x0F0F0F0F#32 ≠ 0x0F0F0F0F#32 ∧ 0xF0FFEFFE#32 &&& 0xF0F0F0F0#32 ≠ 0xF0F0F0F0#32 := by decide +kernel

/-! ## C07 unary decoding -/

/-- C07: if `r` is the first one at or after bit position `64*p+off`, `read_unary` returns the number of zeros in
    between, and `read_unary_and_move` returns the same value with the cursor just past bit `r`. The array `m` is
    arbitrary, so it may end with the word holding bit `r`: no later word is read. -/
theorem C07_read_unary (m : Mem) (p off r : Nat) (ho : off < 64) (h : IsNext m (64 * p + off) r) :
    readUnary m p off = some (r - (64 * p + off)) ∧
    ∃ p' off', readUnaryAndMove m p off = some (r - (64 * p + off), p', off') ∧ off' < 64 ∧ 64 * p' + off' = r + 1 :=
  ⟨readUnary_eq ho h, _, _, readUnaryAndMove_eq ho h, by omega, by omega⟩

example : readUnaryAndMove [0x1#64, 0#64, 0#64, 0#64, 0x10#64] 0 7 = some (253, 4, 5) := by decide +kernel

/-! ## C08 next / previous one in a word array -/

/-- C08: `bits::next` returns the first one at or after `i` when there is one. -/
theorem C08_next (m : Mem) (i r : Nat) (h : IsNext m i r) : next m i = some r := next_eq h

/-- C08: `bits::prev` returns the last one at or before `i` when there is one. -/
theorem C08_prev (m : Mem) (i r : Nat) (hi : i / 64 < m.length) (h : IsPrev m i r) : prev m i = some r := prev_eq hi h

example : next [0x8#64, 0#64, 0x2#64] 4 = some 129 ∧ prev [0x8#64, 0#64, 0x2#64] 128 = some 3 := by decide +kernel
example : IsNext [0x8#64, 0#64, 0x2#64] 126 129 := by
  refine ⟨by omega, by decide +kernel, ?_⟩
  intro j h1 h2
  have : j = 126 ∨ j = 127 ∨ j = 128 := by omega
  rcases this with rfl | rfl | rfl <;> decide +kernel

/-! ## C09 Fibonacci terminators -/

/-- C09: `cnt11(x,c)` returns the number of cuts in `x` and the outgoing carry. -/
theorem C09_cnt11 (x : Word) (c : Bool) :
    (cnt11c x (BitVec.ofNat 64 c.toNat)).1.toNat = countTrue (cut (fun i => x.getLsbD i) c) 64 ∧
    (cnt11c x (BitVec.ofNat 64 c.toNat)).2 = BitVec.ofNat 64 (pending (fun i => x.getLsbD i) c 64).toNat := by
  rw [cnt11c_eq]
  refine ⟨?_, rfl⟩
  rw [BitVec.toNat_ofNat]
  have := countTrue_le (cut (fun i => x.getLsbD i) c) 64
  omega

/-- C09: `cnt11(x)` without carry. -/
theorem C09_cnt11_nocarry (x : Word) : (cnt11 x).toNat = countTrue (cut (fun i => x.getLsbD i) false) 64 := by
  rw [cnt11_eq, BitVec.toNat_ofNat]
  have := countTrue_le (cut (fun i => x.getLsbD i) false) 64
  omega

theorem countTrue_ends (x : Word) (c : Bool) {n : Nat} (hn : n ≤ 64) :
    countTrue (fun i => (ends11 x (BitVec.ofNat 64 c.toNat)).getLsbD i) n = countTrue (cut (fun i => x.getLsbD i) c) n :=
  countTrue_congr fun i hi => ends11_getLsbD x c (by omega)

/-- C09: `sel11(x,i,c)` returns the position of the `i`-th cut. -/
theorem C09_sel11 (x : Word) (c : Bool) (i : Nat) (h1 : 1 ≤ i) (h2 : i ≤ countTrue (cut (fun i => x.getLsbD i) c) 64) :
    ∃ p, sel11 x i (BitVec.ofNat 64 c.toNat) = some p ∧ IsSelect (cut (fun i => x.getLsbD i) c) 64 i p := by
  rw [← countTrue_ends x c (Nat.le_refl _)] at h2
  obtain ⟨p, e, hp1, hp2, hp3⟩ := sel_eq h1 h2
  refine ⟨p, e, hp1, ?_, ?_⟩
  · rw [← ends11_getLsbD x c hp1]; exact hp2
  · rw [← countTrue_ends x c (by omega)]; exact hp3

/-- C09: `hi11(x)` returns the position of the last cut, and 0 if there is none. -/
theorem C09_hi11 (x : Word) :
    (∀ p, p < 64 → cut (fun i => x.getLsbD i) false p = true →
      (∀ q, p < q → q < 64 → cut (fun i => x.getLsbD i) false q = false) → hi11 x = some p) ∧
    ((∀ q, q < 64 → cut (fun i => x.getLsbD i) false q = false) → hi11 x = some 0) := by
  have hb := fun i hi => @ends11_getLsbD x false i hi
  have e : ends11 x (BitVec.ofNat 64 false.toNat) = ends11 x 0#64 := rfl
  rw [e] at hb
  constructor
  · intro p hp h1 h2
    apply hi_of_isHi
    refine ⟨hp, by rw [hb p hp]; exact h1, ?_⟩
    intro q hq
    by_cases hq2 : q < 64
    · rw [hb q hq2]; exact h2 q hq hq2
    · exact BitVec.getLsbD_of_ge _ _ (by omega)
  · intro h
    have : ends11 x 0#64 = 0#64 := word_zero_iff.2 fun i hi => by rw [hb i hi]; exact h i hi
    unfold hi11
    rw [this]
    exact C02_zero.1

example : cnt11c 0xF00000000000001D#64 1#64 = (4#64, 0#64) ∧ sel11 0xF00000000000001D#64 2 1#64 = some 3 ∧
    hi11 0x00F000000000001D#64 = some 55 := by decide +kernel

/-! ## C10 reversal and adjacent pairs -/

/-- C10: bit `i` of `rev x` is bit `63-i` of `x`. -/
theorem C10_rev (x : Word) (i : Nat) (hi : i < 64) : (rev x).getLsbD i = x.getLsbD (63 - i) := rev_getLsbD x hi

/-- Bit `i-1` of `x`, with `c` standing for bit `-1`. -/
def prevBit (x : Word) (c : Bool) (i : Nat) : Bool := if i = 0 then c else x.getLsbD (i - 1)

theorem carry_word (c : Bool) : BitVec.ofNat 64 c.toNat = 0#64 ∨ BitVec.ofNat 64 c.toNat = 1#64 := by cases c <;> simp

theorem getLsbD_shl1_carry (x : Word) (c : Bool) (i : Nat) (hi : i < 64) :
    ((x <<< 1) ||| BitVec.ofNat 64 c.toNat).getLsbD i = prevBit x c i := by
  rw [getLsbD_shl1_or (carry_word c) hi]; unfold prevBit; cases c <;> rfl

/-- C10: `map10` marks the positions `i` with bit `i-1` one and bit `i` zero. -/
theorem C10_map10 (x : Word) (c : Bool) (i : Nat) (hi : i < 64) :
    (map10 x (BitVec.ofNat 64 c.toNat)).getLsbD i = (prevBit x c i && !x.getLsbD i) := by
  unfold map10
  rw [BitVec.getLsbD_and, BitVec.getLsbD_xor, BitVec.getLsbD_not, getLsbD_shl1_carry x c i hi]
  simp only [hi, decide_true, Bool.true_and]
  cases x.getLsbD i <;> cases prevBit x c i <;> rfl

/-- C10: `map01` marks the positions `i` with bit `i-1` zero and bit `i` one. -/
theorem C10_map01 (x : Word) (c : Bool) (i : Nat) (hi : i < 64) :
    (map01 x (BitVec.ofNat 64 c.toNat)).getLsbD i = (!prevBit x c i && x.getLsbD i) := by
  unfold map01
  rw [BitVec.getLsbD_and, BitVec.getLsbD_xor, getLsbD_shl1_carry x c i hi]
  cases x.getLsbD i <;> cases prevBit x c i <;> rfl

theorem popcount_congr {x : Word} {f : Nat → Bool} (h : ∀ i, i < 64 → x.getLsbD i = f i) : popcount x = countTrue f 64 := by
  unfold popcount; exact countTrue_congr h

/-- C10: `cnt10` counts the positions marked by `map10` and returns the top bit of `x` as the new carry. -/
theorem C10_cnt10 (x : Word) (c : Bool) :
    (cnt10 x (BitVec.ofNat 64 c.toNat)).1.toNat = countTrue (fun i => prevBit x c i && !x.getLsbD i) 64 ∧
    (cnt10 x (BitVec.ofNat 64 c.toNat)).2 = if x.getLsbD 63 then 1#64 else 0#64 := by
  refine ⟨?_, shr63 x⟩
  have : (cnt10 x (BitVec.ofNat 64 c.toNat)).1 = cnt (map10 x (BitVec.ofNat 64 c.toNat)) := by unfold cnt10 map10; rfl
  rw [this, C01_cnt]
  exact popcount_congr fun i hi => C10_map10 x c i hi

/-- C10: the same for `cnt01`. -/
theorem C10_cnt01 (x : Word) (c : Bool) :
    (cnt01 x (BitVec.ofNat 64 c.toNat)).1.toNat = countTrue (fun i => !prevBit x c i && x.getLsbD i) 64 ∧
    (cnt01 x (BitVec.ofNat 64 c.toNat)).2 = if x.getLsbD 63 then 1#64 else 0#64 := by
  refine ⟨?_, shr63 x⟩
  have : (cnt01 x (BitVec.ofNat 64 c.toNat)).1 = cnt (map01 x (BitVec.ofNat 64 c.toNat)) := by unfold cnt01 map01; rfl
  rw [this, C01_cnt]
  exact popcount_congr fun i hi => C10_map01 x c i hi

example : rev 0x8000000000000003#64 = 0xC000000000000001#64 ∧ map10 0x5#64 1#64 = 0xA#64 ∧ map01 0x5#64 1#64 = 0x4#64 := by
  decide +kernel

end Sdsl.Props
