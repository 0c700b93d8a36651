import Verif.Basic

/-! # The coding of `int_vector_serialize_vbyte_wrapper` and `int_vector_load_vbyte_wrapper`

Model of the loops over the elements, include/sdsl/int_vector_io_wrappers.hpp:46-59 and 87-99. The header of the vector is left out: `serialize`
calls `_sdsl_serialize_size_and_int_width`, which does not exist (line 44), `load` calls `int_vector_trait::read_header`, which does not exist either (line
83). `value_type` is `uint64_t`, as it is for `int_vector<>` and `int_vector<64>`. Words are natural numbers below 2^64, bytes below 256. A shift by 64 or more is undefined (`none`);
reading past the end of the stream is not modelled (`none`). -/
namespace Sdsl.Vbyte

/-- The `while` loop and the last byte, int_vector_io_wrappers.hpp:50-58: the bytes and `written_bytes`; the first number bounds the number of
iterations (fuel). -/
def encLoop : Nat → Nat → Nat → Option (List Nat × Nat)
  | 0, _, _ => none
  | f + 1, w, ww =>
    if ww > 0 then (encLoop f (ww &&& 0x7F) (ww >>> 7)).map (fun r => ((w ||| 0x80) :: r.1, r.2 + 1))
    else some ([w], 1)

/-- One element, int_vector_io_wrappers.hpp:47-49. -/
def enc (x : Nat) : Option (List Nat × Nat) := encLoop 10 (x &&& 0x7F) (x >>> 7)

/-- All elements, int_vector_io_wrappers.hpp:46-59. -/
def encAll : List Nat → Option (List Nat × Nat)
  | [] => some ([], 0)
  | x :: l => (enc x).bind (fun a => (encAll l).map (fun b => (a.1 ++ b.1, a.2 + b.2)))

/-- The `do` loop, int_vector_io_wrappers.hpp:93-97. -/
def decLoop : List Nat → Nat → Nat → Option (Nat × List Nat)
  | [], _, _ => none
  | w :: s, ww, shift =>
    if shift < 64 then
      let ww := ww ||| (((w &&& 0x7F) <<< shift) % 2 ^ 64)
      if w &&& 0x80 > 0 then decLoop s ww (shift + 7) else some (ww, s)
    else none

/-- `n` elements, int_vector_io_wrappers.hpp:88-99; the vector has elements of `width` bits. -/
def decAll (width : Nat) : Nat → List Nat → Option (List Nat × List Nat)
  | 0, s => some ([], s)
  | n + 1, s => (decLoop s 0 0).bind (fun a => (decAll width n a.2).map (fun b => (a.1 % 2 ^ width :: b.1, b.2)))

/-! ### Proofs -/

theorem and127 (x : Nat) : x &&& 0x7F = x % 128 := Nat.and_two_pow_sub_one_eq_mod x 7

theorem or128 {w : Nat} (h : w < 128) : w ||| 0x80 = w + 128 := by
  have := Nat.two_pow_add_eq_or_of_lt (i := 7) h 1
  rw [Nat.or_comm, show (0x80 : Nat) = 2 ^ 7 * 1 from rfl, ← this]
  omega

theorem or128_and127 {w : Nat} (h : w < 128) : (w ||| 0x80) &&& 0x7F = w := by rw [or128 h, and127]; omega

theorem and128_or {w : Nat} : (w ||| 0x80) &&& 0x80 = 0x80 := by
  refine Nat.eq_of_testBit_eq (fun i => ?_)
  rw [Nat.testBit_and, Nat.testBit_or]
  cases Nat.testBit 0x80 i <;> simp

theorem and128_lt {w : Nat} (h : w < 128) : w &&& 0x80 = 0 := by
  refine Nat.eq_of_testBit_eq (fun i => ?_)
  rw [Nat.testBit_and, show (0x80 : Nat) = 2 ^ 7 from rfl, Nat.testBit_two_pow, Nat.zero_testBit]
  by_cases e : 7 = i
  · subst e
    rw [Nat.testBit_lt_two_pow (by omega), Bool.false_and]
  · simp [e]

theorem or_shift {a w s : Nat} (ha : a < 2 ^ s) (h : a + 2 ^ s * w < 2 ^ 64) : a ||| ((w <<< s) % 2 ^ 64) = a + 2 ^ s * w := by
  have e := Nat.two_pow_add_eq_or_of_lt ha w
  rw [Nat.shiftLeft_eq, Nat.mul_comm w, Nat.mod_eq_of_lt (by omega), Nat.or_comm, ← e]
  omega

theorem encLoop_ok : ∀ (f w ww : Nat), w < 128 → ww < 128 ^ f → ∃ o, encLoop (f + 1) w ww = some (o, o.length) ∧ 0 < o.length ∧ (∀ b ∈ o, b < 256) ∧
    (∀ k, o.length ≤ k + 1 ↔ ww < 128 ^ k) ∧
    ∀ a s rest, a < 2 ^ s → a + 2 ^ s * (w + 128 * ww) < 2 ^ 64 → (s = 0 ∨ 0 < w + 128 * ww) → decLoop (o ++ rest) a s = some (a + 2 ^ s * (w + 128 * ww), rest) := by
  intro f
  induction f with
  | zero =>
    intro w ww hw hww
    have : ww = 0 := by rw [Nat.pow_zero] at hww; omega
    subst this
    refine ⟨[w], by simp [encLoop], by simp, by simp; omega, fun k => by simp [Nat.pow_pos], fun a s rest ha hb hs => ?_⟩
    have hs64 : s < 64 := by
      rcases hs with h | h
      · omega
      · refine Decidable.byContradiction fun hn => ?_
        have := Nat.pow_le_pow_right (show 2 > 0 by decide) (show 64 ≤ s by omega)
        have := Nat.mul_le_mul this (show 1 ≤ w + 128 * 0 from h)
        omega
    simp only [List.cons_append, List.nil_append, decLoop]
    rw [if_pos hs64, and128_lt hw, if_neg (by omega), and127, Nat.mod_eq_of_lt hw, Nat.mul_zero, Nat.add_zero, or_shift ha (by simpa using hb)]
  | succ f ih =>
    intro w ww hw hww
    by_cases h0 : ww > 0
    · obtain ⟨o, h1, hpos, h2, h3, h4⟩ := ih (ww % 128) (ww / 128) (Nat.mod_lt _ (by decide)) (by rw [Nat.pow_succ] at hww; omega)
      refine ⟨(w ||| 0x80) :: o, ?_, by simp, ?_, fun k => ?_, fun a s rest ha hb hs => ?_⟩
      · unfold encLoop
        rw [if_pos h0, and127, Nat.shiftRight_eq_div_pow, h1]
        rfl
      · intro b hb
        rcases List.mem_cons.1 hb with rfl | hb
        · rw [or128 hw]; omega
        · exact h2 b hb
      · rw [List.length_cons]
        cases k with
        | zero =>
          rw [Nat.pow_zero]; omega
        | succ k =>
          have := h3 k
          rw [Nat.pow_succ]; omega
      · have hs64 : s < 64 := by
          refine Decidable.byContradiction fun hn => ?_
          have := Nat.pow_le_pow_right (show 2 > 0 by decide) (show 64 ≤ s by omega)
          have := Nat.mul_le_mul this (show 1 ≤ w + 128 * ww by omega)
          omega
        have hsplit : 2 ^ s * (w + 128 * ww) = 2 ^ s * w + 2 ^ (s + 7) * ww := by
          rw [Nat.mul_add, Nat.pow_add, Nat.mul_assoc]
        have hmod : ww % 128 + 128 * (ww / 128) = ww := Nat.mod_add_div ww 128
        simp only [List.cons_append, decLoop]
        rw [if_pos hs64, and128_or, if_pos (by decide), or128_and127 hw, or_shift ha (by omega)]
        have hlt : a + 2 ^ s * w < 2 ^ (s + 7) := by
          have := Nat.mul_le_mul_left (2 ^ s) (show w + 1 ≤ 128 by omega)
          rw [Nat.pow_add]
          rw [Nat.mul_add, Nat.mul_one] at this
          omega
        rw [h4 _ _ rest hlt (by rw [hmod]; omega) (.inr (by omega)), hmod, hsplit]
        rw [Nat.add_assoc]
    · have : ww = 0 := by omega
      subst this
      obtain ⟨o, h1, hpos, h2, h3, h4⟩ := ih w 0 hw (Nat.pow_pos (by decide))
      refine ⟨o, ?_, hpos, h2, h3, h4⟩
      rw [← h1]
      simp [encLoop]

theorem enc_ok {x : Nat} (hx : x < 2 ^ 64) : ∃ o, enc x = some (o, o.length) ∧ (∀ b ∈ o, b < 256) ∧
    (∀ k, o.length ≤ k + 1 ↔ x < 128 ^ (k + 1)) ∧ ∀ rest, decLoop (o ++ rest) 0 0 = some (x, rest) := by
  have hd : x % 128 + 128 * (x / 128) = x := Nat.mod_add_div x 128
  obtain ⟨o, h1, -, h2, h3, h4⟩ := encLoop_ok 9 (x % 128) (x / 128) (Nat.mod_lt _ (by decide)) (by omega)
  refine ⟨o, by rw [enc, and127, Nat.shiftRight_eq_div_pow]; exact h1, h2, fun k => ?_, fun rest => ?_⟩
  · rw [h3 k, Nat.pow_succ]; omega
  · have := h4 0 0 rest (by decide) (by rw [hd]; omega) (.inl rfl)
    rw [hd] at this
    simpa using this

theorem encAll_ok : ∀ l : List Nat, (∀ x ∈ l, x < 2 ^ 64) → ∃ o, encAll l = some (o, o.length) ∧ (∀ b ∈ o, b < 256) ∧
    ∀ width rest, (∀ x ∈ l, x < 2 ^ width) → decAll width l.length (o ++ rest) = some (l, rest) := by
  intro l
  induction l with
  | nil => intro _; exact ⟨[], rfl, by simp, fun _ _ _ => rfl⟩
  | cons x l ih =>
    intro h
    obtain ⟨a, a1, a2, -, a4⟩ := enc_ok (h x (by simp))
    obtain ⟨b, b1, b2, b3⟩ := ih (fun y hy => h y (by simp [hy]))
    refine ⟨a ++ b, by simp [encAll, a1, b1], ?_, fun width rest hw => ?_⟩
    · intro c hc
      rcases List.mem_append.1 hc with hc | hc
      · exact a2 c hc
      · exact b2 c hc
    · simp only [List.length_cons, decAll]
      rw [List.append_assoc, a4]
      simp only [Option.bind_some]
      rw [b3 width rest (fun y hy => hw y (by simp [hy])), Nat.mod_eq_of_lt (hw x (by simp))]
      rfl

end Sdsl.Vbyte
