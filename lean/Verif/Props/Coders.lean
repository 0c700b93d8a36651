/-
  C26, C27, C29: Elias gamma, Elias delta and comma code.

  `sh` is the outcome of the shift `1ULL << 64` that the decoders compute for the value 0 (= 2^64) before multiplying it by 0:
  `none` if undefined behaviour stops the program, `some u` if it yields an unspecified value.
-/
import Verif.CoderSum
import Verif.CoderComma

namespace Sdsl.Props

open Bits Spec Coder

/-- C26: `encoding_length` is the number of bits of the code word. -/
theorem C26_encoding_length (w : Word) : gamma.encLen w = some (gammaBits w).length := gamma_encLen w

example : gamma.encLen 10#64 = some 7 ∧ gammaBits 10#64 = [false, false, false, true, false, true, false] ∧
    gamma.encLen 0#64 = some 129 := by decide +kernel

/-- C26: encoding a sequence one value after the other writes exactly the code words and nothing else, and decoding from the
    start position returns the sequence. -/
theorem C26_roundtrip (ys : List Word) (m : Mem) (pos : Nat) (hroom : pos + (ys.flatMap gammaBits).length ≤ 64 * m.length)
    (sh : Option Word) (hs : sh ≠ none ∨ 0#64 ∉ ys) :
    ∃ m', encSeq gamma m (pos / 64) (pos % 64) ys =
        some (m', (pos + (ys.flatMap gammaBits).length) / 64, (pos + (ys.flatMap gammaBits).length) % 64) ∧
      m'.length = m.length ∧
      (∀ q, q < pos ∨ pos + (ys.flatMap gammaBits).length ≤ q → bitAt m' q = bitAt m q) ∧
      At m' pos (ys.flatMap gammaBits) ∧ (decode gamma false sh m' pos ys.length).map (·.2) = some ys := by
  obtain ⟨m', a, b⟩ := encSeq_eq good_gamma ys hroom
  refine ⟨m', a, b.length, fun q hq => by rw [b.bits, if_neg (by omega)], b.at hroom, ?_⟩
  rw [decode_false good_gamma ys hs (b.at hroom)]; rfl

example : (encSeq gamma (List.replicate 6 (~~~0#64)) 0 60 [1#64, 7#64, 0#64, 0x8000000000000001#64]).bind
    (fun r => (decode gamma false (some 5#64) r.1 60 4).map (·.2)) = some [1#64, 7#64, 0#64, 0x8000000000000001#64] := by
  decide +kernel

/-- C26: decoding with summation returns the sum and emits the prefix sums. -/
theorem C26_decode_sum (ys : List Word) (m : Mem) (pos : Nat) (h : At m pos (ys.flatMap gammaBits)) (sh : Option Word)
    (hs : sh ≠ none ∨ 0#64 ∉ ys) :
    decode gamma true sh m pos ys.length =
      some (sumW ys, (List.range ys.length).map (fun i => sumW (ys.take (i + 1)))) := decode_true good_gamma ys hs h

/-- C26: `decode_prefix_sum` returns the sum of the next `n` values, if 15 further bits after the codes may be read. -/
theorem C26_prefix_sum (ys : List Word) (m : Mem) (pos : Nat) (h : At m pos (ys.flatMap gammaBits))
    (hroom : pos + (ys.flatMap gammaBits).length + 15 ≤ 64 * m.length) (sh : Option Word) (hs : sh ≠ none ∨ 0#64 ∉ ys) :
    prefixSum gamma sh m pos ys.length = some (sumW ys) := prefixSum_eq goodSum_gamma h hroom hs

/-- C26: `encode` followed by `decode` on vectors of any width. -/
theorem C26_vector_roundtrip (j1 j2 : Nat → Word) (v z u : IntVec) (hv : v.WF) (hz : z.WF) (hu : u.WF) (sh : Option Word)
    (hs : sh ≠ none ∨ v.width < 64 ∨ 0 ∉ v.elems) :
    ∃ z' v', encodeVec gamma j1 v z = some z' ∧ decodeVec gamma sh j2 z' u = some v' ∧ v'.WF ∧ v'.width = v.width ∧
      v'.elems = v.elems := vec_roundtrip good_gamma gamma_skip j1 j2 hv hz hu hs

example : (encodeVec gamma (fun _ => 77#64) ⟨20, [0x40705#64, 0#64], 5⟩ ⟨0, [0#64], 9⟩).bind (fun z =>
    (decodeVec gamma none (fun _ => 3#64) z ⟨0, [0#64], 64⟩).map IntVec.elems) = some [5, 24, 1, 8] ∧
    IntVec.elems ⟨20, [0x40705#64, 0#64], 5⟩ = [5, 24, 1, 8] ∧
    (encodeVec gamma (fun _ => 77#64) ⟨20, [0x40700#64, 0#64], 5⟩ ⟨0, [0#64], 9⟩).bind (fun z =>
    (decodeVec gamma none (fun _ => 3#64) z ⟨0, [0#64], 64⟩).map IntVec.elems) = some [0, 24, 1, 8] := by decide +kernel

/-- Finding (C26, C27): decoding the value 0 evaluates `1ULL << 64`. -/
theorem C26_zero_undefined : At [0#64, 1#64, 0#64] 0 (gammaBits 0#64) ∧ decode gamma false none [0#64, 1#64, 0#64] 0 1 = none ∧
    At [0xC0#64, 0#64] 0 (deltaBits 0#64) ∧ decode delta false none [0xC0#64, 0#64] 0 1 = none := by
  refine ⟨⟨by decide +kernel, ?_⟩, by decide +kernel, ⟨by decide +kernel, ?_⟩, by decide +kernel⟩
  · have : ∀ k : Fin 129, bitAt [0#64, 1#64, 0#64] (0 + k.val) = (gammaBits 0#64).getD k.val false := by decide +kernel
    intro k hk
    exact this ⟨k, by rw [length_gammaBits] at hk; have := lg_le 0#64; omega⟩
  · have : ∀ k : Fin 77, bitAt [0xC0#64, 0#64] (0 + k.val) = (deltaBits 0#64).getD k.val false := by decide +kernel
    intro k hk
    exact this ⟨k, by rw [length_deltaBits] at hk; have := lg_le 0#64; have := lg2_le 0#64; omega⟩

/-- C27: `encoding_length` is the number of bits of the code word. -/
theorem C27_encoding_length (w : Word) : delta.encLen w = some (deltaBits w).length := delta_encLen w

example : delta.encLen 10#64 = some 8 ∧ deltaBits 10#64 = [false, false, true, false, false, false, true, false] ∧
    delta.encLen 0#64 = some 77 := by decide +kernel

/-- C27: as `C26_roundtrip`. -/
theorem C27_roundtrip (ys : List Word) (m : Mem) (pos : Nat) (hroom : pos + (ys.flatMap deltaBits).length ≤ 64 * m.length)
    (sh : Option Word) (hs : sh ≠ none ∨ 0#64 ∉ ys) :
    ∃ m', encSeq delta m (pos / 64) (pos % 64) ys =
        some (m', (pos + (ys.flatMap deltaBits).length) / 64, (pos + (ys.flatMap deltaBits).length) % 64) ∧
      m'.length = m.length ∧
      (∀ q, q < pos ∨ pos + (ys.flatMap deltaBits).length ≤ q → bitAt m' q = bitAt m q) ∧
      At m' pos (ys.flatMap deltaBits) ∧ (decode delta false sh m' pos ys.length).map (·.2) = some ys := by
  obtain ⟨m', a, b⟩ := encSeq_eq good_delta ys hroom
  refine ⟨m', a, b.length, fun q hq => by rw [b.bits, if_neg (by omega)], b.at hroom, ?_⟩
  rw [decode_false good_delta ys hs (b.at hroom)]; rfl

example : (encSeq delta [~~~0#64, ~~~0#64, ~~~0#64, ~~~0#64] 0 60 [1#64, 7#64, 0#64, 0x8000000000000001#64]).bind
    (fun r => (decode delta false (some 5#64) r.1 60 4).map (·.2)) = some [1#64, 7#64, 0#64, 0x8000000000000001#64] := by
  decide +kernel

/-- C27: decoding with summation returns the sum and emits the prefix sums. -/
theorem C27_decode_sum (ys : List Word) (m : Mem) (pos : Nat) (h : At m pos (ys.flatMap deltaBits)) (sh : Option Word)
    (hs : sh ≠ none ∨ 0#64 ∉ ys) :
    decode delta true sh m pos ys.length =
      some (sumW ys, (List.range ys.length).map (fun i => sumW (ys.take (i + 1)))) := decode_true good_delta ys hs h

/-- C27: `decode_prefix_sum` returns the sum of the next `n` values, if 15 further bits after the codes may be read. -/
theorem C27_prefix_sum (ys : List Word) (m : Mem) (pos : Nat) (h : At m pos (ys.flatMap deltaBits))
    (hroom : pos + (ys.flatMap deltaBits).length + 15 ≤ 64 * m.length) (sh : Option Word) (hs : sh ≠ none ∨ 0#64 ∉ ys) :
    prefixSum delta sh m pos ys.length = some (sumW ys) := prefixSum_eq goodSum_delta h hroom hs

/-- A mix of ones, small and large values, exercising the runs of ones, both tables and the single decoding. -/
example : (encSeq delta (List.replicate 9 0#64) 0 62 (List.replicate 30 1#64 ++ [2#64, 3#64, 100000#64, 1#64, 9#64])).bind
    (fun r => prefixSum delta none r.1 62 35) = some 100045#64 ∧
    (encSeq gamma (List.replicate 9 0#64) 0 62 (List.replicate 30 1#64 ++ [2#64, 3#64, 100000#64, 1#64, 9#64])).bind
    (fun r => prefixSum gamma none r.1 62 35) = some 100045#64 := by decide +kernel

/-- C27: `encode` followed by `decode` on vectors of any width. -/
theorem C27_vector_roundtrip (j1 j2 : Nat → Word) (v z u : IntVec) (hv : v.WF) (hz : z.WF) (hu : u.WF) (sh : Option Word)
    (hs : sh ≠ none ∨ v.width < 64 ∨ 0 ∉ v.elems) :
    ∃ z' v', encodeVec delta j1 v z = some z' ∧ decodeVec delta sh j2 z' u = some v' ∧ v'.WF ∧ v'.width = v.width ∧
      v'.elems = v.elems := vec_roundtrip good_delta delta_skip j1 j2 hv hz hu hs

example : (encodeVec delta (fun _ => 77#64) ⟨20, [0x40700#64, 0#64], 5⟩ ⟨0, [0#64], 9⟩).bind (fun z =>
    (decodeVec delta none (fun _ => 3#64) z ⟨0, [0#64], 64⟩).map IntVec.elems) = some [0, 24, 1, 8] := by decide +kernel

/-- Finding (C27): without the 15 bits of room `decode_prefix_sum` reads beyond the memory: one code ending at the end of it. -/
theorem C27_prefix_sum_reads_past_end :
    (encSeq delta [0#64] 0 60 [2#64]).map (·.1) = some [0x2000000000000000#64] ∧
    prefixSum delta (some 0#64) [0x2000000000000000#64] 60 1 = none ∧
    decode delta true (some 0#64) [0x2000000000000000#64] 60 1 = some (2#64, [2#64]) := by decide +kernel

/-- C29: `encoding_length` is the number of bits of the code word. -/
theorem C29_encoding_length (t : Nat) (h2 : 2 ≤ t) (h30 : t ≤ 30) (w : Word) : commaEncLen t w = (commaBits t w).length :=
  comma_encLen h2 h30 w

example : commaEncLen 2 15#64 = 8 ∧ commaEncLen 30 (~~~0#64) = 120 ∧ commaEncLen 2 0#64 = 2 := by decide +kernel

/-- C29: as `C26_roundtrip`, for every digit width for which the code compiles to something defined, including the value 0. -/
theorem C29_roundtrip (t : Nat) (h2 : 2 ≤ t) (h30 : t ≤ 30) (ys : List Word) (m : Mem) (pos : Nat)
    (hroom : pos + (ys.flatMap (commaBits t)).length ≤ 64 * m.length) :
    ∃ m', encSeq (comma t) m (pos / 64) (pos % 64) ys =
        some (m', (pos + (ys.flatMap (commaBits t)).length) / 64, (pos + (ys.flatMap (commaBits t)).length) % 64) ∧
      m'.length = m.length ∧
      (∀ q, q < pos ∨ pos + (ys.flatMap (commaBits t)).length ≤ q → bitAt m' q = bitAt m q) ∧
      At m' pos (ys.flatMap (commaBits t)) ∧ (decode (comma t) false (some 0#64) m' pos ys.length).map (·.2) = some ys ∧
      (decode (comma t) true (some 0#64) m' pos ys.length).map (·.1) = some (sumW ys) := by
  obtain ⟨m', a, b⟩ := encSeq_eq (good_comma h2 h30) ys hroom
  refine ⟨m', a, b.length, fun q hq => by rw [b.bits, if_neg (by omega)], b.at hroom, ?_, ?_⟩
  · rw [decode_false (good_comma h2 h30) ys (Or.inl (by simp)) (b.at hroom)]; rfl
  · rw [decode_true (good_comma h2 h30) ys (Or.inl (by simp)) (b.at hroom)]; rfl

/-- C29: code words are the digits to base `2^t-1`, most significant first; the digits are below the base and have the value of
    the number. -/
theorem C29_digits (t : Nat) (h2 : 2 ≤ t) (w : Word) :
    (baseDigits (2 ^ t - 1) w.toNat).foldl (fun v d => v * (2 ^ t - 1) + d) 0 = w.toNat ∧
      ∀ d ∈ baseDigits (2 ^ t - 1) w.toNat, d < 2 ^ t - 1 :=
  ⟨digits_fold (two_le_base h2) _, fun _ hd => digits_lt (two_le_base h2) hd⟩

example : (encSeq (comma 2) [0#64, 0#64] 0 60 [15#64, 0#64, 2#64]).bind
    (fun r => (decode (comma 2) false (some 0#64) r.1 60 3).map (·.2)) = some [15#64, 0#64, 2#64] := by decide +kernel

/-- C29: `encode` followed by `decode` on vectors of any width. -/
theorem C29_vector_roundtrip (t : Nat) (h2 : 2 ≤ t) (h30 : t ≤ 30) (j1 j2 : Nat → Word) (v z u : IntVec) (hv : v.WF) (hz : z.WF)
    (hu : u.WF) :
    ∃ z' v', commaEncodeVec t j1 v z = some z' ∧ commaDecodeVec t j2 z' u = some (some v') ∧ v'.WF ∧ v'.width = v.width ∧
      v'.elems = v.elems := comma_roundtrip h2 h30 j1 j2 hv hz hu

example : (commaEncodeVec 3 (fun _ => 77#64) ⟨20, [0x40700#64, 0#64], 5⟩ ⟨0, [0#64], 9⟩).bind (fun z =>
    (commaDecodeVec 3 (fun _ => 3#64) z ⟨0, [0#64], 64⟩).map (·.map IntVec.elems)) = some (some [0, 24, 1, 8]) := by decide +kernel

end Sdsl.Props
