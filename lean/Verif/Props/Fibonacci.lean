/-
  C28: Fibonacci code.
-/
import Verif.FibSum

namespace Sdsl.Props

open Bits Spec Coder

/-- C28: a code word is determined by the number it stands for. -/
theorem C28_code_unique (x : Nat) (l l' : List Bool) (h : IsFibCode x l) (h' : IsFibCode x l') : l = l' :=
  Fib.fibCode_unique h h'

/-- C28: `encoding_length` is the length of the code word (of `2^64` for the word 0). -/
theorem C28_encoding_length (w : Word) : ∃ l, IsFibCode (fibNum w) l ∧ Fib.encLen w = some l.length :=
  ⟨_, Fib.isFibCode_bits w, Fib.encLen_bits w⟩

example : Fib.encLen 11#64 = some 6 ∧ fibBits 11#64 = [false, false, true, false, true, true] ∧ Fib.encLen 0#64 = some 93 := by
  decide +kernel

/-- C28: decoding any sequence of code words of numbers up to `2^64` returns the numbers modulo `2^64`; with summation it
    returns the sum and emits the prefix sums. -/
theorem C28_decode (cs : List (Nat × List Bool)) (hc : ∀ c ∈ cs, IsFibCode c.1 c.2 ∧ c.1 ≤ 2 ^ 64) (m : Mem) (pos : Nat)
    (h : At m pos (cs.flatMap (·.2))) :
    (Fib.decode false m pos cs.length).map (·.2) = some (cs.map (fun c => BitVec.ofNat 64 c.1)) ∧
    Fib.decode true m pos cs.length = some (sumW (cs.map (fun c => BitVec.ofNat 64 c.1)),
      (List.range cs.length).map (fun i => sumW ((cs.map (fun c => BitVec.ofNat 64 c.1)).take (i + 1)))) := by
  obtain ⟨h1, h2, h3⟩ := Fib.codes_at (fun c hm => (hc c hm).1) h
  have key : ∀ b, Fib.decode b m pos cs.length = some (Fib.emit b 0#64 (cs.map (fun c => BitVec.ofNat 64 c.1))) := by
    intro b
    have := Fib.decode_eq b m pos _ h1 (by rw [h3]; exact h.1) (by
      intro l hl
      rw [List.mem_map] at hl
      obtain ⟨c, hm, rfl⟩ := hl
      exact Fib.fibCode_length_le (hc c hm).1 (hc c hm).2)
    rwa [h2, List.length_map] at this
  constructor
  · rw [key, Fib.emit_false _ _ rfl]; rfl
  · rw [key, Fib.emit_true]; simp

example : Fib.decode false [0x14dfffffffffffff#64, 0xfffffffffffffffe#64] 50 3 = some (100#64, [1#64, 4#64, 100#64]) ∧
    (Fib.decode true [0x14dfffffffffffff#64, 0xfffffffffffffffe#64] 50 3).map (·.1) = some 105#64 := by decide +kernel

/-- C28: `decode_prefix_sum` of a sequence of code words returns the sum modulo `2^64`. (The length of the code words has to
    be below `2^31` bits: the code computes it in an `int`.) -/
theorem C28_decode_prefix_sum (cs : List (Nat × List Bool)) (hc : ∀ c ∈ cs, IsFibCode c.1 c.2 ∧ c.1 ≤ 2 ^ 64) (m : Mem) (pos : Nat)
    (h : At m pos (cs.flatMap (·.2))) (h31 : (cs.flatMap (·.2)).length < 2 ^ 31) :
    Fib.prefixSum m pos cs.length = some (sumW (cs.map (fun c => BitVec.ofNat 64 c.1))) := by
  obtain ⟨h1, h2, h3⟩ := Fib.codes_at (fun c hm => (hc c hm).1) h
  have := Fib.prefixSum_eq h1 (by rw [h3]; exact h.1) (by rw [h3]; exact h31) (by
    intro l hl
    rw [List.mem_map] at hl
    obtain ⟨c, hm, rfl⟩ := hl
    exact Fib.fibCode_length_le (hc c hm).1 (hc c hm).2)
  rwa [h2, List.length_map] at this

example : Fib.prefixSum [0x14dfffffffffffff#64, 0xfffffffffffffffe#64] 50 3 = some 105#64 := by decide +kernel

/-- C28, restricted to numbers whose representation has a digit at position 64 or below (the missing ones are the numbers all of
    whose digits are above 64, for which the encoder shifts by a negative amount; see `C28_negative_shift`): encoding a sequence
    writes exactly the code words, and decoding returns the sequence. -/
theorem C28_roundtrip_partial (ys : List Word) (hg : ∀ w ∈ ys, zeck 93 (fibNum w) % 2 ^ 65 ≠ 0) (m : Mem) (pos : Nat)
    (hroom : pos + (ys.flatMap fibBits).length ≤ 64 * m.length) :
    ∃ m', encSeq Fib.code m (pos / 64) (pos % 64) ys =
        some (m', (pos + (ys.flatMap fibBits).length) / 64, (pos + (ys.flatMap fibBits).length) % 64) ∧
      m'.length = m.length ∧
      (∀ q, q < pos ∨ pos + (ys.flatMap fibBits).length ≤ q → bitAt m' q = bitAt m q) ∧
      At m' pos (ys.flatMap fibBits) ∧ (∀ w ∈ ys, IsFibCode (fibNum w) (fibBits w)) ∧
      (Fib.decode false m' pos ys.length).map (·.2) = some ys ∧
      (Fib.decode true m' pos ys.length).map (·.1) = some (sumW ys) := by
  obtain ⟨m', a, b⟩ := Fib.encSeq_eq ys hg hroom
  refine ⟨m', a, b.length, fun q hq => by rw [b.bits, if_neg (by omega)], b.at hroom, fun w _ => Fib.isFibCode_bits w, ?_, ?_⟩
  · rw [Fib.decode_words false (b.at hroom), Fib.emit_false _ _ rfl]; rfl
  · rw [Fib.decode_words true (b.at hroom), Fib.emit_true]; simp

/-- Small and large values (93 bits, 0 standing for `2^64`), over dirty memory. -/
example : (encSeq Fib.code [~~~0#64, ~~~0#64] 0 50 [1#64, 4#64, 100#64]).map (·.1) = some [0x14dfffffffffffff#64, 0xfffffffffffffffe#64] := by
  decide +kernel

example : zeck 93 (2 ^ 64) % 2 ^ 65 ≠ 0 ∧ zeck 93 100 % 2 ^ 65 ≠ 0 := by decide +kernel

example : (Fib.encode1 [~~~0#64, ~~~0#64, ~~~0#64] 0 50 0#64).map (·.2) = some (2, 15) := by decide +kernel

/-- C28 for vectors of any width, with the same restriction. -/
theorem C28_vector_roundtrip_partial (j1 j2 : Nat → Word) (v z u : IntVec) (hv : v.WF) (hz : z.WF) (hu : u.WF)
    (hg : ∀ w ∈ encVals (zeroVal v.width) v, zeck 93 (fibNum w) % 2 ^ 65 ≠ 0) :
    ∃ z' v', Fib.encodeVec j1 v z = some z' ∧ Fib.decodeVec j2 z' u = some v' ∧ v'.WF ∧ v'.width = v.width ∧
      v'.elems = v.elems := Fib.vec_roundtrip j1 j2 hv hz hu hg

/-- Up to 45 bits there is no restriction. -/
theorem C28_vector_roundtrip (j1 j2 : Nat → Word) (v z u : IntVec) (hv : v.WF) (hz : z.WF) (hu : u.WF) (hw : v.width ≤ 45) :
    ∃ z' v', Fib.encodeVec j1 v z = some z' ∧ Fib.decodeVec j2 z' u = some v' ∧ v'.WF ∧ v'.width = v.width ∧
      v'.elems = v.elems := by
  apply Fib.vec_roundtrip j1 j2 hv hz hu
  intro w hm
  have h45 : (2 : Nat) ^ v.width ≤ 2 ^ 45 := Nat.pow_le_pow_right (by decide) hw
  have hlt : w.toNat ≤ 2 ^ 45 ∧ w ≠ 0#64 := by
    refine ⟨?_, fun h => encVals_ne hv (Or.inl (by omega)) (h ▸ hm)⟩
    unfold encVals at hm
    rw [List.mem_map] at hm
    obtain ⟨e, h1, rfl⟩ := hm
    have he := elems_lt_pow h1
    split
    · unfold zeroVal
      rw [if_pos (by omega), BitVec.toNat_shiftLeft, Nat.shiftLeft_eq]
      refine Nat.le_trans (Nat.mod_le _ _) ?_
      simpa using h45
    · rw [BitVec.toNat_ofNat]
      exact Nat.le_trans (Nat.mod_le _ _) (by omega)
  have hn : fibNum w = w.toNat := by unfold fibNum; rw [if_neg hlt.2]
  have hpos := (Fib.fibNum_pos w).1
  have h65 : fibNum w < fibN 65 := by
    have : (2 : Nat) ^ 45 < fibN 65 := by decide +kernel
    omega
  have e := Fib.zeck_stable h65 28
  rw [show 65 + 28 = 93 from rfl] at e
  show zeck 93 (fibNum w) % 2 ^ 65 ≠ 0
  rw [e, Nat.mod_eq_of_lt (Fib.zeck_lt _ _)]
  intro h0
  have := (Fib.zeck_spec h65).1
  rw [h0] at this
  have z : ∀ n, fibSum (fun i => Nat.testBit 0 i) n = 0 := by
    intro n
    induction n with
    | zero => rfl
    | succ n ih => unfold fibSum; rw [ih]; simp
  rw [z] at this; omega

example : (Fib.encodeVec (fun _ => 77#64) ⟨20, [0x40700#64, 0#64], 5⟩ ⟨0, [0#64], 9⟩).bind (fun z =>
    (Fib.decodeVec (fun _ => 3#64) z ⟨0, [0#64], 64⟩).map IntVec.elems) = some [0, 24, 1, 8] := by decide +kernel

/-- Finding (C28): a number all of whose digits are above position 64, such as the 67th Fibonacci number, makes the encoder
    shift by a negative amount (`fibword_high <<= (64-j)` with `j > 64`). -/
theorem C28_negative_shift : Fib.encLen 0x28e0b4bf2bf5#64 = some 67 ∧ zeck 93 0x28e0b4bf2bf5 = 2 ^ 65 ∧
    Fib.encode1 [0#64, 0#64] 0 0 0x28e0b4bf2bf5#64 = none ∧ Fib.encode1 [0#64, 0#64] 0 0 (0x28e0b4bf2bf5#64 + 1#64) ≠ none := by
  decide +kernel

end Sdsl.Props
