import Verif.Vbyte

/-! # C97: the variable byte coding -/
namespace Sdsl.Props
open Vbyte

/-- C97: for every vector of 64 bit words, the coding writes bytes and returns their number, and decoding what was written, followed by any
further bytes, gives the vector again and leaves exactly the further bytes. -/
theorem C97_round_trip (l : List Nat) (width : Nat) (hw : width ≤ 64) (h : ∀ x ∈ l, x < 2 ^ width) :
    ∃ o, encAll l = some (o, o.length) ∧ (∀ b ∈ o, b < 256) ∧ ∀ rest, decAll width l.length (o ++ rest) = some (l, rest) := by
  obtain ⟨o, h1, h2, h3⟩ := encAll_ok l
    (fun x hx => Nat.lt_of_lt_of_le (h x hx) (Nat.pow_le_pow_right (by decide) hw))
  exact ⟨o, h1, h2, fun rest => h3 width rest h⟩

example : encAll [5, 128, 300, 0] = some ([5, 128, 1, 172, 2, 0], 6) := by decide
example : decAll 9 4 [5, 128, 1, 172, 2, 0, 77] = some ([5, 128, 300, 0], [77]) := by decide

/-- C97: a word takes at most `k + 1` bytes exactly if it is below 128^(k+1), so every word takes the least number of seven bit groups. -/
theorem C97_size (x : Nat) (hx : x < 2 ^ 64) :
    ∃ o, enc x = some (o, o.length) ∧ (∀ k, o.length ≤ k + 1 ↔ x < 128 ^ (k + 1)) ∧ o.length ≤ 10 := by
  obtain ⟨o, h1, -, h3, -⟩ := enc_ok hx
  exact ⟨o, h1, h3, (h3 9).2 (by omega)⟩

example : enc (2 ^ 64 - 1) = some (List.replicate 9 255 ++ [1], 10) := by decide

/-- C97: what the coding did not write need not be decodable: after ten bytes with the overflow bit the next shift is by 70, which is
undefined for every continuation. -/
theorem C97_foreign_bytes_wrong (b : Nat) (rest : List Nat) : decLoop (List.replicate 10 0x80 ++ b :: rest) 0 0 = none := by
  simp [List.replicate, decLoop]

example : decLoop (List.replicate 9 0x80 ++ [1]) 0 0 = some (2 ^ 63, []) := by decide

end Sdsl.Props
