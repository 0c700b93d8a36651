import Verif.K2TreapGeo

/-! # C98: powers, depth and squares of the k2-treap -/
namespace Sdsl.Props
open K2TreapGeo

/-- C98: for every parameter `k` and every power of `k` below 2^64, `exp`, `divexp` and `modexp` are the power, the quotient and the rest. -/
theorem C98_powers (k l x : Nat) (hk : 2 ≤ k) (h : k ^ l < 2 ^ 64) :
    exp k l = some (k ^ l) ∧ divexp k x l = some (x / k ^ l) ∧ modexp k x l = some (x % k ^ l) := powers hk h x

example : exp 3 4 = some 81 ∧ divexp 4 100 2 = some 6 ∧ modexp 4 100 2 = some 4 := by decide

/-- C98: if some power of `k` below 2^64 exceeds the largest coordinate, the depth is the least exponent of such a power. -/
theorem C98_depth_partial (k x t : Nat) (hk : 2 ≤ k) (h1 : x < k ^ t) (h2 : k ^ t < 2 ^ 64) :
    ∃ s, depth k x = some s ∧ x < k ^ s ∧ ∀ r < s, k ^ r ≤ x := by
  obtain ⟨s, a, b, c⟩ := least (P := fun s => x < k ^ s) t h1
  have h3 : k ^ s < 2 ^ 64 := Nat.lt_of_le_of_lt (Nat.pow_le_pow_right (by omega) a) h2
  have h4 : ∀ r < s, k ^ r ≤ x := fun r hr => Nat.le_of_not_lt (c r hr)
  have := lt64 hk h3
  exact ⟨s, depthLoop_ok hk s b h3 h4 66 0 (by omega) (by omega), b, h4⟩

example : depth 2 5 = some 3 ∧ depth 3 9 = some 3 ∧ depth 16 15 = some 1 ∧ depth 2 0 = some 0 := by decide

/-- C98: without such a power the loop leaves what is defined: for `k = 2` a coordinate with the highest bit set shifts by 64, likewise for
`k = 4`, 8 and 16; for `k = 3` the loop runs over the end of the table. -/
theorem C98_depth_wrong : (∀ x, 2 ^ 63 ≤ x → depth 2 x = none) ∧ (∀ x, 2 ^ 62 ≤ x → depth 4 x = none) ∧ (∀ x, 2 ^ 63 ≤ x → depth 8 x = none) ∧
    (∀ x, 2 ^ 60 ≤ x → depth 16 x = none) ∧ depth 3 (2 ^ 64 - 1) = none := by
  refine ⟨fun x h => ?_, fun x h => ?_, fun x h => ?_, fun x h => ?_, by decide⟩
  · exact depthLoop_none (c := 1) rfl (fun l hl => Nat.le_trans (Nat.pow_le_pow_right (by decide) (by omega)) h) 66 0
  · exact depthLoop_none (c := 2) rfl (fun l hl => Nat.le_trans (Nat.pow_le_pow_right (by decide) (by omega)) h) 66 0
  · exact depthLoop_none (c := 3) rfl (fun l hl => Nat.le_trans (Nat.pow_le_pow_right (by decide) (by omega)) h) 66 0
  · exact depthLoop_none (c := 4) rfl (fun l hl => Nat.le_trans (Nat.pow_le_pow_right (by decide) (by omega)) h) 66 0

example : depth 2 (2 ^ 63 - 1) = some 63 := by decide

/-- The points of the rectangle with the corners `p1` and `p2`. -/
def inRect (p1 p2 q : Nat × Nat) : Prop := p1.1 ≤ q.1 ∧ q.1 ≤ p2.1 ∧ p1.2 ≤ q.2 ∧ q.2 ≤ p2.2

/-- The points of the square of a node: lower left corner `p`, sides of `k ^ t`. -/
def inSquare (k t : Nat) (p q : Nat × Nat) : Prop := p.1 ≤ q.1 ∧ q.1 < p.1 + k ^ t ∧ p.2 ≤ q.2 ∧ q.2 < p.2 + k ^ t

/-- C98: for every node whose square lies in the 64 bit coordinates, `contained` says whether all points of the square are in the rectangle. -/
theorem C98_contained (k t : Nat) (p1 p2 p : Nat × Nat) (hk : 2 ≤ k) (ht : k ^ t < 2 ^ 64) (hx : p.1 + k ^ t ≤ 2 ^ 64) (hy : p.2 + k ^ t ≤ 2 ^ 64) :
    ∃ b, contained k p1 p2 p t = some b ∧ (b = true ↔ ∀ q, inSquare k t p q → inRect p1 p2 q) := by
  have hp : 0 < k ^ t := Nat.pow_pos (by omega)
  refine ⟨_, by rw [contained, (powers hk ht 0).1, Option.map_some], ?_⟩
  unfold inSquare inRect
  generalize k ^ t = e at *
  have hd : (e + 2 ^ 64 - 1) % 2 ^ 64 = e - 1 := by omega
  simp only [hd, Nat.mod_eq_of_lt (show p.1 + (e - 1) < 2 ^ 64 by omega), Nat.mod_eq_of_lt (show p.2 + (e - 1) < 2 ^ 64 by omega),
    Bool.and_eq_true, decide_eq_true_eq]
  constructor
  · intro h q hq
    omega
  · intro h
    have h1 := h p (by omega)
    have h2 := h (p.1 + (e - 1), p.2 + (e - 1)) (by simp only; omega)
    simp only at h2
    omega

example : contained 2 (1, 1) (9, 9) (4, 4) 2 = some true ∧ contained 2 (1, 1) (9, 6) (4, 4) 2 = some false := by decide

/-- C98: for every such node and every rectangle, `overlap` says whether the square and the rectangle have a point in common. -/
theorem C98_overlap (k t : Nat) (p1 p2 p : Nat × Nat) (hk : 2 ≤ k) (ht : k ^ t < 2 ^ 64) (hx : p.1 + k ^ t ≤ 2 ^ 64) (hy : p.2 + k ^ t ≤ 2 ^ 64)
    (h1 : p1.1 ≤ p2.1) (h2 : p1.2 ≤ p2.2) :
    ∃ b, overlap k p1 p2 p t = some b ∧ (b = true ↔ ∃ q, inSquare k t p q ∧ inRect p1 p2 q) := by
  have hp : 0 < k ^ t := Nat.pow_pos (by omega)
  refine ⟨_, by rw [overlap, (powers hk ht 0).1, Option.map_some], ?_⟩
  unfold inSquare inRect
  generalize k ^ t = e at *
  have hd : (e + 2 ^ 64 - 1) % 2 ^ 64 = e - 1 := by omega
  simp only [hd, Nat.mod_eq_of_lt (show p.1 + (e - 1) < 2 ^ 64 by omega), Nat.mod_eq_of_lt (show p.2 + (e - 1) < 2 ^ 64 by omega),
    Bool.and_eq_true, decide_eq_true_eq]
  constructor
  · intro h
    refine ⟨(max p1.1 p.1, max p1.2 p.2), ?_⟩
    simp only
    omega
  · rintro ⟨q, hq⟩
    omega

example : overlap 2 (1, 1) (4, 4) (4, 4) 2 = some true ∧ overlap 2 (1, 1) (9, 3) (4, 4) 2 = some false := by decide

end Sdsl.Props
