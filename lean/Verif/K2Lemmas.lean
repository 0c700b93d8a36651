/-
  The shape of a k²-tree and its queries (K2.lean).
-/
import Verif.K2
import Verif.CsaSample
import Mathlib.Tactic.Conv
import Mathlib.Tactic.ByContra

namespace Sdsl.K2

open Csa Spec

/-- The square with the side `s` at `(r, c)` contains a one of the matrix `E`. -/
def has (E : Nat → Nat → Bool) (r c s : Nat) : Bool := (List.range s).any fun a => (List.range s).any fun b => E (r + a) (c + b)

theorem has_iff {E : Nat → Nat → Bool} {r c s : Nat} : has E r c s = true ↔ ∃ a b, a < s ∧ b < s ∧ E (r + a) (c + b) = true := by
  simp only [has, List.any_eq_true, List.mem_range]
  constructor
  · rintro ⟨a, h1, b, h2, h3⟩; exact ⟨a, b, h1, h2, h3⟩
  · rintro ⟨a, b, h1, h2, h3⟩; exact ⟨a, h1, b, h2, h3⟩

theorem has_false {E : Nat → Nat → Bool} {r c s : Nat} (h : has E r c s = false) {i j : Nat} (h1 : r ≤ i) (h2 : i < r + s) (h3 : c ≤ j) (h4 : j < c + s) : E i j = false := by
  by_contra g
  have : has E r c s = true := has_iff.2 ⟨i - r, j - c, by omega, by omega, by
    rw [show r + (i - r) = i by omega, show c + (j - c) = j by omega]
    simpa using g⟩
  rw [h] at this
  cases this

/-- A node: its square has the side `k^(e+1)`, and its `k²` parts have the side `k^e`. -/
structure Nd where
  r : Nat
  c : Nat
  e : Nat

section
variable (E : Nat → Nat → Bool) (k : Nat)

/-- The bit of part `it` of a node. -/
def cbit (x : Nd) (it : Nat) : Bool := has E (x.r + it / k * k ^ x.e) (x.c + it % k * k ^ x.e) (k ^ x.e)

/-- The bits of a node. -/
def bits (x : Nd) : List Bool := (List.range (k * k)).map (cbit E k x)

/-- The child for part `it`. -/
def kid (x : Nd) (it : Nat) : Nd := ⟨x.r + it / k * k ^ x.e, x.c + it % k * k ^ x.e, x.e - 1⟩

/-- The children of a node. -/
def kids (x : Nd) : List Nd := ((List.range (k * k)).filter (cbit E k x)).map (kid k x)

/-- `T` and `L` are the bits of a tree of height `h` for the matrix `E`: `I` are the inner nodes and `F` the nodes of the last level in breadth-first order. -/
structure Shape (h : Nat) (I F : List Nd) (T L : List Bool) : Prop where
  t : T = I.flatMap (bits E k)
  l : L = F.flatMap (bits E k)
  order : I ++ F = ⟨0, 0, h - 1⟩ :: I.flatMap (kids E k)
  inner : ∀ x ∈ I, 1 ≤ x.e
  last : ∀ x ∈ F, x.e = 0

end

/-! ### Concatenations -/

/-- A concatenation of blocks of the same length. -/
theorem getElem?_blocks {α β : Type} {f : α → List β} {n : Nat} : ∀ {X : List α} {m : Nat} {x : α} {i : Nat}, (∀ x, (f x).length = n) → X[m]? = some x → i < n → (X.flatMap f)[m * n + i]? = (f x)[i]?
  | [], _, _, _, _, h, _ => by simp at h
  | y :: X, 0, x, i, hl, h, hi => by
    simp only [List.getElem?_cons_zero, Option.some.injEq] at h
    subst h
    rw [List.flatMap_cons, Nat.zero_mul, Nat.zero_add, List.getElem?_append_left (by rw [hl]; exact hi)]
  | y :: X, m + 1, x, i, hl, h, hi => by
    rw [List.getElem?_cons_succ] at h
    rw [List.flatMap_cons, List.getElem?_append_right (by rw [hl, Nat.succ_mul]; omega), hl, show (m + 1) * n + i - n = m * n + i by rw [Nat.succ_mul]; omega]
    exact getElem?_blocks hl h hi

theorem length_blocks {α β : Type} {f : α → List β} {n : Nat} (hl : ∀ x, (f x).length = n) : ∀ X : List α, (X.flatMap f).length = X.length * n
  | [] => by simp
  | x :: X => by rw [List.flatMap_cons, List.length_append, hl, length_blocks hl X, List.length_cons, Nat.succ_mul]; omega

theorem getElem?_flatMap {α β : Type} {f : α → List β} : ∀ {X : List α} {m : Nat} {x : α} {i : Nat}, X[m]? = some x → i < (f x).length → (X.flatMap f)[((X.take m).flatMap f).length + i]? = (f x)[i]?
  | [], _, _, _, h, _ => by simp at h
  | y :: X, 0, x, i, h, hi => by
    simp only [List.getElem?_cons_zero, Option.some.injEq] at h
    subst h
    rw [List.flatMap_cons, List.take_zero, List.flatMap_nil, List.length_nil, Nat.zero_add, List.getElem?_append_left hi]
  | y :: X, m + 1, x, i, h, hi => by
    rw [List.getElem?_cons_succ] at h
    rw [List.flatMap_cons, List.take_succ_cons, List.flatMap_cons, List.length_append, Nat.add_assoc, List.getElem?_append_right (by omega), Nat.add_sub_cancel_left]
    exact getElem?_flatMap h hi

/-- The number of ones in front of a position is that of a prefix of the list. -/
theorem cnt_take (B : List Bool) : ∀ i, i ≤ B.length → Bv.cnt true B i = ((B.take i).filter id).length := by
  induction B with
  | nil => intro i hi; simp at hi; subst hi; rfl
  | cons b B ih =>
    intro i hi
    cases i with
    | zero => rfl
    | succ i =>
      rw [Bv.cnt_cons, ih i (by simpa using hi), List.take_succ_cons, List.filter_cons]
      cases b <;> simp [Nat.add_comm]

theorem filter_map_length (f : Nat → Bool) (l : List Nat) : ((l.map f).filter id).length = (l.filter f).length := by
  induction l with
  | nil => rfl
  | cons a l ih =>
    rw [List.map_cons, List.filter_cons, List.filter_cons]
    cases h : f a <;> simp [ih]

section
variable {E : Nat → Nat → Bool} {k h : Nat} {I F : List Nd} {T L : List Bool}

theorem bits_length (x : Nd) : (bits E k x).length = k * k := by simp [bits]

theorem ones_eq : ∀ X : List Nd, ((X.flatMap (bits E k)).filter id).length = (X.flatMap (kids E k)).length
  | [] => rfl
  | x :: X => by
    rw [List.flatMap_cons, List.flatMap_cons, List.filter_append, List.length_append, List.length_append, ones_eq X, bits, filter_map_length, kids, List.length_map]

theorem filter_range_get (f : Nat → Bool) (n it : Nat) (hi : it < n) (hf : f it = true) : ((List.range n).filter f)[((List.range it).filter f).length]? = some it := by
  have : List.range n = List.range it ++ it :: (List.range (n - it - 1)).map (fun x => it + 1 + x) := by
    conv_lhs => rw [show n = it + ((n - it - 1) + 1) by omega, List.range_add, List.range_succ_eq_map]
    simp only [List.map_cons, List.map_map, Nat.add_zero]
    congr 2
    apply List.map_congr_left
    intro x _
    show it + (x + 1) = _
    omega
  rw [this, List.filter_append, List.getElem?_append_right (Nat.le_refl _), Nat.sub_self, List.filter_cons, if_pos hf]
  rfl

variable (hs : Shape E k h I F T L)
include hs

theorem Shape.tlen : T.length = I.length * (k * k) := by rw [hs.t, length_blocks bits_length]

theorem Shape.llen : L.length = F.length * (k * k) := by rw [hs.l, length_blocks bits_length]

theorem Shape.root : (I ++ F)[0]? = some ⟨0, 0, h - 1⟩ := by rw [hs.order]; rfl

/-- Position `it` of the node number `m`. -/
theorem Shape.pos_inner {m it : Nat} {x : Nd} (hm : (I ++ F)[m]? = some x) (he : 1 ≤ x.e) (hi : it < k * k) : m * (k * k) + it < T.length ∧ Bv.get T (m * (k * k) + it) = some (cbit E k x it) ∧
    (cbit E k x it = true → ∃ r, Bv.rank true T (m * (k * k) + it + 1) = some r ∧ (I ++ F)[r]? = some (kid k x it)) := by
  have hlt : m < I.length := by
    by_contra g
    rw [List.getElem?_append_right (by omega)] at hm
    have := hs.last x (List.mem_of_getElem? hm)
    omega
  have hx : I[m]? = some x := by rwa [List.getElem?_append_left hlt] at hm
  have hp : m * (k * k) + it < T.length := by
    have := Nat.mul_le_mul_right (k * k) (show m + 1 ≤ I.length from hlt)
    rw [Nat.succ_mul] at this
    rw [hs.tlen]; omega
  have hg : T[m * (k * k) + it]? = some (cbit E k x it) := by
    rw [hs.t, getElem?_blocks bits_length hx hi, bits, List.getElem?_map, List.getElem?_range hi]
    rfl
  refine ⟨hp, hg, fun hb => ⟨_, Bv.rank_of_le (by omega), ?_⟩⟩
  have hcnt : Bv.cnt true T (m * (k * k) + it) = ((I.take m).flatMap (kids E k)).length + ((List.range it).filter (cbit E k x)).length := by
    rw [cnt_take T _ (by omega)]
    have hsplit : T.take (m * (k * k) + it) = (I.take m).flatMap (bits E k) ++ (List.range it).map (cbit E k x) := by
      have h1 : I = I.take m ++ x :: I.drop (m + 1) := by
        have : I[m] = x := by
          rw [List.getElem?_eq_getElem hlt] at hx
          exact Option.some.inj hx
        rw [← this, List.cons_getElem_drop_succ, List.take_append_drop]
      have h2 : ((I.take m).flatMap (bits E k)).length = m * (k * k) := by
        rw [length_blocks bits_length, List.length_take, Nat.min_eq_left (by omega)]
      conv_lhs => rw [hs.t, h1, List.flatMap_append, List.flatMap_cons]
      rw [List.take_append, h2, List.take_of_length_le (by omega), Nat.add_sub_cancel_left, List.take_append_of_le_length (by rw [bits_length]; omega), bits, ← List.map_take, List.take_range, Nat.min_eq_left (by omega)]
    rw [hsplit, List.filter_append, List.length_append, ones_eq, filter_map_length]
  have hbt : Bv.bit T (m * (k * k) + it) = true := by
    rw [Bv.bit, List.getD_eq_getElem?_getD, hg, hb]; rfl
  rw [Bv.cnt_succ, hbt, hcnt, hs.order, show ((true == true).toNat) = 1 from rfl, List.getElem?_cons_succ]
  have hk : (kids E k x)[((List.range it).filter (cbit E k x)).length]? = some (kid k x it) := by
    rw [kids, List.getElem?_map, filter_range_get _ _ _ hi hb]
    rfl
  rw [getElem?_flatMap hx]
  · exact hk
  · exact (List.getElem?_eq_some_iff.1 hk).1

theorem Shape.pos_last {m it : Nat} {x : Nd} (hm : (I ++ F)[m]? = some x) (he : x.e = 0) (hi : it < k * k) : T.length ≤ m * (k * k) + it ∧ Bv.get L (m * (k * k) + it - T.length) = some (E (x.r + it / k) (x.c + it % k)) := by
  have hge : I.length ≤ m := by
    by_contra g
    rw [List.getElem?_append_left (by omega)] at hm
    have := hs.inner x (List.mem_of_getElem? hm)
    omega
  have hx : F[m - I.length]? = some x := by rwa [List.getElem?_append_right hge] at hm
  have h1 := Nat.mul_le_mul_right (k * k) hge
  have hm' : m * (k * k) = (m - I.length) * (k * k) + I.length * (k * k) := by rw [← Nat.add_mul]; congr 1; omega
  refine ⟨by rw [hs.tlen]; omega, ?_⟩
  rw [hs.tlen, show m * (k * k) + it - I.length * (k * k) = (m - I.length) * (k * k) + it by omega]
  show L[_]? = _
  rw [hs.l, getElem?_blocks bits_length hx hi, bits, List.getElem?_map, List.getElem?_range hi, Option.map_some, cbit, he, Nat.pow_zero, Nat.mul_one, Nat.mul_one]
  congr 1
  simp [has]

end

/-! ### adj -/

theorem chunk_lt {k a b : Nat} (ha : a < k) (hb : b < k) : k * a + b < k * k ∧ (k * a + b) / k = a ∧ (k * a + b) % k = b := by
  have hk : 0 < k := by omega
  refine ⟨?_, ?_, ?_⟩
  · have := Nat.mul_le_mul_left k (show a + 1 ≤ k from ha)
    rw [Nat.mul_add] at this
    omega
  · rw [Nat.mul_add_div hk, Nat.div_eq_of_lt hb, Nat.add_zero]
  · rw [Nat.mul_add_mod, Nat.mod_eq_of_lt hb]

theorem fdiv_eq {i n : Nat} (hn : 0 < n) (hi : i ≤ 2 ^ 53) : fdiv i n = some (i / n) := by
  rw [fdiv, if_neg (by omega), if_pos hi]

theorem fpow_eq {k e : Nat} (h : k ^ e ≤ 2 ^ 53) : fpow k e = some (k ^ e) := by rw [fpow, if_pos h]

/-- Inside a square of side `k^(e+1)` a position has a part and a position in the part. -/
theorem div_lt_k {k e i : Nat} (h : i < k ^ (e + 1)) : i / k ^ e < k := by
  rw [Nat.pow_succ] at h
  exact Nat.div_lt_of_lt_mul h

section
variable {E : Nat → Nat → Bool} {k h : Nat} {I F : List Nd} {t : Obj} (hs : Shape E k h I F t.T t.L) (hk : t.k = k) (hk2 : 2 ≤ k)
include hs hk hk2

theorem adjLoop_ok {i j : Nat} (hi : i ≤ 2 ^ 53) (hj : j ≤ 2 ^ 53) : ∀ e f m x, x.e = e → (I ++ F)[m]? = some x → x.r ≤ i → i < x.r + k ^ (e + 1) → x.c ≤ j → j < x.c + k ^ (e + 1) → e < f →
    adjLoop t (k ^ 2) f ((i - x.r) % k ^ e) ((j - x.c) % k ^ e) (m * (k * k) + (k * ((i - x.r) / k ^ e) + (j - x.c) / k ^ e)) (k ^ e / k) = some (E i j) := by
  intro e
  induction e with
  | zero =>
    intro f m x he hm h1 h2 h3 h4 hf
    obtain ⟨f, rfl⟩ : ∃ g, f = g + 1 := ⟨f - 1, by omega⟩
    have d1 := div_lt_k (k := k) (e := 0) (i := i - x.r) (by omega)
    have d2 := div_lt_k (k := k) (e := 0) (i := j - x.c) (by omega)
    obtain ⟨c1, c2, c3⟩ := chunk_lt d1 d2
    obtain ⟨p1, p2⟩ := hs.pos_last hm he c1
    rw [adjLoop, if_neg (by omega), p2, c2, c3, Nat.pow_zero, Nat.div_one, Nat.div_one, show x.r + (i - x.r) = i by omega, show x.c + (j - x.c) = j by omega]
  | succ e ih =>
    intro f m x he hm h1 h2 h3 h4 hf
    obtain ⟨f, rfl⟩ : ∃ g, f = g + 1 := ⟨f - 1, by omega⟩
    have d1 := div_lt_k (k := k) (e := e + 1) (i := i - x.r) (by omega)
    have d2 := div_lt_k (k := k) (e := e + 1) (i := j - x.c) (by omega)
    obtain ⟨c1, c2, c3⟩ := chunk_lt d1 d2
    obtain ⟨p1, p2, p3⟩ := hs.pos_inner hm (by omega) c1
    have hpos : 0 < k ^ (e + 1) := Nat.pow_pos (by omega)
    have hpos' : 0 < k ^ e := Nat.pow_pos (by omega)
    obtain ⟨z1, hz1⟩ : ∃ z, z = (i - x.r) / k ^ (e + 1) * k ^ (e + 1) := ⟨_, rfl⟩
    obtain ⟨z2, hz2⟩ : ∃ z, z = (j - x.c) / k ^ (e + 1) * k ^ (e + 1) := ⟨_, rfl⟩
    obtain ⟨m1, hm1⟩ : ∃ z, z = (i - x.r) % k ^ (e + 1) := ⟨_, rfl⟩
    obtain ⟨m2, hm2⟩ : ∃ z, z = (j - x.c) % k ^ (e + 1) := ⟨_, rfl⟩
    have hl1 := Nat.mod_lt (i - x.r) hpos
    have hl2 := Nat.mod_lt (j - x.c) hpos
    have hdm1 := Nat.div_add_mod' (i - x.r) (k ^ (e + 1))
    have hdm2 := Nat.div_add_mod' (j - x.c) (k ^ (e + 1))
    rw [← hz1, ← hm1] at hdm1
    rw [← hz2, ← hm2] at hdm2
    rw [← hm1] at hl1
    rw [← hm2] at hl2
    rw [adjLoop, if_pos p1, p2, sbind]
    cases hb : cbit E k x (k * ((i - x.r) / k ^ (e + 1)) + (j - x.c) / k ^ (e + 1)) with
    | false =>
      rw [if_pos rfl]
      rw [cbit, c2, c3, he, ← hz1, ← hz2] at hb
      rw [has_false hb (by omega) (by omega) (by omega) (by omega)]
      rfl
    | true =>
      obtain ⟨r, r1, r2⟩ := p3 hb
      rw [kid, c2, c3, he, Nat.add_sub_cancel, ← hz1, ← hz2] at r2
      have hq : k ^ (e + 1) / k = k ^ e := by rw [Nat.pow_succ, Nat.mul_div_cancel _ (by omega)]
      have := ih f r _ rfl r2 (by dsimp only; omega) (by dsimp only; omega) (by dsimp only; omega) (by dsimp only; omega) (by omega)
      dsimp only at this
      rw [show i - (x.r + z1) = m1 by omega, show j - (x.c + z2) = m2 by omega] at this
      rw [if_neg (by simp), hq, ← hm1, ← hm2, fdiv_eq hpos' (by omega), sbind, fdiv_eq hpos' (by omega), sbind, r1, sbind, hk, Nat.add_assoc, Nat.pow_two]
      rw [Nat.pow_two] at this
      exact this

omit hk in
theorem Shape.nonempty : ¬ (t.T.length = 0 ∧ t.L.length = 0) := by
  rw [hs.tlen, hs.llen]
  have := congrArg List.length hs.order
  rw [List.length_append, List.length_cons] at this
  have hkk : 0 < k * k := Nat.mul_pos (by omega) (by omega)
  rintro ⟨h1, h2⟩
  rcases Nat.mul_eq_zero.1 h1 with g1 | g1
  · rcases Nat.mul_eq_zero.1 h2 with g2 | g2
    · omega
    · omega
  · omega

theorem adj_ok (hk3 : k ≤ 255) (hh : t.height = h) (h1 : 1 ≤ h) (hsz : k ^ h ≤ 2 ^ 53) {i j : Nat} (hi : i < k ^ h) (hj : j < k ^ h) : adj t i j = some (E i j) := by
  have hle : k ^ (h - 1) ≤ 2 ^ 53 := Nat.le_trans (Nat.pow_le_pow_right (by omega) (by omega)) hsz
  have hpos : 0 < k ^ (h - 1) := Nat.pow_pos (by omega)
  have hk4 : k ^ 2 ≤ 2 ^ 53 := Nat.le_trans (Nat.pow_le_pow_left hk3 2) (by decide)
  have he : h - 1 + 1 = h := by omega
  have := adjLoop_ok hs hk hk2 (i := i) (j := j) (by omega) (by omega) (h - 1) (h + 1) 0 _ rfl hs.root (Nat.zero_le _) (by rw [he]; simpa using hi) (Nat.zero_le _) (by rw [he]; simpa using hj) (by omega)
  rw [adj, if_neg (hs.nonempty hk2), hk, hh, fpow_eq hle, sbind, fpow_eq hk4, sbind, fdiv_eq hpos (by omega), sbind, fdiv_eq hpos (by omega), sbind]
  simpa using this

end
end Sdsl.K2
