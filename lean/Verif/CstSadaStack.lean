/-
  The numbers of parentheses that the constructor of cst_sada computes with its stack are the numbers of nodes with a given bound.
-/
import Verif.CstSada
import Verif.SpecCst
import Verif.SpecLemmas

namespace Sdsl.CstSada

open Spec

/-- `[i..j]` is an LCP interval of the values `V 0 .. V (n-1)`; `IsNode` for functions. -/
def Nd (V : Nat → Nat) (n i j : Nat) : Prop :=
  i ≤ j ∧ j < n ∧ ∀ k, i < k → k ≤ j → (i = 0 ∨ V i < V k) ∧ (j + 1 = n ∨ V (j + 1) < V k)

open Classical in
/-- The same as a test. -/
noncomputable def ndB (V : Nat → Nat) (n i j : Nat) : Bool := decide (Nd V n i j)

theorem ndB_iff {V : Nat → Nat} {n i j : Nat} : ndB V n i j = true ↔ Nd V n i j := by unfold ndB; simp

/-- Popping everything larger than `x`: how many, and what remains. -/
def ppop (x : Nat) : List Nat → Nat × List Nat
  | [] => (0, [])
  | t :: S => if t > x then ((ppop x S).1 + 1, (ppop x S).2) else (0, t :: S)

/-- Pushing a value that is larger than the top. -/
def ppush (x : Nat) (S : List Nat) : List Nat := if S.headD 0 < x then x :: S else S

/-- The stack (without the zero at the bottom) behind the values `V 1 .. V i`. -/
def stk (V : Nat → Nat) : Nat → List Nat
  | 0 => []
  | i + 1 => ppush (V (i + 1) + 1) (ppop (V (i + 1) + 1) (stk V i)).2

/-- What is popped at position `i`; everything at the end. -/
def pops (V : Nat → Nat) (n i : Nat) : Nat := if i + 1 < n then (ppop (V (i + 1) + 1) (stk V i)).1 else (stk V i).length

/-- The stack with the left bounds of the intervals. -/
inductive St (V : Nat → Nat) : Nat → List (Nat × Nat) → Prop
  | nil : St V 0 []
  | cons {p a A} : St V a A → a < p → (∀ k, a < k → k ≤ p → V p ≤ V k) → (a = 0 ∨ V a < V p) → St V p ((V p + 1, a) :: A)

variable {V : Nat → Nat} {n : Nat}

/-- Popping with the left bounds: from the state of `a`, the values between `a` and `q` being larger than `x`. -/
theorem St.pop {x a : Nat} {A : List (Nat × Nat)} (h : St V a A) : ∀ q, a < q → V q + 1 = x → (∀ k, a < k → k < q → V q < V k) →
    ∃ A', St V q A' ∧ A'.map Prod.fst = ppush x (ppop x (A.map Prod.fst)).2 := by
  induction h with
  | nil =>
    intro q hq hx hk
    refine ⟨[(V q + 1, 0)], St.cons St.nil hq (fun k h1 h2 => ?_) (Or.inl rfl), ?_⟩
    · rcases Nat.lt_or_ge k q with h | h
      · have := hk k h1 h; omega
      · obtain rfl : k = q := by omega
        exact Nat.le_refl _
    · simp [ppop, ppush, hx]; omega
  | @cons p a A h h1 h2 h3 ih =>
    intro q hq hx hk
    by_cases c : V p + 1 > x
    · obtain ⟨A', g1, g2⟩ := ih q (by omega) hx (fun k g1 g2 => by
        rcases Nat.lt_or_ge p k with g | g
        · exact hk k g g2
        · have := h2 k g1 g; omega)
      refine ⟨A', g1, ?_⟩
      rw [g2, List.map_cons, ppop, if_pos c]
    · rw [List.map_cons, ppop, if_neg c]
      by_cases e : V p + 1 < x
      · refine ⟨(V q + 1, p) :: (V p + 1, a) :: A, St.cons (St.cons h h1 h2 h3) hq (fun k g1 g2 => ?_) (Or.inr (by omega)), ?_⟩
        · rcases Nat.lt_or_ge k q with g | g
          · have := hk k g1 g; omega
          · obtain rfl : k = q := by omega
            exact Nat.le_refl _
        · rw [ppush, if_pos (by exact e)]; simp [hx]
      · have e2 : V p = V q := by omega
        refine ⟨(V p + 1, a) :: A, ?_, ?_⟩
        · rw [e2]
          refine St.cons h (by omega) (fun k g1 g2 => ?_) (by rw [← e2]; exact h3)
          rcases Nat.lt_or_ge p k with g | g
          · rcases Nat.lt_or_ge k q with g' | g'
            · have := hk k g g'; omega
            · obtain rfl : k = q := by omega
              exact Nat.le_refl _
          · have := h2 k g1 g; omega
        · rw [ppush, if_neg (by exact e)]; simp

theorem stk_st (V : Nat → Nat) : ∀ i, ∃ A, St V i A ∧ A.map Prod.fst = stk V i
  | 0 => ⟨[], St.nil, rfl⟩
  | i + 1 => by
    obtain ⟨A, h1, h2⟩ := stk_st V i
    obtain ⟨A', h3, h4⟩ := h1.pop (i + 1) (by omega) rfl (fun k _ _ => by omega)
    exact ⟨A', h3, by rw [h4, h2]; rfl⟩

/-- The left bounds are decreasing. -/
theorem St.lt {p : Nat} {A : List (Nat × Nat)} (h : St V p A) : ∀ e ∈ A, e.2 < p := by
  induction h with
  | nil => intro e he; cases he
  | cons h h1 h2 h3 ih =>
    intro e he
    rcases List.mem_cons.1 he with rfl | he
    · exact h1
    · have := ih e he; omega

/-- The value of an entry is the minimum (plus one) behind its left bound. -/
theorem St.val {p : Nat} {A : List (Nat × Nat)} (h : St V p A) : ∀ e ∈ A, (∀ k, e.2 < k → k ≤ p → e.1 ≤ V k + 1) ∧
    (∃ k, e.2 < k ∧ k ≤ p ∧ e.1 = V k + 1) ∧ (e.2 = 0 ∨ V e.2 + 1 < e.1) := by
  induction h with
  | nil => intro e he; cases he
  | @cons p a A h h1 h2 h3 ih =>
    intro e he
    rcases List.mem_cons.1 he with rfl | he
    · refine ⟨fun k g1 g2 => ?_, ⟨p, h1, Nat.le_refl _, rfl⟩, ?_⟩
      · have := h2 k g1 g2; show V p + 1 ≤ _; omega
      · rcases h3 with h3 | h3
        · exact Or.inl h3
        · right; show V a + 1 < V p + 1; omega
    · obtain ⟨g1, ⟨k, g2, g3, g4⟩, g5⟩ := ih e he
      refine ⟨fun k' g6 g7 => ?_, ⟨k, g2, by omega, g4⟩, g5⟩
      rcases Nat.lt_or_ge a k' with g | g
      · have g8 := h2 k' g g7
        have g9 := g1 a (h.lt e he) (Nat.le_refl _)
        rcases h3 with h3 | h3
        · have := h.lt e he; omega
        · omega
      · exact g1 k' g6 g

/-- Every left bound is on the stack. -/
theorem St.complete {p : Nat} {A : List (Nat × Nat)} (h : St V p A) : ∀ a, a < p → (a = 0 ∨ ∀ k, a < k → k ≤ p → V a < V k) → ∃ v, (v, a) ∈ A := by
  induction h with
  | nil => intro a h; omega
  | @cons p c A h h1 h2 h3 ih =>
    intro a ha hk
    rcases Nat.lt_trichotomy a c with g | g | g
    · obtain ⟨v, hv⟩ := ih a g (by
        rcases hk with hk | hk
        · exact Or.inl hk
        · exact Or.inr fun k g1 g2 => hk k g1 (by omega))
      exact ⟨v, List.mem_cons_of_mem _ hv⟩
    · subst g
      exact ⟨_, List.mem_cons_self⟩
    · exfalso
      rcases hk with hk | hk
      · omega
      · have := hk p ha (Nat.le_refl _)
        have := h2 a g (by omega)
        omega

/-- How many numbers below `p` have a property that holds exactly on a decreasing list. -/
theorem countTrue_list (f : Nat → Bool) : ∀ (l : List Nat) (p : Nat), l.Pairwise (fun a b => b < a) → (∀ a ∈ l, a < p) →
    (∀ a, a < p → (f a = true ↔ a ∈ l)) → countTrue f p = l.length
  | l, 0, _, h2, _ => by
    cases l with
    | nil => rfl
    | cons a l => have := h2 a List.mem_cons_self; omega
  | l, p + 1, h1, h2, h3 => by
    show countTrue f p + (f p).toNat = _
    by_cases c : f p = true
    · have hp : p ∈ l := (h3 p (by omega)).1 c
      cases l with
      | nil => cases hp
      | cons a l =>
        have ha : a = p := by
          rcases List.mem_cons.1 hp with e | e
          · exact e.symm
          · have := List.rel_of_pairwise_cons h1 e
            have := h2 a List.mem_cons_self
            omega
        subst ha
        have h4 := List.pairwise_cons.1 h1
        rw [countTrue_list f l a h4.2 (fun b hb => h4.1 b hb) (fun b hb => by
          rw [h3 b (by omega), List.mem_cons]
          refine ⟨fun h => ?_, Or.inr⟩
          rcases h with h | h
          · omega
          · exact h), c]
        rfl
    · have hp : p ∉ l := fun h => c ((h3 p (by omega)).2 h)
      rw [countTrue_list f l p h1 (fun a ha => by
          have := h2 a ha
          have : a ≠ p := fun e => hp (e ▸ ha)
          omega) (fun a ha => h3 a (by omega)), Bool.eq_false_iff.2 c]
      rfl

/-- What is popped, with the left bounds. -/
theorem ppop_eq (x : Nat) : ∀ A : List (Nat × Nat), (ppop x (A.map Prod.fst)).1 = (A.takeWhile (fun e => decide (e.1 > x))).length
  | [] => rfl
  | e :: A => by
    rw [List.map_cons, ppop]
    by_cases c : e.1 > x
    · rw [if_pos c, List.takeWhile_cons_of_pos (by simpa using c), List.length_cons, ppop_eq x A]
    · rw [if_neg c, List.takeWhile_cons_of_neg (by simpa using c)]; rfl

theorem St.sorted {p : Nat} {A : List (Nat × Nat)} (h : St V p A) : A.Pairwise (fun a b => b.2 < a.2 ∧ b.1 < a.1) := by
  induction h with
  | nil => exact List.Pairwise.nil
  | @cons p a A h h1 h2 h3 ih =>
    refine List.pairwise_cons.2 ⟨fun b hb => ⟨h.lt b hb, ?_⟩, ih⟩
    have g := (h.val b hb).1 a (h.lt b hb) (Nat.le_refl _)
    show b.1 < V p + 1
    rcases h3 with h3 | h3
    · have := h.lt b hb; omega
    · omega

theorem mem_takeWhile {x : Nat} : ∀ {A : List (Nat × Nat)}, A.Pairwise (fun a b => b.2 < a.2 ∧ b.1 < a.1) → ∀ e,
    e ∈ A.takeWhile (fun e => decide (e.1 > x)) ↔ e ∈ A ∧ e.1 > x
  | [], _, e => by simp
  | a :: A, h, e => by
    have h' := List.pairwise_cons.1 h
    by_cases c : a.1 > x
    · rw [List.takeWhile_cons_of_pos (by simpa using c), List.mem_cons, List.mem_cons, mem_takeWhile h'.2 e]
      constructor
      · rintro (g | g)
        · exact ⟨Or.inl g, by rw [g]; exact c⟩
        · exact ⟨Or.inr g.1, g.2⟩
      · rintro ⟨g | g, g'⟩
        · exact Or.inl g
        · exact Or.inr ⟨g, g'⟩
    · rw [List.takeWhile_cons_of_neg (by simpa using c)]
      constructor
      · intro g; cases g
      · rintro ⟨g, g'⟩
        rcases List.mem_cons.1 g with g | g
        · rw [g] at g'; exact absurd g' c
        · have := (h'.1 e g).2; omega

/-- What is popped at `p` are the intervals that end at `p`, but for the leaf. -/
theorem pops_eq {p : Nat} (hp : p < n) : pops V n p = countTrue (fun a => ndB V n a p) p := by
  obtain ⟨A, h1, h2⟩ := stk_st V p
  have hs := h1.sorted
  have key : ∃ B : List (Nat × Nat), pops V n p = B.length ∧ B.Pairwise (fun a b => b.2 < a.2 ∧ b.1 < a.1) ∧
      ∀ e, e ∈ B ↔ e ∈ A ∧ (p + 1 = n ∨ e.1 > V (p + 1) + 1) := by
    by_cases c : p + 1 < n
    · refine ⟨A.takeWhile (fun e => decide (e.1 > V (p + 1) + 1)), ?_, hs.sublist (List.takeWhile_sublist _), fun e => ?_⟩
      · rw [pops, if_pos c, ← h2, ppop_eq]
      · rw [mem_takeWhile hs]
        refine ⟨fun h => ⟨h.1, Or.inr h.2⟩, fun h => ⟨h.1, ?_⟩⟩
        rcases h.2 with g | g
        · omega
        · exact g
    · refine ⟨A, ?_, hs, fun e => ⟨fun h => ⟨h, Or.inl (by omega)⟩, fun h => h.1⟩⟩
      rw [pops, if_neg c, ← h2, List.length_map]
  obtain ⟨B, h3, h4, h5⟩ := key
  rw [h3, countTrue_list (fun a => ndB V n a p) (B.map Prod.snd) p]
  · rw [List.length_map]
  · rw [List.pairwise_map]
    exact h4.imp fun h => h.1
  · intro a ha
    obtain ⟨e, he, rfl⟩ := List.mem_map.1 ha
    exact h1.lt e ((h5 e).1 he).1
  · intro a ha
    rw [ndB_iff, List.mem_map]
    constructor
    · rintro ⟨g1, g2, g3⟩
      obtain ⟨v, hv⟩ := h1.complete a ha (by
        rcases Nat.eq_zero_or_pos a with g | g
        · exact Or.inl g
        · right
          intro k g4 g5
          rcases (g3 k g4 g5).1 with g6 | g6
          · omega
          · exact g6)
      refine ⟨(v, a), (h5 _).2 ⟨hv, ?_⟩, rfl⟩
      obtain ⟨-, ⟨k, g4, g5, g6⟩, -⟩ := h1.val _ hv
      rcases (g3 k g4 g5).2 with g7 | g7
      · exact Or.inl g7
      · right; show v > _
        have : v = V k + 1 := g6
        omega
    · rintro ⟨e, he, rfl⟩
      obtain ⟨g1, g2⟩ := (h5 e).1 he
      obtain ⟨g3, -, g4⟩ := h1.val e g1
      refine ⟨by omega, hp, fun k g5 g6 => ?_⟩
      have g7 := g3 k g5 g6
      constructor
      · rcases g4 with g4 | g4
        · exact Or.inl g4
        · right; omega
      · rcases g2 with g2 | g2
        · exact Or.inl g2
        · right; omega

/-- The number of nodes that end at `p`. -/
theorem closing_eq {p : Nat} (hp : p < n) : pops V n p + 1 = countTrue (fun a => ndB V n a p) n := by
  have h1 : countTrue (fun a => ndB V n a p) (p + 1) = pops V n p + 1 := by
    show countTrue _ p + (ndB V n p p).toNat = _
    rw [ndB_iff.2 ⟨Nat.le_refl _, hp, fun k _ _ => by omega⟩, pops_eq hp]; rfl
  obtain ⟨d, rfl⟩ : ∃ d, n = p + 1 + d := ⟨n - (p + 1), by omega⟩
  rw [countTrue_add, h1]
  rw [countTrue_congr (f := fun i => ndB V (p + 1 + d) (p + 1 + i) p) (g := fun _ => false) (fun i hi => ?_), countTrue_false]
  rw [Bool.eq_false_iff]
  intro h
  have := (ndB_iff.1 h).1
  omega

/-! ### The mirror image -/

/-- The values from the back. -/
def mir (V : Nat → Nat) (n : Nat) (k : Nat) : Nat := V (n - k)

theorem nd_mir {i j : Nat} (hj : j < n) (hi : i ≤ j) : Nd (mir V n) n (n - 1 - j) (n - 1 - i) ↔ Nd V n i j := by
  have key : ∀ {V : Nat → Nat} {i j : Nat}, j < n → Nd V n i j → Nd (mir V n) n (n - 1 - j) (n - 1 - i) := by
    rintro V i j hj ⟨h1, h2, h3⟩
    refine ⟨by omega, by omega, fun k g1 g2 => ?_⟩
    obtain ⟨g3, g4⟩ := h3 (n - k) (by omega) (by omega)
    unfold mir
    constructor
    · rcases g4 with g4 | g4
      · left; omega
      · right
        rw [show n - (n - 1 - j) = j + 1 by omega]; exact g4
    · rcases g3 with g3 | g3
      · left; omega
      · right
        rw [show n - (n - 1 - i + 1) = i by omega]; exact g3
  constructor
  · intro h
    have := key (by omega) h
    rw [show n - 1 - (n - 1 - i) = i by omega, show n - 1 - (n - 1 - j) = j by omega] at this
    obtain ⟨h1, h2, h3⟩ := this
    refine ⟨h1, h2, fun k g1 g2 => ?_⟩
    have e : ∀ k, k ≤ n → mir (mir V n) n k = V k := fun k hk => by unfold mir; congr 1; omega
    have := h3 k g1 g2
    rw [e k (by omega), e i (by omega), e (j + 1) (by omega)] at this
    exact this
  · exact key hj

theorem countTrue_rev {f : Nat → Bool} : ∀ n, countTrue (fun k => f (n - 1 - k)) n = countTrue f n
  | 0 => rfl
  | n + 1 => by
    rw [show n + 1 = 1 + n by omega, countTrue_add]
    rw [countTrue_congr (n := n) (g := fun k => f (n - 1 - k)) (fun i hi => by congr 1; omega), countTrue_rev n, show 1 + n = n + 1 by omega]
    show 0 + (f (n + 1 - 1 - 0)).toNat + _ = countTrue f n + (f n).toNat
    rw [show n + 1 - 1 - 0 = n by omega]; omega

/-- The number of nodes that begin at `i`. -/
theorem opening_eq {i : Nat} (hi : i < n) : pops (mir V n) n (n - 1 - i) + 1 = countTrue (fun j => ndB V n i j) n := by
  rw [closing_eq (by omega), ← countTrue_rev]
  refine countTrue_congr fun j hj => ?_
  rw [Bool.eq_iff_iff, ndB_iff, ndB_iff]
  rcases Nat.lt_or_ge j i with g | g
  · exact ⟨fun h => by have := h.1; omega, fun h => by have := h.1; omega⟩
  · exact nd_mir hj g

/-! ### The size of the stack -/

theorem ppop_length (x : Nat) : ∀ S : List Nat, (ppop x S).1 + (ppop x S).2.length = S.length
  | [] => rfl
  | t :: S => by
    rw [ppop]
    by_cases c : t > x
    · rw [if_pos c]; have := ppop_length x S; simp only [List.length_cons]; omega
    · rw [if_neg c]; simp

theorem ppush_length (x : Nat) (S : List Nat) : (ppush x S).length ≤ S.length + 1 := by
  unfold ppush; split
  · simp
  · omega

/-- All values on the stack are between 1 and the maximum plus one, and they decrease. -/
theorem stk_bound {M : Nat} (hM : ∀ k, k < n → V k ≤ M) : ∀ i, i < n → ∀ t ∈ stk V i, 1 ≤ t ∧ t ≤ M + 1 := by
  intro i hi t ht
  obtain ⟨A, h1, h2⟩ := stk_st V i
  rw [← h2] at ht
  obtain ⟨e, he, rfl⟩ := List.mem_map.1 ht
  obtain ⟨-, ⟨k, g1, g2, g3⟩, -⟩ := h1.val e he
  have := hM k (by omega)
  omega

theorem ppop_sub (x : Nat) : ∀ S : List Nat, ∀ t ∈ (ppop x S).2, t ∈ S
  | [], t, h => by cases h
  | a :: S, t, h => by
    rw [ppop] at h
    by_cases c : a > x
    · rw [if_pos c] at h; exact List.mem_cons_of_mem _ (ppop_sub x S t h)
    · rw [if_neg c] at h; exact h

/-- Sum of the first values. -/
def sum (f : Nat → Nat) : Nat → Nat
  | 0 => 0
  | i + 1 => sum f i + f i

theorem sum_congr {f g : Nat → Nat} : ∀ {i : Nat}, (∀ k, k < i → f k = g k) → sum f i = sum g i
  | 0, _ => rfl
  | i + 1, h => by rw [sum, sum, sum_congr (fun k hk => h k (by omega)), h i (by omega)]

/-- The total number of intervals. -/
theorem sum_pops (V : Nat → Nat) (n : Nat) : ∀ i, i < n → sum (fun k => pops V n k + 1) i + (stk V i).length ≤ 2 * i
  | 0, _ => by simp [sum, stk]
  | i + 1, h => by
    have h1 := sum_pops V n i (by omega)
    have h2 := ppop_length (V (i + 1) + 1) (stk V i)
    have h3 := ppush_length (V (i + 1) + 1) (ppop (V (i + 1) + 1) (stk V i)).2
    have e : (stk V (i + 1)).length = (ppush (V (i + 1) + 1) (ppop (V (i + 1) + 1) (stk V i)).2).length := rfl
    have e2 : pops V n i = (ppop (V (i + 1) + 1) (stk V i)).1 := by rw [pops, if_pos h]
    rw [sum, e]
    omega

theorem sum_pops_all (hn : 0 < n) : sum (fun k => pops V n k + 1) n ≤ 2 * n - 1 := by
  obtain ⟨m, rfl⟩ : ∃ m, n = m + 1 := ⟨n - 1, by omega⟩
  have h := sum_pops V (m + 1) m (by omega)
  have e : pops V (m + 1) m = (stk V m).length := by rw [pops, if_neg (by omega)]
  rw [sum]
  omega

end Sdsl.CstSada
