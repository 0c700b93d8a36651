/-
  `neigh`, `reverse_neigh` and `range` of a k²-tree (K2.lean).
-/
import Verif.K2Lemmas

namespace Sdsl.K2

open Csa Spec

theorem appendLoop_ok {α : Type} {f : Nat → Option (List α)} {g : Nat → List α} : ∀ c j, (∀ i, j ≤ i → i < j + c → f i = some (g i)) → appendLoop f c j = some ((List.range' j c).flatMap g)
  | 0, _, _ => rfl
  | c + 1, j, h => by
    rw [appendLoop, h j (by omega) (by omega), sbind, appendLoop_ok c (j + 1) (fun i h1 h2 => h i (by omega) (by omega)), sbind, List.range'_succ, List.flatMap_cons]
    rfl

/-- The parts of an interval. -/
theorem flatMap_parts (p : Nat → Bool) (a n : Nat) : ∀ c j, (List.range' j c).flatMap (fun i => (List.range' (a + n * i) n).filter p) = (List.range' (a + n * j) (n * c)).filter p
  | 0, j => by simp
  | c + 1, j => by
    rw [List.range'_succ, List.flatMap_cons, flatMap_parts p a n c (j + 1), ← List.filter_append, Nat.mul_add n c 1, Nat.mul_one, Nat.add_comm (n * c) n]
    congr 1
    rw [← List.range'_append_1, Nat.mul_add, Nat.mul_one, Nat.add_assoc]

section
variable {E : Nat → Nat → Bool} {k h : Nat} {I F : List Nd} {t : Obj} (hs : Shape E k h I F t.T t.L) (hk : t.k = k) (hk2 : 2 ≤ k) (hb : t.T.length + t.L.length ≤ 2 ^ 53)
include hs hb

theorem toIdx_ok {r a : Nat} {x : Nd} (hr : (I ++ F)[r]? = some x) (ha : a < k * k) : toIdx (r * k ^ 2 + a) = some (r * (k * k) + a) := by
  have h1 := (List.getElem?_eq_some_iff.1 hr).1
  rw [List.length_append] at h1
  have h2 := hs.tlen
  have h3 := hs.llen
  have h4 := Nat.mul_le_mul_right (k * k) (show r + 1 ≤ I.length + F.length from h1)
  rw [Nat.succ_mul, Nat.add_mul] at h4
  rw [toIdx, Nat.pow_two, if_pos (by omega)]

include hk hk2

theorem neighAux_ok {i : Nat} (hi : i ≤ 2 ^ 53) : ∀ e f m x jj, x.e = e → (I ++ F)[m]? = some x → x.r ≤ i → i < x.r + k ^ (e + 1) → jj < k → e < f →
    neighAux t f (k ^ e / k) ((i - x.r) % k ^ e) (x.c + k ^ e * jj) (m * (k * k) + k * ((i - x.r) / k ^ e) + jj) = some ((List.range' (x.c + k ^ e * jj) (k ^ e)).filter (E i)) := by
  intro e
  induction e with
  | zero =>
    intro f m x jj he hm h1 h2 hj hf
    obtain ⟨f, rfl⟩ : ∃ g, f = g + 1 := ⟨f - 1, by omega⟩
    have d1 := div_lt_k (k := k) (e := 0) (i := i - x.r) (by omega)
    obtain ⟨c1, c2, c3⟩ := chunk_lt d1 hj
    obtain ⟨p1, p2⟩ := hs.pos_last hm he c1
    rw [c2, c3, Nat.pow_zero, Nat.div_one, show x.r + (i - x.r) = i by omega] at p2
    rw [Nat.pow_zero, Nat.div_one] at p1
    rw [Nat.pow_zero, Nat.div_one, Nat.one_mul, neighAux, if_pos (by omega), Nat.add_assoc, p2, sbind]
    cases hE : E i (x.c + jj) <;> simp [hE]
  | succ e ih =>
    intro f m x jj he hm h1 h2 hj hf
    obtain ⟨f, rfl⟩ : ∃ g, f = g + 1 := ⟨f - 1, by omega⟩
    have d1 := div_lt_k (k := k) (e := e + 1) (i := i - x.r) (by omega)
    obtain ⟨c1, c2, c3⟩ := chunk_lt d1 hj
    obtain ⟨p1, p2, p3⟩ := hs.pos_inner hm (by omega) c1
    have hpos : 0 < k ^ (e + 1) := Nat.pow_pos (by omega)
    have hpos' : 0 < k ^ e := Nat.pow_pos (by omega)
    obtain ⟨z1, hz1⟩ : ∃ z, z = (i - x.r) / k ^ (e + 1) * k ^ (e + 1) := ⟨_, rfl⟩
    obtain ⟨m1, hm1⟩ : ∃ z, z = (i - x.r) % k ^ (e + 1) := ⟨_, rfl⟩
    have hl1 := Nat.mod_lt (i - x.r) hpos
    have hdm1 := Nat.div_add_mod' (i - x.r) (k ^ (e + 1))
    rw [← hz1, ← hm1] at hdm1
    rw [← hm1] at hl1
    rw [neighAux, Nat.add_assoc, if_neg (by omega), p2, sbind]
    cases hbt : cbit E k x (k * ((i - x.r) / k ^ (e + 1)) + jj) with
    | false =>
      rw [if_pos rfl]
      rw [cbit, c2, c3, he, ← hz1] at hbt
      rw [List.filter_eq_nil_iff.2]
      · rfl
      · intro j hj2
        rw [List.mem_range'_1, Nat.mul_comm] at hj2
        rw [has_false hbt (by omega) (by omega) hj2.1 hj2.2]
        simp
    | true =>
      obtain ⟨r, r1, r2⟩ := p3 hbt
      rw [kid, c2, c3, he, Nat.add_sub_cancel, ← hz1] at r2
      have hq : k ^ (e + 1) / k = k ^ e := by rw [Nat.pow_succ, Nat.mul_div_cancel _ (by omega)]
      have d2 := div_lt_k (k := k) (e := e) hl1
      rw [if_neg (by simp), hq, ← hm1, r1, sbind, fdiv_eq hpos' (by omega), sbind, hk, toIdx_ok hs hb r2 (by have := (chunk_lt (b := 0) d2 (by omega)).1; omega), sbind]
      rw [appendLoop_ok (g := fun j => (List.range' (x.c + k ^ (e + 1) * jj + k ^ e * j) (k ^ e)).filter (E i)) k 0, flatMap_parts, Nat.mul_zero, Nat.add_zero, ← Nat.pow_succ]
      intro j _ hj2
      have := ih f r _ j rfl r2 (by dsimp only; omega) (by dsimp only; omega) (by omega) (by omega)
      dsimp only at this
      rw [show i - (x.r + z1) = m1 by omega, Nat.mul_comm jj] at this
      exact this

theorem revAux_ok {i : Nat} (hi : i ≤ 2 ^ 53) : ∀ e f m x jj, x.e = e → (I ++ F)[m]? = some x → x.c ≤ i → i < x.c + k ^ (e + 1) → jj < k → e < f →
    revAux t f (k ^ e / k) (x.r + k ^ e * jj) ((i - x.c) % k ^ e) (m * (k * k) + (i - x.c) / k ^ e + jj * k) = some ((List.range' (x.r + k ^ e * jj) (k ^ e)).filter (fun r => E r i)) := by
  intro e
  induction e with
  | zero =>
    intro f m x jj he hm h1 h2 hj hf
    obtain ⟨f, rfl⟩ : ∃ g, f = g + 1 := ⟨f - 1, by omega⟩
    have d1 := div_lt_k (k := k) (e := 0) (i := i - x.c) (by omega)
    obtain ⟨c1, c2, c3⟩ := chunk_lt hj d1
    obtain ⟨p1, p2⟩ := hs.pos_last hm he c1
    rw [c2, c3, Nat.pow_zero, Nat.div_one, show x.c + (i - x.c) = i by omega] at p2
    rw [Nat.pow_zero, Nat.div_one] at p1
    rw [Nat.pow_zero, Nat.div_one, Nat.one_mul, revAux, Nat.add_assoc, Nat.add_comm (i - x.c), Nat.mul_comm jj, if_pos (by omega), p2, sbind]
    cases hE : E (x.r + jj) i <;> simp [hE]
  | succ e ih =>
    intro f m x jj he hm h1 h2 hj hf
    obtain ⟨f, rfl⟩ : ∃ g, f = g + 1 := ⟨f - 1, by omega⟩
    have d1 := div_lt_k (k := k) (e := e + 1) (i := i - x.c) (by omega)
    obtain ⟨c1, c2, c3⟩ := chunk_lt hj d1
    obtain ⟨p1, p2, p3⟩ := hs.pos_inner hm (by omega) c1
    have hpos : 0 < k ^ (e + 1) := Nat.pow_pos (by omega)
    have hpos' : 0 < k ^ e := Nat.pow_pos (by omega)
    obtain ⟨z1, hz1⟩ : ∃ z, z = (i - x.c) / k ^ (e + 1) * k ^ (e + 1) := ⟨_, rfl⟩
    obtain ⟨m1, hm1⟩ : ∃ z, z = (i - x.c) % k ^ (e + 1) := ⟨_, rfl⟩
    have hl1 := Nat.mod_lt (i - x.c) hpos
    have hdm1 := Nat.div_add_mod' (i - x.c) (k ^ (e + 1))
    rw [← hz1, ← hm1] at hdm1
    rw [← hm1] at hl1
    rw [revAux, Nat.add_assoc, Nat.add_comm ((i - x.c) / k ^ (e + 1)), Nat.mul_comm jj, if_neg (by omega), p2, sbind]
    cases hbt : cbit E k x (k * jj + (i - x.c) / k ^ (e + 1)) with
    | false =>
      rw [if_pos rfl]
      rw [cbit, c2, c3, he, ← hz1] at hbt
      rw [List.filter_eq_nil_iff.2]
      · rfl
      · intro j hj2
        rw [List.mem_range'_1, Nat.mul_comm] at hj2
        rw [has_false hbt hj2.1 hj2.2 (by omega) (by omega)]
        simp
    | true =>
      obtain ⟨r, r1, r2⟩ := p3 hbt
      rw [kid, c2, c3, he, Nat.add_sub_cancel, ← hz1] at r2
      have hq : k ^ (e + 1) / k = k ^ e := by rw [Nat.pow_succ, Nat.mul_div_cancel _ (by omega)]
      have d2 := div_lt_k (k := k) (e := e) hl1
      rw [if_neg (by simp), hq, ← hm1, r1, sbind, fdiv_eq hpos' (by omega), sbind, hk, toIdx_ok hs hb r2 (by have := (chunk_lt (a := 0) (by omega) d2).1; omega), sbind]
      rw [appendLoop_ok (g := fun j => (List.range' (x.r + k ^ (e + 1) * jj + k ^ e * j) (k ^ e)).filter (fun r => E r i)) k 0, flatMap_parts, Nat.mul_zero, Nat.add_zero, ← Nat.pow_succ]
      intro j _ hj2
      have := ih f r _ j rfl r2 (by dsimp only; omega) (by dsimp only; omega) (by omega) (by omega)
      dsimp only at this
      rw [show i - (x.c + z1) = m1 by omega, Nat.mul_comm jj] at this
      exact this

theorem neigh_ok (hh : t.height = h) (h1 : 1 ≤ h) (hsz : k ^ h ≤ 2 ^ 53) {i : Nat} (hi : i < k ^ h) :
    neigh t i = some ((List.range (k ^ h)).filter (E i)) ∧ reverseNeigh t i = some ((List.range (k ^ h)).filter (fun r => E r i)) := by
  have he : h - 1 + 1 = h := by omega
  have hq : k ^ h / k = k ^ (h - 1) := by
    conv_lhs => rw [← he, Nat.pow_succ, Nat.mul_div_cancel _ (by omega)]
  have hpos : 0 < k ^ (h - 1) := Nat.pow_pos (by omega)
  have hne := hs.nonempty hk2
  have hd := div_lt_k (k := k) (e := h - 1) (i := i) (by rw [he]; exact hi)
  have hz : toIdx (k * (i / k ^ (h - 1))) = some (k * (i / k ^ (h - 1))) := by
    have := toIdx_ok hs hb hs.root (chunk_lt (b := 0) hd (by omega)).1
    simpa using this
  refine ⟨?_, ?_⟩
  · rw [neigh, if_neg (by omega), hk, hh, fpow_eq hsz, sbind]
    dsimp only
    rw [hq, fdiv_eq hpos (by omega), sbind, hz, sbind, appendLoop_ok (g := fun j => (List.range' (0 + k ^ (h - 1) * j) (k ^ (h - 1))).filter (E i)) k 0, flatMap_parts, ← Nat.pow_succ, show (h - 1).succ = h from he, List.range_eq_range']
    · simp
    · intro j _ hj
      have := neighAux_ok hs hk hk2 hb (i := i) (by omega) (h - 1) (h + 1) 0 _ j rfl hs.root (Nat.zero_le _) (by rw [he]; simpa using hi) (by omega) (by omega)
      simpa using this
  · rw [reverseNeigh, if_neg (by omega), hk, hh, fpow_eq hsz, sbind]
    dsimp only
    rw [hq, fdiv_eq hpos (by omega), sbind, appendLoop_ok (g := fun j => (List.range' (0 + k ^ (h - 1) * j) (k ^ (h - 1))).filter (fun r => E r i)) k 0, flatMap_parts, ← Nat.pow_succ, show (h - 1).succ = h from he, List.range_eq_range']
    · simp
    · intro j _ hj
      have := revAux_ok hs hk hk2 hb (i := i) (by omega) (h - 1) (h + 1) 0 _ j rfl hs.root (Nat.zero_le _) (by rw [he]; simpa using hi) (by omega) (by omega)
      simpa using this

end

/-! ### range -/

/-- The results of a state. -/
def InRange (E : Nat → Nat → Bool) (s : State) (p : Nat × Nat) : Prop :=
  E p.1 p.2 = true ∧ s.dr + s.row1 ≤ p.1 ∧ p.1 ≤ s.dr + s.row2 ∧ s.dc + s.col1 ≤ p.2 ∧ p.2 ≤ s.dc + s.col2

/-- The state of a part of a node. -/
def GoodC (k : Nat) (B : List Nd) (e : Nat) (s : State) : Prop :=
  ∃ m x it, B[m]? = some x ∧ x.e = e ∧ it < k * k ∧ s.z = m * (k * k) + it ∧ s.n = k ^ e / k ∧ s.dr = x.r + it / k * k ^ e ∧ s.dc = x.c + it % k * k ^ e ∧
    s.row1 < k ^ e ∧ s.row2 < k ^ e ∧ s.col1 < k ^ e ∧ s.col2 < k ^ e

/-- The loop finishes the states `cs` with the results `l`. -/
def Done (t : Obj) (cs : List State) (l : List (Nat × Nat)) : Prop := ∃ g, ∀ st f, rangeLoop t (g + f) (cs ++ st) = (rangeLoop t f st).map (l ++ ·)

theorem Done.nil {t : Obj} : Done t [] [] := ⟨0, fun st f => by
  rw [Nat.zero_add, List.nil_append]
  cases rangeLoop t f st <;> rfl⟩

theorem Done.append {t : Obj} {cs cs' : List State} {l l' : List (Nat × Nat)} : Done t cs l → Done t cs' l' → Done t (cs ++ cs') (l ++ l')
  | ⟨g, h⟩, ⟨g', h'⟩ => ⟨g + g', fun st f => by
    rw [Nat.add_assoc, List.append_assoc, h, h']
    cases rangeLoop t f st <;> simp⟩

/-- A position of an interval in the part `i`. -/
theorem seg {n i a r1 r2 : Nat} (hn : 0 < n) (h1 : r1 / n ≤ i) (h2 : i ≤ r2 / n) :
    (n * i + (if i = r1 / n then r1 % n else 0) ≤ a ∧ a ≤ n * i + (if i = r2 / n then r2 % n else n - 1)) ↔ a / n = i ∧ r1 ≤ a ∧ a ≤ r2 := by
  have e1 := Nat.div_add_mod r1 n
  have e2 := Nat.div_add_mod r2 n
  have l1 := Nat.mod_lt r1 hn
  have l2 := Nat.mod_lt r2 hn
  have e3 := Nat.div_add_mod a n
  have l3 := Nat.mod_lt a hn
  obtain ⟨q1, hq1⟩ : ∃ z, z = r1 % n := ⟨_, rfl⟩
  obtain ⟨q2, hq2⟩ : ∃ z, z = r2 % n := ⟨_, rfl⟩
  obtain ⟨q3, hq3⟩ : ∃ z, z = a % n := ⟨_, rfl⟩
  rw [← hq1] at e1 l1 ⊢
  rw [← hq2] at e2 l2 ⊢
  rw [← hq3] at e3 l3
  have m1 : ∀ {x y : Nat}, x < y → n * x + n ≤ n * y := fun {x y} h => by
    have := Nat.mul_le_mul_left n (show x + 1 ≤ y from h)
    rwa [Nat.mul_add, Nat.mul_one] at this
  constructor
  · rintro ⟨g1, g2⟩
    have hai : a / n = i := by
      rcases Nat.lt_trichotomy (a / n) i with g | g | g
      · have := m1 g
        omega
      · exact g
      · have := m1 g
        split at g2 <;> omega
    refine ⟨hai, ?_, ?_⟩
    · by_cases g : i = r1 / n
      · rw [if_pos g, g] at g1
        omega
      · have := m1 (show r1 / n < i by omega)
        omega
    · by_cases g : i = r2 / n
      · rw [if_pos g, g] at g2
        omega
      · have := m1 (show i < r2 / n by omega)
        rw [if_neg g] at g2
        omega
  · rintro ⟨rfl, g1, g2⟩
    refine ⟨?_, ?_⟩
    · split
      · rename_i g
        rw [g] at e3 ⊢
        omega
      · omega
    · split
      · rename_i g
        rw [g] at e3 ⊢
        omega
      · omega

theorem mem_loopRange {a b i : Nat} : i ∈ loopRange a b ↔ a ≤ i ∧ i ≤ b := by
  rw [loopRange, List.mem_range'_1]
  omega

section
variable {E : Nat → Nat → Bool} {k h : Nat} {I F : List Nd} {t : Obj} (hs : Shape E k h I F t.T t.L) (hk : t.k = k) (hk2 : 2 ≤ k) (hb : t.T.length + t.L.length ≤ 2 ^ 53)

/-- Results of several states with disjoint results. -/
theorem done_list (cs : List State) (h1 : ∀ s ∈ cs, ∃ l, Done t [s] l ∧ l.Nodup ∧ ∀ p, p ∈ l ↔ InRange E s p) (h2 : cs.Pairwise (fun s s' => ∀ p, InRange E s p → ¬ InRange E s' p)) :
    ∃ l, Done t cs l ∧ l.Nodup ∧ ∀ p, p ∈ l ↔ ∃ s ∈ cs, InRange E s p := by
  induction cs with
  | nil => exact ⟨[], Done.nil, by simp, by simp⟩
  | cons s cs ih =>
    obtain ⟨g1, g2⟩ := List.pairwise_cons.1 h2
    obtain ⟨l, l1, l2, l3⟩ := h1 s (by simp)
    obtain ⟨l', m1, m2, m3⟩ := ih (fun x hx => h1 x (by simp [hx])) g2
    refine ⟨l ++ l', l1.append m1, List.nodup_append.2 ⟨l2, m2, ?_⟩, fun p => by rw [List.mem_append, l3, m3]; simp⟩
    rintro p hp q hq rfl
    obtain ⟨s', s1, s2⟩ := (m3 p).1 hq
    exact g1 s' s1 p ((l3 p).1 hp) s2

include hk2 in
/-- The states pushed for a node. -/
theorem children_ok {r e : Nat} {x : Nd} {s : State} (hr : (I ++ F)[r]? = some x) (he : x.e = e) (hn : s.n = k ^ e) (hdr : s.dr = x.r) (hdc : s.dc = x.c)
    (b2 : s.row2 < k ^ (e + 1)) (b4 : s.col2 < k ^ (e + 1)) :
    (∀ c ∈ children k (r * k * k) s, GoodC k (I ++ F) e c) ∧ (children k (r * k * k) s).Pairwise (fun c c' => ∀ p, InRange E c p → ¬ InRange E c' p) ∧
    ∀ p, InRange E s p ↔ ∃ c ∈ children k (r * k * k) s, InRange E c p := by
  have hpos : 0 < s.n := by rw [hn]; exact Nat.pow_pos (by omega)
  have hlt : ∀ {a i : Nat}, i ≤ a / s.n → a < k ^ (e + 1) → i < k := by
    intro a i h1 h2
    rw [hn] at h1
    have := div_lt_k h2
    omega
  -- the results of one state
  have key : ∀ i j, i ∈ loopRange (s.row1 / s.n) (s.row2 / s.n) → j ∈ loopRange (s.col1 / s.n) (s.col2 / s.n) → ∀ p, InRange E ⟨s.n / k, if i = s.row1 / s.n then s.row1 % s.n else 0, if i = s.row2 / s.n then s.row2 % s.n else s.n - 1,
        if j = s.col1 / s.n then s.col1 % s.n else 0, if j = s.col2 / s.n then s.col2 % s.n else s.n - 1, s.dr + s.n * i, s.dc + s.n * j, r * k * k + k * i + j⟩ p ↔
      InRange E s p ∧ (p.1 - s.dr) / s.n = i ∧ (p.2 - s.dc) / s.n = j := by
    intro i j hi hj p
    rw [mem_loopRange] at hi hj
    have g1 := seg (a := p.1 - s.dr) hpos hi.1 hi.2
    have g2 := seg (a := p.2 - s.dc) hpos hj.1 hj.2
    rw [InRange, InRange]
    dsimp only
    constructor
    · rintro ⟨q1, q2, q3, q4, q5⟩
      obtain ⟨u1, u2, u3⟩ := g1.1 ⟨by omega, by omega⟩
      obtain ⟨v1, v2, v3⟩ := g2.1 ⟨by omega, by omega⟩
      exact ⟨⟨q1, by omega, by omega, by omega, by omega⟩, u1, v1⟩
    · rintro ⟨⟨q1, q2, q3, q4, q5⟩, u1, v1⟩
      obtain ⟨u2, u3⟩ := g1.2 ⟨u1, by omega, by omega⟩
      obtain ⟨v2, v3⟩ := g2.2 ⟨v1, by omega, by omega⟩
      exact ⟨q1, by omega, by omega, by omega, by omega⟩
  refine ⟨?_, ?_, fun p => ⟨fun hp => ?_, ?_⟩⟩
  · intro c hc
    simp only [children, List.mem_flatMap, List.mem_map] at hc
    obtain ⟨i, hi, j, hj, rfl⟩ := hc
    rw [mem_loopRange] at hi hj
    have ik := hlt hi.2 b2
    have jk := hlt hj.2 b4
    obtain ⟨c1, c2, c3⟩ := chunk_lt ik jk
    refine ⟨r, x, k * i + j, hr, he, c1, by dsimp only; rw [Nat.mul_assoc, Nat.add_assoc], by rw [hn], by dsimp only; rw [c2, hn, hdr, Nat.mul_comm i], by dsimp only; rw [c3, hn, hdc, Nat.mul_comm j], ?_, ?_, ?_, ?_⟩
    · rw [← hn]; dsimp only; split
      · exact Nat.mod_lt _ hpos
      · exact hpos
    · rw [← hn]; dsimp only; split
      · exact Nat.mod_lt _ hpos
      · omega
    · rw [← hn]; dsimp only; split
      · exact Nat.mod_lt _ hpos
      · exact hpos
    · rw [← hn]; dsimp only; split
      · exact Nat.mod_lt _ hpos
      · omega
  · rw [children, List.pairwise_flatMap]
    refine ⟨fun i hi => ?_, ?_⟩
    · rw [List.pairwise_map]
      refine (List.pairwise_lt_range' (s := s.col1 / s.n) (n := s.col2 / s.n + 1 - s.col1 / s.n) 1).imp_of_mem ?_
      intro j j' hj hj' hlt p hp hp'
      have a1 := ((key i j hi hj p).1 hp).2.2
      have a2 := ((key i j' hi hj' p).1 hp').2.2
      omega
    · refine (List.pairwise_lt_range' (s := s.row1 / s.n) (n := s.row2 / s.n + 1 - s.row1 / s.n) 1).imp_of_mem ?_
      intro i i' hi hi' hlt c hc c' hc' p hp hp'
      obtain ⟨j, hj, rfl⟩ := List.mem_map.1 hc
      obtain ⟨j', hj', rfl⟩ := List.mem_map.1 hc'
      have a1 := ((key i j hi hj p).1 hp).2.1
      have a2 := ((key i' j' hi' hj' p).1 hp').2.1
      omega
  · obtain ⟨q1, q2, q3, q4, q5⟩ := id hp
    have hi : (p.1 - s.dr) / s.n ∈ loopRange (s.row1 / s.n) (s.row2 / s.n) := mem_loopRange.2 ⟨Nat.div_le_div_right (by omega), Nat.div_le_div_right (by omega)⟩
    have hj : (p.2 - s.dc) / s.n ∈ loopRange (s.col1 / s.n) (s.col2 / s.n) := mem_loopRange.2 ⟨Nat.div_le_div_right (by omega), Nat.div_le_div_right (by omega)⟩
    refine ⟨_, ?_, (key _ _ hi hj p).2 ⟨hp, rfl, rfl⟩⟩
    simp only [children, List.mem_flatMap, List.mem_map]
    exact ⟨_, hi, _, hj, rfl⟩
  · rintro ⟨c, hc, hp⟩
    simp only [children, List.mem_flatMap, List.mem_map] at hc
    obtain ⟨i, hi, j, hj, rfl⟩ := hc
    exact ((key i j hi hj p).1 hp).1

include hs hk hk2 hb

/-- The states of the parts of a node of level `e`. -/
theorem part_ok : ∀ e s, GoodC k (I ++ F) e s → ∃ l, Done t [s] l ∧ l.Nodup ∧ ∀ p, p ∈ l ↔ InRange E s p := by
  intro e
  induction e with
  | zero =>
    rintro s ⟨m, x, it, h1, h2, h3, h4, h5, h6, h7, h8, h9, h10, h11⟩
    obtain ⟨p1, p2⟩ := hs.pos_last h1 h2 h3
    simp only [Nat.pow_zero, Nat.mul_one] at h6 h7 h8 h9 h10 h11
    have hz : s.z ≠ maxIdx := by
      have : s.z - t.T.length < t.L.length := by
        have := (List.getElem?_eq_some_iff.1 p2).1
        rw [h4]; exact this
      rw [maxIdx]; omega
    rw [← h4] at p1 p2
    rw [← h6, ← h7] at p2
    refine ⟨if E s.dr s.dc then [(s.dr, s.dc)] else [], ⟨1, fun st f => ?_⟩, ?_, fun p => ?_⟩
    · rw [Nat.add_comm, List.singleton_append, rangeLoop, if_pos ⟨hz, p1⟩, p2, sbind]
      cases rangeLoop t f st with
      | none => rfl
      | some r => cases E s.dr s.dc <;> rfl
    · split <;> simp
    · rw [InRange, show s.row1 = 0 by omega, show s.row2 = 0 by omega, show s.col1 = 0 by omega, show s.col2 = 0 by omega]
      constructor
      · intro hp
        split at hp
        · rename_i hE
          rw [List.mem_singleton.1 hp]
          exact ⟨hE, by omega, by omega, by omega, by omega⟩
        · simp at hp
      · rintro ⟨q1, q2, q3, q4, q5⟩
        have e1 : p.1 = s.dr := by omega
        have e2 : p.2 = s.dc := by omega
        rw [← e1, ← e2, if_pos q1, List.mem_singleton]
  | succ e ih =>
    rintro s ⟨m, x, it, h1, h2, h3, h4, h5, h6, h7, h8, h9, h10, h11⟩
    obtain ⟨p1, p2, p3⟩ := hs.pos_inner h1 (by omega) h3
    have hz : s.z ≠ maxIdx := by rw [maxIdx]; omega
    have hq : k ^ (e + 1) / k = k ^ e := by rw [Nat.pow_succ, Nat.mul_div_cancel _ (by omega)]
    have hpos : 0 < k ^ e := Nat.pow_pos (by omega)
    rw [hq] at h5
    rw [← h4] at p1 p2
    cases hbt : cbit E k x it with
    | false =>
      rw [hbt] at p2
      rw [cbit, h2, ← h6, ← h7] at hbt
      refine ⟨[], ⟨1, fun st f => ?_⟩, by simp, fun p => ?_⟩
      · rw [Nat.add_comm, List.singleton_append, rangeLoop, if_neg (by omega), if_neg hz, p2, sbind]
        dsimp only
        rw [if_pos rfl]
        cases rangeLoop t f st <;> rfl
      · simp only [List.not_mem_nil, false_iff]
        rintro ⟨q1, q2, q3, q4, q5⟩
        rw [has_false hbt (by omega) (by omega) (by omega) (by omega)] at q1
        cases q1
    | true =>
      obtain ⟨r, r1, r2⟩ := p3 hbt
      rw [kid, h2, ← h6, ← h7, Nat.add_sub_cancel] at r2
      rw [hbt] at p2
      obtain ⟨c1, c2, c3⟩ := children_ok (E := E) hk2 (s := s) r2 rfl h5 rfl rfl h9 h11
      obtain ⟨l, l1, l2, l3⟩ := done_list (t := t) (E := E) (children k (r * k * k) s).reverse (fun c hc => ih c (c1 c (List.mem_reverse.1 hc))) (by
        rw [List.pairwise_reverse]
        exact c2.imp (fun h p h1 h2 => h p h2 h1))
      obtain ⟨g, hg⟩ := l1
      refine ⟨l, ⟨g + 1, fun st f => ?_⟩, l2, fun p => ?_⟩
      · rw [show g + 1 + f = (g + f) + 1 by omega, List.singleton_append, rangeLoop, if_neg (by omega), if_neg hz, p2, sbind]
        dsimp only
        rw [if_neg (by simp),
          show add64 s.z 1 = m * (k * k) + it + 1 by rw [add64, Nat.mod_eq_of_lt (by omega), h4], r1, sbind, if_neg (by omega), hk, hg]
      · rw [l3, c3]
        simp

theorem range_ok (hh : t.height = h) (h1 : 1 ≤ h) (hsz : k ^ h ≤ 2 ^ 53) {row1 row2 col1 col2 : Nat} (b2 : row2 < k ^ h) (b4 : col2 < k ^ h) :
    ∃ l g, (∀ f, g ≤ f → range t f row1 row2 col1 col2 = some l) ∧ l.Nodup ∧ ∀ r c, (r, c) ∈ l ↔ E r c = true ∧ row1 ≤ r ∧ r ≤ row2 ∧ col1 ≤ c ∧ c ≤ col2 := by
  have he : h - 1 + 1 = h := by omega
  have hq : k ^ h / k = k ^ (h - 1) := by
    conv_lhs => rw [← he, Nat.pow_succ, Nat.mul_div_cancel _ (by omega)]
  have hpos : 0 < k ^ (h - 1) := Nat.pow_pos (by omega)
  obtain ⟨s, hsd⟩ : ∃ s : State, s = ⟨k ^ h / k, row1, row2, col1, col2, 0, 0, maxIdx⟩ := ⟨_, rfl⟩
  obtain ⟨c1, c2, c3⟩ := children_ok (E := E) hk2 (s := s) hs.root rfl (by rw [hsd]; exact hq) (by rw [hsd]) (by rw [hsd]) (by rw [hsd, he]; exact b2) (by rw [hsd, he]; exact b4)
  obtain ⟨l, ⟨g, hg⟩, l2, l3⟩ := done_list (t := t) (E := E) (children k (0 * k * k) s).reverse (fun c hc => part_ok hs hk hk2 hb _ c (c1 c (List.mem_reverse.1 hc))) (by
    rw [List.pairwise_reverse]
    exact c2.imp (fun h p h1 h2 => h p h2 h1))
  refine ⟨l, g + 2, fun f hf => ?_, l2, fun r c => ?_⟩
  · obtain ⟨f, rfl⟩ : ∃ f', f = (g + (f' + 1)) + 1 := ⟨f - (g + 2), by omega⟩
    have hr : Bv.rank true t.T (add64 maxIdx 1) = some 0 := by
      rw [show add64 maxIdx 1 = 0 by decide, Bv.rank_of_le (Nat.zero_le _), Bv.cnt_zero]
    rw [range, hk, hh, fpow_eq hsz, sbind, ← hsd, rangeLoop, if_neg (by rw [hsd]; simp), if_pos (by rw [hsd]), sbind]
    dsimp only
    rw [if_neg (by simp), show s.z = maxIdx by rw [hsd], hr, sbind,
      if_neg (by rw [hsd]; show ¬ k ^ h / k = 0; omega), hk, hg, rangeLoop]
    simp
  · rw [l3, show (∃ s_1 ∈ (children k (0 * k * k) s).reverse, InRange E s_1 (r, c)) ↔ InRange E s (r, c) by rw [c3]; simp, InRange, hsd]
    simp

end
end Sdsl.K2
