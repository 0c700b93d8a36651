/-
  The constructor of cst_sada writes, for each position of the LCP array, one opening parenthesis for every node that begins there and one closing
  parenthesis for every node that ends there.
-/
import Verif.CstSadaStack
import Verif.SctCode
import Verif.IntVecOps

namespace Sdsl.CstSada

open Spec Stack Sct CstSct3

theorem sub_eq {a b : Nat} (h : b ≤ a) : sub a b = some (a - b) := by unfold sub; rw [if_pos h]

/-! ### The stack -/

theorem popGt_ok {N x : Nat} (hN : N + 1 < 2 ^ 63) : ∀ (A : List Nat) (f : Nat) (s : Sss) (co : Nat), A.length < f → Sss.Inv N s (A ++ [0]) → (∀ t ∈ A, t ≤ N) →
    ∃ s', popGt x f s co = some (s', co + (ppop x A).1) ∧ Sss.Inv N s' ((ppop x A).2 ++ [0])
  | [], 0, _, _, h, _, _ => by simp at h
  | [], f + 1, s, co, _, hs, _ => by
    refine ⟨s, ?_, hs⟩
    rw [popGt, Sss.top_eq (t := 0) hs (by omega), if_neg (by omega)]; rfl
  | t :: A, 0, _, _, h, _, _ => by simp at h
  | t :: A, f + 1, s, co, hf, hs, hA => by
    have ht := hA t List.mem_cons_self
    have e : s.getTop = t := Sss.top_eq (L := A ++ [0]) hs (by omega)
    rw [popGt, e]
    by_cases c : t > x
    · obtain ⟨s1, h1, h2⟩ := Sss.pop_inv hN hs (fun a ha => by
        rcases List.mem_append.1 ha with g | g
        · exact hA a g
        · simp at g; omega)
      obtain ⟨s2, h3, h4⟩ := popGt_ok hN A f s1 (co + 1) (by simp at hf; omega) h2 (fun a ha => hA a (List.mem_cons_of_mem _ ha))
      refine ⟨s2, ?_, ?_⟩
      · rw [if_pos c, h1, sbind, h3, ppop, if_pos c]
        simp only [Option.some.injEq, Prod.mk.injEq, true_and]; omega
      · rw [ppop, if_pos c]; exact h4
    · rw [if_neg c, ppop, if_neg c]
      exact ⟨s, rfl, hs⟩

theorem stackStep_ok {N x : Nat} (hN : N + 1 < 2 ^ 63) {A : List Nat} {s : Sss} (hs : Sss.Inv N s (A ++ [0])) (hA : ∀ t ∈ A, t ≤ N) (hx : x ≤ N) (hx1 : 1 ≤ x) :
    ∃ s', stackStep x s = some (s', 1 + (ppop x A).1) ∧ Sss.Inv N s' (ppush x (ppop x A).2 ++ [0]) := by
  obtain ⟨s1, h1, h2⟩ := popGt_ok (x := x) hN A (s.cnt + 1) s 1 (by rw [hs.cnt]; simp; omega) hs hA
  have hA' : ∀ t ∈ (ppop x A).2, t ≤ N := fun t ht => hA t (ppop_sub x A t ht)
  have key : ∃ s', pushLt x s1 = some s' ∧ Sss.Inv N s' (ppush x (ppop x A).2 ++ [0]) := by
    generalize (ppop x A).2 = B at h2 hA'
    unfold pushLt ppush
    cases B with
    | nil =>
      have e : s1.getTop = 0 := Sss.top_eq (t := 0) (L := []) h2 (by omega)
      rw [e, if_pos (by omega), if_pos (by show 0 < x; omega)]
      exact Sss.push_inv h2 hx (fun t ht => by simp at ht; omega)
    | cons t B =>
      have := hA' t List.mem_cons_self
      have e : s1.getTop = t := Sss.top_eq (L := B ++ [0]) h2 (by omega)
      rw [e]
      by_cases c : t < x
      · rw [if_pos c, if_pos (by exact c)]
        exact Sss.push_inv h2 hx (fun t' ht => by simp at ht; omega)
      · rw [if_neg c, if_neg (by exact c)]
        exact ⟨_, rfl, h2⟩
  obtain ⟨s2, h3, h4⟩ := key
  refine ⟨s2, ?_, h4⟩
  unfold stackStep
  rw [h1, sbind]
  dsimp only
  rw [h3]; rfl

/-! ### Writing -/

theorem zerosDown_ok : ∀ (c : Nat) (m : Mem) (p : Nat), c ≤ p → p < 64 * m.length →
    ∃ m', zerosDown c m p = some (m', p - c) ∧ m'.length = m.length ∧ (∀ k, p - c < k → k ≤ p → bitAt m' k = false) ∧ ∀ k, k ≤ p - c ∨ p < k → bitAt m' k = bitAt m k
  | 0, m, p, _, _ => ⟨m, rfl, rfl, fun k h1 h2 => by omega, fun k _ => rfl⟩
  | c + 1, m, p, h, hp => by
    obtain ⟨m1, h1, h2, h3⟩ := setZero_eq (m := m) hp
    obtain ⟨m2, h4, h5, h6, h7⟩ := zerosDown_ok c m1 (p - 1) (by omega) (by rw [h2]; omega)
    refine ⟨m2, ?_, by rw [h5, h2], fun k g1 g2 => ?_, fun k g => ?_⟩
    · rw [zerosDown, h1, sbind, sub_eq (by omega), sbind, h4]
      congr 2; omega
    · by_cases c' : k = p
      · rw [h7 k (by omega), h3]; simp [c']
      · exact h6 k (by omega) (by omega)
    · rw [h7 k (by omega), h3]
      have : k ≠ p := by omega
      simp [this]

theorem codeDown_ok {co : Nat} {m : Mem} {p : Nat} (h1 : 1 ≤ co) (h : co ≤ p) (hp : p < 64 * m.length) :
    ∃ m', codeDown co m p = some (m', p - co) ∧ m'.length = m.length ∧ bitAt m' p = true ∧ (∀ k, p - co < k → k < p → bitAt m' k = false) ∧
      ∀ k, k ≤ p - co ∨ p < k → bitAt m' k = bitAt m k := by
  obtain ⟨m1, e1, e2, e3⟩ := setOne_eq (m := m) hp
  obtain ⟨m2, e4, e5, e6, e7⟩ := zerosDown_ok (co - 1) m1 (p - 1) (by omega) (by rw [e2]; omega)
  refine ⟨m2, ?_, by rw [e5, e2], ?_, fun k g1 g2 => e6 k (by omega) (by omega), fun k g => ?_⟩
  · rw [codeDown, e1, sbind, sub_eq (by omega), sbind, e4]
    congr 2; omega
  · rw [e7 p (by omega), e3]; simp
  · rw [e7 k (by omega), e3]
    have : k ≠ p := by omega
    simp [this]

theorem onesUp_ok : ∀ (c : Nat) (m : Mem) (q : Nat), q + c ≤ 64 * m.length →
    ∃ m', onesUp c m q = some (m', q + c) ∧ m'.length = m.length ∧ (∀ t, t < c → bitAt m' (q + t) = true) ∧ ∀ k, k < q ∨ q + c ≤ k → bitAt m' k = bitAt m k
  | 0, m, q, _ => ⟨m, rfl, rfl, fun t h => by omega, fun k _ => rfl⟩
  | c + 1, m, q, h => by
    obtain ⟨m1, h1, h2, h3⟩ := setOne_eq (m := m) (k := q) (by omega)
    obtain ⟨m2, h4, h5, h6, h7⟩ := onesUp_ok c m1 (q + 1) (by rw [h2]; omega)
    refine ⟨m2, ?_, by rw [h5, h2], fun t g => ?_, fun k g => ?_⟩
    · rw [onesUp, h1, sbind, h4]; congr 2; omega
    · rcases Nat.eq_zero_or_pos t with rfl | g'
      · rw [h7 _ (by omega), h3]; simp
      · have := h6 (t - 1) (by omega)
        rw [show q + 1 + (t - 1) = q + t by omega] at this; exact this
    · rw [h7 k (by omega), h3]
      have : k ≠ q := by omega
      simp [this]

theorem zerosUp_ok : ∀ (c : Nat) (m : Mem) (q : Nat), q + c ≤ 64 * m.length →
    ∃ m', zerosUp c m q = some (m', q + c) ∧ m'.length = m.length ∧ (∀ t, t < c → bitAt m' (q + t) = false) ∧ ∀ k, k < q ∨ q + c ≤ k → bitAt m' k = bitAt m k
  | 0, m, q, _ => ⟨m, rfl, rfl, fun t h => by omega, fun k _ => rfl⟩
  | c + 1, m, q, h => by
    obtain ⟨m1, h1, h2, h3⟩ := setZero_eq (m := m) (k := q) (by omega)
    obtain ⟨m2, h4, h5, h6, h7⟩ := zerosUp_ok c m1 (q + 1) (by rw [h2]; omega)
    refine ⟨m2, ?_, by rw [h5, h2], fun t g => ?_, fun k g => ?_⟩
    · rw [zerosUp, h1, sbind, h4]; congr 2; omega
    · rcases Nat.eq_zero_or_pos t with rfl | g'
      · rw [h7 _ (by omega), h3]; simp
      · have := h6 (t - 1) (by omega)
        rw [show q + 1 + (t - 1) = q + t by omega] at this; exact this
    · rw [h7 k (by omega), h3]
      have : k ≠ q := by omega
      simp [this]

/-- Reading a unary number. -/
theorem readCo_ok {m : Mem} {size e : Nat} (hm : size ≤ 64 * m.length) (he : e < size) (h1 : bitAt m e = true) : ∀ (f p co : Nat), p < e → e - p ≤ f →
    (∀ k, p < k → k < e → bitAt m k = false) → readCo m size f p co = some (e, co + (e - p))
  | 0, p, co, h, hf, _ => by omega
  | f + 1, p, co, h, hf, hk => by
    rw [readCo, if_pos (by omega), Bp.bit_eq (by omega), sbind]
    by_cases c : p + 1 = e
    · subst c
      rw [h1, if_pos rfl]; congr 2; omega
    · rw [hk (p + 1) (by omega) (by omega), if_neg (by decide), readCo_ok hm he h1 f (p + 1) (co + 1) (by omega) (by omega) (fun k g1 g2 => hk k (by omega) g2)]
      congr 2; omega

/-! ### The numbers of parentheses -/

section

variable (V : Nat → Nat) (n : Nat)

/-- The number of opening parentheses of position `i`. -/
def co (i : Nat) : Nat := pops (mir V n) n (n - 1 - i) + 1

/-- The number of closing parentheses of position `i`. -/
def cc (i : Nat) : Nat := pops V n i + 1

/-- The opening parentheses of the last `r` positions. -/
def U (r : Nat) : Nat := sum (fun k => pops (mir V n) n k + 1) r

/-- The first parenthesis of position `i`. -/
def P (i : Nat) : Nat := sum (fun k => co V n k + cc V n k) i

end

variable {V : Nat → Nat} {n : Nat}

theorem sum_add (f g : Nat → Nat) : ∀ i, sum (fun k => f k + g k) i = sum f i + sum g i
  | 0 => rfl
  | i + 1 => by simp only [sum]; rw [sum_add f g i]; omega

theorem sum_mono (f : Nat → Nat) {i j : Nat} (h : i ≤ j) : sum f i ≤ sum f j := by
  induction j with
  | zero => obtain rfl : i = 0 := by omega
            exact Nat.le_refl _
  | succ j ih =>
    rcases Nat.lt_or_ge i (j + 1) with g | g
    · have := ih (by omega); rw [sum]; omega
    · obtain rfl : i = j + 1 := by omega
      exact Nat.le_refl _

theorem sum_co : ∀ i, i ≤ n → sum (co V n) i + U V n (n - i) = U V n n
  | 0, _ => by simp [sum]
  | i + 1, h => by
    have h1 := sum_co i (by omega)
    rw [sum]
    have h2 : U V n (n - i) = U V n (n - (i + 1)) + co V n i := by
      rw [show n - i = (n - (i + 1)) + 1 by omega, U, sum, co, show n - 1 - i = n - (i + 1) by omega]; rfl
    omega

theorem U_le (hn : 0 < n) : U V n n ≤ 2 * n - 1 := sum_pops_all hn

theorem U_mono {a b : Nat} (h : a ≤ b) : U V n a ≤ U V n b := sum_mono _ h

theorem P_le (hn : 0 < n) {i : Nat} (hi : i ≤ n) : P V n i + U V n (n - i) ≤ 4 * n - 2 := by
  have h1 := sum_co (V := V) i hi
  have h2 := U_le (V := V) hn
  have h3 := sum_mono (cc V n) hi
  have h4 : sum (cc V n) n ≤ 2 * n - 1 := sum_pops_all hn
  have h5 : P V n i = sum (co V n) i + sum (cc V n) i := sum_add _ _ i
  omega

/-- The unary numbers of the last `r` positions are written. -/
def Code (V : Nat → Nat) (n : Nat) (m : Mem) (r : Nat) : Prop :=
  ∀ k, k < r → bitAt m (4 * n - 1 - U V n k) = true ∧ ∀ t, 4 * n - 1 - U V n (k + 1) < t → t < 4 * n - 1 - U V n k → bitAt m t = false

/-- The parentheses of the first `r` positions are written. -/
def Blk (V : Nat → Nat) (n : Nat) (m : Mem) (r : Nat) : Prop :=
  ∀ i, i < r → (∀ t, t < co V n i → bitAt m (P V n i + t) = true) ∧ ∀ t, t < cc V n i → bitAt m (P V n i + co V n i + t) = false

/-- The values of the LCP array. -/
def vals (lcp : List Nat) (k : Nat) : Nat := lcp.getD k 0

theorem vals_get {lcp : List Nat} {i : Nat} (h : i < lcp.length) : lcp[i]? = some (vals lcp i) := by
  rw [List.getElem?_eq_getElem h, vals, List.getD_eq_getElem?_getD, List.getElem?_eq_getElem h]; rfl

section

variable {lcp : List Nat} (hle : ∀ k, k < lcp.length → vals lcp k ≤ lcp.length) (hb : lcp.length + 3 < 2 ^ 63)

local notation "W" => vals lcp
local notation "N" => lcp.length

include hle in
theorem stk_le {i : Nat} (hi : i < N) : ∀ t ∈ stk W i, t ≤ N + 1 := fun t ht => (stk_bound hle i hi t ht).2

include hle in
theorem mir_le : ∀ k, k < N → mir W N k ≤ N := by
  intro k hk
  unfold mir
  rcases Nat.eq_zero_or_pos k with rfl | h
  · show (lcp.getD (N - 0) 0) ≤ N
    rw [List.getD_eq_getElem?_getD, List.getElem?_eq_none (by omega)]
    simp
  · exact hle _ (by omega)

include hle in
theorem stk_mir_le {i : Nat} (hi : i < N) : ∀ t ∈ stk (mir W N) i, t ≤ N + 1 := fun t ht => (stk_bound (mir_le hle) i hi t ht).2

include hle hb in
theorem backLoop_ok : ∀ (i r : Nat) (s : Sss) (m : Mem), i + 1 + r = N → Sss.Inv (N + 1) s (stk (mir W N) r ++ [0]) → 4 * N ≤ 64 * m.length → Code W N m r →
    ∃ s' m', backLoop lcp i s m (4 * N - 1 - U W N r) = some (s', m', 4 * N - 1 - U W N (N - 1)) ∧ m'.length = m.length ∧
      Sss.Inv (N + 1) s' (stk (mir W N) (N - 1) ++ [0]) ∧ Code W N m' (N - 1)
  | 0, r, s, m, hr, hs, hm, hc => by
    obtain rfl : r = N - 1 := by omega
    exact ⟨s, m, rfl, rfl, hs, hc⟩
  | i + 1, r, s, m, hr, hs, hm, hc => by
    have hv := hle (i + 1) (by omega)
    obtain ⟨s1, e1, h1⟩ := stackStep_ok (x := W (i + 1) + 1) (by omega) hs (stk_mir_le hle (by omega)) (by omega) (by omega)
    have e2 : mir W N (r + 1) = W (i + 1) := by
      show vals lcp (lcp.length - (r + 1)) = _
      rw [show lcp.length - (r + 1) = i + 1 by omega]
    have e3 : 1 + (ppop (W (i + 1) + 1) (stk (mir W N) r)).1 = pops (mir W N) N r + 1 := by
      rw [pops, if_pos (by omega), e2]; omega
    have e4 : U W N (r + 1) = U W N r + (pops (mir W N) N r + 1) := rfl
    have hu := U_le (V := W) (n := N) (by omega)
    have hu2 := U_mono (V := W) (n := N) (a := r + 1) (b := N) (by omega)
    rw [e3] at e1
    obtain ⟨m1, g1, g2, g3, g4, g5⟩ := codeDown_ok (co := pops (mir W N) N r + 1) (m := m) (p := 4 * N - 1 - U W N r) (by omega) (by omega) (by omega)
    have hc1 : Code W N m1 (r + 1) := by
      intro k hk
      rcases Nat.lt_or_ge k r with h | h
      · obtain ⟨c1, c2⟩ := hc k h
        have a1 := U_mono (V := W) (n := N) (a := k) (b := k + 1) (by omega)
        have a2 := U_mono (V := W) (n := N) (a := k + 1) (b := r) (by omega)
        have a3 : U W N (k + 1) = U W N k + (pops (mir W N) N k + 1) := rfl
        exact ⟨by rw [g5 _ (by omega)]; exact c1, fun t b1 b2 => by rw [g5 t (by omega)]; exact c2 t b1 b2⟩
      · obtain rfl : k = r := by omega
        exact ⟨g3, fun t b1 b2 => g4 t (by omega) b2⟩
    have h1' : Sss.Inv (N + 1) s1 (stk (mir W N) (r + 1) ++ [0]) := by
      have : stk (mir W N) (r + 1) = ppush (W (i + 1) + 1) (ppop (W (i + 1) + 1) (stk (mir W N) r)).2 := by rw [stk, e2]
      rw [this]; exact h1
    obtain ⟨s2, m2, f1, f2, f3, f4⟩ := backLoop_ok i (r + 1) s1 m1 (by omega) h1' (by rw [g2]; exact hm) hc1
    refine ⟨s2, m2, ?_, by rw [f2, g2], f3, f4⟩
    rw [backLoop, vals_get (by omega), sbind, e1, sbind]
    dsimp only
    rw [g1, sbind]
    dsimp only
    rw [show 4 * N - 1 - U W N r - (pops (mir W N) N r + 1) = 4 * N - 1 - U W N (r + 1) by omega]
    exact f1

theorem backEnd_ok {M : Nat} (hM : M + 1 < 2 ^ 63) : ∀ (A : List Nat) (f : Nat) (s : Sss) (m : Mem) (p : Nat), A.length < f → Sss.Inv M s (A ++ [0]) → (∀ t ∈ A, t ≤ M) →
    A.length ≤ p → p < 64 * m.length →
    ∃ s' m', backEnd f s m p = some (s', m', p - A.length) ∧ m'.length = m.length ∧ Sss.Inv M s' [0] ∧ (∀ k, p - A.length < k → k ≤ p → bitAt m' k = false) ∧
      ∀ k, k ≤ p - A.length ∨ p < k → bitAt m' k = bitAt m k
  | A, 0, _, _, _, h, _, _, _, _ => by omega
  | [], f + 1, s, m, p, _, hs, _, _, _ => by
    refine ⟨s, m, ?_, rfl, hs, fun k h1 h2 => by simp at h1; omega, fun k _ => rfl⟩
    rw [backEnd, if_neg (by rw [hs.cnt]; simp)]; rfl
  | t :: A, f + 1, s, m, p, hf, hs, hA, hp, hm => by
    simp only [List.length_cons] at hf hp
    obtain ⟨s1, h1, h2⟩ := Sss.pop_inv hM hs (fun a ha => by
      rcases List.mem_append.1 ha with g | g
      · exact hA a g
      · simp at g; omega)
    obtain ⟨m1, g1, g2, g3⟩ := setZero_eq (m := m) hm
    obtain ⟨s2, m2, f1, f2, f3, f4, f5⟩ := backEnd_ok hM A f s1 m1 (p - 1) (by omega) h2 (fun a ha => hA a (List.mem_cons_of_mem _ ha)) (by omega) (by rw [g2]; omega)
    refine ⟨s2, m2, ?_, by rw [f2, g2], f3, fun k b1 b2 => ?_, fun k b => ?_⟩
    · rw [backEnd, if_pos (by rw [hs.cnt]; simp), h1, sbind, g1, sbind, sub_eq (by omega), sbind, f1]
      simp only [List.length_cons]
      congr 3; omega
    · simp only [List.length_cons] at b1
      by_cases c : k = p
      · rw [f5 k (by omega), g3]; simp [c]
      · exact f4 k (by omega) (by omega)
    · simp only [List.length_cons] at b
      rw [f5 k (by omega), g3]
      have : k ≠ p := by omega
      simp [this]

include hle hb in
theorem back_ok (hn : 0 < N) {m : Mem} (hm : 4 * N ≤ 64 * m.length) :
    ∃ s' m', back lcp m (4 * N) = some (s', m', 4 * N - 1 - U W N N) ∧ m'.length = m.length ∧ Sss.Inv (N + 1) s' [0] ∧ Code W N m' N := by
  obtain ⟨s0, e0, h0⟩ := Sss.new_inv (N + 1)
  obtain ⟨s1, e1, h1⟩ := Sss.push_inv h0 (x := 0) (by omega) (fun t ht => by simp at ht)
  have e00 : U W N 0 = 0 := rfl
  obtain ⟨s2, m2, f1, f2, f3, f4⟩ := backLoop_ok hle hb (N - 1) 0 s1 m (by omega) h1 hm (fun k hk => by omega)
  have hu := U_le (V := W) (n := N) hn
  have e4 : U W N N = U W N (N - 1) + ((stk (mir W N) (N - 1)).length + 1) := by
    have : U W N (N - 1 + 1) = U W N (N - 1) + (pops (mir W N) N (N - 1) + 1) := rfl
    rw [show N - 1 + 1 = N by omega] at this
    rw [this, pops, if_neg (by omega)]
  obtain ⟨m3, g1, g2, g3⟩ := setOne_eq (m := m2) (k := 4 * N - 1 - U W N (N - 1)) (by rw [f2]; omega)
  obtain ⟨s4, m4, k1, k2, k3, k4, k5⟩ := backEnd_ok (M := N + 1) (by omega) (stk (mir W N) (N - 1)) s2.cnt s2 m3 (4 * N - 1 - U W N (N - 1) - 1)
    (by rw [f3.cnt]; simp) f3 (stk_mir_le hle (by omega)) (by omega) (by rw [g2, f2]; omega)
  refine ⟨s4, m4, ?_, by rw [k2, g2, f2], k3, fun k hk => ?_⟩
  · rw [back, e0, sbind, e1, sbind, sub_eq (by omega), sbind, show 4 * N - 1 = 4 * N - 1 - U W N 0 by rw [e00]; rfl, f1, sbind]
    dsimp only
    rw [g1, sbind, sub_eq (by omega), sbind, k1]
    congr 3; omega
  · rcases Nat.lt_or_ge k (N - 1) with h | h
    · obtain ⟨c1, c2⟩ := f4 k h
      have a2 := U_mono (V := W) (n := N) (a := k + 1) (b := N - 1) (by omega)
      have a3 : U W N (k + 1) = U W N k + (pops (mir W N) N k + 1) := rfl
      refine ⟨?_, fun t b1 b2 => ?_⟩
      · rw [k5 _ (by omega), g3, c1]; rfl
      · rw [k5 t (by omega), g3, c2 t b1 b2]
        have : t ≠ 4 * N - 1 - U W N (N - 1) := by omega
        simp [this]
    · obtain rfl : k = N - 1 := by omega
      refine ⟨?_, fun t b1 b2 => ?_⟩
      · rw [k5 _ (by omega), g3]; simp
      · rw [show N - 1 + 1 = N by omega] at b1
        exact k4 t (by omega) (by omega)

include hle hb in
theorem frontLoop_ok : ∀ (c i : Nat) (s : Sss) (m : Mem), i + c = N → 1 ≤ i → Sss.Inv (N + 1) s (stk W (i - 1) ++ [0]) → 4 * N ≤ 64 * m.length → Code W N m (N - i + 1) →
    Blk W N m (i - 1) →
    ∃ s' m', frontLoop lcp (4 * N) c i s m (4 * N - 1 - U W N (N - i + 1)) (P W N (i - 1)) = some (s', m', P W N (N - 1)) ∧ m'.length = m.length ∧
      Sss.Inv (N + 1) s' (stk W (N - 1) ++ [0]) ∧ Blk W N m' (N - 1)
  | 0, i, s, m, hi, h1, hs, hm, hc, hbl => by
    obtain rfl : i = N := by omega
    exact ⟨s, m, rfl, rfl, hs, hbl⟩
  | c + 1, i, s, m, hi, h1, hs, hm, hc, hbl => by
    have hu := U_le (V := W) (n := N) (by omega)
    have hu2 := U_mono (V := W) (n := N) (a := N - i + 1) (b := N) (by omega)
    have e1 : U W N (N - i + 1) = U W N (N - i) + co W N (i - 1) := by
      have : U W N (N - i + 1) = U W N (N - i) + (pops (mir W N) N (N - i) + 1) := rfl
      rw [this, co, show N - 1 - (i - 1) = N - i by omega]
    have pco : 0 < co W N (i - 1) := by unfold co; omega
    obtain ⟨c1, c2⟩ := hc (N - i) (by omega)
    have r1 := readCo_ok (m := m) (size := 4 * N) hm (by omega) c1 (4 * N) (4 * N - 1 - U W N (N - i + 1)) 0 (by omega) (by omega) c2
    rw [show 0 + (4 * N - 1 - U W N (N - i) - (4 * N - 1 - U W N (N - i + 1))) = co W N (i - 1) by omega] at r1
    have hv := hle i (by omega)
    obtain ⟨s1, e2, h2⟩ := stackStep_ok (x := W i + 1) (by omega) hs (stk_le hle (by omega)) (by omega) (by omega)
    have e3 : 1 + (ppop (W i + 1) (stk W (i - 1))).1 = cc W N (i - 1) := by
      rw [cc, pops, if_pos (by omega), show i - 1 + 1 = i by omega]; omega
    rw [e3] at e2
    have h2' : Sss.Inv (N + 1) s1 (stk W i ++ [0]) := by
      have : stk W i = ppush (W i + 1) (ppop (W i + 1) (stk W (i - 1))).2 := by
        obtain ⟨j, rfl⟩ : ∃ j, i = j + 1 := ⟨i - 1, by omega⟩
        rfl
      rw [this]; exact h2
    have eP : P W N i = P W N (i - 1) + co W N (i - 1) + cc W N (i - 1) := by
      obtain ⟨j, rfl⟩ : ∃ j, i = j + 1 := ⟨i - 1, by omega⟩
      show P W N j + (co W N j + cc W N j) = _
      rw [show j + 1 - 1 = j by omega]; omega
    have hP := P_le (V := W) (n := N) (by omega) (i := i) (by omega)
    obtain ⟨m1, a1, a2, a3, a4⟩ := onesUp_ok (co W N (i - 1)) m (P W N (i - 1)) (by omega)
    obtain ⟨m2, b1, b2, b3, b4⟩ := zerosUp_ok (cc W N (i - 1)) m1 (P W N (i - 1) + co W N (i - 1)) (by rw [a2]; omega)
    have hc' : Code W N m2 (N - i) := by
      intro k hk
      obtain ⟨d1, d2⟩ := hc k (by omega)
      have q1 := U_mono (V := W) (n := N) (a := k + 1) (b := N - i) (by omega)
      have q2 := U_mono (V := W) (n := N) (a := k) (b := k + 1) (by omega)
      have q3 : U W N (k + 1) = U W N k + (pops (mir W N) N k + 1) := rfl
      exact ⟨by rw [b4 _ (by omega), a4 _ (by omega)]; exact d1, fun t q4 q5 => by rw [b4 _ (by omega), a4 _ (by omega)]; exact d2 t q4 q5⟩
    have hbl' : Blk W N m2 i := by
      intro k hk
      rcases Nat.lt_or_ge k (i - 1) with h | h
      · obtain ⟨d1, d2⟩ := hbl k h
        have q1 : P W N (k + 1) ≤ P W N (i - 1) := sum_mono _ (by omega)
        have q2 : P W N (k + 1) = P W N k + (co W N k + cc W N k) := rfl
        exact ⟨fun t q3 => by rw [b4 _ (by omega), a4 _ (by omega)]; exact d1 t q3, fun t q3 => by rw [b4 _ (by omega), a4 _ (by omega)]; exact d2 t q3⟩
      · obtain rfl : k = i - 1 := by omega
        exact ⟨fun t q3 => by rw [b4 _ (by omega)]; exact a3 t q3, b3⟩
    obtain ⟨s3, m3, f1, f2, f3, f4⟩ := frontLoop_ok c (i + 1) s1 m2 (by omega) (by omega) h2' (by rw [b2, a2]; exact hm)
      (by rw [show N - (i + 1) + 1 = N - i by omega]; exact hc') hbl'
    refine ⟨s3, m3, ?_, by rw [f2, b2, a2], f3, f4⟩
    rw [frontLoop, r1, sbind]
    dsimp only
    rw [vals_get (by omega), sbind, e2, sbind]
    dsimp only
    rw [a1, sbind]
    dsimp only
    rw [b1, sbind]
    dsimp only
    rw [show N - (i + 1) + 1 = N - i by omega, show i + 1 - 1 = i by omega, eP] at f1
    exact f1

theorem frontEnd_ok {M : Nat} (hM : M + 1 < 2 ^ 63) : ∀ (A : List Nat) (f : Nat) (s : Sss) (m : Mem) (q : Nat), A.length < f → Sss.Inv M s A → (∀ t ∈ A, t ≤ M) →
    q + A.length ≤ 64 * m.length →
    ∃ m', frontEnd f s m q = some (m', q + A.length) ∧ m'.length = m.length ∧ (∀ t, t < A.length → bitAt m' (q + t) = false) ∧
      ∀ k, k < q → bitAt m' k = bitAt m k
  | A, 0, _, _, _, h, _, _, _ => by omega
  | [], f + 1, s, m, q, _, hs, _, _ => by
    refine ⟨m, ?_, rfl, fun t h => by simp at h, fun k _ => rfl⟩
    rw [frontEnd, if_pos (by unfold Sss.empty; rw [hs.cnt]; rfl)]; rfl
  | t :: A, f + 1, s, m, q, hf, hs, hA, hm => by
    simp only [List.length_cons] at hf hm
    obtain ⟨s1, h1, h2⟩ := Sss.pop_inv hM hs hA
    obtain ⟨m1, g1, g2, g3⟩ := setZero_eq (m := m) (k := q) (by omega)
    obtain ⟨m2, f1, f2, f3, f4⟩ := frontEnd_ok hM A f s1 m1 (q + 1) (by omega) h2 (fun a ha => hA a (List.mem_cons_of_mem _ ha)) (by rw [g2]; omega)
    refine ⟨m2, ?_, by rw [f2, g2], fun t b => ?_, fun k b => ?_⟩
    · rw [frontEnd, if_neg (by unfold Sss.empty; rw [hs.cnt]; simp), g1, sbind, h1, sbind, f1]
      simp only [List.length_cons]; congr 2; omega
    · simp only [List.length_cons] at b
      rcases Nat.eq_zero_or_pos t with rfl | g'
      · rw [f4 _ (by omega), g3]; simp
      · have := f3 (t - 1) (by omega)
        rw [show q + 1 + (t - 1) = q + t by omega] at this; exact this
    · rw [f4 k (by omega), g3]
      have : k ≠ q := by omega
      simp [this]

include hle hb in
theorem fill_ok (hn : 0 < N) {m : Mem} (hm : 4 * N ≤ 64 * m.length) : ∃ m', fill lcp m (4 * N) = some (m', P W N N) ∧ m'.length = m.length ∧ Blk W N m' N := by
  obtain ⟨s1, m1, e1, e2, e3, e4⟩ := back_ok hle hb hn hm
  obtain ⟨s2, m2, f1, f2, f3, f4⟩ := frontLoop_ok hle hb (N - 1) 1 s1 m1 (by omega) (Nat.le_refl _) e3 (by rw [e2]; exact hm)
    (by rw [show N - 1 + 1 = N by omega]; exact e4) (fun k hk => by omega)
  have hP := P_le (V := W) (n := N) hn (i := N) (Nat.le_refl _)
  have eP : P W N N = P W N (N - 1) + (co W N (N - 1) + cc W N (N - 1)) := by
    have : P W N (N - 1 + 1) = P W N (N - 1) + (co W N (N - 1) + cc W N (N - 1)) := rfl
    rw [show N - 1 + 1 = N by omega] at this; exact this
  have eco : co W N (N - 1) = 1 := by
    rw [co, show N - 1 - (N - 1) = 0 by omega, pops]
    split <;> rfl
  have ecc : cc W N (N - 1) = (stk W (N - 1) ++ [0]).length := by
    rw [cc, pops, if_neg (by omega)]; simp
  obtain ⟨m3, g1, g2, g3⟩ := setOne_eq (m := m2) (k := P W N (N - 1)) (by rw [f2, e2]; omega)
  obtain ⟨m4, k1, k2, k3, k4⟩ := frontEnd_ok (M := N + 1) (by omega) _ (s2.cnt + 1) s2 m3 (P W N (N - 1) + 1) (by rw [f3.cnt]; omega) f3 (fun t ht => by
    rcases List.mem_append.1 ht with g | g
    · exact stk_le hle (by omega) t g
    · simp at g; omega) (by rw [g2, f2, e2]; omega)
  refine ⟨m4, ?_, by rw [k2, g2, f2, e2], fun i hi => ?_⟩
  · rw [fill, e1, sbind]
    dsimp only
    rw [show N - 1 + 1 = N by omega] at f1
    have f1' : frontLoop lcp (4 * N) (N - 1) 1 s1 m1 (4 * N - 1 - U W N N) 0 = some (s2, m2, P W N (N - 1)) := f1
    rw [f1', sbind]
    dsimp only
    rw [g1, sbind, k1]
    congr 2; omega
  · rcases Nat.lt_or_ge i (N - 1) with h | h
    · obtain ⟨d1, d2⟩ := f4 i h
      have q1 : P W N (i + 1) ≤ P W N (N - 1) := sum_mono _ (by omega)
      have q2 : P W N (i + 1) = P W N i + (co W N i + cc W N i) := rfl
      refine ⟨fun t q3 => ?_, fun t q3 => ?_⟩
      · rw [k4 _ (by omega), g3, d1 t q3]; rfl
      · rw [k4 _ (by omega), g3, d2 t q3]
        have : P W N i + co W N i + t ≠ P W N (N - 1) := by omega
        simp [this]
    · obtain rfl : i = N - 1 := by omega
      rw [eco, ecc]
      refine ⟨fun t q3 => ?_, k3⟩
      obtain rfl : t = 0 := by omega
      rw [k4 _ (by omega), g3]; simp

include hle hb in
/-- The parentheses. -/
theorem parens_ok (junk : Nat → Word) (hn : 0 < N) : ∃ v, parens junk lcp = some v ∧ v.size = P W N N ∧ P W N N ≤ 64 * v.data.length ∧ Blk W N v.data N := by
  obtain ⟨d0, r0, r1, -⟩ := IntVec.bitResize_eq junk ⟨0, [], 1⟩ (by simp) (0 * 1)
  obtain ⟨d1, a1, a2, -⟩ := IntVec.bitResize_eq junk ⟨0, d0, 1⟩ (by simp) (4 * N * 1)
  obtain ⟨m, f1, f2, f3⟩ := fill_ok hle hb hn (m := d1) (by omega)
  have hP := P_le (V := W) (n := N) hn (i := N) (Nat.le_refl _)
  obtain ⟨d2, b1, b2, b3, b4, -⟩ := IntVec.bitResize_eq junk ⟨4 * N, m, 1⟩ (by show (4 * N + 63) / 64 ≤ m.length; rw [f2]; omega) (P W N N * 1)
  refine ⟨⟨P W N N * 1, d2, 1⟩, ?_, by simp, by show P W N N ≤ 64 * d2.length; omega, fun i hi => ?_⟩
  · rw [parens, IntVec.resize]
    dsimp only
    rw [r0, sbind, IntVec.resize]
    dsimp only
    rw [show 0 * 1 = 0 by rfl, a1, sbind, if_pos hn]
    dsimp only
    rw [Nat.mul_one] at *
    rw [f1, sbind]
    dsimp only
    rw [IntVec.resize]
    dsimp only
    rw [Nat.mul_one]
    exact b1
  · have q1 : P W N (i + 1) ≤ P W N N := sum_mono _ (by omega)
    have q2 : P W N (i + 1) = P W N i + (co W N i + cc W N i) := rfl
    obtain ⟨d1, d2⟩ := f3 i hi
    exact ⟨fun t q3 => by rw [b4 _ (by show _ < 4 * N; omega) (by omega)]; exact d1 t q3, fun t q3 => by rw [b4 _ (by show _ < 4 * N; omega) (by omega)]; exact d2 t q3⟩

end

end Sdsl.CstSada
