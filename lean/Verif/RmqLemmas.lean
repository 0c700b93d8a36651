/-
  Lemmas about `rmq_support_sparse_table`.
-/
import Verif.Rmq
import Verif.UtilLemmas
import Verif.BitsSel

namespace Sdsl.Rmq

open Bits

/-- `a` is at least as good as `b`. -/
def Le (t : Bool) (a b : Int) : Prop := if t then a ≤ b else b ≤ a

theorem cmp_iff {t : Bool} {a b : Int} : cmp t a b = true ↔ Le t a b := by
  unfold cmp Le
  cases t <;> simp

theorem Le.trans {t : Bool} {a b c : Int} (h1 : Le t a b) (h2 : Le t b c) : Le t a c := by
  unfold Le at *
  cases t <;> simp at * <;> omega

theorem Le.total {t : Bool} {a b : Int} (h : ¬Le t a b) : Le t b a := by
  unfold Le at *
  cases t <;> simp at * <;> omega

/-- `p` is the leftmost optimum of `v[l..r]`. -/
structure IsArg (t : Bool) (v : List Int) (l r p : Nat) : Prop where
  ge : l ≤ p
  le : p ≤ r
  opt : ∀ q, l ≤ q → q ≤ r → Le t (v.getD p 0) (v.getD q 0)
  first : ∀ q, l ≤ q → q < p → ¬Le t (v.getD q 0) (v.getD p 0)

theorem IsArg.single (t : Bool) (v : List Int) (l : Nat) : IsArg t v l l l :=
  ⟨Nat.le_refl _, Nat.le_refl _, fun q h1 h2 => by
    obtain rfl : q = l := by omega
    unfold Le; cases t <;> simp, fun q h1 h2 => by omega⟩

/-- Two overlapping (or adjacent) windows. -/
theorem IsArg.join {t : Bool} {v : List Int} {l m l2 r p1 p2 : Nat} (h1 : IsArg t v l m p1) (h2 : IsArg t v l2 r p2) (ha : l ≤ l2) (hb : l2 ≤ m + 1) (hc : m ≤ r) :
    IsArg t v l r (if cmp t (v.getD p1 0) (v.getD p2 0) then p1 else p2) := by
  have g1 := h1.ge; have g2 := h1.le; have g3 := h2.ge; have g4 := h2.le
  by_cases c : cmp t (v.getD p1 0) (v.getD p2 0) = true
  · rw [if_pos c]
    rw [cmp_iff] at c
    refine ⟨g1, by omega, fun q hq1 hq2 => ?_, h1.first⟩
    by_cases d : q ≤ m
    · exact h1.opt q hq1 d
    · exact c.trans (h2.opt q (by omega) hq2)
  · rw [if_neg c]
    rw [cmp_iff] at c
    refine ⟨by omega, g4, fun q hq1 hq2 => ?_, fun q hq1 hq2 hq3 => ?_⟩
    · by_cases d : q ≤ m
      · exact (Le.total c).trans (h1.opt q hq1 d)
      · exact h2.opt q (by omega) hq2
    · by_cases d : q < l2
      · exact c ((h1.opt q hq1 (by omega)).trans hq3)
      · exact h2.first q (by omega) hq2 hq3

theorem v_get {v : List Int} {j : Nat} (h : j < v.length) : v[j]? = some (v.getD j 0) := by
  rw [List.getD_eq_getElem?_getD, List.getElem?_eq_getElem h]; rfl

theorem kLoop_eq {n : Nat} (hn : n ≤ 2 ^ 63) : ∀ fuel k, k ≤ 62 → 63 ≤ fuel + k → (∀ k', k' < k → 2 ^ (k' + 1) < n) →
    ∃ K, kLoop n fuel k = some K ∧ K ≤ 62 ∧ n ≤ 2 ^ (K + 1) ∧ ∀ k', k' < K → 2 ^ (k' + 1) < n
  | 0, k, h1, h2, h3 => by omega
  | fuel + 1, k, h1, h2, h3 => by
    rw [kLoop, if_pos (by omega)]
    have hp : 2 * 2 ^ k = 2 ^ (k + 1) := by rw [Nat.pow_succ]; omega
    have hlt : 2 ^ (k + 1) < 2 ^ 64 := Nat.pow_lt_pow_right (by omega) (by omega)
    rw [hp, Nat.mod_eq_of_lt hlt]
    by_cases c : 2 ^ (k + 1) < n
    · rw [if_pos c]
      have : k ≠ 62 := by
        rintro rfl
        omega
      refine kLoop_eq hn fuel (k + 1) (by omega) (by omega) fun k' hk' => ?_
      by_cases d : k' = k
      · rw [d]; exact c
      · exact h3 k' (by omega)
    · rw [if_neg c]
      exact ⟨k, rfl, h1, by omega, h3⟩

/-- Shape of the tables. -/
structure Shape (n K : Nat) (T : List Arr) : Prop where
  len : T.length = K
  row : ∀ i, i < K → ∃ a, T[i]? = some a ∧ a.width = i + 1 ∧ a.xs.length = n - 2 ^ (i + 1) + 1

theorem tget_eq {T : List Arr} {i j : Nat} {a : Arr} (h : T[i]? = some a) : tget T i j = a.xs[j]? := by
  unfold tget
  rw [h, sbind]; rfl

theorem tset_ok {n K : Nat} {T : List Arr} (hs : Shape n K T) {i j x : Nat} (hi : i < K) (hj : j < n - 2 ^ (i + 1) + 1) (hx : x < 2 ^ (i + 1)) :
    ∃ T', tset T i j x = some T' ∧ Shape n K T' ∧ ∀ i' j', tget T' i' j' = if i' = i ∧ j' = j then some x else tget T i' j' := by
  obtain ⟨a, h1, h2, h3⟩ := hs.row i hi
  have hlen := hs.len
  unfold tset
  rw [h1, sbind, Arr.set_of_lt (by omega), sbind, setList_of_lt (by omega)]
  refine ⟨_, rfl, ⟨by simpa using hlen, fun i' hi' => ?_⟩, fun i' j' => ?_⟩
  · rw [List.getElem?_set]
    by_cases c : i = i'
    · subst c
      rw [if_pos rfl, if_pos (by omega)]
      exact ⟨_, rfl, h2, by simpa using h3⟩
    · rw [if_neg c]
      exact hs.row i' hi'
  · by_cases c : i' = i
    · subst c
      rw [tget_eq (a := { a with xs := a.xs.set j (x % 2 ^ a.width) }) (by rw [List.getElem?_set, if_pos rfl, if_pos (by omega)]), tget_eq h1]
      dsimp only
      rw [List.getElem?_set, h2, Nat.mod_eq_of_lt hx]
      by_cases d : j' = j
      · rw [if_pos d.symm, if_pos (by omega), if_pos ⟨rfl, d⟩]
      · rw [if_neg (Ne.symm d), if_neg (by simp [d])]
    · rw [if_neg (by simp [c])]
      unfold tget
      rw [List.getElem?_set, if_neg (Ne.symm c)]

/-- Row `i` is correct at `j`. -/
def Cell (t : Bool) (v : List Int) (T : List Arr) (i j : Nat) : Prop :=
  ∃ x, tget T i j = some x ∧ x < 2 ^ (i + 1) ∧ IsArg t v j (j + 2 ^ (i + 1) - 1) (j + x)

theorem pair_arg (t : Bool) (v : List Int) (i : Nat) :
    IsArg t v i (i + 1) (if cmp t (v.getD i 0) (v.getD (i + 1) 0) then i else i + 1) :=
  (IsArg.single t v i).join (IsArg.single t v (i + 1)) (by omega) (by omega) (by omega)

theorem row0_ok {t : Bool} {v : List Int} {K : Nat} (hK : 0 < K) : ∀ c i T, Shape v.length K T → i + c + 1 = v.length →
    (∀ j, j < i → Cell t v T 0 j) → (∀ j, i ≤ j → j + 1 < v.length → tget T 0 j = some 0) →
    ∃ T', row0 t v c i T = some T' ∧ Shape v.length K T' ∧ ∀ j, j + 1 < v.length → Cell t v T' 0 j
  | 0, i, T, hs, hc, h1, h2 => ⟨T, rfl, hs, fun j hj => h1 j (by omega)⟩
  | c + 1, i, T, hs, hc, h1, h2 => by
    rw [row0, v_get (by omega), sbind, v_get (by omega), sbind]
    have hp := pair_arg t v i
    by_cases d : cmp t (v.getD i 0) (v.getD (i + 1) 0) = true
    · rw [if_neg (by rw [d]; simp)]
      rw [if_pos d] at hp
      refine row0_ok hK c (i + 1) T hs (by omega) (fun j hj => ?_) (fun j hj1 hj2 => h2 j (by omega) hj2)
      by_cases e : j = i
      · subst e
        exact ⟨0, h2 j (by omega) (by omega), by decide, hp⟩
      · exact h1 j (by omega)
    · rw [if_pos (by rw [Bool.not_eq_true] at d; rw [d]; rfl)]
      rw [if_neg d] at hp
      obtain ⟨T', k1, k2, k3⟩ := tset_ok hs (i := 0) (j := i) (x := 1) hK (by omega) (by decide)
      rw [k1, sbind]
      refine row0_ok hK c (i + 1) T' k2 (by omega) (fun j hj => ?_) (fun j hj1 hj2 => ?_)
      · by_cases e : j = i
        · subst e
          exact ⟨1, by rw [k3, if_pos ⟨rfl, rfl⟩], by decide, hp⟩
        · obtain ⟨x, g1, g2⟩ := h1 j (by omega)
          exact ⟨x, by rw [k3, if_neg (by simp [e])]; exact g1, g2⟩
      · rw [k3, if_neg (by omega)]
        exact h2 j (by omega) hj2

theorem best_ok {t : Bool} {v : List Int} {T : List Arr} {i j : Nat} (h1 : Cell t v T i j) (h2 : Cell t v T i (j + 2 ^ (i + 1))) (hj : j + 2 ^ (i + 2) ≤ v.length) :
    ∃ x, best t v T (i + 1) j = some x ∧ x < 2 ^ (i + 2) ∧ IsArg t v j (j + 2 ^ (i + 2) - 1) (j + x) := by
  obtain ⟨x, a1, a2, a3⟩ := h1
  obtain ⟨y, b1, b2, b3⟩ := h2
  have hp : 2 ^ (i + 2) = 2 ^ (i + 1) + 2 ^ (i + 1) := by rw [Nat.pow_succ]; omega
  have hp0 : 0 < 2 ^ (i + 1) := Nat.two_pow_pos _
  have hj' := a3.join b3 (by omega) (by omega) (by omega)
  unfold best
  rw [show i + 1 - 1 = i by omega, a1, sbind, b1, sbind, v_get (by omega), sbind, v_get (by omega), sbind]
  refine ⟨_, rfl, ?_, ?_⟩
  · split <;> omega
  · rw [show j + 2 ^ (i + 1) + 2 ^ (i + 1) - 1 = j + 2 ^ (i + 2) - 1 by omega] at hj'
    by_cases d : cmp t (v.getD (j + x) 0) (v.getD (j + 2 ^ (i + 1) + y) 0) = true
    · rw [if_pos d] at hj' ⊢
      exact hj'
    · rw [if_neg d] at hj' ⊢
      rw [← Nat.add_assoc]
      exact hj'

theorem rowLoop_ok {t : Bool} {v : List Int} {K i : Nat} (hK : i + 1 < K) (hv : 2 ^ (i + 2) ≤ v.length) : ∀ c j T, Shape v.length K T →
    j + c = v.length - 2 ^ (i + 2) + 1 →
    (∀ i' j', i' ≤ i → j' < v.length - 2 ^ (i' + 1) + 1 → Cell t v T i' j') → (∀ j', j' < j → Cell t v T (i + 1) j') →
    ∃ T', rowLoop t v (i + 1) c j T = some T' ∧ Shape v.length K T' ∧ ∀ i' j', i' ≤ i + 1 → j' < v.length - 2 ^ (i' + 1) + 1 → Cell t v T' i' j'
  | 0, j, T, hs, hc, h1, h2 => by
    refine ⟨T, rfl, hs, fun i' j' g1 g2 => ?_⟩
    by_cases e : i' = i + 1
    · subst e
      exact h2 j' (by rw [show i + 1 + 1 = i + 2 from rfl] at g2; omega)
    · exact h1 i' j' (by omega) g2
  | c + 1, j, T, hs, hc, h1, h2 => by
    have hp : 2 ^ (i + 2) = 2 ^ (i + 1) + 2 ^ (i + 1) := by rw [Nat.pow_succ]; omega
    have hp0 : 0 < 2 ^ (i + 1) := Nat.two_pow_pos _
    obtain ⟨x, b1, b2, b3⟩ := best_ok (h1 i j (Nat.le_refl _) (by omega)) (h1 i (j + 2 ^ (i + 1)) (Nat.le_refl _) (by omega)) (by omega)
    obtain ⟨T', k1, k2, k3⟩ := tset_ok hs (i := i + 1) (j := j) (x := x) hK (by rw [show i + 1 + 1 = i + 2 from rfl]; omega) b2
    rw [rowLoop, b1, sbind, k1, sbind]
    refine rowLoop_ok hK hv c (j + 1) T' k2 (by omega) (fun i' j' g1 g2 => ?_) (fun j' g => ?_)
    · obtain ⟨y, e1, e2⟩ := h1 i' j' g1 g2
      exact ⟨y, by rw [k3, if_neg (by omega)]; exact e1, e2⟩
    · by_cases e : j' = j
      · subst e
        exact ⟨x, by rw [k3, if_pos ⟨rfl, rfl⟩], b2, b3⟩
      · obtain ⟨y, e1, e2⟩ := h2 j' (by omega)
        exact ⟨y, by rw [k3, if_neg (by omega)]; exact e1, e2⟩

theorem rows_ok {t : Bool} {v : List Int} {K : Nat} (hv : ∀ k', k' < K → 2 ^ (k' + 1) < v.length) : ∀ c i T, Shape v.length K T → i + 1 + c = K →
    (∀ i' j', i' ≤ i → j' < v.length - 2 ^ (i' + 1) + 1 → Cell t v T i' j') →
    ∃ T', rows t v c (i + 1) T = some T' ∧ Shape v.length K T' ∧ ∀ i' j', i' < K → j' < v.length - 2 ^ (i' + 1) + 1 → Cell t v T' i' j'
  | 0, i, T, hs, hc, h1 => ⟨T, rfl, hs, fun i' j' g => h1 i' j' (by omega)⟩
  | c + 1, i, T, hs, hc, h1 => by
    obtain ⟨a, a1, a2, a3⟩ := hs.row (i + 1) (by omega)
    have := hv (i + 1) (by omega)
    rw [show i + 1 + 1 = i + 2 from rfl] at this a3
    obtain ⟨T', k1, k2, k3⟩ := rowLoop_ok (t := t) (by omega) (by omega) a.xs.length 0 T hs (by omega) h1 (by intro j' h; omega)
    rw [rows, a1, sbind, k1, sbind]
    exact rows_ok hv c (i + 1) T' k2 (by omega) k3

theorem new_ok (t : Bool) (v : List Int) (hn : v.length ≤ 2 ^ 63) (h2 : v.length ≠ 2 ∨ ∃ a b, v = [a, b] ∧ Le t a b) :
    ∃ T K, new t v = some T ∧ (v.length < 3 ∨ v.length ≤ 2 ^ (K + 1) ∧ ∀ i' j', i' < K → j' < v.length - 2 ^ (i' + 1) + 1 → Cell t v T i' j') := by
  unfold new
  dsimp only
  by_cases c : v.length < 2
  · rw [if_pos c]
    exact ⟨[], 0, rfl, .inl (by omega)⟩
  · rw [if_neg c]
    obtain ⟨K, k1, k2, k3, k4⟩ := kLoop_eq hn 65 0 (by omega) (by omega) (by intro k' h; omega)
    rw [k1, sbind]
    by_cases c2 : v.length = 2
    · rcases h2 with h2 | ⟨a, b, rfl, hab⟩
      · omega
      · obtain rfl : K = 0 := by
          rcases Nat.eq_zero_or_pos K with e | e
          · exact e
          · have := k4 0 e
            simp at this
        refine ⟨[], 0, ?_, .inl (by simp)⟩
        have : cmp t a b = true := cmp_iff.2 hab
        simp [row0, this, rows]
    · have hK : 0 < K := by
        rcases Nat.eq_zero_or_pos K with e | e
        · subst e
          omega
        · exact e
      have hs : Shape v.length K ((List.range K).map fun i => Arr.new (v.length - 2 ^ (i + 1) + 1) 0 (i + 1)) := by
        refine ⟨by simp, fun i hi => ?_⟩
        refine ⟨Arr.new (v.length - 2 ^ (i + 1) + 1) 0 (i + 1), by rw [List.getElem?_map, List.getElem?_range hi]; rfl, ?_, by simp [Arr.new]⟩
        show IntVec.clampWidth (i + 1) = i + 1
        unfold IntVec.clampWidth
        rw [if_pos (by omega)]
      obtain ⟨T1, g1, g2, g3⟩ := row0_ok (t := t) hK (v.length - 1) 0 _ hs (by omega) (by intro j h; omega) (by
        intro j _ hj
        rw [tget_eq (a := Arr.new (v.length - 2 ^ (0 + 1) + 1) 0 (0 + 1)) (by rw [List.getElem?_map, List.getElem?_range hK]; rfl)]
        unfold Arr.new
        dsimp only
        rw [List.getElem?_replicate, if_pos (by omega), Nat.zero_mod])
      obtain ⟨T2, f1, f2, f3⟩ := rows_ok (t := t) k4 (K - 1) 0 T1 g2 (by omega) (by
        intro i' j' h1 h2
        obtain rfl : i' = 0 := by omega
        exact g3 j' (by omega))
      rw [g1, sbind]
      exact ⟨T2, K, f1, .inr ⟨k3, f3⟩⟩

theorem query_ok {t : Bool} {v : List Int} {T : List Arr} {K : Nat} (hn : v.length ≤ 2 ^ 63)
    (hT : v.length < 3 ∨ v.length ≤ 2 ^ (K + 1) ∧ ∀ i' j', i' < K → j' < v.length - 2 ^ (i' + 1) + 1 → Cell t v T i' j') {l r : Nat} (hlr : l ≤ r) (hr : r < v.length) :
    ∃ p, query t v T l r = some p ∧ IsArg t v l r p := by
  unfold query
  by_cases c1 : l = r
  · rw [if_pos c1]
    subst c1
    exact ⟨l, rfl, IsArg.single t v l⟩
  · rw [if_neg c1]
    by_cases c2 : l + 1 = r
    · rw [if_pos c2]
      subst c2
      rw [v_get (by omega), sbind, v_get hr, sbind]
      exact ⟨_, rfl, pair_arg t v l⟩
    · rw [if_neg c2]
      rcases hT with hT | ⟨hK, hT⟩
      · omega
      rw [hi_eq, sbind, show (BitVec.ofNat 64 (r - l)).toNat = r - l by rw [BitVec.toNat_ofNat, Nat.mod_eq_of_lt (by omega)]]
      have h0 : r - l ≠ 0 := by omega
      have g1 := Nat.log2_self_le h0
      have g2 := Nat.lt_log2_self (n := r - l)
      have gk : 1 ≤ Nat.log2 (r - l) := by
        rcases Nat.eq_zero_or_pos (Nat.log2 (r - l)) with e | e
        · rw [e] at g2; omega
        · exact e
      generalize Nat.log2 (r - l) = k at *
      obtain ⟨k, rfl⟩ : ∃ k', k = k' + 1 := ⟨k - 1, by omega⟩
      have hkK : k < K := by
        rcases Nat.lt_or_ge k K with h | h
        · exact h
        · have : 2 ^ (K + 1) ≤ 2 ^ (k + 1) := Nat.pow_le_pow_right (by omega) (by omega)
          omega
      have hp : 2 ^ (k + 1 + 1) = 2 ^ (k + 1) + 2 ^ (k + 1) := by rw [Nat.pow_succ]; omega
      obtain ⟨x, a1, a2, a3⟩ := hT k l hkK (by omega)
      obtain ⟨y, b1, b2, b3⟩ := hT k (r - 2 ^ (k + 1) + 1) hkK (by omega)
      dsimp only
      rw [if_neg (by omega), show k + 1 - 1 = k by omega, a1, sbind, b1, sbind, v_get (by omega), sbind, v_get (by omega), sbind]
      refine ⟨_, rfl, ?_⟩
      have := a3.join b3 (by omega) (by omega) (by omega)
      rw [show r - 2 ^ (k + 1) + 1 + 2 ^ (k + 1) - 1 = r by omega] at this
      exact this

end Sdsl.Rmq
