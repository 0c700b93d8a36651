/-
  Texts, suffix arrays and the Burrows-Wheeler transform: what the constructions of /repo are to compute, and the facts about sorted suffixes on which the compressed suffix arrays rest.
  Nothing in this file refers to a function of /repo.
-/
import Mathlib.Data.List.Perm.Basic
import Mathlib.Data.List.Range
import Mathlib.Data.List.Count
import Mathlib.Data.List.Nodup

namespace Sdsl.Csa

/-- A text as the suffix array constructions expect it: symbols greater than 0, followed by the sentinel 0. -/
def IsText (T : List Nat) : Prop := ∃ U, T = U ++ [0] ∧ ∀ c ∈ U, 0 < c

/-- `SA` lists the starting positions of the suffixes of `T` in lexicographic order. -/
def IsSA (T SA : List Nat) : Prop := SA.Perm (List.range T.length) ∧ SA.Pairwise (fun a b => T.drop a < T.drop b)

/-- The position before and after `p`, on a cycle of length `n`. -/
def prv (n p : Nat) : Nat := (p + (n - 1)) % n
def nxt (n p : Nat) : Nat := (p + 1) % n

/-- The symbol at position `i` (0 outside). -/
def sym (T : List Nat) (i : Nat) : Nat := T.getD i 0

/-- The Burrows-Wheeler transform: the symbols that precede the sorted suffixes (cyclically). -/
def bwtOf (T SA : List Nat) : List Nat := SA.map (fun p => sym T (prv T.length p))

/-- Number of symbols smaller than `c`. -/
def smaller (T : List Nat) (c : Nat) : Nat := T.countP (fun a => decide (a < c))

theorem sym_lt {T : List Nat} {i : Nat} (h : i < T.length) : sym T i = T[i] := by
  rw [sym, List.getD_eq_getElem?_getD, List.getElem?_eq_getElem h]; rfl

theorem sym_getElem? {T : List Nat} {i : Nat} (h : i < T.length) : T[i]? = some (sym T i) := by
  rw [sym_lt h, List.getElem?_eq_getElem h]

theorem map_sym_range (T : List Nat) : (List.range T.length).map (sym T) = T := by
  apply List.ext_getElem
  · simp
  · intro i h1 h2
    simp [sym_lt h2]

theorem prv_lt {n p : Nat} (h : 0 < n) : prv n p < n := Nat.mod_lt _ h
theorem nxt_lt {n p : Nat} (h : 0 < n) : nxt n p < n := Nat.mod_lt _ h

theorem prv_pos {n p : Nat} (h : p < n) (hp : 0 < p) : prv n p = p - 1 := by
  rw [prv, show p + (n - 1) = (p - 1) + n by omega, Nat.add_mod_right, Nat.mod_eq_of_lt (by omega)]

theorem prv_zero {n : Nat} (h : 0 < n) : prv n 0 = n - 1 := by
  rw [prv, Nat.zero_add, Nat.mod_eq_of_lt (by omega)]

theorem nxt_small {n p : Nat} (h : p + 1 < n) : nxt n p = p + 1 := Nat.mod_eq_of_lt h

theorem nxt_last {n : Nat} (h : 0 < n) : nxt n (n - 1) = 0 := by
  rw [nxt, show n - 1 + 1 = n by omega, Nat.mod_self]

theorem nxt_prv {n p : Nat} (h : p < n) : nxt n (prv n p) = p := by
  by_cases hp : 0 < p
  · rw [prv_pos h hp, nxt_small (by omega)]; omega
  · have : p = 0 := by omega
    subst this
    rw [prv_zero h, nxt_last h]

theorem prv_nxt {n p : Nat} (h : p < n) : prv n (nxt n p) = p := by
  by_cases hp : p + 1 < n
  · rw [nxt_small hp, prv_pos hp (by omega)]; omega
  · have : p = n - 1 := by omega
    subst this
    rw [nxt_last (by omega), prv_zero (by omega)]

theorem map_prv_range (n : Nat) : ((List.range n).map (prv n)).Perm (List.range n) := by
  rw [List.perm_ext_iff_of_nodup]
  · intro a
    rw [List.mem_map]
    constructor
    · rintro ⟨b, hb, rfl⟩
      have := List.mem_range.1 hb
      exact List.mem_range.2 (prv_lt (by omega))
    · intro ha
      have := List.mem_range.1 ha
      exact ⟨nxt n a, List.mem_range.2 (nxt_lt (by omega)), prv_nxt this⟩
  · rw [List.nodup_map_iff_inj_on List.nodup_range]
    intro a ha b hb hab
    rw [← nxt_prv (List.mem_range.1 ha), hab, nxt_prv (List.mem_range.1 hb)]
  · exact List.nodup_range

namespace IsText

variable {T : List Nat}

theorem pos (h : IsText T) : 0 < T.length := by
  obtain ⟨U, rfl, _⟩ := h
  simp

theorem last (h : IsText T) : sym T (T.length - 1) = 0 := by
  obtain ⟨U, rfl, _⟩ := h
  simp [sym]

theorem sym_pos (h : IsText T) {i : Nat} (hi : i + 1 < T.length) : 0 < sym T i := by
  obtain ⟨U, rfl, hU⟩ := h
  have hi' : i < U.length := by simp at hi; omega
  apply hU
  simp [sym, List.getElem?_append_left hi', List.getElem?_eq_getElem hi']

theorem eq_last (h : IsText T) {i : Nat} (hi : i < T.length) (h0 : sym T i = 0) : i = T.length - 1 := by
  rcases Nat.lt_or_ge (i + 1) T.length with h1 | h1
  · have := h.sym_pos h1
    omega
  · omega

end IsText

theorem drop_cons {T : List Nat} {i : Nat} (h : i < T.length) : T.drop i = sym T i :: T.drop (i + 1) := by
  rw [List.drop_eq_getElem_cons h, sym_lt h]

/-- Suffixes that start with different symbols. -/
theorem drop_lt_of_sym {T : List Nat} {i j : Nat} (hi : i < T.length) (hj : j < T.length) (h : sym T i < sym T j) : T.drop i < T.drop j := by
  rw [drop_cons hi, drop_cons hj, List.cons_lt_cons_iff]
  exact Or.inl h

theorem sym_le_of_drop {T : List Nat} {i j : Nat} (hi : i < T.length) (hj : j < T.length) (h : T.drop i < T.drop j) : sym T i ≤ sym T j := by
  rw [drop_cons hi, drop_cons hj, List.cons_lt_cons_iff] at h
  omega

/-- Suffixes that start with the same symbol are ordered like the suffixes that follow. -/
theorem drop_lt_nxt {T : List Nat} (hT : IsText T) {i j : Nat} (hi : i < T.length) (hj : j < T.length) (h : sym T i = sym T j) :
    T.drop i < T.drop j ↔ T.drop (nxt T.length i) < T.drop (nxt T.length j) := by
  by_cases h0 : sym T i = 0
  · have h1 := hT.eq_last hi h0
    have h2 := hT.eq_last hj (by omega)
    rw [h1, h2]
    simp
  · have hi' : i + 1 < T.length := by
      rcases Nat.lt_or_ge (i + 1) T.length with h1 | h1
      · exact h1
      · exact absurd (by rw [show i = T.length - 1 by omega]; exact hT.last) h0
    have hj' : j + 1 < T.length := by
      rcases Nat.lt_or_ge (j + 1) T.length with h1 | h1
      · exact h1
      · exact absurd (by rw [h, show j = T.length - 1 by omega]; exact hT.last) h0
    rw [nxt_small hi', nxt_small hj', drop_cons hi, drop_cons hj, List.cons_lt_cons_iff, h]
    simp

/-- In a list that is sorted by an irreflexive, asymmetric relation the index of an element is the number of smaller elements. -/
theorem index_eq_count {l : List Nat} {R : Nat → Nat → Prop} [DecidableRel R] (hs : l.Pairwise R) (hasym : ∀ a b, R a b → ¬ R b a) {i : Nat} (hi : i < l.length) :
    l.countP (fun a => decide (R a l[i])) = i ∧ ∀ P : Nat → Bool, l.countP (fun a => P a && decide (R a l[i])) = (l.take i).countP P := by
  have key : ∀ P : Nat → Bool, l.countP (fun a => P a && decide (R a l[i])) = (l.take i).countP P := by
    intro P
    have h0 : ∀ Q : Nat → Bool, l.countP Q = (l.take i).countP Q + (l.drop i).countP Q := by
      intro Q
      rw [← List.countP_append, List.take_append_drop]
    rw [h0]
    have h1 : (l.take i).countP (fun a => P a && decide (R a l[i])) = (l.take i).countP P := by
      apply List.countP_congr
      intro a ha
      obtain ⟨j, hj, rfl⟩ := List.mem_iff_getElem.1 ha
      rw [List.length_take] at hj
      rw [List.getElem_take]
      have := List.pairwise_iff_getElem.1 hs j i (by omega) hi (by omega)
      simp [this]
    have h2 : (l.drop i).countP (fun a => P a && decide (R a l[i])) = 0 := by
      rw [List.countP_eq_zero]
      intro a ha
      obtain ⟨j, hj, rfl⟩ := List.mem_iff_getElem.1 ha
      rw [List.length_drop] at hj
      rw [List.getElem_drop]
      have hn : ¬ R l[i + j] l[i] := by
        rcases Nat.eq_zero_or_pos j with h0 | h0
        · subst h0
          intro h
          exact hasym _ _ h h
        · exact hasym _ _ (List.pairwise_iff_getElem.1 hs i (i + j) hi (by omega) (by omega))
      simp [hn]
    rw [h1, h2, Nat.add_zero]
  refine ⟨?_, key⟩
  have := key (fun _ => true)
  simp only [Bool.true_and] at this
  rw [this]
  simp
  omega

namespace IsSA

variable {T SA : List Nat}

theorem length (h : IsSA T SA) : SA.length = T.length := by
  rw [h.1.length_eq, List.length_range]

theorem mem (h : IsSA T SA) {p : Nat} : p ∈ SA ↔ p < T.length := by
  rw [h.1.mem_iff, List.mem_range]

theorem nodup (h : IsSA T SA) : SA.Nodup := h.1.nodup_iff.2 List.nodup_range

theorem get_lt (h : IsSA T SA) {i : Nat} (hi : i < SA.length) : SA[i] < T.length := h.mem.1 (List.getElem_mem hi)

theorem sym_get_lt (h : IsSA T SA) {i : Nat} (hi : i < T.length) : sym SA i < T.length := by
  rw [sym_lt (by rw [h.length]; exact hi)]
  exact h.get_lt _

theorem inj (h : IsSA T SA) {i j : Nat} (hi : i < T.length) (hj : j < T.length) (he : sym SA i = sym SA j) : i = j := by
  have hi' : i < SA.length := by rw [h.length]; exact hi
  have hj' : j < SA.length := by rw [h.length]; exact hj
  rw [sym_lt hi', sym_lt hj'] at he
  exact (List.Nodup.getElem_inj_iff h.nodup).1 he

theorem surj (h : IsSA T SA) {p : Nat} (hp : p < T.length) : ∃ i, i < T.length ∧ sym SA i = p := by
  obtain ⟨i, hi, he⟩ := List.mem_iff_getElem.1 (h.mem.2 hp)
  exact ⟨i, by rw [← h.length]; exact hi, by rw [sym_lt hi]; exact he⟩

theorem sorted (h : IsSA T SA) {i j : Nat} (hij : i < j) (hj : j < T.length) : T.drop (sym SA i) < T.drop (sym SA j) := by
  have hj' : j < SA.length := by rw [h.length]; exact hj
  rw [sym_lt (by omega), sym_lt hj']
  exact List.pairwise_iff_getElem.1 h.2 i j (by omega) hj' hij

theorem bwt_perm (h : IsSA T SA) : (bwtOf T SA).Perm T := by
  have h1 : (bwtOf T SA).Perm ((List.range T.length).map (fun p => sym T (prv T.length p))) := h.1.map _
  have h2 : ((List.range T.length).map (fun p => sym T (prv T.length p))).Perm ((List.range T.length).map (sym T)) := by
    have := (map_prv_range T.length).map (sym T)
    rw [List.map_map] at this
    exact this
  rw [map_sym_range] at h2
  exact h1.trans h2

theorem bwt_length (h : IsSA T SA) : (bwtOf T SA).length = T.length := by rw [bwtOf, List.length_map, h.length]

theorem bwt_sym (h : IsSA T SA) {i : Nat} (hi : i < T.length) : sym (bwtOf T SA) i = sym T (prv T.length (sym SA i)) := by
  have hi' : i < SA.length := by rw [h.length]; exact hi
  rw [sym_lt (by rw [h.bwt_length]; exact hi), sym_lt hi']
  simp [bwtOf]

/-- The rank of a suffix is the number of smaller suffixes. -/
theorem rank_eq (h : IsSA T SA) {i : Nat} (hi : i < T.length) :
    (List.range T.length).countP (fun a => decide (T.drop a < T.drop (sym SA i))) = i := by
  have hi' : i < SA.length := by rw [h.length]; exact hi
  have := (index_eq_count h.2 (fun a b => List.lt_asymm) hi').1
  rw [h.1.countP_eq] at this
  rw [sym_lt hi']
  exact this

/-- The LF-mapping: the suffix preceding the one of rank `i` has rank (number of smaller symbols) + (number of equal symbols before `i` in the BWT). -/
theorem lf (hT : IsText T) (h : IsSA T SA) {i : Nat} (hi : i < T.length) (c : Nat) (hc : c = sym (bwtOf T SA) i) :
    smaller T c + ((bwtOf T SA).take i).count c < T.length ∧ sym SA (smaller T c + ((bwtOf T SA).take i).count c) = prv T.length (sym SA i) := by
  have hp := h.sym_get_lt hi
  have hi' : i < SA.length := by rw [h.length]; exact hi
  have hq : prv T.length (sym SA i) < T.length := prv_lt (by omega)
  obtain ⟨r, hr, hrq⟩ := h.surj hq
  have hcr := h.rank_eq hr
  rw [hrq] at hcr
  rw [h.bwt_sym hi] at hc
  generalize hQ : prv T.length (sym SA i) = q at *
  have hnq : nxt T.length q = sym SA i := by rw [← hQ, nxt_prv hp]
  -- split the smaller suffixes by their first symbol
  have h1 : (List.range T.length).countP (fun a => decide (T.drop a < T.drop q)) =
      (List.range T.length).countP (fun a => decide (sym T a < c)) +
      (List.range T.length).countP (fun a => decide (sym T a = c) && decide (T.drop (nxt T.length a) < T.drop (sym SA i))) := by
    have : ∀ l : List Nat, (∀ a ∈ l, a < T.length) → l.countP (fun a => decide (T.drop a < T.drop q)) =
      l.countP (fun a => decide (sym T a < c)) + l.countP (fun a => decide (sym T a = c) && decide (T.drop (nxt T.length a) < T.drop (sym SA i))) := by
      intro l
      induction l with
      | nil => intro _; rfl
      | cons a l ih =>
        intro hl
        rw [List.countP_cons, List.countP_cons, List.countP_cons, ih (fun x hx => hl x (List.mem_cons_of_mem _ hx))]
        have ha := hl a List.mem_cons_self
        have hh : (if decide (T.drop a < T.drop q) = true then 1 else 0) = (if decide (sym T a < c) = true then 1 else 0) +
            (if (decide (sym T a = c) && decide (T.drop (nxt T.length a) < T.drop (sym SA i))) = true then 1 else 0) := by
          rcases Nat.lt_trichotomy (sym T a) c with h2 | h2 | h2
          · have := drop_lt_of_sym ha hq (by rw [← hc]; exact h2)
            simp [this, h2, Nat.ne_of_lt h2]
          · have := drop_lt_nxt hT ha hq (by rw [← hc]; exact h2)
            rw [hnq] at this
            simp [this, h2]
          · have hn : ¬ T.drop a < T.drop q := fun hlt => by
              have := sym_le_of_drop ha hq hlt
              omega
            have h3 : ¬ sym T a < c := by omega
            have h4 : ¬ sym T a = c := by omega
            simp [hn, h3, h4]
        omega
    exact this _ (fun a ha => List.mem_range.1 ha)
  have h2 : (List.range T.length).countP (fun a => decide (sym T a < c)) = smaller T c := by
    conv_rhs => rw [smaller, ← map_sym_range T, List.countP_map]
    rfl
  have h3 : (List.range T.length).countP (fun a => decide (sym T a = c) && decide (T.drop (nxt T.length a) < T.drop (sym SA i))) = ((bwtOf T SA).take i).count c := by
    rw [← (map_prv_range T.length).countP_eq, List.countP_map]
    have h4 : (List.range T.length).countP ((fun a => decide (sym T a = c) && decide (T.drop (nxt T.length a) < T.drop (sym SA i))) ∘ prv T.length) =
        (List.range T.length).countP (fun a => decide (sym T (prv T.length a) = c) && decide (T.drop a < T.drop (sym SA i))) := by
      apply List.countP_congr
      intro a ha
      rw [Function.comp, nxt_prv (List.mem_range.1 ha)]
    rw [h4, ← h.1.countP_eq, sym_lt hi', (index_eq_count h.2 (fun a b => List.lt_asymm) hi').2 (fun a => decide (sym T (prv T.length a) = c)), bwtOf, ← List.map_take, List.count, List.countP_map]
    apply List.countP_congr
    intro a _
    simp
  rw [h1, h2, h3] at hcr
  rw [hcr]
  exact ⟨hr, hrq⟩

end IsSA

end Sdsl.Csa
