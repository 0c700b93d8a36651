/-
  The text and the reversed text: occurrences of a pattern and of the reversed pattern correspond to each other, and the symbol before the one is the symbol behind the other.
-/
import Verif.Bidir
import Verif.CsaNav

namespace Sdsl.Csa

/-- The reversed text with the sentinel at its end. -/
def revText (T : List Nat) : List Nat := T.dropLast.reverse ++ [0]

/-- The half-open interval `[lo, hi)` of the suffix array consists of the suffixes that start with `P`. -/
def IsRows (T SA P : List Nat) (lo hi : Nat) : Prop := lo ≤ hi ∧ hi ≤ T.length ∧ ∀ i, i < T.length → (lo ≤ i ∧ i < hi ↔ P <+: T.drop (sym SA i))

theorem prefix_iff {P T : List Nat} {x : Nat} (hx : x ≤ T.length) : P <+: T.drop x ↔ x + P.length ≤ T.length ∧ ∀ k (h : k < P.length), P[k] = sym T (x + k) := by
  constructor
  · intro h
    have hl := h.length_le
    rw [List.length_drop] at hl
    refine ⟨by omega, fun k hk => ?_⟩
    have := h.getElem hk
    rw [this, List.getElem_drop, sym_lt]
  · rintro ⟨h1, h2⟩
    rw [List.prefix_iff_eq_take]
    apply List.ext_getElem
    · rw [List.length_take, List.length_drop]; omega
    · intro k k1 k2
      rw [h2 k k1, List.getElem_take, List.getElem_drop, sym_lt]

theorem revText_length {T : List Nat} (hT : IsText T) : (revText T).length = T.length := by
  have := hT.pos
  simp [revText]; omega

theorem revText_text {T : List Nat} (hT : IsText T) : IsText (revText T) := by
  obtain ⟨U, rfl, hU⟩ := hT
  exact ⟨U.reverse, by simp [revText], fun c hc => hU c (List.mem_reverse.1 hc)⟩

theorem revText_revText {T : List Nat} (hT : IsText T) : revText (revText T) = T := by
  obtain ⟨U, rfl, hU⟩ := hT
  simp [revText]

theorem revText_perm {T : List Nat} (hT : IsText T) : (revText T).Perm T := by
  obtain ⟨U, rfl, hU⟩ := hT
  simp only [revText, List.dropLast_concat]
  exact (List.reverse_perm U).append_right _

theorem revText_sym {T : List Nat} (hT : IsText T) {y : Nat} (hy : y + 1 < T.length) : sym (revText T) y = sym T (T.length - 2 - y) := by
  obtain ⟨U, rfl, hU⟩ := hT
  simp only [List.length_append, List.length_singleton] at hy
  rw [sym_lt (by simp [revText]; omega), sym_lt (by simp; omega)]
  simp only [revText, List.dropLast_concat]
  rw [List.getElem_append_left (by simp; omega), List.getElem_append_left (by simp; omega), List.getElem_reverse]
  congr 1
  simp only [List.length_append, List.length_singleton]; omega

theorem zero_free_lt {T P : List Nat} (hT : IsText T) (h0 : 0 ∉ P) {x : Nat} (hx : x < T.length) (h : P <+: T.drop x) : x + P.length < T.length := by
  obtain ⟨h1, h2⟩ := (prefix_iff (by omega)).1 h
  rcases Nat.lt_or_ge (x + P.length) T.length with h3 | h3
  · exact h3
  · exfalso
    have h4 : 0 < P.length := by omega
    have := h2 (P.length - 1) (by omega)
    rw [show x + (P.length - 1) = T.length - 1 by omega, hT.last] at this
    exact h0 (this ▸ List.getElem_mem _)

/-- An occurrence in the text and the occurrence of the reversed pattern in the reversed text. -/
theorem rev_prefix {T P : List Nat} (hT : IsText T) {x : Nat} (hx : x + P.length < T.length) : P.reverse <+: (revText T).drop (T.length - 1 - P.length - x) ↔ P <+: T.drop x := by
  have hl := revText_length hT
  have hr := P.length_reverse
  rw [prefix_iff (by omega), prefix_iff (by omega), hl]
  constructor
  · rintro ⟨_, h2⟩
    refine ⟨by omega, fun k hk => ?_⟩
    have := h2 (P.length - 1 - k) (by omega)
    rw [List.getElem_reverse, revText_sym hT (by omega)] at this
    rw [show T.length - 2 - (T.length - 1 - P.length - x + (P.length - 1 - k)) = x + k by omega] at this
    rw [← this]
    congr 1
    omega
  · rintro ⟨_, h2⟩
    refine ⟨by omega, fun k hk => ?_⟩
    rw [List.getElem_reverse, revText_sym hT (by omega), h2]
    congr 1
    omega

theorem rev_next {T : List Nat} (hT : IsText T) {x : Nat} (hx : x < T.length) : sym (revText T) (T.length - 1 - x) = sym T (prv T.length x) := by
  by_cases e : x = 0
  · subst e
    rw [prv_zero hx, hT.last, Nat.sub_zero, ← revText_length hT, (revText_text hT).last]
  · rw [revText_sym hT (by omega), prv_pos hx (by omega)]
    congr 1
    omega

/-! ### Counting -/

theorem countP_sa {T SA : List Nat} (h : IsSA T SA) (f : Nat → Bool) : (List.range T.length).countP (fun i => f (sym SA i)) = (List.range T.length).countP f := by
  have h1 := h.1.countP_eq f
  rw [← h1]
  conv_rhs => rw [← map_sym_range SA, List.countP_map, h.length]
  rfl

theorem countP_slice (L : List Nat) (p : Nat → Bool) (i : Nat) : ∀ j, j ≤ L.length → ((L.take j).drop i).countP p = (List.range j).countP (fun k => decide (i ≤ k) && p (sym L k)) := by
  intro j
  induction j with
  | zero => intro _; simp
  | succ j ih =>
    intro hj
    rw [List.range_succ, List.countP_append, ← ih (by omega), List.countP_singleton, List.take_add_one, List.getElem?_eq_getElem (by omega), Option.toList_some]
    by_cases e : i ≤ j
    · rw [List.drop_append_of_le_length (by rw [List.length_take]; omega), List.countP_append, List.countP_singleton, sym_lt (by omega)]
      simp [e]
    · rw [List.drop_eq_nil_of_le (by simp; omega), List.drop_eq_nil_of_le (by simp; omega)]
      simp [e]

theorem countP_range_le {n : Nat} (f : Nat → Bool) : ∀ m, n ≤ m → (∀ k, n ≤ k → k < m → f k = false) → (List.range m).countP f = (List.range n).countP f := by
  intro m hm h
  obtain ⟨d, rfl⟩ := Nat.exists_eq_add_of_le hm
  rw [List.range_add, List.countP_append]
  have : ((List.range d).map (n + ·)).countP f = 0 := by
    rw [List.countP_eq_zero]
    intro a ha
    obtain ⟨k, hk, rfl⟩ := List.mem_map.1 ha
    have := List.mem_range.1 hk
    rw [h (n + k) (by omega) (by omega)]
    simp
  omega

theorem countP_rev (N : Nat) (f : Nat → Bool) : (List.range N).countP (fun y => f (N - 1 - y)) = (List.range N).countP f := by
  have hp : ((List.range N).map (fun y => N - 1 - y)).Perm (List.range N) := by
    rw [List.perm_ext_iff_of_nodup]
    · intro a
      rw [List.mem_map, List.mem_range]
      constructor
      · rintro ⟨b, hb, rfl⟩
        have := List.mem_range.1 hb
        omega
      · intro ha
        exact ⟨N - 1 - a, List.mem_range.2 (by omega), by omega⟩
    · rw [List.nodup_map_iff_inj_on List.nodup_range]
      intro a ha b hb hab
      have := List.mem_range.1 ha
      have := List.mem_range.1 hb
      omega
    · exact List.nodup_range
  rw [← hp.countP_eq f, List.countP_map]
  rfl

/-- As many occurrences of `P` are preceded by a symbol with a property as occurrences of the reversed pattern in the reversed text are followed by one. -/
theorem count_sides {T P : List Nat} (hT : IsText T) (h0 : 0 ∉ P) (p : Nat → Bool) :
    (List.range T.length).countP (fun y => decide (P.reverse <+: (revText T).drop y) && p (sym (revText T) (y + P.length))) =
      (List.range T.length).countP (fun x => decide (P <+: T.drop x) && p (sym T (prv T.length x))) := by
  have h0' : 0 ∉ P.reverse := fun h => h0 (List.mem_reverse.1 h)
  have hl := revText_length hT
  rw [countP_range_le (n := T.length - P.length) _ T.length (by omega), countP_range_le (n := T.length - P.length) (m := T.length) _ (by omega)]
  · refine Eq.trans ?_ (countP_rev _ _)
    apply List.countP_congr
    intro y hy
    have hy := List.mem_range.1 hy
    have h1 := rev_prefix (P := P) hT (x := T.length - P.length - 1 - y) (by omega)
    have h2 := rev_next hT (x := T.length - P.length - 1 - y) (by omega)
    rw [show T.length - 1 - P.length - (T.length - P.length - 1 - y) = y by omega] at h1
    rw [show T.length - 1 - (T.length - P.length - 1 - y) = y + P.length by omega] at h2
    simp only [h1, h2]
  · intro k k1 k2
    simp only [Bool.and_eq_false_imp, decide_eq_true_eq]
    intro h
    have := zero_free_lt hT h0 k2 h
    omega
  · intro k k1 k2
    simp only [Bool.and_eq_false_imp, decide_eq_true_eq]
    intro h
    have := zero_free_lt (revText_text hT) h0' (by omega) h
    rw [List.length_reverse] at this
    omega

/-- A property that holds for the first elements of an interval holds for as many as there are. -/
theorem down_closed {g : Nat → Bool} {lo : Nat} : ∀ {hi : Nat}, lo ≤ hi → (∀ i j, lo ≤ i → i ≤ j → j < hi → g j = true → g i = true) →
    ∀ {k}, (List.range hi).countP (fun i => decide (lo ≤ i) && g i) = k → k ≤ hi - lo ∧ ∀ i, lo ≤ i → i < hi → (g i = true ↔ i < lo + k) := by
  intro hi
  induction hi with
  | zero => intro _ _ k hk; simp at hk; exact ⟨by omega, fun i _ h => by omega⟩
  | succ hi ih =>
    intro h1 h2 k hk
    rw [List.range_succ, List.countP_append, List.countP_singleton] at hk
    by_cases e : lo ≤ hi
    · obtain ⟨b1, b2⟩ := ih e (fun i j a b c d => h2 i j a b (by omega) d) rfl
      simp only [e, decide_true, Bool.true_and] at hk
      cases eg : g hi with
      | true =>
        rw [eg, if_pos rfl] at hk
        have hall : (List.range hi).countP (fun i => decide (lo ≤ i) && g i) = hi - lo := by
          by_cases e3 : lo = hi
          · omega
          · have := (b2 (hi - 1) (by omega) (by omega)).1 (h2 _ hi (by omega) (by omega) (by omega) eg)
            omega
        refine ⟨by omega, fun i i1 i2 => ⟨fun _ => by omega, fun _ => h2 i hi i1 (by omega) (by omega) eg⟩⟩
      | false =>
        rw [eg, if_neg (by simp)] at hk
        refine ⟨by omega, fun i i1 i2 => ?_⟩
        by_cases e2 : i = hi
        · subst e2; rw [eg]; simp; omega
        · rw [b2 i i1 (by omega), ← hk, Nat.add_zero]
    · have : (List.range hi).countP (fun i => decide (lo ≤ i) && g i) = 0 := by
        rw [List.countP_eq_zero]
        intro a ha
        have := List.mem_range.1 ha
        simp; omega
      rw [this] at hk
      have e' : lo = hi + 1 := by omega
      rw [if_neg (by simp; omega)] at hk
      exact ⟨by omega, fun i i1 i2 => by omega⟩

theorem append_lt {P x y : List Nat} (h : P ++ x < P ++ y) : x < y := by
  induction P with
  | nil => exact h
  | cons a P ih =>
    rw [List.cons_append, List.cons_append, List.cons_lt_cons_iff] at h
    rcases h with h | ⟨_, h⟩
    · omega
    · exact ih h

theorem drop_lt_add {T P : List Nat} {a b : Nat} (h : T.drop a < T.drop b) (ha : P <+: T.drop a) (hb : P <+: T.drop b) : T.drop (a + P.length) < T.drop (b + P.length) := by
  obtain ⟨x, hx⟩ := ha
  obtain ⟨y, hy⟩ := hb
  rw [← hx, ← hy] at h
  have h1 := append_lt h
  rw [← List.drop_drop, ← List.drop_drop, ← hx, ← hy, List.drop_left, List.drop_left]
  exact h1

end Sdsl.Csa
