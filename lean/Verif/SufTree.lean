/-
  Lemmas about LCP intervals and path labels.
-/
import Verif.SpecSufTree
import Verif.CstSct3Ids

namespace Sdsl.SufTree

open Csa Props Spec CstSct3

/-- A prefix of two strings is a prefix of everything between them. -/
theorem prefix_between : ∀ {w x y z : List Nat}, w <+: x → w <+: z → x < y → y < z → w <+: y
  | [], _, _, _, _, _, _, _ => List.nil_prefix
  | c :: w, x, y, z, hx, hz, h1, h2 => by
    obtain ⟨x', rfl⟩ := hx
    obtain ⟨z', rfl⟩ := hz
    cases y with
    | nil => exact absurd h1 (by simp)
    | cons a y =>
      rw [List.cons_append, List.cons_lt_cons_iff] at h1 h2
      have hac : a = c := by omega
      subst hac
      rw [List.cons_prefix_cons]
      exact ⟨rfl, prefix_between (List.prefix_append w x') (List.prefix_append w z') (by rcases h1 with h | ⟨_, h⟩; omega; exact h) (by rcases h2 with h | ⟨_, h⟩; omega; exact h)⟩

section
variable {T SA L : List Nat}

theorem suf_between (hS : IsSA T SA) {w : List Nat} {i k j : Nat} (h1 : i ≤ k) (h2 : k ≤ j) (h3 : j < T.length) (hi : w <+: suf T SA i) (hj : w <+: suf T SA j) : w <+: suf T SA k := by
  rcases Nat.eq_or_lt_of_le h1 with e | e
  · rw [← e]; exact hi
  · rcases Nat.eq_or_lt_of_le h2 with f | f
    · rw [f]; exact hj
    · exact prefix_between hi hj (hS.sorted e (by omega)) (hS.sorted f h3)

theorem lcp_at (hL : IsLcpArray T SA L) {k : Nat} (h0 : 0 < k) (hk : k < T.length) : IsLcp (suf T SA (k - 1)) (suf T SA k) (L.getD k 0) := by
  obtain ⟨l, l1, l2⟩ := hL.2.2 (k - 1) (by omega)
  rw [show k - 1 + 1 = k by omega] at l1 l2
  rw [List.getD_eq_getElem?_getD, l1]
  exact l2

/-- A common prefix of two rows bounds the LCP values between them. -/
theorem le_lcp (hS : IsSA T SA) (hL : IsLcpArray T SA L) {w : List Nat} {i j k : Nat} (h1 : i < k) (h2 : k ≤ j) (h3 : j < T.length) (hi : w <+: suf T SA i) (hj : w <+: suf T SA j) : w.length ≤ L.getD k 0 :=
  (lcp_at hL (by omega) (by omega)).2 w (suf_between hS (by omega) (by omega) h3 hi hj) (suf_between hS (by omega) h2 h3 hi hj)

/-- Going along large LCP values keeps a prefix: to the right. -/
theorem prefix_right (hL : IsLcpArray T SA L) {w : List Nat} {i : Nat} (hi : w <+: suf T SA i) : ∀ t, i + t < T.length → (∀ k, i < k → k ≤ i + t → w.length ≤ L.getD k 0) → w <+: suf T SA (i + t)
  | 0, _, _ => hi
  | t + 1, h1, h2 => by
    have ih := prefix_right hL hi t (by omega) (fun k k1 k2 => h2 k k1 (by omega))
    obtain ⟨⟨p, p1, p2, p3⟩, _⟩ := lcp_at hL (k := i + (t + 1)) (by omega) h1
    rw [show i + (t + 1) - 1 = i + t by omega] at p1
    have h3 := h2 (i + (t + 1)) (by omega) (by omega)
    exact (List.prefix_of_prefix_length_le ih p1 (by omega)).trans p2

/-- And to the left. -/
theorem prefix_left (hL : IsLcpArray T SA L) {w : List Nat} {j : Nat} (hjn : j < T.length) (hj : w <+: suf T SA j) : ∀ t, t ≤ j → (∀ k, j - t < k → k ≤ j → w.length ≤ L.getD k 0) → w <+: suf T SA (j - t)
  | 0, _, _ => hj
  | t + 1, h1, h2 => by
    have ih := prefix_left hL hjn hj t (by omega) (fun k k1 k2 => h2 k (by omega) k2)
    obtain ⟨⟨p, p1, p2, p3⟩, _⟩ := lcp_at hL (k := j - t) (by omega) (by omega)
    rw [show j - t - 1 = j - (t + 1) by omega] at p1
    have h3 := h2 (j - t) (by omega) (by omega)
    exact (List.prefix_of_prefix_length_le ih p2 (by omega)).trans p1

/-- A row with prefix `w` lies in an interval of rows with this prefix. -/
theorem occ_exists (hS : IsSA T SA) {w : List Nat} {k : Nat} (hk : k < T.length) (hw : w <+: suf T SA k) : ∃ i j, IsOcc T SA w i j ∧ i ≤ k ∧ k ≤ j := by
  have hlo : ∀ t, t ≤ k → ∃ i, i ≤ t ∧ (∀ x, x < i → ¬ w <+: suf T SA x) ∧ (i < t → w <+: suf T SA i) := by
    intro t
    induction t with
    | zero => intro _; exact ⟨0, Nat.le_refl _, fun x hx => by omega, fun h => by omega⟩
    | succ t ih =>
      intro ht
      obtain ⟨i, i1, i2, i3⟩ := ih (by omega)
      rcases Nat.lt_or_ge i t with c | c
      · exact ⟨i, by omega, i2, fun _ => i3 c⟩
      · have : i = t := by omega
        subst this
        by_cases h : w <+: suf T SA i
        · exact ⟨i, by omega, i2, fun _ => h⟩
        · refine ⟨i + 1, Nat.le_refl _, fun x hx => ?_, fun hh => by omega⟩
          rcases Nat.eq_or_lt_of_le (Nat.le_of_lt_succ hx) with e | e
          · rw [e]; exact h
          · exact i2 x e
  have hhi : ∀ t, k + t < T.length → ∃ j, k ≤ j ∧ j ≤ k + t ∧ w <+: suf T SA j ∧ ∀ x, j < x → x ≤ k + t → ¬ w <+: suf T SA x := by
    intro t
    induction t with
    | zero => intro _; exact ⟨k, Nat.le_refl _, by omega, hw, fun x h1 h2 => by omega⟩
    | succ t ih =>
      intro ht
      obtain ⟨j, j1, j2, j3, j4⟩ := ih (by omega)
      by_cases h : w <+: suf T SA (k + (t + 1))
      · exact ⟨k + (t + 1), by omega, Nat.le_refl _, h, fun x h1 h2 => by omega⟩
      · refine ⟨j, j1, by omega, j3, fun x h1 h2 => ?_⟩
        rcases Nat.eq_or_lt_of_le h2 with e | e
        · rw [e]; exact h
        · exact j4 x h1 (by omega)
  obtain ⟨i, i1, i2, i3⟩ := hlo k (Nat.le_refl _)
  obtain ⟨j, j1, j2, j3, j4⟩ := hhi (T.length - 1 - k) (by omega)
  have hi : w <+: suf T SA i := by
    rcases Nat.lt_or_ge i k with c | c
    · exact i3 c
    · rw [show i = k by omega]; exact hw
  refine ⟨i, j, ⟨by omega, by omega, fun x hx => ⟨fun h => suf_between hS h.1 h.2 (by omega) hi j3, fun h => ?_⟩⟩, i1, j1⟩
  constructor
  · rcases Nat.lt_or_ge x i with c | c
    · exact absurd h (i2 x c)
    · exact c
  · rcases Nat.lt_or_ge j x with c | c
    · exact absurd h (j4 x c (by omega))
    · exact c

/-- Rows with a common prefix form an LCP interval. -/
theorem occ_node (hS : IsSA T SA) (hL : IsLcpArray T SA L) {w : List Nat} {i j : Nat} (h : IsOcc T SA w i j) : IsNode L i j := by
  obtain ⟨h1, h2, h3⟩ := h
  have hln := hL.1
  have hi := (h3 i (by omega)).1 ⟨Nat.le_refl _, h1⟩
  have hj := (h3 j h2).1 ⟨h1, Nat.le_refl _⟩
  refine ⟨h1, by omega, fun k k1 k2 => ?_⟩
  have hk := le_lcp hS hL k1 k2 h2 hi hj
  constructor
  · rcases Nat.eq_zero_or_pos i with c | c
    · exact Or.inl c
    · refine Or.inr ?_
      rcases Nat.lt_or_ge (L.getD i 0) (L.getD k 0) with d | d
      · exact d
      · have := prefix_left hL (by omega) hi 1 (by omega) (fun y y1 y2 => by rw [show y = i by omega]; omega)
        have := (h3 (i - 1) (by omega)).2 this
        omega
  · rcases Nat.lt_or_ge (j + 1) T.length with c | c
    · refine Or.inr ?_
      rcases Nat.lt_or_ge (L.getD (j + 1) 0) (L.getD k 0) with d | d
      · exact d
      · have := prefix_right hL hj 1 c (fun y y1 y2 => by rw [show y = j + 1 by omega]; omega)
        have := (h3 (j + 1) c).2 this
        omega
    · exact Or.inl (by omega)

/-- The label of an interval exists. -/
theorem label_exists (hS : IsSA T SA) {i j : Nat} (hij : i ≤ j) (hj : j < T.length) : ∃ w, IsLabel T SA i j w := by
  obtain ⟨⟨p, p1, p2, p3⟩, h⟩ := isLcp_lcp (suf T SA i) (suf T SA j)
  refine ⟨p, fun k k1 k2 => suf_between hS k1 k2 hj p1 p2, fun u hu => ?_⟩
  have := h u (hu i (Nat.le_refl _) hij) (hu j hij (Nat.le_refl _))
  omega

theorem label_unique {i j : Nat} (hij : i ≤ j) {w w' : List Nat} (h : IsLabel T SA i j w) (h' : IsLabel T SA i j w') : w = w' := by
  have h1 := h.2 w' h'.1
  have h2 := h'.2 w h.1
  exact (List.prefix_of_prefix_length_le (h.1 i (Nat.le_refl _) hij) (h'.1 i (Nat.le_refl _) hij) h2).eq_of_length (by omega)

theorem suf_len {k : Nat} : (suf T SA k).length = T.length - sym SA k := List.length_drop

/-- The label of a single row is the suffix. -/
theorem label_leaf {i : Nat} : IsLabel T SA i i (suf T SA i) :=
  ⟨fun k k1 k2 => by rw [show k = i by omega], fun u hu => (hu i (Nat.le_refl _) (Nat.le_refl _)).length_le⟩

/-- Suffixes are not prefixes of each other: they end with the sentinel. -/
theorem suf_prefix (hT : IsText T) (hS : IsSA T SA) {i k : Nat} (hi : i < T.length) (hk : k < T.length) (h : suf T SA i <+: suf T SA k) : i = k := by
  have hi' := hS.sym_get_lt hi
  have hk' := hS.sym_get_lt hk
  have hle := h.length_le
  rw [suf_len, suf_len] at hle
  have h1 : (suf T SA i)[T.length - 1 - sym SA i]? = (suf T SA k)[T.length - 1 - sym SA i]? := by
    obtain ⟨z, hz⟩ := h
    rw [← hz, List.getElem?_append_left (by rw [suf_len]; omega)]
  rw [List.getElem?_drop, List.getElem?_drop, sym_getElem? (by omega), sym_getElem? (by omega), show sym SA i + (T.length - 1 - sym SA i) = T.length - 1 by omega, hT.last] at h1
  have := hT.eq_last (i := sym SA k + (T.length - 1 - sym SA i)) (by omega) (Option.some.inj h1).symm
  exact hS.inj hi hk (by omega)

/-- The smallest value of an LCP interval is the length of its label. -/
theorem label_len (hS : IsSA T SA) (hL : IsLcpArray T SA L) {i j d : Nat} (hij : i < j) (hj : j < T.length) {w : List Nat} (h : IsLabel T SA i j w) (h1 : ∃ k, i < k ∧ k ≤ j ∧ L.getD k 0 = d)
    (h2 : ∀ k, i < k → k ≤ j → d ≤ L.getD k 0) : w.length = d := by
  obtain ⟨k, k1, k2, k3⟩ := h1
  have h3 := le_lcp hS hL k1 k2 hj (h.1 i (Nat.le_refl _) (by omega)) (h.1 j (by omega) (Nat.le_refl _))
  obtain ⟨⟨p, p1, p2, p3⟩, _⟩ := lcp_at hL (k := k) (by omega) (by omega)
  obtain ⟨u, hu, hul⟩ : ∃ u, u <+: suf T SA k ∧ u.length = d := ⟨p, p2, by omega⟩
  have h4 := h.2 u (fun y y1 y2 => by
    rcases Nat.lt_or_ge y k with c | c
    · have := prefix_left hL (by omega) hu (k - y) (by omega) (fun z z1 z2 => by rw [hul]; exact h2 z (by omega) (by omega))
      rwa [show k - (k - y) = y by omega] at this
    · have := prefix_right hL hu (y - k) (by omega) (fun z z1 z2 => by rw [hul]; exact h2 z (by omega) (by omega))
      rwa [show k + (y - k) = y by omega] at this)
  omega

/-- An LCP interval has a smallest value. -/
theorem node_min {i j : Nat} (hij : i < j) : ∃ d, (∃ k, i < k ∧ k ≤ j ∧ L.getD k 0 = d) ∧ ∀ k, i < k → k ≤ j → d ≤ L.getD k 0 := by
  have : ∀ t, ∃ d, (∃ k, i < k ∧ k ≤ i + 1 + t ∧ L.getD k 0 = d) ∧ ∀ k, i < k → k ≤ i + 1 + t → d ≤ L.getD k 0 := by
    intro t
    induction t with
    | zero => exact ⟨_, ⟨i + 1, by omega, by omega, rfl⟩, fun k k1 k2 => by rw [show k = i + 1 by omega]⟩
    | succ t ih =>
      obtain ⟨d, ⟨k, k1, k2, k3⟩, h⟩ := ih
      rcases Nat.lt_or_ge (L.getD (i + 1 + (t + 1)) 0) d with c | c
      · refine ⟨_, ⟨i + 1 + (t + 1), by omega, Nat.le_refl _, rfl⟩, fun y y1 y2 => ?_⟩
        rcases Nat.eq_or_lt_of_le y2 with e | e
        · rw [e]
        · have := h y y1 (by omega); omega
      · refine ⟨d, ⟨k, k1, by omega, k3⟩, fun y y1 y2 => ?_⟩
        rcases Nat.eq_or_lt_of_le y2 with e | e
        · rw [e]; exact c
        · exact h y y1 (by omega)
  have := this (j - i - 1)
  rwa [show i + 1 + (j - i - 1) = j by omega] at this

/-- An LCP interval consists of the rows that start with its label. -/
theorem node_occ (hT : IsText T) (hS : IsSA T SA) (hL : IsLcpArray T SA L) {i j : Nat} (hn : IsNode L i j) {w : List Nat} (h : IsLabel T SA i j w) : IsOcc T SA w i j := by
  have hln := hL.1
  have hij := hn.1
  have hj := hn.2.1
  refine ⟨hij, by omega, fun k hk => ⟨fun hh => h.1 k hh.1 hh.2, fun hw => ?_⟩⟩
  rcases Nat.eq_or_lt_of_le hij with e | e
  · subst e
    have : w = suf T SA i := label_unique (Nat.le_refl _) h label_leaf
    rw [this] at hw
    have := suf_prefix hT hS (by omega) hk hw
    omega
  · obtain ⟨d, h1, h2⟩ := node_min (L := L) e
    have hd := label_len hS hL e (by omega) h h1 h2
    obtain ⟨m, m1, m2, m3⟩ := h1
    have hm := hn.2.2 m m1 m2
    constructor
    · rcases Nat.lt_or_ge k i with c | c
      · have := le_lcp hS hL c (Nat.le_refl i) (by omega) hw (h.1 i (Nat.le_refl _) hij)
        omega
      · exact c
    · rcases Nat.lt_or_ge j k with c | c
      · have := le_lcp hS hL (k := j + 1) (by omega) c hk (h.1 j hij (Nat.le_refl _)) hw
        omega
      · exact c

end

end Sdsl.SufTree
