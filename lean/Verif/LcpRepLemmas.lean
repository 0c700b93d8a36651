/-
  Correctness of `lcp_bitcompressed`, `lcp_byte`, `lcp_wt` and `lcp_support_sada`.
-/
import Verif.LcpRep
import Verif.LcpLemmas
import Verif.CsaNew

namespace Sdsl.LcpRep

open Csa Sdsl.Spec

/-! ### Copies -/

theorem copyLoop_spec {L : List Nat} : ∀ (ps : List Nat) (i : Nat) (a : Arr), L.drop i = ps → i ≤ L.length → a.xs.length = L.length →
    (∀ x ∈ L, x < 2 ^ a.width) → (∀ j, j < i → a.get j = some (sym L j)) →
    ∃ b, copyLoop ps i a = some b ∧ b.xs.length = L.length ∧ ∀ j, j < L.length → b.get j = some (sym L j)
  | [], i, a, h1, h2, h3, _, h5 => by
    have hi : i = L.length := by
      have := congrArg List.length h1
      rw [List.length_drop, List.length_nil] at this
      omega
    exact ⟨a, rfl, h3, fun j hj => h5 j (by omega)⟩
  | p :: ps, i, a, h1, h2, h3, h4, h5 => by
    obtain ⟨g1, g2, g3⟩ := drop_eq h1
    obtain ⟨b, b1, b2, b3, b4⟩ := set_spec (a := a) (i := i) (x := p) (by omega) (by
      apply h4; rw [g2]; exact sym_mem g1)
    rw [copyLoop, b1, sbind]
    refine copyLoop_spec ps (i + 1) b g3 (by omega) (by omega) (by rw [b3]; exact h4) (fun j hj => ?_)
    rw [b4]
    by_cases e : j = i
    · rw [if_pos e, e, g2]
    · rw [if_neg e, h5 j (by omega)]

theorem xs_eq {a : Arr} {L : List Nat} (hl : a.xs.length = L.length) (h : ∀ j, j < L.length → a.get j = some (sym L j)) : a.xs = L := by
  apply List.ext_getElem? 
  intro j
  rcases Nat.lt_or_ge j L.length with c | c
  · rw [sym_getElem? c]; exact h j c
  · rw [List.getElem?_eq_none (by omega), List.getElem?_eq_none c]

theorem sym_min {L : List Nat} {j : Nat} (hj : j < L.length) : sym (L.map (min · 255)) j = min (sym L j) 255 := by
  rw [sym, List.getD_eq_getElem?_getD, List.getElem?_map, sym_getElem? hj]; rfl

/-! ### Large values -/

/-- Number of large values among the first `j`. -/
def lg (L : List Nat) (j : Nat) : Nat := (L.take j).countP (fun x => decide (255 ≤ x))

theorem lg_zero (L : List Nat) : lg L 0 = 0 := rfl

theorem lg_succ {L : List Nat} {j : Nat} (h : j < L.length) : lg L (j + 1) = lg L j + if 255 ≤ sym L j then 1 else 0 := by
  rw [lg, List.take_add_one, List.countP_append, sym_getElem? h, lg]
  simp [List.countP_cons]

theorem lg_mono {L : List Nat} {i j : Nat} (h : i ≤ j) : lg L i ≤ lg L j := by
  rw [lg, lg]
  exact List.Sublist.countP_le (List.take_sublist_take_left h)

theorem lg_lt {L : List Nat} {i j : Nat} (h : i < j) (hj : j ≤ L.length) (hb : 255 ≤ sym L i) : lg L i < lg L j := by
  have h1 := lg_succ (L := L) (j := i) (by omega)
  rw [if_pos hb] at h1
  have := lg_mono (L := L) (show i + 1 ≤ j from h)
  omega

/-- Every number below the total is that of a large value. -/
theorem lg_surj {L : List Nat} : ∀ (j t : Nat), j ≤ L.length → t < lg L j → ∃ i, i < j ∧ 255 ≤ sym L i ∧ lg L i = t
  | 0, t, _, h => by rw [lg_zero] at h; omega
  | j + 1, t, hj, h => by
    rw [lg_succ (by omega)] at h
    by_cases c : t < lg L j
    · obtain ⟨i, h1, h2⟩ := lg_surj j t (by omega) c
      exact ⟨i, by omega, h2⟩
    · by_cases e : 255 ≤ sym L j
      · rw [if_pos e] at h; exact ⟨j, by omega, e, by omega⟩
      · rw [if_neg e] at h; omega

theorem smallLoop_spec {L : List Nat} (hL : ∀ x ∈ L, x < 2 ^ 64) (hn : L.length < 2 ^ 64) : ∀ (ps : List Nat) (i : Nat) (a : Arr) (maxL maxI sum : Nat), L.drop i = ps → i ≤ L.length → a.xs.length = L.length → a.width = 8 →
    (∀ j, j < i → a.get j = some (min (sym L j) 255)) → maxL < 2 ^ 64 → maxI < 2 ^ 64 → (∀ j, j < i → 255 ≤ sym L j → sym L j ≤ maxL ∧ j ≤ maxI) → sum = lg L i →
    ∃ b mL mI, smallLoop ps i a maxL maxI sum = some (b, mL, mI, lg L L.length) ∧ b.xs = L.map (min · 255) ∧ mL < 2 ^ 64 ∧ mI < 2 ^ 64 ∧
      ∀ j, j < L.length → 255 ≤ sym L j → sym L j ≤ mL ∧ j ≤ mI
  | [], i, a, mL, mI, sum, h1, h2, h3, _, h5, h6, h7, h8, h9 => by
    have hi : i = L.length := by
      have := congrArg List.length h1
      rw [List.length_drop, List.length_nil] at this
      omega
    subst hi
    refine ⟨a, mL, mI, by rw [smallLoop, h9], ?_, h6, h7, h8⟩
    apply xs_eq (by rw [h3, List.length_map])
    intro j hj
    rw [List.length_map] at hj
    rw [h5 j hj, sym_min hj]
  | p :: ps, i, a, mL, mI, sum, h1, h2, h3, h4, h5, h6, h7, h8, h9 => by
    obtain ⟨g1, g2, g3⟩ := drop_eq h1
    have hp := hL _ (sym_mem g1)
    rw [smallLoop]
    by_cases c : p < 255
    · obtain ⟨b, b1, b2, b3, b4⟩ := set_spec (a := a) (i := i) (x := p) (by omega) (by rw [h4]; omega)
      rw [if_pos c, b1, sbind]
      refine smallLoop_spec hL hn ps (i + 1) b mL mI sum g3 (by omega) (by omega) (by omega) (fun j hj => ?_) h6 h7 (fun j hj hb => ?_) ?_
      · rw [b4]
        by_cases e : j = i
        · rw [if_pos e, e, ← g2, Nat.min_eq_left (by omega)]
        · rw [if_neg e, h5 j (by omega)]
      · by_cases e : j = i
        · rw [e, ← g2] at hb; omega
        · exact h8 j (by omega) hb
      · rw [lg_succ g1, if_neg (by omega), h9]; rfl
    · obtain ⟨b, b1, b2, b3, b4⟩ := set_spec (a := a) (i := i) (x := 255) (by omega) (by rw [h4]; omega)
      rw [if_neg c, b1, sbind]
      refine smallLoop_spec hL hn ps (i + 1) b _ _ _ g3 (by omega) (by omega) (by omega) (fun j hj => ?_) ?_ (by omega) (fun j hj hb => ?_) ?_
      · rw [b4]
        by_cases e : j = i
        · rw [if_pos e, e, ← g2, Nat.min_eq_right (by omega)]
        · rw [if_neg e, h5 j (by omega)]
      · split <;> omega
      · by_cases e : j = i
        · rw [e, ← g2]; constructor
          · split <;> omega
          · omega
        · have := h8 j (by omega) hb
          constructor
          · split <;> omega
          · omega
      · rw [lg_succ g1, if_pos (by omega), h9]

theorem bigVals_spec {L : List Nat} : ∀ (ps : List Nat) (i : Nat) (b : Arr), L.drop i = ps → i ≤ L.length → b.xs.length = lg L L.length →
    (∀ j, j < L.length → 255 ≤ sym L j → sym L j < 2 ^ b.width) → (∀ j, j < i → 255 ≤ sym L j → b.get (lg L j) = some (sym L j)) →
    ∃ b', bigVals ps (lg L i) b = some b' ∧ ∀ j, j < L.length → 255 ≤ sym L j → b'.get (lg L j) = some (sym L j)
  | [], i, b, h1, h2, h3, _, h5 => by
    have hi : i = L.length := by
      have := congrArg List.length h1
      rw [List.length_drop, List.length_nil] at this
      omega
    exact ⟨b, rfl, hi ▸ h5⟩
  | p :: ps, i, b, h1, h2, h3, h4, h5 => by
    obtain ⟨g1, g2, g3⟩ := drop_eq h1
    rw [bigVals]
    by_cases c : p ≥ 255
    · rw [g2] at c
      obtain ⟨b', b1, b2, b3, b4⟩ := set_spec (a := b) (i := lg L i) (x := p) (by rw [h3]; exact lg_lt g1 (Nat.le_refl _) c) (by rw [g2]; exact h4 i g1 c)
      rw [if_pos (by rw [g2]; exact c), b1, sbind]
      have e : lg L i + 1 = lg L (i + 1) := by rw [lg_succ g1, if_pos c]
      rw [e]
      refine bigVals_spec ps (i + 1) b' g3 (by omega) (by omega) (by rw [b3]; exact h4) (fun j hj hb => ?_)
      rw [b4]
      by_cases e : j = i
      · rw [e, if_pos rfl, g2]
      · rw [if_neg (by have := lg_lt (L := L) (show j < i by omega) h2 hb; omega), h5 j (by omega) hb]
    · rw [if_neg c]
      have e : lg L i = lg L (i + 1) := by rw [lg_succ g1, if_neg (by omega)]; rfl
      rw [e]
      refine bigVals_spec ps (i + 1) b g3 (by omega) h3 h4 (fun j hj hb => ?_)
      by_cases e : j = i
      · rw [e, ← g2] at hb; omega
      · exact h5 j (by omega) hb

theorem bigLoop_spec {L : List Nat} : ∀ (ps : List Nat) (i : Nat) (b x : Arr), L.drop i = ps → i ≤ L.length → b.xs.length = lg L L.length → x.xs.length = lg L L.length →
    (∀ j, j < L.length → 255 ≤ sym L j → sym L j < 2 ^ b.width ∧ j < 2 ^ x.width) → (∀ j, j < i → 255 ≤ sym L j → b.get (lg L j) = some (sym L j) ∧ x.get (lg L j) = some j) →
    ∃ b' x', bigLoop ps i (lg L i) b x = some (b', x') ∧ x'.xs.length = lg L L.length ∧ ∀ j, j < L.length → 255 ≤ sym L j → b'.get (lg L j) = some (sym L j) ∧ x'.get (lg L j) = some j
  | [], i, b, x, h1, h2, h3, h3', _, h5 => by
    have hi : i = L.length := by
      have := congrArg List.length h1
      rw [List.length_drop, List.length_nil] at this
      omega
    exact ⟨b, x, rfl, h3', hi ▸ h5⟩
  | p :: ps, i, b, x, h1, h2, h3, h3', h4, h5 => by
    obtain ⟨g1, g2, g3⟩ := drop_eq h1
    rw [bigLoop]
    by_cases c : p ≥ 255
    · rw [g2] at c
      obtain ⟨b', b1, b2, b3, b4⟩ := set_spec (a := b) (i := lg L i) (x := p) (by rw [h3]; exact lg_lt g1 (Nat.le_refl _) c) (by rw [g2]; exact (h4 i g1 c).1)
      obtain ⟨x', x1, x2, x3, x4⟩ := set_spec (a := x) (i := lg L i) (x := i) (by rw [h3']; exact lg_lt g1 (Nat.le_refl _) c) (h4 i g1 c).2
      rw [if_pos (by rw [g2]; exact c), b1, sbind, x1, sbind]
      have e : lg L i + 1 = lg L (i + 1) := by rw [lg_succ g1, if_pos c]
      rw [e]
      refine bigLoop_spec ps (i + 1) b' x' g3 (by omega) (by omega) (by omega) (by rw [b3, x3]; exact h4) (fun j hj hb => ?_)
      rw [b4, x4]
      by_cases e : j = i
      · rw [e, if_pos rfl, if_pos rfl, g2]; exact ⟨rfl, rfl⟩
      · have := lg_lt (L := L) (show j < i by omega) h2 hb
        rw [if_neg (by omega), if_neg (by omega)]
        exact h5 j (by omega) hb
    · rw [if_neg c]
      have e : lg L i = lg L (i + 1) := by rw [lg_succ g1, if_neg (by omega)]; rfl
      rw [e]
      refine bigLoop_spec ps (i + 1) b x g3 (by omega) h3 h3' h4 (fun j hj hb => ?_)
      by_cases e : j = i
      · rw [e, ← g2] at hb; omega
      · exact h5 j (by omega) hb

/-! ### lcp_byte -/

theorem lowerBound_spec {a : Arr} {x r : Nat} {g : Nat → Nat} : ∀ (f first len : Nat), len ≤ f → first ≤ r → r ≤ first + len →
    (∀ t, first ≤ t → t < first + len → a.get t = some (g t) ∧ (g t < x ↔ t < r)) → lowerBound a x f first len = some r
  | 0, first, len, h1, h2, h3, _ => by rw [lowerBound, if_pos (by omega)]; congr 1; omega
  | f + 1, first, len, h1, h2, h3, h4 => by
    rw [lowerBound]
    by_cases c : len = 0
    · rw [if_pos c]; congr 1; omega
    · obtain ⟨g1, g2⟩ := h4 (first + len / 2) (by omega) (by omega)
      rw [if_neg c, g1, sbind]
      by_cases d : g (first + len / 2) < x
      · rw [if_pos d]
        have := g2.1 d
        exact lowerBound_spec f _ _ (by omega) (by omega) (by omega) (fun t t1 t2 => h4 t (by omega) (by omega))
      · rw [if_neg d]
        have : ¬ first + len / 2 < r := fun h => d (g2.2 h)
        exact lowerBound_spec f _ _ (by omega) (by omega) (by omega) (fun t t1 t2 => h4 t (by omega) (by omega))

theorem new_len (n x w : Nat) : (Arr.new n x w).xs.length = n := by rw [Arr.new, List.length_replicate]

theorem new_width {n x w : Nat} : (Arr.new n x w).width = IntVec.clampWidth w := rfl

theorem small_get {a : Arr} {L : List Nat} (h : a.xs = L.map (min · 255)) {j : Nat} (hj : j < L.length) : a.get j = some (min (sym L j) 255) := by
  rw [Arr.get, h, List.getElem?_map, sym_getElem? hj]; rfl

theorem byte_ok {L : List Nat} (hL : ∀ x ∈ L, x < 2 ^ 64) (hn : L.length < 2 ^ 64) :
    ∃ s, byteNew L = some s ∧ s.small.xs.length = L.length ∧ ∀ i, i < L.length → s.get i = some (sym L i) := by
  obtain ⟨a, mL, mI, h1, h2, h3, h4, h5⟩ := smallLoop_spec hL hn L 0 (Arr.new L.length 0 8) 0 0 0 rfl (Nat.zero_le _) (new_len _ _ _) rfl
    (fun j hj => absurd hj (Nat.not_lt_zero _)) (by decide) (by decide) (fun j hj => absurd hj (Nat.not_lt_zero _)) rfl
  obtain ⟨w, w1, w2, w3⟩ := hiW_spec h3
  obtain ⟨v, v1, v2, v3⟩ := hiW_spec h4
  obtain ⟨b, x, e, hxl, hg⟩ := bigLoop_spec (L := L) L 0 (Arr.new (lg L L.length) 0 w) (Arr.new (lg L L.length) 0 v) rfl (Nat.zero_le _) (new_len _ _ _) (new_len _ _ _)
    (fun j hj hb => by
      obtain ⟨k1, k2⟩ := h5 j hj hb
      rw [new_width, new_width, w3, v3]
      omega) (fun j hj => absurd hj (Nat.not_lt_zero _))
  rw [lg_zero] at e
  refine ⟨⟨a, b, x⟩, by rw [byteNew, h1, sbind]; dsimp only; rw [w1, sbind, v1, sbind, e, sbind]; rfl, by rw [h2, List.length_map], fun i hi => ?_⟩
  rw [Byte.get, small_get h2 hi, sbind]
  by_cases c : 255 ≤ sym L i
  · rw [Nat.min_eq_right c, if_neg (by simp)]
    have key : lowerBound x i x.xs.length 0 x.xs.length = some (lg L i) := by
      have hx : ∀ t, ∃ y, t < x.xs.length → x.get t = some y ∧ (y < i ↔ t < lg L i) := by
        intro t
        by_cases ht : t < x.xs.length
        · rw [hxl] at ht
          obtain ⟨j, j1, j2, j3⟩ := lg_surj L.length t (Nat.le_refl _) ht
          refine ⟨j, fun _ => ⟨?_, ?_⟩⟩
          · rw [← j3]; exact (hg j j1 j2).2
          · rw [← j3]
            constructor
            · intro k; exact lg_lt k (by omega) j2
            · intro k
              rcases Nat.lt_or_ge j i with d | d
              · exact d
              · have := lg_mono (L := L) d; omega
        · exact ⟨0, fun h => absurd h ht⟩
      exact lowerBound_spec (g := fun t => (hx t).choose) _ _ _ (Nat.le_refl _) (Nat.zero_le _) (by
        rw [hxl]; have := lg_mono (L := L) (Nat.le_of_lt hi); omega) (fun t _ t2 => (hx t).choose_spec (by omega))
    rw [key, sbind]
    exact (hg i hi c).1
  · rw [Nat.min_eq_left (by omega), if_pos (by omega)]

/-! ### lcp_wt -/

theorem wt_ok {L : List Nat} (hL : ∀ x ∈ L, x < 2 ^ 64) (h0 : L ≠ []) (hn : L.length < 956722026041) :
    ∃ s, wtNew L = some s ∧ s.small.size = L.length ∧ ∀ i, i < L.length → s.get i = some (sym L i) := by
  obtain ⟨a, mL, mI, h1, h2, h3, h4, h5⟩ := smallLoop_spec hL (by omega) L 0 (Arr.new L.length 0 8) 0 0 0 rfl (Nat.zero_le _) (new_len _ _ _) rfl
    (fun j hj => absurd hj (Nat.not_lt_zero _)) (by decide) (by decide) (fun j hj => absurd hj (Nat.not_lt_zero _)) rfl
  have hm : ∀ c ∈ L.map (min · 255), c < 256 := by
    intro c hc
    obtain ⟨y, _, rfl⟩ := List.mem_map.1 hc
    omega
  obtain ⟨W, t1, t2⟩ := newWt_spec (tk := .huff true) (ak := .byte) (L := L.map (min · 255)) (by simpa using h0)
    ⟨fun _ => hm, hm, fun c hc => by have := hm c hc; omega, by simpa [TreeKind.bounds] using hn⟩
  obtain ⟨w, w1, w2, w3⟩ := hiW_spec h3
  obtain ⟨b, e, hg⟩ := bigVals_spec (L := L) L 0 (Arr.new (lg L L.length) 0 w) rfl (Nat.zero_le _) (new_len _ _ _)
    (fun j hj hb => by
      obtain ⟨k1, k2⟩ := h5 j hj hb
      rw [new_width, w3]
      omega) (fun j hj => absurd hj (Nat.not_lt_zero _))
  rw [lg_zero] at e
  refine ⟨⟨W, b⟩, by rw [wtNew, h1, sbind]; dsimp only; rw [h2, t1, sbind, w1, sbind, e, sbind]; rfl, by rw [t2.size, List.length_map], fun i hi => ?_⟩
  have hsym : sym (L.map (min · 255)) i = min (sym L i) 255 := by
    rw [sym, List.getD_eq_getElem?_getD, List.getElem?_map, sym_getElem? hi]; rfl
  rw [WtLcp.get]
  dsimp only
  rw [t2.get i (by rwa [List.length_map]), sbind, hsym]
  by_cases c : 255 ≤ sym L i
  · rw [Nat.min_eq_right c, if_neg (by simp), t2.rank i 255 (by rw [List.length_map]; omega) ⟨by decide, fun _ => by decide⟩, sbind]
    have : ((L.map (min · 255)).take i).count 255 = lg L i := by
      rw [← List.map_take, List.count, List.countP_map, lg]
      apply List.countP_congr
      intro y _
      simp only [Function.comp, beq_iff_eq, decide_eq_true_eq]
      omega
    rw [this]
    exact hg i hi c
  · rw [Nat.min_eq_left (by omega), if_pos (by omega)]

/-! ### lcp_support_sada -/

theorem sadaLoop_spec {lcp isa : Arr} {P : Nat → Nat} {n : Nat} (hn : 2 * n < 2 ^ 64) (hg : ∀ j, j < n → ∃ r, isa.get j = some r ∧ lcp.get r = some (P j))
    (hs : ∀ j, j + 1 < n → P j ≤ P (j + 1) + 1) (hb : ∀ j, j < n → j + P j < n) :
    ∀ (k i cnt old : Nat) (data : List Bool), k + i = n → cnt + 1 = old + 2 * i → (∀ j, j + 1 = i → old = P j) → (i = 0 → old = 1) → data.length = 2 * n →
    (∀ p, Bv.bit data p = true ↔ ∃ j, j < i ∧ p = P j + 2 * j) →
    ∃ data', sadaLoop lcp isa k i cnt old data = some (data', if k = 0 then cnt else P (n - 1) + 2 * (n - 1) + 1) ∧ data'.length = 2 * n ∧
      ∀ p, Bv.bit data' p = true ↔ ∃ j, j < n ∧ p = P j + 2 * j
  | 0, i, cnt, old, data, h1, _, _, _, h5, h6 => ⟨data, rfl, h5, by rwa [show n = i by omega]⟩
  | k + 1, i, cnt, old, data, h1, h2, h3, h4, h5, h6 => by
    obtain ⟨r, r1, r2⟩ := hg i (by omega)
    have hold : old ≤ P i + 1 ∧ old < 2 ^ 64 := by
      by_cases c : i = 0
      · rw [h4 c]; omega
      · have e := h3 (i - 1) (by omega)
        have := hs (i - 1) (by omega)
        rw [show i - 1 + 1 = i by omega] at this
        have := hb (i - 1) (by omega)
        omega
    have hbi := hb i (by omega)
    have hc : (cnt + (P i + 1 + (2 ^ 64 - old))) % 2 ^ 64 = P i + 2 * i := by
      rw [show cnt + (P i + 1 + (2 ^ 64 - old)) = P i + 2 * i + 2 ^ 64 by omega, Nat.add_mod_right, Nat.mod_eq_of_lt (by omega)]
    rw [sadaLoop, r1, sbind, r2, sbind]
    dsimp only
    rw [hc, Bv.set_of_lt (by omega), sbind]
    obtain ⟨d, d1, d2, d3⟩ := sadaLoop_spec hn hg hs hb k (i + 1) (P i + 2 * i + 1) (P i) (data.set (P i + 2 * i) true) (by omega) (by omega)
      (fun j hj => by rw [show j = i by omega]) (fun h => by omega) (by rw [List.length_set]; exact h5) (fun p => by
        rw [Bv.bit_set (by omega)]
        by_cases c : p = P i + 2 * i
        · rw [if_pos c]; exact ⟨fun _ => ⟨i, by omega, c⟩, fun _ => rfl⟩
        · rw [if_neg c, h6]
          constructor
          · rintro ⟨j, j1, j2⟩; exact ⟨j, by omega, j2⟩
          · rintro ⟨j, j1, j2⟩
            refine ⟨j, ?_, j2⟩
            by_cases e : j = i
            · rw [e] at j2; exact absurd j2 c
            · omega)
    refine ⟨d, ?_, d2, d3⟩
    rw [d1, if_neg (show ¬ k + 1 = 0 by omega)]
    by_cases c : k = 0
    · rw [if_pos c, show n - 1 = i by omega]
    · rw [if_neg c]

theorem countTrue_zeros {f : Nat → Bool} : ∀ d a, (∀ x, a ≤ x → x < a + d → f x = false) → countTrue f (a + d) = countTrue f a
  | 0, _, _ => rfl
  | d + 1, a, h => by
    rw [show a + (d + 1) = a + d + 1 by omega, countTrue, h _ (by omega) (by omega), countTrue_zeros d a (fun x x1 x2 => h x x1 (by omega))]
    rfl

theorem count_marks {f : Nat → Bool} {pos : Nat → Nat} {n : Nat} (hm : ∀ j, j + 1 < n → pos j < pos (j + 1)) (hf : ∀ p, f p = true ↔ ∃ j, j < n ∧ p = pos j) :
    ∀ j, j < n → countTrue f (pos j) = j := by
  have mono : ∀ d j, j + d < n → pos j + d ≤ pos (j + d) := by
    intro d
    induction d with
    | zero => intro j _; exact Nat.le_refl _
    | succ d ih =>
      intro j h
      have := ih j (by omega)
      have := hm (j + d) (by omega)
      rw [show j + (d + 1) = j + d + 1 by omega]
      omega
  intro j
  induction j with
  | zero =>
    intro h
    have := countTrue_zeros (f := f) (pos 0) 0 (fun x _ x2 => by
      cases c : f x with
      | false => rfl
      | true =>
        obtain ⟨i, i1, i2⟩ := (hf x).1 c
        have := mono i 0 (by omega)
        rw [Nat.zero_add] at this
        omega)
    rw [Nat.zero_add] at this
    rw [this]; rfl
  | succ j ih =>
    intro h
    have h1 := ih (by omega)
    have h2 := hm j h
    have h3 := countTrue_zeros (f := f) (pos (j + 1) - (pos j + 1)) (pos j + 1) (fun x x1 x2 => by
      cases c : f x with
      | false => rfl
      | true =>
        obtain ⟨i, i1, i2⟩ := (hf x).1 c
        rcases Nat.lt_or_ge j i with d | d
        · have := mono (i - (j + 1)) (j + 1) (by omega)
          rw [show j + 1 + (i - (j + 1)) = i by omega] at this
          omega
        · have := mono (j - i) i (by omega)
          rw [show i + (j - i) = j by omega] at this
          omega)
    rw [show pos j + 1 + (pos (j + 1) - (pos j + 1)) = pos (j + 1) by omega, countTrue, (hf _).2 ⟨j, by omega, rfl⟩, h1] at h3
    simpa using h3

theorem sada_ok {lcp isa : Arr} {P : Nat → Nat} (h0 : 0 < lcp.xs.length) (hn : 2 * lcp.xs.length < 2 ^ 64) (hg : ∀ j, j < lcp.xs.length → ∃ r, isa.get j = some r ∧ lcp.get r = some (P j))
    (hs : ∀ j, j + 1 < lcp.xs.length → P j ≤ P (j + 1) + 1) (hb : ∀ j, j < lcp.xs.length → j + P j < lcp.xs.length) :
    ∃ data, sadaNew lcp isa = some data ∧ data.length = 2 * lcp.xs.length - 1 ∧ ∀ (sa : Nat → Option Nat) i j, sa i = some j → j < lcp.xs.length → sadaGet sa data i = some (P j) := by
  obtain ⟨d, d1, d2, d3⟩ := sadaLoop_spec hn hg hs hb lcp.xs.length 0 0 1 (List.replicate (2 * lcp.xs.length) false) (by omega) (by omega) (fun j hj => by omega) (fun _ => rfl)
    (by rw [List.length_replicate]) (fun p => by
      rw [Bv.bit_replicate]
      exact ⟨(fun h => by cases h), fun ⟨j, j1, _⟩ => absurd j1 (Nat.not_lt_zero _)⟩)
  rw [if_neg (by omega)] at d1
  have hbn := hb (lcp.xs.length - 1) (by omega)
  have hl : P (lcp.xs.length - 1) + 2 * (lcp.xs.length - 1) + 1 = 2 * lcp.xs.length - 1 := by omega
  rw [hl] at d1
  refine ⟨d.take (2 * lcp.xs.length - 1), ?_, by rw [List.length_take]; omega, fun sa i j hsa hj => ?_⟩
  · rw [sadaNew, d1, sbind]
    dsimp only
    rw [if_pos (by omega)]
  · have hbj := hb j hj
    have hbit : ∀ p, Bv.bit (d.take (2 * lcp.xs.length - 1)) p = true ↔ ∃ j, j < lcp.xs.length ∧ p = P j + 2 * j := by
      intro p
      rw [← d3]
      by_cases c : p < 2 * lcp.xs.length - 1
      · rw [Bv.bit, Bv.bit, List.getD_eq_getElem?_getD, List.getD_eq_getElem?_getD, List.getElem?_take_of_lt c]
      · rw [Bv.bit_of_ge (by rw [List.length_take]; omega)]
        constructor
        · intro h; cases h
        · intro h
          obtain ⟨i, i1, i2⟩ := (d3 p).1 h
          have := hb i i1
          omega
    have hcnt := count_marks (f := fun q => Bv.bit (d.take (2 * lcp.xs.length - 1)) q == true) (pos := fun j => P j + 2 * j) (n := lcp.xs.length)
      (fun j hj => by have := hs j hj; omega) (fun p => by rw [beq_iff_eq]; exact hbit p) j hj
    have hsel := Bv.select_eq (tb := true) (B := d.take (2 * lcp.xs.length - 1)) (p := P j + 2 * j) (by rw [List.length_take]; omega) ((hbit _).2 ⟨j, hj, rfl⟩)
    rw [Bv.cnt, hcnt] at hsel
    rw [sadaGet, hsa, sbind, hsel, sbind]
    show some _ = some _
    rw [show 2 * j % 2 ^ 64 = 2 * j from Nat.mod_eq_of_lt (by omega), show P j + 2 * j + (2 ^ 64 - 2 * j) = P j + 2 ^ 64 by omega, Nat.add_mod_right, Nat.mod_eq_of_lt (by omega)]

end Sdsl.LcpRep
