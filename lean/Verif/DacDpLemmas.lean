/-
  Helper lemmas for C32 (`dac_vector_dp`).
-/
import Verif.DacDp
import Verif.DacLemmas
import Verif.BitsSel

namespace Sdsl.Dac.Dp

open Bits Spec

/-! ### The layout -/

/-- What is used of the floating point arithmetic of the costs: zero and the costs of one level are finite, the sum of two finite numbers is finite, a finite number is smaller
    than infinity, and a sum with infinity is smaller than nothing. -/
structure Cost.Ok (K : Cost) (fin : K.F → Prop) : Prop where
  zero : fin K.zero
  w : ∀ cnt b b2, fin (K.w cnt b b2)
  add : ∀ x y, fin x → fin y → fin (K.add x y)
  lt_inf : ∀ x, fin x → K.lt x K.inf = true
  inf_lt : ∀ x y, K.lt (K.add x K.inf) y = false

section
variable {K : Cost} {fin : K.F → Prop} (hK : K.Ok fin) (cnt : List Nat) {mm ml : Nat}

/-- An entry that was improved at least once. -/
def Good (fin : K.F → Prop) (mm b lvl : Nat) (e : K.F × Option (Option Nat)) : Prop :=
  fin e.1 ∧ ∃ b2, e.2 = some (some b2) ∧ b < b2 ∧ b2 ≤ mm + 1 ∧ (b2 = mm + 1 ∨ 2 ≤ lvl)

def EntryOk (fin : K.F → Prop) (mm b lvl : Nat) (e : K.F × Option (Option Nat)) : Prop :=
  (b = mm + 1 → e = (K.zero, some none)) ∧ (b ≤ mm → lvl = 0 → e.1 = K.inf) ∧ (b ≤ mm → 0 < lvl → Good fin mm b lvl e)

/-- Rows `b`, …, `mm + 1`. -/
def RowsOk (fin : K.F → Prop) (mm ml b : Nat) (rows : List (Row K)) : Prop :=
  rows.length + b = mm + 2 ∧ ∀ k, k < rows.length → ∃ row, rows[k]? = some row ∧ ∀ lvl, lvl ≤ ml → ∃ e, row[lvl]? = some e ∧ EntryOk fin mm (b + k) lvl e

theorem RowsOk.tail {b : Nat} {row : Row K} {rows : List (Row K)} (h : RowsOk fin mm ml b (row :: rows)) : RowsOk fin mm ml (b + 1) rows := by
  refine ⟨by have := h.1; simp at this; omega, ?_⟩
  intro k hk
  obtain ⟨r, h1, h2⟩ := h.2 (k + 1) (by simp; omega)
  refine ⟨r, by simpa using h1, ?_⟩
  intro lvl hl
  obtain ⟨e, h3, h4⟩ := h2 lvl hl
  exact ⟨e, h3, by rw [show b + 1 + k = b + (k + 1) by omega]; exact h4⟩

include hK in
theorem relax_spec {b lvl : Nat} (hl : 0 < lvl) (hml : lvl ≤ ml) : ∀ (rows : List (Row K)) (b2 : Nat) (best : K.F × Option (Option Nat)),
    RowsOk fin mm ml b2 rows → b < b2 → (best = (K.inf, none) ∧ b2 ≤ mm + 1) ∨ Good fin mm b lvl best →
    ∃ e, relax K cnt b lvl rows b2 best = some e ∧ Good fin mm b lvl e := by
  intro rows
  induction rows with
  | nil =>
    intro b2 best h hb hbest
    rcases hbest with ⟨_, h2⟩ | h2
    · have := h.1; simp at this; omega
    · exact ⟨best, rfl, h2⟩
  | cons row rows ih =>
    intro b2 best h hb hbest
    obtain ⟨r, h1, h2⟩ := h.2 0 (by simp)
    obtain ⟨e, h3, h4⟩ := h2 (lvl - 1) (by omega)
    have hr : r = row := by simpa using h1.symm
    subst hr
    rw [Nat.add_zero] at h4
    have hlen := h.1
    rw [List.length_cons] at hlen
    rw [relax, h3, sbind]
    dsimp only
    by_cases hlast : b2 = mm + 1
    · have he := h4.1 hlast
      have hv : fin (K.add (K.w cnt b b2) e.1) := by rw [he]; exact hK.add _ _ (hK.w _ _ _) hK.zero
      apply ih _ _ h.tail (by omega)
      right
      by_cases hlt : K.lt (K.add (K.w cnt b b2) e.1) best.1 = true
      · rw [if_pos hlt]
        exact ⟨hv, b2, rfl, hb, by omega, .inl hlast⟩
      · rw [if_neg hlt]
        rcases hbest with ⟨h5, _⟩ | h5
        · rw [h5] at hlt
          exact absurd (hK.lt_inf _ hv) hlt
        · exact h5
    · apply ih _ _ h.tail (by omega)
      by_cases hl0 : lvl - 1 = 0
      · have he := h4.2.1 (by omega) hl0
        rw [he, hK.inf_lt, if_neg Bool.false_ne_true]
        rcases hbest with ⟨h5, _⟩ | h5
        · exact .inl ⟨h5, by omega⟩
        · exact .inr h5
      · have he := (h4.2.2 (by omega) (by omega)).1
        by_cases hlt : K.lt (K.add (K.w cnt b b2) e.1) best.1 = true
        · rw [if_pos hlt]
          exact .inr ⟨hK.add _ _ (hK.w _ _ _) he, b2, rfl, hb, by omega, .inr (by omega)⟩
        · rw [if_neg hlt]
          rcases hbest with ⟨h5, _⟩ | h5
          · exact .inl ⟨h5, by omega⟩
          · exact .inr h5

include hK in
theorem fillRow_spec {b : Nat} {rows : List (Row K)} (hr : RowsOk fin mm ml (b + 1) rows) (hb : b ≤ mm) : ∀ (c lvl : Nat) (row : Row K),
    lvl + c = ml + 1 → row.length = lvl → 0 < lvl → (∀ l, l < lvl → ∃ e, row[l]? = some e ∧ EntryOk fin mm b l e) →
    ∃ row', fillRow K cnt b rows c lvl row = some row' ∧ ∀ l, l ≤ ml → ∃ e, row'[l]? = some e ∧ EntryOk fin mm b l e := by
  intro c
  induction c with
  | zero =>
    intro lvl row h1 h2 h3 h4
    exact ⟨row, rfl, fun l hl => h4 l (by omega)⟩
  | succ c ih =>
    intro lvl row h1 h2 h3 h4
    obtain ⟨e, g1, g2⟩ := relax_spec hK cnt (b := b) (lvl := lvl) h3 (by omega) rows (b + 1) (K.inf, none) hr (by omega) (.inl ⟨rfl, by omega⟩)
    rw [fillRow, g1, sbind]
    apply ih (lvl + 1) _ (by omega) (by simp [h2]) (by omega)
    intro l hl
    by_cases h5 : l < lvl
    · obtain ⟨e', h6, h7⟩ := h4 l h5
      exact ⟨e', by rw [List.getElem?_append_left (by omega)]; exact h6, h7⟩
    · have : l = lvl := by omega
      subst this
      refine ⟨e, by rw [List.getElem?_append_right (by omega), h2]; simp, ?_, ?_, ?_⟩
      · intro h; omega
      · intro _ h; omega
      · intro _ _; exact g2

include hK in
theorem fillRows_spec : ∀ (b : Nat) (rows : List (Row K)), b ≤ mm + 1 → RowsOk fin mm ml b rows →
    ∃ rows', fillRows K cnt ml b rows = some rows' ∧ RowsOk fin mm ml 0 rows' := by
  intro b
  induction b with
  | zero => intro rows _ h; exact ⟨rows, rfl, h⟩
  | succ b ih =>
    intro rows hb h
    obtain ⟨row, h1, h2⟩ := fillRow_spec hK cnt h (by omega) ml 1 [(K.inf, none)] (by omega) rfl (by omega) (by
      intro l hl
      have : l = 0 := by omega
      subst this
      refine ⟨(K.inf, none), rfl, ?_, ?_, ?_⟩
      · intro h; omega
      · intro _ _; rfl
      · intro _ h; omega)
    rw [fillRows, h1, sbind]
    apply ih _ (by omega)
    refine ⟨by have := h.1; simp; omega, ?_⟩
    intro k hk
    cases k with
    | zero => exact ⟨row, rfl, h2⟩
    | succ k =>
      obtain ⟨r, h3, h4⟩ := h.2 k (by simpa using hk)
      refine ⟨r, by simpa using h3, ?_⟩
      rw [show b + (k + 1) = b + 1 + k by omega]; exact h4

theorem collect_spec {rows : List (Row K)} (h : RowsOk fin mm ml 0 rows) : ∀ (fuel b lvl : Nat), lvl < fuel → lvl ≤ ml → b ≤ mm + 1 → (b = mm + 1 ∨ 0 < lvl) →
    ∃ bs, collect K rows fuel b lvl = some bs ∧ bs.length ≤ lvl ∧ (b :: bs).Pairwise (· < ·) ∧ (b :: bs).getLast? = some (mm + 1) := by
  intro fuel
  induction fuel with
  | zero => intro b lvl h1; omega
  | succ fuel ih =>
    intro b lvl h1 h2 h3 h4
    obtain ⟨row, g1, g2⟩ := h.2 b (by have := h.1; omega)
    obtain ⟨e, g3, g4⟩ := g2 lvl h2
    rw [Nat.zero_add] at g4
    rw [collect, g1, sbind, g3, sbind]
    by_cases hlast : b = mm + 1
    · rw [g4.1 hlast]
      exact ⟨[], rfl, Nat.zero_le _, by simp, by simp [hlast]⟩
    · obtain ⟨_, b2, k1, k2, k3, k4⟩ := g4.2.2 (by omega) (by omega)
      obtain ⟨bs, i1, i2, i3, i4⟩ := ih b2 (lvl - 1) (by omega) (by omega) k3 (by omega)
      rw [k1, sbind]
      dsimp only
      rw [if_neg (by omega), i1, sbind]
      refine ⟨b2 :: bs, rfl, by simp; omega, ?_, ?_⟩
      · rw [List.pairwise_cons]
        refine ⟨?_, i3⟩
        intro x hx
        rcases List.mem_cons.1 hx with hx | hx
        · omega
        · have := (List.pairwise_cons.1 i3).1 x hx; omega
      · rw [List.getLast?_cons_cons]; exact i4

end

theorem countBits_spec {x : Nat} (hx : x < 2 ^ 64) : ∀ (fuel lvl : Nat) (cnt : List Nat) (mx : Nat), 0 < lvl → 64 ≤ fuel + lvl → cnt.length = 128 →
    ∃ cnt' mx', countBits fuel (x / 2 ^ lvl) lvl cnt mx = some (cnt', mx') ∧ cnt'.length = 128 ∧ mx ≤ mx' ∧ (∀ l, lvl ≤ l → x / 2 ^ l ≠ 0 → l ≤ mx') := by
  have hz64 : ∀ l, 64 ≤ l → x / 2 ^ l = 0 := fun l hl =>
    Nat.div_eq_of_lt (Nat.lt_of_lt_of_le hx (Nat.pow_le_pow_right (by omega) hl))
  have hz : ∀ l l', l ≤ l' → x / 2 ^ l = 0 → x / 2 ^ l' = 0 := by
    intro l l' hl h
    rw [show l' = l + (l' - l) by omega, Nat.pow_add, ← Nat.div_div_eq_div_mul, h, Nat.zero_div]
  intro fuel
  induction fuel with
  | zero =>
    intro lvl cnt mx h1 h2 h3
    have h0 := hz64 lvl (by omega)
    exact ⟨cnt, mx, by rw [countBits, if_pos h0], h3, Nat.le_refl _, fun l hl h => absurd (hz _ _ hl h0) h⟩
  | succ fuel ih =>
    intro lvl cnt mx h1 h2 h3
    by_cases h0 : x / 2 ^ lvl = 0
    · exact ⟨cnt, mx, by rw [countBits, if_pos h0], h3, Nat.le_refl _, fun l hl h => absurd (hz _ _ hl h0) h⟩
    · have hl : lvl < 64 := by
        apply Decidable.byContradiction
        intro h
        exact h0 (hz64 lvl (by omega))
      obtain ⟨c, m, g1, g2, g3, g4⟩ := ih (lvl + 1) (cnt.set lvl (cnt.getD lvl 0 + 1)) (max mx lvl) (by omega) (by omega) (by simp [h3])
      refine ⟨c, m, ?_, g2, by omega, ?_⟩
      · rw [countBits, if_neg h0]
        rw [incr_of_lt (by omega), sbind, Nat.div_div_eq_div_mul, ← Nat.pow_succ]
        exact g1
      · intro l hl' hne
        by_cases h5 : l = lvl
        · omega
        · exact g4 l (by omega) hne

theorem countAll_spec : ∀ (xs : List Word) (cnt : List Nat) (mx : Nat), cnt.length = 128 →
    ∃ cnt' mx', countAll xs cnt mx = some (cnt', mx') ∧ mx ≤ mx' ∧ ∀ x ∈ xs, Nat.log2 x.toNat ≤ mx' := by
  intro xs
  induction xs with
  | nil => intro cnt mx _; exact ⟨cnt, mx, rfl, Nat.le_refl _, by simp⟩
  | cons x xs ih =>
    intro cnt mx h
    obtain ⟨c, m, h1, h2, h3, h4⟩ := countBits_spec x.isLt 64 1 cnt mx (by omega) (by omega) h
    obtain ⟨c', m', g1, g2, g3⟩ := ih c m h2
    rw [Nat.pow_one] at h1
    refine ⟨c', m', by rw [countAll, h1, sbind]; exact g1, by omega, ?_⟩
    intro y hy
    rcases List.mem_cons.1 hy with hy | hy
    · subst hy
      by_cases h0 : Nat.log2 y.toNat = 0
      · omega
      · refine Nat.le_trans (h4 _ (by omega) ?_) g2
        have hy0 : y.toNat ≠ 0 := by intro h; rw [h] at h0; exact h0 rfl
        have := Nat.log2_self_le hy0
        have := (Nat.div_pos this (Nat.two_pow_pos _))
        omega
    · exact g3 y hy

/-- The chosen layout: at most `ml` levels, strictly increasing bit sizes, and every value fits into the last level. -/
theorem layout_spec {K : Cost} {fin : K.F → Prop} (hK : K.Ok fin) {ml : Nat} (hml : 0 < ml) (xs : List Word) :
    ∃ bs, layout K ml xs = some bs ∧ bs.length ≤ ml ∧ bs.Pairwise (· < ·) ∧ (∀ b ∈ bs, 0 < b) ∧
      ∃ b, bs.getLast? = some b ∧ ∀ x ∈ xs, Nat.log2 x.toNat < b := by
  obtain ⟨cnt, mm, h1, _, h2⟩ := countAll_spec xs ((List.replicate 128 0).set 0 xs.length) 0 (by simp)
  obtain ⟨rows, h3, h4⟩ := fillRows_spec (mm := mm) (ml := ml) hK cnt (mm + 1) [List.replicate (ml + 1) (K.zero, some none)] (Nat.le_refl _) (by
    refine ⟨by simp; omega, ?_⟩
    intro k hk
    have : k = 0 := by simpa using hk
    subst this
    refine ⟨_, rfl, ?_⟩
    intro lvl hl
    refine ⟨(K.zero, some none), by rw [List.getElem?_replicate, if_pos (by omega)], fun _ => rfl, ?_, ?_⟩
    · intro h; omega
    · intro h; omega)
  obtain ⟨bs, h5, h6, h7, h8⟩ := collect_spec h4 (ml + 1) 0 ml (by omega) (Nat.le_refl _) (by omega) (.inr hml)
  refine ⟨bs, ?_, h6, (List.pairwise_cons.1 h7).2, (List.pairwise_cons.1 h7).1, mm + 1, ?_, ?_⟩
  · rw [layout, h1, sbind]
    dsimp only
    rw [h3, sbind]; exact h5
  · cases bs with
    | nil => simp at h8
    | cons b bs => rw [List.getLast?_cons_cons] at h8; exact h8
  · intro x hx
    have := h2 x hx
    omega

/-! ### The levels -/

/-- Does the value leave the level with `bn` bits? -/
def ovf (bn : Nat) (x : Word) : Bool := decide (bn ≤ Nat.log2 x.toNat)

theorem mark_spec (bn off : Nat) : ∀ (c : List Word) (i : Nat) (ov : List Bool) (mx o : Nat), off + i + c.length ≤ ov.length →
    ∃ ov' mx', mark bn off c i ov mx o = some (ov', mx', o + (c.filter (ovf bn)).length) ∧ ov'.length = ov.length ∧
      (∀ k (h : k < c.length), ov'[off + i + k]? = some (ovf bn c[k])) ∧ (∀ p, p < off + i ∨ off + i + c.length ≤ p → ov'[p]? = ov[p]?) ∧ mx ≤ mx' ∧
      (∀ x ∈ c, Nat.log2 x.toNat ≤ mx') ∧ (mx' = mx ∨ mx' < 64) := by
  intro c
  induction c with
  | nil => intro i ov mx o _; exact ⟨ov, mx, rfl, rfl, by intro k h; simp at h, by simp, Nat.le_refl _, by simp, .inl rfl⟩
  | cons x c ih =>
    intro i ov mx o hl
    rw [List.length_cons] at hl
    have hx64 : Nat.log2 x.toNat < 64 := by
      by_cases h0 : x.toNat = 0
      · rw [h0]; decide
      · exact (Nat.log2_lt h0).2 x.isLt
    rw [mark, hi_eq, sbind]
    have key : ∀ (v : Bool) (o' : Nat), v = ovf bn x → o' = o + (if ovf bn x then 1 else 0) →
        ∃ ov' mx', mark bn off c (i + 1) (ov.set (off + i) v) (max mx (Nat.log2 x.toNat)) o' =
            some (ov', mx', o + ((x :: c).filter (ovf bn)).length) ∧ ov'.length = ov.length ∧
          (∀ k (h : k < (x :: c).length), ov'[off + i + k]? = some (ovf bn (x :: c)[k])) ∧
          (∀ p, p < off + i ∨ off + i + (x :: c).length ≤ p → ov'[p]? = ov[p]?) ∧ mx ≤ mx' ∧
          (∀ y ∈ x :: c, Nat.log2 y.toNat ≤ mx') ∧ (mx' = mx ∨ mx' < 64) := by
      intro v o' hv ho
      obtain ⟨ov', mx', h1, h2, h3, h4, h5, h6, h7⟩ := ih (i + 1) (ov.set (off + i) v) (max mx (Nat.log2 x.toNat)) o' (by rw [List.length_set]; omega)
      refine ⟨ov', mx', ?_, by rw [h2, List.length_set], ?_, ?_, by omega, ?_, ?_⟩
      · rw [h1, ho, List.filter_cons]
        by_cases hq : ovf bn x = true
        · rw [if_pos hq, if_pos hq, List.length_cons, Nat.add_assoc, Nat.add_comm 1]
        · rw [if_neg hq, if_neg hq, Nat.add_zero]
      · intro k hk
        cases k with
        | zero =>
          rw [h4 (off + i + 0) (.inl (by omega)), Nat.add_zero, List.getElem?_set, if_pos rfl, if_pos (by omega), hv]; rfl
        | succ k =>
          have := h3 k (by simpa using hk)
          rw [show off + i + (k + 1) = off + (i + 1) + k by omega, this]; rfl
      · intro p hp
        rw [List.length_cons] at hp
        rw [h4 p (by omega), List.getElem?_set, if_neg (by omega)]
      · intro y hy
        rcases List.mem_cons.1 hy with hy | hy
        · subst hy; omega
        · exact h6 y hy
      · rcases h7 with h7 | h7
        · by_cases h8 : mx ≤ Nat.log2 x.toNat
          · right; omega
          · left; omega
        · exact .inr h7
    by_cases hq : bn ≤ Nat.log2 x.toNat
    · rw [if_pos hq, setList_of_lt (by omega), sbind]
      exact key true (o + 1) (by simp [ovf, hq]) (by simp [ovf, hq])
    · rw [if_neg hq, setList_of_lt (by omega), sbind]
      exact key false o (by simp [ovf, hq]) (by simp [ovf, hq])

theorem split_spec (bn off : Nat) (ov : List Bool) : ∀ (c : List Word) (i id ir : Nat) (data rec : Arr),
    (∀ k (h : k < c.length), ov[off + i + k]? = some (ovf bn c[k])) →
    data.width = 64 → (∀ x ∈ c, x.toNat < 2 ^ rec.width) →
    id + (c.filter (fun x => !ovf bn x)).length = data.xs.length → ir + (c.filter (ovf bn)).length = rec.xs.length →
    ∃ d r, split off ov c i id ir data rec = some (d, r) ∧ d.xs = data.xs.take id ++ (c.filter (fun x => !ovf bn x)).map (·.toNat) ∧
      r.xs = rec.xs.take ir ++ (c.filter (ovf bn)).map (·.toNat) := by
  intro c
  induction c with
  | nil =>
    intro i id ir data rec _ _ _ h1 h2
    refine ⟨data, rec, rfl, ?_, ?_⟩
    · simp at h1; simp [h1]
    · simp at h2; simp [h2]
  | cons x c ih =>
    intro i id ir data rec hov hw hrw h1 h2
    have ho := hov 0 (by simp)
    rw [Nat.add_zero] at ho
    have hov' : ∀ k (h : k < c.length), ov[off + (i + 1) + k]? = some (ovf bn c[k]) := by
      intro k hk
      have := hov (k + 1) (by simpa using hk)
      rw [show off + (i + 1) + k = off + i + (k + 1) by omega, this]; rfl
    rw [split, ho, sbind]
    rw [List.filter_cons] at h1 h2
    rw [List.getElem_cons_zero]
    by_cases hq : ovf bn x = true
    · rw [if_pos hq] at h2 ⊢
      simp only [hq, Bool.not_true] at h1
      rw [if_neg Bool.false_ne_true] at h1
      rw [List.length_cons] at h2
      have hlt : ir < rec.xs.length := by omega
      rw [Arr.set_of_lt hlt, sbind]
      obtain ⟨d, r, g1, g2, g3⟩ := ih (i + 1) id (ir + 1) data ⟨rec.width, rec.xs.set ir (x.toNat % 2 ^ rec.width)⟩ hov' hw
        (fun y hy => hrw y (List.mem_cons_of_mem _ hy)) h1 (by
          show _ = (rec.xs.set ir _).length
          rw [List.length_set]; omega)
      refine ⟨d, r, g1, ?_, ?_⟩
      · rw [g2, List.filter_cons]; simp [hq]
      · rw [g3, List.filter_cons, if_pos hq, List.map_cons, Nat.mod_eq_of_lt (hrw x (by simp))]
        show (rec.xs.set ir x.toNat).take (ir + 1) ++ _ = _
        rw [List.take_add_one, List.take_set_of_le (Nat.le_refl _)]
        simp [hlt]
    · have hq' : ovf bn x = false := Bool.eq_false_iff.2 hq
      rw [if_neg hq] at h2 ⊢
      simp only [hq', Bool.not_false] at h1
      rw [if_pos trivial, List.length_cons] at h1
      have hlt : id < data.xs.length := by omega
      rw [Arr.set_of_lt hlt, sbind]
      obtain ⟨d, r, g1, g2, g3⟩ := ih (i + 1) (id + 1) ir ⟨data.width, data.xs.set id (x.toNat % 2 ^ data.width)⟩ rec hov' hw
        (fun y hy => hrw y (List.mem_cons_of_mem _ hy)) (by
          show _ = (data.xs.set id _).length
          rw [List.length_set]; omega) h2
      refine ⟨d, r, g1, ?_, ?_⟩
      · rw [g2, List.filter_cons]
        simp only [hq', Bool.not_false]
        rw [if_pos trivial, List.map_cons, Nat.mod_eq_of_lt (by rw [hw]; exact x.isLt)]
        show (data.xs.set id x.toNat).take (id + 1) ++ _ = _
        rw [List.take_add_one, List.take_set_of_le (Nat.le_refl _)]
        simp [hlt]
      · rw [g3, List.filter_cons, if_neg hq]

/-- The levels from number `lvl` on represent the values `c`. -/
def Lay (d : Dp) : List Nat → List Word → Nat → Nat → Prop
  | [], _, _, _ => True
  | bn :: bs, c, off, lvl => d.offsets[lvl]? = some off ∧ (∀ k (h : k < c.length), d.ov[off + k]? = some (ovf bn c[k])) ∧
      (∃ a, d.data[lvl]? = some a ∧ a.xs = (c.filter (fun x => !ovf bn x)).map (·.toNat)) ∧
      Lay d bs (c.filter (ovf bn)) (off + c.length) (lvl + 1)

/-- Number of slots of the overflow vector used by the levels. -/
def total : List Nat → List Word → Nat
  | [], _ => 0
  | bn :: bs, c => c.length + total bs (c.filter (ovf bn))

theorem filter_length_add (bn : Nat) (c : List Word) : (c.filter (fun x => !ovf bn x)).length + (c.filter (ovf bn)).length = c.length := by
  induction c with
  | nil => rfl
  | cons x c ih =>
    rw [List.filter_cons, List.filter_cons]
    cases ovf bn x <;> simp <;> omega

theorem levels_spec : ∀ (bs : List Nat) (off : Nat) (c : List Word) (d : Dp), off + total bs c ≤ d.ov.length → d.data.length = d.offsets.length →
    ∃ d', levels bs off c d = some d' ∧ (∀ p, p < off → d'.ov[p]? = d.ov[p]?) ∧ (∀ l, l < d.offsets.length → d'.offsets[l]? = d.offsets[l]?) ∧
      (∀ l, l < d.offsets.length → d'.data[l]? = d.data[l]?) ∧ d'.size = d.size ∧ d'.offsets.length = d.offsets.length + bs.length ∧
      d'.data.length = d'.offsets.length ∧ Lay d' bs c off d.offsets.length := by
  intro bs
  induction bs with
  | nil =>
    intro off c d _ h
    exact ⟨d, rfl, fun _ _ => rfl, fun _ _ => rfl, fun _ _ => rfl, rfl, rfl, h, trivial⟩
  | cons bn bs ih =>
    intro off c d ht hd
    rw [total] at ht
    obtain ⟨ov', mx', h1, h2, h3, h4, _, h5, h6⟩ := mark_spec bn off c 0 d.ov 0 0 (by omega)
    simp only [Nat.add_zero, Nat.zero_add] at h1 h3 h4
    have hmx : mx' + 1 ≤ 64 := by omega
    have hcw : IntVec.clampWidth (mx' + 1) = mx' + 1 := by
      unfold IntVec.clampWidth; split
      · rfl
      · omega
    have hcw64 : IntVec.clampWidth 64 = 64 := by decide
    have hfl := filter_length_add bn c
    obtain ⟨a, r, g1, g2, g3⟩ := split_spec bn off ov' c 0 0 0 (Arr.new (c.length - (c.filter (ovf bn)).length) 0 64)
      (Arr.new (c.filter (ovf bn)).length 0 (mx' + 1)) (by simpa using h3) (by simp [Arr.new, hcw64]) (by
        intro x hx
        show x.toNat < 2 ^ IntVec.clampWidth (mx' + 1)
        rw [hcw]
        have := h5 x hx
        exact Nat.lt_of_lt_of_le Nat.lt_log2_self (Nat.pow_le_pow_right (by omega) (by omega))) (by simp [Arr.new]; omega) (by simp [Arr.new])
    rw [List.take_zero, List.nil_append] at g2 g3
    have hr : r.xs.map (BitVec.ofNat 64) = c.filter (ovf bn) := by
      rw [g3, List.map_map]
      conv => rhs; rw [← List.map_id (c.filter (ovf bn))]
      apply List.map_congr_left
      intro x _
      simp
    obtain ⟨d', k1, k2, k3, k4, k5, k6, k7, k8⟩ := ih (off + c.length) (c.filter (ovf bn)) ⟨d.size, ov', d.data ++ [compress a], d.offsets ++ [off]⟩
      (by show _ ≤ ov'.length; omega) (by simp [hd])
    refine ⟨d', ?_, ?_, ?_, ?_, k5, ?_, k7, ?_⟩
    · rw [levels, h1, sbind]
      dsimp only
      rw [g1, sbind]
      dsimp only
      rw [hr]; exact k1
    · intro p hp
      rw [k2 p (by omega)]
      exact h4 p (.inl hp)
    · intro l hl
      rw [k3 l (by simp; omega)]
      exact List.getElem?_append_left hl
    · intro l hl
      rw [k4 l (by simp; omega)]
      exact List.getElem?_append_left (by omega)
    · rw [k6]; simp; omega
    · refine ⟨?_, ?_, ⟨compress a, ?_, ?_⟩, ?_⟩
      · rw [k3 _ (by simp)]; simp
      · intro k hk
        rw [k2 _ (by omega)]; exact h3 k hk
      · rw [k4 _ (by simp)]; simp [← hd]
      · exact g2
      · simpa using k8

theorem totalSlots_spec (bs : List Nat) : ∀ (c : List Word) (t : Nat), ∃ t', totalSlots bs c t = some t' ∧ t + total bs c ≤ t' := by
  have key : ∀ (bs : List Nat) (c : List Word), total bs c ≤ (c.map (fun x => 1 + slots (Nat.log2 x.toNat) bs)).sum := by
    intro bs
    induction bs with
    | nil => intro c; exact Nat.zero_le _
    | cons bn bs ih =>
      intro c
      rw [total]
      refine Nat.le_trans (Nat.add_le_add_left (ih _) _) ?_
      clear ih
      induction c with
      | nil => simp
      | cons x c ihc =>
        rw [List.filter_cons, List.map_cons, List.sum_cons, List.length_cons]
        by_cases hq : bn ≤ Nat.log2 x.toNat
        · rw [if_pos (by simp [ovf, hq]), List.map_cons, List.sum_cons]
          rw [slots, if_pos hq]; omega
        · rw [if_neg (by simp [ovf, hq])]
          rw [slots, if_neg hq]; omega
  have h2 : ∀ (c : List Word) (t : Nat), totalSlots bs c t = some (t + (c.map (fun x => 1 + slots (Nat.log2 x.toNat) bs)).sum) := by
    intro c
    induction c with
    | nil => intro t; rfl
    | cons x c ih =>
      intro t
      rw [totalSlots, hi_eq, sbind, ih, List.map_cons, List.sum_cons]
      congr 1; omega
  intro c t
  exact ⟨_, h2 c t, Nat.add_le_add_left (key bs c) t⟩

theorem build_spec (junk : Nat → Bool) (bs : List Nat) (xs : List Word) :
    ∃ d, build junk bs xs = some d ∧ d.size = xs.length ∧ d.offsets.length = bs.length ∧ d.data.length = bs.length ∧ Lay d bs xs 0 0 := by
  obtain ⟨t, h1, h2⟩ := totalSlots_spec bs xs 0
  obtain ⟨d, g1, _, _, _, g5, g6, g7, g8⟩ := levels_spec bs 0 xs ⟨xs.length, (List.range t).map junk, [], []⟩ (by simp; omega) rfl
  refine ⟨d, by rw [build, h1, sbind]; exact g1, g5, by simpa using g6, by rw [g7]; simpa using g6, g8⟩

/-! ### `operator[]` -/

theorem filter_getElem? (f : Word → Bool) : ∀ (c : List Word) (i : Nat) (h : i < c.length), f c[i] = true →
    (c.filter f)[((c.take i).filter f).length]? = some c[i] := by
  intro c
  induction c with
  | nil => intro i h; simp at h
  | cons x c ih =>
    intro i h hf
    cases i with
    | zero =>
      rw [List.getElem_cons_zero] at hf ⊢
      simp [hf]
    | succ i =>
      rw [List.getElem_cons_succ] at hf ⊢
      have := ih i (by simpa using h) hf
      rw [List.take_succ_cons, List.filter_cons, List.filter_cons]
      by_cases hx : f x = true
      · rw [if_pos hx, if_pos hx, List.length_cons, List.getElem?_cons_succ]; exact this
      · rw [if_neg hx, if_neg hx]; exact this

theorem rank_level {ov : List Bool} {bn off : Nat} {c : List Word} (h : ∀ k (h : k < c.length), ov[off + k]? = some (ovf bn c[k])) :
    ∀ i, i ≤ c.length → rank ov (off + i) = rank ov off + ((c.take i).filter (ovf bn)).length := by
  intro i
  induction i with
  | zero => intro _; simp
  | succ i ih =>
    intro hi
    have e : rank ov (off + i + 1) = rank ov (off + i) + (ov.getD (off + i) false).toNat := by
      rw [rank, countTrue, rank]
    rw [← Nat.add_assoc, e, ih (by omega), List.getD_eq_getElem?_getD, h i (by omega), List.take_add_one, List.filter_append]
    simp only [List.getElem?_eq_getElem (show i < c.length by omega), Option.toList_some, Option.getD_some, List.length_append]
    rw [List.filter_cons]
    cases ovf bn c[i] <;> simp <;> omega

theorem getLoop_spec (d : Dp) : ∀ (bs : List Nat) (c : List Word) (off lvl i fuel : Nat) (h : i < c.length), Lay d bs c off lvl → bs.length ≤ fuel →
    (∃ bn ∈ bs, Nat.log2 (c[i]).toNat < bn) → getLoop d fuel lvl i = some (c[i]).toNat := by
  intro bs
  induction bs with
  | nil => intro c off lvl i fuel h _ _ h2; obtain ⟨bn, h3, _⟩ := h2; simp at h3
  | cons bn bs ih =>
    intro c off lvl i fuel h hl hf hc
    obtain ⟨l1, l2, ⟨a, l3, l4⟩, l5⟩ := hl
    cases fuel with
    | zero => simp at hf
    | succ fuel =>
      have hr := rank_level l2 i (by omega)
      rw [getLoop, l1, sbind, l2 i h, sbind, hr, Nat.add_sub_cancel_left]
      by_cases hq : ovf bn c[i] = true
      · rw [if_pos hq]
        have h1 := filter_getElem? (ovf bn) c i h hq
        have h2 : ((c.take i).filter (ovf bn)).length < (c.filter (ovf bn)).length := by
          apply Decidable.byContradiction
          intro h3
          rw [List.getElem?_eq_none (by omega)] at h1
          simp at h1
        have h3 : (c.filter (ovf bn))[((c.take i).filter (ovf bn)).length] = c[i] := by
          rw [List.getElem?_eq_getElem h2] at h1
          exact Option.some.inj h1
        have := ih (c.filter (ovf bn)) (off + c.length) (lvl + 1) ((c.take i).filter (ovf bn)).length fuel h2 l5 (by simpa using hf) (by
          rw [h3]
          obtain ⟨b, h4, h5⟩ := hc
          rcases List.mem_cons.1 h4 with h4 | h4
          · subst h4
            simp only [ovf, decide_eq_true_eq] at hq; omega
          · exact ⟨b, h4, h5⟩)
        rw [h3] at this
        exact this
      · rw [if_neg hq, l3, sbind, Arr.get, l4]
        have h1 := filter_getElem? (fun x => !ovf bn x) c i h (by simp [hq])
        have h2 := filter_length_add bn (c.take i)
        rw [List.length_take] at h2
        rw [show i - ((c.take i).filter (ovf bn)).length = ((c.take i).filter (fun x => !ovf bn x)).length by omega]
        rw [List.getElem?_map, h1]; rfl

theorem loadSize_spec {d : Dp} : ∀ (bs : List Nat) (c : List Word) (off lvl s : Nat), Lay d bs c off lvl → lvl + bs.length = d.data.length →
    (∀ x ∈ c, ∃ bn ∈ bs, Nat.log2 x.toNat < bn) →
    (d.data.drop lvl).foldl (fun s a => s + a.xs.length) s = s + c.length := by
  intro bs
  induction bs with
  | nil =>
    intro c off lvl s _ hl hc
    have : c = [] := by
      cases c with
      | nil => rfl
      | cons x c => obtain ⟨_, h, _⟩ := hc x (by simp); simp at h
    rw [List.drop_eq_nil_of_le (by simp at hl; omega), this]; rfl
  | cons bn bs ih =>
    intro c off lvl s hl hlen hc
    obtain ⟨_, _, ⟨a, l3, l4⟩, l5⟩ := hl
    rw [List.length_cons] at hlen
    have hlt : lvl < d.data.length := by omega
    rw [List.drop_eq_getElem_cons hlt, List.foldl_cons]
    rw [List.getElem?_eq_getElem hlt] at l3
    rw [Option.some.inj l3, l4, List.length_map, ih _ _ _ _ l5 (by omega)]
    · have := filter_length_add bn c; omega
    · intro x hx
      obtain ⟨h1, h2⟩ := List.mem_filter.1 hx
      obtain ⟨b, h3, h4⟩ := hc x h1
      rcases List.mem_cons.1 h3 with h3 | h3
      · subst h3
        simp only [ovf, decide_eq_true_eq] at h2; omega
      · exact ⟨b, h3, h4⟩

end Sdsl.Dac.Dp
