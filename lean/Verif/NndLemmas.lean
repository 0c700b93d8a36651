/-
  The nearest neighbour dictionary (Nnd.lean): construction and queries.
-/
import Verif.Nnd
import Verif.CsaSample

namespace Sdsl.Nnd

open Csa Spec

/-- The position of the `k`-th one, 0 for `k = 0`. -/
def P (v : List Bool) (k : Nat) : Nat := (Bv.select true v k).getD 0

/-- The number of ones in front of `i`. -/
def C (v : List Bool) (i : Nat) : Nat := Bv.cnt true v i

section
variable {v : List Bool}

theorem C_mono {a b : Nat} (h : a ≤ b) : C v a ≤ C v b := Bv.cnt_mono true v h

theorem C_zero : C v 0 = 0 := rfl

theorem P_zero : P v 0 = 0 := rfl

theorem P_spec {k : Nat} (h1 : 1 ≤ k) (h2 : k ≤ C v v.length) : P v k < v.length ∧ Bv.bit v (P v k) = true ∧ C v (P v k) + 1 = k := by
  obtain ⟨p, h3, h4, h5, h6⟩ := Bv.select_exists h1 h2
  rw [P, h3]
  exact ⟨h4, h5, h6⟩

theorem P_at {i : Nat} (h : i < v.length) (hb : Bv.bit v i = true) : P v (C v i + 1) = i := by
  rw [P, C, Bv.select_eq h hb]; rfl

theorem C_succ (i : Nat) : C v (i + 1) = C v i + (Bv.bit v i).toNat := by
  rw [C, Bv.cnt_succ]
  cases Bv.bit v i <;> rfl

theorem P_lt {k i : Nat} (h1 : 1 ≤ k) (h2 : k ≤ C v v.length) : P v k < i ↔ k ≤ C v i := by
  obtain ⟨_, h4, h5⟩ := P_spec h1 h2
  have h6 := C_succ (v := v) (P v k)
  rw [h4] at h6
  simp at h6
  constructor
  · intro h
    have := C_mono (v := v) (show P v k + 1 ≤ i from h)
    omega
  · intro h
    by_contra g
    have := C_mono (v := v) (show i ≤ P v k by omega)
    omega

theorem P_mono {k l : Nat} (h : k ≤ l) (h2 : l ≤ C v v.length) : P v k ≤ P v l := by
  rcases Nat.eq_zero_or_pos k with rfl | hk
  · rw [P_zero]; omega
  · rcases Nat.eq_or_lt_of_le h with rfl | h
    · exact Nat.le_refl _
    · have := (P_lt (v := v) (i := P v l) hk (by omega)).2 (by have := (P_spec (v := v) (k := l) (by omega) h2).2.2; omega)
      omega

/-- The largest distance. -/
theorem gap_ok : ∀ m i mx, i + m = v.length → (∀ o, 1 ≤ o → o ≤ C v i → P v o - P v (o - 1) ≤ mx) → mx ≤ v.length →
    ∃ mx', gap (v.drop i) i (if C v i = 0 then 0 else P v (C v i) + 1) mx (C v i) = (mx', C v v.length) ∧ mx' ≤ v.length ∧ ∀ o, 1 ≤ o → o ≤ C v v.length → P v o - P v (o - 1) ≤ mx' := by
  intro m
  induction m with
  | zero =>
    intro i mx hi h1 h2
    rw [Nat.add_zero] at hi
    rw [hi] at h1 ⊢
    rw [List.drop_length, gap]
    exact ⟨mx, rfl, h2, h1⟩
  | succ m ih =>
    intro i mx hi h1 h2
    have hlt : i < v.length := by omega
    rw [List.drop_eq_getElem_cons hlt, gap, ← Bv.bit_of_lt hlt]
    have hc := C_succ (v := v) i
    cases hb : Bv.bit v i with
    | false =>
      rw [hb] at hc
      simp only [Bool.toNat_false, Nat.add_zero] at hc
      have := ih (i + 1) mx (by omega) (by rw [hc]; exact h1) h2
      rw [hc] at this
      simpa using this
    | true =>
      rw [hb] at hc
      simp only [Bool.toNat_true] at hc
      have hp := P_at hlt hb
      obtain ⟨last, hl⟩ : ∃ x, x = (if C v i = 0 then 0 else P v (C v i) + 1) := ⟨_, rfl⟩
      have := ih (i + 1) (if i + 1 - last > mx then i + 1 - last else mx) (by omega) (by
        rw [hc]
        intro o o1 o2
        rcases Nat.lt_or_ge (C v i) o with h | h
        · have : o = C v i + 1 := by omega
          subst this
          rw [hp, Nat.add_sub_cancel]
          have : i - P v (C v i) ≤ i + 1 - last := by
            rw [hl]
            split
            · omega
            · omega
          split <;> omega
        · have := h1 o o1 h
          split <;> omega) (by split <;> omega)
      rw [hc, if_neg (by omega), hp] at this
      rw [← hl, if_pos rfl]
      exact this

end

/-- The tables after the first `i` bits. -/
structure Inv (t : Nat) (v : List Bool) (N i : Nat) (d : Tab) : Prop where
  alen : d.abs.xs.length = N / t + 1
  awid : v.length < 2 ^ d.abs.width
  dlen : d.diff.xs.length = N - N / t
  dwid : ∀ o, 1 ≤ o → o ≤ N → P v o - P v (o - 1) < 2 ^ d.diff.width
  clen : d.cont.length = (v.length + t - 1) / t
  abs : ∀ k, k ≤ N / t → d.abs.get k = some (if k * t ≤ C v i then P v (k * t) else 0)
  diff : ∀ o, 1 ≤ o → o ≤ C v i → o % t ≠ 0 → d.diff.get (o - o / t - 1) = some (P v o - P v (o - 1))
  cont : ∀ b, Bv.bit d.cont b = true ↔ ∃ k, 1 ≤ k ∧ k * t ≤ C v i ∧ P v (k * t) / t = b

/-- `o - o/t` is increasing, and strictly at numbers not divisible by `t`. -/
theorem phi_succ {t : Nat} (ht : 0 < t) (o : Nat) : (o + 1) - (o + 1) / t = o - o / t + (if (o + 1) % t = 0 then 0 else 1) := by
  have h1 := Nat.div_add_mod o t
  have h2 := Nat.div_add_mod (o + 1) t
  have h3 := Nat.mod_lt o ht
  have h4 := Nat.mod_lt (o + 1) ht
  have h5 : o / t ≤ o := Nat.div_le_self _ _
  have h6 : (o + 1) / t = o / t + (if (o + 1) % t = 0 then 1 else 0) := by
    rw [Nat.succ_div]
    simp only [Nat.dvd_iff_mod_eq_zero]
  rw [h6]
  split
  · omega
  · omega

theorem phi_mono {t : Nat} (ht : 0 < t) {a b : Nat} (h : a ≤ b) : a - a / t ≤ b - b / t := by
  induction b, h using Nat.le_induction with
  | base => exact Nat.le_refl _
  | succ b _ ih => rw [phi_succ ht]; omega

theorem phi_lt {t : Nat} (ht : 0 < t) {a b : Nat} (h : a < b) (hb : b % t ≠ 0) : a - a / t < b - b / t := by
  obtain ⟨b, rfl⟩ : ∃ c, b = c + 1 := ⟨b - 1, by omega⟩
  rw [phi_succ ht, if_neg hb]
  have := phi_mono ht (show a ≤ b by omega)
  omega

theorem fill_ok {t : Nat} {v : List Bool} (ht : 0 < t) : ∀ m i d, i + m = v.length → Inv t v (C v v.length) i d → ∃ d', fill t (v.drop i) i (P v (C v i)) (C v i) d = some d' ∧ Inv t v (C v v.length) v.length d' := by
  intro m
  induction m with
  | zero =>
    intro i d hi h
    rw [Nat.add_zero] at hi
    rw [hi] at h ⊢
    rw [List.drop_length, fill]
    exact ⟨d, rfl, h⟩
  | succ m ih =>
    intro i d hi h
    have hlt : i < v.length := by omega
    rw [List.drop_eq_getElem_cons hlt, fill, ← Bv.bit_of_lt hlt]
    have hc := C_succ (v := v) i
    cases hb : Bv.bit v i with
    | false =>
      rw [hb] at hc
      simp only [Bool.toNat_false, Nat.add_zero] at hc
      have := ih (i + 1) d (by omega) ⟨h.alen, h.awid, h.dlen, h.dwid, h.clen, by rw [hc]; exact h.abs, by rw [hc]; exact h.diff, by rw [hc]; exact h.cont⟩
      rw [hc] at this
      simpa using this
    | true =>
      rw [hb] at hc
      simp only [Bool.toNat_true] at hc
      have hp := P_at hlt hb
      have hN : C v i + 1 ≤ C v v.length := by
        have := C_mono (v := v) (show i + 1 ≤ v.length from hlt)
        rw [← hc]; exact this
      rw [if_pos rfl]
      by_cases hm : (C v i + 1) % t = 0
      · have ha : (C v i + 1) / t < d.abs.xs.length := by
          rw [h.alen]
          have := Nat.div_le_div_right (c := t) hN
          omega
        have hcl : i / t < d.cont.length := by
          rw [h.clen]
          have h7 := Nat.div_mul_le_self i t
          have : i / t + 1 ≤ (v.length + t - 1) / t := by
            rw [Nat.le_div_iff_mul_le ht, Nat.succ_mul]
            omega
          omega
        have hdm : (C v i + 1) / t * t = C v i + 1 := Nat.div_mul_cancel (Nat.dvd_of_mod_eq_zero hm)
        rw [if_pos hm, Arr.set_of_lt ha, sbind, Bv.set_of_lt hcl, sbind]
        have := ih (i + 1) { d with abs := { d.abs with xs := d.abs.xs.set ((C v i + 1) / t) (i % 2 ^ d.abs.width) }, cont := d.cont.set (i / t) true } (by omega)
          ⟨by simpa using h.alen, h.awid, h.dlen, h.dwid, by simpa using h.clen, ?_, ?_, ?_⟩
        · rw [hc, hp] at this
          exact this
        · intro k hk
          show (d.abs.xs.set _ _)[k]? = _
          rw [hc]
          by_cases e : k = (C v i + 1) / t
          · rw [e, List.getElem?_set_self ha, hdm, if_pos (Nat.le_refl _), hp, Nat.mod_eq_of_lt (by have := h.awid; omega)]
          · rw [List.getElem?_set_ne (by omega)]
            have := h.abs k hk
            rw [Arr.get] at this
            rw [this]
            have hne : k * t ≠ C v i + 1 := by
              rw [← hdm]
              intro g
              exact e (Nat.eq_of_mul_eq_mul_right ht g)
            by_cases g : k * t ≤ C v i
            · rw [if_pos g, if_pos (by omega)]
            · rw [if_neg g, if_neg (by omega)]
        · rw [hc]
          intro o o1 o2 o3
          have : o ≠ C v i + 1 := by rintro rfl; exact o3 hm
          exact h.diff o o1 (by omega) o3
        · rw [hc]
          intro b
          show Bv.bit (d.cont.set _ _) b = true ↔ _
          rw [Bv.bit_set hcl]
          by_cases e : b = i / t
          · rw [if_pos e]
            simp only [true_iff]
            refine ⟨(C v i + 1) / t, ?_, by rw [hdm], by rw [hdm, hp, e]⟩
            rw [Nat.one_le_iff_ne_zero]
            intro g
            rw [g] at hdm
            omega
          · rw [if_neg e, h.cont]
            constructor
            · rintro ⟨k, k1, k2, k3⟩
              exact ⟨k, k1, by omega, k3⟩
            · rintro ⟨k, k1, k2, k3⟩
              refine ⟨k, k1, ?_, k3⟩
              by_contra g
              have : k * t = C v i + 1 := by omega
              rw [this, hp] at k3
              exact e k3.symm
      · have hd : C v i + 1 - (C v i + 1) / t - 1 < d.diff.xs.length := by
          rw [h.dlen]
          have := phi_mono ht hN
          have := phi_lt ht (show 0 < C v i + 1 by omega) hm
          omega
        rw [if_neg hm, Arr.set_of_lt hd, sbind]
        have := ih (i + 1) { d with diff := { d.diff with xs := d.diff.xs.set (C v i + 1 - (C v i + 1) / t - 1) ((i - P v (C v i)) % 2 ^ d.diff.width) } } (by omega)
          ⟨h.alen, h.awid, by simpa using h.dlen, h.dwid, h.clen, ?_, ?_, ?_⟩
        · rw [hc, hp] at this
          exact this
        · intro k hk
          rw [h.abs k hk, hc]
          have hne : k * t ≠ C v i + 1 := by
            intro g
            rw [← g] at hm
            exact hm (Nat.mul_mod_left _ _)
          by_cases g : k * t ≤ C v i
          · rw [if_pos g, if_pos (by omega)]
          · rw [if_neg g, if_neg (by omega)]
        · rw [hc]
          intro o o1 o2 o3
          show (d.diff.xs.set _ _)[_]? = _
          by_cases e : o = C v i + 1
          · subst e
            rw [List.getElem?_set_self hd, Nat.add_sub_cancel, hp]
            have := h.dwid (C v i + 1) (by omega) hN
            rw [hp, Nat.add_sub_cancel] at this
            rw [Nat.mod_eq_of_lt this]
          · rw [List.getElem?_set_ne]
            · exact h.diff o o1 (by omega) o3
            · have := phi_lt ht (show o < C v i + 1 by omega) hm
              have := phi_lt ht (show 0 < o by omega) o3
              omega
        · rw [hc]
          intro b
          rw [h.cont]
          constructor
          · rintro ⟨k, k1, k2, k3⟩
            exact ⟨k, k1, by omega, k3⟩
          · rintro ⟨k, k1, k2, k3⟩
            refine ⟨k, k1, ?_, k3⟩
            by_contra g
            have : k * t = C v i + 1 := by omega
            rw [← this] at hm
            exact hm (Nat.mul_mod_left _ _)

/-- The constructed dictionary. -/
structure Ok (t : Nat) (v : List Bool) (d : Obj) : Prop where
  ones : d.ones = C v v.length
  size : d.size = v.length
  inv : Inv t v (C v v.length) v.length d.tab

theorem new_ok {t : Nat} {v : List Bool} (ht : 0 < t) (hn : v.length + t ≤ 2 ^ 64) : ∃ d, new t v = some d ∧ Ok t v d := by
  obtain ⟨mx, h1, h2, h3⟩ := gap_ok (v := v) v.length 0 0 (by omega) (by intro o o1 o2; rw [C_zero] at o2; omega) (Nat.zero_le _)
  simp only [List.drop_zero, C_zero, if_true] at h1
  obtain ⟨wa, a1, a2, a3⟩ := hiW_spec (n := v.length) (by omega)
  obtain ⟨wd, d1, d2, d3⟩ := hiW_spec (n := mx) (by omega)
  have hcl : sub64 (add64 v.length t) 1 / t = (v.length + t - 1) / t := by
    refine congrArg (· / t) ?_
    rw [sub64, add64]
    obtain ⟨z, hz⟩ : ∃ z, z = 2 ^ 64 := ⟨_, rfl⟩
    rw [← hz] at hn ⊢
    have hz2 : 1 < z := by rw [hz]; decide
    rcases Nat.lt_or_ge (v.length + t) z with g | g
    · rw [Nat.mod_eq_of_lt g, show v.length + t + z - 1 = (v.length + t - 1) + z by omega, Nat.add_mod_right, Nat.mod_eq_of_lt (by omega)]
    · have : v.length + t = z := by omega
      rw [this, Nat.mod_self, Nat.zero_add, Nat.mod_eq_of_lt (by omega)]
  have hinv : Inv t v (C v v.length) 0 ⟨Arr.new (C v v.length / t + 1) 0 wa, Arr.new (C v v.length - C v v.length / t) 0 wd, List.replicate (sub64 (add64 v.length t) 1 / t) false⟩ := by
    refine ⟨by simp [Arr.new], by simpa [Arr.new, a3] using a2, by simp [Arr.new], fun o o1 o2 => ?_, by simp [hcl], ?_, ?_, ?_⟩
    · have := h3 o o1 o2
      show _ < 2 ^ IntVec.clampWidth wd
      rw [d3]; omega
    · intro k hk
      rw [C_zero]
      have : (if k * t ≤ 0 then P v (k * t) else 0) = 0 := by
        split
        · rw [show k * t = 0 by omega, P_zero]
        · rfl
      rw [this]
      simp [Arr.get, Arr.new, List.getElem?_replicate]
      omega
    · intro o o1 o2
      rw [C_zero] at o2
      omega
    · intro b
      dsimp only
      rw [Bv.bit_replicate, C_zero]
      simp only [Bool.false_eq_true, false_iff, not_exists, not_and]
      intro k k1 k2
      have := Nat.mul_pos k1 ht
      omega
  obtain ⟨d, f1, f2⟩ := fill_ok (v := v) ht v.length 0 _ (by omega) hinv
  rw [List.drop_zero, C_zero, P_zero] at f1
  refine ⟨⟨d, C v v.length, v.length⟩, ?_, rfl, rfl, f2⟩
  rw [new, h1]
  dsimp only
  rw [a1, sbind, d1, sbind, f1, sbind]
  rfl

section
variable {t : Nat} {v : List Bool} {d : Obj} (ht : 0 < t) (h : Ok t v d)
include ht h

/-- The ones of `m_contains_abs_sample` count the sampled ones. -/
theorem cont_cnt (b : Nat) : Bv.cnt true d.tab.cont b = C v (b * t) / t := by
  induction b with
  | zero => rw [Bv.cnt_zero, Nat.zero_mul, C_zero, Nat.zero_div]
  | succ b ih =>
    rw [Bv.cnt_succ, ih]
    have hle : C v ((b + 1) * t) ≤ C v (b * t) + t := by
      rw [C, C, Nat.succ_mul, Bv.cnt, Bv.cnt, countTrue_add]
      have := countTrue_le (fun i => Bv.bit v (b * t + i) == true) t
      omega
    have hge : C v (b * t) ≤ C v ((b + 1) * t) := C_mono (v := v) (Nat.mul_le_mul_right _ (by omega))
    have hN : C v ((b + 1) * t) ≤ C v v.length := by
      rcases Nat.le_total ((b + 1) * t) v.length with g | g
      · exact C_mono (v := v) g
      · have : C v ((b + 1) * t) = C v v.length := by
          obtain ⟨x, hx⟩ := Nat.exists_eq_add_of_le g
          have h0 : countTrue (fun i => Bv.bit v (v.length + i) == true) x = 0 := by
            rw [countTrue_congr (g := fun _ => false), countTrue_false]
            intro i _
            rw [Bv.bit_of_ge (by omega)]
            rfl
          rw [C, C, hx, Bv.cnt, Bv.cnt, countTrue_add, h0, Nat.add_zero]
        rw [this]
    have hdm := Nat.div_add_mod (C v (b * t)) t
    have hdm2 := Nat.div_add_mod (C v ((b + 1) * t)) t
    have hml := Nat.mod_lt (C v (b * t)) ht
    have hml2 := Nat.mod_lt (C v ((b + 1) * t)) ht
    have key : ∀ k, 1 ≤ k → k * t ≤ C v v.length → (P v (k * t) / t = b ↔ C v (b * t) < k * t ∧ k * t ≤ C v ((b + 1) * t)) := by
      intro k k1 k2
      have kp : 1 ≤ k * t := Nat.mul_pos k1 ht
      rw [← P_lt kp k2, ← Nat.not_le, ← P_lt kp k2, Nat.div_eq_iff ht, Nat.succ_mul]
      omega
    by_cases hb : Bv.bit d.tab.cont b = true
    · rw [hb]
      obtain ⟨k, k1, k2, k3⟩ := (h.inv.cont b).1 hb
      obtain ⟨g1, g2⟩ := (key k k1 k2).1 k3
      have e1 : k ≤ C v ((b + 1) * t) / t := (Nat.le_div_iff_mul_le ht).2 g2
      have e2 : C v (b * t) / t < k := (Nat.div_lt_iff_lt_mul ht).2 g1
      have e3 : C v ((b + 1) * t) / t ≤ C v (b * t) / t + 1 := by
        rw [← Nat.add_div_right _ ht]
        exact Nat.div_le_div_right hle
      show _ + 1 = _
      omega
    · rw [Bool.eq_false_iff.2 hb]
      have e3 : C v (b * t) / t ≤ C v ((b + 1) * t) / t := Nat.div_le_div_right hge
      show _ + 0 = _
      by_contra g
      apply hb
      rw [h.inv.cont b]
      have k2 : C v ((b + 1) * t) / t * t ≤ C v ((b + 1) * t) := Nat.div_mul_le_self _ _
      have k1 : 1 ≤ C v ((b + 1) * t) / t := by omega
      refine ⟨_, k1, by omega, (key _ k1 (by omega)).2 ⟨?_, k2⟩⟩
      rw [← Nat.div_lt_iff_lt_mul ht]
      omega

omit ht in
/-- One step from the `o-1`-th to the `o`-th one. -/
theorem next_one {o : Nat} (h1 : 1 ≤ o) (h2 : o ≤ C v v.length) : (o % t = 0 → d.tab.abs.get (o / t) = some (P v o)) ∧
    (o % t ≠ 0 → ∃ x, d.tab.diff.get (o - o / t - 1) = some x ∧ P v (o - 1) + x = P v o) := by
  refine ⟨fun hm => ?_, fun hm => ⟨_, h.inv.diff o h1 h2 hm, ?_⟩⟩
  · have hdm : o / t * t = o := Nat.div_mul_cancel (Nat.dvd_of_mod_eq_zero hm)
    rw [h.inv.abs _ (Nat.div_le_div_right h2), hdm, if_pos h2]
  · have := P_mono (show o - 1 ≤ o by omega) h2
    omega

omit ht in
theorem rankLoop_ok {idx : Nat} (hi : idx ≤ v.length) : ∀ f res, C v v.length < res + f → res ≤ C v idx → rankLoop t d idx f res (P v res) = some (C v idx) := by
  have hC : C v idx ≤ C v v.length := C_mono (v := v) hi
  intro f
  induction f with
  | zero => intro res h1 h2; omega
  | succ f ih =>
    intro res h1 h2
    rw [rankLoop, h.ones]
    by_cases g : res + 1 ≤ C v v.length
    · rw [if_pos g]
      obtain ⟨n1, n2⟩ := next_one h (show 1 ≤ res + 1 by omega) g
      have hx : stepOne t d (res + 1) (P v res) = some (P v (res + 1)) := by
        rw [stepOne]
        by_cases hm : (res + 1) % t = 0
        · rw [if_pos hm, n1 hm]
        · obtain ⟨x, x1, x2⟩ := n2 hm
          rw [if_neg hm, x1, sbind, ← x2, Nat.add_sub_cancel]
          rfl
      have hlt := P_lt (v := v) (i := idx) (show 1 ≤ res + 1 by omega) g
      rw [hx, sbind]
      by_cases g2 : res + 1 ≤ C v idx
      · have e1 := hlt.2 g2
        rw [if_neg (by omega), ih (res + 1) (by omega) g2]
      · have e1 : ¬ P v (res + 1) < idx := fun e => g2 (hlt.1 e)
        have e2 : res = C v idx := by omega
        rw [if_pos (by omega), ← e2]
        rfl
    · rw [if_neg g]
      congr 1
      omega

theorem rank_ok {idx : Nat} (hi : idx ≤ v.length) : rank t d idx = some (C v idx) := by
  have hb : idx / t ≤ d.tab.cont.length := by
    rw [h.inv.clen]
    refine Nat.div_le_div_right ?_
    omega
  have hbt : idx / t * t ≤ idx := Nat.div_mul_le_self _ _
  have h1 : C v (idx / t * t) ≤ C v idx := C_mono (v := v) hbt
  have hC : C v idx ≤ C v v.length := C_mono (v := v) hi
  have h2 : C v (idx / t * t) / t * t ≤ C v (idx / t * t) := Nat.div_mul_le_self _ _
  have h3 : C v (idx / t * t) / t ≤ C v v.length / t := Nat.div_le_div_right (by omega)
  rw [rank, Bv.rank_of_le hb, sbind, cont_cnt ht h, h.inv.abs _ h3, sbind, if_pos (by omega)]
  exact rankLoop_ok h hi _ _ (by rw [h.ones]; omega) (by omega)

theorem sumLoop_ok {q : Nat} : ∀ k m, m + k < t → q * t + m + k ≤ C v v.length → sumLoop d k (q * t + m - q) (P v (q * t + m)) = some (P v (q * t + m + k)) := by
  intro k
  induction k with
  | zero => intro m _ _; rfl
  | succ k ih =>
    intro m h1 h2
    have hdiv : (q * t + m + 1) / t = q := by
      rw [Nat.add_assoc, Nat.add_comm, Nat.add_mul_div_right _ _ ht, Nat.div_eq_of_lt (by omega), Nat.zero_add]
    have hmod : (q * t + m + 1) % t = m + 1 := by
      rw [Nat.add_assoc, Nat.add_comm, Nat.add_mul_mod_self_right, Nat.mod_eq_of_lt (by omega)]
    obtain ⟨x, x1, x2⟩ := (next_one h (show 1 ≤ q * t + m + 1 by omega) (by omega)).2 (by omega)
    have hq : q ≤ q * t := Nat.le_mul_of_pos_right _ ht
    rw [hdiv, show q * t + m + 1 - q - 1 = q * t + m - q by omega] at x1
    rw [Nat.add_sub_cancel] at x2
    have := ih (m + 1) (by omega) (by omega)
    rw [sumLoop, x1, sbind, x2, show q * t + m - q + 1 = q * t + (m + 1) - q by omega, ← Nat.add_assoc] at *
    rw [this]
    congr 2
    omega

theorem select_ok {i : Nat} (h2 : i ≤ C v v.length) : select t d i = some (P v i) := by
  have hdm := Nat.div_add_mod' i t
  have hml := Nat.mod_lt i ht
  rw [select, h.inv.abs _ (Nat.div_le_div_right h2), sbind, if_pos (by omega)]
  have := sumLoop_ok ht h (q := i / t) (i % t) 0 (by omega) (by omega)
  rw [Nat.add_zero] at this
  rw [this, hdm]

end

end Sdsl.Nnd
