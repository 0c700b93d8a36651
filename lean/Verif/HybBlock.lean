/-
  `hyb_vector`: queries inside one block.
-/
import Verif.HybPut

namespace Sdsl.Hyb

open Bits Spec

/-- A block with at most two runs. -/
theorem two_runs {f : Nat → Bool} (hC : countTrue (chg f) 255 ≤ 1) {li : Nat} (h2 : li ≤ 256) :
    countTrue (fun q => f q == f 0) li = min li (countTrue (fun q => f q == f 0) 256) := by
  by_cases c : countTrue (chg f) 255 = 0
  · have : ∀ q, q < 256 → (f q == f 0) = true := fun q hq => eq_first (parity_even (k := 0) (by
      have := countTrue_mono (chg f) (show q ≤ 255 by omega)
      omega))
    rw [countTrue_all (Nat.zero_le li) (fun q _ hq => this q (by omega)), countTrue_all (Nat.zero_le 256) (fun q _ hq => this q hq)]
    simp [countTrue]; omega
  · obtain ⟨e, e1, e2, e3⟩ := exists_end (f := f) (k := 0) (n := 255) (by omega)
    have h := AtRun.init f
    have hin : ∀ n, e + 1 ≤ n → n ≤ 256 → countTrue (fun q => f q == f 0) n = e + 1 := by
      intro n n1 n2
      rw [countTrue_none n1 (fun q q1 q2 => ne_first (parity_odd (k := 0) (by
        have := (between (q := q) e2).2 (by omega)
        have := countTrue_mono (chg f) (show q ≤ 255 by omega)
        omega))), h.upto e2 e3 (Nat.zero_le _) (Nat.le_refl _)]
      omega
    rw [hin 256 (by omega) (Nat.le_refl _)]
    by_cases c2 : li ≤ e + 1
    · rw [h.upto e2 e3 (Nat.zero_le _) c2]; omega
    · rw [hin li (by omega) h2]; omega

theorem count_key_true (f : Nat → Bool) (n : Nat) : countTrue (fun q => f q == true) n = countTrue f n :=
  countTrue_congr (fun i _ => by cases f i <;> rfl)

theorem count_key_false (f : Nat → Bool) (n : Nat) : countTrue (fun q => f q == false) n = n - countTrue f n := by
  rw [← countTrue_not]
  exact countTrue_congr (fun i _ => by cases f i <;> rfl)

theorem blockRank_spec {f : Nat → Bool} {t : List Nat} {p y e li before : Nat} (h : Coded f t p y e) (h1 : 1 ≤ li) (h2 : li ≤ 256) : blockRank t p y li before = some (before + countTrue f li) := by
  have hle := countTrue_le f li
  have hle2 := countTrue_le f 256
  rw [blockRank]
  dsimp only
  rw [show (2 : Nat) ^ 10 = 1024 from rfl, show (2 : Nat) ^ 9 = 512 from rfl, h.enc, h.ones]
  rcases h.cases with ⟨c1, c2, c3⟩ | ⟨c1, c2, c3, c4, c5, c6⟩ | ⟨c1, c2, c3, c4, c5⟩ | ⟨c1, c2⟩
  · have ht := two_runs c2 h2
    rw [if_pos c1, c3]
    cases hf : f 0 with
    | true =>
      rw [hf, count_key_true, count_key_true] at ht
      simp only [Bool.toNat_true, Nat.one_mul, Nat.sub_self, Nat.zero_mul, Nat.add_zero]
      rw [← ht]
    | false =>
      rw [hf, count_key_false, count_key_false] at ht
      simp only [Bool.toNat_false, Nat.one_mul, Nat.sub_zero, Nat.zero_mul, Nat.zero_add]
      rw [← ht]
      congr 1
      omega
  · rw [if_neg (by omega), if_pos c2, if_neg (by omega), c5]
    cases hf : f 0 with
    | true =>
      rw [if_pos (show true.toNat = 1 from rfl), runsRank_spec (li := li) c6 c4 (by rw [hf, count_key_true]) h1 h2, hbind, hf, count_key_true]; rfl
    | false =>
      rw [if_neg (by decide), runsRank_spec (li := li) c6 c4 (by rw [hf, count_key_false]) h1 h2, hbind, hf, count_key_false]
      show some _ = some _
      congr 1
      omega
  · have hk := key_count f
    have hm := minorLoop_spec c5 h2 e 0 (by omega) (Nat.zero_le _)
    rw [if_neg (by omega), if_pos c2, if_pos c3.symm, ← Nat.add_zero p, hm, hbind, c4]
    cases hd : decide (countTrue f 256 < 256 - countTrue f 256) with
    | true =>
      rw [count_key_true]
      simp
    | false =>
      rw [count_key_false]
      show some _ = some _
      congr 1
      simp only [Bool.toNat_false, Nat.one_mul, Nat.sub_zero, Nat.zero_mul, Nat.add_zero]
      omega
  · rw [if_neg (by omega), if_neg (by omega)]
    have := plainRank_spec c2 (Nat.mod_lt li (show 0 < 64 by omega)) (li / 64) 0 before (by omega) (by omega)
    rw [Nat.mul_zero, Nat.add_zero, show countTrue f 0 = 0 from rfl, Nat.add_zero, Nat.zero_add, Nat.div_add_mod] at this
    exact this

theorem blockAccess_spec {f : Nat → Bool} {t : List Nat} {p y e li : Nat} (h : Coded f t p y e) (h1 : 1 ≤ li) (h2 : li ≤ 256) : blockAccess t p y li = some (f (li - 1)) := by
  have hle2 := countTrue_le f 256
  rw [blockAccess]
  dsimp only
  rw [show (2 : Nat) ^ 10 = 1024 from rfl, show (2 : Nat) ^ 9 = 512 from rfl, h.enc, h.ones]
  have hsp : ∀ b : Bool, decide (b.toNat = 1) = b := by intro b; cases b <;> rfl
  rcases h.cases with ⟨c1, c2, c3⟩ | ⟨c1, c2, c3, c4, c5, c6⟩ | ⟨c1, c2, c3, c4, c5⟩ | ⟨c1, c2⟩
  · have ht := two_runs c2 h2
    have ht' := two_runs c2 (show li - 1 ≤ 256 by omega)
    rw [if_pos c1, c3, hsp]
    have hfirst : (f 0).toNat * countTrue f 256 + (1 - (f 0).toNat) * (256 - countTrue f 256) = countTrue (fun q => f q == f 0) 256 := by
      cases hf : f 0 with
      | true => rw [count_key_true]; simp
      | false => rw [count_key_false]; simp
    rw [hfirst]
    have hstep : countTrue (fun q => f q == f 0) li = countTrue (fun q => f q == f 0) (li - 1) + (f (li - 1) == f 0).toNat := by
      conv => lhs; rw [show li = li - 1 + 1 by omega]
      rfl
    congr 1
    by_cases c : countTrue (fun q => f q == f 0) 256 < li
    · rw [decide_eq_true c]
      have : (f (li - 1) == f 0) = false := by
        cases hh : (f (li - 1) == f 0) with
        | false => rfl
        | true => rw [hh] at hstep; simp only [Bool.toNat_true] at hstep; omega
      revert this
      cases f (li - 1) <;> cases f 0 <;> simp
    · rw [decide_eq_false c]
      have : (f (li - 1) == f 0) = true := by
        cases hh : (f (li - 1) == f 0) with
        | true => rfl
        | false => rw [hh] at hstep; simp only [Bool.toNat_false] at hstep; omega
      revert this
      cases f (li - 1) <;> cases f 0 <;> simp
  · rw [if_neg (by omega), if_pos c2, if_neg (by omega), c5, hsp]
    refine runsAccess_spec c6 c4 ?_ h1 h2
    cases hf : f 0 with
    | true => rw [if_pos (show true.toNat = 1 from rfl), count_key_true]
    | false => rw [if_neg (by decide), count_key_false]
  · have hk := key_count f
    have hm := minorLoop_spec c5 h2 e 0 (by omega) (Nat.zero_le _)
    rw [Nat.add_zero] at hm
    rw [if_neg (by omega), if_pos c2, if_pos c3.symm, hm, hbind, c4, hsp]
    generalize hkey : decide (countTrue f 256 < 256 - countTrue f 256) = key at *
    obtain ⟨g1, g2⟩ := minor_last c5 h1 h2
    by_cases z : countTrue (fun q => f q == key) li = 0
    · rw [if_pos z, g1 z]
      cases key <;> rfl
    · obtain ⟨x, x1, x2⟩ := g2 z
      rw [if_neg z, x1, hbind]
      show some _ = some _
      congr 1
      by_cases d : x = li - 1
      · rw [x2.1 d, decide_eq_false (by simpa using d)]; cases key <;> rfl
      · have : f (li - 1) ≠ key := fun hh => d (x2.2 hh)
        rw [decide_eq_true (by simpa using d)]
        revert this
        cases f (li - 1) <;> cases key <;> simp
  · rw [if_neg (by omega), if_neg (by omega)]
    exact plainAccess_spec c2 h1 h2

/-- The encoding only depends on its bytes. -/
theorem Coded.congr {f : Nat → Bool} {t t' : List Nat} {p y e : Nat} (h : Coded f t p y e) (ht : ∀ q, q < p + e → t'[q]? = t[q]?) : Coded f t' p y e := by
  refine ⟨h.ones, h.enc, h.le, ?_⟩
  rcases h.cases with c | ⟨c1, c2, c3, c4, c5, c6⟩ | ⟨c1, c2, c3, c4, c5⟩ | ⟨c1, c2⟩
  · exact Or.inl c
  · exact Or.inr (Or.inl ⟨c1, c2, c3, c4, c5, fun j h1 h2 h3 => by rw [ht _ (by omega)]; exact c6 j h1 h2 h3⟩)
  · refine Or.inr (Or.inr (Or.inl ⟨c1, c2, c3, c4, fun j h1 h2 => ?_⟩))
    have hk := key_count f
    have := countTrue_lt_of_true (f := fun q => f q == decide (countTrue f 256 < 256 - countTrue f 256)) h1 (by simpa using h2)
    rw [ht _ (by omega)]
    exact c5 j h1 h2
  · refine Or.inr (Or.inr (Or.inr ⟨c1, fun k hk => ?_⟩))
    obtain ⟨w, w1, w2⟩ := c2 k hk
    exact ⟨w, by rw [rd_congr (m := t) (fun i hi => ht _ (by omega)), w1], w2⟩

end Sdsl.Hyb
