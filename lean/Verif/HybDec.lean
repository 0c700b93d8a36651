/-
  `hyb_vector`: decoding of the encoded blocks.
-/
import Verif.Hyb
import Verif.BitsCount
import Verif.RankLemmas
import Mathlib.Tactic.ByContra

namespace Sdsl.Hyb

open Bits Spec

theorem hbind {α β : Type} (a : α) (f : α → Option β) : (some a >>= f) = f a := rfl

/-! ### Counting -/

theorem countTrue_all {g : Nat → Bool} {a b : Nat} (hab : a ≤ b) (h : ∀ q, a ≤ q → q < b → g q = true) : countTrue g b = countTrue g a + (b - a) := by
  induction b with
  | zero => obtain rfl : a = 0 := by omega
            simp
  | succ b ih =>
    by_cases e : a = b + 1
    · subst e; simp
    · rw [countTrue, ih (by omega) (fun q h1 h2 => h q h1 (by omega)), h b (by omega) (by omega)]
      simp only [Bool.toNat_true]; omega

theorem countTrue_none {g : Nat → Bool} {a b : Nat} (hab : a ≤ b) (h : ∀ q, a ≤ q → q < b → g q = false) : countTrue g b = countTrue g a := by
  induction b with
  | zero => obtain rfl : a = 0 := by omega
            rfl
  | succ b ih =>
    by_cases e : a = b + 1
    · subst e; rfl
    · rw [countTrue, ih (by omega) (fun q h1 h2 => h q h1 (by omega)), h b (by omega) (by omega)]; rfl

theorem countTrue_one {g : Nat → Bool} {q : Nat} (h : g q = true) : countTrue g (q + 1) = countTrue g q + 1 := by rw [countTrue, h]; rfl

theorem countTrue_cmpl (f : Nat → Bool) (c : Bool) (n : Nat) : countTrue (fun q => f q == c) n + countTrue (fun q => f q == !c) n = n := by
  have h := countTrue_not (fun q => f q == c) n
  have h2 := countTrue_le (fun q => f q == c) n
  rw [countTrue_congr (f := fun q => f q == !c) (g := fun q => !(f q == c)) (fun q _ => by cases f q <;> cases c <;> rfl)]
  omega

/-- The bits `f` change after position `j`. -/
def chg (f : Nat → Bool) (j : Nat) : Bool := f j != f (j + 1)

theorem parity (f : Nat → Bool) : ∀ q, f q = (f 0 ^^ decide (countTrue (chg f) q % 2 = 1))
  | 0 => by simp [countTrue]
  | q + 1 => by
    have ih := parity f q
    rw [countTrue]
    cases hc : chg f q with
    | false =>
      have : f (q + 1) = f q := by
        unfold chg at hc
        cases h1 : f q <;> cases h2 : f (q + 1) <;> simp_all
      rw [this, ih]; simp
    | true =>
      have : f (q + 1) = !f q := by
        unfold chg at hc
        cases h1 : f q <;> cases h2 : f (q + 1) <;> simp_all
      rw [this, ih]
      simp only [Bool.toNat_true]
      rcases Nat.mod_two_eq_zero_or_one (countTrue (chg f) q) with e | e
      · rw [decide_eq_false (by omega), decide_eq_true (by omega)]; cases f 0 <;> rfl
      · rw [decide_eq_true (by omega), decide_eq_false (by omega)]; cases f 0 <;> rfl

theorem parity_even {f : Nat → Bool} {q k : Nat} (h : countTrue (chg f) q = 2 * k) : f q = f 0 := by
  rw [parity f q, h, decide_eq_false (by omega), Bool.xor_false]

theorem parity_odd {f : Nat → Bool} {q k : Nat} (h : countTrue (chg f) q = 2 * k + 1) : f q = !f 0 := by
  rw [parity f q, h, decide_eq_true (by omega), Bool.xor_true]

/-- The end of run number `k`. -/
theorem exists_end {f : Nat → Bool} {k n : Nat} (h : k < countTrue (chg f) n) : ∃ e, e < n ∧ chg f e = true ∧ countTrue (chg f) e = k := by
  obtain ⟨e, h1, h2, h3⟩ := IsSelect.exists (f := chg f) (n := n) (i := k + 1) (by omega) (by omega)
  exact ⟨e, h1, h2, by omega⟩

/-- Between two run ends. -/
theorem between {f : Nat → Bool} {e q : Nat} (he : chg f e = true) : (q ≤ e → countTrue (chg f) q ≤ countTrue (chg f) e) ∧ (e < q → countTrue (chg f) e + 1 ≤ countTrue (chg f) q) :=
  ⟨fun h => countTrue_mono _ h, fun h => by
    have := countTrue_mono (chg f) (show e + 1 ≤ q from h)
    rw [countTrue_one he] at this
    exact this⟩

/-! ### Runs -/

/-- The first `enc` run ends of the block are stored from byte `p`. -/
def EndsAt (f : Nat → Bool) (t : List Nat) (p enc : Nat) : Prop := ∀ j, j < 255 → chg f j = true → countTrue (chg f) j < enc → t[p + countTrue (chg f) j]? = some j

/-- The state of the loop over pairs of runs: `s` is the begin of run `2m`. -/
structure AtRun (f : Nat → Bool) (m s acc : Nat) : Prop where
  cnt : countTrue (chg f) s = 2 * m
  start : 0 < s → chg f (s - 1) = true
  acc : acc = countTrue (fun q => f q == f 0) s

theorem AtRun.end_ge {f : Nat → Bool} {m s acc e : Nat} (h : AtRun f m s acc) (he : chg f e = true) (hc : 2 * m ≤ countTrue (chg f) e) : s ≤ e := by
  by_contra c
  have := (between (q := s) he).2 (by omega)
  have := h.cnt
  omega

theorem AtRun.first {f : Nat → Bool} {m s acc e : Nat} (h : AtRun f m s acc) (_ : chg f e = true) (hc : countTrue (chg f) e = 2 * m) {q : Nat} (h1 : s ≤ q) (h2 : q ≤ e) : f q = f 0 := by
  have a1 := countTrue_mono (chg f) h1
  have a2 := countTrue_mono (chg f) h2
  have := h.cnt
  exact parity_even (k := m) (by omega)

theorem second {f : Nat → Bool} {m e e2 q : Nat} (he : chg f e = true) (hc : countTrue (chg f) e = 2 * m) (h2 : countTrue (chg f) e2 = 2 * m + 1) (h3 : e < q) (h4 : q ≤ e2) : f q = !f 0 := by
  have a1 := (between (q := q) he).2 h3
  have a2 := countTrue_mono (chg f) h4
  exact parity_odd (k := m) (by omega)

theorem eq_first {f : Nat → Bool} {q : Nat} (h : f q = f 0) : (f q == f 0) = true := by rw [h]; simp

theorem ne_first {f : Nat → Bool} {q : Nat} (h : f q = !f 0) : (f q == f 0) = false := by rw [h]; simp

/-- The bits equal to the first one up to the end of run `2m`. -/
theorem AtRun.upto {f : Nat → Bool} {m s acc e : Nat} (h : AtRun f m s acc) (he : chg f e = true) (hc : countTrue (chg f) e = 2 * m) {q : Nat} (h1 : s ≤ q) (h2 : q ≤ e + 1) :
    countTrue (fun q => f q == f 0) q = acc + (q - s) := by
  rw [h.acc]
  exact countTrue_all h1 (fun x h3 h4 => eq_first (h.first he hc h3 (by omega)))

theorem AtRun.upto2 {f : Nat → Bool} {m s acc e e2 : Nat} (h : AtRun f m s acc) (he : chg f e = true) (hc : countTrue (chg f) e = 2 * m) (h2 : countTrue (chg f) e2 = 2 * m + 1) {q : Nat}
    (h3 : e + 1 ≤ q) (h4 : q ≤ e2 + 1) : countTrue (fun q => f q == f 0) q = acc + (e + 1 - s) := by
  rw [← h.upto he hc (by have := h.end_ge he (by omega); omega) (Nat.le_refl (e + 1))]
  exact countTrue_none h3 (fun x h5 h6 => ne_first (second he hc h2 (by omega) (by omega)))

theorem pairLoop_spec {f : Nat → Bool} {t : List Nat} {p0 enc li : Nat} (ht : EndsAt f t p0 enc) (hC : countTrue (chg f) 255 = enc + 1) :
    ∀ (fuel m s acc : Nat), enc + 1 ≤ fuel + 2 * m → 2 * m ≤ enc → s ≤ li → AtRun f m s acc →
      ∃ m' s' acc', pairLoop t enc li fuel (p0 + 2 * m) (2 * m) s acc = some (p0 + 2 * m', 2 * m', s', acc') ∧ 2 * m' ≤ enc ∧ s' ≤ li ∧ AtRun f m' s' acc' ∧
        (2 * m' + 1 < enc → ∀ e, e < 255 → chg f e = true → countTrue (chg f) e = 2 * m' + 1 → li ≤ e) := by
  intro fuel
  induction fuel with
  | zero => intro m s acc h1 h2; omega
  | succ fuel ih =>
    intro m s acc h1 h2 h3 h4
    rw [pairLoop]
    by_cases c : 2 * m + 1 < enc
    · rw [if_pos c]
      obtain ⟨e1, a1, a2, a3⟩ := exists_end (f := f) (k := 2 * m) (n := 255) (by omega)
      obtain ⟨e2, b1, b2, b3⟩ := exists_end (f := f) (k := 2 * m + 1) (n := 255) (by omega)
      have r1 := ht e1 a1 a2 (by omega)
      have r2 := ht e2 b1 b2 (by omega)
      rw [a3] at r1
      rw [b3] at r2
      rw [show p0 + 2 * m + 1 = p0 + (2 * m + 1) by omega, r2, hbind]
      by_cases c2 : e2 < li
      · rw [if_pos c2, r1, hbind]
        have hlt : e1 < e2 := by
          by_contra hh
          have := countTrue_mono (chg f) (show e2 ≤ e1 by omega)
          omega
        have := ih (m + 1) (e2 + 1) (acc + (e1 + 1 - s)) (by omega) (by omega) (by omega)
          ⟨by rw [countTrue_one b2]; omega, fun _ => by rw [Nat.add_sub_cancel]; exact b2, (h4.upto2 a2 a3 b3 (by omega) (Nat.le_refl _)).symm⟩
        rw [show p0 + 2 * (m + 1) = p0 + 2 * m + 2 by omega, show 2 * (m + 1) = 2 * m + 2 by omega] at this
        exact this
      · rw [if_neg c2]
        refine ⟨m, s, acc, rfl, h2, h3, h4, fun _ e x1 x2 x3 => ?_⟩
        have : e = e2 := by
          rcases Nat.lt_trichotomy e e2 with g | g | g
          · have := (between (q := e2) x2).2 g; omega
          · exact g
          · have := (between (q := e) b2).2 g; omega
        omega
    · rw [if_neg c]
      exact ⟨m, s, acc, rfl, h2, h3, h4, fun h => absurd h c⟩

theorem AtRun.init (f : Nat → Bool) : AtRun f 0 0 0 := ⟨rfl, fun h => absurd h (by omega), rfl⟩

theorem runsRank_spec {f : Nat → Bool} {t : List Nat} {p enc tot li : Nat} (ht : EndsAt f t p enc) (hC : countTrue (chg f) 255 = enc + 1) (htot : tot = countTrue (fun q => f q == f 0) 256)
    (h1 : 1 ≤ li) (h2 : li ≤ 256) : runsRank t p enc tot li = some (countTrue (fun q => f q == f 0) li) := by
  obtain ⟨m, s, acc, e1, e2, e3, e4, e5⟩ := pairLoop_spec (li := li) ht hC (enc + 1) 0 0 0 (by omega) (by omega) (by omega) (AtRun.init f)
  rw [Nat.mul_zero, Nat.add_zero p] at e1
  rw [runsRank, e1, hbind]
  dsimp only
  obtain ⟨x, x1, x2, x3⟩ := exists_end (f := f) (k := 2 * m) (n := 255) (by omega)
  have hsx := e4.end_ge x2 (by omega)
  by_cases c : 2 * m + 1 ≥ enc
  · rw [if_pos c]
    by_cases c2 : 2 * m < enc
    · have r1 := ht x x1 x2 (by omega)
      rw [x3] at r1
      rw [if_pos c2, r1, hbind]
      by_cases c3 : x ≥ li
      · rw [if_pos c3, e4.upto x2 x3 e3 (by omega)]; rfl
      · rw [if_neg c3]
        obtain ⟨y, y1, y2, y3⟩ := exists_end (f := f) (k := 2 * m + 1) (n := 255) (by omega)
        have hxy : x < y := by
          by_contra hh
          have := countTrue_mono (chg f) (show y ≤ x by omega)
          omega
        have hin : ∀ q, y + 1 ≤ q → q ≤ 256 → countTrue (fun q => f q == f 0) q = acc + (x + 1 - s) + (q - (y + 1)) := by
          intro q q1 q2
          rw [← e4.upto2 x2 x3 y3 (show x + 1 ≤ y + 1 by omega) (Nat.le_refl _)]
          refine countTrue_all q1 (fun z z1 z2 => eq_first (parity_even (k := m + 1) ?_))
          have := (between (q := z) y2).2 (by omega)
          have := countTrue_mono (chg f) (show z ≤ 255 by omega)
          omega
        have ht' := hin 256 (by omega) (Nat.le_refl _)
        by_cases c4 : li ≤ y + 1
        · rw [e4.upto2 x2 x3 y3 (show x + 1 ≤ li by omega) c4]
          show some _ = some _
          congr 1
          omega
        · rw [hin li (by omega) h2]
          show some _ = some _
          congr 1
          omega
    · rw [if_neg c2]
      have hin : countTrue (fun q => f q == f 0) 256 = acc + (x + 1 - s) := by
        rw [← e4.upto x2 x3 (by omega) (Nat.le_refl (x + 1))]
        refine countTrue_none (by omega) (fun z z1 z2 => ne_first (parity_odd (k := m) ?_))
        have := (between (q := z) x2).2 (by omega)
        have := countTrue_mono (chg f) (show z ≤ 255 by omega)
        omega
      by_cases c4 : li ≤ x + 1
      · rw [e4.upto x2 x3 e3 c4]
        show some _ = some _
        congr 1
        omega
      · have : countTrue (fun q => f q == f 0) li = acc + (x + 1 - s) := by
          rw [← e4.upto x2 x3 (by omega) (Nat.le_refl (x + 1))]
          refine countTrue_none (by omega) (fun z z1 z2 => ne_first (parity_odd (k := m) ?_))
          have := (between (q := z) x2).2 (by omega)
          have := countTrue_mono (chg f) (show z ≤ 255 by omega)
          omega
        rw [this]
        show some _ = some _
        congr 1
        omega
  · rw [if_neg c]
    have r1 := ht x x1 x2 (by omega)
    rw [x3] at r1
    rw [r1, hbind]
    obtain ⟨y, y1, y2, y3⟩ := exists_end (f := f) (k := 2 * m + 1) (n := 255) (by omega)
    have hy := e5 (by omega) y y1 y2 y3
    by_cases c4 : li ≤ x + 1
    · rw [e4.upto x2 x3 e3 c4]
      show some _ = some _
      congr 1
      omega
    · rw [e4.upto2 x2 x3 y3 (show x + 1 ≤ li by omega) (by omega)]
      show some _ = some _
      congr 1
      omega

/-- The bit in front of the begin of a run of the first kind is of the other kind. -/
theorem AtRun.before {f : Nat → Bool} {m s acc : Nat} (h : AtRun f m s acc) (hs : 0 < s) : f (s - 1) = !f 0 := by
  have h1 := countTrue_one (h.start hs)
  rw [Nat.sub_add_cancel hs, h.cnt] at h1
  exact parity_odd (k := m - 1) (by omega)

theorem runsAccess_spec {f : Nat → Bool} {t : List Nat} {p enc tot li : Nat} (ht : EndsAt f t p enc) (hC : countTrue (chg f) 255 = enc + 1) (htot : tot = countTrue (fun q => f q == f 0) 256)
    (h1 : 1 ≤ li) (h2 : li ≤ 256) : runsAccess t p enc tot li (f 0) = some (f (li - 1)) := by
  obtain ⟨m, s, acc, e1, e2, e3, e4, e5⟩ := pairLoop_spec (li := li) ht hC (enc + 1) 0 0 0 (by omega) (by omega) (by omega) (AtRun.init f)
  rw [Nat.mul_zero, Nat.add_zero p] at e1
  rw [runsAccess, e1, hbind]
  dsimp only
  obtain ⟨x, x1, x2, x3⟩ := exists_end (f := f) (k := 2 * m) (n := 255) (by omega)
  have hsx := e4.end_ge x2 (by omega)
  have hfirst : li - 1 ≤ x → (if li - s > 0 then f 0 else !f 0) = f (li - 1) := by
    intro hx
    by_cases c : li - s > 0
    · rw [if_pos c, e4.first x2 x3 (by omega) hx]
    · rw [if_neg c, show li - 1 = s - 1 by omega, e4.before (by omega)]
  have hlast : ∀ k e, chg f e = true → countTrue (chg f) e = k → countTrue (chg f) 255 = k + 1 → e < li - 1 → countTrue (chg f) (li - 1) = k + 1 := by
    intro k e he hk hk2 hl
    have := (between (q := li - 1) he).2 hl
    have := countTrue_mono (chg f) (show li - 1 ≤ 255 by omega)
    omega
  by_cases c : 2 * m + 1 ≥ enc
  · rw [if_pos c]
    by_cases c2 : 2 * m < enc
    · have r1 := ht x x1 x2 (by omega)
      rw [x3] at r1
      rw [if_pos c2, r1, hbind]
      by_cases c3 : li ≤ x + 1
      · rw [if_pos c3, hfirst (by omega)]; rfl
      · rw [if_neg c3]
        obtain ⟨y, y1, y2, y3⟩ := exists_end (f := f) (k := 2 * m + 1) (n := 255) (by omega)
        have hxy : x < y := by
          by_contra hh
          have := countTrue_mono (chg f) (show y ≤ x by omega)
          omega
        have hin : countTrue (fun q => f q == f 0) 256 = acc + (x + 1 - s) + (256 - (y + 1)) := by
          rw [← e4.upto2 x2 x3 y3 (show x + 1 ≤ y + 1 by omega) (Nat.le_refl _)]
          refine countTrue_all (by omega) (fun z z1 z2 => eq_first (parity_even (k := m + 1) ?_))
          have := (between (q := z) y2).2 (by omega)
          have := countTrue_mono (chg f) (show z ≤ 255 by omega)
          omega
        show some _ = some _
        congr 1
        by_cases c4 : li - 1 ≤ y
        · rw [if_pos (by omega), second x2 x3 y3 (by omega) c4]
        · have := hlast (2 * m + 1) y y2 y3 (by omega) (by omega)
          rw [if_neg (by omega), parity_even (f := f) (q := li - 1) (k := m + 1) (by omega)]
    · rw [if_neg c2]
      have hin : countTrue (fun q => f q == f 0) 256 = acc + (x + 1 - s) := by
        rw [← e4.upto x2 x3 (by omega) (Nat.le_refl (x + 1))]
        refine countTrue_none (by omega) (fun z z1 z2 => ne_first (parity_odd (k := m) ?_))
        have := (between (q := z) x2).2 (by omega)
        have := countTrue_mono (chg f) (show z ≤ 255 by omega)
        omega
      show some _ = some _
      congr 1
      by_cases c4 : li - 1 ≤ x
      · rw [if_neg (by omega), hfirst c4]
      · rw [if_pos (by omega), parity_odd (k := m) (hlast (2 * m) x x2 x3 (by omega) (by omega))]
  · rw [if_neg c]
    have r1 := ht x x1 x2 (by omega)
    rw [x3] at r1
    rw [r1, hbind]
    obtain ⟨y, y1, y2, y3⟩ := exists_end (f := f) (k := 2 * m + 1) (n := 255) (by omega)
    have hy := e5 (by omega) y y1 y2 y3
    show some _ = some _
    congr 1
    by_cases c4 : x < li - 1
    · rw [if_pos c4, second x2 x3 y3 c4 (by omega)]
    · rw [if_neg c4, hfirst (by omega)]

/-! ### Minority -/

/-- The positions of the bit `key` are stored from byte `p`. -/
def KeysAt (f : Nat → Bool) (key : Bool) (t : List Nat) (p : Nat) : Prop := ∀ j, j < 256 → f j = key → t[p + countTrue (fun q => f q == key) j]? = some j

theorem exists_key {f : Nat → Bool} {key : Bool} {k n : Nat} (h : k < countTrue (fun q => f q == key) n) : ∃ e, e < n ∧ f e = key ∧ countTrue (fun q => f q == key) e = k := by
  obtain ⟨e, h1, h2, h3⟩ := IsSelect.exists (f := fun q => f q == key) (n := n) (i := k + 1) (by omega) (by omega)
  exact ⟨e, h1, by simpa using h2, by omega⟩

theorem key_succ {f : Nat → Bool} {key : Bool} {e : Nat} (h : f e = key) : countTrue (fun q => f q == key) (e + 1) = countTrue (fun q => f q == key) e + 1 :=
  countTrue_one (by simp [h])

theorem minorLoop_spec {f : Nat → Bool} {key : Bool} {t : List Nat} {p li : Nat} (ht : KeysAt f key t p) (h2 : li ≤ 256) :
    ∀ (k tot : Nat), tot + k = countTrue (fun q => f q == key) 256 → tot ≤ countTrue (fun q => f q == key) li → minorLoop t li k (p + tot) tot = some (countTrue (fun q => f q == key) li)
  | 0, tot, h3, h4 => by
    have := countTrue_mono (fun q => f q == key) h2
    rw [minorLoop]
    congr 1
    omega
  | k + 1, tot, h3, h4 => by
    obtain ⟨e, a1, a2, a3⟩ := exists_key (f := f) (key := key) (k := tot) (n := 256) (by omega)
    have r := ht e a1 a2
    rw [a3] at r
    rw [minorLoop, r, hbind]
    by_cases c : e < li
    · have := countTrue_mono (fun q => f q == key) (show e + 1 ≤ li from c)
      rw [key_succ a2] at this
      rw [if_pos c, Nat.add_assoc]
      exact minorLoop_spec ht h2 k (tot + 1) (by omega) (by omega)
    · have := countTrue_mono (fun q => f q == key) (show li ≤ e by omega)
      rw [if_neg c]
      congr 1
      omega

/-- The entry in front of the first one that is not below `li`. -/
theorem minor_last {f : Nat → Bool} {key : Bool} {t : List Nat} {p li : Nat} (ht : KeysAt f key t p) (h1 : 1 ≤ li) (h2 : li ≤ 256) :
    (countTrue (fun q => f q == key) li = 0 → f (li - 1) = !key) ∧
    (countTrue (fun q => f q == key) li ≠ 0 → ∃ z, t[p + countTrue (fun q => f q == key) li - 1]? = some z ∧ (z = li - 1 ↔ f (li - 1) = key)) := by
  constructor
  · intro h
    have := countTrue_eq_zero h (i := li - 1) (by omega)
    cases h5 : f (li - 1) <;> cases key <;> simp_all
  · intro h
    obtain ⟨e, a1, a2, a3⟩ := exists_key (f := f) (key := key) (k := countTrue (fun q => f q == key) li - 1) (n := li) (by omega)
    have r := ht e (by omega) a2
    rw [a3, ← Nat.add_sub_assoc (by omega)] at r
    refine ⟨e, r, fun h => by rw [← h]; exact a2, fun h3 => ?_⟩
    by_contra c
    have g1 := countTrue_mono (fun q => f q == key) (show e + 1 ≤ li - 1 by omega)
    have g2 := key_succ h3
    rw [Nat.sub_add_cancel h1] at g2
    rw [key_succ a2] at g1
    omega

/-! ### Plain -/

/-- The bits of the block are stored from byte `p`. -/
def PlainAt (f : Nat → Bool) (t : List Nat) (p : Nat) : Prop := ∀ k, k < 4 → ∃ w : Word, rd 8 t (p + 8 * k) = some w.toNat ∧ ∀ j, j < 64 → w.getLsbD j = f (64 * k + j)

theorem ofNat_toNat64 (w : Word) : BitVec.ofNat 64 w.toNat = w := by simp

theorem cnt_toNat (w : Word) : (cnt w).toNat = popcount w := by
  have := countTrue_le (fun i => w.getLsbD i) 64
  rw [cnt_eq, BitVec.toNat_ofNat, Nat.mod_eq_of_lt]
  unfold popcount
  omega

theorem plainRank_spec {f : Nat → Bool} {t : List Nat} {p rest : Nat} (ht : PlainAt f t p) (hr : rest < 64) : ∀ (k i a : Nat), i + k ≤ 4 → (rest ≠ 0 → i + k < 4) →
    plainRank t rest k (p + 8 * i) (a + countTrue f (64 * i)) = some (a + countTrue f (64 * (i + k) + rest))
  | 0, i, a, h1, h2 => by
    rw [plainRank]
    by_cases c : rest ≠ 0
    · obtain ⟨w, w1, w2⟩ := ht i (by have := h2 c; omega)
      rw [if_pos c, w1, hbind, ofNat_toNat64, shl, if_pos hr, hbind, cnt_toNat]
      show some _ = some _
      congr 1
      rw [Nat.add_zero, countTrue_add, Nat.add_assoc]
      congr 2
      have e : popcount (w &&& (1#64 <<< rest - 1#64)) = countTrue (fun j => (w &&& (1#64 <<< rest - 1#64)).getLsbD j) 64 := rfl
      have hm : ∀ j, j < 64 → (1#64 <<< rest - 1#64).getLsbD j = decide (j < rest) := by
        intro j hj
        have : (1#64 <<< rest - 1#64) = BitVec.ofNat 64 (2 ^ rest - 1) := by
          apply BitVec.eq_of_toNat_eq
          have hp : 2 ^ rest < 2 ^ 64 := Nat.pow_lt_pow_right (by omega) hr
          have hp1 : 1 ≤ 2 ^ rest := Nat.one_le_two_pow
          rw [BitVec.toNat_sub, BitVec.toNat_shiftLeft, BitVec.toNat_ofNat, BitVec.toNat_ofNat, Nat.shiftLeft_eq]
          omega
        rw [this, BitVec.getLsbD_ofNat, Nat.testBit_two_pow_sub_one]
        simp [hj]
      rw [e, countTrue_congr (g := fun j => w.getLsbD j && decide (j < rest)) (fun j hj => by rw [BitVec.getLsbD_and, hm j hj]),
        countTrue_none (g := fun j => w.getLsbD j && decide (j < rest)) (a := rest) (by omega) (fun q h _ => by simp; omega)]
      exact countTrue_congr (fun j hj => by rw [← w2 j (by omega)]; simp [hj])
    · have : rest = 0 := by omega
      subst this
      rw [if_neg c]; rfl
  | k + 1, i, a, h1, h2 => by
    obtain ⟨w, w1, w2⟩ := ht i (by omega)
    rw [plainRank, w1, hbind, ofNat_toNat64, cnt_toNat]
    have := plainRank_spec ht hr k (i + 1) a (by omega) (by intro h; have := h2 h; omega)
    have e : countTrue f (64 * (i + 1)) = countTrue f (64 * i) + popcount w := by
      rw [Nat.mul_succ, countTrue_add]
      congr 1
      exact countTrue_congr (fun j hj => (w2 j hj).symm)
    rw [e, ← Nat.add_assoc, show p + 8 * (i + 1) = p + 8 * i + 8 by omega, show i + 1 + k = i + (k + 1) by omega] at this
    exact this

theorem bit_shift (w : Word) (j : Nat) : ((w >>> j) &&& 1#64 != 0#64) = w.getLsbD j := by
  cases h : w.getLsbD j with
  | false =>
    have : (w >>> j) &&& 1#64 = 0#64 := by
      apply BitVec.eq_of_getLsbD_eq
      intro i hi
      rw [BitVec.getLsbD_and, BitVec.getLsbD_ushiftRight, BitVec.getLsbD_one]
      by_cases c : i = 0
      · subst c; simp [h]
      · simp [c]
    rw [this]; rfl
  | true =>
    have : (w >>> j) &&& 1#64 = 1#64 := by
      apply BitVec.eq_of_getLsbD_eq
      intro i hi
      rw [BitVec.getLsbD_and, BitVec.getLsbD_ushiftRight, BitVec.getLsbD_one]
      by_cases c : i = 0
      · subst c; simp [h]
      · simp [c]
    rw [this]; rfl

theorem plainAccess_spec {f : Nat → Bool} {t : List Nat} {p li : Nat} (ht : PlainAt f t p) (h1 : 1 ≤ li) (h2 : li ≤ 256) : plainAccess t p li = some (f (li - 1)) := by
  rw [plainAccess]
  by_cases c : li / 64 * 64 ≠ li
  · obtain ⟨w, w1, w2⟩ := ht (li / 64) (by omega)
    rw [if_pos c, Nat.mul_comm, show p + 8 * (li / 64) = p + 8 * (li / 64) from rfl, w1, hbind, ofNat_toNat64, shr, if_pos (by omega), hbind, bit_shift, w2 _ (by omega)]
    show some _ = some _
    congr 2
    omega
  · obtain ⟨w, w1, w2⟩ := ht (li / 64 - 1) (by omega)
    rw [if_neg c, show p + li / 64 * 8 - 8 = p + 8 * (li / 64 - 1) by omega, w1, hbind, ofNat_toNat64, bit_shift, w2 _ (by omega)]
    show some _ = some _
    congr 2
    omega

end Sdsl.Hyb
