/-
  Helper lemmas for C32 (`dac_vector`).
-/
import Verif.Dac
import Verif.SpecLemmas
import Verif.UtilLemmas

namespace Sdsl.Dac

open Bits Spec

/-! ### Levels -/

section
variable (b : Nat) (xs : List Word)

/-- Value at position `i`. -/
def val (i : Nat) : Nat := (xs.getD i 0).toNat

/-- Does the value `x` need a block on level `l`? -/
def reach (l x : Nat) : Bool := decide (l = 0 ∨ x / 2 ^ (b * l) ≠ 0)

/-- Number of values before position `i` with a block on level `l`. -/
def idx (l i : Nat) : Nat := countTrue (fun k => reach b l (val xs k)) i

/-- Number of blocks on level `l`. -/
def cntL (l : Nat) : Nat := idx b xs l xs.length

/-- First block of level `l`. -/
def start : Nat → Nat
  | 0 => 0
  | l + 1 => start l + cntL b xs l

/-- Position of the block of value `i` on level `l`. -/
def pos (l i : Nat) : Nat := start b xs l + idx b xs l i

end

variable {b : Nat} {xs : List Word}

theorem val_lt (i : Nat) : val xs i < 2 ^ 64 := (xs.getD i 0).isLt

theorem reach_mono {l l' x : Nat} (h : l ≤ l') (h' : reach b l' x = true) : reach b l x = true := by
  simp only [reach, decide_eq_true_eq] at h' ⊢
  by_cases h0 : l = 0
  · exact .inl h0
  right
  rcases h' with h' | h'
  · omega
  · intro h2
    apply h'
    have e : b * l' = b * l + b * (l' - l) := by rw [← Nat.mul_add]; congr 1; omega
    rw [e, Nat.pow_add, ← Nat.div_div_eq_div_mul, h2, Nat.zero_div]

theorem reach_lt_64 (hb : 0 < b) {l x : Nat} (hx : x < 2 ^ 64) (h : reach b l x = true) : b * l < 64 ∧ l < 64 := by
  simp only [reach, decide_eq_true_eq] at h
  rcases h with h | h
  · subst h; simp
  · have : b * l < 64 := by
      apply Decidable.byContradiction
      intro h2
      apply h
      apply Nat.div_eq_of_lt
      exact Nat.lt_of_lt_of_le hx (Nat.pow_le_pow_right (by omega) (by omega))
    exact ⟨this, Nat.lt_of_le_of_lt (Nat.le_mul_of_pos_left l hb) this⟩

theorem reach_succ_iff {l x : Nat} : reach b (l + 1) x = true ↔ x / 2 ^ (b * (l + 1)) ≠ 0 := by
  simp [reach]

theorem idx_succ (l i : Nat) : idx b xs l (i + 1) = idx b xs l i + (if reach b l (val xs i) then 1 else 0) := by
  rw [idx, countTrue, idx]; cases reach b l (val xs i) <;> rfl

theorem idx_zero_level (i : Nat) : idx b xs 0 i = i := by
  unfold idx
  induction i with
  | zero => rfl
  | succ n ih => rw [countTrue, ih]; simp [reach]

theorem idx_mono {l i j : Nat} (h : i ≤ j) : idx b xs l i ≤ idx b xs l j := countTrue_mono _ h

theorem idx_antitone {l l' : Nat} (h : l ≤ l') (i : Nat) : idx b xs l' i ≤ idx b xs l i := by
  induction i with
  | zero => simp [idx, countTrue]
  | succ n ih =>
    rw [idx_succ, idx_succ]
    by_cases h1 : reach b l' (val xs n) = true
    · rw [if_pos h1, if_pos (reach_mono h h1)]; omega
    · rw [if_neg h1]; split <;> omega

theorem idx_lt {l i : Nat} (hi : i < xs.length) (h : reach b l (val xs i) = true) : idx b xs l i < cntL b xs l :=
  countTrue_lt_of_true hi h

theorem cntL_antitone {l l' : Nat} (h : l ≤ l') : cntL b xs l' ≤ cntL b xs l := idx_antitone h _

theorem start_mono {l l' : Nat} (h : l ≤ l') : start b xs l ≤ start b xs l' := by
  induction h with
  | refl => exact Nat.le_refl _
  | step _ ih => exact Nat.le_trans ih (Nat.le_add_right _ _)

theorem pos_lt {l i : Nat} (hi : i < xs.length) (h : reach b l (val xs i) = true) : pos b xs l i < start b xs (l + 1) := by
  have := idx_lt hi h
  rw [start, pos]; omega

theorem pos_inj {l i l' i' : Nat} (hi : i < xs.length) (hi' : i' < xs.length) (h : reach b l (val xs i) = true)
    (h' : reach b l' (val xs i') = true) (he : pos b xs l i = pos b xs l' i') : l = l' ∧ i = i' := by
  have h1 := pos_lt hi h
  have h2 := pos_lt hi' h'
  have hl : l = l' := by
    rcases Nat.lt_trichotomy l l' with hlt | hlt | hlt
    · have := start_mono (b := b) (xs := xs) (show l + 1 ≤ l' by omega)
      have : start b xs l' ≤ pos b xs l' i' := Nat.le_add_right _ _
      omega
    · exact hlt
    · have := start_mono (b := b) (xs := xs) (show l' + 1 ≤ l by omega)
      have : start b xs l ≤ pos b xs l i := Nat.le_add_right _ _
      omega
  subst hl
  refine ⟨rfl, ?_⟩
  have he' : idx b xs l i = idx b xs l i' := by unfold pos at he; omega
  rcases Nat.lt_trichotomy i i' with hlt | hlt | hlt
  · have := countTrue_lt_of_true (f := fun k => reach b l (val xs k)) hlt h
    unfold idx at he'; omega
  · exact hlt
  · have := countTrue_lt_of_true (f := fun k => reach b l (val xs k)) hlt h'
    unfold idx at he'; omega

theorem getD_set {α : Type} (v : List α) (i j : Nat) (x d : α) (hi : i < v.length) :
    (v.set i x).getD j d = if i = j then x else v.getD j d := by
  by_cases h : i = j
  · subst h; simp [hi]
  · simp [h]

theorem getElem?_of_getD {v : List Nat} {i : Nat} (h : i < v.length) : v[i]? = some (v.getD i 0) := by
  simp [h]

theorem incr_of_lt {v : List Nat} {i : Nat} (h : i < v.length) : incr v i = some (v.set i (v.getD i 0 + 1)) := by
  rw [incr, getElem?_of_getD h, sbind, setList_of_lt h]

/-! ### Step (1) -/

theorem countVal_spec (hb : 0 < b) {x : Nat} (hx : x < 2 ^ 64) :
    ∀ (fuel l : Nat) (cnt : List Nat) (mx : Nat), 0 < l → 64 ≤ fuel + l → cnt.length = 128 →
      ∃ cnt' mx', countVal b fuel (x / 2 ^ (b * l)) (2 * l) cnt mx = some (cnt', mx') ∧ cnt'.length = 128 ∧
        (∀ l', cnt'.getD (2 * l') 0 = cnt.getD (2 * l') 0 + (if l ≤ l' ∧ reach b l' x then 1 else 0)) ∧ mx ≤ mx' ∧
        (∀ l', l ≤ l' → reach b l' x = true → 2 * l' + 2 ≤ mx') ∧
        (mx' = mx ∨ ∃ l', l ≤ l' ∧ reach b l' x = true ∧ mx' = 2 * l' + 2) := by
  intro fuel
  induction fuel with
  | zero =>
    intro l cnt mx hl hf hc
    have h0 : reach b l x = false := by
      apply Bool.eq_false_iff.2
      intro h
      have := (reach_lt_64 hb hx h).2
      omega
    have hz : x / 2 ^ (b * l) = 0 := by
      simp only [reach, decide_eq_false_iff_not] at h0; omega
    have hno : ∀ l', l ≤ l' → reach b l' x = false := by
      intro l' h'
      apply Bool.eq_false_iff.2
      intro h2
      rw [reach_mono h' h2] at h0; exact Bool.noConfusion h0
    refine ⟨cnt, mx, ?_, hc, ?_, Nat.le_refl _, ?_, .inl rfl⟩
    · rw [countVal, if_pos hz]
    · intro l'
      rw [if_neg]; · rfl
      rintro ⟨h1, h2⟩
      rw [hno l' h1] at h2; exact Bool.noConfusion h2
    · intro l' h1 h2
      rw [hno l' h1] at h2; exact Bool.noConfusion h2
  | succ fuel ih =>
    intro l cnt mx hl hf hc
    by_cases hz : x / 2 ^ (b * l) = 0
    · have h0 : reach b l x = false := by
        simp only [reach, decide_eq_false_iff_not]; omega
      have hno : ∀ l', l ≤ l' → reach b l' x = false := by
        intro l' h'
        apply Bool.eq_false_iff.2
        intro h2
        rw [reach_mono h' h2] at h0; exact Bool.noConfusion h0
      refine ⟨cnt, mx, ?_, hc, ?_, Nat.le_refl _, ?_, .inl rfl⟩
      · rw [countVal, if_pos hz]
      · intro l'
        rw [if_neg]; · rfl
        rintro ⟨h1, h2⟩
        rw [hno l' h1] at h2; exact Bool.noConfusion h2
      · intro l' h1 h2
        rw [hno l' h1] at h2; exact Bool.noConfusion h2
    · have hr : reach b l x = true := by simp [reach, hz]
      have hl64 := (reach_lt_64 hb hx hr).2
      have hlt : 2 * l < cnt.length := by omega
      obtain ⟨cnt', mx', he, h1, h2, h3, h4, h5⟩ := ih (l + 1) (cnt.set (2 * l) (cnt.getD (2 * l) 0 + 1)) (max mx (2 * (l + 1))) (by omega)
        (by omega) (by rw [List.length_set]; exact hc)
      refine ⟨cnt', mx', ?_, h1, ?_, by omega, ?_, ?_⟩
      · rw [countVal, if_neg hz]
        dsimp only
        rw [incr_of_lt hlt, sbind]
        have e1 : x / 2 ^ (b * l) / 2 ^ b = x / 2 ^ (b * (l + 1)) := by
          rw [Nat.div_div_eq_div_mul, ← Nat.pow_add, Nat.mul_succ]
        have e2 : (2 * l + 2) % 256 = 2 * (l + 1) := by omega
        rw [e1, e2]; exact he
      · intro l'
        rw [h2, getD_set _ _ _ _ _ hlt]
        by_cases hll : l = l'
        · subst hll
          rw [if_pos rfl, if_neg (by omega : ¬(l + 1 ≤ l ∧ _)), if_pos ⟨Nat.le_refl _, hr⟩]
        · rw [if_neg (by omega : ¬ 2 * l = 2 * l')]
          by_cases h6 : l + 1 ≤ l'
          · simp only [h6, show l ≤ l' by omega]
          · rw [if_neg (by omega : ¬(l + 1 ≤ l' ∧ _)), if_neg (by omega : ¬(l ≤ l' ∧ _))]
      · intro l' hl' hr'
        by_cases hll : l = l'
        · omega
        · exact h4 l' (by omega) hr'
      · rcases h5 with h5 | ⟨l', h6, h7, h8⟩
        · by_cases h9 : mx ≤ 2 * (l + 1)
          · exact .inr ⟨l, Nat.le_refl _, hr, by omega⟩
          · exact .inl (by omega)
        · exact .inr ⟨l', by omega, h7, h8⟩

theorem val_drop {j : Nat} {x : Word} {r : List Word} (h : xs.drop j = x :: r) :
    j < xs.length ∧ val xs j = x.toNat ∧ xs.drop (j + 1) = r := by
  have hl : j < xs.length := by
    apply Decidable.byContradiction; intro h'
    rw [List.drop_eq_nil_of_le (by omega)] at h; simp at h
  rw [List.drop_eq_getElem_cons hl] at h
  refine ⟨hl, ?_, (List.cons.inj h).2⟩
  rw [val, ← (List.cons.inj h).1]; simp [hl]

theorem countAll_spec (hb : 0 < b) : ∀ (r : List Word) (j : Nat) (cnt : List Nat) (mx : Nat), xs.drop j = r → j ≤ xs.length → cnt.length = 128 →
      (∀ l, 0 < l → cnt.getD (2 * l) 0 = idx b xs l j) → 4 ≤ mx →
      (∀ l i, i < j → reach b l (val xs i) = true → 2 * l + 2 ≤ mx) →
      (mx = 4 ∨ ∃ l i, i < j ∧ reach b l (val xs i) = true ∧ mx = 2 * l + 2) →
      ∃ cnt' mx', countAll b r cnt mx = some (cnt', mx') ∧ cnt'.length = 128 ∧ cnt'.getD 0 0 = cnt.getD 0 0 ∧
        (∀ l, 0 < l → cnt'.getD (2 * l) 0 = cntL b xs l) ∧ 4 ≤ mx' ∧
        (∀ l i, i < xs.length → reach b l (val xs i) = true → 2 * l + 2 ≤ mx') ∧
        (mx' = 4 ∨ ∃ l i, i < xs.length ∧ reach b l (val xs i) = true ∧ mx' = 2 * l + 2) := by
  intro r
  induction r with
  | nil =>
    intro j cnt mx hd hj hc h1 h2 h3 h4
    have hjn : j = xs.length := by
      have := congrArg List.length hd; simp at this; omega
    subst hjn
    exact ⟨cnt, mx, rfl, hc, rfl, h1, h2, h3, h4⟩
  | cons x r ih =>
    intro j cnt mx hd hj hc h1 h2 h3 h4
    obtain ⟨hjl, hv, hd'⟩ := val_drop hd
    obtain ⟨c1, m1, he, g1, g2, g3, g4, g5⟩ := countVal_spec hb (val_lt (xs := xs) j) 64 1 cnt mx (by omega) (by omega) hc
    obtain ⟨c2, m2, he2, k1, k2, k3⟩ := ih (j + 1) c1 m1 hd' hjl g1 (by
        intro l hl
        rw [g2, h1 l hl, idx_succ]
        simp [show 1 ≤ l from hl]) (by omega) (by
        intro l i hi hr
        by_cases hij : i = j
        · subst hij
          by_cases hl0 : l = 0
          · omega
          · exact g4 l (by omega) hr
        · exact Nat.le_trans (h3 l i (by omega) hr) g3) (by
        rcases g5 with g5 | ⟨l, _, g6, g7⟩
        · rcases h4 with h4 | ⟨l, i, h5, h6, h7⟩
          · exact .inl (by omega)
          · exact .inr ⟨l, i, by omega, h6, by omega⟩
        · exact .inr ⟨l, j, by omega, g6, g7⟩)
    refine ⟨c2, m2, ?_, k1, ?_, k3⟩
    · rw [countAll, ← hv]
      have : b * 1 = b := Nat.mul_one b
      rw [this] at he
      rw [show (2 : Nat) * 1 = 2 from rfl] at he
      rw [he, sbind]; exact he2
    · rw [k2]
      have := g2 0
      simpa using this

/-! ### Step (2) -/

theorem prefixSums_spec {M : Nat} : ∀ (c i : Nat) (s : PS), i + c = M → M ≤ 64 → s.lpr.length = 2 * M →
      (∀ l, l < i → s.lpr.getD (2 * l) 0 = start b xs l) → (∀ l, i ≤ l → l < M → s.lpr.getD (2 * l) 0 = cntL b xs l) →
      s.sum = start b xs i → s.maxLevel ≤ i → (∀ l, l < s.maxLevel → 0 < cntL b xs l) →
      (s.maxLevel < i → cntL b xs s.maxLevel = 0) → (0 < s.maxLevel → s.last = cntL b xs (s.maxLevel - 1)) →
      ∃ s', prefixSums c (2 * i) s = some s' ∧ s'.lpr.length = 2 * M ∧ (∀ l, l < M → s'.lpr.getD (2 * l) 0 = start b xs l) ∧
        s'.sum = start b xs M ∧ s'.maxLevel ≤ M ∧ (∀ l, l < s'.maxLevel → 0 < cntL b xs l) ∧
        (s'.maxLevel < M → cntL b xs s'.maxLevel = 0) ∧ (0 < s'.maxLevel → s'.last = cntL b xs (s'.maxLevel - 1)) := by
  intro c
  induction c with
  | zero =>
    intro i s hM h64 h1 h2 h3 h4 h5 h6 h7 h8
    have : i = M := by omega
    subst this
    exact ⟨s, rfl, h1, h2, h4, h5, h6, h7, h8⟩
  | succ c ih =>
    intro i s hM h64 h1 h2 h3 h4 h5 h6 h7 h8
    have hlt : 2 * i < s.lpr.length := by omega
    have hx : s.lpr.getD (2 * i) 0 = cntL b xs i := h3 i (Nat.le_refl _) (by omega)
    have hset2 : ∀ l, l < i + 1 → (s.lpr.set (2 * i) s.sum).getD (2 * l) 0 = start b xs l := by
      intro l hl
      rw [getD_set _ _ _ _ _ hlt]
      by_cases hli : i = l
      · subst hli; rw [if_pos rfl, h4]
      · rw [if_neg (by omega)]; exact h2 l (by omega)
    have hset3 : ∀ l, i + 1 ≤ l → l < M → (s.lpr.set (2 * i) s.sum).getD (2 * l) 0 = cntL b xs l := by
      intro l hl hlM
      rw [getD_set _ _ _ _ _ hlt, if_neg (by omega)]; exact h3 l (by omega) hlM
    rw [prefixSums, getElem?_of_getD hlt, sbind, setList_of_lt hlt, sbind, hx]
    have hsum : s.sum + cntL b xs i = start b xs (i + 1) := by rw [h4]; rfl
    by_cases hp : 0 < cntL b xs i
    · have hml : s.maxLevel = i := by
        apply Decidable.byContradiction
        intro hne
        have := h7 (by omega)
        have := cntL_antitone (b := b) (xs := xs) h5
        omega
      rw [if_pos (by omega), show 2 * i + 2 = 2 * (i + 1) by omega]
      refine ih (i + 1) _ (by omega) h64 (by rw [List.length_set]; exact h1) hset2 hset3 hsum ?_ ?_ ?_ ?_
      · show (s.maxLevel + 1) % 256 ≤ _; omega
      · intro l hl
        replace hl : l < (s.maxLevel + 1) % 256 := hl
        by_cases hli : l = i
        · subst hli; exact hp
        · exact h6 l (by omega)
      · intro hl; replace hl : (s.maxLevel + 1) % 256 < i + 1 := hl; omega
      · intro _
        show s.sum + cntL b xs i - s.sum = cntL b xs ((s.maxLevel + 1) % 256 - 1)
        rw [show (s.maxLevel + 1) % 256 - 1 = i by omega]; omega
    · rw [if_neg (by omega), show 2 * i + 2 = 2 * (i + 1) by omega]
      refine ih (i + 1) _ (by omega) h64 (by rw [List.length_set]; exact h1) hset2 hset3 hsum (by show s.maxLevel ≤ _; omega) h6 ?_ h8
      intro _
      show cntL b xs s.maxLevel = 0
      by_cases h9 : s.maxLevel < i
      · exact h7 h9
      · have : s.maxLevel = i := by omega
        rw [this]; omega

/-! ### Step (3) -/

section
variable (b : Nat) (xs : List Word) (M L i l : Nat)

/-- State of step (3) when the values before position `i` and the levels below `l` of value `i` have been entered. -/
structure Ent (s : ES) : Prop where
  dl : s.data.xs.length = start b xs L
  dw : s.data.width = b
  ol : s.ov.length = start b xs (L - 1)
  cl : s.cnt.length = 2 * M
  dv : ∀ i' l', (i' < i ∨ (i' = i ∧ l' < l)) → reach b l' (val xs i') = true →
    s.data.xs[pos b xs l' i']? = some (val xs i' / 2 ^ (b * l') % 2 ^ b)
  ovv : ∀ p, p < s.ov.length → (s.ov.getD p false = true ↔
    ∃ i' l', (i' < i ∨ (i' = i ∧ l' + 1 < l)) ∧ reach b (l' + 1) (val xs i') = true ∧ p = pos b xs l' i')
  cv : ∀ l', l' < M → s.cnt.getD (2 * l') 0 = pos b xs l' (if l' < l then i + 1 else i)

/-- What steps (1) and (2) establish about the numbers of levels. -/
structure Lev : Prop where
  hb : 0 < b
  hM : M ≤ 64
  hL0 : 0 < L
  hLM : L ≤ M
  hpos : ∀ l, l < L → 0 < cntL b xs l
  hzero : ∀ l, L ≤ l → cntL b xs l = 0

end

variable {M L : Nat}

theorem Lev.lt (h : Lev b xs M L) {i l : Nat} (hi : i < xs.length) (hr : reach b l (val xs i) = true) : l < L := by
  apply Decidable.byContradiction
  intro hl
  have := h.hzero l (by omega)
  have := idx_lt hi hr
  omega

theorem idx_succ_of {i l : Nat} (hr : reach b l (val xs i) = false) : idx b xs l (i + 1) = idx b xs l i := by
  rw [idx_succ, hr]; simp

/-- One more block of value `i`. -/
theorem Ent.step (h : Lev b xs M L) {i l : Nat} {s : ES} (hi : i < xs.length) (hr : reach b l (val xs i) = true)
    (e : Ent b xs M L i l s) {ov : List Bool} (hol : ov.length = s.ov.length)
    (hov : ∀ p, p < ov.length → (ov.getD p false = true ↔ s.ov.getD p false = true ∨ (0 < l ∧ p = pos b xs (l - 1) i))) :
    ∃ cnt data, s.cnt[2 * l]? = some (pos b xs l i) ∧ incr s.cnt (2 * l) = some cnt ∧
      s.data.set (pos b xs l i) (val xs i / 2 ^ (b * l) &&& (2 ^ b - 1)) = some data ∧ Ent b xs M L i (l + 1) ⟨data, ov, cnt⟩ := by
  have hl := h.lt hi hr
  have hlM : l < M := by have := h.hLM; omega
  have hcl : 2 * l < s.cnt.length := by rw [e.cl]; omega
  have hc : s.cnt.getD (2 * l) 0 = pos b xs l i := by rw [e.cv l hlM, if_neg (by omega)]
  have hp := pos_lt hi hr
  have hdl : pos b xs l i < s.data.xs.length := by
    rw [e.dl]; exact Nat.lt_of_lt_of_le hp (start_mono (by omega))
  refine ⟨_, _, by rw [getElem?_of_getD hcl, hc], incr_of_lt hcl, Arr.set_of_lt hdl, ?_⟩
  constructor
  · show (List.set _ _ _).length = _
    rw [List.length_set, e.dl]
  · exact e.dw
  · show ov.length = _
    rw [hol, e.ol]
  · show (List.set _ _ _).length = _
    rw [List.length_set, e.cl]
  · intro i' l' hd hr'
    show (List.set _ _ _)[_]? = _
    rw [List.getElem?_set]
    by_cases hq : pos b xs l i = pos b xs l' i'
    · have hi' : i' < xs.length := by omega
      obtain ⟨h1, h2⟩ := pos_inj hi hi' hr hr' hq
      subst h1; subst h2
      rw [if_pos rfl, if_pos hdl, Nat.and_two_pow_sub_one_eq_mod, e.dw, Nat.mod_mod]
    · rw [if_neg hq]
      apply e.dv i' l' _ hr'
      rcases hd with hd | ⟨hd1, hd2⟩
      · exact .inl hd
      · right
        refine ⟨hd1, ?_⟩
        by_cases hll : l' = l
        · subst hll; subst hd1; exact absurd rfl hq
        · omega
  · intro p hp
    show (ov.getD p false = true ↔ _)
    rw [hov p hp, e.ovv p (by rw [← hol]; exact hp)]
    constructor
    · rintro (⟨i', l', h1, h2, h3⟩ | ⟨h1, h2⟩)
      · refine ⟨i', l', ?_, h2, h3⟩
        rcases h1 with h1 | h1
        · exact .inl h1
        · exact .inr ⟨h1.1, by omega⟩
      · refine ⟨i, l - 1, .inr ⟨rfl, by omega⟩, ?_, h2⟩
        rw [show l - 1 + 1 = l by omega]; exact hr
    · rintro ⟨i', l', h1, h2, h3⟩
      rcases h1 with h1 | ⟨h1, h4⟩
      · exact .inl ⟨i', l', .inl h1, h2, h3⟩
      · subst h1
        by_cases h5 : l' + 1 = l
        · right
          subst h5
          exact ⟨by omega, h3⟩
        · exact .inl ⟨i', l', .inr ⟨rfl, by omega⟩, h2, h3⟩
  · intro l' hl'
    show (List.set _ _ _).getD _ _ = _
    rw [getD_set _ _ _ _ _ hcl]
    by_cases hll : l = l'
    · subst hll
      rw [if_pos rfl, if_pos (by omega), hc, pos, pos, idx_succ, if_pos hr]; omega
    · rw [if_neg (by omega), e.cv l' hl']
      by_cases h6 : l' < l
      · rw [if_pos h6, if_pos (by omega)]
      · rw [if_neg h6, if_neg (by omega)]

/-- The value `i` is complete. -/
theorem Ent.done {i l : Nat} {s : ES} (_hl : 0 < l) (hr : reach b l (val xs i) = false)
    (e : Ent b xs M L i l s) : Ent b xs M L (i + 1) 0 s := by
  have hno : ∀ l', reach b l' (val xs i) = true → l' < l := by
    intro l' h'
    apply Decidable.byContradiction
    intro h2
    rw [reach_mono (by omega) h'] at hr; exact Bool.noConfusion hr
  refine ⟨e.dl, e.dw, e.ol, e.cl, ?_, ?_, ?_⟩
  · intro i' l' h1 h2
    apply e.dv i' l' _ h2
    by_cases h3 : i' < i
    · exact .inl h3
    · have h4 : i' = i := by omega
      subst h4
      exact .inr ⟨rfl, hno l' h2⟩
  · intro p hp
    rw [e.ovv p hp]
    constructor
    · rintro ⟨i', l', h1, h2, h3⟩
      exact ⟨i', l', .inl (by omega), h2, h3⟩
    · rintro ⟨i', l', h1, h2, h3⟩
      refine ⟨i', l', ?_, h2, h3⟩
      by_cases h4 : i' < i
      · exact .inl h4
      · have h5 : i' = i := by omega
        subst h5
        exact .inr ⟨rfl, hno (l' + 1) h2⟩
  · intro l' hl'
    rw [e.cv l' hl', if_neg (by omega : ¬ l' < 0)]
    by_cases h1 : l' < l
    · rw [if_pos h1]
    · rw [if_neg h1, pos, pos, idx_succ_of]
      apply Bool.eq_false_iff.2
      intro h2
      have := hno l' h2
      omega

theorem enterVal_spec (h : Lev b xs M L) {i : Nat} (hi : i < xs.length) : ∀ (fuel l : Nat) (s : ES), 0 < l → 64 ≤ fuel + l →
      Ent b xs M L i l s →
      ∃ s', enterVal b fuel (val xs i / 2 ^ (b * l)) (2 * l) (pos b xs (l - 1) i) s = some s' ∧ Ent b xs M L (i + 1) 0 s' := by
  intro fuel
  induction fuel with
  | zero =>
    intro l s hl hf e
    have h0 : reach b l (val xs i) = false := by
      apply Bool.eq_false_iff.2
      intro h2
      have := (reach_lt_64 h.hb (val_lt i) h2).2
      omega
    have hz : val xs i / 2 ^ (b * l) = 0 := by
      simp only [reach, decide_eq_false_iff_not] at h0; omega
    exact ⟨s, by rw [enterVal, if_pos hz], e.done hl h0⟩
  | succ fuel ih =>
    intro l s hl hf e
    by_cases hz : val xs i / 2 ^ (b * l) = 0
    · have h0 : reach b l (val xs i) = false := by
        simp only [reach, decide_eq_false_iff_not]; omega
      exact ⟨s, by rw [enterVal, if_pos hz], e.done hl h0⟩
    · have hr : reach b l (val xs i) = true := by simp [reach, hz]
      have hr1 : reach b (l - 1) (val xs i) = true := reach_mono (by omega) hr
      have hlL := h.lt hi hr
      have hpo : pos b xs (l - 1) i < s.ov.length := by
        rw [e.ol]
        have h1 := pos_lt hi hr1
        have h2 := start_mono (b := b) (xs := xs) (show l - 1 + 1 ≤ L - 1 by omega)
        omega
      obtain ⟨cnt, data, g1, g2, g3, g4⟩ := e.step h hi hr (ov := s.ov.set (pos b xs (l - 1) i) true) (by rw [List.length_set]) (by
        intro p hp
        rw [getD_set _ _ _ _ _ hpo]
        by_cases hq : pos b xs (l - 1) i = p
        · rw [if_pos hq]; simp [hl, hq]
        · rw [if_neg hq]
          constructor
          · exact .inl
          · rintro (h1 | ⟨_, h1⟩)
            · exact h1
            · exact absurd h1.symm hq)
      obtain ⟨s', he, hs'⟩ := ih (l + 1) _ (by omega) (by omega) g4
      refine ⟨s', ?_, hs'⟩
      rw [enterVal, if_neg hz]
      rw [setList_of_lt hpo, sbind, g1, sbind, g2, sbind, g3, sbind]
      have e1 : val xs i / 2 ^ (b * l) / 2 ^ b = val xs i / 2 ^ (b * (l + 1)) := by
        rw [Nat.div_div_eq_div_mul, ← Nat.pow_add, Nat.mul_succ]
      have hl64 := (reach_lt_64 h.hb (val_lt i) hr).2
      have e2 : (2 * l + 2) % 256 = 2 * (l + 1) := by omega
      rw [e1, e2]; exact he

theorem enterAll_spec (h : Lev b xs M L) : ∀ (r : List Word) (j : Nat) (s : ES), xs.drop j = r → j ≤ xs.length → Ent b xs M L j 0 s →
      ∃ s', enterAll b r s = some s' ∧ Ent b xs M L xs.length 0 s' := by
  intro r
  induction r with
  | nil =>
    intro j s hd hj e
    have hjn : j = xs.length := by
      have := congrArg List.length hd; simp at this; omega
    subst hjn
    exact ⟨s, rfl, e⟩
  | cons x r ih =>
    intro j s hd hj e
    obtain ⟨hjl, hv, hd'⟩ := val_drop hd
    have hr0 : reach b 0 (val xs j) = true := by simp [reach]
    obtain ⟨cnt, data, g1, g2, g3, g4⟩ := e.step h hjl hr0 (ov := s.ov) rfl (by intro p _; simp)
    obtain ⟨s1, he1, e1⟩ := enterVal_spec h hjl 64 1 _ (by omega) (by omega) g4
    obtain ⟨s2, he2, e2⟩ := ih (j + 1) s1 hd' hjl e1
    refine ⟨s2, ?_, e2⟩
    rw [Nat.mul_zero] at g1 g2
    rw [Nat.mul_zero, Nat.pow_zero, Nat.div_one] at g3
    rw [Nat.mul_one] at he1
    rw [enterAll, g1, sbind, g2, sbind, ← hv, g3, sbind]
    rw [show (2 : Nat) * 1 = 2 from rfl, show (1 : Nat) - 1 = 0 from rfl] at he1
    rw [he1, sbind]; exact he2

/-! ### Step (4) -/

theorem fillRanks_spec (ov : List Bool) {M : Nat} : ∀ (fuel i : Nat) (lpr : List Nat), lpr.length = 2 * M → M ≤ fuel + i → i ≤ M →
      ∃ lpr', fillRanks ov fuel i lpr = some lpr' ∧ lpr'.length = 2 * M ∧ (∀ l, lpr'.getD (2 * l) 0 = lpr.getD (2 * l) 0) ∧
        (∀ l, l < i → lpr'.getD (2 * l + 1) 0 = lpr.getD (2 * l + 1) 0) ∧
        (∀ l, i ≤ l → l < M → (∀ k, i ≤ k → k ≤ l → lpr.getD (2 * k) 0 < ov.length) →
          lpr'.getD (2 * l + 1) 0 = rank ov (lpr.getD (2 * l) 0)) := by
  intro fuel
  induction fuel with
  | zero =>
    intro i lpr hl hf hi
    refine ⟨lpr, ?_, hl, fun _ => rfl, fun _ _ => rfl, ?_⟩
    · rw [fillRanks, if_neg (by omega)]
    · intro l h1 h2; omega
  | succ fuel ih =>
    intro i lpr hl hf hi
    by_cases hc : 2 * i < lpr.length ∧ lpr.getD (2 * i) 0 < ov.length
    · have hlt : 2 * i + 1 < lpr.length := by omega
      obtain ⟨lpr', g1, g2, g3, g4, g5⟩ := ih (i + 1) (lpr.set (2 * i + 1) (rank ov (lpr.getD (2 * i) 0))) (by rw [List.length_set]; exact hl)
        (by omega) (by omega)
      have hev : ∀ l, (lpr.set (2 * i + 1) (rank ov (lpr.getD (2 * i) 0))).getD (2 * l) 0 = lpr.getD (2 * l) 0 := by
        intro l; rw [getD_set _ _ _ _ _ hlt, if_neg (by omega)]
      refine ⟨lpr', ?_, g2, ?_, ?_, ?_⟩
      · rw [fillRanks, if_pos hc, setList_of_lt hlt, sbind]; exact g1
      · intro l; rw [g3, hev]
      · intro l hl'
        rw [g4 l (by omega), getD_set _ _ _ _ _ hlt, if_neg (by omega)]
      · intro l h1 h2 h3
        by_cases hli : l = i
        · subst hli
          rw [g4 l (by omega), getD_set _ _ _ _ _ hlt, if_pos rfl]
        · rw [g5 l (by omega) h2 (by intro k h4 h5; rw [hev]; exact h3 k (by omega) h5), hev]
    · refine ⟨lpr, ?_, hl, fun _ => rfl, fun _ _ => rfl, ?_⟩
      · rw [fillRanks, if_neg hc]
      · intro l h1 h2 h3
        have := h3 i (Nat.le_refl _) h1
        exact absurd ⟨by omega, this⟩ hc

/-! ### The constructor -/

/-- The finished structure. -/
structure Ok (b : Nat) (xs : List Word) (M L : Nat) (d : Dac) : Prop where
  lev : Lev b xs M L
  hM2 : 2 ≤ M
  ml : d.maxLevel = L
  lp : ∀ l, l < M → d.lpr[2 * l]? = some (start b xs l)
  lr : ∀ l, l + 1 < L → d.lpr[2 * l + 1]? = some (rank d.ov (start b xs l))
  ol : d.ov.length = start b xs (L - 1)
  dv : ∀ i l, i < xs.length → reach b l (val xs i) = true →
    d.data.xs[pos b xs l i]? = some (val xs i / 2 ^ (b * l) % 2 ^ b)
  ovv : ∀ i l, i < xs.length → reach b l (val xs i) = true → l + 1 < L →
    d.ov[pos b xs l i]? = some (reach b (l + 1) (val xs i))

theorem new_spec (hb : 0 < b) (junk : Nat) (hn : 0 < xs.length) : ∃ d M L, new b junk xs = some d ∧ Ok b xs M L d := by
  obtain ⟨cnt, mx, he, h1, h0, h2, h3, h4, h5⟩ := countAll_spec (b := b) (xs := xs) hb xs 0 ((List.replicate 128 0).set 0 xs.length) 4 rfl
    (Nat.zero_le _) (by simp) (by
      intro l hl
      rw [getD_set _ _ _ _ _ (by simp), if_neg (by omega)]
      show _ = 0
      rw [List.getD_eq_getElem?_getD, List.getElem?_replicate]
      split <;> rfl) (Nat.le_refl _) (by intro l i hi; omega) (.inl rfl)
  have hM : ∃ M, mx = 2 * M ∧ 2 ≤ M ∧ M ≤ 64 := by
    rcases h5 with h5 | ⟨l, i, hi, hr, h5⟩
    · exact ⟨2, by omega, by omega, by omega⟩
    · have := (reach_lt_64 hb (val_lt (xs := xs) i) hr).2
      exact ⟨l + 1, by omega, by omega, by omega⟩
  obtain ⟨M, rfl, hM2, hM64⟩ := hM
  have hc0 : cntL b xs 0 = xs.length := idx_zero_level _
  have hN : ∀ l, l < M → (cnt.take (2 * M)).getD (2 * l) 0 = cntL b xs l := by
    intro l hl
    have e1 : (cnt.take (2 * M)).getD (2 * l) 0 = cnt.getD (2 * l) 0 := by
      rw [List.getD_eq_getElem?_getD, List.getElem?_take, if_pos (by omega), List.getD_eq_getElem?_getD]
    rw [e1]
    by_cases hl0 : l = 0
    · subst hl0
      rw [Nat.mul_zero, h0, hc0, getD_set _ _ _ _ _ (by simp), if_pos rfl]
    · exact h2 l (by omega)
  obtain ⟨p, hp, p1, p2, p3, p4, p5, p6, p7⟩ := prefixSums_spec (b := b) (xs := xs) (M := M) M 0 ⟨cnt.take (2 * M), 0, 0, 0⟩ (by omega) hM64
    (by show (cnt.take (2 * M)).length = _; rw [List.length_take]; omega) (by intro l hl; omega) (by intro l _ hl; exact hN l hl) rfl (Nat.le_refl _)
    (by intro l hl; exact absurd hl (Nat.not_lt_zero l)) (by intro h; exact absurd h (Nat.lt_irrefl 0)) (by intro h; exact absurd h (Nat.lt_irrefl 0))
  have hL0 : 0 < p.maxLevel := by
    apply Decidable.byContradiction
    intro hz
    have hz : p.maxLevel = 0 := by omega
    have := p6 (by omega)
    rw [hz, hc0] at this; omega
  have hMz : cntL b xs M = 0 := by
    apply Decidable.byContradiction
    intro hz
    have : ∀ n, n ≤ xs.length → idx b xs M n = 0 := by
      intro n
      induction n with
      | zero => intro _; rfl
      | succ n ih =>
        intro hn
        rw [idx_succ, ih (by omega)]
        by_cases hr : reach b M (val xs n) = true
        · have := h4 M n (by omega) hr; omega
        · rw [if_neg hr]
    exact hz (this _ (Nat.le_refl _))
  have hlev : Lev b xs M p.maxLevel := by
    refine ⟨hb, hM64, hL0, p4, p5, ?_⟩
    intro l hl
    have h6 : cntL b xs p.maxLevel = 0 := by
      by_cases h7 : p.maxLevel < M
      · exact p6 h7
      · rw [show p.maxLevel = M by omega]; exact hMz
    have := cntL_antitone (b := b) (xs := xs) hl
    omega
  have hsum : p.sum = start b xs p.maxLevel := by
    rw [p3]
    have : ∀ k, start b xs (p.maxLevel + k) = start b xs p.maxLevel := by
      intro k
      induction k with
      | zero => rfl
      | succ k ih => rw [← Nat.add_assoc, start, ih, hlev.hzero _ (by omega)]; rfl
    have := this (M - p.maxLevel)
    rwa [show p.maxLevel + (M - p.maxLevel) = M by omega] at this
  have hsub : p.sum - p.last = start b xs (p.maxLevel - 1) := by
    rw [hsum, p7 hL0]
    have : start b xs (p.maxLevel - 1 + 1) = start b xs (p.maxLevel - 1) + cntL b xs (p.maxLevel - 1) := rfl
    rw [show p.maxLevel - 1 + 1 = p.maxLevel by omega] at this
    omega
  have hpos0 : ∀ l, pos b xs l 0 = start b xs l := fun _ => rfl
  obtain ⟨s, hs, e⟩ := enterAll_spec hlev xs 0 ⟨⟨b, List.replicate p.sum 0⟩, List.replicate (p.sum - p.last) false, p.lpr⟩ rfl (Nat.zero_le _) (by
    refine ⟨by simp [hsum], rfl, by simp [hsub], p1, ?_, ?_, ?_⟩
    · intro i' l' h6; omega
    · intro q hq
      constructor
      · intro h6
        replace h6 : (List.replicate (p.sum - p.last) false).getD q false = true := h6
        rw [List.getD_eq_getElem?_getD, List.getElem?_replicate] at h6
        split at h6 <;> simp at h6
      · rintro ⟨i', l', h6, _⟩; omega
    · intro l hl
      rw [if_neg (by omega), hpos0]
      exact p2 l hl)
  obtain ⟨lpr, hf, f1, f2, _, f3⟩ := fillRanks_spec s.ov p.lpr.length 0 p.lpr p1 (by omega) (by omega)
  refine ⟨⟨s.data, s.ov, lpr, p.maxLevel⟩, M, p.maxLevel, ?_, ?_⟩
  · rw [new, if_neg (by omega), he, sbind]
    dsimp only
    rw [show 2 * M / 2 = M by omega]
    rw [Nat.mul_zero] at hp
    rw [hp, sbind, hs, sbind, hf, sbind]; rfl
  · have hstartlt : ∀ l, l + 1 < p.maxLevel → start b xs l < start b xs (p.maxLevel - 1) := by
      intro l hl
      have h6 := p5 l (by omega)
      have h7 := start_mono (b := b) (xs := xs) (show l + 1 ≤ p.maxLevel - 1 by omega)
      rw [start] at h7; omega
    refine ⟨hlev, hM2, rfl, ?_, ?_, e.ol, ?_, ?_⟩
    · intro l hl
      show lpr[2 * l]? = _
      rw [getElem?_of_getD (by omega), f2, p2 l hl]
    · intro l hl
      show lpr[2 * l + 1]? = _
      rw [getElem?_of_getD (by omega), f3 l (by omega) (by omega), p2 l (by omega)]
      intro k _ hk
      rw [p2 k (by omega), e.ol]
      exact hstartlt k (by omega)
    · intro i l hi hr
      exact e.dv i l (.inl hi) hr
    · intro i l hi hr hl
      show s.ov[pos b xs l i]? = _
      have hpl : pos b xs l i < s.ov.length := by
        rw [e.ol]
        exact Nat.lt_of_lt_of_le (pos_lt hi hr) (start_mono (by omega))
      have h6 := e.ovv _ hpl
      have h7 : s.ov[pos b xs l i]? = some (s.ov.getD (pos b xs l i) false) := by simp [hpl]
      rw [h7]
      congr 1
      by_cases hq : reach b (l + 1) (val xs i) = true
      · rw [hq]
        exact h6.2 ⟨i, l, .inl hi, hq, rfl⟩
      · rw [Bool.eq_false_iff.2 hq]
        apply Bool.eq_false_iff.2
        intro h8
        obtain ⟨i', l', h9, h10, h11⟩ := h6.1 h8
        have hi' : i' < xs.length := by omega
        obtain ⟨h12, h13⟩ := pos_inj hi hi' hr (reach_mono (by omega) h10) h11
        subst h12; subst h13
        exact hq h10

/-! ### `operator[]` -/

theorem Ok.rank_idx {d : Dac} (h : Ok b xs M L d) {l : Nat} (hl : l + 1 < L) : ∀ i, i ≤ xs.length →
    rank d.ov (pos b xs l i) - rank d.ov (start b xs l) = idx b xs (l + 1) i ∧ rank d.ov (start b xs l) ≤ rank d.ov (pos b xs l i) := by
  intro i
  induction i with
  | zero => intro _; exact ⟨Nat.sub_self _, Nat.le_refl _⟩
  | succ i ih =>
    intro hi
    obtain ⟨ih1, ih2⟩ := ih (by omega)
    by_cases hr : reach b l (val xs i) = true
    · have e1 : pos b xs l (i + 1) = pos b xs l i + 1 := by rw [pos, idx_succ, if_pos hr, pos]; omega
      have e2 : rank d.ov (pos b xs l i + 1) = rank d.ov (pos b xs l i) + (if d.ov.getD (pos b xs l i) false then 1 else 0) := by
        rw [rank, countTrue, rank]; cases d.ov.getD (pos b xs l i) false <;> rfl
      have e3 : d.ov.getD (pos b xs l i) false = reach b (l + 1) (val xs i) := by
        rw [List.getD_eq_getElem?_getD, h.ovv i l (by omega) hr hl]; rfl
      rw [e1, e2, e3, idx_succ]
      constructor
      · omega
      · omega
    · have hr1 : reach b (l + 1) (val xs i) = false := by
        apply Bool.eq_false_iff.2
        intro h2
        exact hr (reach_mono (by omega) h2)
      have e1 : pos b xs l (i + 1) = pos b xs l i := by rw [pos, idx_succ, if_neg hr, pos]; rfl
      rw [e1, idx_succ_of hr1]; exact ⟨ih1, ih2⟩

theorem or_level {x l : Nat} : (x % 2 ^ (b * l)) ||| (x / 2 ^ (b * l) % 2 ^ b) <<< (b * l) = x % 2 ^ (b * (l + 1)) := by
  rw [Nat.or_comm, Nat.shiftLeft_eq, Nat.mul_comm _ (2 ^ (b * l)), ← Nat.two_pow_add_eq_or_of_lt (Nat.mod_lt _ (Nat.two_pow_pos _))]
  rw [Nat.mul_succ, Nat.pow_add, Nat.mod_mul]; omega

theorem getLoop_spec {d : Dac} (h : Ok b xs M L d) (hb : b < 64) {i : Nat} (hi : i < xs.length) : ∀ (fuel l : Nat) (res : Word), L ≤ fuel + l → l < L →
      reach b l (val xs i) = true → res.toNat = val xs i % 2 ^ (b * (l + 1)) →
      getLoop b d (fuel + 1) (l + 1) (b * (l + 1)) (2 * l) (pos b xs l i) res = some (BitVec.ofNat 64 (val xs i)) := by
  intro fuel
  induction fuel with
  | zero => intro l res h1 h2; omega
  | succ fuel ih =>
    intro l res h1 h2 hr hres
    have hstop : reach b (l + 1) (val xs i) = false → res = BitVec.ofNat 64 (val xs i) := by
      intro hq
      have hz : val xs i / 2 ^ (b * (l + 1)) = 0 := by
        simp only [reach, decide_eq_false_iff_not] at hq; omega
      have hlt : val xs i < 2 ^ (b * (l + 1)) := by
        rcases (Nat.div_eq_zero_iff).1 hz with h3 | h3
        · exact absurd h3 (Nat.ne_of_gt (Nat.two_pow_pos _))
        · exact h3
      apply BitVec.eq_of_toNat_eq
      rw [hres, Nat.mod_eq_of_lt hlt, BitVec.toNat_ofNat, Nat.mod_eq_of_lt (val_lt i)]
    rw [getLoop]
    by_cases hl : l + 1 < L
    · rw [if_pos (by rw [h.ml]; exact hl), h.ovv i l hi hr hl, sbind]
      by_cases hq : reach b (l + 1) (val xs i) = true
      · rw [if_pos hq]
        have hlM := h.lev.hLM
        rw [show 2 * l + 2 = 2 * (l + 1) by omega, h.lp (l + 1) (by omega), sbind, h.lr l hl, sbind]
        dsimp only
        rw [(h.rank_idx hl i (by omega)).1]
        change (Arr.get d.data (pos b xs (l + 1) i)).bind _ = _
        rw [Arr.get, h.dv i (l + 1) hi hq]
        change (shl _ _).bind _ = _
        have h64 := (reach_lt_64 h.lev.hb (val_lt i) hq).1
        rw [shl_of_lt h64]
        change getLoop b d (fuel + 1) (l + 1 + 1) ((b * (l + 1) + b) % 256) (2 * (l + 1)) (pos b xs (l + 1) i) _ = _
        have e1 : (b * (l + 1) + b) % 256 = b * (l + 1 + 1) := by
          rw [Nat.mul_succ b (l + 1)]; omega
        rw [e1]
        apply ih (l + 1) _ (by omega) hl hq
        rw [BitVec.toNat_or, BitVec.toNat_shiftLeft, BitVec.toNat_ofNat, hres, ← or_level (l := l + 1)]
        congr 1
        have h3 : val xs i / 2 ^ (b * (l + 1)) % 2 ^ b < 2 ^ 64 :=
          Nat.lt_of_le_of_lt (Nat.mod_le _ _) (Nat.lt_of_le_of_lt (Nat.div_le_self _ _) (val_lt i))
        rw [Nat.mod_eq_of_lt h3]
        apply Nat.mod_eq_of_lt
        rw [Nat.shiftLeft_eq]
        refine Nat.lt_of_le_of_lt (Nat.mul_le_mul_right _ (Nat.mod_le _ _)) ?_
        exact Nat.lt_of_le_of_lt (Nat.div_mul_le_self _ _) (val_lt i)
      · rw [if_neg hq, hstop (Bool.eq_false_iff.2 hq)]
    · rw [if_neg (by rw [h.ml]; exact hl), hstop]
      apply Bool.eq_false_iff.2
      intro hq
      exact hl (h.lev.lt hi hq)

theorem get_spec {d : Dac} (h : Ok b xs M L d) (hb : b < 64) {i : Nat} (hi : i < xs.length) : d.get b i = some (xs.getD i 0) := by
  have hr : reach b 0 (val xs i) = true := by simp [reach]
  have hM := h.lev.hM
  have hLM := h.lev.hLM
  have hp : pos b xs 0 i = i := by rw [pos, idx_zero_level, start]; omega
  have h1 := getLoop_spec h hb hi 64 0 (BitVec.ofNat 64 (val xs i % 2 ^ b)) (by omega) h.lev.hL0 hr (by
    rw [BitVec.toNat_ofNat, Nat.zero_add, Nat.mul_one]
    exact Nat.mod_eq_of_lt (Nat.lt_of_le_of_lt (Nat.mod_le _ _) (val_lt i)))
  have h2 := h.dv i 0 hi hr
  rw [hp, Nat.mul_zero, Nat.pow_zero, Nat.div_one] at h2
  have h3 := h.lp 0 (by have := h.hM2; omega)
  rw [Nat.mul_zero] at h3
  rw [Dac.get, Arr.get, h2, sbind, h3, sbind, start, Nat.zero_add]
  rw [hp, Nat.zero_add, Nat.mul_one, Nat.mul_zero] at h1
  refine h1.trans ?_
  rw [val]; simp

theorem size_spec {d : Dac} (h : Ok b xs M L d) : d.size = some xs.length := by
  have h1 := h.lp 1 (by have := h.hM2; omega)
  rw [Dac.size, show (2 : Nat) = 2 * 1 from rfl, h1]
  congr 1
  show 0 + cntL b xs 0 = _
  rw [Nat.zero_add]; exact idx_zero_level _

end Sdsl.Dac
