/-
  `nn_dict_dynamic::next` and `prev` against the set of members.
-/
import Verif.NnOps

namespace Sdsl.Nn

open Bits Spec

theorem level_lt {n d l j : Nat} (hn : n ≤ 64 ^ (d + 1)) (hl : l < d) (hj : j < ck n (d + 1 - l)) : V l + j < V d := by
  have hb := ck_le (k := d + 1 - l) (m := l) (n := n) (by rw [show d + 1 - l + l = d + 1 by omega]; exact hn)
  have hm : ∀ a b, a ≤ b → V a ≤ V b := by
    intro a b h
    induction h with
    | refl => exact Nat.le_refl _
    | step _ ih => rw [V]; exact Nat.le_trans ih (Nat.le_add_right _ _)
  have := hm (l + 1) d hl
  rw [V] at this
  omega

theorem up_iff {x j : Nat} : j ≤ x / 64 ↔ 64 * j ≤ x := by omega

theorem nextUp_eq {n d idx : Nat} {s : Nn} {S : Nat → Prop} (h : Inv s n d S) (junk : Word) : ∀ (l j off : Nat), l ≤ d → j < ck n (d + 1 - l) → off ≤ 64 →
    (∀ i, S i → (idx ≤ i ↔ 64 * j + off ≤ i / 64 ^ (d - l))) →
    (nextUp (some junk) s l (V l + j) off = some none ∧ ∀ i, S i → ¬idx ≤ i) ∨
    ∃ l' j' pos, nextUp (some junk) s l (V l + j) off = some (some (l', V l' + j', pos)) ∧ l' ≤ d ∧ j' < ck n (d + 1 - l') ∧
      Occ S (d - l') (64 * j' + pos) ∧ ∀ i, S i → (idx ≤ i ↔ 64 * j' + pos ≤ i / 64 ^ (d - l')) := by
  intro l
  induction l using Nat.strongRecOn with
  | _ l ih =>
    intro j off hl hj hoff H
    have hlt := h.geo.node_lt hl hj
    have hbits := fun b hb => (h.lv l hl).bit h.geo hl hj (b := b) hb
    unfold nextUp
    rw [h.geo.real hl, sbind, ld_of_lt hlt, sbind]
    generalize s.tree[R n d l + j]'hlt = w at *
    -- the step to the parent
    have step : (∀ b, off ≤ b → b < 64 → w.getLsbD b = false) →
        ((if V l + j = 0 then (some none : Option (Option (Nat × Nat × Nat))) else match (generalizing := false) l with
          | 0 => none
          | dep + 1 => nextUp (some junk) s dep ((V l + j - 1) / 64) ((V l + j - 1) % 64 + 1)) = some none ∧ ∀ i, S i → ¬idx ≤ i) ∨
        ∃ l' j' pos, (if V l + j = 0 then (some none : Option (Option (Nat × Nat × Nat))) else match (generalizing := false) l with
          | 0 => none
          | dep + 1 => nextUp (some junk) s dep ((V l + j - 1) / 64) ((V l + j - 1) % 64 + 1)) = some (some (l', V l' + j', pos)) ∧ l' ≤ d ∧ j' < ck n (d + 1 - l') ∧
          Occ S (d - l') (64 * j' + pos) ∧ ∀ i, S i → (idx ≤ i ↔ 64 * j' + pos ≤ i / 64 ^ (d - l')) := by
      intro hz
      have H2 : ∀ i, S i → (idx ≤ i ↔ 64 * (j + 1) ≤ i / 64 ^ (d - l)) := by
        intro i hi
        rw [H i hi]
        constructor
        · intro h1
          refine Classical.byContradiction fun h2 => ?_
          have := hz (i / 64 ^ (d - l) - 64 * j) (by omega) (by omega)
          have := (hbits (i / 64 ^ (d - l) - 64 * j) (by omega)).2 ⟨i, hi, by omega⟩
          simp_all
        · intro h1; omega
      cases l with
      | zero =>
        have hr := ck_root h.geo.pos (Nat.le_of_lt h.geo.le)
        rw [Nat.sub_zero, hr] at hj
        obtain rfl : j = 0 := by omega
        refine .inl ⟨rfl, fun i hi h1 => ?_⟩
        rw [H2 i hi] at h1
        have hin := h.mem i hi
        have := h.geo.le
        have : i / 64 ^ (d - 0) < 64 := by
          rw [Nat.div_lt_iff_lt_mul (Nat.pow_pos (by decide))]
          rw [Nat.pow_succ] at this
          rw [Nat.sub_zero]; omega
        omega
      | succ l =>
        obtain ⟨e1, e2⟩ := up_pos l j
        rw [e1, e2, if_neg (by rw [V_succ]; omega)]
        have hj2 : j / 64 < ck n (d + 1 - l) := by
          rw [show d + 1 - l = d + 1 - (l + 1) + 1 by omega, ck]; omega
        apply ih l (by omega) (j / 64) (j % 64 + 1) (by omega) hj2 (by omega)
        intro i hi
        rw [H2 i hi, show d - l = d - (l + 1) + 1 by omega, q_up]
        omega
    by_cases c64 : off = 64
    · subst c64
      unfold shrU
      rw [if_neg (by omega), sbind, if_pos (.inr rfl)]
      exact step (fun b h1 h2 => by omega)
    · unfold shrU
      rw [if_pos (by omega), sbind]
      by_cases c0 : w >>> off = 0#64
      · rw [if_pos (.inl c0)]
        refine step (fun b h1 h2 => ?_)
        have := (word_zero_iff.1 c0) (b - off) (by omega)
        rwa [BitVec.getLsbD_ushiftRight, show off + (b - off) = b by omega] at this
      · rw [if_neg (fun hc => hc.elim c0 c64)]
        obtain ⟨p, h1, h2⟩ := lo_isLo c0
        obtain ⟨h3, h4, h5⟩ := h2
        rw [BitVec.getLsbD_ushiftRight] at h4
        have hp : off + p < 64 := by
          refine Classical.byContradiction fun hc => ?_
          rw [BitVec.getLsbD_of_ge _ _ (by omega)] at h4; simp at h4
        rw [h1, sbind]
        refine .inr ⟨l, j, p + off, rfl, hl, hj, ?_, fun i hi => ?_⟩
        · rw [Nat.add_comm p off]; exact (hbits _ hp).1 h4
        · rw [H i hi]
          constructor
          · intro h6
            refine Classical.byContradiction fun h7 => ?_
            have h8 := h5 (i / 64 ^ (d - l) - 64 * j - off) (by omega)
            rw [BitVec.getLsbD_ushiftRight, show off + (i / 64 ^ (d - l) - 64 * j - off) = i / 64 ^ (d - l) - 64 * j by omega] at h8
            have := (hbits (i / 64 ^ (d - l) - 64 * j) (by omega)).2 ⟨i, hi, by omega⟩
            simp_all
          · intro h6; omega

theorem nextDown_eq {n d idx : Nat} {s : Nn} {S : Nat → Prop} (h : Inv s n d S) : ∀ (fuel l j pos : Nat), l ≤ d → d - l ≤ fuel → j < ck n (d + 1 - l) →
    Occ S (d - l) (64 * j + pos) → (∀ i, S i → (idx ≤ i ↔ 64 * j + pos ≤ i / 64 ^ (d - l))) →
    ∃ r, nextDown s fuel l (V l + j) pos = some r ∧ S r ∧ idx ≤ r ∧ ∀ i, S i → idx ≤ i → r ≤ i := by
  intro fuel
  have fin : ∀ l j pos, l = d → Occ S (d - l) (64 * j + pos) → (∀ i, S i → (idx ≤ i ↔ 64 * j + pos ≤ i / 64 ^ (d - l))) →
      some ((V l + j - s.beg) * 64 + pos) = some (64 * j + pos) ∧ S (64 * j + pos) ∧ idx ≤ 64 * j + pos ∧ ∀ i, S i → idx ≤ i → 64 * j + pos ≤ i := by
    intro l j pos e ho H
    subst e
    simp only [Nat.sub_self, Nat.pow_zero, Nat.div_one] at H
    obtain ⟨i, h1, h2⟩ := ho
    rw [Nat.sub_self, Nat.pow_zero, Nat.div_one] at h2
    subst h2
    refine ⟨by rw [h.geo.beg]; congr 1; omega, h1, (H _ h1).2 (Nat.le_refl _), fun i hi hle => (H i hi).1 hle⟩
  induction fuel with
  | zero =>
    intro l j pos hl hf hj ho H
    have e : l = d := by omega
    unfold nextDown
    rw [if_neg (by rw [h.geo.beg, e]; omega)]
    exact ⟨_, fin l j pos e ho H⟩
  | succ fuel ih =>
    intro l j pos hl hf hj ho H
    unfold nextDown
    by_cases e : l = d
    · rw [if_neg (by rw [h.geo.beg, e]; omega)]
      exact ⟨_, fin l j pos e ho H⟩
    · have hlt : V l + j < s.beg := by rw [h.geo.beg]; exact level_lt (Nat.le_of_lt h.geo.le) (by omega) hj
      rw [if_pos hlt]
      have ev : (V l + j) * 64 + 1 + pos = V (l + 1) + (64 * j + pos) := by rw [V_succ]; omega
      dsimp only
      rw [ev]
      have hj' : 64 * j + pos < ck n (d + 1 - (l + 1)) := by
        obtain ⟨i, h1, h2⟩ := ho
        rw [← h2, show d + 1 - (l + 1) = d - l by omega]
        exact ck_lt (h.mem i h1) _
      have hl' : l + 1 ≤ d := by omega
      have hnz : s.tree[R n d (l + 1) + (64 * j + pos)]'(h.geo.node_lt hl' hj') ≠ 0#64 := by
        intro hz
        rw [(h.lv (l + 1) hl').zero h.geo hl' hj', show d + 1 - (l + 1) = d - l by omega] at hz
        exact hz ho
      have hbits := fun b hb => (h.lv (l + 1) hl').bit h.geo hl' hj' (b := b) hb
      rw [h.geo.real hl', sbind, ld_of_lt (h.geo.node_lt hl' hj'), sbind]
      obtain ⟨p, h1, h2, h3, h4⟩ := lo_isLo hnz
      rw [h1, sbind]
      apply ih (l + 1) (64 * j + pos) p hl' (by omega) hj' ((hbits p h2).1 h3)
      intro i hi
      rw [H i hi, show d - l = d - (l + 1) + 1 by omega, q_up]
      constructor
      · intro h6
        refine Classical.byContradiction fun h7 => ?_
        have h8 := h4 (i / 64 ^ (d - (l + 1)) - 64 * (64 * j + pos)) (by omega)
        have := (hbits (i / 64 ^ (d - (l + 1)) - 64 * (64 * j + pos)) (by omega)).2 ⟨i, hi, by omega⟩
        simp_all
      · intro h6; omega

theorem next_eq {n d idx : Nat} {s : Nn} {S : Nat → Prop} (h : Inv s n d S) (junk : Word) (hi : idx < n) :
    ∃ r, next (some junk) s idx = some r ∧ ((S r ∧ idx ≤ r ∧ ∀ i, S i → idx ≤ i → r ≤ i) ∨ (r = n ∧ ∀ i, S i → ¬idx ≤ i)) := by
  have hj := node_idx (Nat.le_refl d) hi
  rw [Nat.sub_self, Nat.pow_zero, Nat.div_one] at hj
  unfold next
  rw [h.geo.beg, h.geo.depth]
  rcases nextUp_eq h junk (idx := idx) d (idx / 64) (idx % 64) (Nat.le_refl _) hj (by omega) (by
    intro i _
    rw [Nat.sub_self, Nat.pow_zero, Nat.div_one, Nat.div_add_mod]) with ⟨h1, h2⟩ | ⟨l', j', pos, h1, h2, h3, h4, h5⟩
  · rw [h1, sbind]
    exact ⟨s.size, rfl, .inr ⟨h.geo.size, h2⟩⟩
  · rw [h1, sbind]
    obtain ⟨r, h6, h7⟩ := nextDown_eq h (d + 1) l' j' pos h2 (by omega) h3 h4 h5
    exact ⟨r, h6, .inl h7⟩

theorem prevUp_eq {n d idx : Nat} {s : Nn} {S : Nat → Prop} (h : Inv s n d S) (junk : Word) : ∀ (l j c : Nat), l ≤ d → j < ck n (d + 1 - l) → c ≤ 64 →
    (∀ i, S i → (i ≤ idx ↔ i / 64 ^ (d - l) < 64 * j + c)) →
    (prevUp (some junk) s l (V l + j) ((c + 255) % 256) = some none ∧ ∀ i, S i → ¬i ≤ idx) ∨
    ∃ l' j' pos, prevUp (some junk) s l (V l + j) ((c + 255) % 256) = some (some (l', V l' + j', pos)) ∧ l' ≤ d ∧ j' < ck n (d + 1 - l') ∧
      Occ S (d - l') (64 * j' + pos) ∧ ∀ i, S i → (i ≤ idx ↔ i / 64 ^ (d - l') ≤ 64 * j' + pos) := by
  intro l
  induction l using Nat.strongRecOn with
  | _ l ih =>
    intro j c hl hj hc H
    have hlt := h.geo.node_lt hl hj
    have hbits := fun b hb => (h.lv l hl).bit h.geo hl hj (b := b) hb
    unfold prevUp
    rw [h.geo.real hl, sbind, ld_of_lt hlt, sbind]
    generalize s.tree[R n d l + j]'hlt = w at *
    have step : (∀ b, b < c → w.getLsbD b = false) →
        ((if V l + j = 0 then (some none : Option (Option (Nat × Nat × Nat))) else match (generalizing := false) l with
          | 0 => none
          | dep + 1 => prevUp (some junk) s dep ((V l + j - 1) / 64) (((V l + j - 1) % 64 + 255) % 256)) = some none ∧ ∀ i, S i → ¬i ≤ idx) ∨
        ∃ l' j' pos, (if V l + j = 0 then (some none : Option (Option (Nat × Nat × Nat))) else match (generalizing := false) l with
          | 0 => none
          | dep + 1 => prevUp (some junk) s dep ((V l + j - 1) / 64) (((V l + j - 1) % 64 + 255) % 256)) = some (some (l', V l' + j', pos)) ∧ l' ≤ d ∧ j' < ck n (d + 1 - l') ∧
          Occ S (d - l') (64 * j' + pos) ∧ ∀ i, S i → (i ≤ idx ↔ i / 64 ^ (d - l') ≤ 64 * j' + pos) := by
      intro hz
      have H2 : ∀ i, S i → (i ≤ idx ↔ i / 64 ^ (d - l) < 64 * j) := by
        intro i hi
        rw [H i hi]
        constructor
        · intro h1
          refine Classical.byContradiction fun h2 => ?_
          have := hz (i / 64 ^ (d - l) - 64 * j) (by omega)
          have := (hbits (i / 64 ^ (d - l) - 64 * j) (by omega)).2 ⟨i, hi, by omega⟩
          simp_all
        · intro h1; omega
      cases l with
      | zero =>
        have hr := ck_root h.geo.pos (Nat.le_of_lt h.geo.le)
        rw [Nat.sub_zero, hr] at hj
        obtain rfl : j = 0 := by omega
        refine .inl ⟨rfl, fun i hi h1 => ?_⟩
        rw [H2 i hi] at h1
        exact absurd h1 (by rw [Nat.mul_zero]; exact Nat.not_lt_zero _)
      | succ l =>
        obtain ⟨e1, e2⟩ := up_pos l j
        rw [e1, e2, if_neg (by rw [V_succ]; omega)]
        have hj2 : j / 64 < ck n (d + 1 - l) := by
          rw [show d + 1 - l = d + 1 - (l + 1) + 1 by omega, ck]; omega
        apply ih l (by omega) (j / 64) (j % 64) (by omega) hj2 (by omega)
        intro i hi
        rw [H2 i hi, show d - l = d - (l + 1) + 1 by omega, q_up]
        omega
    by_cases c0 : c = 0
    · subst c0
      unfold shlU
      rw [if_neg (by omega), sbind, if_pos (.inr rfl)]
      exact step (fun b h1 => by omega)
    · have eo : (c + 255) % 256 = c - 1 := by omega
      rw [eo]
      unfold shlU
      rw [if_pos (by omega), sbind]
      have hb : ∀ b, b < 64 → (w <<< (63 - (c - 1))).getLsbD b = (decide (64 - c ≤ b) && w.getLsbD (b - (64 - c))) := by
        intro b hb
        rw [BitVec.getLsbD_shiftLeft, show 63 - (c - 1) = 64 - c by omega]
        by_cases h1 : b < 64 - c
        · have : ¬ 64 - c ≤ b := by omega
          simp [h1, this]
        · have : 64 - c ≤ b := by omega
          simp [hb, h1, this]
      by_cases cz : w <<< (63 - (c - 1)) = 0#64
      · rw [if_pos (.inl cz)]
        refine step (fun b h1 => ?_)
        have := (word_zero_iff.1 cz) (b + (64 - c)) (by omega)
        rw [hb _ (by omega), Nat.add_sub_cancel] at this
        simpa using this
      · rw [if_neg (fun hc => hc.elim cz (by omega))]
        have h2 := log2_isHi cz
        rw [hi_eq, sbind]
        generalize Nat.log2 (w <<< (63 - (c - 1))).toNat = p at *
        obtain ⟨h3, h4, h5⟩ := h2
        rw [hb p h3, Bool.and_eq_true, decide_eq_true_iff] at h4
        refine .inr ⟨l, j, p - (64 - c), by rw [show 63 - (c - 1) = 64 - c by omega], hl, hj, (hbits _ (by omega)).1 h4.2, fun i hi => ?_⟩
        rw [H i hi]
        constructor
        · intro h6
          refine Classical.byContradiction fun h7 => ?_
          have h8 := h5 (i / 64 ^ (d - l) - 64 * j + (64 - c)) (by omega)
          rw [hb _ (by omega), Nat.add_sub_cancel] at h8
          have := (hbits (i / 64 ^ (d - l) - 64 * j) (by omega)).2 ⟨i, hi, by omega⟩
          simp_all
        · intro h6; omega

theorem prevDown_eq {n d idx : Nat} {s : Nn} {S : Nat → Prop} (h : Inv s n d S) : ∀ (fuel l j pos : Nat), l ≤ d → d - l ≤ fuel → j < ck n (d + 1 - l) →
    Occ S (d - l) (64 * j + pos) → (∀ i, S i → (i ≤ idx ↔ i / 64 ^ (d - l) ≤ 64 * j + pos)) →
    ∃ r, prevDown s fuel l (V l + j) pos = some r ∧ S r ∧ r ≤ idx ∧ ∀ i, S i → i ≤ idx → i ≤ r := by
  intro fuel
  have fin : ∀ l j pos, l = d → Occ S (d - l) (64 * j + pos) → (∀ i, S i → (i ≤ idx ↔ i / 64 ^ (d - l) ≤ 64 * j + pos)) →
      some ((V l + j - s.beg) * 64 + pos) = some (64 * j + pos) ∧ S (64 * j + pos) ∧ 64 * j + pos ≤ idx ∧ ∀ i, S i → i ≤ idx → i ≤ 64 * j + pos := by
    intro l j pos e ho H
    subst e
    simp only [Nat.sub_self, Nat.pow_zero, Nat.div_one] at H
    obtain ⟨i, h1, h2⟩ := ho
    rw [Nat.sub_self, Nat.pow_zero, Nat.div_one] at h2
    subst h2
    refine ⟨by rw [h.geo.beg]; congr 1; omega, h1, (H _ h1).2 (Nat.le_refl _), fun i hi hle => (H i hi).1 hle⟩
  induction fuel with
  | zero =>
    intro l j pos hl hf hj ho H
    have e : l = d := by omega
    unfold prevDown
    rw [if_neg (by rw [h.geo.beg, e]; omega)]
    exact ⟨_, fin l j pos e ho H⟩
  | succ fuel ih =>
    intro l j pos hl hf hj ho H
    unfold prevDown
    by_cases e : l = d
    · rw [if_neg (by rw [h.geo.beg, e]; omega)]
      exact ⟨_, fin l j pos e ho H⟩
    · have hlt : V l + j < s.beg := by rw [h.geo.beg]; exact level_lt (Nat.le_of_lt h.geo.le) (by omega) hj
      rw [if_pos hlt]
      have ev : (V l + j) * 64 + 1 + pos = V (l + 1) + (64 * j + pos) := by rw [V_succ]; omega
      dsimp only
      rw [ev]
      have hj' : 64 * j + pos < ck n (d + 1 - (l + 1)) := by
        obtain ⟨i, h1, h2⟩ := ho
        rw [← h2, show d + 1 - (l + 1) = d - l by omega]
        exact ck_lt (h.mem i h1) _
      have hl' : l + 1 ≤ d := by omega
      have hnz : s.tree[R n d (l + 1) + (64 * j + pos)]'(h.geo.node_lt hl' hj') ≠ 0#64 := by
        intro hz
        rw [(h.lv (l + 1) hl').zero h.geo hl' hj', show d + 1 - (l + 1) = d - l by omega] at hz
        exact hz ho
      have hbits := fun b hb => (h.lv (l + 1) hl').bit h.geo hl' hj' (b := b) hb
      rw [h.geo.real hl', sbind, ld_of_lt (h.geo.node_lt hl' hj'), sbind]
      obtain ⟨h2, h3, h4⟩ := log2_isHi hnz
      rw [hi_eq, sbind]
      apply ih (l + 1) (64 * j + pos) _ hl' (by omega) hj' ((hbits _ h2).1 h3)
      intro i hi
      rw [H i hi, show d - l = d - (l + 1) + 1 by omega, q_up]
      constructor
      · intro h6
        refine Classical.byContradiction fun h7 => ?_
        have h8 := h4 (i / 64 ^ (d - (l + 1)) - 64 * (64 * j + pos)) (by omega)
        have := (hbits (i / 64 ^ (d - (l + 1)) - 64 * (64 * j + pos)) (by omega)).2 ⟨i, hi, by omega⟩
        simp_all
      · intro h6; omega

theorem prev_eq {n d idx : Nat} {s : Nn} {S : Nat → Prop} (h : Inv s n d S) (junk : Word) (hi : idx < n) :
    ∃ r, prev (some junk) s idx = some r ∧ ((S r ∧ r ≤ idx ∧ ∀ i, S i → i ≤ idx → i ≤ r) ∨ (r = n ∧ ∀ i, S i → ¬i ≤ idx)) := by
  have hj := node_idx (Nat.le_refl d) hi
  rw [Nat.sub_self, Nat.pow_zero, Nat.div_one] at hj
  unfold prev
  rw [h.geo.beg, h.geo.depth]
  have key := prevUp_eq h junk (idx := idx) d (idx / 64) (idx % 64 + 1) (Nat.le_refl _) hj (by omega) (by
    intro i _
    rw [Nat.sub_self, Nat.pow_zero, Nat.div_one]; omega)
  rw [show (idx % 64 + 1 + 255) % 256 = idx % 64 by omega] at key
  rcases key with ⟨h1, h2⟩ | ⟨l', j', pos, h1, h2, h3, h4, h5⟩
  · rw [h1, sbind]
    exact ⟨s.size, rfl, .inr ⟨h.geo.size, h2⟩⟩
  · rw [h1, sbind]
    obtain ⟨r, h6, h7⟩ := prevDown_eq h (d + 1) l' j' pos h2 (by omega) h3 h4 h5
    exact ⟨r, h6, .inl h7⟩

/-! ### Strict semantics -/

theorem shrU_mono {w : Word} {off : Nat} {r : Word} (junk : Word) (h : shrU none w off = some r) : shrU (some junk) w off = some r := by
  unfold shrU at *
  by_cases c : off < 64
  · rw [if_pos c] at h ⊢; exact h
  · rw [if_neg c] at h; contradiction

theorem shlU_mono {w : Word} {off : Nat} {r : Word} (junk : Word) (h : shlU none w off = some r) : shlU (some junk) w off = some r := by
  unfold shlU at *
  by_cases c : off < 64
  · rw [if_pos c] at h ⊢; exact h
  · rw [if_neg c] at h; contradiction

theorem nextUp_mono {s : Nn} (junk : Word) : ∀ {l v off : Nat} {r}, nextUp none s l v off = some r → nextUp (some junk) s l v off = some r := by
  intro l
  induction l using Nat.strongRecOn with
  | _ l ih =>
    intro v off r h
    unfold nextUp at h ⊢
    obtain ⟨a, h1, h⟩ := Option.bind_eq_some_iff.1 h
    obtain ⟨b, h2, h⟩ := Option.bind_eq_some_iff.1 h
    obtain ⟨c, h3, h⟩ := Option.bind_eq_some_iff.1 h
    rw [h1, sbind, h2, sbind, shrU_mono junk h3, sbind]
    by_cases c1 : c = 0#64 ∨ off = 64
    · rw [if_pos c1] at h ⊢
      by_cases c2 : v = 0
      · rw [if_pos c2] at h ⊢; exact h
      · rw [if_neg c2] at h ⊢
        cases l with
        | zero => exact h
        | succ l => exact ih l (by omega) h
    · rw [if_neg c1] at h ⊢; exact h

theorem next_mono {s : Nn} (junk : Word) {i r : Nat} (h : next none s i = some r) : next (some junk) s i = some r := by
  unfold next at *
  obtain ⟨a, h1, h⟩ := Option.bind_eq_some_iff.1 h
  rw [nextUp_mono junk h1, sbind]; exact h

theorem prevUp_mono {s : Nn} (junk : Word) : ∀ {l v off : Nat} {r}, prevUp none s l v off = some r → prevUp (some junk) s l v off = some r := by
  intro l
  induction l using Nat.strongRecOn with
  | _ l ih =>
    intro v off r h
    unfold prevUp at h ⊢
    obtain ⟨a, h1, h⟩ := Option.bind_eq_some_iff.1 h
    obtain ⟨b, h2, h⟩ := Option.bind_eq_some_iff.1 h
    obtain ⟨c, h3, h⟩ := Option.bind_eq_some_iff.1 h
    rw [h1, sbind, h2, sbind, shlU_mono junk h3, sbind]
    by_cases c1 : c = 0#64 ∨ off = 255
    · rw [if_pos c1] at h ⊢
      by_cases c2 : v = 0
      · rw [if_pos c2] at h ⊢; exact h
      · rw [if_neg c2] at h ⊢
        cases l with
        | zero => exact h
        | succ l => exact ih l (by omega) h
    · rw [if_neg c1] at h ⊢; exact h

theorem prev_mono {s : Nn} (junk : Word) {i r : Nat} (h : prev none s i = some r) : prev (some junk) s i = some r := by
  unfold prev at *
  obtain ⟨a, h1, h⟩ := Option.bind_eq_some_iff.1 h
  rw [prevUp_mono junk h1, sbind]; exact h

/-- Depth 0: every shift amount is below 64. -/
theorem no_ub {s : Nn} (hd : s.depth = 0) {i : Nat} (junk : Word) : next none s i = next (some junk) s i ∧ prev none s i = prev (some junk) s i := by
  have h1 : ∀ v off, off < 64 → nextUp none s 0 v off = nextUp (some junk) s 0 v off := by
    intro v off h
    unfold nextUp shrU
    simp only [if_pos h]
  have h2 : ∀ v off, off < 64 → prevUp none s 0 v off = prevUp (some junk) s 0 v off := by
    intro v off h
    unfold prevUp shlU
    simp only [if_pos h]
  unfold next prev
  rw [hd, h1 _ _ (Nat.mod_lt _ (by decide)), h2 _ _ (Nat.mod_lt _ (by decide))]
  exact ⟨rfl, rfl⟩

/-- A dictionary of up to 63 bits has depth 0. -/
theorem new_depth {n : Nat} (hn : n < 64) {s : Nn} (h : new n = some s) : s.depth = 0 := by
  unfold new at h
  by_cases c : n = 0
  · rw [if_pos c] at h; cases h; rfl
  · rw [if_neg c, hi_eq, BitVec.toNat_ofNat, Nat.mod_eq_of_lt (by omega), sbind] at h
    dsimp only at h
    have : Nat.log2 n < 6 := (Nat.log2_lt c).2 hn
    rw [Nat.div_eq_of_lt this] at h
    obtain ⟨_, _, h⟩ := Option.bind_eq_some_iff.1 h
    obtain ⟨_, _, h⟩ := Option.bind_eq_some_iff.1 h
    cases h; rfl

end Sdsl.Nn
