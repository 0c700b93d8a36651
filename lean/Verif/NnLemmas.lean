/-
  Lemmas about `nn_dict_dynamic`: geometry of the tree and the occupancy invariant.
-/
import Verif.Nn
import Verif.BitsScan
import Verif.UtilLemmas

namespace Sdsl.Nn

open Bits Spec

/-- Number of nodes `k` levels above the bits (`k = 0`: the bits themselves). -/
def ck (n : Nat) : Nat → Nat
  | 0 => n
  | k + 1 => (ck n k + 63) / 64

/-- Virtual begin of level `l`. -/
def V : Nat → Nat
  | 0 => 0
  | l + 1 => V l + 64 ^ l

/-- Real begin of level `l` in a tree of depth `d`. -/
def R (n d : Nat) : Nat → Nat
  | 0 => 0
  | l + 1 => R n d l + ck n (d + 1 - l)

theorem V_succ (l : Nat) : V (l + 1) = 64 * V l + 1 := by
  induction l with
  | zero => rfl
  | succ l ih =>
    have e : V (l + 1 + 1) = V (l + 1) + 64 ^ (l + 1) := rfl
    have e2 : V (l + 1) = V l + 64 ^ l := rfl
    rw [e]
    rw [Nat.pow_succ]; omega

theorem V_pow (l : Nat) : 63 * V l + 1 = 64 ^ l := by
  induction l with
  | zero => rfl
  | succ l ih => rw [V, Nat.pow_succ]; omega

theorem ck_lt {n i : Nat} (h : i < n) (k : Nat) : i / 64 ^ k < ck n k := by
  induction k with
  | zero => simpa [ck] using h
  | succ k ih =>
    rw [Nat.pow_succ, ← Nat.div_div_eq_div_mul, ck]
    omega

theorem ck_le {n m : Nat} : ∀ {k : Nat}, n ≤ 64 ^ (k + m) → ck n k ≤ 64 ^ m
  | 0, h => by simpa [ck] using h
  | k + 1, h => by
    have := ck_le (k := k) (m := m + 1) (n := n) (by rw [show k + (m + 1) = k + 1 + m by omega]; exact h)
    rw [Nat.pow_succ] at this
    rw [ck]
    omega

theorem ck_pos {n : Nat} (h : 0 < n) (k : Nat) : 0 < ck n k := by
  exact Nat.lt_of_le_of_lt (Nat.zero_le _) (ck_lt h k)

theorem ck_root {n d : Nat} (h0 : 0 < n) (h : n ≤ 64 ^ (d + 1)) : ck n (d + 1) = 1 := by
  have := ck_le (k := d + 1) (m := 0) (n := n) h
  have := ck_pos h0 (d + 1)
  simp at *
  omega

theorem R_mono {n d : Nat} {l l' : Nat} (h : l ≤ l') : R n d l ≤ R n d l' := by
  induction h with
  | refl => exact Nat.le_refl _
  | step _ ih => rw [R]; omega

theorem R_le_V {n d : Nat} (h : n ≤ 64 ^ (d + 1)) : ∀ {l : Nat}, l ≤ d + 1 → R n d l ≤ V l
  | 0, _ => Nat.le_refl _
  | l + 1, hl => by
    have h1 := R_le_V h (l := l) (by omega)
    have h2 := ck_le (k := d + 1 - l) (m := l) (n := n) (by rw [show d + 1 - l + l = d + 1 by omega]; exact h)
    rw [R, V]; omega

/-- The tree has the shape for `n` bits. -/
structure Geo (s : Nn) (n d : Nat) : Prop where
  pos : 0 < n
  le : n < 64 ^ (d + 1)
  depth : s.depth = d
  beg : s.beg = V d
  size : s.size = n
  offset : ∀ l, l ≤ d → s.offset[l]? = some (V l - R n d l)
  len : s.tree.length = R n d (d + 1)

theorem Geo.real {s : Nn} {n d : Nat} (h : Geo s n d) {l : Nat} (hl : l ≤ d) (j : Nat) : real s (V l + j) l = some (R n d l + j) := by
  have := R_le_V (Nat.le_of_lt h.le) (l := l) (by omega)
  unfold Nn.real
  rw [h.offset l hl, sbind, if_pos (by omega)]
  congr 1; omega

theorem Geo.node_lt {s : Nn} {n d : Nat} (h : Geo s n d) {l j : Nat} (hl : l ≤ d) (hj : j < ck n (d + 1 - l)) : R n d l + j < s.tree.length := by
  have : R n d (l + 1) ≤ R n d (d + 1) := R_mono (by omega)
  rw [h.len]
  rw [R] at this
  omega

/-! ### Construction -/

theorem skipLoop_eq {n d : Nat} (hn : n ≤ 64 ^ (d + 1)) : ∀ (level : Nat) (off : List Nat) (nodes : Nat), level ≤ d → off.length = d + 2 →
    ∃ off', skipLoop level (ck n (d - level)) off nodes = some (off', nodes + (R n d (level + 1) - R n d 1)) ∧ off'.length = d + 2 ∧
      ∀ l, l < d + 2 → off'[l]? = if 2 ≤ l ∧ l ≤ level + 1 then some (64 ^ (l - 1) - ck n (d + 1 - (l - 1))) else off[l]?
  | 0, off, nodes, _, hlen => by
    refine ⟨off, by simp [skipLoop], hlen, fun l hl => ?_⟩
    rw [if_neg (by omega)]
  | level + 1, off, nodes, hle, hlen => by
    have hck : (ck n (d - (level + 1)) + 63) / 64 = ck n (d - level) := by
      rw [show d - level = (d - (level + 1)) + 1 by omega, ck]
    have hpow : 2 ^ (6 * (level + 1)) = 64 ^ (level + 1) := by rw [Nat.pow_mul]
    have hb := ck_le (k := d - level) (m := level + 1) (n := n) (by rw [show d - level + (level + 1) = d + 1 by omega]; exact hn)
    obtain ⟨off', h1, h2, h3⟩ := skipLoop_eq hn level (off.set (level + 2) (64 ^ (level + 1) - ck n (d - level))) (nodes + ck n (d - level)) (by omega)
      (by simpa using hlen)
    refine ⟨off', ?_, h2, fun l hl => ?_⟩
    · unfold skipLoop
      dsimp only
      rw [hck, hpow, if_pos ⟨by omega, hb⟩, h1]
      have hR : R n d (level + 1 + 1) = R n d (level + 1) + ck n (d - level) := by rw [R, show d + 1 - (level + 1) = d - level by omega]
      have hR1 : R n d 1 ≤ R n d (level + 1) := R_mono (by omega)
      congr 2
      omega
    · rw [h3 l hl]
      by_cases c : 2 ≤ l ∧ l ≤ level + 1
      · rw [if_pos c, if_pos (by omega)]
      · rw [if_neg c, List.getElem?_set]
        by_cases c2 : level + 2 = l
        · subst c2
          rw [if_pos rfl, if_pos (by omega), if_pos (by omega), show d + 1 - (level + 2 - 1) = d - level by omega]
          rfl
        · rw [if_neg c2, if_neg (by omega)]

theorem sumLoop_eq {n d : Nat} (hn : n ≤ 64 ^ (d + 1)) (h0 : 0 < n) : ∀ (k level : Nat) (off : List Nat), level + k = d + 1 → 1 ≤ level → off.length = d + 2 →
    (∀ l, l < level → off[l]? = some (V l - R n d l)) →
    (∀ l, level ≤ l → l ≤ d → off[l]? = some (if 2 ≤ l then 64 ^ (l - 1) - ck n (d + 1 - (l - 1)) else 0)) →
    ∃ off', sumLoop k level off = some off' ∧ ∀ l, l ≤ d → off'[l]? = some (V l - R n d l)
  | 0, level, off, e, _, hlen, h1, h2 => ⟨off, rfl, fun l hl => h1 l (by omega)⟩
  | k + 1, level, off, e, hl, hlen, h1, h2 => by
    unfold sumLoop
    rw [h2 level (Nat.le_refl _) (by omega), sbind, h1 (level - 1) (by omega), sbind]
    have hV : V level = V (level - 1) + 64 ^ (level - 1) := by
      conv => lhs; rw [show level = level - 1 + 1 by omega]
      rfl
    have hR : R n d level = R n d (level - 1) + ck n (d + 1 - (level - 1)) := by
      conv => lhs; rw [show level = level - 1 + 1 by omega]
      rfl
    have hle := R_le_V hn (l := level - 1) (by omega)
    have hb := ck_le (k := d + 1 - (level - 1)) (m := level - 1) (n := n) (by rw [show d + 1 - (level - 1) + (level - 1) = d + 1 by omega]; exact hn)
    apply sumLoop_eq hn h0 k (level + 1) _ (by omega) (by omega) (by simpa using hlen)
    · intro l hl'
      rw [List.getElem?_set]
      by_cases c : level = l
      · subst c
        rw [if_pos rfl, if_pos (by omega)]
        congr 1
        by_cases c2 : 2 ≤ level
        · rw [if_pos c2]; omega
        · rw [if_neg c2]
          have : level = 1 := by omega
          subst this
          have := ck_root h0 hn
          simp [V, R, this]
      · rw [if_neg c]; exact h1 l (by omega)
    · intro l hl' hl2
      rw [List.getElem?_set, if_neg (by omega)]
      exact h2 l (by omega) hl2

theorem new_geo {n : Nat} (h0 : 0 < n) (hn : n < 2 ^ 64) : ∃ s d, new n = some s ∧ Geo s n d ∧ s.tree = List.replicate (R n d (d + 1)) 0#64 := by
  unfold new
  rw [if_neg (by omega), hi_eq, BitVec.toNat_ofNat, Nat.mod_eq_of_lt hn, sbind]
  dsimp only
  have hlt : n < 64 ^ (Nat.log2 n / 6 + 1) := by
    have := Nat.lt_log2_self (n := n)
    rw [show (64 : Nat) = 2 ^ 6 by rfl, ← Nat.pow_mul]
    exact Nat.lt_of_lt_of_le this (Nat.pow_le_pow_right (by decide) (by omega))
  generalize Nat.log2 n / 6 = d at *
  obtain ⟨off, h1, h2, h3⟩ := skipLoop_eq (Nat.le_of_lt hlt) d (List.replicate (d + 2) 0) 1 (Nat.le_refl _) (by simp)
  rw [Nat.sub_self] at h1
  rw [show ck n 0 = n from rfl] at h1
  rw [h1, sbind]
  obtain ⟨off', h4, h5⟩ := sumLoop_eq (Nat.le_of_lt hlt) h0 d 1 off (by omega) (Nat.le_refl _) h2 (by
      intro l hl
      obtain rfl : l = 0 := by omega
      rw [h3 0 (by omega), if_neg (by omega)]
      simp [V, R]) (by
      intro l hl hl2
      rw [h3 l (by omega)]
      by_cases c : 2 ≤ l
      · rw [if_pos (by omega), if_pos c]
      · rw [if_neg (by omega), if_neg c]
        rw [List.getElem?_replicate, if_pos (by omega)])
  rw [h4, sbind]
  have hR1 : R n d 1 = 1 := by
    have := ck_root h0 (Nat.le_of_lt hlt)
    simp [R, this]
  have hm : R n d 1 ≤ R n d (d + 1) := R_mono (by omega)
  have hnodes : 1 + (R n d (d + 1) - R n d 1) = R n d (d + 1) := by omega
  refine ⟨_, d, rfl, ⟨h0, hlt, rfl, ?_, rfl, h5, ?_⟩, ?_⟩
  · show 2 ^ (d * 6) / 63 = V d
    rw [Nat.mul_comm, Nat.pow_mul]
    have := V_pow d
    show 64 ^ d / 63 = V d
    omega
  · show (List.replicate _ 0#64).length = _
    rw [List.length_replicate, hnodes]
  · show List.replicate _ 0#64 = _
    rw [hnodes]

/-! ### Occupancy -/

/-- Some member lies in block `q` of size `64^k`. -/
def Occ (S : Nat → Prop) (k q : Nat) : Prop := ∃ i, S i ∧ i / 64 ^ k = q

theorem Occ.up {S : Nat → Prop} {k q : Nat} (h : Occ S k q) (j : Nat) : Occ S (k + j) (q / 64 ^ j) := by
  obtain ⟨i, h1, rfl⟩ := h
  exact ⟨i, h1, by rw [Nat.pow_add, Nat.div_div_eq_div_mul]⟩

theorem occ_succ {S : Nat → Prop} {k q : Nat} : Occ S (k + 1) q ↔ ∃ j, j < 64 ∧ Occ S k (64 * q + j) := by
  constructor
  · rintro ⟨i, h1, h2⟩
    rw [Nat.pow_succ, ← Nat.div_div_eq_div_mul] at h2
    exact ⟨i / 64 ^ k % 64, Nat.mod_lt _ (by decide), i, h1, by omega⟩
  · rintro ⟨j, hj, i, h1, h2⟩
    refine ⟨i, h1, ?_⟩
    rw [Nat.pow_succ, ← Nat.div_div_eq_div_mul]; omega

/-- Level `l` shows the occupancy of the blocks. -/
def Lv (s : Nn) (n d : Nat) (S : Nat → Prop) (l : Nat) : Prop :=
  ∀ q, q < 64 * ck n (d + 1 - l) → (bitAt s.tree (64 * R n d l + q) = true ↔ Occ S (d - l) q)

structure Inv (s : Nn) (n d : Nat) (S : Nat → Prop) : Prop where
  geo : Geo s n d
  mem : ∀ i, S i → i < n
  lv : ∀ l, l ≤ d → Lv s n d S l

theorem new_inv {n : Nat} (h0 : 0 < n) (hn : n < 2 ^ 64) : ∃ s d, new n = some s ∧ Inv s n d (fun _ => False) := by
  obtain ⟨s, d, h1, h2, h3⟩ := new_geo h0 hn
  refine ⟨s, d, h1, h2, fun _ h => h.elim, fun l _ q _ => ?_⟩
  rw [h3]
  constructor
  · intro h
    unfold bitAt at h
    rw [List.getElem?_replicate] at h
    by_cases c : (64 * R n d l + q) / 64 < R n d (d + 1)
    · rw [if_pos c] at h; simp at h
    · rw [if_neg c] at h; simp at h
  · rintro ⟨_, h, _⟩; exact h.elim

/-- The word of a node. -/
theorem Lv.bit {s : Nn} {n d : Nat} {S : Nat → Prop} {l : Nat} (h : Lv s n d S l) (g : Geo s n d) (hl : l ≤ d) {j : Nat} (hj : j < ck n (d + 1 - l)) {b : Nat}
    (hb : b < 64) : ((s.tree[R n d l + j]'(g.node_lt hl hj)).getLsbD b = true ↔ Occ S (d - l) (64 * j + b)) := by
  rw [← h (64 * j + b) (by omega), ← Nat.add_assoc, ← Nat.mul_add, bitAt_mul_add hb (g.node_lt hl hj)]

theorem Lv.zero {s : Nn} {n d : Nat} {S : Nat → Prop} {l : Nat} (h : Lv s n d S l) (g : Geo s n d) (hl : l ≤ d) {j : Nat} (hj : j < ck n (d + 1 - l)) :
    s.tree[R n d l + j]'(g.node_lt hl hj) = 0#64 ↔ ¬Occ S (d + 1 - l) j := by
  rw [show d + 1 - l = d - l + 1 by omega, occ_succ, word_zero_iff]
  constructor
  · rintro h1 ⟨b, hb, h2⟩
    rw [← h.bit g hl hj hb, h1 b hb] at h2
    simp at h2
  · intro h1 b hb
    rw [← Bool.not_eq_true, h.bit g hl hj hb]
    exact fun h2 => h1 ⟨b, hb, h2⟩

/-- Changing one node changes one level only. -/
theorem Geo.set_node {s : Nn} {n d : Nat} (g : Geo s n d) {l j : Nat} (hl : l ≤ d) (hj : j < ck n (d + 1 - l)) (w : Word) :
    Geo { s with tree := s.tree.set (R n d l + j) w } n d ∧
    (∀ l', l' ≠ l → ∀ S, Lv s n d S l' → Lv { s with tree := s.tree.set (R n d l + j) w } n d S l') ∧
    (∀ S S', Lv s n d S l → (∀ q, q / 64 ≠ j → (Occ S (d - l) q ↔ Occ S' (d - l) q)) →
      (∀ b, b < 64 → (w.getLsbD b = true ↔ Occ S' (d - l) (64 * j + b))) → Lv { s with tree := s.tree.set (R n d l + j) w } n d S' l) := by
  have hlt := g.node_lt hl hj
  refine ⟨⟨g.pos, g.le, g.depth, g.beg, g.size, g.offset, by simpa using g.len⟩, ?_, ?_⟩
  · intro l' hne S hL q hq
    show bitAt (s.tree.set _ _) _ = true ↔ _
    rw [bitAt_set hlt, if_neg]
    · exact hL q hq
    · have e : (64 * R n d l' + q) / 64 = R n d l' + q / 64 := by omega
      rw [e]
      rcases Nat.lt_or_gt_of_ne hne with c | c
      · have := R_mono (n := n) (d := d) (show l' + 1 ≤ l by omega)
        rw [R] at this; omega
      · have := R_mono (n := n) (d := d) (show l + 1 ≤ l' by omega)
        rw [R] at this; omega
  · intro S S' hL h1 h2 q hq
    show bitAt (s.tree.set _ _) _ = true ↔ _
    rw [bitAt_set hlt]
    have e : (64 * R n d l + q) / 64 = R n d l + q / 64 := by omega
    rw [e]
    by_cases c : q / 64 = j
    · rw [if_pos (by omega), show (64 * R n d l + q) % 64 = q % 64 by omega, h2 _ (Nat.mod_lt _ (by decide)), show 64 * j + q % 64 = q by omega]
    · rw [if_neg (by omega), ← h1 q c]
      exact hL q hq

theorem get_eq {s : Nn} {n d : Nat} {S : Nat → Prop} (h : Inv s n d S) {idx : Nat} (hi : idx < n) : ∃ b, get s idx = some b ∧ (b = true ↔ S idx) := by
  have hj := ck_lt hi 1
  rw [Nat.pow_one] at hj
  have hj' : idx / 64 < ck n (d + 1 - d) := by rw [show d + 1 - d = 1 by omega]; exact hj
  have hlt := h.geo.node_lt (Nat.le_refl d) hj'
  unfold get
  rw [h.geo.beg, h.geo.depth, h.geo.real (Nat.le_refl _), sbind, ld_of_lt hlt, sbind, shr_of_lt (Nat.mod_lt _ (by decide)), sbind]
  refine ⟨_, rfl, ?_⟩
  have hb := (h.lv d (Nat.le_refl _)).bit h.geo (Nat.le_refl _) hj' (Nat.mod_lt idx (show 64 > 0 by decide))
  rw [Nat.div_add_mod, Nat.sub_self] at hb
  rw [decide_eq_true_iff]
  have ht : ∀ (w : Word) (k : Nat), w >>> k &&& 1#64 = 1#64 ↔ w.getLsbD k = true := by
    intro w k
    have h : (w >>> k) &&& 1#64 = if w.getLsbD k then 1#64 else 0#64 := by
      apply BitVec.eq_of_getLsbD_eq
      intro i hi
      rw [BitVec.getLsbD_and, BitVec.getLsbD_ushiftRight, BitVec.getLsbD_one]
      by_cases c : i = 0
      · subst c
        cases w.getLsbD k <;> simp_all
      · cases w.getLsbD k <;> simp [c]
    rw [h]
    cases w.getLsbD k <;> simp
  rw [ht, hb]
  constructor
  · rintro ⟨i, h1, h2⟩
    rw [Nat.pow_zero, Nat.div_one] at h2
    subst h2; exact h1
  · intro h1; exact ⟨idx, h1, by simp⟩

end Sdsl.Nn
