/-
  `restricted_unique_range_values` on trees whose leaves all have the same depth.
-/
import Verif.WtOrder

namespace Sdsl.Wt

open Spec WtInt Bits

namespace Fixed

variable {T : Tree INode} {xs : List Word} {L : Nat} {tree : List Bool} {offs : Nat → Word → Nat}

theorem alignPath_spec (h : Fixed T xs L tree offs) {d : Nat} (hd : d < L) (c : Word) : Tree.alignPath (L - (d + 1) + 1) (L, c) = some (BitVec.ofNat 64 (key d c)) := by
  have hL := h.level
  have h0 := h.pos
  rw [Tree.alignPath]
  dsimp only
  by_cases h1 : d = 0
  · subst h1
    rw [if_neg (by omega), if_neg (by omega)]
    congr 1
    apply BitVec.eq_of_toNat_eq
    rw [BitVec.toNat_ofNat, key, Nat.pow_zero, Nat.div_one, Nat.mod_eq_of_lt c.isLt]
  · rw [if_pos (by omega), show L - (L - (d + 1) + 1) = d by omega, shr_of_lt (by omega)]
    congr 1
    apply BitVec.eq_of_toNat_eq
    have : key d c ≤ c.toNat := Nat.div_le_self _ _
    rw [BitVec.toNat_ofNat, BitVec.toNat_ushiftRight, Nat.shiftRight_eq_div_pow]
    rw [Nat.mod_eq_of_lt (by have := c.isLt; omega)]; rfl

theorem key_le (d : Nat) (a b : Word) : BitVec.ofNat 64 (key d a) ≤ BitVec.ofNat 64 (key d b) ↔ key d a ≤ key d b := by
  have h1 : key d a ≤ a.toNat := Nat.div_le_self _ _
  have h2 : key d b ≤ b.toNat := Nat.div_le_self _ _
  have h3 := a.isLt
  have h4 := b.isLt
  rw [BitVec.le_def, BitVec.toNat_ofNat, BitVec.toNat_ofNat, Nat.mod_eq_of_lt (by omega), Nat.mod_eq_of_lt (by omega)]

/-- A stack entry. -/
def uentry (xs : List Word) (L : Nat) (offs : Nat → Word → Nat) (i j d : Nat) (a : Word) : INode × Range × Word × Nat :=
  (inode xs L offs d a, rng (fun j => xs.getD j 0#64) (agree d a) i j, BitVec.ofNat 64 (key d a), L - d)

theorem uniqueLoop_spec (h : Fixed T xs L tree offs) {i j : Nat} (hij : i ≤ j) (hj : j ≤ xs.length) (lo hi : Word) : ∀ (d : Nat) (a : Word), d ≤ L → a.toNat < 2 ^ L →
    occ (fun j => xs.getD j 0#64) (agree d a) i < occ (fun j => xs.getD j 0#64) (agree d a) j → key d lo ≤ key d a → key d a ≤ key d hi →
    ∃ out used, used < 2 ^ (d + 1) ∧ out.Pairwise (· < ·) ∧
      (∀ c, c ∈ out ↔ key d c = key d a ∧ lo ≤ c ∧ c ≤ hi ∧ occ (fun j => xs.getD j 0#64) (fun b => b == c) i < occ (fun j => xs.getD j 0#64) (fun b => b == c) j) ∧
      ∀ fuel st res, Tree.uniqueLoop T (L, lo) (L, hi) (fuel + used) (uentry xs L offs i j d a :: st) res = Tree.uniqueLoop T (L, lo) (L, hi) fuel st (res ++ out) := by
  intro d
  induction d with
  | zero =>
    intro a _ ha hlt hl hh
    refine ⟨[a], 1, by decide, List.pairwise_singleton _ _, ?_, ?_⟩
    · intro c
      rw [List.mem_singleton]
      rw [agree_zero'] at hlt
      simp only [key, Nat.pow_zero, Nat.div_one] at hl hh
      constructor
      · rintro rfl
        exact ⟨rfl, BitVec.le_def.2 hl, BitVec.le_def.2 hh, hlt⟩
      · rintro ⟨e, -⟩
        exact key_zero_eq e
    · intro fuel st res
      rw [uentry, Tree.uniqueLoop, if_pos (h.leaf_true a), h.sym, leaf_sym]
  | succ d ih =>
    intro a hd ha hlt hl hh
    have hL := h.level
    obtain ⟨s1, s2⟩ := sym_child (L := L) hL (c := d) (by omega) ha
    have k1 := child_key hL (c := d) (by omega) ha false
    have k2 := child_key hL (c := d) (by omega) ha true
    simp only [Bool.toNat_false, Bool.toNat_true] at k1 k2
    have hks : ∀ y : Word, key d y = 2 * key (d + 1) y ∨ key d y = 2 * key (d + 1) y + 1 := by
      intro y
      have := key_succ d y
      have : (WtInt.bit d y).toNat ≤ 1 := Bool.toNat_le _
      omega
    -- one child
    have hchild : ∀ (b : Bool) (Q : Prop) [Decidable Q], (¬ Q → ∀ c, key d c = key d (child d a b) → lo ≤ c → c ≤ hi → False) →
        (Q → key d lo ≤ key d (child d a b) ∧ key d (child d a b) ≤ key d hi) →
        ∃ out used, used < 2 ^ (d + 1) ∧ out.Pairwise (· < ·) ∧
        (∀ c, c ∈ out ↔ key d c = key d (child d a b) ∧ lo ≤ c ∧ c ≤ hi ∧ occ (fun j => xs.getD j 0#64) (fun b => b == c) i < occ (fun j => xs.getD j 0#64) (fun b => b == c) j) ∧
        ∀ fuel st res, Tree.uniqueLoop T (L, lo) (L, hi) (fuel + used)
          (if Q ∧ Range.empty (rng (fun j => xs.getD j 0#64) (agree d (child d a b)) i j) = false then uentry xs L offs i j d (child d a b) :: st else st) res =
          Tree.uniqueLoop T (L, lo) (L, hi) fuel st (res ++ out) := by
      intro b Q _ hnQ hQ
      rw [rng_empty h.small hij hj]
      by_cases hq : Q
      · by_cases ho : occ (fun j => xs.getD j 0#64) (agree d (child d a b)) i < occ (fun j => xs.getD j 0#64) (agree d (child d a b)) j
        · obtain ⟨out, used, e1, e2, e3, e4⟩ := ih (child d a b) (by omega) (h.child_lt (by omega) ha b) ho (hQ hq).1 (hQ hq).2
          refine ⟨out, used, e1, e2, e3, fun fuel st res => ?_⟩
          rw [if_pos ⟨hq, by simpa using ho⟩, e4]
        · refine ⟨[], 0, Nat.two_pow_pos _, List.Pairwise.nil, fun c => ?_, fun fuel st res => ?_⟩
          · simp only [List.not_mem_nil, false_iff, not_and]
            intro e1 _ _ e2
            apply ho
            rw [occ_lt_iff hij] at e2 ⊢
            obtain ⟨p, p1, p2, p3⟩ := e2
            rw [beq_iff_eq] at p3
            exact ⟨p, p1, p2, by rw [p3, agree, beq_iff_eq]; exact e1⟩
          · rw [if_neg (by rintro ⟨-, e⟩; rw [Bool.not_eq_false', decide_eq_true_eq] at e; exact ho e), List.append_nil]; rfl
      · refine ⟨[], 0, Nat.two_pow_pos _, List.Pairwise.nil, fun c => ?_, fun fuel st res => ?_⟩
        · simp only [List.not_mem_nil, false_iff, not_and]
          intro e1 e2 e3
          exact absurd (hnQ hq c e1 e2 e3) id
        · rw [if_neg (fun e => hq e.1), List.append_nil]; rfl
    obtain ⟨o1, u1, a1, a2, a3, a4⟩ := hchild false (key d lo ≤ key d (child d a false))
      (fun hq c e1 e2 _ => by have := le_of_key (d := d) e2; omega) (fun hq => ⟨hq, by have := hks hi; omega⟩)
    obtain ⟨o2, u2, b1, b2, b3, b4⟩ := hchild true (key d (child d a true) ≤ key d hi)
      (fun hq c e1 _ e2 => by have := le_of_key (d := d) e2; omega) (fun hq => ⟨by have := hks lo; omega, hq⟩)
    refine ⟨o1 ++ o2, 1 + u1 + u2, by rw [Nat.pow_succ]; omega, ?_, ?_, ?_⟩
    · rw [List.pairwise_append]
      refine ⟨a2, b2, fun y hy z hz => ?_⟩
      have e1 := ((a3 y).1 hy).1
      have e2 := ((b3 z).1 hz).1
      exact lt_of_key (c := d) (by omega)
    · intro c
      rw [List.mem_append, a3, b3, h.child_cases (by omega) ha c, or_and_right]
    · intro fuel st res
      have hx := expandRange_spec (h.node d (by omega) a) h.small hij hj
      have g1 : (fun y => agree (d + 1) a y && !WtInt.bit d y) = agree d (child d a false) := by
        rw [h.agree_child' (by omega) ha]
        funext y; cases WtInt.bit d y <;> rfl
      have g2 : (fun y => agree (d + 1) a y && WtInt.bit d y) = agree d (child d a true) := by
        rw [h.agree_child' (by omega) ha]
        funext y; cases WtInt.bit d y <;> rfl
      rw [g1, g2] at hx
      rw [show fuel + (1 + u1 + u2) = fuel + u2 + u1 + 1 by omega, uentry, Tree.uniqueLoop, if_neg (by rw [h.leaf_false]; simp), h.expand (by omega) ha, sbind]
      dsimp only
      rw [h.range, inode]
      dsimp only
      rw [hx, sbind, h.alignPath_spec (by omega), sbind, h.alignPath_spec (by omega), sbind]
      dsimp only
      rw [s2, s1, show L - (d + 1) + 1 = L - d by omega]
      have c1 := a4 (fuel + u2) (if key d (child d a true) ≤ key d hi ∧ Range.empty (rng (fun j => xs.getD j 0#64) (agree d (child d a true)) i j) = false then
        uentry xs L offs i j d (child d a true) :: st else st) res
      rw [b4] at c1
      rw [List.append_assoc] at c1
      rw [← c1]
      simp only [key_le, uentry]

/-- `restricted_unique_range_values`: the distinct symbols of the box in ascending order. -/
theorem restrictedUnique_spec (h : Fixed T xs L tree offs) (hL : L ≤ 63) (xi xj : Nat) (yi yj : Word) :
    ∃ out, Tree.restrictedUnique T xs.length (Tree.symbolGte T L) (Tree.symbolLte T L) (fun c => (L, c)) xi xj yi yj = some out ∧ out.Pairwise (· < ·) ∧
      ∀ c, c ∈ out ↔ yi ≤ c ∧ c ≤ yj ∧ ∃ q, xi ≤ q ∧ q ≤ xj ∧ q < xs.length ∧ xs.getD q 0#64 = c := by
  have hn : 0 < xs.length := List.length_pos_iff.2 h.ne
  have hs := h.small
  have hlast : (xs.length + (2 ^ 64 - 1)) % 2 ^ 64 = xs.length - 1 := by
    rw [show xs.length + (2 ^ 64 - 1) = xs.length - 1 + 2 ^ 64 by omega, Nat.add_mod_right, Nat.mod_eq_of_lt (by omega)]
  rw [Tree.restrictedUnique, hlast]
  generalize hxj : (if xj > xs.length - 1 then xs.length - 1 else xj) = xj'
  have hxj' : xj' < xs.length ∧ ∀ q, (q ≤ xj ∧ q < xs.length) ↔ q ≤ xj' := by
    subst hxj
    split
    · exact ⟨by omega, fun q => by omega⟩
    · exact ⟨by omega, fun q => by omega⟩
  have hempty : (∀ c, yi ≤ c → c ≤ yj → ∀ q, xi ≤ q → q ≤ xj → q < xs.length → xs.getD q 0#64 ≠ c) →
      ∃ out, (some [] : Option (List Word)) = some out ∧ out.Pairwise (· < ·) ∧ ∀ c, c ∈ out ↔ yi ≤ c ∧ c ≤ yj ∧ ∃ q, xi ≤ q ∧ q ≤ xj ∧ q < xs.length ∧ xs.getD q 0#64 = c := by
    intro hno
    refine ⟨[], rfl, List.Pairwise.nil, fun c => ?_⟩
    simp only [List.not_mem_nil, false_iff]
    rintro ⟨e1, e2, q, e3, e4, e5, e6⟩
    exact hno c e1 e2 q e3 e4 e5 e6
  by_cases h1 : xi > xj' ∨ yi > yj
  · rw [if_pos h1]
    apply hempty
    intro c e1 e2 q e3 e4 e5 _
    have := (hxj'.2 q).1 ⟨e4, e5⟩
    rcases h1 with h1 | h1
    · omega
    · rw [BitVec.le_def] at e1 e2
      rw [gt_iff_lt, BitVec.lt_def] at h1
      omega
  · rw [if_neg h1]
    have h1 := not_or.1 h1
    have hmem : ∀ q, q < xs.length → xs.getD q 0#64 ∈ xs := by
      intro q hq
      rw [List.getD_eq_getElem?_getD, List.getElem?_eq_getElem hq]
      exact List.getElem_mem hq
    rcases h.symbolGte_spec hL yi with ⟨lo, l1, l2, l3, l4⟩ | ⟨l1, l2⟩
    · rw [l2, sbind]
      rcases h.symbolLte_spec hL yj with ⟨hi, u1, u2, u3, u4⟩ | ⟨u1, u2⟩
      · rw [u2, sbind]
        dsimp only
        by_cases h2 : lo > hi
        · rw [if_pos (Or.inr (Or.inr h2))]
          apply hempty
          intro c e1 e2 q _ _ e5 e6
          have m := hmem q e5
          rw [e6] at m
          have := BitVec.le_def.1 (l4 c m e1)
          have := BitVec.le_def.1 (u4 c m e2)
          rw [gt_iff_lt, BitVec.lt_def] at h2
          omega
        · rw [if_neg (by simpa using h2)]
          have hlh : lo ≤ hi := by rw [gt_iff_lt, BitVec.lt_def] at h2; rw [BitVec.le_def]; omega
          have e0 : key L lo = 0 := Nat.div_eq_of_lt (h.lt _ l1)
          have e1 : key L hi = 0 := Nat.div_eq_of_lt (h.lt _ u1)
          have hocc : ∀ q, q ≤ xs.length → occ (fun j => xs.getD j 0#64) (agree L lo) q = q := by
            intro q hq
            rw [occ_congr (Q := fun _ => true) (fun j hj => agree_top (h.lt _ l1) (h.mem_lt (by omega))), occ_true]
          obtain ⟨out, used, o1, o2, o3, o4⟩ := h.uniqueLoop_spec (i := xi) (j := xj' + 1) (by omega) (by omega) lo hi L lo (Nat.le_refl _) (h.lt _ l1)
            (by rw [hocc _ (by omega), hocc _ (by omega)]; omega) (Nat.le_refl _) (by omega)
          have hu : (T.root, (xi, xj'), 0#64, 0) = uentry xs L offs xi (xj' + 1) L lo := by
            rw [uentry, ← h.root_inode (h.lt _ l1), rng, hocc _ (by omega), hocc _ (by omega), e0, Nat.sub_self]
            rw [Range.eq_mk (lb := xi) (rb := xj') (by omega) (by omega)]
          refine ⟨out, ?_, o2, fun c => ?_⟩
          · rw [hu, h.depth]
            have := o4 (2 ^ (L + 1) - used) [] []
            rw [Nat.sub_add_cancel (by omega)] at this
            rw [this]
            obtain ⟨k, hk⟩ : ∃ k, 2 ^ (L + 1) - used = k + 1 := ⟨2 ^ (L + 1) - used - 1, by omega⟩
            rw [hk, Tree.uniqueLoop, List.nil_append]
          · rw [o3, occ_lt_iff (by omega)]
            constructor
            · rintro ⟨-, e2, e3, q, e4, e5, e6⟩
              rw [beq_iff_eq] at e6
              have := (hxj'.2 q).2 (by omega)
              rw [BitVec.le_def] at e2 e3 l3 u3
              exact ⟨by rw [BitVec.le_def]; omega, by rw [BitVec.le_def]; omega, q, e4, this.1, this.2, e6⟩
            · rintro ⟨e2, e3, q, e4, e5, e6, e7⟩
              have m := hmem q e6
              rw [e7] at m
              have := (hxj'.2 q).1 ⟨e5, e6⟩
              exact ⟨by rw [e0]; exact Nat.div_eq_of_lt (h.lt _ m), l4 c m e2, u4 c m e3, q, e4, by omega, by rw [e7]; simp⟩
      · rw [u1, sbind, if_pos (Or.inr (Or.inl rfl))]
        apply hempty
        intro c _ e2 q _ _ e5 e6
        have m := hmem q e5
        rw [e6] at m
        exact absurd e2 (u2 c m)
    · rw [l1, sbind]
      rcases h.symbolLte_spec hL yj with ⟨hi, u1, u2, u3, u4⟩ | ⟨u1, u2⟩
      all_goals
        first | rw [u2, sbind, if_pos (Or.inl rfl)] | rw [u1, sbind, if_pos (Or.inl rfl)]
        apply hempty
        intro c e2 _ q _ _ e5 e6
        have m := hmem q e5
        rw [e6] at m
        exact absurd e2 (l2 c m)

end Fixed

end Sdsl.Wt
