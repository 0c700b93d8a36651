/-
  Queries of `wm_int`.
-/
import Verif.WmIntCons

namespace Sdsl.Wt.WmInt

open Bits Spec WtInt

variable {t : WmInt} {xs : List Word}

theorem WmOk.mem_lt (h : WmOk t xs) {j : Nat} (hj : j < xs.length) : (xs.getD j 0#64).toNat < 2 ^ t.maxLevel := by
  have e : xs.getD j 0#64 = xs[j] := by simp [hj]
  rw [e]; exact h.lt _ (List.getElem_mem hj)

theorem WmOk.occ_top (h : WmOk t xs) {a : Word} (ha : a.toNat < 2 ^ t.maxLevel) {i : Nat} (hi : i ≤ xs.length) :
    occ (fun j => xs.getD j 0#64) (agree t.maxLevel a) i = i := by
  rw [occ_congr (Q := fun _ => true), occ_true]
  intro j hj
  exact agree_top ha (h.mem_lt (by omega))

theorem off_top (t : WmInt) (a : Word) : off t t.maxLevel a = 0 := by
  rw [off, Nat.sub_self, start]

theorem le_start (t : WmInt) (a : Word) : ∀ k, k * t.size ≤ start t a k := by
  intro k
  cases k with
  | zero => rw [Nat.zero_mul]; exact Nat.zero_le _
  | succ k => rw [start]; split <;> omega

theorem cnt_diff (B : List Bool) {a b : Nat} (h : a ≤ b) : Bv.cnt true B b - Bv.cnt true B a ≤ b - a := by
  have h1 := Bv.cnt_compl B a
  have h2 := Bv.cnt_compl B b
  have h3 := Bv.cnt_mono false B h
  omega

/-- The position computations of one level: `q` is the number of symbols of the node before the position, `q1` of them have a one. -/
theorem WmOk.step (h : WmOk t xs) {c : Nat} (hc : c < t.maxLevel) (a : Word) :
    t.rankLevel[t.maxLevel - (c + 1)]? = some (t.rankLevel.getD (t.maxLevel - (c + 1)) 0) ∧
    t.zeroCnt[t.maxLevel - (c + 1)]? = some (t.zeroCnt.getD (t.maxLevel - (c + 1)) 0) ∧
    t.rankLevel.getD (t.maxLevel - (c + 1)) 0 ≤ Bv.cnt true t.tree (off t (c + 1) a) ∧
    (t.maxLevel - (c + 1)) * t.size ≤ off t (c + 1) a ∧
    Bv.cnt true t.tree (off t (c + 1) a) - t.rankLevel.getD (t.maxLevel - (c + 1)) 0 ≤ off t (c + 1) a - (t.maxLevel - (c + 1)) * t.size ∧
    off t c a = if bit c a then (t.maxLevel - (c + 1) + 1) * t.size + t.zeroCnt.getD (t.maxLevel - (c + 1)) 0 +
        (Bv.cnt true t.tree (off t (c + 1) a) - t.rankLevel.getD (t.maxLevel - (c + 1)) 0)
      else (t.maxLevel - (c + 1) + 1) * t.size + (off t (c + 1) a - (t.maxLevel - (c + 1)) * t.size -
        (Bv.cnt true t.tree (off t (c + 1) a) - t.rankLevel.getD (t.maxLevel - (c + 1)) 0)) := by
  have hz := h.zlen
  have hr := h.rlen
  have hle := le_start t a (t.maxLevel - (c + 1))
  refine ⟨?_, ?_, ?_, hle, ?_, ?_⟩
  · rw [List.getD_eq_getElem?_getD, List.getElem?_eq_getElem (by omega)]; rfl
  · rw [List.getD_eq_getElem?_getD, List.getElem?_eq_getElem (by omega)]; rfl
  · rw [h.ranks _ (by omega), ← h.size]
    exact Bv.cnt_mono _ _ hle
  · rw [h.ranks _ (by omega), ← h.size]
    exact cnt_diff _ hle
  · conv => lhs; rw [off, show t.maxLevel - c = t.maxLevel - (c + 1) + 1 by omega, start, show t.maxLevel - (t.maxLevel - (c + 1) + 1) = c by omega]
    rfl

theorem nextB_spec (h : WmOk t xs) {c : Nat} (hc : c < t.maxLevel) (a : Word) :
    nextB t (t.maxLevel - (c + 1)) (off t (c + 1) a) (Bv.cnt true t.tree (off t (c + 1) a)) (bit c a) = some (off t c a) := by
  obtain ⟨h1, h2, h3, h4, h5, h6⟩ := h.step hc a
  rw [nextB, h1, sbind, h6]
  cases hb : bit c a with
  | true => rw [if_pos rfl, if_pos rfl, h2, sbind]; rfl
  | false => rfl

theorem getLoop_spec (h : WmOk t xs) {j : Nat} (hj : j < xs.length) : ∀ (c : Nat) (res : Word), c ≤ t.maxLevel → res.toNat = key c (xs.getD j 0#64) →
    getLoop t c (t.maxLevel - c) (off t c (xs.getD j 0#64) + occ (fun j => xs.getD j 0#64) (agree c (xs.getD j 0#64)) j) res = some (xs.getD j 0#64) := by
  intro c
  induction c with
  | zero =>
    intro res _ hr
    rw [key_zero] at hr
    rw [getLoop, BitVec.eq_of_toNat_eq hr]
  | succ c ih =>
    intro res hc hr
    have hn := h.node c (by omega) (xs.getD j 0#64)
    obtain ⟨h1, h2, h3, h4, h5, h6⟩ := h.step (c := c) (by omega) (xs.getD j 0#64)
    rw [getLoop, hn.rank (by omega), sbind, h1, sbind, hn.get hj (agree_self _ _), sbind]
    have hs := occ_split (x := fun j => xs.getD j 0#64) (agree (c + 1) (xs.getD j 0#64)) (bit c) j
    rw [show t.maxLevel - (c + 1) + 1 = t.maxLevel - c by omega] at *
    cases hb : bit c (xs.getD j 0#64) with
    | true =>
      rw [hb, if_pos rfl] at h6
      rw [if_pos rfl, h2, sbind, ← ih _ (by omega) (shl_or_toNat hr hb), h6, occ_child_one hb]
      congr 1
      omega
    | false =>
      rw [hb, if_neg (by simp)] at h6
      rw [if_neg (by simp), ← ih _ (by omega) (shl_one_toNat hr hb), h6, occ_child_zero hb]
      congr 1
      omega

theorem get_spec (h : WmOk t xs) {j : Nat} (hj : j < xs.length) : get t j = some (xs.getD j 0#64) := by
  have h1 := getLoop_spec h hj t.maxLevel 0#64 (Nat.le_refl _) (by rw [key_top (h.mem_lt hj)]; rfl)
  rwa [off_top, h.occ_top (h.mem_lt hj) (by omega), Nat.sub_self, Nat.zero_add] at h1

theorem topMask_spec (h : WmOk t xs) : ∃ m, topMask t = some m ∧ m.toNat = 2 ^ t.maxLevel / 2 := by
  have h1 := h.pos
  have h2 := h.level
  refine ⟨1#64 <<< (t.maxLevel - 1), ?_, ?_⟩
  · rw [topMask, if_neg (by omega), shl_of_lt (by omega)]
  · rw [one_shl_toNat (by omega)]
    obtain ⟨k, hk⟩ : ∃ k, t.maxLevel = k + 1 := ⟨t.maxLevel - 1, by omega⟩
    rw [hk, Nat.add_sub_cancel, Nat.pow_succ, Nat.mul_div_cancel _ (by decide)]

theorem invLoop_spec (h : WmOk t xs) {j : Nat} (hj : j < xs.length) : ∀ (c : Nat) (res : Word), c ≤ t.maxLevel → res.toNat = key c (xs.getD j 0#64) →
    invLoop t c (t.maxLevel - c) (off t c (xs.getD j 0#64)) (occ (fun j => xs.getD j 0#64) (agree c (xs.getD j 0#64)) j) res =
      some (occ (fun j => xs.getD j 0#64) (fun b => b == xs.getD j 0#64) j, xs.getD j 0#64) := by
  intro c
  induction c with
  | zero =>
    intro res _ hr
    rw [key_zero] at hr
    rw [invLoop, BitVec.eq_of_toNat_eq hr, agree_zero']
  | succ c ih =>
    intro res hc hr
    have hn := h.node c (by omega) (xs.getD j 0#64)
    have hs := occ_split (x := fun j => xs.getD j 0#64) (agree (c + 1) (xs.getD j 0#64)) (bit c) j
    rw [invLoop, hn.rank_start, sbind, hn.rank (by omega), sbind]
    dsimp only
    rw [hn.get hj (agree_self _ _), sbind, nextB_spec h (by omega), sbind, Nat.add_sub_cancel_left, show t.maxLevel - (c + 1) + 1 = t.maxLevel - c by omega]
    cases hb : bit c (xs.getD j 0#64) with
    | true =>
      rw [if_pos rfl, if_pos rfl, ← occ_child_one hb]
      exact ih _ (by omega) (shl_or_toNat hr hb)
    | false =>
      rw [if_neg (by simp), if_neg (by simp)]
      have := ih _ (by omega) (shl_one_toNat hr hb)
      rw [occ_child_zero hb] at this
      rw [hs, Nat.add_sub_cancel_left]
      exact this

theorem inverseSelect_spec (h : WmOk t xs) {j : Nat} (hj : j < xs.length) :
    inverseSelect t j = some (occ (fun j => xs.getD j 0#64) (fun b => b == xs.getD j 0#64) j, xs.getD j 0#64) := by
  obtain ⟨m, hm1, hm2⟩ := topMask_spec h
  have h1 := invLoop_spec h hj t.maxLevel 0#64 (Nat.le_refl _) (by rw [key_top (h.mem_lt hj)]; rfl)
  rw [off_top, h.occ_top (h.mem_lt hj) (by omega), Nat.sub_self] at h1
  rw [inverseSelect, hm1, sbind, h1]

theorem decide_mask {c : Nat} {m : Word} (hm : m.toNat = 2 ^ (c + 1) / 2) (a : Word) : decide (a &&& m ≠ 0#64) = bit c a := by
  rw [Bool.eq_iff_iff, decide_eq_true_eq]; exact mask_bit hm a

theorem rankLoop_spec (h : WmOk t xs) {a : Word} {i : Nat} (hi : i ≤ xs.length) : ∀ (c : Nat) (m : Word), c ≤ t.maxLevel → m.toNat = 2 ^ c / 2 →
    rankLoop t a c (t.maxLevel - c) (off t c a) (occ (fun j => xs.getD j 0#64) (agree c a) i) m = some (occ (fun j => xs.getD j 0#64) (fun b => b == a) i) := by
  intro c
  induction c with
  | zero =>
    intro m _ _
    rw [rankLoop, agree_zero']
  | succ c ih =>
    intro m hc hm
    have hn := h.node c (by omega) a
    rw [rankLoop]
    by_cases h0 : occ (fun j => xs.getD j 0#64) (agree (c + 1) a) i = 0
    · rw [if_pos h0]
      have := occ_eq_le_agree (x := fun j => xs.getD j 0#64) (c + 1) a i
      rw [show occ (fun j => xs.getD j 0#64) (fun b => b == a) i = 0 by omega]
    · have hs := occ_split (x := fun j => xs.getD j 0#64) (agree (c + 1) a) (bit c) i
      rw [if_neg h0, hn.rank_start, sbind, hn.rank hi, sbind]
      dsimp only
      rw [decide_mask hm, nextB_spec h (by omega), sbind, Nat.add_sub_cancel_left, show t.maxLevel - (c + 1) + 1 = t.maxLevel - c by omega]
      cases hb : bit c a with
      | true =>
        rw [if_pos ((mask_bit hm a).2 hb), ← occ_child_one hb]
        exact ih _ (by omega) (mask_shr hm)
      | false =>
        rw [if_neg (fun h3 => by rw [(mask_bit hm a).1 h3] at hb; simp at hb), hs, Nat.add_sub_cancel_left, ← occ_child_zero hb]
        exact ih _ (by omega) (mask_shr hm)

theorem occ_big (h : WmOk t xs) {a : Word} (ha : 2 ^ t.maxLevel ≤ a.toNat) {i : Nat} (hi : i ≤ xs.length) : occ (fun j => xs.getD j 0#64) (fun b => b == a) i = 0 := by
  rw [occ_eq_zero]
  intro j hj
  have := h.mem_lt (j := j) (by omega)
  simp only [beq_eq_false_iff_ne]
  intro he
  rw [he] at this; omega

theorem rank_spec (h : WmOk t xs) (hL : t.maxLevel ≤ 63) (a : Word) {i : Nat} (hi : i ≤ xs.length) :
    rank t i a = some (occ (fun j => xs.getD j 0#64) (fun b => b == a) i) := by
  have h2 : (1#64 <<< t.maxLevel ≤ a) ↔ 2 ^ t.maxLevel ≤ a.toNat := by rw [BitVec.le_def, one_shl_toNat (by omega)]
  rw [rank, shl_of_lt (by omega), sbind]
  by_cases ha : 2 ^ t.maxLevel ≤ a.toNat
  · rw [if_pos (h2.2 ha), occ_big h ha hi]; rfl
  · rw [if_neg (fun hh => ha (h2.1 hh))]
    obtain ⟨m, hm1, hm2⟩ := topMask_spec h
    rw [hm1, sbind]
    have := rankLoop_spec h (a := a) hi t.maxLevel m (Nat.le_refl _) hm2
    rwa [h.occ_top (by omega) hi, off_top, Nat.sub_self] at this

/-- The recorded path from the node with `c` remaining levels up to the root, `k` levels. -/
def ups (t : WmInt) (a : Word) : Nat → Nat → List (Nat × Nat)
  | 0, _ => []
  | k + 1, c => (off t (c + 1) a, Bv.cnt true t.tree (off t (c + 1) a)) :: ups t a k (c + 1)

theorem selDown_spec (h : WmOk t xs) {a : Word} {i : Nat} (hi : i ≤ xs.length) :
    ∀ (c : Nat) (m : Word) (k : Nat), c + k = t.maxLevel → m.toNat = 2 ^ c / 2 →
    selDown t a c (t.maxLevel - c) (off t c a) (occ (fun j => xs.getD j 0#64) (agree c a) i) m (ups t a k c) = some (ups t a t.maxLevel 0) := by
  intro c
  induction c with
  | zero =>
    intro m k hk _
    rw [selDown, show k = t.maxLevel by omega]
  | succ c ih =>
    intro m k hc hm
    have hn := h.node c (by omega) a
    have hs := occ_split (x := fun j => xs.getD j 0#64) (agree (c + 1) a) (bit c) i
    rw [selDown, hn.rank_start, sbind, hn.rank hi, sbind]
    dsimp only
    rw [decide_mask hm, nextB_spec h (by omega), sbind, Nat.add_sub_cancel_left, show t.maxLevel - (c + 1) + 1 = t.maxLevel - c by omega]
    cases hb : bit c a with
    | true =>
      rw [if_pos ((mask_bit hm a).2 hb), ← occ_child_one hb]
      exact ih _ (k + 1) (by omega) (mask_shr hm)
    | false =>
      rw [if_neg (fun h3 => by rw [(mask_bit hm a).1 h3] at hb; simp at hb), hs, Nat.add_sub_cancel_left, ← occ_child_zero hb]
      exact ih _ (k + 1) (by omega) (mask_shr hm)

/-- Moving a position of a node up by select. -/
theorem up_one (h : WmOk t xs) {c : Nat} (hc : c < t.maxLevel) {j : Nat} (hj : j < xs.length) {a : Word} (hag : agree (c + 1) a (xs.getD j 0#64) = true) (hba : bit c a = bit c (xs.getD j 0#64))
    (hb : bit c a = true) :
    Bv.select true t.tree (Bv.cnt true t.tree (off t (c + 1) a) + (occ (fun j => xs.getD j 0#64) (agree c a) j + 1)) =
      some (off t (c + 1) a + occ (fun j => xs.getD j 0#64) (agree (c + 1) a) j) := by
  rw [occ_child_one hb]
  exact (h.node c hc a).select_one hj hag (by rw [← hba, hb])

theorem up_zero (h : WmOk t xs) {c : Nat} (hc : c < t.maxLevel) {j : Nat} (hj : j < xs.length) {a : Word} (hag : agree (c + 1) a (xs.getD j 0#64) = true) (hba : bit c a = bit c (xs.getD j 0#64))
    (hb : bit c a = false) :
    Bv.select false t.tree (off t (c + 1) a - Bv.cnt true t.tree (off t (c + 1) a) + (occ (fun j => xs.getD j 0#64) (agree c a) j + 1)) =
      some (off t (c + 1) a + occ (fun j => xs.getD j 0#64) (agree (c + 1) a) j) := by
  rw [occ_child_zero hb]
  have := (h.node c hc a).select_zero hj hag (by rw [← hba, hb])
  have h2 := Bv.cnt_compl t.tree (off t (c + 1) a)
  rw [show off t (c + 1) a - Bv.cnt true t.tree (off t (c + 1) a) = Bv.cnt false t.tree (off t (c + 1) a) by omega]
  exact this

theorem selUp_spec (h : WmOk t xs) {j : Nat} (hj : j < xs.length) : ∀ (k c : Nat) (m : Word), c + k = t.maxLevel → m.toNat = 2 ^ c →
    selUp t (xs.getD j 0#64) (ups t (xs.getD j 0#64) k c) m (occ (fun j => xs.getD j 0#64) (agree c (xs.getD j 0#64)) j + 1) = some (j + 1) := by
  intro k
  induction k with
  | zero =>
    intro c m hc _
    rw [ups, selUp, show c = t.maxLevel by omega, h.occ_top (h.mem_lt hj) (by omega)]
  | succ k ih =>
    intro c m hc hm
    have hL := h.level
    rw [ups, selUp]
    cases hb : bit c (xs.getD j 0#64) with
    | true =>
      rw [if_pos ((and_bit_ne hm _).2 hb), up_one h (by omega) hj (agree_self _ _) rfl hb, sbind]
      rw [Nat.add_sub_cancel_left]
      by_cases hk : k = 0
      · subst hk
        rw [ups, selUp, show c + 1 = t.maxLevel by omega, h.occ_top (h.mem_lt hj) (by omega)]
      · exact ih (c + 1) _ (by omega) (mask_shl (by omega) hm)
    | false =>
      rw [if_neg (fun h3 => by rw [(and_bit_ne hm _).1 h3] at hb; simp at hb), up_zero h (by omega) hj (agree_self _ _) rfl hb, sbind]
      rw [Nat.add_sub_cancel_left]
      by_cases hk : k = 0
      · subst hk
        rw [ups, selUp, show c + 1 = t.maxLevel by omega, h.occ_top (h.mem_lt hj) (by omega)]
      · exact ih (c + 1) _ (by omega) (mask_shl (by omega) hm)

theorem select_spec (h : WmOk t xs) {j : Nat} (hj : j < xs.length) :
    select t (occ (fun j => xs.getD j 0#64) (fun b => b == xs.getD j 0#64) j + 1) (xs.getD j 0#64) = some j := by
  obtain ⟨m, hm1, hm2⟩ := topMask_spec h
  have hlt := occ_lt (x := fun j => xs.getD j 0#64) (P := fun b => b == xs.getD j 0#64) hj (by simp)
  have hle := occ_le (x := fun j => xs.getD j 0#64) (fun b => b == xs.getD j 0#64) j
  rw [select, hm1, sbind]
  have := selDown_spec h (a := xs.getD j 0#64) (i := occ (fun j => xs.getD j 0#64) (fun b => b == xs.getD j 0#64) j + 1) (by omega) t.maxLevel m 0 (by omega) hm2
  rw [h.occ_top (h.mem_lt hj) (by omega), off_top, ups, Nat.sub_self] at this
  rw [this, sbind]
  have h3 := selUp_spec h hj t.maxLevel 0 1#64 (by omega) rfl
  rw [agree_zero'] at h3
  rw [h3, sbind]; rfl

end Sdsl.Wt.WmInt
