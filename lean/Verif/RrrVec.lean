/- Queries of rrr_vector over a well-formed structure. -/
import Verif.RrrBlock

namespace Sdsl.Rrr

open Sdsl.Spec Sdsl.Bv

/-- Block `j` of `B`, padded with zeros. -/
def blk (n : Nat) (B : List Bool) (j : Nat) : List Bool := (List.range n).map (fun t => bit B (j * n + t))

theorem length_blk (n : Nat) (B : List Bool) (j : Nat) : (blk n B j).length = n := by simp [blk]

theorem bit_blk {n : Nat} (B : List Bool) (j : Nat) {t : Nat} (h : t < n) : bit (blk n B j) t = bit B (j * n + t) := by
  unfold blk
  conv => lhs; unfold bit
  rw [List.getD_eq_getElem?_getD, List.getElem?_map, List.getElem?_range h]; rfl

theorem cnt_blk {n : Nat} (tb : Bool) (B : List Bool) (j : Nat) {off : Nat} (h : off ≤ n) :
    cnt tb B (j * n + off) = cnt tb B (j * n) + cnt tb (blk n B j) off := by
  unfold cnt
  rw [countTrue_add]
  congr 1
  exact countTrue_congr (fun i hi => by rw [bit_blk B j (by omega)])

theorem cnt_next {n : Nat} (B : List Bool) (j : Nat) : cnt true B ((j + 1) * n) = cnt true B (j * n) + wt (blk n B j) := by
  rw [Nat.succ_mul, cnt_blk true B j (Nat.le_refl n)]
  congr 1
  rw [cnt_all _ (by rw [length_blk]; omega)]

theorem cnt_next0 {n : Nat} (B : List Bool) (j : Nat) :
    cnt false B ((j + 1) * n) = cnt false B (j * n) + (n - wt (blk n B j)) := by
  rw [Nat.succ_mul, cnt_blk false B j (Nat.le_refl n)]
  congr 1
  have := cnt_compl (blk n B j) n
  have h2 := cnt_all (blk n B j) (q := n) (by rw [length_blk]; omega)
  omega

theorem wt_blk_le (n : Nat) (B : List Bool) (j : Nat) : wt (blk n B j) ≤ n := by
  have := wt_le (blk n B j); rwa [length_blk] at this

/-- Start of the code of block `j`. -/
def P (n : Nat) (B : List Bool) : Nat → Nat
  | 0 => 0
  | j + 1 => P n B j + sp n (wt (blk n B j))

theorem P_mono {n : Nat} (B : List Bool) {a b : Nat} (h : a ≤ b) : P n B a ≤ P n B b := by
  induction h with
  | refl => omega
  | step _ ih => rw [P]; omega

/-- What a correctly built rrr_vector stores. -/
structure Good (n tk : Nat) (B : List Bool) (v : Vec) : Prop where
  size : v.size = B.length
  btLen : v.bt.xs.length = B.length / n + 1
  invLen : v.invert.length = B.length / (tk * n) + 1
  bt : ∀ j, j < B.length / n + 1 → v.bt.xs[j]? = some (if bit v.invert (j / tk) then n - wt (blk n B j) else wt (blk n B j))
  btnrpLen : v.btnrp.xs.length = B.length / (tk * n) + 1
  btnrp : ∀ s, s * (tk * n) < B.length → v.btnrp.xs[s]? = some (P n B (s * tk))
  rankLen : v.rank.xs.length = B.length / (tk * n) + 1 + (if B.length % (tk * n) > 0 then 1 else 0)
  rank : ∀ s, s < v.rank.xs.length → v.rank.xs[s]? = some (cnt true B (s * (tk * n)))
  btnr : ∀ j, j * n < B.length → P n B (j + 1) ≤ v.btnr.length ∧
    fld v.btnr (P n B j) (sp n (wt (blk n B j))) = enc (blk n B j)

variable {n tk : Nat} {B : List Bool} {v : Vec}

theorem sp_tk {i n tk : Nat} : i / n / tk = i / (tk * n) := by rw [Nat.div_div_eq_div_mul, Nat.mul_comm]

theorem Good.bt' (g : Good n tk B v) {j : Nat} (hj : j * n ≤ B.length) (hn : 1 ≤ n) :
    v.bt.get j = some (if bit v.invert (j / tk) then n - wt (blk n B j) else wt (blk n B j)) := by
  apply g.bt
  have : j ≤ B.length / n := (Nat.le_div_iff_mul_le (by omega)).2 hj
  omega

theorem Good.inv (g : Good n tk B v) {s : Nat} (hs : s * (tk * n) ≤ B.length) (hn : 1 ≤ tk * n) :
    Bv.get v.invert s = some (bit v.invert s) := by
  apply get_of_lt
  have : s ≤ B.length / (tk * n) := (Nat.le_div_iff_mul_le (by omega)).2 hs
  rw [g.invLen]; omega

/-- `bt` after undoing the inversion. -/
theorem undo {n k : Nat} (h : k ≤ n) (inv : Bool) : (if inv = true then n - (if inv = true then n - k else k) else (if inv = true then n - k else k)) = k := by
  cases inv
  · simp
  · simp; omega

theorem sp_inv {n k : Nat} (h : k ≤ n) (inv : Bool) : sp n (if inv = true then n - k else k) = sp n k := by
  cases inv
  · simp
  · simp only [if_true]; exact sp_symm h

theorem space_sp {n k : Nat} (h256 : n ≤ 256) (hk : k ≤ n) : space n k = some (sp n k) := space_eq h256 hk

theorem ite_le {n k : Nat} (h : k ≤ n) (inv : Bool) : (if inv = true then n - k else k) ≤ n := by split <;> omega

theorem addSpace_eq (g : Good n tk B v) (h256 : n ≤ 256) (hn : 1 ≤ n) : ∀ (c j p : Nat), (j + c) * n ≤ B.length →
    p + P n B (j + c) - P n B j = p + (P n B (j + c) - P n B j) →
    addSpace n v j c p = some (p + (P n B (j + c) - P n B j))
  | 0, j, p, _, _ => by simp [addSpace]
  | c + 1, j, p, h, _ => by
    have hj : j * n ≤ B.length := Nat.le_trans (Nat.mul_le_mul_right n (by omega)) h
    have hw := wt_blk_le n B j
    have h1 : P n B (j + 1) = P n B j + sp n (wt (blk n B j)) := rfl
    have h2 := P_mono (n := n) B (show j + 1 ≤ j + 1 + c by omega)
    rw [addSpace, g.bt' hj hn, sbind, space_sp h256 (ite_le hw _), sbind, sp_inv hw,
      addSpace_eq g h256 hn c (j + 1) _ (by rw [show j + 1 + c = j + (c + 1) by omega]; exact h) (by omega),
      show j + 1 + c = j + (c + 1) by omega]
    rw [show j + 1 + c = j + (c + 1) by omega] at h2
    congr 1; omega

theorem rankLoop_eq (g : Good n tk B v) (h256 : n ≤ 256) (hn : 1 ≤ n) (inv : Bool) : ∀ (c j r p : Nat), (j + c) * n ≤ B.length →
    (∀ t, j ≤ t → t < j + c → bit v.invert (t / tk) = inv) →
    rankLoop n v inv j c r p = some (r + (cnt true B ((j + c) * n) - cnt true B (j * n)), p + (P n B (j + c) - P n B j))
  | 0, j, r, p, _, _ => by simp [rankLoop]
  | c + 1, j, r, p, h, hi => by
    have hj : j * n ≤ B.length := Nat.le_trans (Nat.mul_le_mul_right n (by omega)) h
    have hw := wt_blk_le n B j
    have h1 : P n B (j + 1) = P n B j + sp n (wt (blk n B j)) := rfl
    have h2 := P_mono (n := n) B (show j + 1 ≤ j + 1 + c by omega)
    have h3 := cnt_next (n := n) B j
    have h4 := cnt_mono true B (show (j + 1) * n ≤ (j + 1 + c) * n from Nat.mul_le_mul_right n (by omega))
    have h5 := undo hw inv
    rw [rankLoop, g.bt' hj hn, sbind, space_sp h256 (ite_le hw _), sbind, sp_inv hw, hi j (by omega) (by omega), h5,
      rankLoop_eq g h256 hn inv c (j + 1) _ _ (by rw [show j + 1 + c = j + (c + 1) by omega]; exact h)
        (fun t ht1 ht2 => hi t (by omega) (by omega)),
      show j + 1 + c = j + (c + 1) by omega]
    rw [show j + 1 + c = j + (c + 1) by omega] at h2 h4
    congr 2 <;> omega

theorem super_le {i n tk : Nat} : i / (tk * n) * tk ≤ i / n := by
  rw [← sp_tk]; exact Nat.div_mul_le_self _ _

theorem super_mul_le {i n tk : Nat} : i / (tk * n) * (tk * n) ≤ i := Nat.div_mul_le_self _ _

theorem idiv_lt {a t tk : Nat} (h1 : a * tk ≤ t) (h2 : t / tk ≤ a) (h : 1 ≤ tk) : t / tk = a := by
  have := (Nat.le_div_iff_mul_le h).2 h1
  omega

theorem in_super {i n tk t : Nat} (htk : 1 ≤ tk) (h1 : i / (tk * n) * tk ≤ t) (h2 : t ≤ i / n) : t / tk = i / (tk * n) := by
  apply idiv_lt h1 _ htk
  rw [← sp_tk]; exact Nat.div_le_div_right h2

theorem access_eq (g : Good n tk B v) (h256 : n ≤ 256) (hn : 1 ≤ n) (htk : 1 ≤ tk) {i : Nat} (hi : i < B.length) :
    access n tk v i = some (bit B i) := by
  have hbn : i / n * n ≤ i := Nat.div_mul_le_self _ _
  have hM : 1 ≤ tk * n := Nat.mul_pos htk hn
  have hsm : i / (tk * n) * (tk * n) ≤ i := super_mul_le
  have hsl : i / (tk * n) * tk ≤ i / n := super_le
  have hw := wt_blk_le n B (i / n)
  have hmod : i % n < n := Nat.mod_lt _ hn
  have hib : bit B i = bit (blk n B (i / n)) (i % n) := by rw [bit_blk B _ hmod, Nat.mul_comm, Nat.div_add_mod]
  unfold access
  dsimp only
  rw [g.bt' (by omega) hn, sbind]
  rw [sp_tk, g.inv (by omega) hM, sbind]
  simp only [undo hw]
  by_cases h1 : wt (blk n B (i / n)) = 0 ∨ wt (blk n B (i / n)) = n
  · rw [if_pos h1, hib]
    rcases h1 with h1 | h1
    · rw [h1, bit_of_wt_zero h1]; rfl
    · rw [wt_full (by rw [length_blk]; exact h1) _ (by rw [length_blk]; exact hmod), h1]
      have : n > 0 := hn
      simp [this]
  · obtain ⟨g1, g2⟩ := g.btnr (i / n) (by omega)
    have hP := P_mono (n := n) B hsl
    have hP1 : P n B (i / n + 1) = P n B (i / n) + sp n (wt (blk n B (i / n))) := rfl
    rw [if_neg h1, show v.btnrp.get (i / (tk * n)) = _ from g.btnrp _ (by omega), sbind,
      addSpace_eq g h256 hn _ _ _ (by rw [Nat.add_sub_cancel' hsl]; omega) (by rw [Nat.add_sub_cancel' hsl]; omega), sbind,
      Nat.add_sub_cancel' hsl, Nat.add_sub_cancel' hP, space_sp h256 hw, sbind,
      decodeBtnr_eq h256 (by omega) (sp_le hn), sbind, g2, decodeBit_eq h256 (length_blk _ _ _) hmod, hib]

theorem getIntBlock_eq (g : Good n tk B v) (h256 : n ≤ 256) (hn : 1 ≤ n) (htk : 1 ≤ tk) {i len : Nat} (h1l : 1 ≤ len)
    (h64 : len ≤ 64) (hi : i + len ≤ B.length) (hblk : i % n + len ≤ n) :
    getIntBlock n tk v i len = some (fld B i len) := by
  have hbn : i / n * n ≤ i := Nat.div_mul_le_self _ _
  have hM : 1 ≤ tk * n := Nat.mul_pos htk hn
  have hsm : i / (tk * n) * (tk * n) ≤ i := super_mul_le
  have hsl : i / (tk * n) * tk ≤ i / n := super_le
  have hw := wt_blk_le n B (i / n)
  have hmod : i % n < n := Nat.mod_lt _ hn
  have hib : fld B i len = fld (blk n B (i / n)) (i % n) len := by
    apply fld_congr
    intro j hj
    rw [bit_blk B _ (by omega)]
    congr 1
    have := Nat.div_add_mod i n
    rw [Nat.mul_comm] at this
    omega
  unfold getIntBlock
  dsimp only
  rw [g.bt' (by omega) hn, sbind]
  rw [sp_tk, g.inv (by omega) hM, sbind]
  simp only [undo hw]
  by_cases h1 : wt (blk n B (i / n)) = 0
  · rw [if_pos h1, hib]
    show some _ = some _
    congr 1
    apply Nat.eq_of_testBit_eq
    intro j
    rw [testBit_fld, bit_of_wt_zero h1]; simp
  · rw [if_neg h1]
    by_cases h2 : wt (blk n B (i / n)) = n ∧ n ≤ 64
    · rw [if_pos h2, if_pos h64, hib]
      congr 1
      apply Nat.eq_of_testBit_eq
      intro j
      rw [testBit_fld, Nat.testBit_two_pow_sub_one]
      by_cases hj : j < len
      · rw [wt_full (by rw [length_blk]; exact h2.1) _ (by rw [length_blk]; omega)]; simp
      · simp [hj]
    · obtain ⟨g1, g2⟩ := g.btnr (i / n) (by omega)
      have hP := P_mono (n := n) B hsl
      have hP1 : P n B (i / n + 1) = P n B (i / n) + sp n (wt (blk n B (i / n))) := rfl
      rw [if_neg h2, show v.btnrp.get (i / (tk * n)) = _ from g.btnrp _ (by omega), sbind,
        addSpace_eq g h256 hn _ _ _ (by rw [Nat.add_sub_cancel' hsl]; omega) (by rw [Nat.add_sub_cancel' hsl]; omega), sbind,
        Nat.add_sub_cancel' hsl, Nat.add_sub_cancel' hP, space_sp h256 hw, sbind,
        decodeBtnr_eq h256 (by omega) (sp_le hn), sbind, g2, decodeInt_eq h256 (length_blk _ _ _) h1l h64 hblk, hib]

theorem getIntLoop_eq (g : Good n tk B v) (h256 : n ≤ 256) (hn : 1 ≤ n) (htk : 1 ≤ tk) {idx0 len0 : Nat} (h64 : len0 ≤ 64)
    (hi : idx0 + len0 ≤ B.length) : ∀ (fuel len bLen sum : Nat), len < fuel → sum + len = len0 → 1 ≤ bLen → bLen ≤ len →
      (idx0 + sum) % n + bLen ≤ n → ((idx0 + sum) % n + bLen = n ∨ bLen = len) →
      getIntLoop n tk v fuel (idx0 + sum) len bLen sum (fld B idx0 sum) = some (fld B idx0 len0)
  | 0, _, _, _, h, _, _, _, _, _ => by omega
  | fuel + 1, len, bLen, sum, hf, hs, hb1, hb2, hm, hend => by
    have hs64 : sum < 64 := by omega
    have hlt := fld_lt B (idx0 + sum) bLen
    have hshift : fld B (idx0 + sum) bLen * 2 ^ sum < 2 ^ 64 := by
      calc fld B (idx0 + sum) bLen * 2 ^ sum < 2 ^ bLen * 2 ^ sum := Nat.mul_lt_mul_of_pos_right hlt (Nat.two_pow_pos _)
        _ = 2 ^ (bLen + sum) := by rw [Nat.pow_add]
        _ ≤ 2 ^ 64 := Nat.pow_le_pow_right (by omega) (by omega)
    have hor : fld B idx0 sum ||| fld B (idx0 + sum) bLen * 2 ^ sum = fld B idx0 (sum + bLen) := by
      rw [fld_add, Nat.mul_comm, Nat.or_comm, ← Nat.two_pow_add_eq_or_of_lt (fld_lt _ _ _), Nat.add_comm]
    rw [getIntLoop, getIntBlock_eq g h256 hn htk hb1 (by omega) (by omega) hm, sbind, if_pos hs64, sbind,
      Nat.mod_eq_of_lt hshift]
    dsimp only
    rw [hor]
    by_cases h : len - bLen > 0
    · rw [if_pos h]
      have hz : (idx0 + sum + bLen) % n = 0 := by
        have hfull : (idx0 + sum) % n + bLen = n := by omega
        have := Nat.div_add_mod (idx0 + sum) n
        rw [show idx0 + sum + bLen = n * ((idx0 + sum) / n) + n by omega, ← Nat.mul_succ, Nat.mul_mod_right]
      rw [show idx0 + sum + bLen = idx0 + (sum + bLen) by omega] at hz ⊢
      exact getIntLoop_eq g h256 hn htk h64 hi fuel (len - bLen) (min (len - bLen) n) (sum + bLen) (by omega) (by omega) (by omega)
        (by omega) (by rw [hz]; omega) (by rw [hz]; omega)
    · rw [if_neg h, show sum + bLen = len0 by omega]; rfl

theorem getInt_eq (g : Good n tk B v) (h256 : n ≤ 256) (hn : 1 ≤ n) (htk : 1 ≤ tk) {i len : Nat} (h1l : 1 ≤ len) (h64 : len ≤ 64)
    (hi : i + len ≤ B.length) : getInt n tk v i len = some (fld B i len) := by
  unfold getInt
  have e1 := Nat.div_add_mod i n
  have e2 := Nat.div_add_mod (i + len - 1) n
  have m1 := Nat.mod_lt i hn
  have m2 := Nat.mod_lt (i + len - 1) hn
  by_cases h : i / n = (i + len - 1) / n
  · rw [if_pos h]
    rw [← h] at e2
    exact getIntBlock_eq g h256 hn htk h1l h64 hi (by omega)
  · rw [if_neg h]
    have hlt : i / n < (i + len - 1) / n := by
      have := Nat.div_le_div_right (c := n) (show i ≤ i + len - 1 by omega)
      omega
    have : n * (i / n + 1) ≤ n * ((i + len - 1) / n) := Nat.mul_le_mul_left n (by omega)
    rw [Nat.mul_succ] at this
    exact getIntLoop_eq g h256 hn htk h64 hi (len + 1) len (n - i % n) 0 (by omega) (by omega) (by omega) (by omega)
      (by rw [Nat.add_zero]; omega) (by rw [Nat.add_zero]; omega)

theorem adjust_eq (tb : Bool) (B : List Bool) (i : Nat) : adjust tb (cnt true B i) i = cnt tb B i := by
  unfold adjust
  have := cnt_compl B i
  cases tb
  · simp; omega
  · simp

theorem cnt_step_le (tb : Bool) (B : List Bool) {a b : Nat} (h : a ≤ b) : cnt tb B b ≤ cnt tb B a + (b - a) := by
  induction h with
  | refl => omega
  | step h ih =>
    rename_i m
    have : m ≥ a := h
    rw [cnt_succ]
    have : (bit B m == tb).toNat ≤ 1 := Bool.toNat_le _
    omega

theorem rankScan_eq (g : Good n tk B v) (h256 : n ≤ 256) (hn : 1 ≤ n) (htk : 1 ≤ tk) (tb : Bool) {i p : Nat} (hi : i ≤ B.length)
    (hp : i / (tk * n) * (tk * n) < B.length → p = P n B (i / (tk * n) * tk)) :
    rankScan n tk v tb i p (cnt true B (i / (tk * n) * (tk * n))) = some (cnt tb B i) := by
  have hbn : i / n * n ≤ i := Nat.div_mul_le_self _ _
  have hM : 1 ≤ tk * n := Nat.mul_pos htk hn
  have hsm : i / (tk * n) * (tk * n) ≤ i := super_mul_le
  have hsl : i / (tk * n) * tk ≤ i / n := super_le
  have hmod : i % n < n := Nat.mod_lt _ hn
  have hdm := Nat.div_add_mod i n
  rw [Nat.mul_comm] at hdm
  unfold rankScan
  dsimp only
  rw [sp_tk, g.inv (by omega) hM, sbind,
    rankLoop_eq g h256 hn _ _ _ _ _ (by rw [Nat.add_sub_cancel' hsl]; omega)
      (fun t h1 h2 => by rw [in_super htk h1 (by omega)]), sbind, Nat.add_sub_cancel' hsl, ← Nat.mul_assoc]
  have hc := cnt_mono true B (Nat.mul_le_mul_right n hsl)
  dsimp only
  by_cases h0 : i % n = 0
  · have : i / n * n = i := by omega
    rw [if_pos h0, this, Nat.add_sub_cancel' (by rw [this] at hc; exact hc), adjust_eq]; rfl
  · obtain ⟨g1, g2⟩ := g.btnr (i / n) (by omega)
    have hw := wt_blk_le n B (i / n)
    have hP := P_mono (n := n) B hsl
    have hP1 : P n B (i / n + 1) = P n B (i / n) + sp n (wt (blk n B (i / n))) := rfl
    rw [if_neg h0, g.bt' (by omega) hn, sbind]
    rw [in_super htk hsl (Nat.le_refl _)]
    simp only [undo hw]
    have hsn := Nat.mul_le_mul_right n hsl
    rw [Nat.mul_assoc] at hsn
    rw [space_sp h256 hw, sbind, hp (by omega), Nat.add_sub_cancel' hP, decodeBtnr_eq h256 (by omega) (sp_le hn), sbind, g2,
      decodePopcount_eq h256 (length_blk _ _ _) (by omega), sbind, Nat.add_sub_cancel' hc, ← cnt_blk true B _ (by omega), hdm,
      adjust_eq]
    rfl

theorem rankQ_eq (g : Good n tk B v) (h256 : n ≤ 256) (hn : 1 ≤ n) (htk : 1 ≤ tk) (tb : Bool) {i : Nat} (hi : i ≤ B.length) :
    rankQ n tk v tb i = some (cnt tb B i) := by
  have hM : 1 ≤ tk * n := Nat.mul_pos htk hn
  have hsm : i / (tk * n) * (tk * n) ≤ i := super_mul_le
  have hss : i / (tk * n) ≤ B.length / (tk * n) := Nat.div_le_div_right hi
  have hlt : i < (i / (tk * n) + 1) * (tk * n) := by
    rw [Nat.mul_comm]; exact Nat.lt_mul_div_succ i hM
  have hbl : i / (tk * n) < v.btnrp.xs.length := by rw [g.btnrpLen]; omega
  have hrl : i / (tk * n) < v.rank.xs.length := by rw [g.rankLen]; omega
  have hb : v.btnrp.get (i / (tk * n)) = some (v.btnrp.xs[i / (tk * n)]) := List.getElem?_eq_getElem hbl
  have hscan := rankScan_eq g h256 hn htk tb (p := v.btnrp.xs[i / (tk * n)]) hi (fun h => by
    have h1 := g.btnrp _ h
    rw [List.getElem?_eq_getElem hbl] at h1
    exact Option.some.inj h1)
  unfold rankQ
  dsimp only
  rw [sp_tk, hb, sbind, show v.rank.get _ = _ from g.rank _ hrl, sbind]
  by_cases h1 : i / (tk * n) + 1 < v.rank.xs.length
  · rw [if_pos h1, show v.rank.get _ = _ from g.rank _ h1, sbind]
    have c1 := cnt_mono true B hsm
    have c2 := cnt_mono true B (Nat.le_of_lt hlt)
    by_cases h2 : cnt true B ((i / (tk * n) + 1) * (tk * n)) - cnt true B (i / (tk * n) * (tk * n)) = 0
    · rw [if_pos h2, show cnt true B (i / (tk * n) * (tk * n)) = cnt true B i by omega, adjust_eq]; rfl
    · rw [if_neg h2]
      by_cases h3 : cnt true B ((i / (tk * n) + 1) * (tk * n)) - cnt true B (i / (tk * n) * (tk * n)) = n * tk
      · rw [if_pos h3]
        have s1 := cnt_step_le true B hsm
        have s2 := cnt_step_le true B (Nat.le_of_lt hlt)
        have e1 : (i / (tk * n) + 1) * (tk * n) = i / (tk * n) * (tk * n) + tk * n := Nat.succ_mul _ _
        have e2 : n * tk = tk * n := Nat.mul_comm _ _
        rw [Nat.mul_assoc, show cnt true B (i / (tk * n) * (tk * n)) + i - i / (tk * n) * (tk * n) = cnt true B i by omega,
          adjust_eq]
        rfl
      · rw [if_neg h3]; exact hscan
  · rw [if_neg h1]; exact hscan

/-! select -/

theorem sampleSearch_eq {f : Nat → Option Nat} {F : Nat → Nat} {i hi : Nat} (hf : ∀ s, s ≤ hi → f s = some (F s)) :
    ∀ (fuel b e : Nat), e ≤ hi → e - b ≤ fuel → b < e → F b < i → i ≤ F e →
      ∃ b', sampleSearch f i fuel b e = some (b', b' + 1) ∧ b' < hi ∧ F b' < i ∧ i ≤ F (b' + 1)
  | 0, b, e, _, h, _, _, _ => by omega
  | fuel + 1, b, e, he, hfu, hbe, h1, h2 => by
    rw [sampleSearch]
    by_cases h : e - b > 1
    · rw [if_pos h]
      dsimp only
      rw [hf _ (by omega), sbind]
      by_cases hc : F ((b + e) / 2) ≥ i
      · rw [if_pos hc]
        exact sampleSearch_eq hf fuel _ _ (by omega) (by omega) (by omega) h1 hc
      · rw [if_neg hc]
        exact sampleSearch_eq hf fuel _ _ he (by omega) (by omega) (by omega) h2
    · rw [if_neg h]
      have : e = b + 1 := by omega
      subst this
      exact ⟨b, rfl, by omega, h1, h2⟩

theorem selScan_eq (g : Good n tk B v) (h256 : n ≤ 256) (hn : 1 ≤ n) (tb inv : Bool) {i p0 : Nat}
    (hmax : i ≤ cnt tb B B.length) {b : Nat} (htk : 1 ≤ tk)
    (hinv : ∀ t, b * tk ≤ t → t < (b + 1) * tk → bit v.invert (t / tk) = inv)
    (hend : i ≤ cnt tb B ((b + 1) * (tk * n))) :
    ∀ (fuel idx bt len : Nat), B.length / n + 2 ≤ fuel + idx → b * tk ≤ idx →
      (idx = b * tk ∨ (cnt tb B ((idx - 1) * n) < i ∧ bt = wt (blk n B (idx - 1)) ∧ len = sp n (wt (blk n B (idx - 1))) ∧ b * tk < idx)) →
      (idx = b * tk → cnt tb B (idx * n) < i) →
      (P n B (b * tk) ≤ P n B idx) →
      ∃ idx', selScan n v inv tb i fuel idx bt (cnt tb B (idx * n)) (p0 + (P n B idx - P n B (b * tk))) len =
        some (idx' + 1, wt (blk n B idx'), cnt tb B ((idx' + 1) * n), p0 + (P n B (idx' + 1) - P n B (b * tk)),
          sp n (wt (blk n B idx'))) ∧ b * tk ≤ idx' ∧ cnt tb B (idx' * n) < i ∧ i ≤ cnt tb B ((idx' + 1) * n)
  | 0, idx, bt, len, hfu, hbi, hst, hst0, hPm => by
    exfalso
    rcases hst with h | ⟨h, _⟩
    · have h1 := hst0 h
      have h2 : idx * n < B.length := by
        apply Nat.lt_of_not_le
        intro hle
        have := cnt_mono tb B hle
        omega
      have := (Nat.le_div_iff_mul_le hn).2 (Nat.le_of_lt h2)
      omega
    · have h2 : (idx - 1) * n < B.length := by
        apply Nat.lt_of_not_le
        intro hle
        have := cnt_mono tb B hle
        omega
      have := (Nat.le_div_iff_mul_le hn).2 (Nat.le_of_lt h2)
      omega
  | fuel + 1, idx, bt, len, hfu, hbi, hst, hst0, hPm => by
    rw [selScan]
    by_cases h : i > cnt tb B (idx * n)
    · rw [if_pos h]
      have h2 : idx * n < B.length := by
        apply Nat.lt_of_not_le
        intro hle
        have := cnt_mono tb B hle
        omega
      have hidx : idx < (b + 1) * tk := by
        apply Nat.lt_of_not_le
        intro hle
        have hle2 := Nat.mul_le_mul_right n hle
        rw [Nat.mul_assoc] at hle2
        have := cnt_mono tb B hle2
        omega
      have hw := wt_blk_le n B idx
      rw [g.bt' (by omega) hn, sbind, hinv idx hbi hidx]
      simp only [undo hw]
      rw [space_sp h256 hw, sbind]
      have hP1 : P n B (idx + 1) = P n B idx + sp n (wt (blk n B idx)) := rfl
      have e1 : cnt tb B (idx * n) + (if tb = true then wt (blk n B idx) else n - wt (blk n B idx)) = cnt tb B ((idx + 1) * n) := by
        cases tb
        · rw [cnt_next0]; rfl
        · rw [cnt_next]; rfl
      rw [e1, show p0 + (P n B idx - P n B (b * tk)) + sp n (wt (blk n B idx)) = p0 + (P n B (idx + 1) - P n B (b * tk)) by omega]
      exact selScan_eq g h256 hn tb inv hmax htk hinv hend fuel (idx + 1) _ _ (by omega) (by omega)
        (Or.inr ⟨by rw [Nat.add_sub_cancel]; exact h, by rw [Nat.add_sub_cancel], by rw [Nat.add_sub_cancel], by omega⟩)
        (fun h => by omega) (by omega)
    · rw [if_neg h]
      rcases hst with h1 | ⟨h1, h2, h3, h4⟩
      · exact absurd (hst0 h1) h
      · refine ⟨idx - 1, ?_, by omega, h1, ?_⟩
        · rw [Nat.sub_add_cancel (by omega), ← h3, ← h2]
        · rw [Nat.sub_add_cancel (by omega)]; omega

theorem rank_last (g : Good n tk B v) (hM : 1 ≤ tk * n) :
    B.length ≤ (v.rank.xs.length - 1) * (tk * n) ∧
      (∀ s, s < v.rank.xs.length - 1 → s * (tk * n) < B.length) ∧ 1 ≤ v.rank.xs.length := by
  have hl := g.rankLen
  have e := Nat.div_add_mod B.length (tk * n)
  have hm := Nat.mod_lt B.length hM
  rw [Nat.mul_comm] at e
  generalize tk * n = M at *
  generalize B.length % M = r at *
  generalize B.length / M = d at *
  by_cases h : r > 0
  · rw [if_pos h] at hl
    rw [hl]
    refine ⟨?_, ?_, by omega⟩
    · rw [Nat.add_sub_cancel, Nat.succ_mul]; omega
    · intro s hs
      have : s ≤ d := by omega
      have := Nat.mul_le_mul_right M this
      omega
  · rw [if_neg h] at hl
    rw [hl]
    refine ⟨?_, ?_, by omega⟩
    · rw [Nat.add_zero, Nat.add_sub_cancel]; omega
    · intro s hs
      have : s + 1 ≤ d := by omega
      have := Nat.mul_le_mul_right M this
      rw [Nat.succ_mul] at this
      omega

theorem cnt_ge (g1 : B.length ≤ q) : cnt true B q = cnt true B B.length := by
  rw [cnt_all B g1]; rfl

/-- A position with the right bit and the right count is the answer. -/
theorem isSelect_of {tb : Bool} {i q : Nat} (hmax : i ≤ cnt tb B B.length) (hb : bit B q = tb) (hc : cnt tb B q + 1 = i) :
    IsSelect (fun p => bit B p == tb) B.length i q := by
  refine ⟨?_, by simpa using hb, hc⟩
  apply Nat.lt_of_not_le
  intro hle
  have := cnt_mono tb B hle
  omega

/-- All bits of `[a, a+d)` equal `tb`. -/
theorem cnt_run {tb : Bool} {a e : Nat} (hae : a ≤ e) (h : cnt tb B e = cnt tb B a + (e - a)) {i : Nat} (h1 : cnt tb B a < i)
    (h2 : i ≤ cnt tb B e) : bit B (a + (i - cnt tb B a - 1)) = tb ∧ cnt tb B (a + (i - cnt tb B a - 1)) + 1 = i := by
  have s1 := cnt_step_le tb B (show a ≤ a + (i - cnt tb B a - 1) by omega)
  have s2 := cnt_step_le tb B (show a + (i - cnt tb B a - 1) + 1 ≤ e by omega)
  have s3 := cnt_succ tb B (a + (i - cnt tb B a - 1))
  have s4 := cnt_step_le tb B (show a ≤ a + (i - cnt tb B a - 1) + 1 by omega)
  by_cases hb : bit B (a + (i - cnt tb B a - 1)) = tb
  · refine ⟨hb, ?_⟩
    simp [hb] at s3
    omega
  · have : (bit B (a + (i - cnt tb B a - 1)) == tb).toNat = 0 := by simp [hb]
    omega

theorem select1_eq (g : Good n tk B v) (h256 : n ≤ 256) (hn : 1 ≤ n) (htk : 1 ≤ tk) {i : Nat} (h1 : 1 ≤ i)
    (h2 : i ≤ cnt true B B.length) : ∃ p, select1 n tk v i = some p ∧ IsSelect (fun p => bit B p == true) B.length i p := by
  have hM : 1 ≤ tk * n := Nat.mul_pos htk hn
  obtain ⟨l1, l2, l3⟩ := rank_last g hM
  have hR : 1 ≤ v.rank.xs.length - 1 := by
    apply Nat.le_of_not_lt
    intro h
    have e : v.rank.xs.length - 1 = 0 := by omega
    rw [e] at l1
    have : B.length = 0 := by omega
    rw [this, cnt_zero] at h2
    omega
  unfold select1
  rw [show v.rank.get _ = _ from g.rank _ (show v.rank.xs.length - 1 < _ by omega), sbind, cnt_ge l1, if_neg (by omega)]
  obtain ⟨b, hb1, hb2, hb3, hb4⟩ := sampleSearch_eq (f := fun idx => v.rank.get idx) (F := fun s => cnt true B (s * (tk * n)))
    (i := i) (hi := v.rank.xs.length - 1) (fun s hs => g.rank s (by omega)) v.rank.xs.length 0 (v.rank.xs.length - 1)
    (Nat.le_refl _) (by omega) (by omega) (by simp [cnt_zero]; omega) (by rw [cnt_ge l1]; exact h2)
  rw [hb1, sbind]
  dsimp only at hb3 hb4 ⊢
  have hbM := l2 b hb2
  unfold select1Tail
  rw [show v.rank.get _ = _ from g.rank b (by omega), sbind, show v.rank.get _ = _ from g.rank (b + 1) (by omega), sbind]
  have e1 : (b + 1) * (tk * n) = b * (tk * n) + tk * n := Nat.succ_mul _ _
  have e2 : n * tk = tk * n := Nat.mul_comm _ _
  by_cases h3 : cnt true B ((b + 1) * (tk * n)) - cnt true B (b * (tk * n)) = n * tk
  · rw [if_pos h3]
    have hrun := cnt_run (B := B) (tb := true) (show b * (tk * n) ≤ (b + 1) * (tk * n) by omega) (by omega) hb3 hb4
    refine ⟨_, rfl, ?_⟩
    rw [Nat.mul_assoc, show b * (tk * n) + i - cnt true B (b * (tk * n)) - 1 = b * (tk * n) + (i - cnt true B (b * (tk * n)) - 1) by omega]
    exact isSelect_of h2 hrun.1 hrun.2
  · rw [if_neg h3, g.inv (by omega) hM, sbind, show v.btnrp.get _ = _ from g.btnrp b hbM, sbind]
    obtain ⟨idx, hs1, hs2, hs3, hs4⟩ := selScan_eq g h256 hn true (bit v.invert b) (i := i) (p0 := P n B (b * tk)) h2 (b := b) htk
      (fun t ht1 ht2 => by
        congr 1
        exact Nat.div_eq_of_lt_le (by omega) (by omega)) hb4
      (v.bt.xs.length + 1) (b * tk) 0 0 (by rw [g.btLen]; omega) (Nat.le_refl _) (Or.inl rfl)
      (fun _ => by rw [Nat.mul_assoc]; exact hb3) (Nat.le_refl _)
    rw [Nat.sub_self, Nat.mul_assoc, Nat.add_zero (P n B (b * tk))] at hs1
    rw [hs1, sbind]
    dsimp only
    have hreal : idx * n < B.length := by
      apply Nat.lt_of_not_le
      intro hle
      have := cnt_mono true B hle
      omega
    obtain ⟨g1, g2⟩ := g.btnr idx hreal
    have hP := P_mono (n := n) B (show b * tk ≤ idx + 1 by omega)
    have hP1 : P n B (idx + 1) = P n B idx + sp n (wt (blk n B idx)) := rfl
    have hc := cnt_next (n := n) B idx
    have hw := wt_blk_le n B idx
    obtain ⟨p, hp1, hp2, hp3, hp4⟩ := decodeSelect_eq h256 (length_blk n B idx) (sel := i - cnt true B (idx * n)) (by omega) (by omega)
    rw [show P n B (b * tk) + (P n B (idx + 1) - P n B (b * tk)) - sp n (wt (blk n B idx)) = P n B idx by omega,
      decodeBtnr_eq h256 (by omega) (sp_le hn), sbind, g2,
      show cnt true B ((idx + 1) * n) - wt (blk n B idx) = cnt true B (idx * n) by omega, hp1, sbind]
    refine ⟨_, rfl, ?_⟩
    rw [Nat.add_sub_cancel]
    apply isSelect_of h2
    · rw [← bit_blk B idx hp2]; exact hp3
    · rw [cnt_blk true B idx (by omega)]; omega

theorem select0_eq (g : Good n tk B v) (h256 : n ≤ 256) (hn : 1 ≤ n) (htk : 1 ≤ tk) {i : Nat} (h1 : 1 ≤ i)
    (h2 : i ≤ cnt false B B.length) : ∃ p, select0 n tk v i = some p ∧ IsSelect (fun p => bit B p == false) B.length i p := by
  have hM : 1 ≤ tk * n := Nat.mul_pos htk hn
  obtain ⟨l1, l2, l3⟩ := rank_last g hM
  have hR : 1 ≤ v.rank.xs.length - 1 := by
    apply Nat.le_of_not_lt
    intro h
    have e : v.rank.xs.length - 1 = 0 := by omega
    rw [e] at l1
    have : B.length = 0 := by omega
    rw [this, cnt_zero] at h2
    omega
  have hcomp := cnt_compl B B.length
  unfold select0
  rw [show v.rank.get _ = _ from g.rank _ (show v.rank.xs.length - 1 < _ by omega), sbind, cnt_ge l1, g.size, if_neg (by omega)]
  have hF : ∀ s, s * n * tk - cnt true B (s * (tk * n)) = cnt false B (s * (tk * n)) := by
    intro s
    have := cnt_compl B (s * (tk * n))
    rw [Nat.mul_assoc, Nat.mul_comm n tk]; omega
  obtain ⟨b, hb1, hb2, hb3, hb4⟩ := sampleSearch_eq (f := fun idx => do let r ← v.rank.get idx; pure (idx * n * tk - r))
    (F := fun s => cnt false B (s * (tk * n)))
    (i := i) (hi := v.rank.xs.length - 1) (fun s hs => by
      rw [show v.rank.get _ = _ from g.rank s (by omega), sbind, hF]; rfl) v.rank.xs.length 0 (v.rank.xs.length - 1)
    (Nat.le_refl _) (by omega) (by omega) (by simp [cnt_zero]; omega)
    (Nat.le_trans h2 (cnt_mono false B l1))
  rw [hb1, sbind]
  dsimp only at hb3 hb4 ⊢
  have hbM := l2 b hb2
  unfold select0Tail
  rw [show v.rank.get _ = _ from g.rank b (by omega), sbind, show v.rank.get _ = _ from g.rank (b + 1) (by omega), sbind]
  dsimp only
  rw [hF]
  have e1 : (b + 1) * (tk * n) = b * (tk * n) + tk * n := Nat.succ_mul _ _
  by_cases h3 : cnt true B ((b + 1) * (tk * n)) = cnt true B (b * (tk * n))
  · rw [if_pos h3]
    have ca := cnt_compl B (b * (tk * n))
    have cb := cnt_compl B ((b + 1) * (tk * n))
    have hrun := cnt_run (B := B) (tb := false) (show b * (tk * n) ≤ (b + 1) * (tk * n) by omega) (by omega) hb3 hb4
    refine ⟨_, rfl, ?_⟩
    rw [Nat.mul_assoc, show b * (tk * n) + i - cnt false B (b * (tk * n)) - 1 = b * (tk * n) + (i - cnt false B (b * (tk * n)) - 1) by omega]
    exact isSelect_of h2 hrun.1 hrun.2
  · rw [if_neg h3, g.inv (by omega) hM, sbind, show v.btnrp.get _ = _ from g.btnrp b hbM, sbind]
    obtain ⟨idx, hs1, hs2, hs3, hs4⟩ := selScan_eq g h256 hn false (bit v.invert b) (i := i) (p0 := P n B (b * tk)) h2 (b := b) htk
      (fun t ht1 ht2 => by
        congr 1
        exact Nat.div_eq_of_lt_le (by omega) (by omega)) hb4
      (v.bt.xs.length + 1) (b * tk) 0 0 (by rw [g.btLen]; omega) (Nat.le_refl _) (Or.inl rfl)
      (fun _ => by rw [Nat.mul_assoc]; exact hb3) (Nat.le_refl _)
    rw [Nat.sub_self, Nat.mul_assoc, Nat.add_zero (P n B (b * tk))] at hs1
    rw [hs1, sbind]
    dsimp only
    have hreal : idx * n < B.length := by
      apply Nat.lt_of_not_le
      intro hle
      have := cnt_mono false B hle
      omega
    obtain ⟨g1, g2⟩ := g.btnr idx hreal
    have hP := P_mono (n := n) B (show b * tk ≤ idx + 1 by omega)
    have hP1 : P n B (idx + 1) = P n B idx + sp n (wt (blk n B idx)) := rfl
    have hc := cnt_next0 (n := n) B idx
    have hw := wt_blk_le n B idx
    obtain ⟨p, hp1, hp2, hp3, hp4⟩ := selZero_eq h256 n 0 (i - cnt false B (idx * n)) (blk n B idx) (length_blk n B idx) (by omega)
      (by omega) (by omega)
    rw [show P n B (b * tk) + (P n B (idx + 1) - P n B (b * tk)) - sp n (wt (blk n B idx)) = P n B idx by omega,
      decodeBtnr_eq h256 (by omega) (sp_le hn), sbind, g2,
      show cnt false B ((idx + 1) * n) - (n - wt (blk n B idx)) = cnt false B (idx * n) by omega, hp1, sbind]
    rw [length_blk] at hp2
    refine ⟨_, rfl, ?_⟩
    rw [Nat.add_sub_cancel, Nat.zero_add]
    apply isSelect_of h2
    · rw [← bit_blk B idx hp2]; exact hp3
    · rw [cnt_blk false B idx (by omega)]; omega

theorem selectQ_none (g : Good n tk B v) (hn : 1 ≤ n) (htk : 1 ≤ tk) (tb : Bool) {i : Nat} (h : cnt tb B B.length < i) :
    selectQ n tk v tb i = some B.length := by
  have hM : 1 ≤ tk * n := Nat.mul_pos htk hn
  obtain ⟨l1, l2, l3⟩ := rank_last g hM
  have hcomp := cnt_compl B B.length
  unfold selectQ
  cases tb
  · simp only [Bool.false_eq_true, if_false]
    unfold select0
    rw [show v.rank.get _ = _ from g.rank _ (show v.rank.xs.length - 1 < _ by omega), sbind, cnt_ge l1, g.size, if_pos (by omega)]
    rfl
  · simp only [if_true]
    unfold select1
    rw [show v.rank.get _ = _ from g.rank _ (show v.rank.xs.length - 1 < _ by omega), sbind, cnt_ge l1, g.size, if_pos (by omega)]
    rfl

end Sdsl.Rrr
