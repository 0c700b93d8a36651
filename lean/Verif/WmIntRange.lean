/-
  `wm_int::range_search_2d`.
-/
import Verif.WtFixed
import Verif.WtIntRange

namespace Sdsl.Wt.WmInt

open Spec Bits
open WtInt (key bit agree key_succ agree_zero agree_zero' agree_self agree_of_key child child_key child_key_succ child_toNat child_lt occ_child_one occ_child_zero key_succ_div bit_key
  pts box pts_length box_out box_congr mem_vals vals vals_succ vals_zero vals_top key_zero key_top one_shl_toNat)

section range

variable {t : WmInt} {xs : List Word}

/-- The entries of `is` and `rank_off` of the path to the node of `a` with `c` levels below it, for a range that starts at `lo`. -/
def rups (t : WmInt) (xs : List Word) (lo : Nat) (a : Word) : Nat → Nat → List (Nat × Nat)
  | 0, _ => []
  | k + 1, c => (off t (c + 1) a + occ (fun j => xs.getD j 0#64) (agree (c + 1) a) lo,
      Bv.cnt true t.tree (off t (c + 1) a + occ (fun j => xs.getD j 0#64) (agree (c + 1) a) lo)) :: rups t xs lo a k (c + 1)

theorem off_congr {a b : Word} {c : Nat} (hc : c ≤ t.maxLevel) (h : key c a = key c b) : off t c a = off t c b :=
  start_congr _ (by omega) (by rw [show t.maxLevel - (t.maxLevel - c) = c by omega]; exact h)

theorem rups_congr {lo : Nat} {a b : Word} : ∀ (k c : Nat), c + k ≤ t.maxLevel → key c a = key c b → rups t xs lo a k c = rups t xs lo b k c := by
  intro k
  induction k with
  | zero => intro c _ _; rfl
  | succ k ih =>
    intro c hc h
    have h2 : key (c + 1) a = key (c + 1) b := by rw [key_succ_div, key_succ_div, h]
    rw [rups, rups, ih (c + 1) (by omega) h2, off_congr (by omega) h2, agree_of_key h2]

theorem rangeUp_spec (h : WmOk t xs) {lo j : Nat} (hlo : lo ≤ j) (hj : j < xs.length) : ∀ (k c : Nat), c + k = t.maxLevel →
    rangeUp t (rups t xs lo (xs.getD j 0#64) k c) (key c (xs.getD j 0#64))
      (occ (fun j => xs.getD j 0#64) (agree c (xs.getD j 0#64)) j - occ (fun j => xs.getD j 0#64) (agree c (xs.getD j 0#64)) lo + 1) = some (j - lo + 1) := by
  intro k
  induction k with
  | zero =>
    intro c hc
    rw [rups, rangeUp, show c = t.maxLevel by omega, h.occ_top (h.mem_lt hj) (by omega), h.occ_top (h.mem_lt hj) (by omega)]
  | succ k ih =>
    intro c hc
    rw [rups, rangeUp, ← key_succ_div]
    have hbk := bit_key c (xs.getD j 0#64)
    have n := h.node c (by omega) (xs.getD j 0#64)
    have m := occ_mono (x := fun j => xs.getD j 0#64) (agree (c + 1) (xs.getD j 0#64)) hlo
    have ih := ih (c + 1) (by omega)
    cases hb : bit c (xs.getD j 0#64) with
    | true =>
      have m1 := occ_mono (x := fun j => xs.getD j 0#64) (fun b => agree (c + 1) (xs.getD j 0#64) b && bit c b) hlo
      have hs := n.select_one hj (agree_self _ _) hb
      rw [if_pos (hbk.1 hb), n.cnt_one (by omega), occ_child_one hb, occ_child_one hb]
      rw [show ∀ p q r : Nat, q ≤ r → p + q + (r - q + 1) = p + (r + 1) from fun p q r _ => by omega]
      · rw [hs, sbind, Nat.add_sub_add_left]; exact ih
      · exact m1
    | false =>
      have m1 := occ_mono (x := fun j => xs.getD j 0#64) (fun b => agree (c + 1) (xs.getD j 0#64) b && !bit c b) hlo
      have hs := n.select_zero hj (agree_self _ _) hb
      have hz := Bv.cnt_compl t.tree (off t (c + 1) (xs.getD j 0#64) + occ (fun j => xs.getD j 0#64) (agree (c + 1) (xs.getD j 0#64)) lo)
      have hz2 := n.cnt_zero (i := lo) (by omega)
      rw [if_neg (fun h3 => by rw [hbk.2 h3] at hb; simp at hb), occ_child_zero hb, occ_child_zero hb]
      have e : ∀ a b c d e f : Nat, e ≤ f → b + c = a → c = d + e → a - b + (f - e + 1) = d + (f + 1) := fun a b c d e f _ _ _ => by omega
      rw [e _ _ _ _ _ _ m1 hz hz2, hs, sbind, Nat.add_sub_add_left]; exact ih

theorem rangeLeaf_spec (h : WmOk t xs) {lo : Nat} (a : Word) : ∀ (d lb : Nat), lo ≤ lb → lb + d ≤ xs.length →
    rangeLeaf t (rups t xs lo a t.maxLevel 0) lo a.toNat (occ (fun j => xs.getD j 0#64) (fun b => b == a) (lb + d) - occ (fun j => xs.getD j 0#64) (fun b => b == a) lb)
      (occ (fun j => xs.getD j 0#64) (fun b => b == a) lb - occ (fun j => xs.getD j 0#64) (fun b => b == a) lo + 1) = some (pts (fun j => xs.getD j 0#64) lb (lb + d) a.toNat) := by
  intro d
  induction d with
  | zero =>
    intro lb _ _
    rw [Nat.add_zero, Nat.sub_self, rangeLeaf]
    simp [pts]
  | succ d ih =>
    intro lb hlo hl
    have hi := ih (lb + 1) (by omega) (by omega)
    have hm := occ_mono (x := fun j => xs.getD j 0#64) (fun b => b == a) (show lb + 1 ≤ lb + 1 + d by omega)
    have hm0 := occ_mono (x := fun j => xs.getD j 0#64) (fun b => b == a) hlo
    rw [show lb + (d + 1) = lb + 1 + d by omega]
    have hp : pts (fun j => xs.getD j 0#64) lb (lb + 1 + d) a.toNat =
        (if (xs.getD lb 0#64).toNat == a.toNat then [(lb, a.toNat)] else []) ++ pts (fun j => xs.getD j 0#64) (lb + 1) (lb + 1 + d) a.toNat := by
      unfold pts
      rw [show lb + 1 + d - lb = d + 1 by omega, show lb + 1 + d - (lb + 1) = d by omega, List.range'_succ, List.filter_cons]
      by_cases he : ((xs.getD lb 0#64).toNat == a.toNat) = true
      · rw [if_pos he, if_pos he]; rfl
      · rw [if_neg he, if_neg he]; rfl
    rw [hp]
    rw [occ_succ] at hi hm
    by_cases he : xs.getD lb 0#64 = a
    · have he2 : (xs.getD lb 0#64 == a) = true := by simpa using he
      have he3 : ((xs.getD lb 0#64).toNat == a.toNat) = true := by rw [he]; simp
      rw [he2] at hi hm
      rw [if_pos he3]
      simp only [Bool.toNat_true] at hi hm
      rw [show occ (fun j => xs.getD j 0#64) (fun b => b == a) (lb + 1 + d) - occ (fun j => xs.getD j 0#64) (fun b => b == a) lb =
        (occ (fun j => xs.getD j 0#64) (fun b => b == a) (lb + 1 + d) - (occ (fun j => xs.getD j 0#64) (fun b => b == a) lb + 1)) + 1 by omega]
      rw [rangeLeaf]
      have hu := rangeUp_spec h hlo (j := lb) (by omega) t.maxLevel 0 (by omega)
      rw [he, key_zero, agree_zero'] at hu
      rw [show occ (fun j => xs.getD j 0#64) (fun b => b == a) lb + 1 - occ (fun j => xs.getD j 0#64) (fun b => b == a) lo + 1 =
        occ (fun j => xs.getD j 0#64) (fun b => b == a) lb - occ (fun j => xs.getD j 0#64) (fun b => b == a) lo + 1 + 1 by omega] at hi
      rw [hu, sbind, hi, sbind, show lo + (lb - lo + 1) - 1 = lb by omega]; rfl
    · have he2 : (xs.getD lb 0#64 == a) = false := by simpa using he
      have he3 : ¬ ((xs.getD lb 0#64).toNat == a.toNat) = true := by
        simp only [beq_iff_eq]
        intro h3; exact he (BitVec.eq_of_toNat_eq h3)
      rw [he2] at hi hm
      rw [if_neg he3]
      simpa using hi

theorem rangeLoop_spec (h : WmOk t xs) (hne : xs ≠ []) (hn : xs.length < 2 ^ 64) (report : Bool) {lo re : Nat} (hlr : lo ≤ re) (hre : re ≤ xs.length) :
    ∀ (c k : Nat) (a : Word) (vlb vrb : Nat), c + k = t.maxLevel → a.toNat < 2 ^ t.maxLevel →
    occ (fun j => xs.getD j 0#64) (agree c a) lo < occ (fun j => xs.getD j 0#64) (agree c a) re → vlb < (key c a + 1) * 2 ^ c → key c a * 2 ^ c ≤ vrb → vlb ≤ vrb →
    rangeLoop t report lo (c + 1) (inode xs t.maxLevel (off t) c a) (rng (fun j => xs.getD j 0#64) (agree c a) lo re) vlb vrb (key c a * 2 ^ c) (rups t xs lo a k c) =
    some (if report then box (fun j => xs.getD j 0#64) lo re vlb vrb (vals c (key c a)) else [], (box (fun j => xs.getD j 0#64) lo re vlb vrb (vals c (key c a))).length) := by
  have F := h.fixed hne hn
  have hL := h.level
  intro c
  induction c with
  | zero =>
    intro k a vlb vrb hk ha hocc hv1 hv2 hv3
    have hkw : (BitVec.ofNat 64 (key 0 a)).toNat = a.toNat := by
      rw [key_zero, BitVec.toNat_ofNat, Nat.mod_eq_of_lt a.isLt]
    rw [rangeLoop, if_neg (by rw [rng_fst, rng_snd hn hre hocc]; omega), if_pos (by rw [inode]; dsimp only; omega)]
    rw [rng_size hn hlr hre, inode]
    dsimp only
    rw [hkw]
    rw [key_zero] at *
    have hbox : box (fun j => xs.getD j 0#64) lo re vlb vrb (vals 0 a.toNat) = pts (fun j => xs.getD j 0#64) lo re a.toNat := by
      rw [vals_zero, box, List.flatMap_cons, List.flatMap_nil, List.append_nil, if_pos (by rw [Nat.pow_zero] at *; omega)]
    rw [hbox]
    rw [agree_zero'] at *
    obtain ⟨d, rfl⟩ := Nat.exists_eq_add_of_le hlr
    have h1 := rangeLeaf_spec h a d lo (Nat.le_refl _) hre
    rw [Nat.sub_self] at h1
    rw [pts_length, show k = t.maxLevel by omega, h1]
    cases report <;> simp
  | succ c ih =>
    intro k a vlb vrb hk ha hocc hv1 hv2 hv3
    have n := h.node c (by omega) a
    have hx := expandRange_spec n hn hlr hre
    have g1 : (fun y => agree (c + 1) a y && !WtInt.bit c y) = agree c (child c a false) := by
      rw [F.agree_child' (by omega) ha]
      funext y; cases WtInt.bit c y <;> rfl
    have g2 : (fun y => agree (c + 1) a y && WtInt.bit c y) = agree c (child c a true) := by
      rw [F.agree_child' (by omega) ha]
      funext y; cases WtInt.bit c y <;> rfl
    rw [g1, g2] at hx
    have hex := F.expand (c := c) (a := a) (by omega) ha
    rw [rangeLoop, if_neg (by rw [rng_fst, rng_snd hn hre hocc]; omega), if_neg (by rw [inode]; dsimp only; omega)]
    have hoff : (inode xs t.maxLevel (off t) (c + 1) a).offset = off t (c + 1) a := rfl
    have hlev : (inode xs t.maxLevel (off t) (c + 1) a).level = t.maxLevel - (c + 1) := rfl
    rw [hoff, hlev, rng_fst, n.rank (by omega), sbind]
    dsimp only
    rw [show WmInt.expand t (inode xs t.maxLevel (off t) (c + 1) a) = _ from hex, sbind, hx, sbind]
    dsimp only
    have hk0 := child_key hL (by omega) ha false (c := c)
    have hk1 := child_key hL (by omega) ha true (c := c)
    have hks := fun b => child_key_succ hL (by omega) ha b (c := c)
    have hcl : ∀ b, (child c a b).toNat < 2 ^ t.maxLevel := fun b => F.child_lt (by omega) ha b
    have hmid : (key (c + 1) a * 2 ^ (c + 1) + 2 ^ (t.maxLevel - (t.maxLevel - (c + 1))) + key (c + 1) a * 2 ^ (c + 1)) / 2 = (2 * key (c + 1) a + 1) * 2 ^ c := by
      rw [show t.maxLevel - (t.maxLevel - (c + 1)) = c + 1 by omega, Nat.pow_succ, ← Nat.mul_assoc, Nat.add_mul, Nat.one_mul, Nat.mul_assoc 2]
      omega
    rw [hmid]
    have hil : key (c + 1) a * 2 ^ (c + 1) = key c (child c a false) * 2 ^ c := by
      rw [hk0, Nat.pow_succ, Bool.toNat_false, Nat.mul_comm (2 ^ c) 2, ← Nat.mul_assoc, Nat.mul_comm (key (c + 1) a) 2]; rfl
    have hml : (2 * key (c + 1) a + 1) * 2 ^ c = key c (child c a true) * 2 ^ c := by rw [hk1]; rfl
    have hmm : (key c (child c a false) + 1) * 2 ^ c = (2 * key (c + 1) a + 1) * 2 ^ c := by rw [hk0]; rfl
    have hir : (key (c + 1) a + 1) * 2 ^ (c + 1) = (key c (child c a true) + 1) * 2 ^ c := by
      rw [hk1, Nat.pow_succ, Bool.toNat_true, Nat.mul_comm (2 ^ c) 2, ← Nat.mul_assoc]
      congr 1; omega
    have hup : ∀ b, (off t (c + 1) a + occ (fun j => xs.getD j 0#64) (agree (c + 1) a) lo, Bv.cnt true t.tree (off t (c + 1) a) + occ (fun j => xs.getD j 0#64) (fun b => agree (c + 1) a b && bit c b) lo) ::
        rups t xs lo a k (c + 1) = rups t xs lo (child c a b) (k + 1) c := by
      intro b
      rw [rups, off_congr (by omega) (hks b).1.symm, agree_of_key (hks b).1.symm, rups_congr k (c + 1) (by omega) (hks b).1.symm]
      have := (h.node c (by omega) (child c a b)).cnt_one (i := lo) (by omega)
      rw [this]
    have hv : vals (c + 1) (key (c + 1) a) = vals c (key c (child c a false)) ++ vals c (key c (child c a true)) := by
      rw [vals_succ, hk0, hk1]; rfl
    have hb : box (fun j => xs.getD j 0#64) lo re vlb vrb (vals (c + 1) (key (c + 1) a)) = box (fun j => xs.getD j 0#64) lo re vlb vrb (vals c (key c (child c a false))) ++
        box (fun j => xs.getD j 0#64) lo re vlb vrb (vals c (key c (child c a true))) := by
      rw [hv, box, List.flatMap_append]; rfl
    have hmid0 : 0 < (2 * key (c + 1) a + 1) * 2 ^ c := Nat.mul_pos (by omega) (Nat.two_pow_pos c)
    have hv0 : ∀ v ∈ vals c (key c (child c a false)), v < (2 * key (c + 1) a + 1) * 2 ^ c := fun v hv => by rw [← hmm]; exact (mem_vals hv).2
    have hv1' : ∀ v ∈ vals c (key c (child c a true)), (2 * key (c + 1) a + 1) * 2 ^ c ≤ v := fun v hv => by rw [hml]; exact (mem_vals hv).1
    have m0 := occ_mono (x := fun j => xs.getD j 0#64) (agree c (child c a false)) hlr
    have m1 := occ_mono (x := fun j => xs.getD j 0#64) (agree c (child c a true)) hlr
    rw [rng_empty hn hlr hre, rng_empty hn hlr hre]
    have left : (if (!decide (occ (fun j => xs.getD j 0#64) (agree c (child c a false)) lo < occ (fun j => xs.getD j 0#64) (agree c (child c a false)) re)) = false ∧
          vlb < (2 * key (c + 1) a + 1) * 2 ^ c ∧ (2 * key (c + 1) a + 1) * 2 ^ c ≠ 0 then
        rangeLoop t report lo (c + 1) (inode xs t.maxLevel (off t) c (child c a false)) (rng (fun j => xs.getD j 0#64) (agree c (child c a false)) lo re) vlb
          (min vrb ((2 * key (c + 1) a + 1) * 2 ^ c - 1)) (key (c + 1) a * 2 ^ (c + 1))
          ((off t (c + 1) a + occ (fun j => xs.getD j 0#64) (agree (c + 1) a) lo, Bv.cnt true t.tree (off t (c + 1) a) + occ (fun j => xs.getD j 0#64) (fun b => agree (c + 1) a b && bit c b) lo) ::
            rups t xs lo a k (c + 1))
        else some ([], 0)) =
        some (if report then box (fun j => xs.getD j 0#64) lo re vlb vrb (vals c (key c (child c a false))) else [],
          (box (fun j => xs.getD j 0#64) lo re vlb vrb (vals c (key c (child c a false)))).length) := by
      by_cases ho : occ (fun j => xs.getD j 0#64) (agree c (child c a false)) lo < occ (fun j => xs.getD j 0#64) (agree c (child c a false)) re
      · by_cases hcond : vlb < (2 * key (c + 1) a + 1) * 2 ^ c
        · rw [if_pos ⟨by rw [decide_eq_true ho]; rfl, hcond, by omega⟩, hup false, hil]
          rw [ih (k + 1) (child c a false) vlb _ (by omega) (hcl _) ho (by rw [hmm]; exact hcond) (by have hp := Nat.two_pow_pos c; rw [hil] at hv2; rw [← hmm, Nat.add_mul, Nat.one_mul]; omega) (by omega)]
          rw [box_congr (vlb' := vlb) (vrb' := vrb)]
          intro v hv
          have := hv0 v hv
          omega
        · rw [if_neg (fun e => hcond e.2.1), box_out (fun v hv => by have := hv0 v hv; omega)]; simp
      · rw [if_neg (fun e => by have e1 := e.1; rw [Bool.not_eq_false', decide_eq_true_eq] at e1; exact ho e1), WtInt.box_none hlr (by omega)]; simp
    have right : (if (!decide (occ (fun j => xs.getD j 0#64) (agree c (child c a true)) lo < occ (fun j => xs.getD j 0#64) (agree c (child c a true)) re)) = false ∧
          vrb ≥ (2 * key (c + 1) a + 1) * 2 ^ c then
        rangeLoop t report lo (c + 1) (inode xs t.maxLevel (off t) c (child c a true)) (rng (fun j => xs.getD j 0#64) (agree c (child c a true)) lo re)
          (max ((2 * key (c + 1) a + 1) * 2 ^ c) vlb) vrb ((2 * key (c + 1) a + 1) * 2 ^ c)
          ((off t (c + 1) a + occ (fun j => xs.getD j 0#64) (agree (c + 1) a) lo, Bv.cnt true t.tree (off t (c + 1) a) + occ (fun j => xs.getD j 0#64) (fun b => agree (c + 1) a b && bit c b) lo) ::
            rups t xs lo a k (c + 1))
        else some ([], 0)) =
        some (if report then box (fun j => xs.getD j 0#64) lo re vlb vrb (vals c (key c (child c a true))) else [],
          (box (fun j => xs.getD j 0#64) lo re vlb vrb (vals c (key c (child c a true)))).length) := by
      by_cases ho : occ (fun j => xs.getD j 0#64) (agree c (child c a true)) lo < occ (fun j => xs.getD j 0#64) (agree c (child c a true)) re
      · by_cases hcond : vrb ≥ (2 * key (c + 1) a + 1) * 2 ^ c
        · have hp := Nat.two_pow_pos c
          rw [hir, Nat.add_mul, Nat.one_mul] at hv1
          rw [if_pos ⟨by rw [decide_eq_true ho]; rfl, hcond⟩, hup true]
          rw [hml] at hcond hv1' ⊢
          rw [ih (k + 1) (child c a true) _ _ (by omega) (hcl _) ho (by rw [Nat.add_mul, Nat.one_mul]; omega) hcond (by omega)]
          rw [box_congr (vlb' := vlb) (vrb' := vrb)]
          intro v hv
          have := hv1' v hv
          omega
        · rw [if_neg (fun e => hcond e.2), box_out (fun v hv => by have := hv1' v hv; omega)]; simp
      · rw [if_neg (fun e => by have e1 := e.1; rw [Bool.not_eq_false', decide_eq_true_eq] at e1; exact ho e1), WtInt.box_none hlr (by omega)]; simp
    rw [left, Option.bind_some, right, Option.bind_some, hb]
    cases report <;> simp

/-- `range_search_2d` for a lower value bound inside the alphabet. -/
theorem rangeSearch2d_spec (h : WmOk t xs) (hL : t.maxLevel ≤ 63) (hne : xs ≠ []) (hn : xs.length < 2 ^ 64) (report : Bool) {lb rb : Nat} (hlr : lb ≤ rb) (hrb : rb < xs.length) {vlb vrb : Word}
    (hv : vlb.toNat < 2 ^ t.maxLevel) :
    rangeSearch2d t lb rb vlb vrb report =
      some (if report then box (fun j => xs.getD j 0#64) lb (rb + 1) vlb.toNat vrb.toNat (List.range (2 ^ t.maxLevel)) else [],
        (box (fun j => xs.getD j 0#64) lb (rb + 1) vlb.toNat vrb.toNat (List.range (2 ^ t.maxLevel))).length) := by
  have F := h.fixed hne hn
  have htop : ∀ q, q ≤ xs.length → occ (fun j => xs.getD j 0#64) (agree t.maxLevel 0#64) q = q := fun q hq => h.occ_top (by exact Nat.two_pow_pos _) hq
  unfold rangeSearch2d
  rw [shl_of_lt (by omega), sbind]
  dsimp only
  have hl : (1#64 <<< t.maxLevel).toNat = 2 ^ t.maxLevel := one_shl_toNat (by omega)
  have hmin : (if vrb > 1#64 <<< t.maxLevel then 1#64 <<< t.maxLevel else vrb).toNat = min vrb.toNat (2 ^ t.maxLevel) := by
    by_cases hg : vrb > 1#64 <<< t.maxLevel
    · rw [if_pos hg, hl]
      have := BitVec.lt_def.1 hg
      omega
    · rw [if_neg hg]
      have : ¬ (1#64 <<< t.maxLevel).toNat < vrb.toNat := fun h2 => hg (BitVec.lt_def.2 h2)
      omega
  have hbox : ∀ w, w = min vrb.toNat (2 ^ t.maxLevel) → box (fun j => xs.getD j 0#64) lb (rb + 1) vlb.toNat vrb.toNat (List.range (2 ^ t.maxLevel)) =
      box (fun j => xs.getD j 0#64) lb (rb + 1) vlb.toNat w (List.range (2 ^ t.maxLevel)) := by
    intro w hw
    apply box_congr
    intro v hv
    have : v < 2 ^ t.maxLevel := by simpa using hv
    omega
  generalize hW : (if vrb > 1#64 <<< t.maxLevel then 1#64 <<< t.maxLevel else vrb) = W at *
  rw [hbox _ hmin]
  by_cases hgt : vlb > W
  · rw [if_pos hgt]
    have := BitVec.lt_def.1 hgt
    rw [box_out (fun v _ => by omega)]; simp
  · rw [if_neg hgt, if_pos hlr]
    have hle : vlb.toNat ≤ W.toNat := by
      have : ¬ W.toNat < vlb.toNat := fun h2 => hgt (BitVec.lt_def.2 h2)
      omega
    have hz : (0#64 : Word).toNat < 2 ^ t.maxLevel := Nat.two_pow_pos _
    have := rangeLoop_spec h hne hn report (lo := lb) (re := rb + 1) (by omega) (by omega) t.maxLevel 0 0#64 vlb.toNat W.toNat (by omega) hz
      (by rw [htop _ (by omega), htop _ (by omega)]; omega) (by rw [key_top hz]; omega) (by rw [key_top hz]; omega) hle
    rw [← F.root_inode hz, rng, htop lb (by omega), htop (rb + 1) (by omega), ← Range.eq_mk hlr (by omega), key_top hz, vals_top, Nat.zero_mul, rups] at this
    exact this

end range

end Sdsl.Wt.WmInt
