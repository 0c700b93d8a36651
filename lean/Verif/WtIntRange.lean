/-
  `wt_int::range_search_2d`.
-/
import Verif.WtIntMore

namespace Sdsl.Wt.WtInt

open Spec Bits

/-- The points with symbol `v` and index in `[lb..re-1]`. -/
def pts (x : Nat → Word) (lb re v : Nat) : List (Nat × Nat) := ((List.range' lb (re - lb)).filter (fun q => (x q).toNat == v)).map (fun q => (q, v))

/-- The points with symbol in `[vlb..vrb]` among the values `vs`. -/
def box (x : Nat → Word) (lb re vlb vrb : Nat) (vs : List Nat) : List (Nat × Nat) := vs.flatMap (fun v => if vlb ≤ v ∧ v ≤ vrb then pts x lb re v else [])

theorem key_succ_div (c : Nat) (a : Word) : key (c + 1) a = key c a / 2 := by
  unfold key
  rw [Nat.pow_succ, Nat.div_div_eq_div_mul]

section range

variable {t : WtInt} {xs : List Word}

theorem ups_congr {a b : Word} : ∀ (k c : Nat), key c a = key c b → ups t xs a k c = ups t xs b k c := by
  intro k
  induction k with
  | zero => intro c _; rfl
  | succ k ih =>
    intro c h
    have h2 : key (c + 1) a = key (c + 1) b := by rw [key_succ_div, key_succ_div, h]
    rw [ups, ups, ih (c + 1) h2, off_of_key h2]

theorem bit_key (c : Nat) (a : Word) : bit c a = true ↔ key c a % 2 = 1 := by
  rw [key_succ]
  cases bit c a <;> simp <;> omega

theorem rangeUp_spec (h : WtOk t xs) {j : Nat} (hj : j < xs.length) : ∀ (k c : Nat), c + k = t.maxLevel →
    rangeUp t (ups t xs (xs.getD j 0#64) k c) (key c (xs.getD j 0#64)) (occ (fun j => xs.getD j 0#64) (agree c (xs.getD j 0#64)) j + 1) = some (j + 1) := by
  intro k
  induction k with
  | zero =>
    intro c hc
    rw [ups, rangeUp, show c = t.maxLevel by omega, h.occ_top (h.mem_lt hj) (by omega)]
  | succ k ih =>
    intro c hc
    rw [ups, rangeUp, ← key_succ_div]
    have hbk := bit_key c (xs.getD j 0#64)
    cases hb : bit c (xs.getD j 0#64) with
    | true =>
      rw [if_pos (hbk.1 hb), up_one h (by omega) hj (agree_self _ _) rfl hb, sbind, Nat.add_sub_cancel_left]
      exact ih (c + 1) (by omega)
    | false =>
      rw [if_neg (fun h3 => by rw [hbk.2 h3] at hb; simp at hb), up_zero h (by omega) hj (agree_self _ _) rfl hb, sbind, Nat.add_sub_cancel_left]
      exact ih (c + 1) (by omega)

theorem rangeLeaf_spec (h : WtOk t xs) (a : Word) : ∀ (d lb : Nat), lb + d ≤ xs.length →
    rangeLeaf t (ups t xs a t.maxLevel 0) a.toNat (occ (fun j => xs.getD j 0#64) (fun b => b == a) (lb + d) - occ (fun j => xs.getD j 0#64) (fun b => b == a) lb)
      (occ (fun j => xs.getD j 0#64) (fun b => b == a) lb + 1) = some (pts (fun j => xs.getD j 0#64) lb (lb + d) a.toNat) := by
  intro d
  induction d with
  | zero =>
    intro lb _
    rw [Nat.add_zero, Nat.sub_self, rangeLeaf]
    simp [pts]
  | succ d ih =>
    intro lb hl
    have hi := ih (lb + 1) (by omega)
    have hm := occ_mono (x := fun j => xs.getD j 0#64) (fun b => b == a) (show lb + 1 ≤ lb + 1 + d by omega)
    rw [show lb + (d + 1) = lb + 1 + d by omega]
    have hp : pts (fun j => xs.getD j 0#64) lb (lb + 1 + d) a.toNat =
        (if (xs.getD lb 0#64).toNat == a.toNat then [(lb, a.toNat)] else []) ++ pts (fun j => xs.getD j 0#64) (lb + 1) (lb + 1 + d) a.toNat := by
      unfold pts
      rw [show lb + 1 + d - lb = d + 1 by omega, show lb + 1 + d - (lb + 1) = d by omega, List.range'_succ, List.filter_cons]
      by_cases he : ((xs.getD lb 0#64).toNat == a.toNat) = true
      · rw [if_pos he, if_pos he]; rfl
      · rw [if_neg he, if_neg he]; rfl
    rw [hp]
    rw [occ_succ] at hi hm
    by_cases he : xs.getD lb 0#64 = a
    · have he2 : (xs.getD lb 0#64 == a) = true := by simpa using he
      have he3 : ((xs.getD lb 0#64).toNat == a.toNat) = true := by rw [he]; simp
      rw [he2] at hi hm
      rw [if_pos he3]
      simp only [Bool.toNat_true] at hi hm
      rw [show occ (fun j => xs.getD j 0#64) (fun b => b == a) (lb + 1 + d) - occ (fun j => xs.getD j 0#64) (fun b => b == a) lb =
        (occ (fun j => xs.getD j 0#64) (fun b => b == a) (lb + 1 + d) - (occ (fun j => xs.getD j 0#64) (fun b => b == a) lb + 1)) + 1 by omega]
      rw [rangeLeaf]
      have hu := rangeUp_spec h (j := lb) (by omega) t.maxLevel 0 (by omega)
      rw [he, key_zero, agree_zero'] at hu
      rw [hu, sbind, hi, sbind]; rfl
    · have he2 : (xs.getD lb 0#64 == a) = false := by simpa using he
      have he3 : ¬ ((xs.getD lb 0#64).toNat == a.toNat) = true := by
        simp only [beq_iff_eq]
        intro h3; exact he (BitVec.eq_of_toNat_eq h3)
      rw [he2] at hi hm
      rw [if_neg he3]
      simpa using hi

theorem pts_length (x : Nat → Word) (a : Word) : ∀ (d lb : Nat), (pts x lb (lb + d) a.toNat).length = occ x (fun b => b == a) (lb + d) - occ x (fun b => b == a) lb := by
  intro d
  induction d with
  | zero => intro lb; simp [pts]
  | succ d ih =>
    intro lb
    have hi := ih (lb + 1)
    have hm := occ_mono (x := x) (fun b => b == a) (show lb + 1 ≤ lb + 1 + d by omega)
    rw [show lb + (d + 1) = lb + 1 + d by omega]
    have hp : pts x lb (lb + 1 + d) a.toNat = (if (x lb).toNat == a.toNat then [(lb, a.toNat)] else []) ++ pts x (lb + 1) (lb + 1 + d) a.toNat := by
      unfold pts
      rw [show lb + 1 + d - lb = d + 1 by omega, show lb + 1 + d - (lb + 1) = d by omega, List.range'_succ, List.filter_cons]
      by_cases he : ((x lb).toNat == a.toNat) = true
      · rw [if_pos he, if_pos he]; rfl
      · rw [if_neg he, if_neg he]; rfl
    rw [hp, List.length_append, hi]
    rw [occ_succ] at hm ⊢
    have : ((x lb).toNat == a.toNat) = (x lb == a) := by
      rw [Bool.eq_iff_iff]; simp only [beq_iff_eq]; exact BitVec.toNat_inj
    rw [this]
    cases hb : (x lb == a) <;> rw [hb] at hm <;> simp at hm ⊢ <;> omega

/-- No points when the node has none of the interval. -/
theorem box_none {x : Nat → Word} {lb re : Nat} (hlr : lb ≤ re) {c : Nat} {a : Word} (h : occ x (agree c a) lb = occ x (agree c a) re) (vlb vrb : Nat) :
    box x lb re vlb vrb (vals c (key c a)) = [] := by
  unfold box
  rw [List.flatMap_eq_nil_iff]
  intro v hv
  split
  · unfold pts
    rw [List.map_eq_nil_iff, List.filter_eq_nil_iff]
    intro q hq
    have hq := List.mem_range'_1.1 hq
    have h3 := (occ_eq_iff hlr).1 h q hq.1 (by omega)
    simp only [beq_iff_eq]
    intro he
    simp only [agree, beq_eq_false_iff_ne] at h3
    apply h3
    unfold vals at hv
    obtain ⟨d, hd, hd2⟩ := List.mem_map.1 hv
    have hd : d < 2 ^ c := by simpa using hd
    rw [← he] at hd2
    generalize key c a = p at *
    unfold key
    rw [← hd2, Nat.mul_comm, Nat.mul_add_div (Nat.two_pow_pos c), Nat.div_eq_of_lt hd, Nat.add_zero]
  · rfl

theorem mem_vals {c p v : Nat} (h : v ∈ vals c p) : p * 2 ^ c ≤ v ∧ v < (p + 1) * 2 ^ c := by
  unfold vals at h
  obtain ⟨d, hd, rfl⟩ := List.mem_map.1 h
  have hd : d < 2 ^ c := by simpa using hd
  rw [Nat.add_mul]; omega

theorem box_congr {x : Nat → Word} {lb re vlb vrb vlb' vrb' : Nat} {vs : List Nat} (h : ∀ v ∈ vs, (vlb ≤ v ∧ v ≤ vrb) ↔ (vlb' ≤ v ∧ v ≤ vrb')) :
    box x lb re vlb vrb vs = box x lb re vlb' vrb' vs := by
  induction vs with
  | nil => rfl
  | cons v vs ih =>
    unfold box at ih ⊢
    rw [List.flatMap_cons, List.flatMap_cons, ih (fun w hw => h w (List.mem_cons_of_mem _ hw))]
    congr 1
    have := h v (by simp)
    by_cases h1 : vlb ≤ v ∧ v ≤ vrb
    · rw [if_pos h1, if_pos (this.1 h1)]
    · rw [if_neg h1, if_neg (fun h2 => h1 (this.2 h2))]

theorem box_out {x : Nat → Word} {lb re vlb vrb : Nat} {vs : List Nat} (h : ∀ v ∈ vs, ¬ (vlb ≤ v ∧ v ≤ vrb)) : box x lb re vlb vrb vs = [] := by
  unfold box
  rw [List.flatMap_eq_nil_iff]
  intro v hv
  rw [if_neg (h v hv)]

theorem rangeLoop_spec (h : WtOk t xs) (report : Bool) {lo re : Nat} (hlr : lo ≤ re) (hre : re ≤ xs.length) : ∀ (c k : Nat) (a : Word) (rb vlb vrb : Nat), c + k = t.maxLevel →
    a.toNat < 2 ^ t.maxLevel → rb + 1 = occ (fun j => xs.getD j 0#64) (agree c a) re → vlb < (key c a + 1) * 2 ^ c → key c a * 2 ^ c ≤ vrb → vlb ≤ vrb →
    rangeLoop t report c (occ (fun j => xs.getD j 0#64) (agree c a) lo) rb vlb vrb (key c a * 2 ^ c) (occ (fun j => xs.getD j 0#64) (agree c a) xs.length)
      (off t.maxLevel xs c a) (key c a) (ups t xs a k c) =
    some (if report then box (fun j => xs.getD j 0#64) lo re vlb vrb (vals c (key c a)) else [], (box (fun j => xs.getD j 0#64) lo re vlb vrb (vals c (key c a))).length) := by
  intro c
  induction c with
  | zero =>
    intro k a rb vlb vrb hk ha hrb hv1 hv2 hv3
    rw [rangeLoop]
    have hm := occ_mono (x := fun j => xs.getD j 0#64) (agree 0 a) hlr
    by_cases hgt : occ (fun j => xs.getD j 0#64) (agree 0 a) lo > rb
    · rw [if_pos hgt, box_none hlr (by omega)]; simp
    · rw [if_neg hgt]
      rw [key_zero] at *
      have hbox : box (fun j => xs.getD j 0#64) lo re vlb vrb (vals 0 a.toNat) = pts (fun j => xs.getD j 0#64) lo re a.toNat := by
        rw [vals_zero, box, List.flatMap_cons, List.flatMap_nil, List.append_nil, if_pos (by rw [Nat.pow_zero] at *; omega)]
      rw [hbox]
      rw [agree_zero'] at *
      obtain ⟨d, rfl⟩ := Nat.exists_eq_add_of_le hlr
      have h1 := rangeLeaf_spec h a d lo hre
      rw [pts_length]
      rw [show k = t.maxLevel by omega, show rb + 1 - occ (fun j => xs.getD j 0#64) (fun b => b == a) lo =
        occ (fun j => xs.getD j 0#64) (fun b => b == a) (lo + d) - occ (fun j => xs.getD j 0#64) (fun b => b == a) lo by omega, h1]
      rw [show rb - occ (fun j => xs.getD j 0#64) (fun b => b == a) lo + 1 =
        occ (fun j => xs.getD j 0#64) (fun b => b == a) (lo + d) - occ (fun j => xs.getD j 0#64) (fun b => b == a) lo by omega]
      cases report <;> simp
  | succ c ih =>
    intro k a rb vlb vrb hk ha hrb hv1 hv2 hv3
    rw [rangeLoop]
    have hm := occ_mono (x := fun j => xs.getD j 0#64) (agree (c + 1) a) hlr
    by_cases hgt : occ (fun j => xs.getD j 0#64) (agree (c + 1) a) lo > rb
    · rw [if_pos hgt, box_none hlr (by omega)]; simp
    rw [if_neg hgt]
    have hL := h.level
    obtain ⟨h1, h2⟩ := h.ranks (c := c) (by omega) a
    dsimp only
    rw [h1, sbind, h2 lo (by omega), sbind]
    rw [Nat.add_assoc (off t.maxLevel xs (c + 1) a) rb 1, hrb, h2 re hre, sbind, h2 xs.length (Nat.le_refl _), sbind]
    have hk0 := child_key (L := t.maxLevel) (by omega) (by omega) ha false (c := c)
    have hk1 := child_key (L := t.maxLevel) (by omega) (by omega) ha true (c := c)
    have hks := fun b => child_key_succ (L := t.maxLevel) (by omega) (by omega) ha b (c := c)
    have hcl : ∀ b, (child c a b).toNat < 2 ^ t.maxLevel := fun b => by
      rw [child_toNat (L := t.maxLevel) (by omega) (by omega) ha]; exact child_lt (by omega) ha b
    have hag : ∀ b, agree (c + 1) a = agree (c + 1) (child c a b) := fun b => agree_of_key (hks b).1.symm
    have e0 : ∀ q, occ (fun j => xs.getD j 0#64) (agree (c + 1) a) q - occ (fun j => xs.getD j 0#64) (fun b => agree (c + 1) a b && bit c b) q =
        occ (fun j => xs.getD j 0#64) (agree c (child c a false)) q := fun q => by rw [hag false]; exact sub_ones (hks false).2 q
    have e1 : ∀ q, occ (fun j => xs.getD j 0#64) (fun b => agree (c + 1) a b && bit c b) q = occ (fun j => xs.getD j 0#64) (agree c (child c a true)) q := fun q => by
      rw [hag true]; exact (occ_child_one (hks true).2 q).symm
    have o0 : off t.maxLevel xs (c + 1) a + t.size = off t.maxLevel xs c (child c a false) := by
      rw [off_of_key (hks false).1.symm]; exact step_zero h (by omega) (hks false).2
    have o1 : off t.maxLevel xs (c + 1) a + (occ (fun j => xs.getD j 0#64) (agree (c + 1) a) xs.length -
        occ (fun j => xs.getD j 0#64) (fun b => agree (c + 1) a b && bit c b) xs.length) + t.size = off t.maxLevel xs c (child c a true) := by
      rw [off_of_key (hks true).1.symm, hag true]; exact step_one h (by omega) (hks true).2
    rw [e0] at o1
    have hz : ∀ q, off t.maxLevel xs (c + 1) a + occ (fun j => xs.getD j 0#64) (agree (c + 1) a) q -
        (Bv.cnt true t.tree (off t.maxLevel xs (c + 1) a) + occ (fun j => xs.getD j 0#64) (fun b => agree (c + 1) a b && bit c b) q) -
        (off t.maxLevel xs (c + 1) a - Bv.cnt true t.tree (off t.maxLevel xs (c + 1) a)) = occ (fun j => xs.getD j 0#64) (agree c (child c a false)) q := by
      intro q
      have h3 := Bv.cnt_compl t.tree (off t.maxLevel xs (c + 1) a)
      have h4 := occ_split (x := fun j => xs.getD j 0#64) (agree (c + 1) a) (bit c) q
      have h5 := e0 q
      omega
    rw [hz, hz, hz]
    simp only [Nat.add_sub_cancel_left]
    rw [e1, e1, e1, o0]
    rw [show off t.maxLevel xs c (child c a false) + occ (fun j => xs.getD j 0#64) (agree c (child c a false)) xs.length = off t.maxLevel xs c (child c a true) by
      rw [← o0, ← o1]; omega]
    have hmid : (key (c + 1) a * 2 ^ (c + 1) + 2 ^ (c + 1) + key (c + 1) a * 2 ^ (c + 1)) / 2 = (2 * key (c + 1) a + 1) * 2 ^ c := by
      rw [Nat.pow_succ, ← Nat.mul_assoc, Nat.add_mul, Nat.one_mul, Nat.mul_assoc 2]
      omega
    rw [hmid]
    have hil : key (c + 1) a * 2 ^ (c + 1) = key c (child c a false) * 2 ^ c := by
      rw [hk0, Nat.pow_succ, Bool.toNat_false, Nat.mul_comm (2 ^ c) 2, ← Nat.mul_assoc, Nat.mul_comm (key (c + 1) a) 2]; rfl
    have hml : (2 * key (c + 1) a + 1) * 2 ^ c = key c (child c a true) * 2 ^ c := by rw [hk1]; rfl
    have hmm : (key c (child c a false) + 1) * 2 ^ c = (2 * key (c + 1) a + 1) * 2 ^ c := by rw [hk0]; rfl
    have hir : (key (c + 1) a + 1) * 2 ^ (c + 1) = (key c (child c a true) + 1) * 2 ^ c := by
      rw [hk1, Nat.pow_succ, Bool.toNat_true, Nat.mul_comm (2 ^ c) 2, ← Nat.mul_assoc]
      congr 1; omega
    have hup : ∀ b, (off t.maxLevel xs (c + 1) a, Bv.cnt true t.tree (off t.maxLevel xs (c + 1) a)) :: ups t xs a k (c + 1) = ups t xs (child c a b) (k + 1) c := by
      intro b
      rw [ups, off_of_key (hks b).1.symm, ups_congr k (c + 1) (hks b).1.symm]
    have hsy0 : 2 * key (c + 1) a = key c (child c a false) := by rw [hk0]; rfl
    have hsy1 : 2 * key (c + 1) a + 1 = key c (child c a true) := by rw [hk1]; rfl
    have hv : vals (c + 1) (key (c + 1) a) = vals c (key c (child c a false)) ++ vals c (key c (child c a true)) := by
      rw [vals_succ, hsy1, hsy0]
    have hb : box (fun j => xs.getD j 0#64) lo re vlb vrb (vals (c + 1) (key (c + 1) a)) = box (fun j => xs.getD j 0#64) lo re vlb vrb (vals c (key c (child c a false))) ++
        box (fun j => xs.getD j 0#64) lo re vlb vrb (vals c (key c (child c a true))) := by
      rw [hv, box, List.flatMap_append]; rfl
    have hmid0 : 0 < (2 * key (c + 1) a + 1) * 2 ^ c := Nat.mul_pos (by omega) (Nat.two_pow_pos c)
    have hv0 : ∀ v ∈ vals c (key c (child c a false)), v < (2 * key (c + 1) a + 1) * 2 ^ c := fun v hv => by rw [← hmm]; exact (mem_vals hv).2
    have hv1' : ∀ v ∈ vals c (key c (child c a true)), (2 * key (c + 1) a + 1) * 2 ^ c ≤ v := fun v hv => by rw [hml]; exact (mem_vals hv).1
    have m0 := occ_mono (x := fun j => xs.getD j 0#64) (agree c (child c a false)) hlr
    have m1 := occ_mono (x := fun j => xs.getD j 0#64) (agree c (child c a true)) hlr
    have left : (if vlb < (2 * key (c + 1) a + 1) * 2 ^ c ∧ (2 * key (c + 1) a + 1) * 2 ^ c ≠ 0 ∧ occ (fun j => xs.getD j 0#64) (agree c (child c a false)) re ≠ 0 then
        rangeLoop t report c (occ (fun j => xs.getD j 0#64) (agree c (child c a false)) lo) (occ (fun j => xs.getD j 0#64) (agree c (child c a false)) re - 1) vlb
          (min vrb ((2 * key (c + 1) a + 1) * 2 ^ c - 1)) (key (c + 1) a * 2 ^ (c + 1)) (occ (fun j => xs.getD j 0#64) (agree c (child c a false)) xs.length)
          (off t.maxLevel xs c (child c a false)) (2 * key (c + 1) a) ((off t.maxLevel xs (c + 1) a, Bv.cnt true t.tree (off t.maxLevel xs (c + 1) a)) :: ups t xs a k (c + 1))
        else some ([], 0)) =
        some (if report then box (fun j => xs.getD j 0#64) lo re vlb vrb (vals c (key c (child c a false))) else [],
          (box (fun j => xs.getD j 0#64) lo re vlb vrb (vals c (key c (child c a false)))).length) := by
      by_cases hcond : vlb < (2 * key (c + 1) a + 1) * 2 ^ c ∧ (2 * key (c + 1) a + 1) * 2 ^ c ≠ 0 ∧ occ (fun j => xs.getD j 0#64) (agree c (child c a false)) re ≠ 0
      · rw [if_pos hcond, hsy0, hup false, hil]
        rw [ih (k + 1) (child c a false) _ vlb _ (by omega) (hcl _) (by omega) (by rw [hmm]; exact hcond.1) (by have hp := Nat.two_pow_pos c; rw [hil] at hv2; rw [Nat.add_mul, Nat.one_mul]; omega) (by rw [hmm]; omega)]
        rw [box_congr (vlb' := vlb) (vrb' := vrb)]
        intro v hv
        have := hv0 v hv
        omega
      · rw [if_neg hcond]
        have : box (fun j => xs.getD j 0#64) lo re vlb vrb (vals c (key c (child c a false))) = [] := by
          by_cases hz0 : occ (fun j => xs.getD j 0#64) (agree c (child c a false)) re = 0
          · exact box_none hlr (by omega) _ _
          · apply box_out
            intro v hv
            have := hv0 v hv
            omega
        rw [this]; simp
    have right : (if vrb ≥ (2 * key (c + 1) a + 1) * 2 ^ c ∧ occ (fun j => xs.getD j 0#64) (agree c (child c a true)) re ≠ 0 then
        rangeLoop t report c (occ (fun j => xs.getD j 0#64) (agree c (child c a true)) lo) (occ (fun j => xs.getD j 0#64) (agree c (child c a true)) re - 1)
          (max ((2 * key (c + 1) a + 1) * 2 ^ c) vlb) vrb ((2 * key (c + 1) a + 1) * 2 ^ c) (occ (fun j => xs.getD j 0#64) (agree c (child c a true)) xs.length)
          (off t.maxLevel xs c (child c a true)) (2 * key (c + 1) a + 1) ((off t.maxLevel xs (c + 1) a, Bv.cnt true t.tree (off t.maxLevel xs (c + 1) a)) :: ups t xs a k (c + 1))
        else some ([], 0)) =
        some (if report then box (fun j => xs.getD j 0#64) lo re vlb vrb (vals c (key c (child c a true))) else [],
          (box (fun j => xs.getD j 0#64) lo re vlb vrb (vals c (key c (child c a true)))).length) := by
      by_cases hcond : vrb ≥ (2 * key (c + 1) a + 1) * 2 ^ c ∧ occ (fun j => xs.getD j 0#64) (agree c (child c a true)) re ≠ 0
      · have hp := Nat.two_pow_pos c
        rw [hir, Nat.add_mul, Nat.one_mul] at hv1
        rw [if_pos hcond, hup true, hsy1]
        rw [hml] at hcond hv1'
        rw [ih (k + 1) (child c a true) _ _ _ (by omega) (hcl _) (by omega) (by rw [Nat.add_mul, Nat.one_mul]; omega) hcond.1 (by omega)]
        rw [box_congr (vlb' := vlb) (vrb' := vrb)]
        intro v hv
        have := hv1' v hv
        omega
      · rw [if_neg hcond]
        have : box (fun j => xs.getD j 0#64) lo re vlb vrb (vals c (key c (child c a true))) = [] := by
          by_cases hz0 : occ (fun j => xs.getD j 0#64) (agree c (child c a true)) re = 0
          · exact box_none hlr (by omega) _ _
          · apply box_out
            intro v hv
            have := hv1' v hv
            omega
        rw [this]; simp
    rw [left, Option.bind_some, right, Option.bind_some, hb]
    cases report <;> simp

/-- `range_search_2d` for a lower value bound inside the alphabet. -/
theorem rangeSearch2d_spec (h : WtOk t xs) (report : Bool) {lb rb : Nat} (hlr : lb ≤ rb) (hrb : rb < xs.length) {vlb vrb : Word} (hv : vlb.toNat < 2 ^ t.maxLevel) :
    rangeSearch2d t lb rb vlb vrb report =
      some (if report then box (fun j => xs.getD j 0#64) lb (rb + 1) vlb.toNat vrb.toNat (List.range (2 ^ t.maxLevel)) else [],
        (box (fun j => xs.getD j 0#64) lb (rb + 1) vlb.toNat vrb.toNat (List.range (2 ^ t.maxLevel))).length) := by
  have hL := h.level
  have h1 := limit_spec h
  have htop : ∀ q, q ≤ xs.length → occ (fun j => xs.getD j 0#64) (agree t.maxLevel 0#64) q = q := fun q hq => h.occ_top (by exact Nat.two_pow_pos _) hq
  unfold rangeSearch2d
  rw [h1.1, sbind]
  dsimp only
  have hl : (1#64 <<< t.maxLevel).toNat = 2 ^ t.maxLevel := one_shl_toNat (by omega)
  have hmin : (if vrb > 1#64 <<< t.maxLevel then 1#64 <<< t.maxLevel else vrb).toNat = min vrb.toNat (2 ^ t.maxLevel) := by
    by_cases hg : vrb > 1#64 <<< t.maxLevel
    · rw [if_pos hg, hl]
      have := BitVec.lt_def.1 hg
      omega
    · rw [if_neg hg]
      have : ¬ (1#64 <<< t.maxLevel).toNat < vrb.toNat := fun h2 => hg (BitVec.lt_def.2 h2)
      omega
  have hbox : ∀ w, w = min vrb.toNat (2 ^ t.maxLevel) → box (fun j => xs.getD j 0#64) lb (rb + 1) vlb.toNat vrb.toNat (List.range (2 ^ t.maxLevel)) =
      box (fun j => xs.getD j 0#64) lb (rb + 1) vlb.toNat w (List.range (2 ^ t.maxLevel)) := by
    intro w hw
    apply box_congr
    intro v hv
    have : v < 2 ^ t.maxLevel := by simpa using hv
    omega
  generalize hW : (if vrb > 1#64 <<< t.maxLevel then 1#64 <<< t.maxLevel else vrb) = W at *
  rw [hbox _ hmin]
  by_cases hgt : vlb > W
  · rw [if_pos hgt]
    have := BitVec.lt_def.1 hgt
    rw [box_out (fun v _ => by omega)]; simp
  · rw [if_neg hgt]
    have hle : vlb.toNat ≤ W.toNat := by
      have : ¬ W.toNat < vlb.toNat := fun h2 => hgt (BitVec.lt_def.2 h2)
      omega
    have := rangeLoop_spec h report (lo := lb) (re := rb + 1) (by omega) (by omega) t.maxLevel 0 0#64 rb vlb.toNat W.toNat (by omega) (by exact Nat.two_pow_pos _)
      (by rw [htop _ (by omega)]) (by rw [key_top (by exact Nat.two_pow_pos _)]; omega) (by rw [key_top (by exact Nat.two_pow_pos _)]; omega) hle
    rw [htop lb (by omega), htop xs.length (Nat.le_refl _), h.off_top (by exact Nat.two_pow_pos _), key_top (by exact Nat.two_pow_pos _), vals_top, Nat.zero_mul, ups] at this
    rw [h.size]; exact this

end range

end Sdsl.Wt.WtInt
