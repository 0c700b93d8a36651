/-
  `hyb_vector`: the constructor.
-/
import Verif.HybBlock

namespace Sdsl.Hyb

open Bits Spec

/-- The bits of the vector, followed by zeros. -/
def pb (v : IntVec) (i : Nat) : Bool := decide (i < v.size) && bitAt v.data i

/-- Number of ones in front of block `b`. -/
def R (v : IntVec) (b : Nat) : Nat := countTrue (pb v) (256 * b)

/-- Number of bytes in front of the encoding of block `b`. -/
def T (v : IntVec) : Nat → Nat
  | 0 => 0
  | b + 1 => T v b + esz (blk v b)

theorem R_add (v : IntVec) (b j : Nat) : countTrue (pb v) (256 * b + j) = R v b + countTrue (blk v b) j := by
  rw [countTrue_add]; rfl

theorem R_succ (v : IntVec) (b : Nat) : R v (b + 1) = R v b + countTrue (blk v b) 256 := by
  rw [← R_add, R, Nat.mul_succ]

theorem esz_le (f : Nat → Bool) : esz f ≤ 32 := by unfold esz encSize; omega

theorem T_add (v : IntVec) (a : Nat) : ∀ n, T v a ≤ T v (a + n) ∧ T v (a + n) ≤ T v a + 32 * n
  | 0 => ⟨Nat.le_refl _, Nat.le_refl _⟩
  | n + 1 => by
    have h := T_add v a n
    have := esz_le (blk v (a + n))
    rw [← Nat.add_assoc, T]
    omega

theorem R_addn (v : IntVec) (a : Nat) : ∀ n, R v a ≤ R v (a + n) ∧ R v (a + n) ≤ R v a + 256 * n
  | 0 => ⟨Nat.le_refl _, Nat.le_refl _⟩
  | n + 1 => by
    have h := R_addn v a n
    have := countTrue_le (blk v (a + n)) 256
    rw [← Nat.add_assoc, R_succ]
    omega

theorem T_mono (v : IntVec) {a b : Nat} (h : a ≤ b) : T v a ≤ T v b := by
  have := (T_add v a (b - a)).1
  rwa [Nat.add_sub_cancel' h] at this

theorem T_diff (v : IntVec) {a b : Nat} (h : a ≤ b) : T v b ≤ T v a + 32 * (b - a) := by
  have := (T_add v a (b - a)).2
  rwa [Nat.add_sub_cancel' h] at this

theorem R_mono (v : IntVec) {a b : Nat} (h : a ≤ b) : R v a ≤ R v b := by
  have := (R_addn v a (b - a)).1
  rwa [Nat.add_sub_cancel' h] at this

theorem R_diff (v : IntVec) {a b : Nat} (h : a ≤ b) : R v b ≤ R v a + 256 * (b - a) := by
  have := (R_addn v a (b - a)).2
  rwa [Nat.add_sub_cancel' h] at this

theorem T_le_ones (v : IntVec) : ∀ b, T v b ≤ R v b
  | 0 => Nat.zero_le _
  | b + 1 => by
    have := T_le_ones v b
    have : esz (blk v b) ≤ countTrue (blk v b) 256 := by unfold esz encSize; omega
    rw [T, R_succ]; omega

theorem T_le_zeros (v : IntVec) : ∀ b, T v b + R v b ≤ 256 * b
  | 0 => Nat.zero_le _
  | b + 1 => by
    have := T_le_zeros v b
    have := countTrue_le (blk v b) 256
    have : esz (blk v b) ≤ 256 - countTrue (blk v b) 256 := by unfold esz encSize; omega
    rw [T, R_succ]; omega

theorem T_le_runs (v : IntVec) : ∀ b, T v b ≤ countTrue (chg (pb v)) (256 * b)
  | 0 => Nat.zero_le _
  | b + 1 => by
    have := T_le_runs v b
    have h : esz (blk v b) ≤ countTrue (chg (blk v b)) 255 := by unfold esz encSize; omega
    have h2 := countTrue_add (chg (pb v)) (256 * b) 255
    have h3 := countTrue_mono (chg (pb v)) (show 256 * b + 255 ≤ 256 * (b + 1) by omega)
    have h4 : countTrue (fun i => chg (pb v) (256 * b + i)) 255 = countTrue (chg (blk v b)) 255 := rfl
    rw [T]; omega

theorem sizeLoop_spec {tab : Nat → Option Nat} (ht : TabOk tab) {v : IntVec} (hv : v.size ≤ 64 * v.data.length) : ∀ (k b : Nat), sizeLoop tab v k b (T v b) = some (T v (b + k))
  | 0, _ => rfl
  | k + 1, b => by
    rw [sizeLoop, count_spec ht hv b, hbind]
    have := sizeLoop_spec ht hv k (b + 1)
    rw [Nat.add_right_comm] at this
    exact this

/-! ### Layout of the headers -/

theorem sep {H s s' a n a' n' : Nat} (hs : s ≠ s') (h : a + n ≤ H) (h' : a' + n' ≤ H) : s * H + a + n ≤ s' * H + a' ∨ s' * H + a' + n' ≤ s * H + a := by
  rcases Nat.lt_or_ge s s' with c | c
  · have := Nat.mul_le_mul_right H (show s + 1 ≤ s' from c)
    rw [Nat.succ_mul] at this
    left; omega
  · have := Nat.mul_le_mul_right H (show s' + 1 ≤ s by omega)
    rw [Nat.succ_mul] at this
    right; omega

/-- A write that does not touch the bytes that are read. -/
theorem rd_other {k n : Nat} {m m' : List Nat} {p q : Nat} (h : ∀ x, x < p ∨ p + n ≤ x → m'[x]? = m[x]?) (hd : q + k ≤ p ∨ p + n ≤ q) : rd k m' q = rd k m q :=
  rd_congr (fun i hi => h _ (by omega))

theorem wr_bytes : ∀ {k : Nat} {m m' : List Nat} {p x : Nat}, (∀ q y : Nat, m[q]? = some y → y < 256) → wr k m p x = some m' → ∀ q y : Nat, m'[q]? = some y → y < 256
  | 0, m, m', p, x, h, e => by
    obtain rfl : m = m' := by simpa [wr] using e
    exact h
  | k + 1, m, m', p, x, h, e => by
    rw [wr, setList] at e
    by_cases c : p < m.length
    · rw [if_pos c, hbind] at e
      refine wr_bytes (fun q y hq => ?_) e
      by_cases d : q = p
      · subst d
        rw [List.getElem?_set_self c] at hq
        have : x % 256 = y := by simpa using hq
        omega
      · rw [List.getElem?_set_ne (Ne.symm d)] at hq
        exact h q y hq
    · rw [if_neg c] at e; cases e

/-- Header of block `b`. -/
def hpos (rate b : Nat) : Nat := b / rate * hs rate + 8 + b % rate * 2

/-- The header of superblock `s`. -/
structure SOk (rate : Nat) (v : IntVec) (nb : Nat) (sh : List Nat) (s : Nat) : Prop where
  rank : rd 4 sh (s * hs rate + 4) = some (R v (s * rate) - R v (s * rate / hRate * hRate))
  off : ∃ x, rd 4 sh (s * hs rate) = some x ∧ x < 2 ^ 32 ∧ x % 2 ^ 30 = T v (s * rate) - T v (s * rate / hRate * hRate) ∧
    (x / 2 ^ 31 % 2 = 1 → s * rate + rate ≤ nb ∧ (R v (s * rate + rate) = R v (s * rate) ∨ R v (s * rate + rate) = R v (s * rate) + 256 * rate))

structure ShOk (rate : Nat) (v : IntVec) (nb : Nat) (sh trunk : List Nat) (S B : Nat) : Prop where
  bytes : ∀ q y : Nat, sh[q]? = some y → y < 256
  supers : ∀ s, s * rate < S → SOk rate v nb sh s
  blocks : ∀ b, b < B → ∃ y, rd 2 sh (hpos rate b) = some y ∧ y < 2 ^ 16 ∧ Coded (blk v b) trunk (T v b) y (esz (blk v b))

structure HbOk (v : IntVec) (hb : List Nat) (B : Nat) : Prop where
  val : ∀ h, h * hRate < B → hb[2 * h]? = some (T v (h * hRate)) ∧ hb[2 * h + 1]? = some (R v (h * hRate))

theorem hRate_pos : 0 < hRate := by decide

theorem hRate_eq : hRate = 8388608 := by decide

theorem hUpdate_spec {v : IntVec} {s : St} {B nh nb : Nat} (hnh : nb ≤ nh * hRate) (hB : B < nb) (hl : s.hb.length = nh * 2) (h : HbOk v s.hb B) (htp : s.tp = T v B) (htot : s.tot = R v B) :
    ∃ hb, hUpdate s B = some hb ∧ hb.length = nh * 2 ∧ HbOk v hb (B + 1) := by
  rw [hUpdate]
  by_cases c : B % hRate = 0
  · rw [if_pos c]
    have hBq : B / hRate * hRate = B := Nat.div_mul_cancel (Nat.dvd_of_mod_eq_zero c)
    have hlt : B / hRate < nh := by
      rw [Nat.div_lt_iff_lt_mul hRate_pos]; omega
    rw [setList_of_lt (by omega), hbind, setList_of_lt (by rw [List.length_set]; omega)]
    refine ⟨_, rfl, by rw [List.length_set, List.length_set]; exact hl, ⟨fun h' hh => ?_⟩⟩
    by_cases d : h' = B / hRate
    · rw [d, hBq]
      constructor
      · rw [List.getElem?_set_ne (by omega), List.getElem?_set_self (by omega), htp]
      · rw [List.getElem?_set_self (by rw [List.length_set]; omega), htot]
    · have : h' * hRate ≠ B := by
        intro e
        apply d
        rw [← e, Nat.mul_div_cancel _ hRate_pos]
      rw [List.getElem?_set_ne (by omega), List.getElem?_set_ne (by omega), List.getElem?_set_ne (by omega), List.getElem?_set_ne (by omega)]
      exact h.val h' (by omega)
  · rw [if_neg c]
    refine ⟨s.hb, rfl, hl, ⟨fun h' hh => h.val h' ?_⟩⟩
    have : h' * hRate ≠ B := by
      intro e
      apply c
      rw [← e, Nat.mul_mod_left]
    omega

theorem hs_ge (rate : Nat) : 8 + 2 * rate ≤ hs rate := Nat.le_refl _

theorem hpos_in {rate b : Nat} (hr : 0 < rate) : 8 + b % rate * 2 + 2 ≤ hs rate := by
  have := Nat.mod_lt b hr
  unfold hs; omega

theorem SOk.congr {rate : Nat} {v : IntVec} {nb : Nat} {sh sh' : List Nat} {s : Nat} (h : SOk rate v nb sh s) (h1 : rd 4 sh' (s * hs rate) = rd 4 sh (s * hs rate)) (h2 : rd 4 sh' (s * hs rate + 4) = rd 4 sh (s * hs rate + 4)) :
    SOk rate v nb sh' s := by
  obtain ⟨x, x1, x2⟩ := h.off
  exact ⟨by rw [h2]; exact h.rank, x, by rw [h1]; exact x1, x2⟩

/-- Writing inside the first eight bytes of superblock `s0`. -/
theorem head_write {rate : Nat} (hr : 0 < rate) {v : IntVec} {nb : Nat} {sh sh' trunk : List Nat} {B s0 o : Nat} (ho : o + 4 ≤ 8) 
    (hc : ∀ q, q < s0 * hs rate + o ∨ s0 * hs rate + o + 4 ≤ q → sh'[q]? = sh[q]?) :
    (∀ s, s ≠ s0 → SOk rate v nb sh s → SOk rate v nb sh' s) ∧
    (∀ b, b < B → (∃ y, rd 2 sh (hpos rate b) = some y ∧ y < 2 ^ 16 ∧ Coded (blk v b) trunk (T v b) y (esz (blk v b))) →
      ∃ y, rd 2 sh' (hpos rate b) = some y ∧ y < 2 ^ 16 ∧ Coded (blk v b) trunk (T v b) y (esz (blk v b))) := by
  have hge := hs_ge rate
  constructor
  · intro s hs0 h
    refine h.congr ?_ ?_
    · have := sep (H := hs rate) (a := 0) (n := 4) (a' := o) (n' := 4) hs0 (by omega) (by omega)
      exact rd_other hc (by omega)
    · have := sep (H := hs rate) (a := 4) (n := 4) (a' := o) (n' := 4) hs0 (by omega) (by omega)
      exact rd_other hc (by omega)
  · rintro b _ ⟨y, y1, y2⟩
    refine ⟨y, ?_, y2⟩
    rw [← y1]
    refine rd_other hc ?_
    rw [hpos]
    by_cases c : b / rate = s0
    · rw [c]; omega
    · have := sep (H := hs rate) (a := 8 + b % rate * 2) (n := 2) (a' := o) (n' := 4) c (hpos_in hr) (by omega)
      omega

theorem or_flag (x : Nat) (hx : x < 2 ^ 32) : (x ||| 0x80000000) % 256 ^ 4 < 2 ^ 32 ∧ (x ||| 0x80000000) % 256 ^ 4 % 2 ^ 30 = x % 2 ^ 30 := by
  have h1 : x ||| 0x80000000 < 2 ^ 32 := Nat.or_lt_two_pow hx (by decide)
  have h2 : (x ||| 0x80000000) % 256 ^ 4 = x ||| 0x80000000 := Nat.mod_eq_of_lt h1
  rw [h2]
  refine ⟨h1, ?_⟩
  rw [Nat.or_mod_two_pow, show (0x80000000 : Nat) % 2 ^ 30 = 0 from rfl, Nat.or_zero]

/-- Number of ones since the begin of the superblock of the block in front. -/
def soVal (v : IntVec) (rate B : Nat) : Nat := if B = 0 then 0 else R v B - R v ((B - 1) / rate * rate)

theorem flag_spec {rate : Nat} (hr : 0 < rate) (hr2 : rate < 2 ^ 24) {v : IntVec} {nb ns : Nat} {sh trunk : List Nat} {sb so B S : Nat} (hsb : sb * rate ≤ nb) (hns : sb ≤ ns) (hl : sh.length = ns * hs rate)
    (h : ShOk rate v nb sh trunk S B) (hS : sb ≠ 0 → (sb - 1) * rate < S) (hso : sb ≠ 0 → so = R v (sb * rate) - R v ((sb - 1) * rate)) :
    ∃ sh', flag rate sb so sh = some sh' ∧ sh'.length = ns * hs rate ∧ ShOk rate v nb sh' trunk S B := by
  rw [flag]
  by_cases c : sb ≠ 0 ∧ (so = 0 ∨ so = 256 * rate % 2 ^ 32)
  · rw [if_pos c, Nat.mul_comm (hs rate)]
    have hc := h.supers (sb - 1) (hS c.1)
    obtain ⟨x, x1, x2, x3, x4⟩ := hc.off
    rw [x1, hbind]
    have hge := hs_ge rate
    have hmul := Nat.mul_le_mul_right (hs rate) (show sb - 1 + 1 ≤ ns by omega)
    rw [Nat.succ_mul] at hmul
    obtain ⟨sh', e1, e2, e3, e4⟩ := wr_spec 4 sh ((sb - 1) * hs rate) (x ||| 0x80000000) (by omega)
    have hw := head_write (v := v) (nb := nb) (trunk := trunk) (B := B) hr (o := 0) (by omega) e4
    refine ⟨sh', e1, e2.trans hl, wr_bytes h.bytes e1, fun s hs' => ?_, fun b hb => hw.2 b hb (h.blocks b hb)⟩
    by_cases d : s = sb - 1
    · subst d
      refine ⟨?_, _, e3, (or_flag x x2).1, (or_flag x x2).2.trans x3, fun _ => ?_⟩
      · rw [rd_other (k := 4) (q := (sb - 1) * hs rate + 4) e4 (by omega)]; exact hc.rank
      · have hm : (sb - 1) * rate + rate = sb * rate := by
          rw [← Nat.succ_mul]
          congr 1
          omega
        have hmono := R_mono v (show (sb - 1) * rate ≤ sb * rate by omega)
        have h5 := hso c.1
        rw [hm]
        refine ⟨hsb, ?_⟩
        rcases c.2 with g | g
        · left; omega
        · right
          rw [Nat.mod_eq_of_lt (by omega)] at g
          omega
    · exact hw.1 s d (h.supers s hs')
  · rw [if_neg c]
    exact ⟨sh, rfl, hl, h⟩

theorem div_le_mul (B h : Nat) : B / h * h ≤ B := Nat.div_mul_le_self B h

theorem lt_div_add (B h : Nat) (hh : 0 < h) : B < B / h * h + h := by
  have := Nat.div_add_mod B h
  have h2 := Nat.mod_lt B hh
  rw [Nat.mul_comm] at this
  omega

theorem sUpdate_spec {rate : Nat} (hr : 0 < rate) (hr2 : rate < 2 ^ 24) {v : IntVec} {nb ns : Nat} {hb : List Nat} {s : St} {B : Nat} (hns : nb ≤ ns * rate) (hB : B < nb) (hl : s.sh.length = ns * hs rate)
    (hh : HbOk v hb (B + 1)) (h : ShOk rate v nb s.sh s.trunk B B) (htp : s.tp = T v B) (htot : s.tot = R v B) (hso : s.so = soVal v rate B) :
    ∃ sh so, sUpdate rate hb s B = some (sh, so) ∧ sh.length = ns * hs rate ∧ ShOk rate v nb sh s.trunk (B + 1) B ∧ so = R v B - R v (B / rate * rate) := by
  rw [sUpdate]
  by_cases c : B % rate = 0
  · rw [if_pos c]
    have hBq : B / rate * rate = B := Nat.div_mul_cancel (Nat.dvd_of_mod_eq_zero c)
    have hge := hs_ge rate
    have hsb : B / rate < ns := by
      rw [Nat.div_lt_iff_lt_mul hr]; omega
    have hmul := Nat.mul_le_mul_right (hs rate) (show B / rate + 1 ≤ ns from hsb)
    rw [Nat.succ_mul] at hmul
    have hq := div_le_mul B hRate
    have hq2 := lt_div_add B hRate hRate_pos
    obtain ⟨v1, v2⟩ := hh.val (B / hRate) (by omega)
    rw [v1, hbind, v2, hbind, Nat.mul_comm (hs rate)]
    obtain ⟨sh1, e1, e2, e3, e4⟩ := wr_spec 4 s.sh (B / rate * hs rate) (s.tp - T v (B / hRate * hRate)) (by omega)
    have hw1 := head_write (v := v) (nb := nb) (trunk := s.trunk) (B := B) hr (o := 0) (by omega) e4
    rw [e1, hbind]
    obtain ⟨sh2, f1, f2, f3, f4⟩ := wr_spec 4 sh1 (B / rate * hs rate + 4) (s.tot - R v (B / hRate * hRate)) (by omega)
    have hw2 := head_write (v := v) (nb := nb) (trunk := s.trunk) (B := B) hr (o := 4) (by omega) f4
    rw [f1, hbind]
    have hT := T_diff v hq
    have hR := R_diff v hq
    have hrt := hRate_eq
    have hok : ShOk rate v nb sh2 s.trunk (B + 1) B := by
      refine ⟨wr_bytes (wr_bytes h.bytes e1) f1, fun s' hs' => ?_, fun b hb => hw2.2 b hb (hw1.2 b hb (h.blocks b hb))⟩
      by_cases d : s' = B / rate
      · subst d
        refine ⟨?_, s.tp - T v (B / hRate * hRate), ?_, by omega, ?_, fun hx => ?_⟩
        · rw [f3, hBq, htot, Nat.mod_eq_of_lt (by omega)]
        · rw [rd_other (k := 4) (q := B / rate * hs rate) f4 (by omega), e3, Nat.mod_eq_of_lt (by omega)]
        · rw [hBq, htp, Nat.mod_eq_of_lt (by omega)]
        · rw [htp, Nat.div_eq_of_lt (by omega)] at hx
          omega
      · have hne : s' * rate ≠ B := fun e => d (by rw [← e, Nat.mul_div_cancel _ hr])
        exact hw2.1 s' d (hw1.1 s' d (h.supers s' (by omega)))
    have hflag := flag_spec (so := s.so) (sb := B / rate) hr hr2 (by omega) (by omega) (f2.trans (e2.trans hl)) hok
      (fun hn => by
        have : (B / rate - 1) * rate ≤ B / rate * rate := Nat.mul_le_mul_right _ (Nat.sub_le _ _)
        omega)
      (fun hn => by
        have hB0 : B ≠ 0 := fun e => hn (by rw [e, Nat.zero_div])
        rw [hso, soVal, if_neg hB0, hBq]
        congr 3
        have hpos : 0 < B / rate := Nat.pos_of_ne_zero hn
        obtain ⟨k, hk⟩ : ∃ k, B / rate = k + 1 := ⟨B / rate - 1, (Nat.sub_add_cancel hpos).symm⟩
        rw [hk] at hBq ⊢
        rw [← hBq, Nat.succ_mul, Nat.add_sub_cancel]
        rw [show k * rate + rate - 1 = rate * k + (rate - 1) by rw [Nat.mul_comm]; omega, Nat.mul_add_div hr, Nat.div_eq_of_lt (by omega), Nat.add_zero])
    obtain ⟨sh', g1, g2, g3⟩ := hflag
    rw [g1, hbind]
    exact ⟨sh', 0, rfl, g2, g3, by rw [hBq]; omega⟩
  · rw [if_neg c]
    refine ⟨s.sh, s.so, rfl, hl, ⟨h.bytes, fun s' hs' => h.supers s' ?_, h.blocks⟩, ?_⟩
    · have : s' * rate ≠ B := fun e => c (by rw [← e, Nat.mul_mod_left])
      omega
    · have hB0 : B ≠ 0 := fun e => c (by rw [e, Nat.zero_mod])
      rw [hso, soVal, if_neg hB0]
      congr 3
      have hmp : 0 < B % rate := Nat.pos_of_ne_zero c
      have hml := Nat.mod_lt B hr
      have hdm := Nat.div_add_mod B rate
      conv => lhs; rw [show B - 1 = rate * (B / rate) + (B % rate - 1) by omega]
      rw [Nat.mul_add_div hr, Nat.div_eq_of_lt (show B % rate - 1 < rate by omega), Nat.add_zero]

/-- The state after the blocks below `B`. -/
structure StOk (rate : Nat) (v : IntVec) (nb ns nh : Nat) (B : Nat) (s : St) : Prop where
  hl : s.hb.length = nh * 2
  sl : s.sh.length = ns * hs rate
  tl : s.trunk.length = T v nb
  tp : s.tp = T v B
  tot : s.tot = R v B
  so : s.so = soVal v rate B
  hb : HbOk v s.hb B
  sh : ShOk rate v nb s.sh s.trunk B B

theorem step_spec {rate : Nat} (hr : 0 < rate) (hr2 : rate < 2 ^ 24) {tab : Nat → Option Nat} (ht : TabOk tab) {v : IntVec} (hv : v.size ≤ 64 * v.data.length) {nb ns nh B : Nat} {s : St}
    (hnb : nb = (v.size + 256 - 1) / 256) (hns : nb ≤ ns * rate) (hnh : nb ≤ nh * hRate) (hB : B < nb) (h : StOk rate v nb ns nh B s) : ∃ s', step rate tab v B s = some s' ∧ StOk rate v nb ns nh (B + 1) s' := by
  obtain ⟨hb, a1, a2, a3⟩ := hUpdate_spec hnh hB h.hl h.hb h.tp h.tot
  obtain ⟨sh, so, b1, b2, b3, b4⟩ := sUpdate_spec hr hr2 hns hB h.sl a3 h.sh h.tp h.tot h.so
  have htl : s.tp + esz (blk v B) ≤ s.trunk.length := by
    have := T_mono v (show B + 1 ≤ nb from hB)
    rw [h.tl, h.tp]
    exact this
  obtain ⟨y, t', c1, c2, c3, c4, c5⟩ := encode_spec hv (b := B) (by omega) htl
  rw [step, a1, hbind, b1, hbind, count_spec ht hv B, hbind]
  dsimp only
  rw [c1, hbind]
  dsimp only
  have hsb : B / rate < ns := by
    rw [Nat.div_lt_iff_lt_mul hr]; omega
  have hmul := Nat.mul_le_mul_right (hs rate) (show B / rate + 1 ≤ ns from hsb)
  rw [Nat.succ_mul] at hmul
  have hin := hpos_in (b := B) hr
  obtain ⟨sh', d1, d2, d3, d4⟩ := wr_spec 2 sh (B / rate * hs rate + 8 + B % rate * 2) y (by omega)
  rw [d1, hbind]
  have hge := hs_ge rate
  refine ⟨_, rfl, a2, d2.trans b2, c2.trans h.tl, ?_, ?_, ?_, a3, wr_bytes b3.bytes d1, fun s' hs' => ?_, fun b hb' => ?_⟩
  · show s.tp + esz (blk v B) = T v (B + 1)
    rw [h.tp]; rfl
  · show s.tot + countTrue (blk v B) 256 = R v (B + 1)
    rw [h.tot, R_succ]
  · show so + countTrue (blk v B) 256 = soVal v rate (B + 1)
    have := R_mono v (div_le_mul B rate)
    rw [b4, soVal, if_neg (Nat.succ_ne_zero B), Nat.add_sub_cancel, R_succ]
    omega
  · refine (b3.supers s' hs').congr ?_ ?_
    · refine rd_other d4 ?_
      by_cases c : s' = B / rate
      · rw [c]; omega
      · have := sep (H := hs rate) (a := 0) (n := 4) (a' := 8 + B % rate * 2) (n' := 2) c (by omega) hin
        omega
    · refine rd_other d4 ?_
      by_cases c : s' = B / rate
      · rw [c]; omega
      · have := sep (H := hs rate) (a := 4) (n := 4) (a' := 8 + B % rate * 2) (n' := 2) c (by omega) hin
        omega
  · by_cases c : b = B
    · subst c
      refine ⟨y, ?_, c4, ?_⟩
      · rw [hpos, d3, Nat.mod_eq_of_lt c4]
      · rw [h.tp] at c5; exact c5
    · obtain ⟨z, z1, z2, z3⟩ := b3.blocks b (by omega)
      refine ⟨z, ?_, z2, z3.congr (fun q hq => c3 q ?_)⟩
      · rw [← z1]
        refine rd_other d4 ?_
        rw [hpos]
        by_cases d : b / rate = B / rate
        · have hne : b % rate ≠ B % rate := by
            intro e
            apply c
            rw [← Nat.div_add_mod b rate, ← Nat.div_add_mod B rate, d, e]
          rw [d]; omega
        · have := sep (H := hs rate) (a := 8 + b % rate * 2) (n := 2) (a' := 8 + B % rate * 2) (n' := 2) d (hpos_in hr) hin
          omega
      · have := T_mono v (show b + 1 ≤ B by omega)
        rw [T] at this
        rw [h.tp]
        omega

theorem steps_spec {rate : Nat} (hr : 0 < rate) (hr2 : rate < 2 ^ 24) {tab : Nat → Option Nat} (ht : TabOk tab) {v : IntVec} (hv : v.size ≤ 64 * v.data.length) {nb ns nh : Nat}
    (hnb : nb = (v.size + 256 - 1) / 256) (hns : nb ≤ ns * rate) (hnh : nb ≤ nh * hRate) : ∀ (k B : Nat) (s : St), B + k = nb → StOk rate v nb ns nh B s → ∃ s', steps rate tab v k B s = some s' ∧ StOk rate v nb ns nh nb s'
  | 0, B, s, h1, h => by
    obtain rfl : B = nb := by omega
    exact ⟨s, rfl, h⟩
  | k + 1, B, s, h1, h => by
    obtain ⟨s', e1, e2⟩ := step_spec hr hr2 ht hv hnb hns hnh (by omega) h
    rw [steps, e1, hbind]
    exact steps_spec hr hr2 ht hv hnb hns hnh k (B + 1) s' (by omega) e2

/-- What the constructor builds. -/
structure Ok (rate : Nat) (v : IntVec) (h : Hyb) : Prop where
  size : h.size = v.size
  trunk : h.trunk.length = T v ((v.size + 255) / 256)
  hb : HbOk v h.hb ((v.size + 255) / 256)
  sh : ShOk rate v ((v.size + 255) / 256) h.sh h.trunk ((v.size + 255) / 256) ((v.size + 255) / 256)

theorem ceil_mul (n k : Nat) (hk : 0 < k) : n ≤ (n + k - 1) / k * k := by
  have := lt_div_add (n + k - 1) k hk
  omega

theorem newWith_spec {rate : Nat} (hr : 0 < rate) (hr2 : rate < 2 ^ 24) {tab : Nat → Option Nat} (ht : TabOk tab) {v : IntVec} (hv : v.size ≤ 64 * v.data.length) :
    ∃ h, newWith tab rate v = some h ∧ Ok rate v h := by
  rw [newWith]
  have hsz := sizeLoop_spec ht hv ((v.size + 256 - 1) / 256) 0
  rw [show T v 0 = 0 from rfl, Nat.zero_add] at hsz
  rw [hsz, hbind]
  have hst : StOk rate v ((v.size + 256 - 1) / 256) (((v.size + 256 - 1) / 256 + rate - 1) / rate) (((v.size + 256 - 1) / 256 + hRate - 1) / hRate) 0
      ⟨List.replicate (((v.size + 256 - 1) / 256 + hRate - 1) / hRate * 2) 0, List.replicate (((v.size + 256 - 1) / 256 + rate - 1) / rate * hs rate) 0, List.replicate (T v ((v.size + 256 - 1) / 256)) 0, 0, 0, 0⟩ := by
    refine ⟨List.length_replicate .., List.length_replicate .., List.length_replicate .., rfl, rfl, rfl, ⟨fun h hh => absurd hh (by omega)⟩, ?_, fun s hs' => absurd hs' (by omega), fun b hb => absurd hb (by omega)⟩
    intro q y hq
    dsimp only at hq
    rw [List.getElem?_replicate] at hq
    split at hq
    · have : 0 = y := by simpa using hq
      omega
    · cases hq
  obtain ⟨s', e1, e2⟩ := steps_spec hr hr2 ht hv rfl (ceil_mul _ _ hr) (ceil_mul _ _ hRate_pos) _ 0 _ (Nat.zero_add _) hst
  rw [e1, hbind]
  refine ⟨_, rfl, rfl, ?_, ?_, ?_⟩
  · have := e2.tl
    rw [show v.size + 256 - 1 = v.size + 255 by omega] at this
    exact this
  · have := e2.hb
    rw [show v.size + 256 - 1 = v.size + 255 by omega] at this
    exact this
  · have := e2.sh
    rw [show v.size + 256 - 1 = v.size + 255 by omega] at this
    exact this

theorem new_spec {rate : Nat} (hr : 0 < rate) (hr2 : rate < 2 ^ 24) {v : IntVec} (hv : v.size ≤ 64 * v.data.length) : ∃ h, new rate v = some h ∧ Ok rate v h := by
  obtain ⟨t, e1, e2⟩ := lookup_spec
  rw [new, e1, hbind]
  exact newWith_spec hr hr2 e2 hv

end Sdsl.Hyb
