/-
  Lemmas about `select_0_support_sd` (SdSel0.lean).
-/
import Verif.SdSel0
import Verif.SdQuery
import Verif.BitsSel

namespace Sdsl.Sd

open Bits Spec

/-- Ones of the high part before `j`. -/
def cH (b : Sd) (j : Nat) : Nat := Bv.cnt true b.high j

/-- The position of the vector that position `j` of the high part stands for: behind the last one, or the begin of the block. -/
def eP (xs : List Nat) (b : Sd) (j : Nat) : Nat :=
  if 0 < cH b j ∧ Bv.bit b.high (j - 1) = true then X xs (cH b j - 1) + 1 else (j - cH b j) * 2 ^ b.wl

/-- Zeros of the vector before that position. -/
def zP (xs : List Nat) (b : Sd) (j : Nat) : Nat := eP xs b j - cH b j

section
variable {xs : List Nat} {n : Nat} {b : Sd} (h : Ok xs n b) (hp : xs.Pairwise (· < ·))

include h hp in
theorem cut_high (j : Nat) : Cut xs.length (fun k => X xs k / 2 ^ b.wl + k < j) (cH b j) := by
  obtain ⟨c, hc⟩ := cut_exists xs.length (fun k => X xs k / 2 ^ b.wl + k < j) (fun i k h1 h2 h3 => by
    have := P_mono hp (2 ^ b.wl) h1 h2
    omega)
  have := count_cut (f := Bv.bit b.high) (P := fun k => X xs k / 2 ^ b.wl + k) (m := xs.length) (fun i k h1 h2 => P_mono hp _ h1 h2) h.bits j c hc
  have e : cH b j = c := by
    rw [← this]
    exact countTrue_congr (fun q _ => by cases Bv.bit b.high q <;> rfl)
  rw [e]; exact hc

theorem cH_le (j : Nat) : cH b j ≤ j := Bv.cnt_le _ _ _

theorem cH_false {j : Nat} (hb : Bv.bit b.high j = false) : cH b (j + 1) = cH b j := by
  rw [cH, Bv.cnt_succ, hb]; rfl

theorem cH_true {j : Nat} (hb : Bv.bit b.high j = true) : cH b (j + 1) = cH b j + 1 := by
  rw [cH, Bv.cnt_succ, hb]; rfl

include h hp in
/-- A one at position `j` of the high part belongs to the element number `cH j`. -/
theorem one_at {j : Nat} (hb : Bv.bit b.high j = true) : cH b j < xs.length ∧ X xs (cH b j) / 2 ^ b.wl + cH b j = j := by
  obtain ⟨k, hk, e⟩ := (h.bits j).1 hb
  have hc := cut_high h hp j
  have h1 : ¬ k < cH b j := fun g => by have := hc.lo k g; omega
  have h2 : ¬ cH b j < k := fun g => by
    have h3 := hc.hi (cH b j) (Nat.le_refl _) (by omega)
    have h4 := P_mono hp (2 ^ b.wl) g hk
    omega
  have : k = cH b j := by omega
  subst this
  exact ⟨hk, e⟩

include h hp in
theorem last_one {j : Nat} (hc : 0 < cH b j) (hb : Bv.bit b.high (j - 1) = true) : X xs (cH b j - 1) / 2 ^ b.wl + cH b j = j ∧ cH b j ≤ xs.length := by
  have hj : 0 < j := by have := cH_le (b := b) j; omega
  obtain ⟨g1, g2⟩ := one_at h hp hb
  have g3 := cH_true hb
  rw [show j - 1 + 1 = j by omega] at g3
  rw [g3, show cH b (j - 1) + 1 - 1 = cH b (j - 1) by omega]
  exact ⟨by omega, by omega⟩

theorem div_bounds (x W : Nat) (hW : 0 < W) : x / W * W ≤ x ∧ x < (x / W + 1) * W := by
  have h1 := Nat.div_add_mod x W
  have h2 := Nat.mod_lt x hW
  rw [Nat.mul_comm] at h1
  rw [Nat.add_mul, Nat.one_mul]
  omega

include h hp in
/-- The ones before the position are the first `cH j`. -/
theorem cut_eP (j : Nat) : Cut xs.length (fun k => X xs k < eP xs b j) (cH b j) := by
  have hW : 0 < 2 ^ b.wl := Nat.pow_pos (by decide)
  have hc := cut_high h hp j
  have hle := cH_le (b := b) j
  unfold eP
  split
  · rename_i g
    obtain ⟨g1, g2⟩ := last_one h hp g.1 g.2
    refine ⟨hc.le, fun k hk => ?_, fun k h1 h2 => ?_⟩
    · have := X_mono_le hp (i := k) (j := cH b j - 1) (by omega) (by omega)
      show _ < _
      omega
    · have := X_mono hp (i := cH b j - 1) (j := k) (by omega) h2
      show ¬ _ < _
      omega
  · rename_i g
    refine ⟨hc.le, fun k hk => ?_, fun k h1 h2 => ?_⟩
    · have h1 := hc.lo k hk
      have h2 : X xs k / 2 ^ b.wl + 1 ≤ j - cH b j := by
        have hck := hc.le
        rcases Nat.lt_or_ge (X xs k / 2 ^ b.wl) (j - cH b j) with q | q
        · exact q
        · exfalso
          have h3 := hc.lo (cH b j - 1) (by omega)
          have h4 : X xs k / 2 ^ b.wl ≤ X xs (cH b j - 1) / 2 ^ b.wl := Nat.div_le_div_right (X_mono_le hp (by omega) (by omega))
          refine g ⟨by omega, (h.bits _).2 ⟨cH b j - 1, by omega, ?_⟩⟩
          omega
      have h3 := (div_bounds (X xs k) _ hW).2
      have h4 := Nat.mul_le_mul_right (2 ^ b.wl) h2
      show _ < _
      omega
    · have h3 := hc.hi k h1 h2
      have h4 : j - cH b j ≤ X xs k / 2 ^ b.wl := by
        have q1 := hc.hi (cH b j) (Nat.le_refl _) (by omega)
        have q2 : X xs (cH b j) / 2 ^ b.wl ≤ X xs k / 2 ^ b.wl := Nat.div_le_div_right (X_mono_le hp h1 h2)
        omega
      have h5 := (div_bounds (X xs k) _ hW).1
      have h6 := Nat.mul_le_mul_right (2 ^ b.wl) h4
      show ¬ _ < _
      omega

include hp in
theorem X_ge {j : Nat} (hj : j < xs.length) : j ≤ X xs j := by
  induction j with
  | zero => exact Nat.zero_le _
  | succ j ih =>
    have := ih (by omega)
    have := X_mono hp (i := j) (j := j + 1) (by omega) hj
    omega

include hp in
theorem Cut.le_pos {A c : Nat} (hc : Cut xs.length (fun k => X xs k < A) c) : c ≤ A := by
  have := hc.le
  rcases Nat.eq_zero_or_pos c with e | e
  · omega
  · have h1 := hc.lo (c - 1) (by omega)
    have h2 := X_ge hp (j := c - 1) (by omega)
    omega

theorem eP_false {j : Nat} (hb : Bv.bit b.high j = false) : eP xs b (j + 1) = (j + 1 - cH b j) * 2 ^ b.wl := by
  rw [eP, cH_false hb, Nat.add_sub_cancel, hb, if_neg (by simp)]

theorem eP_true {j : Nat} (hb : Bv.bit b.high j = true) : eP xs b (j + 1) = X xs (cH b j) + 1 := by
  rw [eP, cH_true hb, Nat.add_sub_cancel, hb, if_pos ⟨by omega, rfl⟩, Nat.add_sub_cancel]

include h hp in
theorem eP_step (j : Nat) : eP xs b j ≤ eP xs b (j + 1) := by
  have hW : 0 < 2 ^ b.wl := Nat.pow_pos (by decide)
  have hle := cH_le (b := b) j
  cases hb : Bv.bit b.high j with
  | false =>
    rw [eP_false hb, eP]
    split
    · rename_i g
      obtain ⟨g1, g2⟩ := last_one h hp g.1 g.2
      have := (div_bounds (X xs (cH b j - 1)) _ hW).2
      rw [show X xs (cH b j - 1) / 2 ^ b.wl + 1 = j + 1 - cH b j by omega] at this
      exact this
    · exact Nat.mul_le_mul_right _ (by omega)
  | true =>
    obtain ⟨g3, g4⟩ := one_at h hp hb
    rw [eP_true hb, eP]
    split
    · rename_i g
      have := X_mono hp (i := cH b j - 1) (j := cH b j) (by omega) g3
      omega
    · have := (div_bounds (X xs (cH b j)) _ hW).1
      rw [show X xs (cH b j) / 2 ^ b.wl = j - cH b j by omega] at this
      omega

include h hp in
theorem eP_mono {i j : Nat} (hij : i ≤ j) : eP xs b i ≤ eP xs b j := by
  induction j with
  | zero => rw [show i = 0 by omega]; exact Nat.le_refl _
  | succ j ih =>
    rcases Nat.eq_or_lt_of_le hij with e | e
    · rw [e]; exact Nat.le_refl _
    · exact Nat.le_trans (ih (by omega)) (eP_step h hp j)

include h hp in
theorem zP_count (j : Nat) : zP xs b j = countTrue (fun p => decide (p ∈ xs) == false) (eP xs b j) := by
  rw [count_tb, count_mem hp (cut_eP h hp j)]; rfl

include h hp in
theorem zP_mono {i j : Nat} (hij : i ≤ j) : zP xs b i ≤ zP xs b j := by
  rw [zP_count h hp, zP_count h hp]
  exact countTrue_mono _ (eP_mono h hp hij)

include h hp in
/-- After the high part there are more zeros than those of the vector. -/
theorem zP_end (hx : ∀ x, x ∈ xs → x < n) {j : Nat} (hj : b.high.length ≤ j) : cH b j = xs.length ∧ n < zP xs b j + xs.length := by
  have hW : 0 < 2 ^ b.wl := Nat.pow_pos (by decide)
  obtain ⟨z, z1, z2, z3⟩ := h.z
  have hP : ∀ k, k < xs.length → X xs k / 2 ^ b.wl + k + 1 < b.high.length := fun k hk => by
    have h1 := hx _ (X_mem hk)
    have h2 : X xs k / 2 ^ b.wl ≤ n / 2 ^ b.wl := Nat.div_le_div_right (by omega)
    omega
  have hc := cut_high h hp j
  have e : cH b j = xs.length := by
    have h1 := hc.le
    rcases Nat.lt_or_ge (cH b j) xs.length with q | q
    · have := hc.hi _ (Nat.le_refl _) q
      have := hP _ q
      omega
    · omega
  refine ⟨e, ?_⟩
  have he : eP xs b j = (j - xs.length) * 2 ^ b.wl := by
    rw [eP, if_neg, e]
    rintro ⟨g1, g2⟩
    obtain ⟨g3, -⟩ := last_one h hp g1 g2
    rw [e] at g3 g1
    have := hP (xs.length - 1) (by omega)
    omega
  have h1 : z * 2 ^ b.wl ≤ (j - xs.length) * 2 ^ b.wl := Nat.mul_le_mul_right _ (by omega)
  have h2 : n < z * 2 ^ b.wl := (Nat.div_lt_iff_lt_mul hW).1 z2
  have h3 := (cut_eP h hp j).le_pos hp
  rw [zP, e]
  rw [e] at h3
  omega

include h hp in
/-- The `i`-th zero lies between two positions of the vector without ones in between. -/
theorem sel_between {j A i : Nat} (hn : i + xs.length ≤ n) (hA : Cut xs.length (fun k => X xs k < A) (cH b j)) (h1 : zP xs b j < i) (h2 : i + cH b j ≤ A) :
    IsSelect (fun p => decide (p ∈ xs) == false) n i (i + cH b j - 1) := by
  have hc := cut_eP h hp j
  have hle := hc.le_pos hp
  have hl := hc.le
  rw [zP] at h1
  have hcut : Cut xs.length (fun k => X xs k < i + cH b j - 1) (cH b j) := ⟨hl, fun k hk => by
    have := hc.lo k hk
    show _ < _
    omega, fun k g1 g2 => by
    have := hA.hi k g1 g2
    show ¬ _ < _
    omega⟩
  refine ⟨by omega, ?_, ?_⟩
  · rw [beq_iff_eq, decide_eq_false_iff_not, mem_iff_X]
    rintro ⟨k, hk, e⟩
    rcases Nat.lt_or_ge k (cH b j) with q | q
    · have := hc.lo k q; omega
    · have := hA.hi k q hk; omega
  · rw [count_tb, if_neg (by decide), count_mem hp hcut]
    omega

/-! ## Words -/

theorem word_ok {B : List Bool} {i : Nat} (hi : i < B.length) : ∃ w, word B i = some w ∧ ∀ k, k < 64 → w.getLsbD k = Bv.bit B (i + k) := by
  refine ⟨_, if_pos hi, fun k hk => ?_⟩
  rw [BitVec.getLsbD_ofNat, testBit_bitsVal, decide_eq_true hk, Bool.true_and, Bool.true_and]

theorem cnt_range {B : List Bool} {w : Word} {j d : Nat} (hd : ∀ k, k < d → w.getLsbD k = Bv.bit B (j + k)) :
    Bv.cnt true B j + countTrue (fun k => w.getLsbD k) d = Bv.cnt true B (j + d) := by
  induction d with
  | zero => rfl
  | succ d ih =>
    rw [countTrue, ← Nat.add_assoc, ih (fun k hk => hd k (by omega)), ← Nat.add_assoc j, Bv.cnt_succ, hd d (by omega)]
    cases Bv.bit B (j + d) <;> rfl

theorem word_cnt {w : Word} {j : Nat} (hw : ∀ k, k < 64 → w.getLsbD k = Bv.bit b.high (j + k)) : cH b j + (cnt w).toNat = cH b (j + 64) := by
  have := countTrue_le (fun i => w.getLsbD i) 64
  have e : (cnt w).toNat = countTrue (fun i => w.getLsbD i) 64 := by
    rw [cnt_eq, BitVec.toNat_ofNat, Nat.mod_eq_of_lt]
    · rfl
    · unfold popcount; omega
  rw [e]; exact cnt_range hw

theorem byte_cnt {w : Word} {j : Nat} (hw : ∀ k, k < 8 → w.getLsbD k = Bv.bit b.high (j + k)) :
    ∃ c, ltCnt[(w &&& 0xFF#64).toNat]? = some c ∧ cH b j + c = cH b (j + 8) := by
  refine ⟨pop8 (byte w 0), ?_, ?_⟩
  · have e : (w &&& 0xFF#64).toNat = byte w 0 := by
      have := shr_and255 w 0
      rwa [Nat.mul_zero, BitVec.ushiftRight_zero] at this
    rw [e]; exact ltCnt_tab ⟨_, byte_lt w 0⟩
  · rw [show pop8 (byte w 0) = countTrue (fun k => w.getLsbD k) 8 from ?_]
    · exact cnt_range hw
    · unfold pop8
      refine countTrue_congr (fun k hk => ?_)
      rw [byte, Nat.pow_zero, Nat.div_one, show 256 = 2 ^ 8 from rfl, Nat.testBit_mod_two_pow, decide_eq_true hk, Bool.true_and]; rfl

/-! ## No wrap-around -/

variable (hz : (b.high.length - xs.length + 64) * 2 ^ b.wl + b.high.length + 64 < 2 ^ 64)

include h hp in
theorem zeros_le (hx : ∀ x, x ∈ xs → x < n) {j : Nat} (hj : j ≤ b.high.length + 64) : j - cH b j ≤ b.high.length - xs.length + 64 := by
  have e := (zP_end h hp hx (Nat.le_refl _)).1
  rcases Nat.le_total j b.high.length with q | q
  · have h1 := Bv.cnt_compl b.high j
    have h2 := Bv.cnt_compl b.high b.high.length
    have h3 := Bv.cnt_mono false b.high q
    rw [cH] at e
    rw [cH]
    omega
  · have := (zP_end h hp hx q).1
    omega

include h hp hz in
theorem mul_ok (hx : ∀ x, x ∈ xs → x < n) {j a : Nat} (hj : j ≤ b.high.length + 64) (ha : a ≤ j - cH b j) : mul64 a (2 ^ b.wl) = a * 2 ^ b.wl ∧ a * 2 ^ b.wl + b.high.length + 64 < 2 ^ 64 := by
  have h1 := zeros_le h hp hx hj
  have h2 : a * 2 ^ b.wl ≤ (b.high.length - xs.length + 64) * 2 ^ b.wl := Nat.mul_le_mul_right _ (by omega)
  exact ⟨Nat.mod_eq_of_lt (by omega), by omega⟩

include h in
theorem low_get {k : Nat} (hk : k < xs.length) : b.low.get k = some (X xs k % 2 ^ b.wl) := by
  rw [Arr.get, h.low, List.getElem?_map, List.getElem?_eq_getElem hk, X_eq hk]; rfl

include h hp hz in
theorem zerosAt_ok (hx : ∀ x, x ∈ xs → x < n) (hn : n + 1 < 2 ^ 64) {j : Nat} (hj : j ≤ b.high.length + 64) {one : Bool} (ho : 0 < cH b j → one = Bv.bit b.high (j - 1)) :
    zerosAt b (2 ^ b.wl) j (cH b j) one = some (zP xs b j) := by
  have hle := cH_le (b := b) j
  obtain ⟨m1, m2⟩ := mul_ok h hp hz hx hj (Nat.le_refl _)
  have hlt : j < 2 ^ 64 := by omega
  have hpos := (cut_eP h hp j).le_pos hp
  unfold zerosAt zP
  rw [sub64_of_le hle hlt, m1]
  by_cases g : 0 < cH b j ∧ one = true
  · have hb : Bv.bit b.high (j - 1) = true := by rw [← ho g.1, g.2]
    obtain ⟨g1, g2⟩ := last_one h hp g.1 hb
    have hxl := hx _ (X_mem (show cH b j - 1 < xs.length by omega))
    have hdm := Nat.div_add_mod (X xs (cH b j - 1)) (2 ^ b.wl)
    have he : eP xs b j = X xs (cH b j - 1) + 1 := by rw [eP, if_pos ⟨g.1, hb⟩]
    rw [he] at hpos ⊢
    rw [if_pos g, low_get h (by omega), sbind]
    dsimp only
    have : (j - cH b j) * 2 ^ b.wl + X xs (cH b j - 1) % 2 ^ b.wl = X xs (cH b j - 1) := by
      rw [show j - cH b j = X xs (cH b j - 1) / 2 ^ b.wl by omega, Nat.mul_comm]; exact hdm
    rw [add64_of_lt (a := (j - cH b j) * 2 ^ b.wl) (by omega), this, add64_of_lt (by omega), sub64_of_le hpos (by omega)]; rfl
  · rw [if_neg g]
    have he : eP xs b j = (j - cH b j) * 2 ^ b.wl := by
      rw [eP, if_neg]
      rintro ⟨q1, q2⟩
      exact g ⟨q1, by rw [ho q1, q2]⟩
    rw [he] at hpos ⊢
    rw [sub64_of_le hpos (by omega)]; rfl

/-! ## The loops of `select` -/

include h hp hz in
theorem wordSkip_ok (hx : ∀ x, x ∈ xs → x < n) (hn : n + 1 < 2 ^ 64) {i : Nat} (hi : i + xs.length ≤ n) : ∀ (fuel j : Nat) (w : Word), b.high.length < j + fuel → j < b.high.length → j % 64 = 0 →
    (∀ k, k < 64 → w.getLsbD k = Bv.bit b.high (j + k)) → zP xs b j < i →
    ∃ j' w', wordSkip b (2 ^ b.wl) i fuel j w (cH b j) = some (j', w', cH b j') ∧ j' < b.high.length ∧ j' % 64 = 0 ∧
      (∀ k, k < 64 → w'.getLsbD k = Bv.bit b.high (j' + k)) ∧ zP xs b j' < i ∧ i ≤ zP xs b (j' + 64)
  | 0, j, w, hf, hj, _, _, _ => by omega
  | fuel + 1, j, w, hf, hj, hm, hw, hlt => by
    have hc := word_cnt (b := b) hw
    have hcl := cH_le (b := b) (j + 64)
    rw [wordSkip]
    dsimp only
    rw [add64_of_lt (a := cH b j) (by omega), hc, add64_of_lt (by omega), zerosAt_ok h hp hz hx hn (j := j + 64) (by omega) (fun _ => hw 63 (by omega)), sbind]
    by_cases g : zP xs b (j + 64) < i
    · rw [if_pos g]
      have hj' : j + 64 < b.high.length := by
        rcases Nat.lt_or_ge (j + 64) b.high.length with q | q
        · exact q
        · have := (zP_end h hp hx q).2; omega
      obtain ⟨w', e, hw'⟩ := word_ok hj'
      rw [e, sbind]
      exact wordSkip_ok hx hn hi fuel (j + 64) w' (by omega) hj' (by omega) hw' g
    · rw [if_neg g]
      exact ⟨j, w, rfl, hj, hm, hw, hlt, by omega⟩

include h hp hz in
theorem byteSkip_ok (hx : ∀ x, x ∈ xs → x < n) (hn : n + 1 < 2 ^ 64) {i : Nat} : ∀ (t fuel j : Nat) (w : Word), t < fuel → j + 8 * t ≤ b.high.length + 64 → j % 64 + 8 * t = 64 →
    (∀ k, k < 8 * t → w.getLsbD k = Bv.bit b.high (j + k)) → zP xs b j < i → i ≤ zP xs b (j + 8 * t) →
    ∃ j' w', byteSkip b (2 ^ b.wl) i fuel j w (cH b j) = some (j', w', cH b j') ∧ j' + 8 ≤ b.high.length + 64 ∧ j' % 64 + 8 ≤ 64 ∧
      (∀ k, k < 8 → w'.getLsbD k = Bv.bit b.high (j' + k)) ∧ zP xs b j' < i ∧ i ≤ zP xs b (j' + 8)
  | 0, fuel, j, w, _, _, _, _, h1, h2 => by
    rw [Nat.mul_zero, Nat.add_zero] at h2; omega
  | _, 0, _, _, hf, _, _, _, _, _ => by omega
  | t + 1, fuel + 1, j, w, hf, hj, hm, hw, h1, h2 => by
    obtain ⟨c, e, hc⟩ := byte_cnt (b := b) (w := w) (j := j) (fun k hk => hw k (by omega))
    have hcl := cH_le (b := b) (j + 8)
    rw [byteSkip, e, sbind]
    dsimp only
    rw [add64_of_lt (a := cH b j) (by omega), hc, add64_of_lt (by omega), zerosAt_ok h hp hz hx hn (j := j + 8) (by omega) (fun _ => hw 7 (by omega)), sbind]
    by_cases g : zP xs b (j + 8) < i
    · rw [if_pos g]
      have ht : t ≠ 0 := by
        rintro rfl
        rw [show j + 8 * (0 + 1) = j + 8 by omega] at h2; omega
      refine byteSkip_ok hx hn t fuel (j + 8) (w >>> 8) (by omega) (by omega) (by omega) (fun k hk => ?_) g (by rw [show j + 8 + 8 * t = j + 8 * (t + 1) by omega]; exact h2)
      rw [BitVec.getLsbD_ushiftRight, hw (8 + k) (by omega), Nat.add_assoc]
    · rw [if_neg g]
      exact ⟨j, w, rfl, by omega, by omega, fun k hk => hw k (by omega), h1, by omega⟩

include h hp hz in
theorem bitScan_ok (hx : ∀ x, x ∈ xs → x < n) (hn : n + 1 < 2 ^ 64) {i : Nat} (hi : i + xs.length ≤ n) : ∀ (d fuel j : Nat) (w : Word), d < fuel → j + d ≤ b.high.length + 64 → j % 64 + d ≤ 64 →
    (∀ k, k < d → w.getLsbD k = Bv.bit b.high (j + k)) → zP xs b j < i → i ≤ zP xs b (j + d) →
    ∃ p, bitScan b (2 ^ b.wl) i fuel j w (cH b j) = some p ∧ IsSelect (fun p => decide (p ∈ xs) == false) n i p
  | 0, fuel, j, w, _, _, _, _, h1, h2 => by
    rw [Nat.add_zero] at h2; omega
  | _, 0, _, _, hf, _, _, _, _, _ => by omega
  | d + 1, fuel + 1, j, w, hf, hj, hm, hw, h1, h2 => by
    have hcl := cH_le (b := b) j
    have hbit := hw 0 (by omega)
    rw [Nat.add_zero] at hbit
    have next : zP xs b (j + 1) < i → ∃ p, (do
        let w ← if (j + 1) % 64 = 0 then word b.high (j + 1) else pure (w >>> 1)
        bitScan b (2 ^ b.wl) i fuel (j + 1) w (cH b (j + 1))) = some p ∧ IsSelect (fun p => decide (p ∈ xs) == false) n i p := by
      intro g
      have hd : d ≠ 0 := by
        rintro rfl
        rw [Nat.zero_add] at h2; omega
      rw [if_neg (by omega)]
      refine bitScan_ok hx hn hi d fuel (j + 1) (w >>> 1) (by omega) (by omega) (by omega) (fun k hk => ?_) g (by rw [show j + 1 + d = j + (d + 1) by omega]; exact h2)
      rw [BitVec.getLsbD_ushiftRight, hw (1 + k) (by omega), Nat.add_assoc]
    have hcut := cut_eP h hp (j + 1)
    have hpos := hcut.le_pos hp
    rw [bitScan]
    dsimp only
    rw [add64_of_lt (by omega), hbit]
    cases hb : Bv.bit b.high j with
    | false =>
      rw [if_pos rfl]
      have he := eP_false (xs := xs) hb
      rw [cH_false hb] at hcut hpos
      have hzz : zP xs b (j + 1) = (j + 1 - cH b j) * 2 ^ b.wl - cH b j := by rw [zP, he, cH_false hb]
      obtain ⟨m1, m2⟩ := mul_ok h hp hz hx (j := j + 1) (a := j + 1 - cH b j) (by omega) (by rw [cH_false hb]; exact Nat.le_refl _)
      rw [he] at hcut hpos
      rw [sub64_of_le (a := j + 1) (b := cH b j) (by omega) (by omega), m1, sub64_of_le hpos (by omega), ← hzz]
      by_cases g : i ≤ zP xs b (j + 1)
      · rw [if_pos g]
        refine ⟨_, rfl, ?_⟩
        have := sel_between h hp hi hcut h1 (by omega)
        rw [sub64_of_le g (by omega), sub64_of_le (b := zP xs b (j + 1) - i) (by omega) (by omega), sub64_of_le (b := 1) (by omega) (by omega),
          show (j + 1 - cH b j) * 2 ^ b.wl - (zP xs b (j + 1) - i) - 1 = i + cH b j - 1 by omega]
        exact this
      · rw [if_neg g]
        have := next (by omega)
        rw [cH_false hb] at this
        exact this
    | true =>
      rw [if_neg (by decide)]
      obtain ⟨o1, o2⟩ := one_at h hp hb
      have he := eP_true (xs := xs) hb
      have hxl := hx _ (X_mem o1)
      have hge := X_ge hp o1
      have hdm := Nat.div_add_mod (X xs (cH b j)) (2 ^ b.wl)
      have hzz : zP xs b (j + 1) = X xs (cH b j) + 1 - (cH b j + 1) := by rw [zP, he, cH_true hb]
      obtain ⟨m1, m2⟩ := mul_ok h hp hz hx (j := j) (a := j - cH b j) (by omega) (Nat.le_refl _)
      have hsum : (j - cH b j) * 2 ^ b.wl + X xs (cH b j) % 2 ^ b.wl = X xs (cH b j) := by
        rw [show j - cH b j = X xs (cH b j) / 2 ^ b.wl by omega, Nat.mul_comm]; exact hdm
      rw [sub64_of_le (a := j + 1) (by omega) (by omega), Nat.add_sub_cancel, sub64_of_le hcl (by omega), m1, low_get h o1, sbind]
      rw [add64_of_lt (a := (j - cH b j) * 2 ^ b.wl) (by omega), hsum, add64_of_lt (a := X xs (cH b j)) (by omega), add64_of_lt (a := cH b j) (by omega),
        sub64_of_le (a := X xs (cH b j) + 1) (by omega) (by omega), ← hzz]
      by_cases g : i ≤ zP xs b (j + 1)
      · rw [if_pos g]
        refine ⟨_, rfl, ?_⟩
        have hA : Cut xs.length (fun k => X xs k < X xs (cH b j)) (cH b j) := ⟨by omega, fun k hk => X_mono hp hk o1, fun k g1 g2 => by
          have := X_mono_le hp g1 g2
          show ¬ _ < _
          omega⟩
        have := sel_between h hp hi hA h1 (by omega)
        rw [sub64_of_le g (by omega), sub64_of_le (b := zP xs b (j + 1) - i) (by omega) (by omega), sub64_of_le (b := 1) (by omega) (by omega),
          show X xs (cH b j) - (zP xs b (j + 1) - i) - 1 = i + cH b j - 1 by omega]
        exact this
      · rw [if_neg g]
        have := next (by omega)
        rw [cH_true hb] at this
        exact this

/-! ## Construction -/

/-- The first `K` samples are correct: sample `k` is a word before the zero number `k * S + 1`. -/
structure Part (xs : List Nat) (b : Sd) (S Q K : Nat) (t : Sel0) : Prop where
  pl : t.pointer.xs.length = Q
  rl : t.rank1.xs.length = Q
  pw : b.high.length / 64 < 2 ^ t.pointer.width
  rw' : b.high.length < 2 ^ t.rank1.width
  get : ∀ k, k < K → ∃ u, t.pointer.xs[k]? = some u ∧ t.rank1.xs[k]? = some (cH b (64 * u)) ∧ 64 * u < b.high.length ∧ zP xs b (64 * u) ≤ k * S

theorem storeLoop_ok {S Q zeros z blk : Nat} (hS : 0 < S) (hQ : Q = zeros / S + 1) (hs : zeros + S < 2 ^ 64) (hb : 64 * blk < b.high.length) : ∀ (fuel K : Nat) (t : Sel0),
    zeros < K * S + 1 + fuel → Part xs b S Q K t → (K * S + 1 ≤ zeros → zP xs b (64 * blk) ≤ K * S) →
    ∃ K' t', storeLoop z zeros S blk (cH b (64 * blk)) fuel (K * S + 1) t = some (K' * S + 1, t') ∧ Part xs b S Q K' t' ∧ (K' * S + 1 ≤ zeros → z ≤ K' * S)
  | 0, K, t, hf, hp, _ => by
    rw [storeLoop, if_neg (by omega)]
    exact ⟨K, t, rfl, hp, by omega⟩
  | fuel + 1, K, t, hf, hp, hz => by
    rw [storeLoop]
    by_cases g : K * S + 1 ≤ z ∧ K * S + 1 ≤ zeros
    · have hd : div64 (sub64 (K * S + 1) 1) S = some K := by
        rw [sub64_of_le (by omega) (by omega), Nat.add_sub_cancel, div64, if_neg (by omega), Nat.mul_div_cancel _ hS]
      have hK : K < Q := by
        have : K ≤ zeros / S := (Nat.le_div_iff_mul_le hS).2 (by omega)
        omega
      have hle := cH_le (b := b) (64 * blk)
      have e1 : t.pointer.set K blk = some { t.pointer with xs := t.pointer.xs.set K blk } := by
        rw [Arr.set_of_lt (by rw [hp.pl]; exact hK), Nat.mod_eq_of_lt (Nat.lt_of_le_of_lt (by omega) hp.pw)]
      have e2 : t.rank1.set K (cH b (64 * blk)) = some { t.rank1 with xs := t.rank1.xs.set K (cH b (64 * blk)) } := by
        rw [Arr.set_of_lt (by rw [hp.rl]; exact hK), Nat.mod_eq_of_lt (Nat.lt_of_le_of_lt (by omega) hp.rw')]
      rw [if_pos g, hd, sbind, e1, sbind, sbind, e2, sbind, add64_of_lt (by omega), show K * S + 1 + S = (K + 1) * S + 1 by rw [Nat.add_mul]; omega]
      refine storeLoop_ok hS hQ hs hb fuel (K + 1) _ (by rw [Nat.add_mul]; omega) ⟨?_, ?_, hp.pw, hp.rw', fun k hk => ?_⟩ (fun _ => by have := hz g.2; rw [Nat.add_mul]; omega)
      · show (t.pointer.xs.set K blk).length = Q
        rw [List.length_set, hp.pl]
      · show (t.rank1.xs.set K _).length = Q
        rw [List.length_set, hp.rl]
      · show ∃ u, (t.pointer.xs.set K blk)[k]? = some u ∧ (t.rank1.xs.set K (cH b (64 * blk)))[k]? = some (cH b (64 * u)) ∧ _
        rcases Nat.lt_or_ge k K with q | q
        · obtain ⟨u, g1, g2, g3⟩ := hp.get k q
          exact ⟨u, by rw [List.getElem?_set_ne (by omega), g1], by rw [List.getElem?_set_ne (by omega), g2], g3⟩
        · obtain rfl : k = K := by omega
          refine ⟨blk, ?_, ?_, hb, hz g.2⟩
          · rw [List.getElem?_set_self (by rw [hp.pl]; exact hK)]
          · rw [List.getElem?_set_self (by rw [hp.rl]; exact hK)]
    · rw [if_neg g]
      exact ⟨K, t, rfl, hp, by omega⟩

include h hp hz in
theorem buildLoop_ok (hx : ∀ x, x ∈ xs → x < n) (hn : n + 1 < 2 ^ 64) {S Q : Nat} (hS : 0 < S) (eS : mul64 64 (2 ^ b.wl) = S) (hQ : Q = (n - xs.length) / S + 1) (hs : n - xs.length + S < 2 ^ 64) :
    ∀ (c u K : Nat) (t : Sel0), b.high.length ≤ 64 * (u + c) → (c ≠ 0 → 64 * (u + c) < b.high.length + 64) → Part xs b S Q K t → (K * S + 1 ≤ n - xs.length → zP xs b (64 * u) ≤ K * S) →
    ∃ K' t', buildLoop b (2 ^ b.wl) (n - xs.length) c (64 * u) (cH b (64 * u)) (K * S + 1) t = some t' ∧ Part xs b S Q K' t' ∧ n - xs.length < K' * S + 1
  | 0, u, K, t, h1, _, hpt, hk => by
    have := (zP_end h hp hx (j := 64 * u) (by omega)).2
    exact ⟨K, t, rfl, hpt, by omega⟩
  | c + 1, u, K, t, h1, h2, hpt, hk => by
    have h2 := h2 (by omega)
    obtain ⟨w, ew, hw⟩ := word_ok (B := b.high) (i := 64 * u) (by omega)
    have hc := word_cnt (b := b) hw
    have hcl := cH_le (b := b) (64 * u + 64)
    rw [buildLoop, ew, sbind]
    dsimp only
    rw [add64_of_lt (a := cH b _) (by omega), hc, add64_of_lt (by omega), zerosAt_ok h hp hz hx hn (j := 64 * u + 64) (by omega) (fun _ => hw 63 (by omega)), sbind, eS,
      Nat.mul_div_cancel_left _ (by decide : 0 < 64)]
    obtain ⟨K', t', e, g1, g2⟩ := storeLoop_ok (xs := xs) (b := b) (z := zP xs b (64 * u + 64)) hS hQ hs (blk := u) (by omega) (n - xs.length + 1) K t (by omega) hpt hk
    rw [e, sbind]
    dsimp only
    rw [show 64 * u + 64 = 64 * (u + 1) by omega] at g2 ⊢
    exact buildLoop_ok hx hn hS eS hQ hs c (u + 1) K' t' (by omega) (fun _ => by omega) g1 g2

theorem lt_two_pow_clamp {x : Nat} (hx : x < 2 ^ 64) : x < 2 ^ IntVec.clampWidth (Nat.log2 x + 1) := by
  have h1 : x < 2 ^ (Nat.log2 x + 1) := Nat.lt_log2_self
  have h2 : Nat.log2 x < 64 := by
    rcases Nat.eq_zero_or_pos x with e | e
    · rw [e]; decide
    · exact (Nat.log2_lt (by omega)).2 hx
  unfold IntVec.clampWidth
  rw [if_pos (by omega)]
  exact h1

include h hp hz in
theorem new_ok (hx : ∀ x, x ∈ xs → x < n) (hn : n < 2 ^ 63) (hwl : b.wl < 58) :
    ∃ t K, Sel0.new b = some t ∧ Part xs b (64 * 2 ^ b.wl) ((n - xs.length) / (64 * 2 ^ b.wl) + 1) K t ∧ n - xs.length < K * (64 * 2 ^ b.wl) + 1 := by
  have hW : 0 < 2 ^ b.wl := Nat.pow_pos (by decide)
  have hW2 : 2 ^ b.wl ≤ 2 ^ 57 := Nat.pow_le_pow_right (by decide) (by omega)
  have hlen : b.high.length < 2 ^ 64 := by omega
  have hml := length_le_of_increasing hp hx
  have hcut : Cut xs.length (fun j => X xs j < n) xs.length := ⟨Nat.le_refl _, fun j hj => hx _ (X_mem hj), fun j hj1 hj2 => by omega⟩
  have er : rank true b b.size = some xs.length := by
    rw [h.size, rank_ok h hp (by omega) true (Nat.le_refl _), count_tb, if_pos rfl, count_mem hp hcut]
  have eS : mul64 64 (2 ^ b.wl) = 64 * 2 ^ b.wl := Nat.mod_eq_of_lt (by omega)
  have e1 : (BitVec.ofNat 64 (b.high.length / 64)).toNat = b.high.length / 64 := by rw [BitVec.toNat_ofNat, Nat.mod_eq_of_lt (by omega)]
  have e2 : (BitVec.ofNat 64 b.high.length).toNat = b.high.length := by rw [BitVec.toNat_ofNat, Nat.mod_eq_of_lt (by omega)]
  have hbs : shl64 1 b.wl = some (2 ^ b.wl) := by rw [shl64_of_lt h.wl (by omega), Nat.one_mul]
  unfold Sel0.new
  rw [hbs, sbind, er, sbind, h.size]
  dsimp only
  rw [sub64_of_le hml (by omega), eS, div64, if_neg (by omega), sbind, hi_eq, sbind, hi_eq, sbind, e1, e2]
  obtain ⟨K, t, g1, g2, g3⟩ := buildLoop_ok h hp hz hx (by omega) (S := 64 * 2 ^ b.wl) (by omega) eS rfl (by omega) ((b.high.length + 63) / 64) 0 0
    ⟨Arr.new ((n - xs.length) / (64 * 2 ^ b.wl) + 1) 0 (Nat.log2 (b.high.length / 64) + 1),
      Arr.new (Arr.new ((n - xs.length) / (64 * 2 ^ b.wl) + 1) 0 (Nat.log2 (b.high.length / 64) + 1)).xs.length 0 (Nat.log2 b.high.length + 1)⟩
    (by omega) (fun _ => by omega)
    ⟨by simp [Arr.new], by simp [Arr.new], lt_two_pow_clamp (by omega), lt_two_pow_clamp hlen, fun k hk => by omega⟩ (fun _ => by
      rw [Nat.mul_zero, zP, eP, if_neg (fun g => by have := cH_le (b := b) 0; omega), Nat.zero_sub, Nat.zero_mul, Nat.zero_sub]; exact Nat.zero_le _)
  refine ⟨t, K, ?_, g2, g3⟩
  rw [Nat.zero_mul, Nat.mul_zero] at g1
  exact g1

include h hp hz in
theorem select_ok (hx : ∀ x, x ∈ xs → x < n) (hn : n < 2 ^ 63) (hwl : b.wl < 58) {t : Sel0} {K Q : Nat} (ht : Part xs b (64 * 2 ^ b.wl) Q K t) (hK : n - xs.length < K * (64 * 2 ^ b.wl) + 1)
    {i : Nat} (h1 : 1 ≤ i) (h2 : i + xs.length ≤ n) : ∃ p, t.select b i = some p ∧ IsSelect (fun p => decide (p ∈ xs) == false) n i p := by
  have hW : 0 < 2 ^ b.wl := Nat.pow_pos (by decide)
  have hW2 : 2 ^ b.wl ≤ 2 ^ 57 := Nat.pow_le_pow_right (by decide) (by omega)
  have hlen : b.high.length < 2 ^ 64 := by omega
  have eS : mul64 64 (2 ^ b.wl) = 64 * 2 ^ b.wl := Nat.mod_eq_of_lt (by omega)
  have hbs : shl64 1 b.wl = some (2 ^ b.wl) := by rw [shl64_of_lt h.wl (by omega), Nat.one_mul]
  obtain ⟨k, hk⟩ : ∃ k, k = (i - 1) / (64 * 2 ^ b.wl) := ⟨_, rfl⟩
  have hkl : k * (64 * 2 ^ b.wl) ≤ i - 1 := by rw [hk]; exact Nat.div_mul_le_self _ _
  have hkK : k < K := by
    rcases Nat.lt_or_ge k K with q | q
    · exact q
    · have := Nat.mul_le_mul_right (64 * 2 ^ b.wl) q
      omega
  obtain ⟨u, g1, g2, g3, g4⟩ := ht.get k hkK
  have hcl := cH_le (b := b) (64 * u)
  unfold Sel0.select
  rw [hbs, sbind, eS, sub64_of_le h1 (by omega), div64, if_neg (by omega), sbind, ← hk, Arr.get, g1, sbind]
  dsimp only
  rw [Arr.get, g2, sbind, mul64, Nat.mul_comm u 64, Nat.mod_eq_of_lt (by omega)]
  obtain ⟨w, ew, hw⟩ := word_ok (B := b.high) g3
  obtain ⟨j1, w1, a1, a2, a3, a4, a5, a6⟩ := wordSkip_ok h hp hz hx (by omega) h2 (b.high.length + 1) (64 * u) w (by omega) g3 (by omega) hw (by omega)
  obtain ⟨j2, w2, b1, b2, b3, b4, b5, b6⟩ := byteSkip_ok h hp hz hx (by omega) (i := i) 8 9 j1 w1 (by omega) (by omega) (by omega) a4 a5 a6
  have fin := bitScan_ok h hp hz hx (by omega) h2 8 65 j2 w2 (by omega) (by omega) (by omega) b4 b5 b6
  by_cases g : 0 < cH b (64 * u)
  · rw [if_pos g, sub64_of_le (b := 1) (by omega) (by omega), Bv.get_of_lt (by omega), sbind, zerosAt_ok h hp hz hx (by omega) (by omega) (fun _ => rfl), sbind, ew, sbind, a1, sbind]
    dsimp only
    rw [b1, sbind]
    exact fin
  · rw [if_neg g, show (pure false : Option Bool) = some false from rfl, sbind, zerosAt_ok h hp hz hx (by omega) (by omega) (fun q => absurd q g), sbind, ew, sbind, a1, sbind]
    dsimp only
    rw [b1, sbind]
    exact fin

end

end Sdsl.Sd
