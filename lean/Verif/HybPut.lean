/-
  `hyb_vector`: the encoders of a block.
-/
import Verif.HybEnc

namespace Sdsl.Hyb

open Bits Spec

/-! ### Plain -/

structure PlainUpTo (f : Nat → Bool) (t0 : List Nat) (tp i : Nat) (t : List Nat) : Prop where
  len : t.length = t0.length
  below : ∀ q, q < tp → t[q]? = t0[q]?
  words : ∀ k, k < i → ∃ w : Word, rd 8 t (tp + 8 * k) = some w.toNat ∧ ∀ j, j < 64 → w.getLsbD j = f (64 * k + j)

theorem PlainUpTo.step {f : Nat → Bool} {t0 : List Nat} {tp i : Nat} {t : List Nat} (h : PlainUpTo f t0 tp i t) (hl : tp + 8 * (i + 1) ≤ t0.length) {w : Word} (hw : ∀ j, j < 64 → w.getLsbD j = f (64 * i + j)) :
    ∃ t', wr 8 t (tp + 8 * i) w.toNat = some t' ∧ PlainUpTo f t0 tp (i + 1) t' := by
  obtain ⟨t', e1, e2, e3, e4⟩ := wr_spec 8 t (tp + 8 * i) w.toNat (by rw [h.len]; omega)
  refine ⟨t', e1, e2.trans h.len, fun q hq => by rw [e4 q (by omega), h.below q hq], fun k hk => ?_⟩
  by_cases c : k = i
  · subst c
    refine ⟨w, ?_, hw⟩
    rw [e3, Nat.mod_eq_of_lt]
    exact w.isLt
  · obtain ⟨u, u1, u2⟩ := h.words k (by omega)
    exact ⟨u, by rw [rd_congr (m := t) (fun x hx => e4 _ (by omega)), u1], u2⟩

theorem plainFast_spec {v : IntVec} (hv : v.size ≤ 64 * v.data.length) {b : Nat} (hb : b * 256 + 256 ≤ v.size) {t0 : List Nat} {tp : Nat} (hl : tp + 32 ≤ t0.length) :
    ∀ (k i : Nat) (t : List Nat), i + k = 4 → PlainUpTo (blk v b) t0 tp i t → ∃ t', plainFast v.data k (4 * b + i) (tp + 8 * i) t = some (tp + 32, t') ∧ PlainUpTo (blk v b) t0 tp 4 t'
  | 0, i, t, h, hp => by
    obtain rfl : i = 4 := by omega
    exact ⟨t, rfl, hp⟩
  | k + 1, i, t, h, hp => by
    obtain ⟨w, e1, e2⟩ := ld_blk hv hb (show i < 4 by omega)
    obtain ⟨t', e3, e4⟩ := hp.step (by omega) e2
    rw [plainFast, e1, hbind, e3, hbind]
    exact plainFast_spec hv hb hl k (i + 1) t' (by omega) e4

theorem getLsbD_bit (j i : Nat) (hi : i < 64) : (1#64 <<< j).getLsbD i = decide (i = j) := by
  rw [BitVec.getLsbD_shiftLeft, BitVec.getLsbD_one]
  by_cases c : i = j
  · subst c; simp [hi]
  · by_cases d : i < j
    · simp [d, c]
    · simp [d, c]; omega

theorem padWord_spec {v : IntVec} (hv : v.size ≤ 64 * v.data.length) {b k0 : Nat} : ∀ (k j : Nat) (w : Word), j + k = 64 → (∀ i, i < 64 → w.getLsbD i = (decide (i < j) && blk v b (64 * k0 + i))) →
    ∃ w', padWord v (b * 256 + 64 * k0) k j w = some w' ∧ ∀ i, i < 64 → w'.getLsbD i = blk v b (64 * k0 + i)
  | 0, j, w, h, hw => by
    refine ⟨w, rfl, fun i hi => ?_⟩
    rw [hw i hi, decide_eq_true (by omega), Bool.true_and]
  | k + 1, j, w, h, hw => by
    rw [padWord, pad_blk (b := b) (q := 64 * k0 + j) hv (by omega), hbind]
    refine padWord_spec hv k (j + 1) _ (by omega) (fun i hi => ?_)
    by_cases c : i = j
    · subst c
      cases hb : blk v b (64 * k0 + i) with
      | false => rw [if_neg Bool.false_ne_true, hw i hi, hb]; simp
      | true => rw [if_pos rfl, BitVec.getLsbD_or, getLsbD_bit _ _ hi]; simp
    · have e : decide (i < j + 1) = decide (i < j) := by
        by_cases d : i < j
        · rw [decide_eq_true d, decide_eq_true (by omega)]
        · rw [decide_eq_false d, decide_eq_false (by omega)]
      rw [e, ← hw i hi]
      cases hb : blk v b (64 * k0 + j) with
      | false => rw [if_neg Bool.false_ne_true]
      | true => rw [if_pos rfl, BitVec.getLsbD_or, getLsbD_bit _ _ hi, decide_eq_false c, Bool.or_false]

theorem plainSlow_spec {v : IntVec} (hv : v.size ≤ 64 * v.data.length) {b : Nat} {t0 : List Nat} {tp : Nat} (hl : tp + 32 ≤ t0.length) :
    ∀ (k i : Nat) (t : List Nat), i + k = 4 → PlainUpTo (blk v b) t0 tp i t → ∃ t', plainSlow v k (b * 256 + 64 * i) (tp + 8 * i) t = some (tp + 32, t') ∧ PlainUpTo (blk v b) t0 tp 4 t'
  | 0, i, t, h, hp => by
    obtain rfl : i = 4 := by omega
    exact ⟨t, rfl, hp⟩
  | k + 1, i, t, h, hp => by
    obtain ⟨w, e1, e2⟩ := padWord_spec hv (b := b) (k0 := i) 64 0 0#64 (by omega) (fun i hi => by simp)
    obtain ⟨t', e3, e4⟩ := hp.step (by omega) e2
    rw [plainSlow, e1, hbind, e3, hbind]
    have := plainSlow_spec hv hl k (i + 1) t' (by omega) e4
    rw [show b * 256 + 64 * (i + 1) = b * 256 + 64 * i + 64 by omega] at this
    exact this

/-! ### Run ends -/

structure EndsUpTo (f : Nat → Bool) (t0 : List Nat) (tp lim q r : Nat) (t : List Nat) : Prop where
  len : t.length = t0.length
  below : ∀ x, x < tp → t[x]? = t0[x]?
  cnt : r = min lim (countTrue (chg f) q)
  ends : ∀ j, j < q → chg f j = true → countTrue (chg f) j < lim → t[tp + countTrue (chg f) j]? = some j

theorem EndsUpTo.full {f : Nat → Bool} {t0 : List Nat} {tp lim q r : Nat} {t : List Nat} (h : EndsUpTo f t0 tp lim q r t) (hr : ¬ r < lim) {q' : Nat} (hq : q ≤ q') : EndsUpTo f t0 tp lim q' r t := by
  have h1 := h.cnt
  have h2 := countTrue_mono (chg f) hq
  refine ⟨h.len, h.below, by omega, fun j h3 h4 h5 => ?_⟩
  by_cases c : j < q
  · exact h.ends j c h4 h5
  · have := countTrue_mono (chg f) (show q ≤ j by omega)
    omega

theorem EndsUpTo.step {f : Nat → Bool} {t0 : List Nat} {tp lim q r : Nat} {t : List Nat} (h : EndsUpTo f t0 tp lim q r t) (hr : r < lim) (hl : tp + lim ≤ t0.length) (hq : q < 256) :
    ∃ r' t', putIf (chg f q) t tp r q = some (r', t') ∧ EndsUpTo f t0 tp lim (q + 1) r' t' := by
  have h1 := h.cnt
  cases c : chg f q with
  | false =>
    refine ⟨r, t, by rw [putIf, if_neg Bool.false_ne_true], h.len, h.below, by rw [countTrue, c]; exact h1, fun j h3 h4 h5 => ?_⟩
    exact h.ends j (by
      have : j ≠ q := fun e => by rw [e, c] at h4; cases h4
      omega) h4 h5
  | true =>
    refine ⟨r + 1, t.set (tp + r) q, ?_, by rw [List.length_set]; exact h.len, fun x hx => by rw [List.getElem?_set_ne (by omega)]; exact h.below x hx, by rw [countTrue_one c]; omega, fun j h3 h4 h5 => ?_⟩
    · rw [putIf, if_pos rfl, Nat.mod_eq_of_lt hq, setList_of_lt (by rw [h.len]; omega)]; rfl
    · by_cases e : j = q
      · subst e
        rw [show countTrue (chg f) j = r by omega, List.getElem?_set_self (by rw [h.len]; omega)]
      · have := countTrue_lt_of_true (show j < q by omega) h4
        rw [List.getElem?_set_ne (by omega)]
        exact h.ends j (by omega) h4 h5

theorem endsIn_spec {f : Nat → Bool} {t0 : List Nat} {tp lim base : Nat} (hl : tp + lim ≤ t0.length) (hbase : base ≤ 192) {u : Word} (hu : ∀ j, j < 64 → u.getLsbD j = f (base + j)) :
    ∀ (k j r : Nat) (t : List Nat), j + k ≤ 63 → EndsUpTo f t0 tp lim (base + j) r t →
      ∃ w' r' t', endsIn tp lim base k j (u >>> j) r t = some (w', r', t') ∧ EndsUpTo f t0 tp lim (base + (j + k)) r' t' ∧ (r' < lim → w' = u >>> (j + k))
  | 0, j, r, t, _, h => ⟨_, r, t, rfl, h, fun _ => rfl⟩
  | k + 1, j, r, t, hk, h => by
    rw [endsIn]
    by_cases c : r < lim
    · rw [if_pos c]
      obtain ⟨r', t', e1, e2⟩ := h.step c hl (by omega)
      have ec : (u >>> j &&& 1#64 != u >>> j >>> 1 &&& 1#64) = chg f (base + j) := by
        rw [← BitVec.shiftRight_add, shift_one, shift_one, ne_bits, hu j (by omega), hu (j + 1) (by omega), chg]
        rfl
      rw [ec, Nat.add_comm j base, e1, hbind]
      dsimp only
      rw [← BitVec.shiftRight_add]
      have := endsIn_spec hl hbase hu k (j + 1) r' t' (by omega) e2
      rw [show j + 1 + k = j + (k + 1) by omega] at this
      exact this
    · rw [if_neg c]
      exact ⟨_, r, t, rfl, h.full c (by omega), fun h => absurd h c⟩

theorem endsFast_spec {v : IntVec} (hv : v.size ≤ 64 * v.data.length) {b : Nat} (hb : b * 256 + 256 ≤ v.size) {t0 : List Nat} {tp lim : Nat} (hl : tp + lim ≤ t0.length) :
    ∀ (k i r : Nat) (w : Word) (t : List Nat), i + k = 4 → EndsUpTo (blk v b) t0 tp lim (64 * i - 1) r t → (r < lim → 0 < i → w.getLsbD 0 = blk v b (64 * i - 1)) →
      ∃ r' t', endsFast v.data (4 * b) tp lim k i w r t = some (r', t') ∧ EndsUpTo (blk v b) t0 tp lim 255 r' t'
  | 0, i, r, w, t, hk, h, _ => by
    obtain rfl : i = 4 := by omega
    exact ⟨r, t, rfl, h⟩
  | k + 1, i, r, w, t, hk, h, hw => by
    rw [endsFast]
    by_cases c : r < lim
    · obtain ⟨u, e1, e2⟩ := ld_blk hv hb (show i < 4 by omega)
      rw [if_pos c, e1, hbind]
      have hput : ∃ r' t', putIf (decide (i > 0) && (w &&& 1#64 != u &&& 1#64)) t tp r (64 * i - 1) = some (r', t') ∧ EndsUpTo (blk v b) t0 tp lim (64 * i) r' t' := by
        by_cases d : i = 0
        · subst d
          exact ⟨r, t, rfl, h⟩
        · obtain ⟨r', t', f1, f2⟩ := h.step c hl (by omega)
          rw [show 64 * i - 1 + 1 = 64 * i by omega] at f2
          have ec : (decide (i > 0) && (w &&& 1#64 != u &&& 1#64)) = chg (blk v b) (64 * i - 1) := by
            rw [decide_eq_true (by omega), Bool.true_and, low_one, low_one, ne_bits, hw c (by omega), e2 0 (by omega), chg, show 64 * i - 1 + 1 = 64 * i by omega]
            rfl
          rw [ec]
          exact ⟨r', t', f1, f2⟩
      obtain ⟨r1, t1, f1, f2⟩ := hput
      rw [f1, hbind]
      obtain ⟨w', r2, t2, g1, g2, g3⟩ := endsIn_spec hl (base := 64 * i) (by omega) e2 63 0 r1 t1 (by omega) f2
      rw [BitVec.ushiftRight_zero] at g1
      dsimp only
      rw [g1, hbind]
      refine endsFast_spec hv hb hl k (i + 1) r2 w' t2 (by omega) ?_ (fun hr _ => ?_)
      · rw [show 64 * (i + 1) - 1 = 64 * i + (0 + 63) by omega]; exact g2
      · rw [g3 hr, BitVec.getLsbD_ushiftRight, show 64 * (i + 1) - 1 = 64 * i + 63 by omega]
        exact e2 63 (by omega)
    · rw [if_neg c]
      exact ⟨r, t, rfl, h.full c (by omega)⟩

theorem endsSlow_spec {v : IntVec} (hv : v.size ≤ 64 * v.data.length) {b : Nat} {t0 : List Nat} {tp lim : Nat} (hl : tp + lim ≤ t0.length) (hC : lim ≤ countTrue (chg (blk v b)) 255) :
    ∀ (fuel n r : Nat) (t : List Nat), fuel + n = 257 → EndsUpTo (blk v b) t0 tp lim (n - 1) r t →
      ∃ r' t', endsSlow v (b * 256) tp lim fuel (b * 256 + n) (if n = 0 then none else some (blk v b (n - 1))) r t = some (r', t') ∧ EndsUpTo (blk v b) t0 tp lim 255 r' t'
  | 0, n, r, t, hn, h => by
    have h1 := h.cnt
    have h2 := countTrue_mono (chg (blk v b)) (show 255 ≤ n - 1 by omega)
    rw [endsSlow, if_neg (by omega)]
    refine ⟨r, t, rfl, h.len, h.below, by omega, fun j h3 h4 h5 => h.ends j (by omega) h4 h5⟩
  | fuel + 1, n, r, t, hn, h => by
    rw [endsSlow]
    by_cases c : r < lim
    · have h1 := h.cnt
      have hn2 : n < 256 := by
        by_contra hc
        have h2 := countTrue_mono (chg (blk v b)) (show 255 ≤ n - 1 by omega)
        omega
      rw [if_pos c, pad_blk (b := b) (q := n) hv (by omega), hbind]
      have hput : ∃ r' t', putIf (decide (some (blk v b n) ≠ if n = 0 then none else some (blk v b (n - 1))) && decide (b * 256 + n ≠ b * 256)) t tp r (b * 256 + n - b * 256 - 1) = some (r', t') ∧
          EndsUpTo (blk v b) t0 tp lim n r' t' := by
        by_cases d : n = 0
        · subst d
          refine ⟨r, t, by simp [putIf], h⟩
        · obtain ⟨r', t', f1, f2⟩ := h.step c hl (by omega)
          rw [show n - 1 + 1 = n by omega] at f2
          have ec : (decide (some (blk v b n) ≠ if n = 0 then none else some (blk v b (n - 1))) && decide (b * 256 + n ≠ b * 256)) = chg (blk v b) (n - 1) := by
            rw [if_neg d, chg, show n - 1 + 1 = n by omega]
            cases blk v b (n - 1) <;> cases blk v b n <;> simp [d]
          rw [ec, show b * 256 + n - b * 256 - 1 = n - 1 by omega]
          exact ⟨r', t', f1, f2⟩
      obtain ⟨r1, t1, f1, f2⟩ := hput
      rw [f1, hbind]
      have := endsSlow_spec hv hl hC fuel (n + 1) r1 t1 (by omega) f2
      rw [if_neg (Nat.succ_ne_zero n), Nat.add_sub_cancel, ← Nat.add_assoc] at this
      exact this
    · rw [if_neg c]
      by_cases hn2 : n - 1 ≤ 255
      · exact ⟨r, t, rfl, h.full c hn2⟩
      · have h1 := h.cnt
        exact ⟨r, t, rfl, h.len, h.below, by omega, fun j h3 h4 h5 => h.ends j (by omega) h4 h5⟩

/-! ### Minority -/

structure KeysUpTo (f : Nat → Bool) (key : Bool) (t0 : List Nat) (tp q p : Nat) (t : List Nat) : Prop where
  len : t.length = t0.length
  below : ∀ x, x < tp → t[x]? = t0[x]?
  pos : p = tp + countTrue (fun q => f q == key) q
  keys : ∀ j, j < q → f j = key → t[tp + countTrue (fun q => f q == key) j]? = some j

theorem KeysUpTo.step {f : Nat → Bool} {key : Bool} {t0 : List Nat} {tp q p : Nat} {t : List Nat} (h : KeysUpTo f key t0 tp q p t) (hl : tp + countTrue (fun q => f q == key) 256 ≤ t0.length) (hq : q < 256) :
    ∃ p' t', putIf (f q == key) t 0 p q = some (p', t') ∧ KeysUpTo f key t0 tp (q + 1) p' t' := by
  have h1 := h.pos
  cases c : (f q == key) with
  | false =>
    refine ⟨p, t, by rw [putIf, if_neg Bool.false_ne_true], h.len, h.below, by rw [countTrue, c]; exact h1, fun j h3 h4 => ?_⟩
    exact h.keys j (by
      have : j ≠ q := fun e => by rw [e] at h4; rw [h4] at c; simp at c
      omega) h4
  | true =>
    have hk : f q = key := by simpa using c
    have hlt := countTrue_lt_of_true (f := fun q => f q == key) hq c
    refine ⟨p + 1, t.set p q, ?_, by rw [List.length_set]; exact h.len, fun x hx => by rw [List.getElem?_set_ne (by omega)]; exact h.below x hx, by rw [key_succ hk]; omega, fun j h3 h4 => ?_⟩
    · rw [putIf, if_pos rfl, Nat.mod_eq_of_lt hq, Nat.zero_add, setList_of_lt (by rw [h.len]; omega)]; rfl
    · by_cases e : j = q
      · subst e
        rw [← h1, List.getElem?_set_self (by rw [h.len]; omega)]
      · have := countTrue_lt_of_true (f := fun q => f q == key) (show j < q by omega) (by simpa using h4)
        rw [List.getElem?_set_ne (by omega)]
        exact h.keys j (by omega) h4

theorem minorIn_spec {f : Nat → Bool} {key : Bool} {t0 : List Nat} {tp base : Nat} (hl : tp + countTrue (fun q => f q == key) 256 ≤ t0.length) (hbase : base ≤ 192) {u : Word} (hu : ∀ j, j < 64 → u.getLsbD j = f (base + j)) :
    ∀ (k j p : Nat) (t : List Nat), j + k = 64 → KeysUpTo f key t0 tp (base + j) p t →
      ∃ p' t', minorIn key base k j (u >>> j) p t = some (p', t') ∧ KeysUpTo f key t0 tp (base + 64) p' t'
  | 0, j, p, t, hk, h => by
    obtain rfl : j = 64 := by omega
    exact ⟨p, t, rfl, h⟩
  | k + 1, j, p, t, hk, h => by
    obtain ⟨p', t', e1, e2⟩ := h.step hl (by omega)
    have ec : (u >>> j &&& 1#64 == if key then 1#64 else 0#64) = (f (base + j) == key) := by
      rw [shift_one, eq_bits, hu j (by omega)]
    rw [minorIn, ec, Nat.add_comm j base, e1, hbind]
    dsimp only
    rw [← BitVec.shiftRight_add]
    exact minorIn_spec hl hbase hu k (j + 1) p' t' (by omega) e2

theorem minorFast_spec {v : IntVec} (hv : v.size ≤ 64 * v.data.length) {b : Nat} (hb : b * 256 + 256 ≤ v.size) {key : Bool} {t0 : List Nat} {tp : Nat} (hl : tp + countTrue (fun q => blk v b q == key) 256 ≤ t0.length) :
    ∀ (k i p : Nat) (t : List Nat), i + k = 4 → KeysUpTo (blk v b) key t0 tp (64 * i) p t →
      ∃ p' t', minorFast v.data key (4 * b) k i p t = some (p', t') ∧ KeysUpTo (blk v b) key t0 tp 256 p' t'
  | 0, i, p, t, hk, h => by
    obtain rfl : i = 4 := by omega
    exact ⟨p, t, rfl, h⟩
  | k + 1, i, p, t, hk, h => by
    obtain ⟨u, e1, e2⟩ := ld_blk hv hb (show i < 4 by omega)
    obtain ⟨p', t', g1, g2⟩ := minorIn_spec hl (base := 64 * i) (by omega) e2 64 0 p t (by omega) h
    rw [BitVec.ushiftRight_zero] at g1
    rw [minorFast, e1, hbind, g1, hbind]
    exact minorFast_spec hv hb hl k (i + 1) p' t' (by omega) g2

theorem minorSlow_spec {v : IntVec} (hv : v.size ≤ 64 * v.data.length) {b : Nat} {key : Bool} {t0 : List Nat} {tp : Nat} (hl : tp + countTrue (fun q => blk v b q == key) 256 ≤ t0.length) :
    ∀ (k q p : Nat) (t : List Nat), q + k = 256 → KeysUpTo (blk v b) key t0 tp q p t →
      ∃ p' t', minorSlow v key (b * 256) k (b * 256 + q) p t = some (p', t') ∧ KeysUpTo (blk v b) key t0 tp 256 p' t'
  | 0, q, p, t, hk, h => by
    obtain rfl : q = 256 := by omega
    exact ⟨p, t, rfl, h⟩
  | k + 1, q, p, t, hk, h => by
    obtain ⟨p', t', e1, e2⟩ := h.step hl (by omega)
    rw [minorSlow, pad_blk (b := b) (q := q) hv (by omega), hbind, show b * 256 + q - b * 256 = q by omega, e1, hbind]
    have := minorSlow_spec hv hl k (q + 1) p' t' (by omega) e2
    rw [← Nat.add_assoc] at this
    exact this

/-! ### The header and the encoding of a block -/

theorem header_or (ones e s : Nat) (h1 : ones < 512) (hs : s < 2) : ones ||| (e <<< 10) ||| (s <<< 9) = e * 1024 + s * 512 + ones := by
  have a1 : s <<< 9 ||| ones = s * 512 + ones := by
    rw [← Nat.shiftLeft_add_eq_or_of_lt (show ones < 2 ^ 9 from h1), Nat.shiftLeft_eq]
  have a2 : e <<< 10 ||| (s * 512 + ones) = e * 1024 + (s * 512 + ones) := by
    rw [← Nat.shiftLeft_add_eq_or_of_lt (show s * 512 + ones < 2 ^ 10 by omega), Nat.shiftLeft_eq]
  rw [Nat.or_comm ones, Nat.or_assoc, Nat.or_comm ones, a1, a2, Nat.add_assoc]

/-- How a block with the bits `f` is stored: header `y`, `e` bytes from byte `p` of the trunk. -/
structure Coded (f : Nat → Bool) (t : List Nat) (p y e : Nat) : Prop where
  ones : y % 512 = countTrue f 256
  enc : y / 1024 = e
  le : e ≤ 32
  cases : (e = 0 ∧ countTrue (chg f) 255 ≤ 1 ∧ y / 512 % 2 = (f 0).toNat) ∨
    (0 < e ∧ e < 32 ∧ e < min (countTrue f 256) (256 - countTrue f 256) ∧ countTrue (chg f) 255 = e + 1 ∧ y / 512 % 2 = (f 0).toNat ∧ EndsAt f t p e) ∨
    (0 < e ∧ e < 32 ∧ e = min (countTrue f 256) (256 - countTrue f 256) ∧ y / 512 % 2 = (decide (countTrue f 256 < 256 - countTrue f 256)).toNat ∧
      KeysAt f (decide (countTrue f 256 < 256 - countTrue f 256)) t p) ∨
    (e = 32 ∧ PlainAt f t p)

/-- Size of the encoding of a block with the bits `f`. -/
def esz (f : Nat → Bool) : Nat := encSize (countTrue f 256) (countTrue (chg f) 255 + 1)

theorem all_true {f : Nat → Bool} {n : Nat} (h : countTrue f n = n) {q : Nat} (hq : q < n) : f q = true := by
  cases c : f q with
  | true => rfl
  | false =>
    have h2 := countTrue_not f n
    rw [h, Nat.sub_self] at h2
    have := countTrue_eq_zero h2 hq
    simp [c] at this

theorem key_count (f : Nat → Bool) : countTrue (fun q => f q == decide (countTrue f 256 < 256 - countTrue f 256)) 256 = min (countTrue f 256) (256 - countTrue f 256) := by
  have hle := countTrue_le f 256
  by_cases c : countTrue f 256 < 256 - countTrue f 256
  · rw [decide_eq_true c, countTrue_congr (g := f) (fun i _ => by cases f i <;> rfl)]; omega
  · have := countTrue_not f 256
    rw [decide_eq_false c, countTrue_congr (g := fun i => !f i) (fun i _ => by cases f i <;> rfl), this]; omega

theorem encode_spec {v : IntVec} (hv : v.size ≤ 64 * v.data.length) {b tp : Nat} {t : List Nat} (hb : 256 * b < v.size) (hl : tp + esz (blk v b) ≤ t.length) :
    ∃ y t', encode v b (countTrue (blk v b) 256) (countTrue (chg (blk v b)) 255 + 1) tp t = some (y, tp + esz (blk v b), t') ∧ t'.length = t.length ∧ (∀ q, q < tp → t'[q]? = t[q]?) ∧ y < 2 ^ 16 ∧
      Coded (blk v b) t' tp y (esz (blk v b)) := by
  generalize hf : blk v b = f at *
  have hle := countTrue_le f 256
  have hf0 : v.get1 (b * 256) = some (f 0) := by
    have := pad_blk hv (b := b) (q := 0) (i := b * 256) (by omega)
    rw [pad, if_pos (by omega), hf] at this
    exact this
  rw [encode]
  dsimp only
  by_cases c : 0 < countTrue f 256 ∧ countTrue f 256 < 256
  · rw [if_pos c, if_neg (show countTrue f 256 ≠ 256 by omega)]
    rw [show countTrue (chg f) 255 + 1 - 2 = countTrue (chg f) 255 - 1 by omega]
    by_cases c1 : 32 ≤ min (min (countTrue f 256) (256 - countTrue f 256)) (countTrue (chg f) 255 - 1)
    · have he : esz f = 32 := by unfold esz encSize; omega
      rw [if_pos c1]
      rw [he] at hl ⊢
      have h0 : PlainUpTo f t tp 0 t := ⟨rfl, fun _ _ => rfl, fun k hk => absurd hk (by omega)⟩
      have : ∃ t', putPlain v b tp t = some (tp + 32, t') ∧ PlainUpTo f t tp 4 t' := by
        subst hf
        by_cases d : b * 256 + 256 ≤ v.size
        · rw [putPlain, if_pos d]
          exact plainFast_spec hv d hl 4 0 t rfl h0
        · rw [putPlain, if_neg d]
          have := plainSlow_spec hv hl (b := b) 4 0 t rfl h0
          rw [Nat.mul_zero, Nat.add_zero, Nat.add_zero] at this
          exact this
      obtain ⟨t', e1, e2⟩ := this
      rw [e1, hbind]
      have hy := header_or (countTrue f 256) 32 0 (by omega) (by omega)
      rw [Nat.zero_shiftLeft, Nat.or_zero] at hy
      refine ⟨_, t', rfl, e2.len, e2.below, ?_, ?_⟩
      · rw [hy]; omega
      · rw [hy]
        exact ⟨by omega, by omega, by omega, Or.inr (Or.inr (Or.inr ⟨rfl, e2.words⟩))⟩
    · rw [if_neg c1]
      by_cases c2 : countTrue (chg f) 255 - 1 < min (countTrue f 256) (256 - countTrue f 256)
      · have he : esz f = countTrue (chg f) 255 - 1 := by unfold esz encSize; omega
        rw [if_pos c2, hf0, hbind]
        rw [he] at hl ⊢
        generalize hlim : countTrue (chg f) 255 - 1 = lim at *
        have h0 : EndsUpTo f t tp lim 0 0 t := ⟨rfl, fun _ _ => rfl, by simp [countTrue], fun k hk => absurd hk (by omega)⟩
        have : ∃ r' t', putEnds v b tp lim t = some (r', t') ∧
            EndsUpTo f t tp lim 255 r' t' := by
          subst hf
          by_cases d : b * 256 + 256 ≤ v.size
          · rw [putEnds, if_pos d]
            exact endsFast_spec hv d hl 4 0 0 0#64 t rfl h0 (fun _ h => absurd h (by omega))
          · rw [putEnds, if_neg d]
            have := endsSlow_spec hv hl (b := b) (by omega) 257 0 0 t rfl h0
            rw [if_pos rfl, Nat.add_zero] at this
            exact this
        obtain ⟨r', t', e1, e2⟩ := this
        rw [e1, hbind]
        have hr := e2.cnt
        have hr2 : r' = lim := by omega
        have hy := header_or (countTrue f 256) lim (if f 0 then 1 else 0) (by omega) (by cases f 0 <;> simp)
        rw [hy]
        refine ⟨_, t', by rw [← hr2]; rfl, e2.len, e2.below, ?_, ?_⟩
        · cases f 0 <;> simp <;> omega
        · have hb2 : (if f 0 then 1 else 0) = (f 0).toNat := by cases f 0 <;> rfl
          have hb3 : (f 0).toNat < 2 := by cases f 0 <;> simp
          rw [hb2]
          refine ⟨by omega, by omega, by omega, ?_⟩
          by_cases z : lim = 0
          · exact Or.inl ⟨z, by omega, by omega⟩
          · exact Or.inr (Or.inl ⟨by omega, by omega, c2, by omega, by omega, fun j h1 h2 h3 => e2.ends j h1 h2 h3⟩)
      · have he : esz f = min (countTrue f 256) (256 - countTrue f 256) := by unfold esz encSize; omega
        rw [if_neg c2]
        rw [he] at hl ⊢
        rw [← key_count] at hl
        have h0 : KeysUpTo f (decide (countTrue f 256 < 256 - countTrue f 256)) t tp 0 tp t := ⟨rfl, fun _ _ => rfl, rfl, fun k hk => absurd hk (by omega)⟩
        have : ∃ p' t', putMinor v (decide (countTrue f 256 < 256 - countTrue f 256)) b tp t = some (p', t') ∧
            KeysUpTo f (decide (countTrue f 256 < 256 - countTrue f 256)) t tp 256 p' t' := by
          subst hf
          by_cases d : b * 256 + 256 ≤ v.size
          · rw [putMinor, if_pos d]
            exact minorFast_spec hv d hl 4 0 tp t rfl h0
          · rw [putMinor, if_neg d]
            have := minorSlow_spec hv hl (b := b) 256 0 tp t rfl h0
            rw [Nat.add_zero] at this
            exact this
        obtain ⟨p', t', e1, e2⟩ := this
        rw [e1, hbind]
        have hp := e2.pos
        rw [key_count] at hp
        have hy := header_or (countTrue f 256) (min (countTrue f 256) (256 - countTrue f 256)) (if countTrue f 256 < 256 - countTrue f 256 then 1 else 0) (by omega) (by split <;> omega)
        have hs : (if countTrue f 256 < 256 - countTrue f 256 then 512 else 0) = (if countTrue f 256 < 256 - countTrue f 256 then 1 else 0) <<< 9 := by split <;> rfl
        rw [hs, hy]
        refine ⟨_, t', by rw [← hp]; rfl, e2.len, e2.below, ?_, ?_⟩
        · split <;> omega
        · refine ⟨by split <;> omega, by split <;> omega, by omega, Or.inr (Or.inr (Or.inl ⟨by omega, by omega, rfl, ?_, fun j h1 h2 => e2.keys j h1 h2⟩))⟩
          split
          · rename_i h; rw [decide_eq_true h]; simp only [Bool.toNat_true]; omega
          · rename_i h; rw [decide_eq_false h]; simp only [Bool.toNat_false]; omega
  · have he : esz f = 0 := by unfold esz encSize; omega
    rw [if_neg c, he]
    refine ⟨_, t, rfl, rfl, fun _ _ => rfl, ?_, ?_⟩
    · by_cases d : countTrue f 256 = 256
      · rw [if_pos d, d]; decide
      · rw [if_neg d]; omega
    · by_cases d : countTrue f 256 = 256
      · rw [if_pos d, d]
        have hy : (256 ||| 512 : Nat) = 768 := by decide
        rw [hy]
        refine ⟨by rw [d], by omega, by omega, Or.inl ⟨rfl, ?_, by rw [all_true d (by omega)]; rfl⟩⟩
        rw [countTrue_none (a := 0) (Nat.zero_le _) (fun q _ hq => by rw [chg, all_true d (by omega), all_true d (by omega)]; rfl)]
        exact Nat.zero_le _
      · have d0 : countTrue f 256 = 0 := by omega
        rw [if_neg d, d0]
        refine ⟨by rw [d0], by omega, by omega, Or.inl ⟨rfl, ?_, by rw [countTrue_eq_zero d0 (show 0 < 256 by omega)]; rfl⟩⟩
        rw [countTrue_none (a := 0) (Nat.zero_le _) (fun q _ hq => by rw [chg, countTrue_eq_zero d0 (show q < 256 by omega), countTrue_eq_zero d0 (show q + 1 < 256 by omega)]; rfl)]
        exact Nat.zero_le _

end Sdsl.Hyb
