/-
  The sizes of the parts of an `sd_vector`, for `select_0_support_sd`.
-/
import Verif.SdSel0Lemmas

namespace Sdsl.Sd

open Bits Spec

theorem push_len {wl x : Nat} {s s' : St} (e : push wl s x = some s') : s'.high.length = s.high.length := by
  unfold push at e
  rcases hsh : shr64 x wl with _ | a
  · rw [hsh] at e; cases e
  · rw [hsh, sbind] at e
    dsimp only at e
    rcases hlo : s.low.set s.mm x with _ | lo'
    · rw [hlo] at e; cases e
    · rw [hlo, sbind] at e
      rcases hhi : Bv.set s.high (add64 s.highpos (sub64 a s.lastHigh)) true with _ | hi'
      · rw [hhi] at e; cases e
      · rw [hhi, sbind] at e
        obtain rfl := Option.some.inj e
        unfold Bv.set at hhi
        split at hhi
        · obtain rfl := Option.some.inj hhi
          exact List.length_set
        · cases hhi

theorem pushAll_len {wl : Nat} : ∀ (xs : List Nat) {s s' : St}, pushAll wl s xs = some s' → s'.high.length = s.high.length
  | [], s, s', e => by obtain rfl := Option.some.inj e; rfl
  | x :: xs, s, s', e => by
    rw [pushAll] at e
    rcases h : push wl s x with _ | s1
    · rw [h] at e; cases e
    · rw [h, sbind] at e
      rw [pushAll_len xs e, push_len h]

theorem start_len {m logm wl : Nat} {s : St} (hl : logm < 64) (e : start m logm wl = some s) : s.high.length = m + 2 ^ logm := by
  unfold start at e
  rw [shl64_of_lt hl (by rw [Nat.one_mul]; exact Nat.pow_lt_pow_right (by omega) hl), sbind, Nat.one_mul] at e
  obtain rfl := Option.some.inj e
  exact List.length_replicate

theorem log2_lt64 {n : Nat} (hn : n < 2 ^ 64) : Nat.log2 n < 64 := by
  rcases Nat.eq_zero_or_pos n with e | e
  · rw [e]; decide
  · exact (Nat.log2_lt (by omega)).2 hn

theorem log2_mono {m n : Nat} (hm : m ≤ n) : Nat.log2 m ≤ Nat.log2 n := by
  rcases Nat.eq_zero_or_pos m with e | e
  · rw [e]; exact Nat.zero_le _
  · have h1 : 2 ^ Nat.log2 m ≤ m := Nat.log2_self_le (by omega)
    exact Nat.le_log2 (by omega) |>.2 (by omega)

/-- `logm` and `wl` in terms of logarithms. -/
theorem params_log {k n m logm wl : Nat} (hk : 8 ≤ k) (hn : n < 2 ^ 64) (hm : m ≤ n) (e : params k n m = some (logm, wl)) :
    logm + wl = Nat.log2 n + 1 ∧ logm ≤ Nat.log2 m + 1 ∧ ((Nat.log2 m = Nat.log2 n ∧ wl = 1) ∨ (Nat.log2 m < Nat.log2 n ∧ wl = Nat.log2 n - Nat.log2 m)) := by
  have e1 : (BitVec.ofNat 64 m).toNat = m := by rw [BitVec.toNat_ofNat, Nat.mod_eq_of_lt (by omega)]
  have e2 : (BitVec.ofNat 64 n).toNat = n := by rw [BitVec.toNat_ofNat, Nat.mod_eq_of_lt hn]
  have hn64 := log2_lt64 hn
  have hmn := log2_mono hm
  have hk' : 2 ^ 8 ≤ 2 ^ k := Nat.pow_le_pow_right (by omega) hk
  unfold params at e
  rw [hi_eq, hi_eq, e1, e2, Option.map_some, Option.map_some, sbind, sbind] at e
  dsimp only at e
  by_cases h : Nat.log2 m = Nat.log2 n
  · rw [if_pos (by omega)] at e
    have := Option.some.inj e
    rw [Prod.mk.injEq, show Nat.log2 n + 1 + 2 ^ k - (Nat.log2 m + 1 - 1) = 1 + 2 ^ k by omega, Nat.add_mod_right, Nat.mod_eq_of_lt (by omega)] at this
    exact ⟨by omega, by omega, Or.inl ⟨h, by omega⟩⟩
  · rw [if_neg (by omega)] at e
    have := Option.some.inj e
    rw [Prod.mk.injEq, show Nat.log2 n + 1 + 2 ^ k - (Nat.log2 m + 1) = (Nat.log2 n - Nat.log2 m) + 2 ^ k by omega, Nat.add_mod_right, Nat.mod_eq_of_lt (by omega)] at this
    exact ⟨by omega, by omega, Or.inr ⟨by omega, by omega⟩⟩

/-- A constructed vector, with the sizes of its parts. -/
structure Built (xs : List Nat) (n : Nat) (b : Sd) : Prop where
  ok : Ok xs n b
  inc : xs.Pairwise (· < ·)
  lt : ∀ x, x ∈ xs → x < n
  shape : ∃ k logm, 8 ≤ k ∧ params k n xs.length = some (logm, b.wl) ∧ b.high.length = xs.length + 2 ^ logm

theorem build_built {k n : Nat} {xs : List Nat} (hk : 8 ≤ k) (hn : n < 2 ^ 64) (hp : xs.Pairwise (· < ·)) (hx : ∀ x, x ∈ xs → x < n) (hm : xs.length < 2 ^ 62) :
    ∃ logm wl s0 s, params k n xs.length = some (logm, wl) ∧ start xs.length logm wl = some s0 ∧ pushAll wl s0 xs = some s ∧ s.mm = xs.length ∧ s0.mm = 0 ∧ Built xs n ⟨n, wl, s.low, s.high⟩ := by
  obtain ⟨logm, wl, s0, s, e1, e2, e3, e4, hok⟩ := build_ok hk hn hp hx hm
  obtain ⟨logm', wl', e1', -, -, hl, -⟩ := params_ok hk hn (length_le_of_increasing hp hx)
  rw [e1] at e1'
  have := Option.some.inj e1'
  rw [Prod.mk.injEq] at this
  obtain ⟨rfl, rfl⟩ := this
  have hmm0 : s0.mm = 0 := by
    unfold start at e2
    rcases h : shl64 1 logm with _ | a
    · rw [h] at e2; cases e2
    · rw [h, sbind] at e2; obtain rfl := Option.some.inj e2; rfl
  exact ⟨logm, wl, s0, s, e1, e2, e3, e4, hmm0, hok, hp, hx, k, logm, hk, e1, by show s.high.length = _; rw [pushAll_len _ e3, start_len hl e2]⟩

theorem ofBitVector_built {v : IntVec} (hf : (v.size + 63) / 64 ≤ v.data.length) (hs : v.size < 2 ^ 62) :
    ∃ b, ofBitVector v = some b ∧ Built (ones (bitAt v.data) 0 v.size) v.size b := by
  have e : ones (fun q => decide (q < v.size) && bitAt v.data q) (64 * 0) (64 * (0 + (v.size + 63) / 64)) = ones (bitAt v.data) 0 v.size := by
    rw [ones_split (k := v.size) (by omega) (by omega), ones_nil (a := v.size) (fun q h1 _ => by
      rw [decide_eq_false (by omega), Bool.false_and]), List.append_nil]
    unfold ones
    refine List.filter_congr (fun q hq => ?_)
    rw [List.mem_range'_1] at hq
    rw [decide_eq_true (by omega), Bool.true_and]
  have hlen := ones_length (bitAt v.data) v.size
  have hc := countTrue_le (bitAt v.data) v.size
  obtain ⟨logm, wl, s0, s, e1, e2, e3, _, _, hok⟩ := build_built (k := 8) (n := v.size) (xs := ones (bitAt v.data) 0 v.size) (by omega) (by omega)
    (ones_pairwise _ _ _) (fun x hx => (mem_ones.1 hx).2.1) (by omega)
  rw [hlen] at e1 e2
  refine ⟨_, ?_, hok⟩
  unfold ofBitVector
  rw [Util.cntOneBits_eq hf, sbind, e1, sbind]
  dsimp only
  rw [e2, sbind, bvLoop_eq _ _ _ (by omega), e, e3, sbind]
  rfl

section
variable {xs : List Nat} {n : Nat} {b : Sd} (h : Built xs n b)
include h

/-- With at most `2^58` bits, or `2^60` bits and four ones, the block size of the support does not overflow. -/
theorem Built.wl_lt (hn : n < 2 ^ 58 ∨ (n < 2 ^ 60 ∧ 4 ≤ xs.length)) : b.wl < 58 := by
  obtain ⟨k, logm, hk, e, -⟩ := h.shape
  have hle := length_le_of_increasing h.inc h.lt
  obtain ⟨h1, h2, h3⟩ := params_log hk (by omega) hle e
  rcases hn with q | ⟨q1, q2⟩
  · have : Nat.log2 n < 58 := by
      rcases Nat.eq_zero_or_pos n with e | e
      · rw [e]; decide
      · exact (Nat.log2_lt (by omega)).2 q
    omega
  · have g1 : Nat.log2 n < 60 := (Nat.log2_lt (by omega)).2 q1
    have g2 : 2 ≤ Nat.log2 xs.length := (Nat.le_log2 (by omega)).2 (by omega)
    omega

theorem Built.wl_ge (hn : n < 2 ^ 64) (h1 : 2 ^ 58 ≤ n) (h2 : xs.length ≤ 1) : 58 ≤ b.wl ∧ b.wl < 64 := by
  obtain ⟨k, logm, hk, e, -⟩ := h.shape
  have hle := length_le_of_increasing h.inc h.lt
  obtain ⟨g1, g2, g3⟩ := params_log hk hn hle e
  have g4 : 58 ≤ Nat.log2 n := (Nat.le_log2 (by omega)).2 h1
  have g5 : Nat.log2 xs.length = 0 := by
    rcases Nat.eq_zero_or_pos xs.length with e | e
    · rw [e]; decide
    · rw [show xs.length = 1 by omega]; decide
  exact ⟨by omega, h.ok.wl⟩

theorem Built.fit (hn : n < 2 ^ 60) (hw : b.wl < 58) : (b.high.length - xs.length + 64) * 2 ^ b.wl + b.high.length + 64 < 2 ^ 64 := by
  obtain ⟨k, logm, hk, e, hl⟩ := h.shape
  have hle := length_le_of_increasing h.inc h.lt
  obtain ⟨h1, h2, h3⟩ := params_log hk (by omega) hle e
  have hW2 : 2 ^ b.wl ≤ 2 ^ 57 := Nat.pow_le_pow_right (by decide) (by omega)
  have hln : Nat.log2 n < 60 := by
    rcases Nat.eq_zero_or_pos n with e | e
    · rw [e]; decide
    · exact (Nat.log2_lt (by omega)).2 hn
  have hzW : 2 ^ logm * 2 ^ b.wl ≤ 2 ^ 60 := by
    rw [← Nat.pow_add, h1]; exact Nat.pow_le_pow_right (by decide) (by omega)
  have hz : 2 ^ logm ≤ 2 ^ logm * 2 ^ b.wl := Nat.le_mul_of_pos_right _ (Nat.pow_pos (by decide))
  rw [hl, Nat.add_sub_cancel_left, Nat.add_mul]
  omega

theorem Built.sel0 (hn : n < 2 ^ 60) (hw : b.wl < 58) : ∃ t, Sel0.new b = some t ∧
    ∀ i, 1 ≤ i → i + xs.length ≤ n → ∃ p, t.select b i = some p ∧ IsSelect (fun p => decide (p ∈ xs) == false) n i p := by
  obtain ⟨t, K, g1, g2, g3⟩ := new_ok h.ok h.inc (h.fit hn hw) h.lt (by omega) hw
  exact ⟨t, g1, fun i h1 h2 => select_ok h.ok h.inc (h.fit hn hw) h.lt (by omega) hw g2 g3 h1 h2⟩

/-- `64*bs` wraps around to 0. -/
theorem Built.sel0_none (hn : n < 2 ^ 64) (h1 : 2 ^ 58 ≤ n) (h2 : xs.length ≤ 1) : Sel0.new b = none := by
  obtain ⟨g1, g2⟩ := h.wl_ge hn h1 h2
  have e : mul64 64 (2 ^ b.wl) = 0 := by
    rw [mul64, show b.wl = 58 + (b.wl - 58) by omega, Nat.pow_add, ← Nat.mul_assoc, show 64 * 2 ^ 58 = 2 ^ 64 from rfl, Nat.mul_mod_right]
  have hbs : shl64 1 b.wl = some (2 ^ b.wl) := by
    rw [shl64_of_lt g2 (by rw [Nat.one_mul]; exact Nat.pow_lt_pow_right (by omega) g2), Nat.one_mul]
  unfold Sel0.new
  rw [hbs, sbind]
  rcases hr : rank true b b.size with _ | r
  · rfl
  · rw [sbind]
    dsimp only
    rw [e, div64, if_pos rfl]; rfl

end

end Sdsl.Sd
