/-
  Lemmas on the select supports: the search inside the words.
-/
import Verif.Select
import Verif.RankLemmas

namespace Sdsl.Select
open Bits Spec Rank IntVec Util

theorem count_unique {f : Nat → Bool} {a b : Nat} (ha : f a = true) (hb : f b = true) (h : countTrue f a = countTrue f b) : a = b :=
  IsSelect.unique (n := a + b + 1) (i := countTrue f a + 1) ⟨by omega, ha, rfl⟩ ⟨by omega, hb, by omega⟩

theorem popcount_tail {f : Nat → Bool} {x : Word} {off : Nat} (ho : off ≤ 64)
    (h : ∀ j, j < 64 → x.getLsbD j = (f j && decide (off ≤ j))) : (cnt x).toNat + countTrue f off = countTrue f 64 := by
  rw [Props.C01_cnt, ← countTrue_tail f off 64 ho]
  congr 1
  exact countTrue_congr (fun j hj => by rw [h j hj, Bool.and_comm])

theorem sel_tail {f : Nat → Bool} {x : Word} {off i : Nat} (h1 : 1 ≤ i) (h2 : i ≤ (cnt x).toNat)
    (h : ∀ j, j < 64 → x.getLsbD j = (f j && decide (off ≤ j))) :
    ∃ p, sel x i = some p ∧ p < 64 ∧ f p = true ∧ off ≤ p ∧ countTrue f p + 1 = countTrue f off + i := by
  rw [Props.C01_cnt] at h2
  obtain ⟨p, e, hp1, hp2, hp3⟩ := sel_eq h1 h2
  simp only [h p hp1, Bool.and_eq_true, decide_eq_true_eq] at hp2
  refine ⟨p, e, hp1, hp2.1, hp2.2, ?_⟩
  have := countTrue_tail f off p hp2.2
  rw [countTrue_congr (g := fun i => decide (off ≤ i) && f i) (fun j hj => by rw [h j (by omega), Bool.and_comm])] at hp3
  omega

/-- The word searched by the first-word functions. -/
theorem first_word {pat : Pat} {m : Mem} {wp off : Nat} {c : Word} (hw : wp < m.length) (hc : CarryOk pat m wp c) :
    ∀ j, j < 64 → (patWord pat m[wp] c &&& ~~~(BitVec.ofNat 64 (2 ^ off - 1))).getLsbD j =
      (occ pat m (64 * wp + j) && decide (off ≤ j)) := by
  intro j hj
  rw [BitVec.getLsbD_and, getLsbD_patWord pat hw hj hc, getLsbD_unset hj]

theorem R_split (pat : Pat) (m : Mem) (wp k : Nat) :
    R pat m (64 * wp + k) = R pat m (64 * wp) + countTrue (fun j => occ pat m (64 * wp + j)) k := by
  unfold R; rw [countTrue_add]

theorem argsFirst_eq {pat : Pat} {m : Mem} {wp off : Nat} {c : Word} (hw : wp < m.length) (hc : CarryOk pat m wp c) (ho : off < 64) :
    ∃ a, argsFirst pat m[wp] off c = some a ∧ a.toNat + R pat m (64 * wp + off) = R pat m (64 * (wp + 1)) := by
  have key : (cnt (patWord pat m[wp] c &&& ~~~(BitVec.ofNat 64 (2 ^ off - 1)))).toNat + R pat m (64 * wp + off) = R pat m (64 * (wp + 1)) := by
    have := popcount_tail (f := fun j => occ pat m (64 * wp + j)) (by omega) (first_word (off := off) hw hc)
    rw [show 64 * (wp + 1) = 64 * wp + 64 by omega, R_split, R_split pat m wp 64]
    omega
  have hlo : loUnset off = some (~~~(BitVec.ofNat 64 (2 ^ off - 1))) := loUnset_eq (by omega)
  cases pat
  case p0 => simp only [argsFirst, hlo]; exact ⟨_, rfl, key⟩
  case p1 => simp only [argsFirst, hlo]; exact ⟨_, rfl, key⟩
  case p10 => simp only [argsFirst, hlo]; exact ⟨_, rfl, key⟩
  case p01 => simp only [argsFirst, hlo]; exact ⟨_, rfl, key⟩
  case p00 =>
    simp only [argsFirst, hlo]
    by_cases h0 : off = 0
    · rw [if_pos h0]
      refine ⟨_, rfl, ?_⟩
      rw [h0, Nat.add_zero, argsInWord_R .p00 hw hc, Nat.add_comm]
    · rw [if_neg h0]
      refine ⟨_, rfl, ?_⟩
      rw [← key]
      congr 3
      apply BitVec.eq_of_getLsbD_eq
      intro j hj
      rw [BitVec.getLsbD_and, BitVec.getLsbD_and, getLsbD_unset hj]
      by_cases h1 : off ≤ j
      · have hj0 : ¬ j = 0 := by omega
        have hcj : c.getLsbD j = false := by
          simp only [CarryOk, reduceCtorEq, false_or] at hc
          rw [hc]; unfold carryOf
          cases before m (initB .p00) (64 * wp) <;> simp [hj0]
        simp only [patWord, BitVec.getLsbD_not, BitVec.getLsbD_or, hcj, Bool.or_false]
      · simp [h1]
  case p11 =>
    simp only [argsFirst]
    by_cases h0 : off = 0
    · rw [if_pos h0]
      refine ⟨_, rfl, ?_⟩
      rw [h0, Nat.add_zero, argsInWord_R .p11 hw hc, Nat.add_comm]
    · rw [if_neg h0, shr_of_lt (by omega), sbind, shr_of_lt ho, sbind]
      refine ⟨_, rfl, ?_⟩
      have e : R .p11 m (64 * (wp + 1)) = R .p11 m (64 * wp + off) + countTrue (fun j => occ .p11 m (64 * wp + off + j)) (64 - off) := by
        unfold R
        rw [← countTrue_add, show 64 * wp + off + (64 - off) = 64 * (wp + 1) by omega]
      rw [e, Nat.add_comm, Props.C01_cnt]
      refine congrArg (fun k => R .p11 m (64 * wp + off) + k) ?_
      rw [← countTrue_masked (fun j => occ .p11 m (64 * wp + off + j)) (64 - off) 64 (by omega)]
      refine countTrue_congr (fun j hj => ?_)
      rw [BitVec.getLsbD_and, BitVec.getLsbD_ushiftRight, BitVec.getLsbD_ushiftRight]
      by_cases h1 : j < 64 - off
      · rw [occ_eq]
        unfold before
        rw [if_neg (by omega), show 64 * wp + off + j - 1 = 64 * wp + (off - 1 + j) by omega,
          show 64 * wp + off + j = 64 * wp + (off + j) by omega, bitAt_mul_add (by omega) hw, bitAt_mul_add (by omega) hw]
        simp [selB, h1]
      · rw [BitVec.getLsbD_of_ge m[wp] (off + j) (by omega)]
        simp [h1]

theorem ithFirst_eq {pat : Pat} (w : Word) (i : Nat) {off : Nat} (c : Word) (ho : off < 64) :
    ithFirst pat w i off c = sel (patWord pat w c &&& ~~~(BitVec.ofNat 64 (2 ^ off - 1))) i := by
  have hlo : loUnset off = some (~~~(BitVec.ofNat 64 (2 ^ off - 1))) := loUnset_eq (by omega)
  cases pat <;> simp only [ithFirst, hlo, patWord] <;> rw [sbind]
  · rw [BitVec.or_comm w]
  · rw [BitVec.and_comm w]

theorem ithWord_eq {pat : Pat} (w : Word) (i : Nat) (c : Word) : ithWord pat w i c = sel (patWord pat w c) i := by
  cases pat <;> simp only [ithWord, patWord]
  · rw [BitVec.or_comm w]
  · rw [BitVec.and_comm w]

theorem initCarryAt_ok {pat : Pat} {m : Mem} {wp : Nat} (h : wp ≤ m.length) : ∃ c, initCarryAt m wp pat = some c ∧ CarryOk pat m wp c := by
  have aux : ∀ d : Word, d = BitVec.ofNat 64 (initB pat).toNat →
      ∃ c, (if wp ≠ 0 then do shr (← ld m (wp - 1)) 63 else some d : Option Word) = some c ∧ c = carryOf pat m wp := by
    intro d hd
    by_cases h0 : wp ≠ 0
    · have hl : wp - 1 < m.length := by omega
      rw [if_pos h0, ld_of_lt hl, sbind, shr_of_lt (by omega), shr63, top_before (c := initB pat) hl]
      refine ⟨_, rfl, ?_⟩
      unfold carryOf
      rw [show wp - 1 + 1 = wp by omega]
    · rw [if_neg h0, hd]
      refine ⟨_, rfl, ?_⟩
      have : wp = 0 := by omega
      subst this
      rfl
  cases pat
  case p0 => exact ⟨_, rfl, Or.inl rfl⟩
  case p1 => exact ⟨_, rfl, Or.inr (Or.inl rfl)⟩
  all_goals
    obtain ⟨c, e, hc⟩ := aux _ rfl
    exact ⟨c, e, Or.inr (Or.inr hc)⟩

theorem getCarry_ok {pat : Pat} {m : Mem} {wp : Nat} (h : wp < m.length) : CarryOk pat m (wp + 1) (getCarry m[wp] pat) := by
  unfold CarryOk carryOf
  rw [← top_before h, ← shr63]
  cases pat <;> simp [getCarry]

theorem searchLoop_eq {pat : Pat} {m : Mem} {base i p : Nat} (hp : p / 64 < m.length) (ho : occ pat m p = true)
    (hc : R pat m p + 1 = base + i) (f : Nat) : ∀ (wp : Nat) (carry old : Word) (args : Word), wp ≤ p / 64 → p / 64 < wp + f →
    base ≤ R pat m (64 * wp) → R pat m (64 * wp) < base + i →
    args.toNat + R pat m (64 * wp) = R pat m (64 * (wp + 1)) → CarryOk pat m wp old → CarryOk pat m (wp + 1) carry →
    searchLoop pat m i f wp (R pat m (64 * wp) - base) args carry old = some p := by
  induction f with
  | zero => intro wp carry old args h1 h2; omega
  | succ f ih =>
    intro wp carry old args h1 h2 h3 h4 h5 h6 h7
    have hw : wp < m.length := by omega
    simp only [searchLoop]
    by_cases h : R pat m (64 * wp) - base + args.toNat < i
    · have hlt : wp < p / 64 := by
        rcases Nat.lt_or_ge wp (p / 64) with h8 | h8
        · exact h8
        · have : p < 64 * (wp + 1) := by omega
          have := countTrue_lt_of_true this ho
          unfold R at *
          omega
      have hw1 : wp + 1 < m.length := by omega
      rw [if_pos h, ld_of_lt hw1, sbind]
      have e := argsInWord_R pat hw1 h7
      have := ih (wp + 1) (argsInWord pat m[wp + 1] carry).2 carry (argsInWord pat m[wp + 1] carry).1 (by omega) (by omega) (by omega) (by omega)
        (by omega) h7 (argsInWord_snd pat _ hw1)
      rw [← this]
      congr 1
      omega
    · rw [if_neg h, ld_of_lt hw, sbind, ithWord_eq]
      have hx : ∀ j, j < 64 → (patWord pat m[wp] old).getLsbD j = ((fun j => occ pat m (64 * wp + j)) j && decide (0 ≤ j)) := by
        intro j hj; rw [getLsbD_patWord pat hw hj h6]; simp
      have hcnt := popcount_tail (by omega) hx
      have hR := R_split pat m wp 64
      rw [show 64 * wp + 64 = 64 * (wp + 1) by omega] at hR
      have hz : countTrue (fun j => occ pat m (64 * wp + j)) 0 = 0 := rfl
      obtain ⟨q, e, hq1, hq2, _, hq4⟩ := sel_tail (i := i - (R pat m (64 * wp) - base)) (by omega) (by omega) hx
      rw [e, sbind]
      have hR2 := R_split pat m wp q
      have : 64 * wp + q = p := count_unique hq2 ho (by unfold R at *; omega)
      show some (wp * 64 + q) = some p
      rw [Nat.mul_comm, this]

theorem search_eq {pat : Pat} {m : Mem} {pos i p : Nat} (hp : p / 64 < m.length) (hpos : pos ≤ p) (ho : occ pat m p = true)
    (hi : 1 ≤ i) (hc : R pat m p + 1 = R pat m pos + i) : search pat m (pos / 64) (pos % 64) i = some p := by
  have hw : pos / 64 < m.length := by omega
  have hsplit : 64 * (pos / 64) + pos % 64 = pos := by omega
  obtain ⟨c, e1, hcok⟩ := initCarryAt_ok (pat := pat) (m := m) (wp := pos / 64) (by omega)
  obtain ⟨a, e2, ha⟩ := argsFirst_eq (off := pos % 64) hw hcok (by omega)
  rw [hsplit] at ha
  unfold search
  rw [e1, sbind, ld_of_lt hw, sbind, e2, sbind]
  by_cases h : a.toNat ≥ i
  · rw [if_pos h, ithFirst_eq _ _ _ (by omega)]
    have hx := first_word (off := pos % 64) hw hcok
    have hcnt := popcount_tail (f := fun j => occ pat m (64 * (pos / 64) + j)) (by omega) hx
    have hR := R_split pat m (pos / 64) 64
    have hR1 := R_split pat m (pos / 64) (pos % 64)
    rw [show 64 * (pos / 64) + 64 = 64 * (pos / 64 + 1) by omega] at hR
    rw [hsplit] at hR1
    obtain ⟨q, e, hq1, hq2, hq3, hq4⟩ := sel_tail (f := fun j => occ pat m (64 * (pos / 64) + j)) (i := i) hi (by omega) hx
    rw [e, sbind]
    have hR2 := R_split pat m (pos / 64) q
    have : 64 * (pos / 64) + q = p := count_unique hq2 ho (by unfold R at *; omega)
    show some (pos / 64 * 64 + q) = some p
    rw [Nat.mul_comm, this]
  · have hlt : pos / 64 + 1 ≤ p / 64 := by
      rcases Nat.lt_or_ge (pos / 64) (p / 64) with h8 | h8
      · exact h8
      · have : p < 64 * (pos / 64 + 1) := by omega
        have := countTrue_lt_of_true this ho
        unfold R at *
        omega
    have hw1 : pos / 64 + 1 < m.length := by omega
    rw [if_neg h, ld_of_lt hw1, sbind]
    have e := argsInWord_R pat hw1 (getCarry_ok hw)
    have := searchLoop_eq (base := R pat m pos) hp ho hc (m.length + 1) (pos / 64 + 1)
      (argsInWord pat m[pos / 64 + 1] (getCarry m[pos / 64] pat)).2 (getCarry m[pos / 64] pat)
      (argsInWord pat m[pos / 64 + 1] (getCarry m[pos / 64] pat)).1 hlt (by omega) (by omega) (by omega) (by omega)
      (getCarry_ok hw) (argsInWord_snd pat _ hw1)
    rw [← this]
    have hsum : a.toNat = R pat m (64 * (pos / 64 + 1)) - R pat m pos := by omega
    rw [hsum]

theorem scanSelect_eq {pat : Pat} {v : IntVec} (hv : (v.size + 63) / 64 ≤ v.data.length) {i : Nat} (h1 : 1 ≤ i)
    (h2 : i ≤ R pat v.data v.size) : ∃ p, scanSelect pat v i = some p ∧ IsSelect (occ pat v.data) v.size i p := by
  obtain ⟨p, hp⟩ := IsSelect.exists h1 h2
  refine ⟨p, ?_, hp⟩
  obtain ⟨hp1, hp2, hp3⟩ := hp
  exact search_eq (pos := 0) (by omega) (by omega) hp2 h1 (by rw [show R pat v.data 0 = 0 from rfl]; unfold R; omega)

end Sdsl.Select
