/-
  Lemmas on the rank supports: word-wise pattern counts, packed relative counts, the construction invariants.
-/
import Verif.Rank
import Verif.UtilScan

namespace Sdsl.Rank
open Bits Spec IntVec Util

/-! ### Patterns inside a word -/

/-- Bit before the vector that makes the pattern not match at position 0. -/
def initB : Pat → Bool
  | .p0 => false | .p1 => false | .p10 => false | .p01 => true | .p00 => true | .p11 => false

/-- Pattern match on the last two bits. -/
def selB : Pat → Bool → Bool → Bool
  | .p0, _, b => !b
  | .p1, _, b => b
  | .p10, a, b => a && !b
  | .p01, a, b => !a && b
  | .p00, a, b => !a && !b
  | .p11, a, b => a && b

/-- The word marking the ends of occurrences. -/
def patWord : Pat → Word → Word → Word
  | .p0, w, _ => ~~~w
  | .p1, w, _ => w
  | .p10, w, c => map10 w c
  | .p01, w, c => map01 w c
  | .p00, w, c => ~~~(w ||| ((w <<< 1) ||| c))
  | .p11, w, c => w &&& ((w <<< 1) ||| c)

/-- The carry into word `i`. -/
def carryOf (pat : Pat) (m : Mem) (i : Nat) : Word := BitVec.ofNat 64 (before m (initB pat) (64 * i)).toNat

theorem occ_eq (pat : Pat) (m : Mem) (q : Nat) : occ pat m q = selB pat (before m (initB pat) q) (bitAt m q) := by
  unfold occ endsAt before
  cases pat <;> simp only [Pat.bits, List.length_cons, List.length_nil, initB, selB]
  case p0 => simp [List.range_succ]
  case p1 => simp [List.range_succ]
  all_goals
    by_cases h : q = 0
    · subst h; simp
    · have h1 : 0 + 1 + 1 ≤ q + 1 := by omega
      rw [if_neg h]
      simp only [h1, decide_true, Bool.true_and, List.range_succ, List.range_zero]
      have e0 : q + 1 - (0 + 1 + 1) + 0 = q - 1 := by omega
      have e1 : q + 1 - (0 + 1 + 1) + (0 + 1) = q := by omega
      simp only [List.nil_append, List.cons_append, List.all_cons, List.all_nil, e0, e1, Bool.and_true]
      simp only [List.getD_cons_zero, List.getD_cons_succ]
      cases bitAt m (q - 1) <;> cases bitAt m q <;> rfl

theorem getLsbD_patWord (pat : Pat) {m : Mem} {i j : Nat} {c : Word} (hi : i < m.length) (hj : j < 64)
    (hc : pat = .p0 ∨ pat = .p1 ∨ c = carryOf pat m i) :
    (patWord pat m[i] c).getLsbD j = occ pat m (64 * i + j) := by
  rw [occ_eq, ← prevBit_before hi hj, bitAt_mul_add hj hi]
  unfold carryOf at hc
  cases pat
  case p0 => simp [patWord, selB, hj]
  case p1 => simp [patWord, selB]
  case p10 =>
    simp only [reduceCtorEq, false_or] at hc
    rw [hc]; exact Props.C10_map10 _ _ _ hj
  case p01 =>
    simp only [reduceCtorEq, false_or] at hc
    rw [hc]; exact Props.C10_map01 _ _ _ hj
  case p00 =>
    simp only [reduceCtorEq, false_or] at hc
    rw [hc]; unfold patWord selB
    rw [BitVec.getLsbD_not, BitVec.getLsbD_or, Props.getLsbD_shl1_carry _ _ _ hj]
    simp only [hj, decide_true, Bool.true_and]
    cases m[i].getLsbD j <;> cases Props.prevBit m[i] (before m (initB .p00) (64 * i)) j <;> rfl
  case p11 =>
    simp only [reduceCtorEq, false_or] at hc
    rw [hc]; unfold patWord selB
    rw [BitVec.getLsbD_and, Props.getLsbD_shl1_carry _ _ _ hj]
    cases m[i].getLsbD j <;> cases Props.prevBit m[i] (before m (initB .p11) (64 * i)) j <;> rfl

theorem argsInWord_fst (pat : Pat) (w c : Word) : (argsInWord pat w c).1 = cnt (patWord pat w c) := by
  cases pat <;> rfl

/-- The carry is the one the pattern needs. -/
def CarryOk (pat : Pat) (m : Mem) (i : Nat) (c : Word) : Prop := pat = .p0 ∨ pat = .p1 ∨ c = carryOf pat m i

theorem argsInWord_snd (pat : Pat) {m : Mem} {i : Nat} (c : Word) (hi : i < m.length) :
    CarryOk pat m (i + 1) (argsInWord pat m[i] c).2 := by
  unfold CarryOk carryOf
  rw [← top_before hi, ← shr63]
  cases pat <;> simp [argsInWord, cnt10, cnt01]

theorem initCarry_ok (pat : Pat) (m : Mem) : CarryOk pat m 0 (initCarry pat) := by
  unfold CarryOk carryOf before
  cases pat <;> simp [initCarry, initB]

/-- Number of occurrences ending before position `q`. -/
abbrev R (pat : Pat) (m : Mem) (q : Nat) : Nat := countTrue (occ pat m) q

theorem argsInWord_R (pat : Pat) {m : Mem} {i : Nat} {c : Word} (hi : i < m.length) (hc : CarryOk pat m i c) :
    R pat m (64 * (i + 1)) = R pat m (64 * i) + (argsInWord pat m[i] c).1.toNat := by
  rw [argsInWord_fst]
  exact countTrue_word (fun j hj => getLsbD_patWord pat hi hj hc)

theorem carryAt_ok {pat : Pat} {m : Mem} {idx : Nat} (hi : idx / 64 ≤ m.length) {d : Word}
    (hd : d = BitVec.ofNat 64 (initB pat).toNat) : carryAt m idx d = some (carryOf pat m (idx / 64)) := by
  unfold carryAt
  by_cases h : idx > 63
  · have h1 : idx / 64 - 1 < m.length := by omega
    rw [if_pos h, ld_of_lt h1, sbind, shr_of_lt (by omega), shr63, top_before (c := initB pat) h1]
    unfold carryOf
    rw [show idx / 64 - 1 + 1 = idx / 64 by omega]
  · rw [if_neg h, hd]
    unfold carryOf before
    rw [show idx / 64 = 0 by omega]; rfl

theorem fullWordRank_eq (pat : Pat) {m : Mem} {idx : Nat} (hi : idx / 64 < m.length) :
    fullWordRank pat m idx = some (cnt (patWord pat m[idx / 64] (carryOf pat m (idx / 64)))) := by
  cases pat
  case p0 => simp only [fullWordRank]; rw [ld_of_lt hi, sbind]; rfl
  case p1 => simp only [fullWordRank]; rw [ld_of_lt hi, sbind]; rfl
  case p10 =>
    simp only [fullWordRank]
    rw [carryAt_ok (pat := .p10) (d := 0#64) (by omega) rfl, sbind, ld_of_lt hi, sbind]
    rfl
  case p01 =>
    simp only [fullWordRank]
    rw [carryAt_ok (pat := .p01) (d := 1#64) (by omega) rfl, sbind, ld_of_lt hi, sbind]
    rfl
  case p00 =>
    simp only [fullWordRank]
    rw [carryAt_ok (pat := .p00) (d := 1#64) (by omega) rfl, sbind, ld_of_lt hi, sbind]
    rfl
  case p11 =>
    simp only [fullWordRank]
    rw [carryAt_ok (pat := .p11) (d := 0#64) (by omega) rfl, sbind, ld_of_lt hi, sbind]
    rfl

theorem fullWordRank_R (pat : Pat) {m : Mem} {idx : Nat} (hi : idx / 64 < m.length) :
    ∃ w, fullWordRank pat m idx = some w ∧ R pat m (64 * (idx / 64 + 1)) = R pat m (64 * (idx / 64)) + w.toNat :=
  ⟨_, fullWordRank_eq pat hi, countTrue_word (fun _ hj => getLsbD_patWord pat hi hj (Or.inr (Or.inr rfl)))⟩

theorem wordRank_eq (pat : Pat) {m : Mem} {idx : Nat} (hi : idx / 64 < m.length) :
    wordRank pat m idx = some (cnt (patWord pat m[idx / 64] (carryOf pat m (idx / 64)) &&&
      BitVec.ofNat 64 (2 ^ (idx % 64) - 1))) := by
  cases pat
  case p0 => simp only [wordRank]; rw [ld_of_lt hi, sbind, loSet_eq (by omega), sbind]; rfl
  case p1 => simp only [wordRank]; rw [ld_of_lt hi, sbind, loSet_eq (by omega), sbind]; rfl
  case p10 =>
    simp only [wordRank]
    rw [carryAt_ok (pat := .p10) (d := 0#64) (by omega) rfl, sbind, ld_of_lt hi, sbind, loSet_eq (by omega), sbind]
    rfl
  case p01 =>
    simp only [wordRank]
    rw [carryAt_ok (pat := .p01) (d := 1#64) (by omega) rfl, sbind, ld_of_lt hi, sbind, loSet_eq (by omega), sbind]
    rfl
  case p00 =>
    simp only [wordRank]
    rw [carryAt_ok (pat := .p00) (d := 1#64) (by omega) rfl, sbind, ld_of_lt hi, sbind, loSet_eq (by omega), sbind]
    rfl
  case p11 =>
    simp only [wordRank]
    rw [carryAt_ok (pat := .p11) (d := 0#64) (by omega) rfl, sbind, ld_of_lt hi, sbind, loSet_eq (by omega), sbind]
    rfl

theorem countTrue_masked (f : Nat → Bool) (k n : Nat) (h : k ≤ n) :
    countTrue (fun j => f j && decide (j < k)) n = countTrue f k := by
  obtain ⟨d, rfl⟩ : ∃ d, n = k + d := ⟨n - k, by omega⟩
  rw [countTrue_add]
  have e1 : countTrue (fun j => f j && decide (j < k)) k = countTrue f k :=
    countTrue_congr (fun i hi => by simp [hi])
  have e2 : countTrue (fun i => f (k + i) && decide (k + i < k)) d = 0 := by
    rw [countTrue_congr (g := fun _ => false), countTrue_false]
    intro i _; simp
  rw [e1, e2]; rfl

theorem wordRank_R (pat : Pat) {m : Mem} {idx : Nat} (hi : idx / 64 < m.length) :
    ∃ w, wordRank pat m idx = some w ∧ R pat m idx = R pat m (64 * (idx / 64)) + w.toNat := by
  refine ⟨_, wordRank_eq pat hi, ?_⟩
  rw [Props.C01_cnt]
  have e : R pat m idx = R pat m (64 * (idx / 64) + idx % 64) := by rw [show 64 * (idx / 64) + idx % 64 = idx by omega]
  rw [e]; unfold R
  rw [countTrue_add]
  congr 1
  unfold popcount
  rw [← countTrue_masked (fun i => occ pat m (64 * (idx / 64) + i)) (idx % 64) 64 (by omega)]
  refine countTrue_congr (fun j hj => ?_)
  rw [BitVec.getLsbD_and, getLsbD_patWord pat hi hj (Or.inr (Or.inr rfl)), getLsbD_ones]
  simp [hj]

/-! ### Packed relative counts -/

/-- `w` holds the numbers `rel 1, ..., rel n`, each in `D` bits, `rel k` at bit `B - D*k`, and zeros elsewhere. -/
structure Pack (B D : Nat) (rel : Nat → Nat) (w : Word) (n : Nat) : Prop where
  lo : ∀ q, q < B - D * n → w.getLsbD q = false
  hi : ∀ q, B ≤ q → w.getLsbD q = false
  fld : ∀ k, 1 ≤ k → k ≤ n → ∀ b, b < D → w.getLsbD (B - D * k + b) = (rel k).testBit b

theorem Pack.zero (B D : Nat) (rel : Nat → Nat) : Pack B D rel 0#64 0 :=
  ⟨fun _ _ => by simp, fun _ _ => by simp, fun k h1 h2 => by omega⟩

theorem Pack.or {B D : Nat} {rel : Nat → Nat} {w : Word} {n : Nat} (h : Pack B D rel w n) (hB : D * (n + 1) ≤ B)
    (h64 : B < 64) (hr : rel (n + 1) < 2 ^ D) :
    Pack B D rel (w ||| (BitVec.ofNat 64 (rel (n + 1)) <<< (B - D * (n + 1)))) (n + 1) := by
  have hsh : ∀ q, (BitVec.ofNat 64 (rel (n + 1)) <<< (B - D * (n + 1))).getLsbD q =
      (decide (q < 64) && (decide (B - D * (n + 1) ≤ q) && (rel (n + 1)).testBit (q - (B - D * (n + 1))))) := by
    intro q
    rw [BitVec.getLsbD_shiftLeft, BitVec.getLsbD_ofNat]
    by_cases h1 : q < 64
    · by_cases h2 : q < B - D * (n + 1)
      · simp [h2]; omega
      · have h3 : B - D * (n + 1) ≤ q := by omega
        have h4 : q - (B - D * (n + 1)) < 64 := by omega
        simp [h1, h2, h3, h4]
    · simp [h1]
  have hbig : ∀ b, D ≤ b → (rel (n + 1)).testBit b = false := fun b hb =>
    Nat.testBit_lt_two_pow (Nat.lt_of_lt_of_le hr (Nat.pow_le_pow_right (by omega) hb))
  have hm : D * (n + 1) = D * n + D := Nat.mul_succ _ _
  rw [hm] at hsh hB ⊢
  refine ⟨fun q hq => ?_, fun q hq => ?_, fun k h1 h2 b hb => ?_⟩
  · rw [hm] at hq
    rw [BitVec.getLsbD_or, hsh, h.lo q (by omega)]
    have : ¬ B - (D * n + D) ≤ q := by omega
    simp [this]
  · rw [BitVec.getLsbD_or, hsh, h.hi q hq, hbig _ (by omega)]
    simp
  · rw [BitVec.getLsbD_or, hsh]
    rcases Nat.lt_or_ge n k with h3 | h3
    · have : k = n + 1 := by omega
      subst this
      rw [hm, h.lo _ (by omega), show B - (D * n + D) + b - (B - (D * n + D)) = b by omega]
      have : B - (D * n + D) + b < 64 := by omega
      simp [this]
    · have h4 : D * k ≤ D * n := Nat.mul_le_mul_left _ h3
      rw [h.fld k h1 h3 b hb, hbig _ (by omega)]
      simp

theorem Pack.get {B D : Nat} {rel : Nat → Nat} {w : Word} {n : Nat} (h : Pack B D rel w n) {k b : Nat} (hk : k ≤ n)
    (hb : b ≤ D) (h0 : rel 0 = 0) (hr : rel k < 2 ^ b) :
    (w >>> (B - D * k)) &&& BitVec.ofNat 64 (2 ^ b - 1) = BitVec.ofNat 64 (rel k) := by
  apply BitVec.eq_of_getLsbD_eq
  intro i hi
  rw [BitVec.getLsbD_and, BitVec.getLsbD_ushiftRight, getLsbD_ones, BitVec.getLsbD_ofNat]
  by_cases h1 : i < b
  · have : w.getLsbD (B - D * k + i) = (rel k).testBit i := by
      rcases Nat.eq_zero_or_pos k with h2 | h2
      · subst h2; rw [h.hi _ (by omega), h0]; simp
      · exact h.fld k h2 hk i (by omega)
    rw [this]; simp [hi, h1]
  · rw [Nat.testBit_lt_two_pow (Nat.lt_of_lt_of_le hr (Nat.pow_le_pow_right (by omega) (by omega : b ≤ i)))]
    simp [h1]

theorem pbind {α β : Type} (a : α) (f : α → Option β) : ((pure a : Option α) >>= f) = f a := rfl

/-! ### Construction, common to both structures -/

/-- Parameters: `S` words per superblock, `b` words per block. -/
structure Par (S b B D : Nat) : Prop where
  b1 : 1 ≤ b
  S1 : 1 ≤ S
  fit : D * ((S - 1) / b) ≤ B
  B64 : B < 64
  sum : 64 * (S - 1) < 2 ^ D

/-- Count relative to superblock `t` at block `k`. -/
def rel (pat : Pat) (m : Mem) (S b t k : Nat) : Nat := R pat m (64 * (S * t + b * k)) - R pat m (64 * (S * t))

theorem rel_zero (pat : Pat) (m : Mem) (S b t : Nat) : rel pat m S b t 0 = 0 := by
  unfold rel; rw [Nat.mul_zero, Nat.add_zero, Nat.sub_self]

theorem R_le (pat : Pat) (m : Mem) (a d : Nat) : R pat m a ≤ R pat m (a + d) ∧ R pat m (a + d) ≤ R pat m a + d := by
  unfold R
  rw [countTrue_add]
  have := countTrue_le (fun i => occ pat m (a + i)) d
  omega

theorem rel_le (pat : Pat) (m : Mem) (S b t k : Nat) : rel pat m S b t k ≤ 64 * (b * k) := by
  unfold rel
  have := R_le pat m (64 * (S * t)) (64 * (b * k))
  rw [← Nat.mul_add] at this
  omega

theorem rel_add (pat : Pat) (m : Mem) (S b t k : Nat) :
    R pat m (64 * (S * t)) + rel pat m S b t k = R pat m (64 * (S * t + b * k)) := by
  unfold rel
  have := R_le pat m (64 * (S * t)) (64 * (b * k))
  rw [← Nat.mul_add] at this
  omega

/-- Pack the current count if a block is complete. -/
def gpack (b B D : Nat) (s : St) : Option Word :=
  if s.cw % b = 0 then (shl s.sum (B - D * (s.cw / b))).map (s.sl ||| ·) else some s.sl

/-- Common loop body: `cw` words of the current superblock have been processed. -/
def gbody (S b B D : Nat) (pat : Pat) (m : Mem) (s : St) : Option St :=
  if s.cw = S then (flush s).bind (addWord pat m)
  else (gpack b B D s).bind (fun sl => addWord pat m { s with sl := sl })

/-- Common end. -/
def gfinish (S b B D : Nat) (s : St) : Option Mem :=
  if s.cw = S then do
    let j := s.j + 2
    let bb ← st s.bb (j - 1) s.sl
    let bb ← st bb j ((← ld bb (j - 2)) + s.sum)
    st bb (j + 1) 0#64
  else (gpack b B D s).bind (fun sl => st s.bb (s.j + 1) sl)

/-- Invariant: superblock `t` is current, `cw` of its words have been processed. -/
structure Inv (S b B D : Nat) (pat : Pat) (m : Mem) (n : Nat) (t : Nat) (s : St) : Prop where
  i : s.i = S * t + s.cw
  cw1 : 1 ≤ s.cw
  cwS : s.cw ≤ S
  j : s.j = 2 * t
  len : s.bb.length = n
  even : ∀ u, u ≤ t → s.bb[2 * u]? = some (BitVec.ofNat 64 (R pat m (64 * (S * u))))
  odd : ∀ u, u < t → ∃ w, s.bb[2 * u + 1]? = some w ∧ Pack B D (rel pat m S b u) w ((S - 1) / b)
  sl : Pack B D (rel pat m S b t) s.sl ((s.cw - 1) / b)
  sum : s.sum = BitVec.ofNat 64 (R pat m (64 * s.i) - R pat m (64 * (S * t)))
  carry : CarryOk pat m s.i s.carry

theorem toNat_sum (a : Nat) (w : Word) : BitVec.ofNat 64 a + w = BitVec.ofNat 64 (a + w.toNat) := by
  rw [BitVec.ofNat_add]; simp

theorem flush_eq {s : St} {t n : Nat} (hj : s.j = 2 * t) (hl : s.bb.length = n) (hn : 2 * t + 2 < n) {a : Word}
    (ha : s.bb[2 * t]? = some a) :
    flush s = some { s with j := 2 * t + 2, bb := (s.bb.set (2 * t + 1) s.sl).set (2 * t + 2) (a + s.sum), sl := 0#64, sum := 0#64, cw := 0 } := by
  unfold flush
  have e : ld (s.bb.set (2 * t + 1) s.sl) (2 * t) = some a := by
    unfold ld; rw [List.getElem?_set_ne (by omega)]; exact ha
  simp only [hj]
  rw [show 2 * t + 2 - 1 = 2 * t + 1 by omega, show 2 * t + 2 - 2 = 2 * t by omega, st_of_lt (by omega), sbind, e, sbind,
    st_of_lt (by rw [List.length_set]; omega), sbind]
  rfl

theorem addWord_eq {S b B D : Nat} {pat : Pat} {m : Mem} {n t : Nat} {s : St}
    (i : s.i = S * t + s.cw) (cwS : s.cw < S) (j : s.j = 2 * t) (len : s.bb.length = n)
    (even : ∀ u, u ≤ t → s.bb[2 * u]? = some (BitVec.ofNat 64 (R pat m (64 * (S * u)))))
    (odd : ∀ u, u < t → ∃ w, s.bb[2 * u + 1]? = some w ∧ Pack B D (rel pat m S b u) w ((S - 1) / b))
    (sl : Pack B D (rel pat m S b t) s.sl (s.cw / b))
    (sum : s.sum = BitVec.ofNat 64 (R pat m (64 * s.i) - R pat m (64 * (S * t))))
    (carry : CarryOk pat m s.i s.carry) (hi : s.i < m.length) :
    ∃ s', addWord pat m s = some s' ∧ Inv S b B D pat m n t s' ∧ s'.i = s.i + 1 := by
  unfold addWord
  rw [ld_of_lt hi, sbind]
  refine ⟨_, rfl, ⟨?_, ?_, ?_, j, len, even, odd, ?_, ?_, ?_⟩, rfl⟩
  · simp only; omega
  · simp
  · simp only; omega
  · simpa using sl
  · simp only
    rw [sum, toNat_sum]
    congr 1
    have := argsInWord_R pat hi carry
    have := R_le pat m (64 * (S * t)) (64 * s.cw)
    rw [← Nat.mul_add, ← i] at this
    omega
  · exact argsInWord_snd pat _ hi

theorem pack_step {S b B D : Nat} (P : Par S b B D) {pat : Pat} {m : Mem} {n t : Nat} {s : St}
    (h : Inv S b B D pat m n t s) (hlt : s.cw < S) :
    ∃ sl, gpack b B D s = some sl ∧ Pack B D (rel pat m S b t) sl (s.cw / b) := by
  unfold gpack
  by_cases h2 : s.cw % b = 0
  · obtain ⟨k, hk⟩ : ∃ k, s.cw = b * (k + 1) := by
      have h3 := Nat.div_add_mod s.cw b
      rw [h2, Nat.add_zero] at h3
      cases hq : s.cw / b with
      | zero => rw [hq, Nat.mul_zero] at h3; have := h.cw1; omega
      | succ k => rw [hq] at h3; exact ⟨k, h3.symm⟩
    have hdiv : s.cw / b = k + 1 := by rw [hk, Nat.mul_div_cancel_left _ P.b1]
    have hdiv' : (s.cw - 1) / b = k := by
      rw [hk, Nat.mul_succ]
      have : b * k + b - 1 = b * k + (b - 1) := by have := P.b1; omega
      rw [this, Nat.mul_add_div P.b1, Nat.div_eq_of_lt (by have := P.b1; omega)]; rfl
    have hfit : D * (k + 1) ≤ B := by
      refine Nat.le_trans (Nat.mul_le_mul_left _ ?_) P.fit
      rw [← hdiv]
      exact Nat.div_le_div_right (by omega)
    have hsum : s.sum = BitVec.ofNat 64 (rel pat m S b t (k + 1)) := by
      rw [h.sum]; unfold rel; rw [← hk, ← h.i]
    have hrel : rel pat m S b t (k + 1) < 2 ^ D := by
      have := rel_le pat m S b t (k + 1)
      rw [← hk] at this
      have := P.sum
      omega
    have hp := Pack.or (h.sl) (by rw [hdiv']; exact hfit) P.B64 (by rw [hdiv']; exact hrel)
    rw [hdiv'] at hp
    rw [if_pos h2, shl_of_lt (by have := P.B64; omega), Option.map_some, hdiv, hsum]
    exact ⟨_, rfl, hp⟩
  · have hdiv : s.cw / b = (s.cw - 1) / b := by
      have h3 := Nat.div_add_mod s.cw b
      have h5 := Nat.mod_lt s.cw P.b1
      have : s.cw - 1 = b * (s.cw / b) + (s.cw % b - 1) := by omega
      rw [this, Nat.mul_add_div P.b1, Nat.div_eq_of_lt (Nat.lt_of_le_of_lt (Nat.sub_le _ _) h5)]; rfl
    rw [if_neg h2]
    exact ⟨_, rfl, by rw [hdiv]; exact h.sl⟩

theorem gbody_eq {S b B D : Nat} (P : Par S b B D) {pat : Pat} {m : Mem} {n t W : Nat} {s : St}
    (h : Inv S b B D pat m n t s) (hiW : s.i < W) (hW : W ≤ m.length) (hn : ∀ u, S * u ≤ W → 2 * u + 1 < n) :
    ∃ s' t', gbody S b B D pat m s = some s' ∧ Inv S b B D pat m n t' s' ∧ s'.i = s.i + 1 := by
  have hi : s.i < m.length := by omega
  unfold gbody
  have hsub := R_le pat m (64 * (S * t)) (64 * s.cw)
  rw [← Nat.mul_add, ← h.i] at hsub
  by_cases h1 : s.cw = S
  · have hn' : 2 * t + 2 < n := by
      have := hn (t + 1) (by rw [Nat.mul_succ]; have := h.i; omega)
      omega
    rw [if_pos h1, flush_eq h.j h.len hn' (h.even t (Nat.le_refl _)), Option.bind_some]
    have e : s.i = S * (t + 1) := by rw [Nat.mul_succ, h.i, h1]
    obtain ⟨s', e1, e2, e3⟩ := addWord_eq (S := S) (b := b) (B := B) (D := D) (pat := pat) (m := m) (n := n) (t := t + 1)
      (s := { s with j := 2 * t + 2, bb := (s.bb.set (2 * t + 1) s.sl).set (2 * t + 2) (BitVec.ofNat 64 (R pat m (64 * (S * t))) + s.sum), sl := 0#64, sum := 0#64, cw := 0 })
      (by simp only; omega) (by simp only; exact P.S1) (by simp only; omega) (by simp only [List.length_set]; exact h.len)
      (by
        intro u hu
        simp only
        rcases Nat.lt_or_ge t u with h2 | h2
        · have : u = t + 1 := by omega
          subst this
          rw [show 2 * (t + 1) = 2 * t + 2 by omega, List.getElem?_set_self (by rw [List.length_set]; have := h.len; omega), h.sum,
            ← BitVec.ofNat_add, ← e]
          congr 2; omega
        · rw [List.getElem?_set_ne (by omega), List.getElem?_set_ne (by omega)]
          exact h.even u h2)
      (by
        intro u hu
        simp only
        rcases Nat.lt_or_ge u t with h2 | h2
        · rw [List.getElem?_set_ne (by omega), List.getElem?_set_ne (by omega)]
          exact h.odd u h2
        · have : u = t := by omega
          subst this
          rw [List.getElem?_set_ne (by omega), List.getElem?_set_self (by have := h.len; omega)]
          have := h.sl
          rw [h1] at this
          exact ⟨_, rfl, this⟩)
      (by simp only [Nat.zero_div]; exact Pack.zero _ _ _)
      (by simp only [e, Nat.sub_self])
      (by simp only; exact h.carry) (by simp only; exact hi)
    exact ⟨s', t + 1, e1, e2, e3⟩
  · have hlt : s.cw < S := by have := h.cwS; omega
    obtain ⟨sl, esl, hp⟩ := pack_step P h hlt
    rw [if_neg h1, esl, Option.bind_some]
    obtain ⟨s', e1, e2, e3⟩ := addWord_eq (S := S) (b := b) (B := B) (D := D) (pat := pat) (m := m) (n := n) (t := t)
        (s := { s with sl := sl }) h.i hlt h.j h.len h.even h.odd hp h.sum h.carry hi
    exact ⟨s', t, e1, e2, e3⟩

theorem rep_gbody {S b B D : Nat} (P : Par S b B D) {pat : Pat} {m : Mem} {n W : Nat} (hW : W ≤ m.length)
    (hn : ∀ u, S * u ≤ W → 2 * u + 1 < n) (k : Nat) : ∀ (s : St) (t : Nat), Inv S b B D pat m n t s → s.i + k ≤ W →
    ∃ s' t', rep (gbody S b B D pat m) k s = some s' ∧ Inv S b B D pat m n t' s' ∧ s'.i = s.i + k := by
  induction k with
  | zero => intro s t h _; exact ⟨s, t, rfl, h, rfl⟩
  | succ k ih =>
    intro s t h hk
    obtain ⟨s1, t1, e1, h1, i1⟩ := gbody_eq P h (by omega) hW hn
    obtain ⟨s2, t2, e2, h2, i2⟩ := ih s1 t1 h1 (by omega)
    refine ⟨s2, t2, ?_, h2, by omega⟩
    simp only [rep, e1, Option.bind_some, e2]

/-- What the queries use. -/
def Final (S b B D : Nat) (pat : Pat) (m : Mem) (W : Nat) (bb : Mem) : Prop :=
  ∀ u k, S * u + b * k ≤ W → b * k < S →
    bb[2 * u]? = some (BitVec.ofNat 64 (R pat m (64 * (S * u)))) ∧
    ∃ w n, bb[2 * u + 1]? = some w ∧ Pack B D (rel pat m S b u) w n ∧ k ≤ n

theorem le_div' {b k x : Nat} (hb : 1 ≤ b) (h : b * k ≤ x) : k ≤ x / b := by
  rw [Nat.le_div_iff_mul_le hb, Nat.mul_comm]; exact h

theorem gfinish_eq {S b B D : Nat} (P : Par S b B D) {pat : Pat} {m : Mem} {n t : Nat} {s : St}
    (h : Inv S b B D pat m n t s) (hn : ∀ u, S * u ≤ s.i → 2 * u + 1 < n) :
    ∃ bb, gfinish S b B D s = some bb ∧ Final S b B D pat m s.i bb := by
  unfold gfinish
  have hsub := R_le pat m (64 * (S * t)) (64 * s.cw)
  rw [← Nat.mul_add, ← h.i] at hsub
  have hlen := h.len
  by_cases h1 : s.cw = S
  · have hS : S * (t + 1) = S * t + S := Nat.mul_succ _ _
    have e : s.i = S * (t + 1) := by rw [hS, h.i, h1]
    have hn' := hn (t + 1) (by omega)
    have ea : ld (s.bb.set (2 * t + 1) s.sl) (2 * t) = some (BitVec.ofNat 64 (R pat m (64 * (S * t)))) := by
      unfold ld; rw [List.getElem?_set_ne (by omega)]; exact h.even t (Nat.le_refl _)
    simp only [h.j]
    rw [if_pos h1, show 2 * t + 2 - 1 = 2 * t + 1 by omega, show 2 * t + 2 - 2 = 2 * t by omega, st_of_lt (by omega), sbind,
      ea, sbind, st_of_lt (by rw [List.length_set]; omega), sbind, st_of_lt (by rw [List.length_set, List.length_set]; omega)]
    refine ⟨_, rfl, fun u k hu hk => ?_⟩
    have hut : u ≤ t + 1 := by
      rcases Nat.lt_or_ge (t + 1) u with h2 | h2
      · have : S * (t + 1 + 1) ≤ S * u := Nat.mul_le_mul_left _ h2
        rw [Nat.mul_succ] at this
        have := P.S1
        omega
      · exact h2
    rcases Nat.lt_or_ge t u with h2 | h2
    · have : u = t + 1 := by omega
      subst this
      have hb0 : b * k = 0 := by omega
      have hk0 : k = 0 := by
        rcases Nat.mul_eq_zero.mp hb0 with h3 | h3
        · have := P.b1; omega
        · exact h3
      constructor
      · rw [List.getElem?_set_ne (by omega), show 2 * (t + 1) = 2 * t + 2 by omega,
          List.getElem?_set_self (by rw [List.length_set]; omega), h.sum, ← BitVec.ofNat_add, ← e]
        congr 2; omega
      · refine ⟨0#64, 0, ?_, Pack.zero _ _ _, by omega⟩
        rw [show 2 * (t + 1) + 1 = 2 * t + 2 + 1 by omega, List.getElem?_set_self (by rw [List.length_set, List.length_set]; omega)]
    · constructor
      · rw [List.getElem?_set_ne (by omega), List.getElem?_set_ne (by omega), List.getElem?_set_ne (by omega)]
        exact h.even u h2
      · have hkS : k ≤ (S - 1) / b := le_div' P.b1 (by omega)
        rcases Nat.lt_or_ge u t with h3 | h3
        · obtain ⟨w, hw1, hw2⟩ := h.odd u h3
          refine ⟨w, _, ?_, hw2, hkS⟩
          rw [List.getElem?_set_ne (by omega), List.getElem?_set_ne (by omega), List.getElem?_set_ne (by omega)]
          exact hw1
        · have : u = t := by omega
          subst this
          refine ⟨s.sl, _, ?_, h.sl, by rw [h1]; exact hkS⟩
          rw [List.getElem?_set_ne (by omega), List.getElem?_set_ne (by omega), List.getElem?_set_self (by omega)]
  · have hlt : s.cw < S := by have := h.cwS; omega
    have hn' := hn t (by have := h.i; omega)
    rw [if_neg h1]
    obtain ⟨sl, esl, hp⟩ := pack_step P h hlt
    rw [esl, Option.bind_some, h.j, st_of_lt (by omega)]
    refine ⟨_, rfl, fun u k hu hk => ?_⟩
    have hut : u ≤ t := by
      rcases Nat.lt_or_ge t u with h2 | h2
      · have : S * (t + 1) ≤ S * u := Nat.mul_le_mul_left _ h2
        rw [Nat.mul_succ] at this
        have := h.i
        omega
      · exact h2
    constructor
    · rw [List.getElem?_set_ne (by omega)]
      exact h.even u hut
    · rcases Nat.lt_or_ge u t with h3 | h3
      · obtain ⟨w, hw1, hw2⟩ := h.odd u h3
        refine ⟨w, _, ?_, hw2, le_div' P.b1 (by omega)⟩
        rw [List.getElem?_set_ne (by omega)]
        exact hw1
      · have : u = t := by omega
        subst this
        refine ⟨sl, _, ?_, hp, le_div' P.b1 (by have := h.i; omega)⟩
        rw [List.getElem?_set_self (by omega)]

theorem start_eq {S b B D : Nat} (P : Par S b B D) (pat : Pat) (junk : Nat → Word) {m : Mem} {n : Nat} (hm : 0 < m.length)
    (hn : 2 ≤ n) : ∃ s, start pat junk m n = some s ∧ Inv S b B D pat m n 0 s ∧ s.i = 1 ∧ s.cw = 1 := by
  unfold start
  dsimp only
  rw [st_of_lt (by simp; omega), sbind, st_of_lt (by simp; omega), sbind, ld_of_lt hm, sbind]
  refine ⟨_, rfl, ⟨?_, ?_, ?_, ?_, ?_, ?_, ?_, ?_, ?_, ?_⟩, rfl, rfl⟩
  · simp
  · simp
  · exact P.S1
  · rfl
  · simp
  · intro u hu
    have : u = 0 := by omega
    subst this
    rw [Nat.mul_zero, List.getElem?_set_self (by simp; omega)]
    rfl
  · intro u hu; omega
  · simp only [Nat.sub_self, Nat.zero_div]; exact Pack.zero _ _ _
  · simp only
    have e := argsInWord_R pat hm (initCarry_ok pat m)
    have e0 : R pat m (64 * 0) = 0 := rfl
    rw [e0, Nat.zero_add] at e
    rw [Nat.mul_zero, e0, Nat.sub_zero, show 64 * 1 = 64 * (0 + 1) from rfl, e]
    simp
  · exact argsInWord_snd pat _ hm

/-- The query on the packed counts. -/
theorem Final.query {S b B D : Nat} {pat : Pat} {m : Mem} {W : Nat} {bb : Mem}
    (h : Final S b B D pat m W bb) {u k e : Nat} (hu : S * u + b * k ≤ W) (hk : b * k < S) (he : e ≤ D)
    (hr : 64 * (b * k) < 2 ^ e) :
    ∃ x y, ld bb (u * 2) = some x ∧ ld bb (u * 2 + 1) = some y ∧
      x + ((y >>> (B - D * k)) &&& BitVec.ofNat 64 (2 ^ e - 1)) = BitVec.ofNat 64 (R pat m (64 * (S * u + b * k))) := by
  obtain ⟨h1, w, n, h2, h3, h4⟩ := h u k hu hk
  refine ⟨BitVec.ofNat 64 (R pat m (64 * (S * u))), w, ?_, ?_, ?_⟩
  · unfold ld; rw [Nat.mul_comm]; exact h1
  · unfold ld; rw [Nat.mul_comm]; exact h2
  · rw [h3.get h4 he (rel_zero _ _ _ _ _) (Nat.lt_of_le_of_lt (rel_le _ _ _ _ _ _) hr), ← BitVec.ofNat_add, rel_add]

theorem rep_congr {f g : St → Option St} {Iv : St → Prop} {W : Nat} (h : ∀ s, Iv s → f s = g s)
    (hg : ∀ s, Iv s → s.i < W → ∃ s', g s = some s' ∧ Iv s' ∧ s'.i = s.i + 1) (k : Nat) :
    ∀ s, Iv s → s.i + k ≤ W → rep f k s = rep g k s := by
  induction k with
  | zero => intro s _ _; rfl
  | succ k ih =>
    intro s hs hk
    obtain ⟨s', e, hs', hi⟩ := hg s hs (by omega)
    simp only [rep, h s hs, e, Option.bind_some]
    exact ih s' hs' (by omega)

/-- Building with a body and end that agree with the common ones. -/
theorem build_eq {S b B D : Nat} (P : Par S b B D) (pat : Pat) (junk : Nat → Word) {m : Mem} {n W : Nat} (hW1 : 1 ≤ W)
    (hW : W ≤ m.length) (hn : ∀ u, S * u ≤ W → 2 * u + 1 < n) {body : St → Option St} {finish : St → Option Mem}
    (hb : ∀ s t, Inv S b B D pat m n t s → body s = gbody S b B D pat m s)
    (hf : ∀ s t, Inv S b B D pat m n t s → finish s = gfinish S b B D s) :
    ∃ bb, (do let s ← start pat junk m n
              finish (← rep body (W - 1) s) : Option Mem) = some bb ∧ Final S b B D pat m W bb := by
  have hn0 := hn 0 (by simp)
  obtain ⟨s, e1, h1, i1, _⟩ := start_eq P pat junk (m := m) (n := n) (by omega) (by omega)
  obtain ⟨s', t', e2, h2, i2⟩ := rep_gbody P hW hn (W - 1) s 0 h1 (by omega)
  have i3 : s'.i = W := by omega
  obtain ⟨bb, e3, h3⟩ := gfinish_eq P h2 (fun u hu => hn u (by omega))
  refine ⟨bb, ?_, by rw [i3] at h3; exact h3⟩
  rw [e1, sbind, rep_congr (Iv := fun s => ∃ t, Inv S b B D pat m n t s) (W := W) (g := gbody S b B D pat m)
    (fun s ⟨t, ht⟩ => hb s t ht)
    (fun s ⟨t, ht⟩ hs => by
      obtain ⟨s', t', q1, q2, q3⟩ := gbody_eq P ht hs hW hn
      exact ⟨s', q1, ⟨t', q2⟩, q3⟩) (W - 1) s ⟨0, h1⟩ (by omega), e2, sbind, hf s' t' h2, e3]

theorem parV : Par 8 1 63 9 := ⟨by decide, by decide, by decide, by decide, by decide⟩
theorem parV5 : Par 32 6 60 12 := ⟨by decide, by decide, by decide, by decide, by decide⟩

theorem V.body_eq {pat : Pat} {m : Mem} {n t : Nat} {s : St} (h : Inv 8 1 63 9 pat m n t s) :
    V.body pat m s = gbody 8 1 63 9 pat m s := by
  have h1 := h.i
  have h2 := h.cw1
  have h3 := h.cwS
  unfold V.body gbody gpack
  by_cases h4 : s.cw = 8
  · rw [if_pos (by omega), if_pos h4]; rfl
  · rw [if_neg (show ¬ s.i % 8 = 0 by omega), if_neg h4, if_pos (Nat.mod_one _), Nat.div_one, show s.i % 8 = s.cw by omega,
      shl_of_lt (by omega)]
    rfl

theorem V.finish_eq {pat : Pat} {m : Mem} {n t : Nat} {s : St} (h : Inv 8 1 63 9 pat m n t s) :
    V.finish s = gfinish 8 1 63 9 s := by
  have h1 := h.i
  have h2 := h.cw1
  have h3 := h.cwS
  unfold V.finish gfinish gpack
  by_cases h4 : s.cw = 8
  · rw [if_neg (by omega), if_pos h4]
  · rw [if_pos (show s.i % 8 ≠ 0 by omega), if_neg h4, if_pos (Nat.mod_one _), Nat.div_one, show s.i % 8 = s.cw by omega,
      shl_of_lt (by omega)]
    rfl

theorem V5.body_eq {pat : Pat} {m : Mem} {n t : Nat} {s : St} (h : Inv 32 6 60 12 pat m n t s) :
    V5.body pat m s = gbody 32 6 60 12 pat m s := by
  have h3 := h.cwS
  unfold V5.body gbody gpack
  by_cases h4 : s.cw = 32
  · rw [if_pos h4, if_pos h4]; rfl
  · rw [if_neg h4, if_neg h4]
    by_cases h5 : s.cw % 6 = 0
    · rw [if_pos h5, if_pos h5, shl_of_lt (by omega)]; rfl
    · rw [if_neg h5, if_neg h5]; rfl

theorem V5.finish_eq {pat : Pat} {m : Mem} {n t : Nat} {s : St} (h : Inv 32 6 60 12 pat m n t s) :
    V5.finish s = gfinish 32 6 60 12 s := by
  have h3 := h.cwS
  unfold V5.finish gfinish gpack
  by_cases h4 : s.cw = 32
  · rw [if_neg (by omega), if_pos h4, pbind]; simp only [if_pos h4]
  · rw [if_neg h4]
    by_cases h5 : s.cw % 6 = 0
    · rw [if_pos h5, if_pos h5, shl_of_lt (by omega), sbind, pbind]; simp only [if_neg h4]; rfl
    · rw [if_neg h5, if_neg h5, pbind]; simp only [if_neg h4]; rfl

/-! ### The three structures -/

theorem V.build_ok (pat : Pat) (junk : Nat → Word) {v : IntVec} (hv : (v.size + 63) / 64 ≤ v.data.length) :
    ∃ bb, V.build pat junk v = some bb ∧ Final 8 1 63 9 pat v.data v.capWords bb := by
  unfold V.build capWords
  by_cases h : v.size = 0
  · rw [if_pos h]
    refine ⟨_, rfl, fun u k hu hk => ?_⟩
    have hu0 : u = 0 := by omega
    have hk0 : k = 0 := by omega
    subst hu0 hk0
    exact ⟨rfl, 0#64, 0, rfl, Pack.zero _ _ _, Nat.le_refl _⟩
  · rw [if_neg h]
    exact build_eq parV pat junk (by omega) hv (fun u hu => by omega) (fun s t h => V.body_eq h) (fun s t h => V.finish_eq h)

theorem V.rank_ok {pat : Pat} {v : IntVec} (hv : (v.size + 63) / 64 ≤ v.data.length) {bb : Mem}
    (h : Final 8 1 63 9 pat v.data v.capWords bb) {idx : Nat} (hi : idx ≤ v.size) :
    V.rank pat v bb idx = some (BitVec.ofNat 64 (R pat v.data idx)) := by
  unfold capWords at h
  obtain ⟨x, y, e1, e2, e3⟩ := h.query (u := idx / 512) (k := idx % 512 / 64) (e := 9) (by omega) (by omega) (by omega) (by omega)
  unfold V.rank
  dsimp only
  rw [e1, sbind, e2, sbind, shr_of_lt (by omega), sbind]
  have hm : BitVec.ofNat 64 (2 ^ 9 - 1) = 0x1FF#64 := by decide
  rw [hm, show 8 * (idx / 512) + 1 * (idx % 512 / 64) = idx / 64 by omega] at e3
  rw [e3]
  by_cases h1 : idx % 64 ≠ 0
  · obtain ⟨w, e4, e5⟩ := wordRank_R pat (m := v.data) (idx := idx) (by omega)
    rw [if_pos h1, e4, sbind, toNat_sum, ← e5]; rfl
  · rw [if_neg h1, show 64 * (idx / 64) = idx by omega]; rfl

theorem V5.build_ok (pat : Pat) (junk : Nat → Word) {v : IntVec} (hv : (v.size + 63) / 64 ≤ v.data.length) :
    ∃ bb, V5.build pat junk v = some bb ∧ Final 32 6 60 12 pat v.data v.capWords bb := by
  unfold V5.build capWords
  by_cases h : v.size = 0
  · rw [if_pos h]
    refine ⟨_, rfl, fun u k hu hk => ?_⟩
    have hu0 : u = 0 := by omega
    have hk0 : k = 0 := by omega
    subst hu0 hk0
    exact ⟨rfl, 0#64, 0, rfl, Pack.zero _ _ _, Nat.le_refl _⟩
  · rw [if_neg h]
    exact build_eq parV5 pat junk (by omega) hv (fun u hu => by omega) (fun s t h => V5.body_eq h) (fun s t h => V5.finish_eq h)

theorem V5.rankLoop_eq {pat : Pat} {m : Mem} (a : Nat) (k : Nat) : ∀ (r : Word), a + k ≤ m.length →
    V5.rankLoop pat m k (64 * (a + k)) r = some (r + BitVec.ofNat 64 (R pat m (64 * (a + k)) - R pat m (64 * a))) := by
  induction k with
  | zero => intro r _; simp [V5.rankLoop]
  | succ k ih =>
    intro r hk
    obtain ⟨w, e1, e2⟩ := fullWordRank_R pat (m := m) (idx := 64 * (a + (k + 1)) - 1) (by omega)
    have hq : (64 * (a + (k + 1)) - 1) / 64 = a + k := by omega
    rw [hq] at e2
    simp only [V5.rankLoop]
    rw [e1, sbind, show 64 * (a + (k + 1)) - 64 = 64 * (a + k) by omega, ih _ (by omega)]
    congr 1
    have hle := R_le pat m (64 * a) (64 * k)
    rw [← Nat.mul_add] at hle
    rw [show a + (k + 1) = a + k + 1 by omega, e2, BitVec.add_assoc]
    congr 1
    rw [show R pat m (64 * (a + k)) + w.toNat - R pat m (64 * a) = (R pat m (64 * (a + k)) - R pat m (64 * a)) + w.toNat by omega,
      ← toNat_sum, BitVec.add_comm]

theorem V5.rank_ok {pat : Pat} {v : IntVec} (hv : (v.size + 63) / 64 ≤ v.data.length) {bb : Mem}
    (h : Final 32 6 60 12 pat v.data v.capWords bb) {idx : Nat} (hi : idx ≤ v.size) (hl : idx / 64 < v.data.length) :
    V5.rank pat v bb idx = some (BitVec.ofNat 64 (R pat v.data idx)) := by
  unfold capWords at h
  obtain ⟨x, y, e1, e2, e3⟩ := h.query (u := idx / 2048) (k := idx % 2048 / (64 * 6)) (e := 11) (by omega) (by omega) (by omega) (by omega)
  unfold V5.rank
  dsimp only
  rw [e1, sbind, e2, sbind, shr_of_lt (by omega), sbind]
  have hm : BitVec.ofNat 64 (2 ^ 11 - 1) = 0x7FF#64 := by decide
  rw [hm] at e3
  obtain ⟨w, e4, e5⟩ := wordRank_R pat (m := v.data) (idx := idx) hl
  rw [e3, e4, sbind]
  have hk : (idx - idx % 64) / 64 % 32 % 6 = idx / 64 - (32 * (idx / 2048) + 6 * (idx % 2048 / (64 * 6))) := by omega
  have ha : 32 * (idx / 2048) + 6 * (idx % 2048 / (64 * 6)) ≤ idx / 64 := by omega
  rw [hk]
  generalize 32 * (idx / 2048) + 6 * (idx % 2048 / (64 * 6)) = a at *
  have hidx : idx - idx % 64 = 64 * (a + (idx / 64 - a)) := by omega
  rw [hidx, V5.rankLoop_eq a _ _ (by omega), toNat_sum, ← BitVec.ofNat_add]
  congr 2
  have hle := R_le pat v.data (64 * a) (64 * (idx / 64 - a))
  rw [← Nat.mul_add] at hle
  have : a + (idx / 64 - a) = idx / 64 := by omega
  rw [this] at hle ⊢
  omega

theorem Scan.rankLoop_eq {pat : Pat} {m : Mem} (idx : Nat) (hl : idx / 64 ≤ m.length) (f : Nat) : ∀ i, i ≤ idx / 64 → idx / 64 < f + i →
    Scan.rankLoop pat m idx f (64 * i) (BitVec.ofNat 64 (R pat m (64 * i))) = some (BitVec.ofNat 64 (R pat m (64 * (idx / 64)))) := by
  induction f with
  | zero => intro i h1 h2; omega
  | succ f ih =>
    intro i h1 h2
    simp only [Scan.rankLoop]
    by_cases h : 64 * i + 64 ≤ idx
    · rw [if_pos h]
      obtain ⟨w, e1, e2⟩ := fullWordRank_R pat (m := m) (idx := 64 * i) (by omega)
      rw [show 64 * i / 64 = i by omega] at e2
      rw [e1, sbind, toNat_sum, ← e2, show 64 * i + 64 = 64 * (i + 1) by omega]
      exact ih (i + 1) (by omega) (by omega)
    · rw [if_neg h, show idx / 64 = i by omega]

theorem Scan.rank_ok {pat : Pat} {v : IntVec} {idx : Nat} (hl : idx / 64 < v.data.length) :
    Scan.rank pat v idx = some (BitVec.ofNat 64 (R pat v.data idx)) := by
  unfold Scan.rank
  have e := Scan.rankLoop_eq (pat := pat) (m := v.data) idx (by omega) (idx / 64 + 1) 0 (by omega) (by omega)
  rw [Nat.mul_zero, show R pat v.data 0 = 0 from rfl] at e
  rw [show (0#64 : Word) = BitVec.ofNat 64 0 from rfl, e, sbind]
  obtain ⟨w, e4, e5⟩ := wordRank_R pat (m := v.data) (idx := idx) hl
  rw [e4, sbind, toNat_sum, ← e5]; rfl

end Sdsl.Rank
