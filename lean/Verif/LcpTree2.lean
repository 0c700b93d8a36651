/-
  `construct_first_child_and_lf_lcp` and `lcp_support_tree2`.
-/
import Verif.LcpTree
import Verif.CstSct3CsaLemmas
import Verif.CsaNav

namespace Sdsl.LcpRep

open Csa Sdsl.Spec Sdsl.Sct
open Stack (Sms)

/-- Position `i` is marked: its value is large, and it is sampled or cannot be derived from the position of the preceding suffix. -/
def irrB (dens : Nat) (L B : List Nat) (i : Nat) : Bool := decide (val L i > 253 ∧ (i = 0 ∨ sym B (i - 1) ≠ sym B i ∨ val L i % dens = 0))

/-- What is stored for a value `y`. -/
def code (y : Nat) (g : Bool) : Nat := if y > 253 then (if g then 255 else 254) else y

section
variable {vs : List Nat} {R : Nat → Bool}

local notation "ST" => S (cmp true) (val vs) vs.length
local notation "OUT" => out (cmp true) (val vs) vs.length

/-- The position of the top entry. -/
def topI (st : List (Nat × Nat)) : Nat := (st.head?.map Prod.fst).getD 0

/-- The variable `is_one_big_and_not_reducable` at time `q`. -/
def Acc (vs : List Nat) (R : Nat → Bool) : Nat → Bool
  | 0 => false
  | q + 1 =>
    if out (cmp true) (val vs) vs.length q = true then false
    else if flag vs (S (cmp true) (val vs) vs.length q).2 = true then false
    else Acc vs R q || R (topI (S (cmp true) (val vs) vs.length q).2)

/-- The mark that is used when an entry is closed at time `q`. -/
def Mk (vs : List Nat) (R : Nat → Bool) (q : Nat) : Bool :=
  if (S (cmp true) (val vs) vs.length q).1 < vs.length then Acc vs R q || R (topI (S (cmp true) (val vs) vs.length q).2) else R (topI (S (cmp true) (val vs) vs.length q).2)

/-- The small values at time `q`. -/
def SL (vs : List Nat) (R : Nat → Bool) : Nat → List Nat
  | 0 => []
  | q + 1 =>
    if out (cmp true) (val vs) vs.length q = false ∧ flag vs (S (cmp true) (val vs) vs.length q).2 = true
    then SL vs R q ++ [code (topV vs (S (cmp true) (val vs) vs.length q).2) (Mk vs R q)] else SL vs R q

/-- The large values at time `q`. -/
def BL (vs : List Nat) (R : Nat → Bool) : Nat → List Nat
  | 0 => []
  | q + 1 =>
    if (out (cmp true) (val vs) vs.length q = false ∧ flag vs (S (cmp true) (val vs) vs.length q).2 = true) ∧ topV vs (S (cmp true) (val vs) vs.length q).2 > 253 ∧ Mk vs R q = true
    then BL vs R q ++ [topV vs (S (cmp true) (val vs) vs.length q).2] else BL vs R q

/-- The marks of the entries of the stack. -/
def Marks (R : Nat → Bool) (irr : List Bool) : List (Nat × Nat) → Prop
  | [] => True
  | a :: st => Bv.bit irr st.length = R a.1 ∧ Marks R irr st

theorem Marks.set {irr : List Bool} {i : Nat} {b : Bool} (hi : i < irr.length) : ∀ {st : List (Nat × Nat)}, st.length ≤ i → Marks R irr st → Marks R (irr.set i b) st
  | [], _, _ => trivial
  | a :: st, h, hm => by
    simp only [List.length_cons] at h
    exact ⟨by rw [Bv.bit_set hi, if_neg (by omega)]; exact hm.1, Marks.set hi (by omega) hm.2⟩

/-- The state at time `q`. -/
structure LfInv (vs : List Nat) (R : Nat → Bool) (t : LfSt) (q : Nat) : Prop where
  s : Sms.Inv vs.length t.s ((S (cmp true) (val vs) vs.length q).2.map fun t => val vs t.1)
  len : t.irr.length = vs.length
  marks : Marks R t.irr (S (cmp true) (val vs) vs.length q).2
  small : t.small = SL vs R q
  big : t.big = BL vs R q

theorem emit_spec (t : LfSt) (y : Nat) (r : Bool) : (t.emit y r).s = t.s ∧ (t.emit y r).irr = t.irr ∧ (t.emit y r).one = t.one ∧ (t.emit y r).small = t.small ++ [code y r] ∧
    (t.emit y r).big = if y > 253 ∧ r = true then t.big ++ [y] else t.big := by
  unfold LfSt.emit code
  by_cases h : y > 253
  · cases r <;> simp [h]
  · simp [h]

/-- The stack at a closing time. -/
theorem pop_facts (hn : vs.length + 1 < 2 ^ 63) (hv : ∀ x ∈ vs, x ≤ vs.length) {t : LfSt} {q : Nat} (h : LfInv vs R t q) (hq : q < 2 * vs.length) (ho : OUT q = false) :
    ∃ s', t.s.pop = some (s', flag vs (ST q).2) ∧ Sms.Inv vs.length s' ((ST (q + 1)).2.map fun t => val vs t.1) ∧ t.s.getTop = topV vs (ST q).2 ∧
      t.s.cnt = (ST q).2.length ∧ s'.cnt = (ST q).2.length - 1 ∧ Bv.get t.irr ((ST q).2.length - 1) = some (R (topI (ST q).2)) ∧ Marks R t.irr (ST (q + 1)).2 := by
  have hl := S_le (mn := true) (vs := vs) q
  have hne := S_ne hq ho
  obtain ⟨ht, hi⟩ := S_time (lt := cmp true) (v := val vs) (n := vs.length) q (by omega)
  have hlen : 0 < (ST q).2.length := List.length_pos_iff.2 hne
  obtain ⟨s', e, hs'⟩ := Sms.pop_inv hn h.s (by
    intro x hx
    obtain ⟨y, hy, rfl⟩ := List.mem_map.1 hx
    exact val_le hv _) (by rw [List.length_map]; omega)
  have ef : (decide ((ST q).2.map (fun t => val vs t.1) ≠ []) && decide (((ST q).2.map fun t => val vs t.1).tail.head? ≠ ((ST q).2.map fun t => val vs t.1).head?)) = flag vs (ST q).2 := by
    rw [decide_eq_true (by simpa using hne), Bool.true_and]; rfl
  rw [ef] at e
  have hm := h.marks
  refine ⟨s', e, by rw [S_cl ho, List.map_tail]; exact hs', ?_, by rw [h.s.cnt, List.length_map], by rw [hs'.cnt, List.length_tail, List.length_map], ?_, ?_⟩
  · cases hst : (ST q).2 with
    | nil => exact absurd hst hne
    | cons a st =>
      have hs := h.s
      rw [hst] at hs
      have := val_le hv a.1
      rw [Sms.top_eq (t := val vs a.1) hs (by omega)]
      rfl
  · rw [Bv.get_of_lt (by rw [h.len]; omega)]
    cases hst : (ST q).2 with
    | nil => exact absurd hst hne
    | cons a st =>
      rw [hst] at hm
      exact congrArg some hm.1
  · rw [S_cl ho]
    cases hst : (ST q).2 with
    | nil => exact absurd hst hne
    | cons a st => rw [hst] at hm; exact hm.2

theorem lfPop_ok (hn : vs.length + 1 < 2 ^ 63) (hv : ∀ x ∈ vs, x ≤ vs.length) {t : LfSt} {q : Nat} (h : LfInv vs R t q) (hone : t.one = Acc vs R q)
    (hq : q < 2 * vs.length) (ho : OUT q = false) (hi : (ST q).1 < vs.length) : ∃ t', lfPop t = some t' ∧ LfInv vs R t' (q + 1) ∧ t'.one = Acc vs R (q + 1) := by
  obtain ⟨s', e, hs', htop, hc, hc', hg, hm⟩ := pop_facts hn hv h hq ho
  have hM : Mk vs R q = (Acc vs R q || R (topI (ST q).2)) := by rw [Mk, if_pos hi]
  unfold lfPop
  rw [hc, hg, sbind, e, sbind]
  dsimp only
  rw [htop, hone]
  refine ⟨_, rfl, ?_⟩
  have hA : Acc vs R (q + 1) = if flag vs (ST q).2 = true then false else Acc vs R q || R (topI (ST q).2) := by rw [Acc, ho, if_neg (by decide)]
  by_cases c : flag vs (ST q).2 = true
  · rw [if_pos c, hA, if_pos c]
    obtain ⟨m1, m2, m3, m4, m5⟩ := emit_spec { t with s := s', one := Acc vs R q || R (topI (ST q).2) } (topV vs (ST q).2) (Acc vs R q || R (topI (ST q).2))
    refine ⟨⟨by dsimp only; rw [m1]; exact hs', by dsimp only; rw [m2]; exact h.len, by dsimp only; rw [m2]; exact hm, ?_, ?_⟩, rfl⟩
    · dsimp only; rw [m4, SL, if_pos ⟨ho, c⟩, hM]; dsimp only; rw [h.small]
    · dsimp only; rw [m5, BL, hM]; dsimp only; rw [h.big]
      by_cases d : topV vs (ST q).2 > 253 ∧ (Acc vs R q || R (topI (ST q).2)) = true
      · rw [if_pos d, if_pos ⟨⟨ho, c⟩, d⟩]
      · rw [if_neg d, if_neg (fun h => d h.2)]
  · rw [if_neg c, hA, if_neg c]
    exact ⟨⟨hs', h.len, hm, by dsimp only; rw [SL, if_neg (fun h => c h.2), h.small], by dsimp only; rw [BL, if_neg (fun h => c h.1.2), h.big]⟩, rfl⟩

theorem lfPop2_ok (hn : vs.length + 1 < 2 ^ 63) (hv : ∀ x ∈ vs, x ≤ vs.length) {t : LfSt} {q : Nat} (h : LfInv vs R t q)
    (hq : q < 2 * vs.length) (ho : OUT q = false) (hi : (ST q).1 = vs.length) : ∃ t', lfPop2 t = some t' ∧ LfInv vs R t' (q + 1) := by
  obtain ⟨s', e, hs', htop, hc, hc', hg, hm⟩ := pop_facts hn hv h hq ho
  have hM : Mk vs R q = R (topI (ST q).2) := by rw [Mk, if_neg (by omega)]
  unfold lfPop2
  rw [e, sbind]
  dsimp only
  by_cases c : flag vs (ST q).2 = true
  · rw [if_pos c, hc', hg, sbind, htop]
    refine ⟨_, rfl, ?_⟩
    obtain ⟨m1, m2, m3, m4, m5⟩ := emit_spec { t with s := s' } (topV vs (ST q).2) (R (topI (ST q).2))
    refine ⟨by rw [m1]; exact hs', by rw [m2]; exact h.len, by rw [m2]; exact hm, ?_, ?_⟩
    · rw [m4, SL, if_pos ⟨ho, c⟩, hM]; dsimp only; rw [h.small]
    · rw [m5, BL, hM]; dsimp only; rw [h.big]
      by_cases d : topV vs (ST q).2 > 253 ∧ R (topI (ST q).2) = true
      · rw [if_pos d, if_pos ⟨⟨ho, c⟩, d⟩]
      · rw [if_neg d, if_neg (fun h => d h.2)]
  · rw [if_neg c]
    exact ⟨_, rfl, hs', h.len, hm, by dsimp only; rw [SL, if_neg (fun h => c h.2), h.small], by dsimp only; rw [BL, if_neg (fun h => c h.1.2), h.big]⟩

theorem lfLoop_ok (hn : vs.length + 1 < 2 ^ 63) (hv : ∀ x ∈ vs, x ≤ vs.length) {i : Nat} (hi : i < vs.length) : ∀ (f : Nat) {t : LfSt} {q : Nat}, (ST q).2.length < f →
    q < 2 * vs.length → (ST q).1 = i → LfInv vs R t q → t.one = Acc vs R q →
    ∃ q' t', lfLoop (val vs i) f t = some t' ∧ (ST q').1 = i ∧ LfInv vs R t' q' ∧ OUT q' = true
  | 0, t, q, hf, _, _, _, _ => absurd hf (Nat.not_lt_zero _)
  | f + 1, t, q, hf, hq, hS1, h, hone => by
    have hs := h.s
    rw [lfLoop]
    cases hst : (ST q).2 with
    | nil =>
      rw [hst] at hs
      have he : t.s.empty = true := by unfold Sms.empty; rw [hs.cnt]; rfl
      rw [he, if_neg (by simp)]
      exact ⟨q, t, rfl, hS1, h, out_nil (i := i) (by rw [← hst, ← hS1]) hi⟩
    | cons a st =>
      have hS : ST q = (i, a :: st) := by rw [← hst, ← hS1]
      have ho := out_cons hS hi
      rw [hst] at hs
      have he : t.s.empty = false := by unfold Sms.empty; rw [hs.cnt]; rfl
      have hle := val_le hv a.1
      rw [he, Sms.top_eq (t := val vs a.1) hs (by omega), Bool.not_false, Bool.true_and]
      have hc : cmp true (val vs i) (val vs a.1) = decide (val vs i < val vs a.1) := rfl
      rw [hc] at ho
      cases c : decide (val vs i < val vs a.1) with
      | true =>
        rw [c] at ho
        rw [if_pos rfl]
        obtain ⟨t', e, h', hone'⟩ := lfPop_ok hn hv h hone hq ho (by omega)
        rw [e, sbind]
        have hq' : q + 1 < 2 * vs.length := by
          have h1 := (S_time (lt := cmp true) (v := val vs) (n := vs.length) (q + 1) (by omega)).1
          rw [S_cl ho, hS] at h1
          simp at h1; omega
        exact lfLoop_ok hn hv hi f (by rw [S_cl ho, hS]; rw [hst] at hf; simp at hf ⊢; omega) hq' (by rw [S_cl ho]; exact hS1) h' hone'
      | false =>
        rw [c] at ho
        rw [if_neg (by decide)]
        exact ⟨q, t, rfl, hS1, h, ho⟩

theorem zip_drop {L B : List Nat} (hB : B.length = L.length) {i x c : Nat} {r : List (Nat × Nat)} (h : (L.zip B).drop i = (x, c) :: r) :
    i < L.length ∧ val L i = x ∧ sym B i = c ∧ (L.zip B).drop (i + 1) = r := by
  have h1 : i < (L.zip B).length := by
    rcases Nat.lt_or_ge i (L.zip B).length with c | c
    · exact c
    · rw [List.drop_eq_nil_of_le c] at h; cases h
  have h2 : i < L.length := by rw [List.length_zip] at h1; omega
  rw [List.drop_eq_getElem_cons h1, List.getElem_zip] at h
  obtain ⟨h3, h4⟩ := List.cons.inj h
  obtain ⟨h5, h6⟩ := Prod.mk.inj h3
  refine ⟨h2, ?_, ?_, h4⟩
  · rw [← h5, val, List.getElem?_eq_getElem h2]; rfl
  · rw [← h6, sym_lt (by omega)]

theorem lfVals_ok {dens : Nat} (hd : 0 < dens) {B : List Nat} (hB : B.length = vs.length) (hn : vs.length + 1 < 2 ^ 63) (hv : ∀ x ∈ vs, x ≤ vs.length) :
    ∀ (xs : List (Nat × Nat)) {i last : Nat} {t : LfSt} {q : Nat}, xs = (vs.zip B).drop i → i ≤ vs.length → (0 < i → last = sym B (i - 1)) →
    q ≤ 2 * vs.length → (ST q).1 = i → Acc vs (irrB dens vs B) q = false → LfInv vs (irrB dens vs B) t q →
    ∃ q' t', lfVals dens xs i last t = some t' ∧ q' ≤ 2 * vs.length ∧ (ST q').1 = vs.length ∧ LfInv vs (irrB dens vs B) t' q'
  | [], i, last, t, q, hx, hi, _, hq, hS, _, h => by
    have : i = vs.length := by
      have := congrArg List.length hx
      rw [List.length_drop, List.length_zip] at this
      simp at this; omega
    subst this
    exact ⟨q, t, rfl, hq, hS, h⟩
  | (x, c) :: xs, i, last, t, q, hx, hi, hlast, hq, hS, hA, h => by
    obtain ⟨h1, h2, h2', h3⟩ := zip_drop hB hx.symm
    have hq2 : q < 2 * vs.length := by
      have := (S_time (lt := cmp true) (v := val vs) (n := vs.length) q hq).1
      omega
    obtain ⟨q', t', e, hS', h', ho⟩ := lfLoop_ok hn hv h1 (t.s.cnt + 1) (t := { t with one := false }) (by rw [h.s.cnt]; simp) hq2 hS ⟨h.s, h.len, h.marks, h.small, h.big⟩ hA.symm
    have hq' := out_time ho
    have hl := S_le (mn := true) (vs := vs) q'
    obtain ⟨s2, e3, hs2⟩ := Sms.push_inv h'.s (x := val vs i) (val_le hv i) (by
      intro y hy
      cases hst : (ST q').2 with
      | nil => rw [hst] at hy; cases hy
      | cons a st =>
        have h4 := out_cons (i := i) (t := a) (st := st) (by rw [← hst, ← hS']) h1
        rw [ho] at h4
        rw [hst] at hy
        simp only [List.map_cons, List.head?_cons, Option.some.injEq] at hy
        simp only [Sct.cmp, if_true] at h4
        have h5 : ¬ val vs i < val vs a.1 := by simpa using h4.symm
        omega) (by rw [List.length_map]; omega)
    have hcnt : t'.s.cnt = (ST q').2.length := by rw [h'.s.cnt, List.length_map]
    have hset : t'.s.cnt < t'.irr.length := by rw [h'.len, hcnt]; omega
    rw [lfVals, ← h2, e, sbind, if_neg (fun hh => by omega), Bv.set_of_lt hset, sbind, e3, sbind]
    dsimp only
    have hS2 := S_op ho
    have hF : SL vs (irrB dens vs B) (q' + 1) = SL vs (irrB dens vs B) q' := by rw [SL, ho, if_neg (by simp)]
    have hG : BL vs (irrB dens vs B) (q' + 1) = BL vs (irrB dens vs B) q' := by rw [BL, ho, if_neg (by simp)]
    have hR : decide (val vs i > 253 ∧ (i = 0 ∨ last ≠ c ∨ val vs i % dens = 0)) = irrB dens vs B i := by
      unfold irrB
      by_cases i0 : i = 0
      · simp [i0]
      · rw [hlast (by omega), h2']
    rw [hR]
    refine lfVals_ok hd hB hn hv xs h3.symm h1 (fun _ => h2'.symm) hq' (i := i + 1) (by rw [hS2, ← hS']) (by rw [Acc, ho, if_pos rfl])
      ⟨by rw [hS2, List.map_cons, hS']; exact hs2, by dsimp only; rw [List.length_set]; exact h'.len, ?_, by rw [hF]; exact h'.small, by rw [hG]; exact h'.big⟩
    rw [hS2, hS']
    refine ⟨?_, Marks.set hset (by rw [hcnt]) h'.marks⟩
    dsimp only
    rw [Bv.bit_set hset, if_pos hcnt.symm]

theorem lfEnd_ok (hn : vs.length + 1 < 2 ^ 63) (hv : ∀ x ∈ vs, x ≤ vs.length) : ∀ (f : Nat) {t : LfSt} {q : Nat}, (ST q).2.length < f →
    q ≤ 2 * vs.length → (ST q).1 = vs.length → LfInv vs R t q → ∃ t', lfEnd f t = some t' ∧ LfInv vs R t' (2 * vs.length)
  | 0, t, q, hf, _, _, _ => absurd hf (Nat.not_lt_zero _)
  | f + 1, t, q, hf, hq, hS1, h => by
    have h1 := (S_time (lt := cmp true) (v := val vs) (n := vs.length) q hq).1
    rw [lfEnd]
    by_cases c : (ST q).2.length = 0
    · have he : t.s.empty = true := by unfold Sms.empty; rw [h.s.cnt, List.length_map, c]; rfl
      rw [he, if_pos rfl]
      have : q = 2 * vs.length := by omega
      exact ⟨t, rfl, this ▸ h⟩
    · have he : t.s.empty = false := by unfold Sms.empty; rw [h.s.cnt, List.length_map]; exact beq_false_of_ne c
      have ho : OUT q = false := out_end hS1
      obtain ⟨t', e, h'⟩ := lfPop2_ok hn hv h (by omega) ho hS1
      rw [he, if_neg (by decide), e, sbind]
      exact lfEnd_ok hn hv f (by rw [S_cl ho, List.length_tail]; omega) (by omega) (by rw [S_cl ho]; exact hS1) h'

theorem firstChildLf_ok {dens : Nat} (hd : 0 < dens) {B : List Nat} (hB : B.length = vs.length) (hn : vs.length + 1 < 2 ^ 63) (hv : ∀ x ∈ vs, x ≤ vs.length) :
    firstChildLf dens vs B = some (SL vs (irrB dens vs B) (2 * vs.length), BL vs (irrB dens vs B) (2 * vs.length)) := by
  obtain ⟨s, e, hs⟩ := Sms.new_inv vs.length
  obtain ⟨q, t, e2, hq, hS, h⟩ := lfVals_ok hd hB hn hv (vs.zip B) (i := 0) (last := 0) (t := ⟨s, List.replicate vs.length false, false, [], []⟩) (q := 0) rfl (Nat.zero_le _) (fun h => absurd h (Nat.lt_irrefl _))
    (Nat.zero_le _) rfl rfl ⟨hs, by simp, trivial, rfl, rfl⟩
  obtain ⟨t', e3, h'⟩ := lfEnd_ok hn hv (t.s.cnt + 1) (by rw [h.s.cnt]; simp) hq hS h
  rw [firstChildLf, e, sbind, e2, sbind, e3, sbind, h'.small, h'.big]
  rfl

/-! ### Reading the values -/

theorem SL_len : ∀ q, (SL vs R q).length = (FL vs q).length
  | 0 => rfl
  | q + 1 => by
    rw [SL, FL]
    split
    · rw [List.length_append, List.length_append, SL_len q]; rfl
    · exact SL_len q

theorem SL_prefix (q : Nat) : ∀ d, ∃ r, SL vs R (q + d) = SL vs R q ++ r
  | 0 => ⟨[], by simp⟩
  | d + 1 => by
    obtain ⟨r, hr⟩ := SL_prefix q d
    rw [← Nat.add_assoc, SL]
    split
    · exact ⟨_, by rw [hr, List.append_assoc]⟩
    · exact ⟨r, hr⟩

theorem BL_prefix (q : Nat) : ∀ d, ∃ r, BL vs R (q + d) = BL vs R q ++ r
  | 0 => ⟨[], by simp⟩
  | d + 1 => by
    obtain ⟨r, hr⟩ := BL_prefix q d
    rw [← Nat.add_assoc, BL]
    split
    · exact ⟨_, by rw [hr, List.append_assoc]⟩
    · exact ⟨r, hr⟩

theorem code_255 (y : Nat) (g : Bool) : code y g = 255 ↔ y > 253 ∧ g = true := by
  unfold code
  by_cases h : y > 253
  · cases g <;> simp [h]
  · simp [h]; omega

theorem code_le (y : Nat) (g : Bool) : code y g < 256 := by
  unfold code
  split
  · split <;> omega
  · omega

theorem BL_len : ∀ q, (BL vs R q).length = (SL vs R q).count 255
  | 0 => rfl
  | q + 1 => by
    have ih := BL_len q
    rw [SL, BL]
    by_cases c : OUT q = false ∧ flag vs (ST q).2 = true
    · rw [if_pos c, List.count_append, List.count_singleton]
      by_cases d : topV vs (ST q).2 > 253 ∧ Mk vs R q = true
      · rw [if_pos ⟨c, d⟩, List.length_append, ih, if_pos (by rw [beq_iff_eq, code_255]; exact d)]; rfl
      · rw [if_neg (fun h => d h.2), ih, if_neg (by rw [beq_iff_eq, code_255]; exact d)]; rfl
    · rw [if_neg c, if_neg (fun h => c h.1), ih]

theorem SL_lt : ∀ q, ∀ x ∈ SL vs R q, x < 256
  | 0, x, h => absurd h List.not_mem_nil
  | q + 1, x, h => by
    rw [SL] at h
    split at h
    · rcases List.mem_append.1 h with h | h
      · exact SL_lt q x h
      · rw [List.mem_singleton.1 h]; exact code_le _ _
    · exact SL_lt q x h

theorem BL_le (hv : ∀ x ∈ vs, x ≤ vs.length) : ∀ q, ∀ x ∈ BL vs R q, x ≤ vs.length
  | 0, x, h => absurd h List.not_mem_nil
  | q + 1, x, h => by
    rw [BL] at h
    split at h
    · rcases List.mem_append.1 h with h | h
      · exact BL_le hv q x h
      · rw [List.mem_singleton.1 h]; exact val_le hv _
    · exact BL_le hv q x h

/-- What is stored for a closed entry, and which mark decides. -/
theorem SL_at : ∀ (d q : Nat), q + d = 2 * vs.length → q < 2 * vs.length → OUT q = false →
    ∃ g, (SL vs R (2 * vs.length))[(SL vs R q).length]? = some (code (topV vs (ST q).2) g) ∧
      (g = true → topV vs (ST q).2 > 253 → (BL vs R (2 * vs.length))[(BL vs R q).length]? = some (topV vs (ST q).2)) ∧
      ((ST q).1 < vs.length → (Acc vs R q || R (topI (ST q).2)) = true → g = true) ∧
      ((ST q).1 = vs.length → ∃ b ∈ (ST q).2, val vs b.1 = topV vs (ST q).2 ∧ g = R b.1 ∧ ∀ e ∈ (ST q).2, val vs e.1 = topV vs (ST q).2 → b.1 ≤ e.1)
  | 0, q, h, hq, _ => by omega
  | d + 1, q, h, hq, ho => by
    have hne := S_ne hq ho
    by_cases c : flag vs (ST q).2 = true
    · refine ⟨Mk vs R q, ?_, fun hg hv => ?_, fun hi ha => ?_, fun hi => ?_⟩
      · obtain ⟨r, hr⟩ := SL_prefix (vs := vs) (R := R) (q + 1) d
        rw [show q + 1 + d = 2 * vs.length by omega] at hr
        rw [hr, SL, if_pos ⟨ho, c⟩, List.append_assoc, List.getElem?_append_right (Nat.le_refl _), Nat.sub_self]
        rfl
      · obtain ⟨r, hr⟩ := BL_prefix (vs := vs) (R := R) (q + 1) d
        rw [show q + 1 + d = 2 * vs.length by omega] at hr
        rw [hr, BL, if_pos ⟨⟨ho, c⟩, hv, hg⟩, List.append_assoc, List.getElem?_append_right (Nat.le_refl _), Nat.sub_self]
        rfl
      · rw [Mk, if_pos hi]; exact ha
      · rw [Mk, if_neg (by omega)]
        cases hst : (ST q).2 with
        | nil => exact absurd hst hne
        | cons a st =>
          refine ⟨a, List.mem_cons_self, rfl, rfl, fun e he hval => ?_⟩
          have sok := Sct.S_ok (lt := Sct.cmp true) (v := Sct.val vs) (n := vs.length) (Sct.cmp_tr true) q
          have keep := sok.keep
          have ent := sok.ent
          have dsc := sok.desc
          rw [hst] at keep ent dsc c
          rcases List.mem_cons.1 he with e' | e'
          · rw [e']
          · rw [flag, decide_eq_true_iff, List.map_cons, List.tail_cons, List.head?_cons] at c
            have hval : val vs e.1 = val vs a.1 := hval
            cases st with
            | nil => cases e'
            | cons f st =>
              exfalso
              rw [List.map_cons, List.head?_cons, ne_eq, Option.some_inj] at c
              have le : ∀ x ∈ a :: f :: st, ∀ y ∈ a :: f :: st, x.1 < y.1 → val vs x.1 ≤ val vs y.1 := by
                intro x hx y hy hxy
                have := keep x hx y.1 hxy (ent y hy).1
                simp only [Sct.cmp, if_true, decide_eq_false_iff_not] at this
                omega
              simp only [List.map_cons, List.pairwise_cons] at dsc
              have h1 : f.1 < a.1 := dsc.1 f.1 (by simp)
              have h2 := le f (by simp) a (by simp) h1
              rcases List.mem_cons.1 e' with e'' | e''
              · rw [e''] at hval; exact c hval
              · have h3 : e.1 < f.1 := dsc.2.1 e.1 (List.mem_map.2 ⟨e, e'', rfl⟩)
                have h4 := le e he f (by simp) h3
                omega
    · have hF : SL vs R (q + 1) = SL vs R q := by rw [SL, if_neg (fun h => c h.2)]
      have hG : BL vs R (q + 1) = BL vs R q := by rw [BL, if_neg (fun h => c h.1.2)]
      cases hst : (ST q).2 with
      | nil => exact absurd hst hne
      | cons a st =>
        have hc : flag vs (a :: st) = false := by rw [← hst]; simpa using c
        rw [flag, decide_eq_false_iff_not, not_ne_iff, List.map_cons, List.tail_cons, List.head?_cons] at hc
        cases st with
        | nil => cases hc
        | cons b st =>
          rw [List.map_cons, List.head?_cons, Option.some_inj] at hc
          have hS : ST (q + 1) = ((ST q).1, b :: st) := by rw [S_cl ho, hst]; rfl
          have ho' : OUT (q + 1) = false := by
            have hle := (S_time (lt := cmp true) (v := val vs) (n := vs.length) q (by omega)).2
            rcases Nat.lt_or_ge (ST q).1 vs.length with e | e
            · have h1 := out_cons (i := (ST q).1) (t := a) (st := b :: st) (by rw [← hst]) e
              rw [ho] at h1
              rw [out_cons hS e, hc]
              exact h1.symm
            · exact out_end (by rw [hS]; dsimp only; omega)
          have hq' : q + 1 < 2 * vs.length := by
            have h1 := (S_time (lt := cmp true) (v := val vs) (n := vs.length) (q + 1) (by omega))
            rw [hS] at h1
            simp at h1; omega
          obtain ⟨g, g1, g2, g3, g4⟩ := SL_at d (q + 1) (by omega) hq' ho'
          have hA : Acc vs R (q + 1) = (Acc vs R q || R (topI (ST q).2)) := by rw [Acc, ho, if_neg (by decide), if_neg c]
          have ht : topV vs (b :: st) = topV vs (a :: b :: st) := hc
          rw [hF, hS] at g1
          rw [hG, hS] at g2
          rw [hA, hS, hst] at g3
          rw [hS] at g4
          dsimp only at g1 g2 g3 g4
          rw [ht] at g1 g2 g4
          refine ⟨g, g1, g2, fun hi ha => g3 hi (by rw [ha]; rfl), fun hi => ?_⟩
          obtain ⟨e, e1, e2, e3, e4⟩ := g4 hi
          refine ⟨e, List.mem_cons_of_mem _ e1, e2, e3, fun x hx hval => ?_⟩
          rcases List.mem_cons.1 hx with hx | hx
          · have dsc := (Sct.S_ok (lt := Sct.cmp true) (v := Sct.val vs) (n := vs.length) (Sct.cmp_tr true) q).desc
            rw [hst, List.map_cons, List.pairwise_cons] at dsc
            have := dsc.1 e.1 (List.mem_map.2 ⟨e, e1, rfl⟩)
            rw [hx]; omega
          · exact e4 x hx hval

end

/-! ### lcp_support_tree2 -/

open CstSct3 Sdsl.Props Bp SufTree

/-- The marks of the values that are still on the stack at the end are those of their first copies. -/
def EndOk (R : Nat → Bool) (L : List Nat) : Prop :=
  ∀ b i, b < i → i < L.length → val L b = val L i → val L i > 253 → (∀ k, b < k → k < L.length → val L b ≤ val L k) → R i = true → R b = true

theorem top_idx {L : List Nat} {t p q : Nat} (h : Pr L (out (cmp true) (val L) L.length) t p q) : topI (S (cmp true) (val L) L.length q).2 = t := by
  obtain ⟨hp, hm, hq⟩ := h
  have tr := Sct.cmp_tr true
  have ok := Sct.S_ok (lt := Sct.cmp true) (v := Sct.val L) (n := L.length) tr q
  have hne := Sct.S_ne hq hm.2.1
  cases hst : (Sct.S (Sct.cmp true) (Sct.val L) L.length q).2 with
  | nil => exact absurd hst hne
  | cons a st =>
    have hS : Sct.S (Sct.cmp true) (Sct.val L) L.length q = ((Sct.S (Sct.cmp true) (Sct.val L) L.length q).1, a :: st) := by rw [← hst]
    have hm' := Sct.S_match tr hq hm.2.1 hS
    have hpa : p = a.2 := by
      obtain ⟨h7, h8, h9⟩ := hm.2.2.exc
      obtain ⟨g7, g8, g9⟩ := hm'.2.2.exc
      have h10 := exc_open hm.1
      have g10 := exc_open hm'.1
      rcases Nat.lt_trichotomy p a.2 with c | c | c
      · have := h9 a.2 (by omega) (by omega); omega
      · exact c
      · have := g9 p (by omega) (by omega); omega
    have ea := ok.ent a (by rw [hst]; exact List.mem_cons_self)
    have h7 := ea.2.2.2
    rw [← hpa] at h7
    have := hp.2.2
    show a.1 = t
    omega

/-- The entry for position `i`, whose parentheses are `p` and `q`. -/
theorem slot_gen {L : List Nat} {s : Cst} {S D : Nat} (ok : Ok L s S D) (hn : L.length + 1 < 2 ^ 63) (hv : ∀ x ∈ L, x ≤ L.length) (R : Nat → Bool) {i p q : Nat} (hp : Pr L (bitAt s.bp.mem) i p q) :
    Pr L (out (cmp true) (val L) L.length) i p q ∧
    ∃ k g, s.tlcpIdx i = some k ∧ k < (SL L R (2 * L.length)).length ∧ (SL L R (2 * L.length))[k]? = some (code (val L i) g) ∧
      (g = true → val L i > 253 → (BL L R (2 * L.length))[((SL L R (2 * L.length)).take k).count 255]? = some (val L i)) ∧
      ((Sct.S (cmp true) (val L) L.length q).1 < L.length → R i = true → g = true) ∧
      ((Sct.S (cmp true) (val L) L.length q).1 = L.length → ∃ b ∈ (Sct.S (cmp true) (val L) L.length q).2, val L b.1 = val L i ∧ g = R b.1 ∧
        ∀ e ∈ (Sct.S (cmp true) (val L) L.length q).2, val L e.1 = val L i → b.1 ≤ e.1) := by
  have hf := fc_flag ok hn hv
  have hB : ∀ p, p < 2 * L.length → bitAt s.bp.mem p = out (cmp true) (val L) L.length p := C60_unique ok.sc (out_super true L (fun _ => rfl))
  have hcnt : ∀ q, q ≤ 2 * L.length → countTrue (bitAt s.bp.mem) q = (Sct.S (cmp true) (val L) L.length q).1 := by
    intro q hq
    rw [← S_cnt]; exact countTrue_congr (fun i hi => hB i (by omega))
  have hq := hp.2.2
  have hp' := pr_congr hB hp
  obtain ⟨g, g1, g2, g3, g4⟩ := SL_at (vs := L) (R := R) (2 * L.length - q) q (by omega) hq hp'.cls
  rw [top_pair hp'] at g1 g2 g4
  rw [top_idx hp'] at g3
  have hk : (SL L R q).length = countTrue (bitAt s.fc) (q - countTrue (bitAt s.bp.mem) q) := by rw [SL_len, FL_len hf q (by omega), hcnt q (by omega)]
  obtain ⟨r, hr⟩ := SL_prefix (vs := L) (R := R) q (2 * L.length - q)
  rw [show q + (2 * L.length - q) = 2 * L.length by omega] at hr
  have htake : (SL L R (2 * L.length)).take (SL L R q).length = SL L R q := by rw [hr, List.take_left]
  refine ⟨hp', (SL L R q).length, g, ?_, (List.getElem?_eq_some_iff.1 g1).1, g1, fun e1 e2 => ?_, fun e1 e2 => g3 e1 (by rw [e2]; simp), g4⟩
  · rw [hk]; exact tlcp_eq ok hp
  · rw [htake, ← BL_len]; exact g2 e1 e2

theorem slot_ok {L : List Nat} {s : Cst} {S D : Nat} (ok : Ok L s S D) (hn : L.length + 1 < 2 ^ 63) (hv : ∀ x ∈ L, x ≤ L.length) {R : Nat → Bool} (hE : EndOk R L) {i : Nat} (hi : i < L.length) :
    ∃ k g, s.tlcpIdx i = some k ∧ k < (SL L R (2 * L.length)).length ∧ (SL L R (2 * L.length))[k]? = some (code (val L i) g) ∧
      (g = true → val L i > 253 → (BL L R (2 * L.length))[((SL L R (2 * L.length)).take k).count 255]? = some (val L i)) ∧ (val L i > 253 → R i = true → g = true) := by
  obtain ⟨p, q, hp⟩ := pr_exists ok.sc hi
  have hq := hp.2.2
  obtain ⟨hp', k, g, h1, h2, h3, h4, h5, h6⟩ := slot_gen ok hn hv R hp
  refine ⟨k, g, h1, h2, h3, h4, fun e1 e2 => ?_⟩
  have hle := (S_time (lt := cmp true) (v := val L) (n := L.length) q (by omega)).2
  rcases Nat.lt_or_ge (Sct.S (cmp true) (val L) L.length q).1 L.length with c | c
  · exact h5 c e2
  · have c : (Sct.S (cmp true) (val L) L.length q).1 = L.length := by omega
    obtain ⟨b, b1, b2, b3, b4⟩ := h6 c
    have sok := Sct.S_ok (lt := Sct.cmp true) (v := Sct.val L) (n := L.length) (Sct.cmp_tr true) q
    rw [b3]
    have hkeep : ∀ k, b.1 < k → k < L.length → val L b.1 ≤ val L k := by
      intro k k1 k2
      have := sok.keep b b1 k k1 (by omega)
      simp only [Sct.cmp, if_true, decide_eq_false_iff_not] at this
      omega
    have hbi : b.1 ≤ i := by
      have ht := top_idx hp'
      cases hst : (Sct.S (cmp true) (val L) L.length q).2 with
      | nil => rw [hst] at b1; cases b1
      | cons a st =>
        rw [hst] at ht b4
        have ht : a.1 = i := ht
        have := b4 a List.mem_cons_self (by rw [ht])
        omega
    rcases Nat.eq_or_lt_of_le hbi with e | e
    · rw [e]; exact e2
    · exact hE b.1 i e hi b2 e1 hkeep e2

/-- At the end, the mark of the first of the copies decides. -/
theorem slot_last {L : List Nat} {s : Cst} {S D : Nat} (ok : Ok L s S D) (hn : L.length + 1 < 2 ^ 63) (hv : ∀ x ∈ L, x ≤ L.length) {R : Nat → Bool} {i b : Nat} (hi : i + 1 = L.length) (hb : b < i)
    (e : ∀ k, k < L.length → val L k = val L i → b ≤ k) (hk : ∀ k, b ≤ k → k ≤ i → val L k = val L i) :
    ∃ k, s.tlcpIdx i = some k ∧ k < (SL L R (2 * L.length)).length ∧ (SL L R (2 * L.length))[k]? = some (code (val L i) (R b)) := by
  obtain ⟨p, q, hp⟩ := pr_exists ok.sc (show i < L.length by omega)
  have hq := hp.2.2
  obtain ⟨hp', k, g, h1, h2, h3, h4, h5, h6⟩ := slot_gen ok hn hv R hp
  have ho := hp'.2.1.1
  have hS1 : (Sct.S (cmp true) (val L) L.length p).1 = i := by have := hp'.1.2.2; rw [← S_cnt]; omega
  have hS := S_op ho
  rw [hS1] at hS
  have hq1 : q = p + 1 := by
    obtain ⟨g7, g8, g9⟩ := hp'.2.1.2.2.exc
    have g10 := exc_open ho
    have hc : out (cmp true) (val L) L.length (p + 1) = false := out_end (by rw [hS]; exact hi)
    have g11 := exc_close hc
    rcases Nat.lt_or_ge (p + 1) q with c | c
    · have := g9 (p + 1 + 1) (by omega) (by omega)
      omega
    · omega
  rw [hq1, hS] at h6
  obtain ⟨x, x1, x2, x3, x4⟩ := h6 hi
  have sok := Sct.S_ok (lt := Sct.cmp true) (v := Sct.val L) (n := L.length) (Sct.cmp_tr true) p
  rw [← hS1] at hb
  obtain ⟨r, hr⟩ := sok.all (by omega) b hb (fun k k1 k2 => by
    rw [hk b (Nat.le_refl _) (by omega), hk k (by omega) (by omega)]
    simp [Sct.cmp])
  have h7 := x4 (b, r) (List.mem_cons_of_mem _ hr) (hk b (Nat.le_refl _) (by omega))
  have h8 : x.1 < L.length := by
    rcases List.mem_cons.1 x1 with c | c
    · rw [c]; dsimp only; omega
    · have := (sok.ent x c).1; omega
  have h9 := e x.1 h8 x2
  have : x.1 = b := by dsimp only at h7; omega
  rw [this] at x3
  exact ⟨k, h1, h2, x3 ▸ h3⟩

theorem foldl_max_le : ∀ (l : List Nat) (a : Nat), a ≤ l.foldl max a ∧ ∀ x ∈ l, x ≤ l.foldl max a
  | [], a => ⟨Nat.le_refl _, fun x h => absurd h List.not_mem_nil⟩
  | y :: l, a => by
    obtain ⟨h1, h2⟩ := foldl_max_le l (max a y)
    rw [List.foldl_cons]
    refine ⟨by omega, fun x hx => ?_⟩
    rcases List.mem_cons.1 hx with e | e
    · rw [e]; omega
    · exact h2 x e

theorem foldl_max_lt {m : Nat} : ∀ (l : List Nat) (a : Nat), a < m → (∀ x ∈ l, x < m) → l.foldl max a < m
  | [], a, h, _ => h
  | y :: l, a, h, h' => by
    rw [List.foldl_cons]
    exact foldl_max_lt l _ (by have := h' y (by simp); omega) (fun x hx => h' x (by simp [hx]))

theorem lcp_lf {T SA L : List Nat} (hT : IsText T) (hS : IsSA T SA) (hL : IsLcpArray T SA L) {i j : Nat} (hi : i < T.length) (h0 : 0 < i) (hb : sym (bwtOf T SA) (i - 1) = sym (bwtOf T SA) i)
    (hj : j < T.length) (e : sym SA j = prv T.length (sym SA i)) : val L j = val L i + 1 := by
  obtain ⟨a1, a2⟩ := IsSA.lf hT hS hi _ rfl
  obtain ⟨b1, b2⟩ := IsSA.lf hT hS (show i - 1 < T.length by omega) _ hb.symm
  have hc := count_take_succ (L := bwtOf T SA) (i := i - 1) (by rw [hS.bwt_length]; omega) (sym (bwtOf T SA) i)
  rw [if_pos hb, show i - 1 + 1 = i by omega] at hc
  have hj' := hS.inj a1 hj (by rw [a2, e])
  have hp := hS.sym_get_lt hi
  have hq := hS.sym_get_lt (i := i - 1) (by omega)
  rw [hS.bwt_sym hi, hS.bwt_sym (by omega : i - 1 < T.length)] at hb
  -- neither suffix is the whole text
  have hne : sym SA (i - 1) ≠ sym SA i := fun h => by have := hS.inj (by omega) hi h; omega
  have key : ∀ x y, x < T.length → y < T.length → x ≠ y → sym T (prv T.length x) = sym T (prv T.length y) → 0 < x := by
    intro x y hx hy hxy h
    rcases Nat.eq_zero_or_pos x with c | c
    · subst c
      rcases Nat.eq_zero_or_pos y with d | d
      · omega
      · rw [prv_zero (by omega), prv_pos hy d, hT.last] at h
        have := hT.eq_last (i := y - 1) (by omega) h.symm
        omega
    · exact c
  have p0 := key _ _ hp hq (Ne.symm hne) hb.symm
  have q0 := key _ _ hq hp hne hb
  rw [prv_pos hp p0, prv_pos hq q0] at hb
  rw [prv_pos hp p0] at e
  rw [prv_pos hq q0] at b2
  generalize hlo : smaller T (sym (bwtOf T SA) i) + ((bwtOf T SA).take (i - 1)).count (sym (bwtOf T SA) i) = lo at *
  have hj1 : j = lo + 1 := by omega
  have hli := lcp_at hL h0 hi
  have hlj := lcp_at hL (k := j) (by omega) hj
  rw [show j - 1 = lo by omega, suf, suf, b2, e, drop_cons (T := T) (i := sym SA (i - 1) - 1) (by omega), drop_cons (T := T) (i := sym SA i - 1) (by omega), hb,
    show sym SA (i - 1) - 1 + 1 = sym SA (i - 1) by omega, show sym SA i - 1 + 1 = sym SA i by omega] at hlj
  rw [suf, suf] at hli
  obtain ⟨⟨p, p1, p2, p3⟩, hm⟩ := hli
  obtain ⟨⟨r, r1, r2, r3⟩, hm'⟩ := hlj
  have g1 := hm' (sym T (sym SA i - 1) :: p) (by simpa using p1) (by simpa using p2)
  rw [List.length_cons, p3] at g1
  have g2 : L.getD j 0 ≤ L.getD i 0 + 1 := by
    cases r with
    | nil => rw [← r3]; exact Nat.zero_le _
    | cons x r =>
      rw [List.cons_prefix_cons] at r1 r2
      have := hm r r1.2 r2.2
      rw [← r3, List.length_cons]; omega
  rw [val, val, ← List.getD_eq_getElem?_getD, ← List.getD_eq_getElem?_getD]
  omega

/-- The stored lists. -/
theorem tree2_new {T SA L : List Nat} {s : Cst} {S D dens : Nat} (hT : IsText T) (hS : IsSA T SA) (hL : IsLcpArray T SA L) (ok : Ok L s S D) (hd : 0 < dens) (hn : T.length < 956722026041) :
    ∃ W big, tree2New dens L (bwtOf T SA) = some ⟨W, big⟩ ∧ WtOk W (SL L (irrB dens L (bwtOf T SA)) (2 * L.length)) (SymOk (.huff true) .byte) ∧ big.xs = BL L (irrB dens L (bwtOf T SA)) (2 * L.length) := by
  have hl := hL.1
  obtain ⟨f1, f2, f3, f4⟩ := lcp_facts hT hS hL
  have hBl : (bwtOf T SA).length = L.length := by rw [hS.bwt_length, hl]
  have e1 := firstChildLf_ok hd hBl (by omega) f3
  generalize irrB dens L (bwtOf T SA) = R at *
  obtain ⟨p, q, hp⟩ := pr_exists ok.sc f1
  obtain ⟨_, k0, g0, _, c0, _⟩ := slot_gen ok (by omega) f3 R hp
  have hne : SL L R (2 * L.length) ≠ [] := fun e => by rw [e] at c0; exact absurd c0 (Nat.not_lt_zero _)
  have hlt := SL_lt (vs := L) (R := R) (2 * L.length)
  have hsl : (SL L R (2 * L.length)).length ≤ L.length := by
    rw [SL_len]
    have := FL_le (vs := L) (2 * L.length)
    rw [S_end] at this
    have this : _ ≤ 2 * L.length - L.length := this
    omega
  obtain ⟨W, t1, t2⟩ := newWt_spec (tk := .huff true) (ak := .byte) hne
    ⟨fun _ => hlt, hlt, fun c hc => by have := hlt c hc; omega, by show (SL L R (2 * L.length)).length < 956722026041; omega⟩
  have hbl := BL_le (vs := L) (R := R) f3 (2 * L.length)
  obtain ⟨w, w1, w2, w3⟩ := hiW_spec (n := (BL L R (2 * L.length)).foldl max 0) (foldl_max_lt _ _ (by decide) (fun x hx => by have := hbl x hx; omega))
  have hbig : (BL L R (2 * L.length)).map (· % 2 ^ IntVec.clampWidth w) = BL L R (2 * L.length) := by
    rw [w3]
    have : ∀ x ∈ BL L R (2 * L.length), x % 2 ^ w = x := fun x hx => Nat.mod_eq_of_lt (by have := (foldl_max_le (BL L R (2 * L.length)) 0).2 x hx; omega)
    rw [List.map_congr_left this, List.map_id']
  exact ⟨_, _, by rw [tree2New, e1, sbind]; dsimp only; rw [t1, sbind, w1, sbind]; rfl, t2, hbig⟩

theorem tree2_ok {T SA L : List Nat} {s : Cst} {S D dens : Nat} {lf : Nat → Option Nat} (hT : IsText T) (hS : IsSA T SA) (hL : IsLcpArray T SA L) (ok : Ok L s S D) (hd : 0 < dens) (hn : T.length < 956722026041)
    (hE : EndOk (irrB dens L (bwtOf T SA)) L) (hlf : ∀ i, i < T.length → ∃ j, lf i = some j ∧ j < T.length ∧ sym SA j = prv T.length (sym SA i)) :
    ∃ t, tree2New dens L (bwtOf T SA) = some t ∧ ∀ i f, i < T.length → T.length < f → tree2Get t s lf f i 0 = some (val L i) := by
  have hl := hL.1
  obtain ⟨f1, f2, f3, f4⟩ := lcp_facts hT hS hL
  obtain ⟨W, big, t1, t2, hbig⟩ := tree2_new hT hS hL ok hd hn
  generalize hR : irrB dens L (bwtOf T SA) = R at *
  have slot := fun {i} (hi : i < L.length) => slot_ok ok (by omega) f3 hE hi
  refine ⟨_, t1, ?_⟩
  have key : ∀ (f i off : Nat), i < T.length → L.length < f + val L i → (off = 0 ∨ val L i > 253) → off ≤ val L i →
      tree2Get ⟨W, big⟩ s lf f i off = some (val L i - off) := by
    intro f
    induction f with
    | zero =>
      intro i off hi hf
      have := val_le f3 i
      omega
    | succ f ih =>
      intro i off hi hf ho hoff
      obtain ⟨k, g, h1, h2, h3, h4, h5⟩ := slot (i := i) (by omega)
      have hvl := val_le f3 i
      rw [tree2Get, h1, sbind]
      dsimp only
      have hget : W.get k = some (code (val L i) g) := by
        rw [t2.get k h2, ← sym_getElem? h2, h3]
      rw [hget, sbind]
      by_cases c : val L i > 253
      · cases g with
        | true =>
          have hcode : code (val L i) true = 255 := (code_255 _ _).2 ⟨c, rfl⟩
          rw [hcode, if_neg (by decide), if_neg (by decide), t2.rank k 255 (by omega) ⟨by decide, fun _ => by decide⟩, sbind, Arr.get]
          rw [hbig, h4 rfl c, sbind]
          show some _ = some _
          rw [show off % 2 ^ 64 = off from Nat.mod_eq_of_lt (by omega), show val L i + (2 ^ 64 - off) = val L i - off + 2 ^ 64 by omega, Nat.add_mod_right, Nat.mod_eq_of_lt (by omega)]
        | false =>
          have hcode : code (val L i) false = 254 := by rw [code, if_pos c]; rfl
          rw [hcode, if_neg (by decide), if_pos rfl]
          have hr : R i = false := by
            cases hr : R i with
            | false => rfl
            | true => have := h5 c hr; cases this
          rw [← hR, irrB, decide_eq_false_iff_not] at hr
          have i0 : 0 < i := by
            rcases Nat.eq_zero_or_pos i with d | d
            · exact absurd ⟨c, Or.inl d⟩ hr
            · exact d
          have hb : sym (bwtOf T SA) (i - 1) = sym (bwtOf T SA) i := by
            by_cases d : sym (bwtOf T SA) (i - 1) = sym (bwtOf T SA) i
            · exact d
            · exact absurd ⟨c, Or.inr (Or.inl d)⟩ hr
          obtain ⟨j, j1, j2, j3⟩ := hlf i hi
          have hstep := lcp_lf hT hS hL hi i0 hb j2 j3
          rw [j1, sbind, ih j (off + 1) j2 (by omega) (by omega) (by omega), hstep]
          congr 1
          omega
      · have hcode : code (val L i) g = val L i := by rw [code, if_neg c]
        rw [hcode, if_pos (by omega)]
        congr 1
        omega
  intro i f hi hf
  rw [key f i 0 hi (by omega) (Or.inl rfl) (Nat.zero_le _)]
  rfl

end Sdsl.LcpRep
