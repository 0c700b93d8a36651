/-
  The constructions of super-Cartesian trees write the parentheses of the machine of SctMach.lean.
-/
import Verif.SctMach
import Verif.StackHist
import Verif.BitsFib

namespace Sdsl.Sct

open Spec Props Bits Stack

theorem setOne_eq {m : Mem} {k : Nat} (h : k < 64 * m.length) : ∃ m', setOne m k = some m' ∧ m'.length = m.length ∧
    ∀ p, bitAt m' p = (bitAt m p || decide (p = k)) := by
  have hk : k / 64 < m.length := by omega
  have e1 : ld m (k / 64) = some m[k / 64] := by unfold ld; exact List.getElem?_eq_getElem hk
  refine ⟨m.set (k / 64) (m[k / 64] ||| 1#64 <<< (k % 64)), ?_, by simp, fun p => ?_⟩
  · unfold setOne
    rw [e1, sbind]
    have e2 : shl 1#64 (k % 64) = some (1#64 <<< (k % 64)) := by unfold shl; rw [if_pos (by omega)]
    rw [e2, sbind]
    unfold st; rw [if_pos hk]
  · rw [bitAt_set hk]
    by_cases c : p / 64 = k / 64
    · rw [if_pos c, BitVec.getLsbD_or, Bits.shl_one_bit (by omega), bitAt_of_lt (by omega)]
      congr 1
      · simp only [c]
      · exact decide_eq_decide.2 ⟨fun h => by omega, fun h => by omega⟩
    · rw [if_neg c]
      have : p ≠ k := fun h => c (by rw [h])
      simp [this]

theorem setZero_eq {m : Mem} {k : Nat} (h : k < 64 * m.length) : ∃ m', setZero m k = some m' ∧ m'.length = m.length ∧
    ∀ p, bitAt m' p = (bitAt m p && !decide (p = k)) := by
  have hk : k / 64 < m.length := by omega
  have e1 : ld m (k / 64) = some m[k / 64] := by unfold ld; exact List.getElem?_eq_getElem hk
  refine ⟨m.set (k / 64) (m[k / 64] &&& ~~~ (1#64 <<< (k % 64))), ?_, by simp, fun p => ?_⟩
  · unfold setZero
    rw [e1, sbind]
    have e2 : shl 1#64 (k % 64) = some (1#64 <<< (k % 64)) := by unfold shl; rw [if_pos (by omega)]
    rw [e2, sbind]
    unfold st; rw [if_pos hk]
  · rw [bitAt_set hk]
    by_cases c : p / 64 = k / 64
    · rw [if_pos c, BitVec.getLsbD_and, BitVec.getLsbD_not, Bits.shl_one_bit (by omega), bitAt_of_lt (by omega)]
      have : decide (p % 64 < 64) = true := decide_eq_true (by omega)
      rw [this, Bool.true_and]
      congr 1
      · simp only [c]
      · congr 1
        exact decide_eq_decide.2 ⟨fun h => by omega, fun h => by omega⟩
    · rw [if_neg c]
      have : p ≠ k := fun h => c (by rw [h])
      simp [this]

theorem bitAt_zero (W p : Nat) : bitAt (List.replicate W 0#64) p = false := by
  unfold bitAt
  rw [List.getElem?_replicate]
  by_cases c : p / 64 < W
  · rw [if_pos c]; simp
  · rw [if_neg c]

/-- The first `q` bits of `b` are written, the others are zero. -/
structure Wr (b : Nat → Bool) (W : Nat) (m : Mem) (q : Nat) : Prop where
  len : m.length = W
  bits : ∀ p, bitAt m p = (decide (p < q) && b p)

variable {b : Nat → Bool} {W : Nat} {m : Mem} {q : Nat}

theorem Wr.init : Wr b W (List.replicate W 0#64) 0 := ⟨by simp, fun p => by rw [bitAt_zero]; simp⟩

theorem Wr.skip (h : Wr b W m q) (hq : b q = false) : Wr b W m (q + 1) := by
  refine ⟨h.len, fun p => ?_⟩
  rw [h.bits]
  rcases Nat.lt_trichotomy p q with c | c | c
  · rw [decide_eq_true c, decide_eq_true (by omega : p < q + 1)]
  · rw [c, hq]; simp
  · rw [decide_eq_false (by omega : ¬ p < q), decide_eq_false (by omega : ¬ p < q + 1)]

theorem Wr.one (h : Wr b W m q) (hq : b q = true) (hW : q < 64 * W) : ∃ m', setOne m q = some m' ∧ Wr b W m' (q + 1) := by
  obtain ⟨m', h1, h2, h3⟩ := setOne_eq (m := m) (k := q) (by rw [h.len]; exact hW)
  refine ⟨m', h1, by rw [h2, h.len], fun p => ?_⟩
  rw [h3, h.bits]
  rcases Nat.lt_trichotomy p q with c | c | c
  · rw [decide_eq_true c, decide_eq_true (by omega : p < q + 1), decide_eq_false (by omega : ¬ p = q)]; simp
  · rw [c, hq]; simp
  · rw [decide_eq_false (by omega : ¬ p < q), decide_eq_false (by omega : ¬ p < q + 1), decide_eq_false (by omega : ¬ p = q)]; simp

theorem Wr.zero (h : Wr b W m q) (hq : b q = false) (hW : q < 64 * W) : ∃ m', setZero m q = some m' ∧ Wr b W m' (q + 1) := by
  obtain ⟨m', h1, h2, h3⟩ := setZero_eq (m := m) (k := q) (by rw [h.len]; exact hW)
  refine ⟨m', h1, by rw [h2, h.len], fun p => ?_⟩
  rw [h3, h.bits]
  rcases Nat.lt_trichotomy p q with c | c | c
  · rw [decide_eq_true c, decide_eq_true (by omega : p < q + 1), decide_eq_false (by omega : ¬ p = q)]; simp
  · rw [c, hq]; simp
  · rw [decide_eq_false (by omega : ¬ p < q), decide_eq_false (by omega : ¬ p < q + 1), decide_eq_false (by omega : ¬ p = q)]; simp

/-- Nothing but zeros follows. -/
theorem Wr.rest (h : Wr b W m q) (hq : ∀ p, q ≤ p → b p = false) : ∀ p, bitAt m p = b p := by
  intro p
  rw [h.bits]
  by_cases c : p < q
  · simp [c]
  · simp [c, hq p (by omega)]

/-- Value of a position. -/
abbrev val (vs : List Nat) (i : Nat) : Nat := vs[i]?.getD 0

theorem val_get {vs : List Nat} {i : Nat} (h : i < vs.length) : vs[i]? = some (val vs i) := by
  rw [List.getElem?_eq_getElem h, val, List.getElem?_eq_getElem h]; rfl

theorem val_drop {vs xs : List Nat} {i x : Nat} (h : vs.drop i = x :: xs) : i < vs.length ∧ val vs i = x ∧ vs.drop (i + 1) = xs := by
  have h1 : i < vs.length := by
    rcases Nat.lt_or_ge i vs.length with c | c
    · exact c
    · rw [List.drop_eq_nil_of_le c] at h; cases h
  rw [List.drop_eq_getElem_cons h1] at h
  injection h with h2 h3
  exact ⟨h1, by rw [val, List.getElem?_eq_getElem h1]; exact h2, h3⟩

theorem cmp_tr (minimum : Bool) : ∀ a b c, cmp minimum a b = false → cmp minimum b c = false → cmp minimum a c = false := by
  intro a b c
  cases minimum
  · simp only [cmp, Bool.false_eq_true, if_false, decide_eq_false_iff_not]; omega
  · simp only [cmp, if_true, decide_eq_false_iff_not]; omega

section
variable {mn : Bool} {vs : List Nat}

local notation "ST" => S (cmp mn) (val vs) vs.length
local notation "OUT" => out (cmp mn) (val vs) vs.length

theorem S_le (q : Nat) : (ST q).2.length ≤ (ST q).1 := by
  rcases Nat.lt_or_ge (2 * vs.length) q with h | h
  · obtain ⟨d, rfl⟩ := Nat.le.dest (Nat.le_of_lt h)
    rw [(S_after d).1]; exact Nat.zero_le _
  · have h1 := (S_time (lt := cmp mn) (v := val vs) q h).1
    have h2 := S_cnt (lt := cmp mn) (v := val vs) (n := vs.length) q
    have h3 := countTrue_le OUT q
    omega

/-- The rest consists of closing parentheses. -/
theorem S_rest {q : Nat} (h : (ST q).1 = vs.length) : ∀ p, q ≤ p → OUT p = false := by
  intro p hp
  obtain ⟨d, rfl⟩ := Nat.le.dest hp
  have : ∀ d, (ST (q + d)).1 = vs.length := by
    intro d
    induction d with
    | zero => exact h
    | succ d ih => rw [← Nat.add_assoc, S_cl (out_end ih)]; exact ih
  exact out_end (this d)

theorem out_time {q : Nat} (h : OUT q = true) : q < 2 * vs.length := by
  rcases Nat.lt_or_ge q (2 * vs.length) with c | c
  · exact c
  · obtain ⟨d, rfl⟩ := Nat.le.dest c
    rw [(S_after d).2] at h; cases h

/-! ### The plain construction -/

theorem plainPop_ok {i : Nat} (hi : i < vs.length) : ∀ (st : List (Nat × Nat)) {q : Nat} {m : Mem}, ST q = (i, st) → Wr OUT W m q →
    ∃ q' st', plainPop mn (val vs i) (st.map fun t => val vs t.1) q = (st'.map fun t => val vs t.1, q') ∧ ST q' = (i, st') ∧ OUT q' = true ∧ Wr OUT W m q'
  | [], q, m, hS, hw => ⟨q, [], rfl, hS, out_nil hS hi, hw⟩
  | t :: st, q, m, hS, hw => by
    have ho := out_cons hS hi
    rw [List.map_cons, plainPop]
    cases c : cmp mn (val vs i) (val vs t.1) with
    | true =>
      rw [c] at ho
      rw [if_pos rfl]
      exact plainPop_ok hi st (by rw [S_cl ho, hS]; rfl) (hw.skip ho)
    | false =>
      rw [c] at ho
      rw [if_neg (by decide)]
      exact ⟨q, t :: st, rfl, hS, ho, hw⟩

theorem plainEnd_ok (hW : 2 * vs.length ≤ 64 * W) : ∀ (st : List (Nat × Nat)) {q : Nat} {m : Mem}, q ≤ 2 * vs.length → ST q = (vs.length, st) → Wr OUT W m q →
    ∃ m', plainEnd (st.map fun t => val vs t.1) q m = some m' ∧ m'.length = W ∧ ∀ p, bitAt m' p = OUT p
  | [], q, m, _, hS, hw => ⟨m, rfl, hw.len, hw.rest (S_rest (by rw [hS]))⟩
  | t :: st, q, m, hq, hS, hw => by
    have ho : OUT q = false := out_end (by rw [hS])
    have h1 : q < 2 * vs.length := by
      have := (S_time (lt := cmp mn) (v := val vs) q hq).1
      rw [hS] at this
      simp at this; omega
    obtain ⟨m', e, hw'⟩ := hw.zero ho (by omega)
    rw [List.map_cons, plainEnd, e, sbind]
    exact plainEnd_ok hW st h1 (by rw [S_cl ho, hS]; rfl) hw'

theorem plainLoop_ok (hW : 2 * vs.length ≤ 64 * W) : ∀ (xs : List Nat) {i : Nat} {st : List (Nat × Nat)} {q : Nat} {m : Mem}, xs = vs.drop i → i ≤ vs.length →
    q ≤ 2 * vs.length → ST q = (i, st) → Wr OUT W m q →
    ∃ m', plainLoop mn xs (st.map fun t => val vs t.1) q m = some m' ∧ m'.length = W ∧ ∀ p, bitAt m' p = OUT p
  | [], i, st, q, m, hx, hi, hq, hS, hw => by
    have : i = vs.length := by
      have := congrArg List.length hx
      simp at this; omega
    subst this
    exact plainEnd_ok hW st hq hS hw
  | x :: xs, i, st, q, m, hx, hi, hq, hS, hw => by
    obtain ⟨h1, h2, h3⟩ := val_drop hx.symm
    obtain ⟨q', st', e, hS', ho, hw'⟩ := plainPop_ok h1 st hS hw
    have hq' := out_time ho
    obtain ⟨m', e2, hw2⟩ := hw'.one ho (by omega)
    rw [plainLoop, ← h2, e]
    dsimp only
    rw [e2, sbind]
    exact plainLoop_ok hW xs h3.symm h1 hq' (st := (i, q') :: st') (by rw [S_op ho, hS']) hw2

theorem plain_ok (hW : 2 * vs.length ≤ 64 * W) : ∃ m, plain vs mn W = some m ∧ m.length = W ∧ ∀ p, bitAt m p = OUT p :=
  plainLoop_ok hW vs (i := 0) (st := []) rfl (Nat.zero_le _) (Nat.zero_le _) rfl Wr.init

/-! ### The construction with positions on the stack -/

theorem st_le {q i : Nat} {st : List (Nat × Nat)} (hS : ST q = (i, st)) : ∀ t ∈ st, t.1 < i := by
  have := (S_ok (lt := cmp mn) (v := val vs) (n := vs.length) (cmp_tr mn) q).ent
  rw [hS] at this
  exact fun t ht => (this t ht).1

theorem idxPop_ok (hn : vs.length + 1 < 2 ^ 63) {i : Nat} (hi : i < vs.length) : ∀ (st : List (Nat × Nat)) {s : Sss} {f q : Nat} {m : Mem}, st.length < f → ST q = (i, st) →
    Sss.Inv vs.length s (st.map Prod.fst) → Wr OUT W m q →
    ∃ q' s' st', idxPop mn vs (val vs i) f s q = some (s', q') ∧ ST q' = (i, st') ∧ Sss.Inv vs.length s' (st'.map Prod.fst) ∧ OUT q' = true ∧ Wr OUT W m q'
  | _, s, 0, q, m, hf, _, _, _ => absurd hf (Nat.not_lt_zero _)
  | [], s, f + 1, q, m, _, hS, hs, hw => by
    refine ⟨q, s, [], ?_, hS, hs, out_nil hS hi, hw⟩
    rw [idxPop, if_neg (by rw [hs.cnt]; simp)]
  | t :: st, s, f + 1, q, m, hf, hS, hs, hw => by
    have ho := out_cons hS hi
    have hle := st_le hS
    have ht := hle t List.mem_cons_self
    rw [idxPop, if_pos (by rw [hs.cnt]; simp), Sss.top_eq (t := t.1) hs (by omega), val_get (by omega), sbind]
    cases c : cmp mn (val vs i) (val vs t.1) with
    | true =>
      rw [c] at ho
      rw [if_pos rfl]
      obtain ⟨s', e, hs'⟩ := Sss.pop_inv hn hs (by
        intro x hx
        obtain ⟨y, hy, rfl⟩ := List.mem_map.1 hx
        have := hle y hy; omega)
      rw [e, sbind]
      exact idxPop_ok hn hi st (by simp at hf; omega) (by rw [S_cl ho, hS]; rfl) hs' (hw.skip ho)
    | false =>
      rw [c] at ho
      rw [if_neg (by decide)]
      exact ⟨q, s, t :: st, rfl, hS, hs, ho, hw⟩

theorem idxMax_ok {vs : List Nat} (hn : vs.length + 1 < 2 ^ 63) (hW : 2 * vs.length ≤ 64 * W) : ∀ (c : Nat) {i : Nat} {st : List (Nat × Nat)} {s : Sss} {q : Nat} {m : Mem}, c + i = vs.length →
    S (cmp false) (val vs) vs.length q = (i, st) → Sss.Inv vs.length s (st.map Prod.fst) → Wr (out (cmp false) (val vs) vs.length) W m q →
    ∃ m', idxMax vs c i s q m = some m' ∧ m'.length = W ∧ ∀ p, bitAt m' p = out (cmp false) (val vs) vs.length p
  | 0, i, st, s, q, m, hc, hS, hs, hw => ⟨m, rfl, hw.len, hw.rest (S_rest (by rw [hS]; dsimp only; omega))⟩
  | c + 1, i, st, s, q, m, hc, hS, hs, hw => by
    have hi : i < vs.length := by omega
    obtain ⟨q', s', st', e, hS', hs', ho, hw'⟩ := idxPop_ok hn hi st (f := s.cnt + 1) (by rw [hs.cnt]; simp) hS hs hw
    obtain ⟨s2, e2, hs2⟩ := Sss.push_inv hs' (x := i) (by omega) (by
      intro t ht
      obtain ⟨y, hy, rfl⟩ := List.mem_map.1 (List.mem_of_mem_head? ht)
      exact st_le hS' y hy)
    obtain ⟨m', e3, hw3⟩ := hw'.one ho (by have := out_time ho; omega)
    rw [idxMax, val_get hi, sbind, e, sbind]
    dsimp only
    rw [e2, sbind, e3, sbind]
    exact idxMax_ok hn hW c (by omega) (st := (i, q') :: st') (by rw [S_op ho, hS']) hs2 hw3

theorem idxLazy_ok {vs : List Nat} (hn : vs.length + 1 < 2 ^ 63) (hW : 2 * vs.length ≤ 64 * W) : ∀ (c : Nat) {i p : Nat} {st : List (Nat × Nat)} {s : Sss} {q : Nat} {m : Mem}, c + (i + 1) = vs.length →
    S (cmp true) (val vs) vs.length q = (i + 1, (i, p) :: st) → Sss.Inv vs.length s (st.map Prod.fst) → Wr (out (cmp true) (val vs) vs.length) W m q →
    ∃ m', idxLazy vs c (i + 1) s q m = some m' ∧ m'.length = W ∧ ∀ p, bitAt m' p = out (cmp true) (val vs) vs.length p
  | 0, i, p, st, s, q, m, hc, hS, hs, hw => ⟨m, rfl, hw.len, hw.rest (S_rest (by rw [hS]; dsimp only; omega))⟩
  | c + 1, i, p, st, s, q, m, hc, hS, hs, hw => by
    have hi : i + 1 < vs.length := by omega
    have ho := out_cons hS hi
    have dsc := (S_ok (lt := cmp true) (v := val vs) (n := vs.length) (cmp_tr true) q).desc
    rw [hS] at dsc
    simp only [List.map_cons, List.pairwise_cons] at dsc
    have ec : cmp true (val vs (i + 1)) (val vs i) = decide (val vs (i + 1) < val vs i) := rfl
    dsimp only at ho
    rw [ec] at ho
    have key : ∃ q' s' st', idxStep vs (i + 1) (val vs (i + 1)) (val vs i) s q = some (s', q') ∧
        S (cmp true) (val vs) vs.length q' = (i + 1, st') ∧ Sss.Inv vs.length s' (st'.map Prod.fst) ∧ out (cmp true) (val vs) vs.length q' = true ∧ Wr (out (cmp true) (val vs) vs.length) W m q' := by
      unfold idxStep
      by_cases cc : val vs (i + 1) < val vs i
      · rw [decide_eq_true cc] at ho
        rw [if_pos cc]
        exact idxPop_ok hn hi st (f := s.cnt + 1) (by rw [hs.cnt]; simp) (by rw [S_cl ho, hS]; rfl) hs (hw.skip ho)
      · rw [decide_eq_false cc] at ho
        rw [if_neg cc]
        obtain ⟨s2, e2, hs2⟩ := Sss.push_inv hs (x := i) (by omega) (fun t ht => dsc.1 t (List.mem_of_mem_head? ht))
        rw [Nat.add_sub_cancel, e2, sbind]
        exact ⟨q, s2, (i, p) :: st, rfl, hS, hs2, ho, hw⟩
    obtain ⟨q', s', st', e, hS', hs', ho', hw'⟩ := key
    obtain ⟨m', e3, hw3⟩ := hw'.one ho' (by have := out_time ho'; omega)
    rw [idxLazy, val_get hi, sbind, Nat.add_sub_cancel, val_get (by omega), sbind]
    rw [e, sbind]
    dsimp only
    rw [e3, sbind]
    exact idxLazy_ok hn hW c (by omega) (p := q') (st := st') (by rw [S_op ho', hS']) hs' hw3

theorem succ_ok (hn : vs.length + 1 < 2 ^ 63) : ∃ m, succ vs mn = some m ∧ m.length = (2 * vs.length + 64) / 64 ∧ ∀ p, bitAt m p = OUT p := by
  unfold succ
  dsimp only
  by_cases c : vs.length > 0
  · rw [if_pos c]
    obtain ⟨s, e, hs⟩ := Sss.new_inv vs.length
    rw [e, sbind]
    cases mn with
    | false => 
      rw [if_neg (by decide)]
      exact idxMax_ok hn (by omega) vs.length (i := 0) (st := []) rfl rfl hs Wr.init
    | true =>
      rw [if_pos rfl]
      have ho : out (cmp true) (val vs) vs.length 0 = true := out_nil (i := 0) rfl c
      obtain ⟨m, e1, hw⟩ := (Wr.init (b := out (cmp true) (val vs) vs.length) (W := (2 * vs.length + 64) / 64)).one ho (by omega)
      rw [e1, sbind]
      exact idxLazy_ok hn (by omega) (vs.length - 1) (i := 0) (p := 0) (st := []) (by omega) (by rw [S_op ho]; rfl) hs hw
  · rw [if_neg c]
    refine ⟨_, rfl, by simp, fun p => ?_⟩
    rw [bitAt_zero]
    exact (S_rest (q := 0) (by show 0 = _; omega) p (Nat.zero_le _)).symm

/-! ### The construction with values on the stack -/

end

section
variable {vs : List Nat}

local notation "ST" => S (cmp true) (val vs) vs.length
local notation "OUT" => out (cmp true) (val vs) vs.length

theorem val_le (hv : ∀ x ∈ vs, x ≤ vs.length) (i : Nat) : val vs i ≤ vs.length := by
  unfold val
  cases h : vs[i]? with
  | none => exact Nat.zero_le _
  | some x => exact hv x (List.mem_of_getElem? h)

theorem valPop_ok (hn : vs.length + 1 < 2 ^ 63) (hv : ∀ x ∈ vs, x ≤ vs.length) {i : Nat} (hi : i < vs.length) : ∀ (st : List (Nat × Nat)) {s : Sms} {f q : Nat} {m : Mem}, st.length < f → ST q = (i, st) →
    Sms.Inv vs.length s (st.map fun t => val vs t.1) → Wr OUT W m q →
    ∃ q' s' st', valPop true (val vs i) f s q = some (s', q') ∧ ST q' = (i, st') ∧ Sms.Inv vs.length s' (st'.map fun t => val vs t.1) ∧ OUT q' = true ∧ Wr OUT W m q'
  | _, s, 0, q, m, hf, _, _, _ => absurd hf (Nat.not_lt_zero _)
  | [], s, f + 1, q, m, _, hS, hs, hw => by
    refine ⟨q, s, [], ?_, hS, hs, out_nil hS hi, hw⟩
    have : s.empty = true := by unfold Sms.empty; rw [hs.cnt]; rfl
    rw [valPop, this, if_neg (by simp)]
  | t :: st, s, f + 1, q, m, hf, hS, hs, hw => by
    have ho := out_cons hS hi
    have hle := val_le hv t.1
    have he : s.empty = false := by unfold Sms.empty; rw [hs.cnt]; rfl
    have hl := S_le (mn := true) (vs := vs) q
    rw [hS] at hl
    dsimp only at hl
    rw [valPop, he, Sms.top_eq (t := val vs t.1) hs (by omega), Bool.not_false, Bool.true_and]
    cases c : cmp true (val vs i) (val vs t.1) with
    | true =>
      rw [c] at ho
      rw [if_pos rfl]
      obtain ⟨s', e, hs'⟩ := Sms.pop_inv hn hs (by
        intro x hx
        obtain ⟨y, hy, rfl⟩ := List.mem_map.1 hx
        exact val_le hv _) (by rw [List.length_map]; omega)
      rw [e, sbind]
      exact valPop_ok hn hv hi st (by simp at hf; omega) (by rw [S_cl ho, hS]; rfl) hs' (hw.skip ho)
    | false =>
      rw [c] at ho
      rw [if_neg (by decide)]
      exact ⟨q, s, t :: st, rfl, hS, hs, ho, hw⟩

theorem valLazy_ok (hn : vs.length + 1 < 2 ^ 63) (hv : ∀ x ∈ vs, x ≤ vs.length) (hW : 2 * vs.length ≤ 64 * W) : ∀ (xs : List Nat) {i p : Nat} {st : List (Nat × Nat)} {s : Sms} {q : Nat} {m : Mem}, xs = vs.drop (i + 1) → i < vs.length →
    ST q = (i + 1, (i, p) :: st) → Sms.Inv vs.length s (st.map fun t => val vs t.1) → Wr OUT W m q →
    ∃ m', valLazy xs (val vs i) s q m = some m' ∧ m'.length = W ∧ ∀ p, bitAt m' p = OUT p
  | [], i, p, st, s, q, m, hx, hi, hS, hs, hw => by
    have : i + 1 = vs.length := by
      have := congrArg List.length hx
      simp at this; omega
    exact ⟨m, rfl, hw.len, hw.rest (S_rest (by rw [hS]; exact this))⟩
  | x :: xs, i, p, st, s, q, m, hx, _, hS, hs, hw => by
    obtain ⟨hi, h2, h3⟩ := val_drop hx.symm
    have ho := out_cons hS hi
    have ok := S_ok (lt := cmp true) (v := val vs) (n := vs.length) (cmp_tr true) q
    rw [hS] at ok
    have dsc := ok.desc
    simp only [List.map_cons, List.pairwise_cons] at dsc
    have hl := S_le (mn := true) (vs := vs) q
    rw [hS] at hl
    simp only [List.length_cons] at hl
    have ec : cmp true (val vs (i + 1)) (val vs i) = decide (val vs (i + 1) < val vs i) := rfl
    dsimp only at ho
    rw [ec] at ho
    have key : ∃ q' s' st', valStep (val vs (i + 1)) (val vs i) s q = some (s', q') ∧
        ST q' = (i + 1, st') ∧ Sms.Inv vs.length s' (st'.map fun t => val vs t.1) ∧ OUT q' = true ∧ Wr OUT W m q' := by
      unfold valStep
      by_cases cc : val vs (i + 1) < val vs i
      · rw [decide_eq_true cc] at ho
        rw [if_pos cc]
        exact valPop_ok hn hv hi st (f := s.cnt + 1) (by rw [hs.cnt]; simp) (by rw [S_cl ho, hS]; rfl) hs (hw.skip ho)
      · rw [decide_eq_false cc] at ho
        rw [if_neg cc]
        obtain ⟨s2, e2, hs2⟩ := Sms.push_inv hs (x := val vs i) (val_le hv i) (by
          intro t ht
          obtain ⟨y, hy, rfl⟩ := List.mem_map.1 (List.mem_of_mem_head? ht)
          have h1 := dsc.1 y.1 (List.mem_map_of_mem hy)
          have := ok.keep y (List.mem_cons_of_mem _ hy) i h1 (Nat.lt_succ_self _)
          simp only [cmp, if_true, decide_eq_false_iff_not] at this
          omega) (by rw [List.length_map]; omega)
        rw [e2, sbind]
        exact ⟨q, s2, (i, p) :: st, rfl, hS, hs2, ho, hw⟩
    obtain ⟨q', s', st', e, hS', hs', ho', hw'⟩ := key
    obtain ⟨m', e3, hw3⟩ := hw'.one ho' (by have := out_time ho'; omega)
    rw [valLazy, ← h2, e, sbind]
    dsimp only
    rw [e3, sbind]
    exact valLazy_ok hn hv hW xs h3.symm hi (p := q') (st := st') (by rw [S_op ho', hS']) hs' hw3

theorem succBuf_ok (hn : vs.length + 1 < 2 ^ 63) (hv : ∀ x ∈ vs, x ≤ vs.length) : ∃ m, succBuf vs true = some m ∧ m.length = (2 * vs.length + 64) / 64 ∧ ∀ p, bitAt m p = OUT p := by
  unfold succBuf
  dsimp only
  cases vs with
  | nil =>
    refine ⟨_, rfl, by simp, fun p => ?_⟩
    rw [bitAt_zero]
    exact (S_rest (q := 0) rfl p (Nat.zero_le _)).symm
  | cons v0 vs' =>
    dsimp only
    obtain ⟨s, e, hs⟩ := Sms.new_inv (v0 :: vs').length
    rw [e, sbind, if_pos rfl]
    have ho : out (cmp true) (val (v0 :: vs')) (v0 :: vs').length 0 = true := out_nil (i := 0) rfl (by simp)
    obtain ⟨m, e1, hw⟩ := (Wr.init (b := out (cmp true) (val (v0 :: vs')) (v0 :: vs').length) (W := (2 * (v0 :: vs').length + 64) / 64)).one ho (by omega)
    rw [e1, sbind]
    exact valLazy_ok hn hv (by omega) vs' (i := 0) (p := 0) (st := []) rfl (by simp) (by rw [S_op ho]; rfl) hs hw

/-! ### The first child bits -/

/-- The value of the top differs from the value below. -/
def flag (vs : List Nat) (st : List (Nat × Nat)) : Bool :=
  decide ((st.map fun t => val vs t.1).tail.head? ≠ (st.map fun t => val vs t.1).head?)

/-- The state of the construction at time `q`. -/
structure FcInv (vs : List Nat) (W' : Nat) (t : FcSt) (q : Nat) : Prop where
  s : Sms.Inv vs.length t.s ((S (cmp true) (val vs) vs.length q).2.map fun t => val vs t.1)
  k : t.k = q
  kfc : t.kfc = q - (S (cmp true) (val vs) vs.length q).1
  len : t.fc.length = W'
  bits : ∀ p, p < q → out (cmp true) (val vs) vs.length p = false → bitAt t.fc (p - (S (cmp true) (val vs) vs.length p).1) = flag vs (S (cmp true) (val vs) vs.length p).2
  rest : ∀ j, t.kfc ≤ j → bitAt t.fc j = false
  cnt : t.cnt = countTrue (bitAt t.fc) t.kfc

theorem S_le_q (q : Nat) : (ST q).1 ≤ q := by
  rw [← S_cnt]; exact countTrue_le _ _

theorem cl_mono {p q : Nat} (h : p < q) (ho : OUT p = false) : p - (ST p).1 < q - (ST q).1 := by
  have h1 := S_le_q (vs := vs) p
  have h2 := S_le_q (vs := vs) q
  have h3 := S_cnt (lt := cmp true) (v := val vs) (n := vs.length) p
  have h4 := S_cnt (lt := cmp true) (v := val vs) (n := vs.length) q
  obtain ⟨d, rfl⟩ := Nat.le.dest (show p + 1 ≤ q from h)
  rw [countTrue_add] at h4
  have h5 := countTrue_le (fun i => OUT (p + 1 + i)) d
  have h6 : countTrue OUT (p + 1) = countTrue OUT p := by rw [countTrue, ho]; rfl
  omega

theorem setIf_eq {b : Bool} {m : Mem} {k : Nat} (h : k < 64 * m.length) : ∃ m', setIf b m k = some m' ∧ m'.length = m.length ∧
    ∀ p, bitAt m' p = (bitAt m p || (b && decide (p = k))) := by
  cases b with
  | true =>
    obtain ⟨m', h1, h2, h3⟩ := setOne_eq h
    exact ⟨m', h1, h2, fun p => by rw [h3, Bool.true_and]⟩
  | false => exact ⟨m, rfl, rfl, fun p => by simp⟩

theorem fcPop_ok (hn : vs.length + 1 < 2 ^ 63) (hv : ∀ x ∈ vs, x ≤ vs.length) {W' : Nat} (hW : vs.length ≤ 64 * W') {t : FcSt} {q : Nat} (h : FcInv vs W' t q)
    (hq : q < 2 * vs.length) (ho : OUT q = false) : ∃ t', fcPop t = some t' ∧ FcInv vs W' t' (q + 1) := by
  have hl := S_le (mn := true) (vs := vs) q
  have hne := S_ne hq ho
  obtain ⟨ht, hi⟩ := S_time (lt := cmp true) (v := val vs) (n := vs.length) q (by omega)
  have hlen : 0 < (ST q).2.length := List.length_pos_iff.2 hne
  obtain ⟨s', e, hs'⟩ := Sms.pop_inv hn h.s (by
    intro x hx
    obtain ⟨y, hy, rfl⟩ := List.mem_map.1 hx
    exact val_le hv _) (by rw [List.length_map]; omega)
  have hk := h.kfc
  have hqi := S_le_q (vs := vs) q
  obtain ⟨fc', e2, h2, h3⟩ := setIf_eq (b := flag vs (ST q).2) (m := t.fc) (k := t.kfc) (by rw [h.len]; omega)
  have ef : (decide ((ST q).2.map (fun t => val vs t.1) ≠ []) && decide (((ST q).2.map fun t => val vs t.1).tail.head? ≠ ((ST q).2.map fun t => val vs t.1).head?)) = flag vs (ST q).2 := by
    rw [decide_eq_true (by simpa using hne), Bool.true_and]; rfl
  rw [ef] at e
  unfold fcPop
  rw [e, sbind]
  dsimp only
  rw [e2, sbind]
  have hS := S_cl ho
  have e1 : (ST (q + 1)).1 = (ST q).1 := by rw [hS]
  refine ⟨_, rfl, ?_, ?_, ?_, ?_, ?_, ?_, ?_⟩
  · rw [hS, List.map_tail]; exact hs'
  · show t.k + 1 = _; rw [h.k]
  · show t.kfc + 1 = _; rw [e1, hk]; omega
  · show fc'.length = _; rw [h2]; exact h.len
  · intro p hp hop
    show bitAt fc' _ = _
    rw [h3]
    rcases Nat.lt_or_ge p q with c | c
    · have := cl_mono c hop
      rw [h.bits p c hop, decide_eq_false (by omega)]; simp
    · rw [show p = q by omega, ← hk, h.rest _ (Nat.le_refl _)]; simp
  · intro j hj
    show bitAt fc' j = false
    have hj : t.kfc + 1 ≤ j := hj
    rw [h3, h.rest j (by omega), decide_eq_false (by omega)]; simp
  · show (if flag vs (ST q).2 then t.cnt + 1 else t.cnt) = countTrue (bitAt fc') (t.kfc + 1)
    have : countTrue (bitAt fc') t.kfc = countTrue (bitAt t.fc) t.kfc := countTrue_congr (fun i hi => by
      rw [h3, decide_eq_false (by omega)]; simp)
    rw [countTrue, this, h3, h.rest _ (Nat.le_refl _), ← h.cnt]
    cases flag vs (ST q).2 <;> simp

theorem fcLoop_ok (hn : vs.length + 1 < 2 ^ 63) (hv : ∀ x ∈ vs, x ≤ vs.length) {W' : Nat} (hW : vs.length ≤ 64 * W') {i : Nat} (hi : i < vs.length) : ∀ (f : Nat) {t : FcSt} {q : Nat} {m : Mem}, (ST q).2.length < f →
    q < 2 * vs.length → (ST q).1 = i → FcInv vs W' t q → Wr OUT W m q →
    ∃ q' t', fcLoop true (val vs i) f t = some t' ∧ (ST q').1 = i ∧ FcInv vs W' t' q' ∧ OUT q' = true ∧ Wr OUT W m q'
  | 0, t, q, m, hf, _, _, _, _ => absurd hf (Nat.not_lt_zero _)
  | f + 1, t, q, m, hf, hq, hS1, h, hw => by
    have hs := h.s
    rw [fcLoop]
    cases hst : (ST q).2 with
    | nil =>
      rw [hst] at hs
      have he : t.s.empty = true := by unfold Sms.empty; rw [hs.cnt]; rfl
      rw [he, if_neg (by simp)]
      exact ⟨q, t, rfl, hS1, h, out_nil (i := i) (by rw [← hst, ← hS1]) hi, hw⟩
    | cons a st =>
      have hS : ST q = (i, a :: st) := by rw [← hst, ← hS1]
      have ho := out_cons hS hi
      rw [hst] at hs
      have he : t.s.empty = false := by unfold Sms.empty; rw [hs.cnt]; rfl
      have hle := val_le hv a.1
      rw [he, Sms.top_eq (t := val vs a.1) hs (by omega), Bool.not_false, Bool.true_and]
      cases c : cmp true (val vs i) (val vs a.1) with
      | true =>
        rw [c] at ho
        rw [if_pos rfl]
        obtain ⟨t', e, h'⟩ := fcPop_ok hn hv hW h hq ho
        rw [e, sbind]
        have hq' : q + 1 < 2 * vs.length := by
          have h1 := (S_time (lt := cmp true) (v := val vs) (n := vs.length) (q + 1) (by omega)).1
          rw [S_cl ho, hS] at h1
          simp at h1; omega
        exact fcLoop_ok hn hv hW hi f (by rw [S_cl ho, hS]; rw [hst] at hf; simp at hf ⊢; omega) hq' (by rw [S_cl ho]; exact hS1) h' (hw.skip ho)
      | false =>
        rw [c] at ho
        rw [if_neg (by decide)]
        exact ⟨q, t, rfl, hS1, h, ho, hw⟩

theorem fcVals_ok (hn : vs.length + 1 < 2 ^ 63) (hv : ∀ x ∈ vs, x ≤ vs.length) {W' : Nat} (hW' : vs.length ≤ 64 * W') (hW : 2 * vs.length ≤ 64 * W) : ∀ (xs : List Nat) {i : Nat} {t : FcSt} {q : Nat} {m : Mem}, xs = vs.drop i → i ≤ vs.length →
    q ≤ 2 * vs.length → (ST q).1 = i → FcInv vs W' t q → Wr OUT W m q →
    ∃ q' t' m', fcVals true xs t m = some (t', m') ∧ q' ≤ 2 * vs.length ∧ (ST q').1 = vs.length ∧ FcInv vs W' t' q' ∧ m'.length = W ∧ ∀ p, bitAt m' p = OUT p
  | [], i, t, q, m, hx, hi, hq, hS, h, hw => by
    have : i = vs.length := by
      have := congrArg List.length hx
      simp at this; omega
    subst this
    exact ⟨q, t, m, rfl, hq, hS, h, hw.len, hw.rest (S_rest hS)⟩
  | x :: xs, i, t, q, m, hx, hi, hq, hS, h, hw => by
    obtain ⟨h1, h2, h3⟩ := val_drop hx.symm
    have hq2 : q < 2 * vs.length := by
      have := (S_time (lt := cmp true) (v := val vs) (n := vs.length) q hq).1
      omega
    obtain ⟨q', t', e, hS', h', ho, hw'⟩ := fcLoop_ok hn hv hW' h1 (t.s.cnt + 1) (by rw [h.s.cnt]; simp) hq2 hS h hw
    have hq' := out_time ho
    obtain ⟨m', e2, hw2⟩ := hw'.one ho (by omega)
    have hl := S_le (mn := true) (vs := vs) q'
    obtain ⟨s2, e3, hs2⟩ := Sms.push_inv h'.s (x := val vs i) (val_le hv i) (by
      intro y hy
      cases hst : (ST q').2 with
      | nil => rw [hst] at hy; cases hy
      | cons a st =>
        have h4 := out_cons (i := i) (t := a) (st := st) (by rw [← hst, ← hS']) h1
        rw [ho] at h4
        rw [hst] at hy
        simp only [List.map_cons, List.head?_cons, Option.some.injEq] at hy
        simp only [cmp, if_true] at h4
        have h5 : ¬ val vs i < val vs a.1 := by simpa using h4.symm
        omega) (by rw [List.length_map]; omega)
    rw [fcVals, ← h2, e, sbind, e3, sbind]
    dsimp only
    rw [h'.k, e2, sbind]
    refine fcVals_ok hn hv hW' hW xs h3.symm h1 hq' (i := i + 1) (by rw [S_op ho, ← hS']) ?_ hw2
    have hS2 := S_op ho
    refine ⟨by rw [hS2, List.map_cons, hS']; exact hs2, rfl, ?_, h'.len, fun p hp hop => ?_, h'.rest, h'.cnt⟩
    · show t'.kfc = _
      rw [h'.kfc, hS2]; dsimp only; omega
    · rcases Nat.lt_or_ge p q' with c | c
      · exact h'.bits p c hop
      · rw [show p = q' by omega, ho] at hop; cases hop

theorem fcEnd_ok (hn : vs.length + 1 < 2 ^ 63) (hv : ∀ x ∈ vs, x ≤ vs.length) {W' : Nat} (hW : vs.length ≤ 64 * W') : ∀ (f : Nat) {t : FcSt} {q : Nat}, (ST q).2.length < f →
    q ≤ 2 * vs.length → (ST q).1 = vs.length → FcInv vs W' t q → ∃ t', fcEnd f t = some t' ∧ FcInv vs W' t' (2 * vs.length)
  | 0, t, q, hf, _, _, _ => absurd hf (Nat.not_lt_zero _)
  | f + 1, t, q, hf, hq, hS1, h => by
    have h1 := (S_time (lt := cmp true) (v := val vs) (n := vs.length) q hq).1
    rw [fcEnd]
    by_cases c : (ST q).2.length = 0
    · have he : t.s.empty = true := by unfold Sms.empty; rw [h.s.cnt, List.length_map, c]; rfl
      rw [he, if_pos rfl]
      have : q = 2 * vs.length := by omega
      exact ⟨t, rfl, this ▸ h⟩
    · have he : t.s.empty = false := by unfold Sms.empty; rw [h.s.cnt, List.length_map]; exact beq_false_of_ne c
      have ho : OUT q = false := out_end hS1
      obtain ⟨t', e, h'⟩ := fcPop_ok hn hv hW h (by omega) ho
      rw [he, if_neg (by decide), e, sbind]
      exact fcEnd_ok hn hv hW f (by rw [S_cl ho, List.length_tail]; omega) (by omega) (by rw [S_cl ho]; exact hS1) h'

theorem succFc_ok (hn : vs.length + 1 < 2 ^ 63) (hv : ∀ x ∈ vs, x ≤ vs.length) {W' : Nat} (hW' : vs.length ≤ 64 * W') (hW : 2 * vs.length ≤ 64 * W) (h0 : vs ≠ []) :
    ∃ m fc, succFc vs true W W' = some (m, fc, countTrue (bitAt fc) vs.length) ∧ m.length = W ∧ fc.length = W' ∧ (∀ p, bitAt m p = OUT p) ∧
      (∀ p, p < 2 * vs.length → OUT p = false → bitAt fc (p - (ST p).1) = flag vs (ST p).2) ∧ ∀ j, vs.length ≤ j → bitAt fc j = false := by
  have hl : vs.length ≠ 0 := fun h => h0 (List.eq_nil_of_length_eq_zero h)
  obtain ⟨s, e, hs⟩ := Sms.new_inv vs.length
  obtain ⟨q, t, m, e2, hq, hS, h, hm, hb⟩ := fcVals_ok hn hv hW' hW vs (i := 0) (t := ⟨s, 0, 0, List.replicate W' 0#64, 0⟩) (q := 0) rfl (Nat.zero_le _) (Nat.zero_le _) rfl
    ⟨hs, rfl, rfl, by simp, fun p hp => absurd hp (Nat.not_lt_zero _), fun j _ => bitAt_zero _ _, rfl⟩ Wr.init
  obtain ⟨t', e3, h'⟩ := fcEnd_ok hn hv hW' (t.s.cnt + 1) (by rw [h.s.cnt]; simp) hq hS h
  have hk : t'.kfc = vs.length := by rw [h'.kfc, S_end]; dsimp only; omega
  refine ⟨m, t'.fc, ?_, hm, h'.len, hb, h'.bits, fun j hj => h'.rest j (by omega)⟩
  unfold succFc
  rw [if_neg hl, e, sbind, e2, sbind]
  dsimp only
  rw [e3, sbind, h'.cnt, hk]
  rfl

end

end Sdsl.Sct
