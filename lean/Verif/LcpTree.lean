/-
  Correctness of `construct_first_child_lcp` and of `lcp_support_tree`.
-/
import Verif.LcpRepLemmas
import Verif.CstSct3Ids

namespace Sdsl.LcpRep

open Csa Sdsl.Spec Sdsl.Sct
open Stack (Sms)

section
variable {vs : List Nat}

local notation "ST" => S (cmp true) (val vs) vs.length
local notation "OUT" => out (cmp true) (val vs) vs.length

/-- The value of the top entry. -/
def topV (vs : List Nat) (st : List (Nat × Nat)) : Nat := val vs ((st.head?.map Prod.fst).getD 0)

/-- The values of the first children that are closed before time `q`. -/
def FL (vs : List Nat) : Nat → List Nat
  | 0 => []
  | q + 1 =>
    if out (cmp true) (val vs) vs.length q = false ∧ flag vs (S (cmp true) (val vs) vs.length q).2 = true
    then FL vs q ++ [topV vs (S (cmp true) (val vs) vs.length q).2] else FL vs q

theorem FL_le : ∀ q, (FL vs q).length ≤ q - (ST q).1
  | 0 => Nat.zero_le _
  | q + 1 => by
    have ih := FL_le q
    rw [FL]
    cases ho : OUT q with
    | true =>
      rw [if_neg (by simp), S_op ho]
      dsimp only; omega
    | false =>
      have h1 := S_le_q (vs := vs) q
      rw [S_cl ho]
      split
      · rw [List.length_append]; simp; omega
      · dsimp only; omega

/-- The state of the construction at time `q`. -/
structure FlInv (vs : List Nat) (w : Nat) (t : FlSt) (q : Nat) : Prop where
  s : Sms.Inv vs.length t.s ((S (cmp true) (val vs) vs.length q).2.map fun t => val vs t.1)
  len : t.fc.xs.length = vs.length
  width : t.fc.width = w
  cnt : t.cnt = (FL vs q).length
  vals : ∀ k, k < (FL vs q).length → t.fc.get k = (FL vs q)[k]?

theorem setIf_ok {b : Bool} {a : Arr} {i x : Nat} (h : i < a.xs.length) (hx : x < 2 ^ a.width) :
    ∃ a', setIf b a i x = some a' ∧ a'.xs.length = a.xs.length ∧ a'.width = a.width ∧ ∀ t, a'.get t = if b = true ∧ t = i then some x else a.get t := by
  cases b with
  | true =>
    obtain ⟨a', h1, h2, h3, h4⟩ := set_spec h hx
    exact ⟨a', h1, h2, h3, fun t => by rw [h4]; simp⟩
  | false => exact ⟨a, rfl, rfl, rfl, fun t => by simp⟩

theorem flPop_ok (hn : vs.length + 1 < 2 ^ 63) (hv : ∀ x ∈ vs, x ≤ vs.length) {w : Nat} (hw : vs.length < 2 ^ w) {t : FlSt} {q : Nat} (h : FlInv vs w t q)
    (hq : q < 2 * vs.length) (ho : OUT q = false) : ∃ t', flPop t = some t' ∧ FlInv vs w t' (q + 1) := by
  have hl := S_le (mn := true) (vs := vs) q
  have hne := S_ne hq ho
  obtain ⟨ht, hi⟩ := S_time (lt := cmp true) (v := val vs) (n := vs.length) q (by omega)
  have hlen : 0 < (ST q).2.length := List.length_pos_iff.2 hne
  obtain ⟨s', e, hs'⟩ := Sms.pop_inv hn h.s (by
    intro x hx
    obtain ⟨y, hy, rfl⟩ := List.mem_map.1 hx
    exact val_le hv _) (by rw [List.length_map]; omega)
  have hqi := S_le_q (vs := vs) q
  have hfl := FL_le (vs := vs) q
  have htop : t.s.getTop = topV vs (ST q).2 := by
    cases hst : (ST q).2 with
    | nil => exact absurd hst hne
    | cons a st =>
      have hs := h.s
      rw [hst] at hs
      have := val_le hv a.1
      rw [Sms.top_eq (t := val vs a.1) hs (by omega)]
      rfl
  have htv : topV vs (ST q).2 ≤ vs.length := val_le hv _
  obtain ⟨fc', e2, h2, h3, h4⟩ := setIf_ok (b := flag vs (ST q).2) (a := t.fc) (i := t.cnt) (x := t.s.getTop) (by rw [h.len, h.cnt]; omega) (by rw [h.width, htop]; omega)
  have ef : (decide ((ST q).2.map (fun t => val vs t.1) ≠ []) && decide (((ST q).2.map fun t => val vs t.1).tail.head? ≠ ((ST q).2.map fun t => val vs t.1).head?)) = flag vs (ST q).2 := by
    rw [decide_eq_true (by simpa using hne), Bool.true_and]; rfl
  rw [ef] at e
  unfold flPop
  rw [e, sbind]
  dsimp only
  rw [e2, sbind]
  have hS := S_cl ho
  have hF : FL vs (q + 1) = if flag vs (ST q).2 = true then FL vs q ++ [topV vs (ST q).2] else FL vs q := by
    rw [FL]
    by_cases c : flag vs (ST q).2 = true
    · rw [if_pos ⟨ho, c⟩, if_pos c]
    · rw [if_neg (fun h => c h.2), if_neg c]
  refine ⟨_, rfl, ?_, by rw [h2]; exact h.len, by rw [h3]; exact h.width, ?_, ?_⟩
  · rw [hS, List.map_tail]; exact hs'
  · show (if flag vs (ST q).2 then t.cnt + 1 else t.cnt) = _
    rw [hF]
    by_cases c : flag vs (ST q).2 = true
    · rw [if_pos c, if_pos c, List.length_append, h.cnt]; rfl
    · rw [if_neg c, if_neg c, h.cnt]
  · intro k hk
    show fc'.get k = _
    rw [h4, hF]
    rw [hF] at hk
    by_cases c : flag vs (ST q).2 = true
    · rw [if_pos c] at hk ⊢
      rw [List.length_append] at hk
      by_cases d : k = t.cnt
      · rw [if_pos ⟨c, d⟩, htop, d, h.cnt, List.getElem?_append_right (Nat.le_refl _), Nat.sub_self]
        rfl
      · have := h.cnt
        rw [if_neg (fun h => d h.2), List.getElem?_append_left (by simp at hk; omega)]
        exact h.vals k (by simp at hk; omega)
    · rw [if_neg c] at hk ⊢
      rw [if_neg (fun h => c h.1)]
      exact h.vals k hk

theorem flLoop_ok (hn : vs.length + 1 < 2 ^ 63) (hv : ∀ x ∈ vs, x ≤ vs.length) {w : Nat} (hw : vs.length < 2 ^ w) {i : Nat} (hi : i < vs.length) : ∀ (f : Nat) {t : FlSt} {q : Nat}, (ST q).2.length < f →
    q < 2 * vs.length → (ST q).1 = i → FlInv vs w t q →
    ∃ q' t', flLoop (val vs i) f t = some t' ∧ (ST q').1 = i ∧ FlInv vs w t' q' ∧ OUT q' = true
  | 0, t, q, hf, _, _, _ => absurd hf (Nat.not_lt_zero _)
  | f + 1, t, q, hf, hq, hS1, h => by
    have hs := h.s
    rw [flLoop]
    cases hst : (ST q).2 with
    | nil =>
      rw [hst] at hs
      have he : t.s.empty = true := by unfold Sms.empty; rw [hs.cnt]; rfl
      rw [he, if_neg (by simp)]
      exact ⟨q, t, rfl, hS1, h, out_nil (i := i) (by rw [← hst, ← hS1]) hi⟩
    | cons a st =>
      have hS : ST q = (i, a :: st) := by rw [← hst, ← hS1]
      have ho := out_cons hS hi
      rw [hst] at hs
      have he : t.s.empty = false := by unfold Sms.empty; rw [hs.cnt]; rfl
      have hle := val_le hv a.1
      rw [he, Sms.top_eq (t := val vs a.1) hs (by omega), Bool.not_false, Bool.true_and]
      have hc : cmp true (val vs i) (val vs a.1) = decide (val vs i < val vs a.1) := rfl
      rw [hc] at ho
      cases c : decide (val vs i < val vs a.1) with
      | true =>
        rw [c] at ho
        rw [if_pos rfl]
        obtain ⟨t', e, h'⟩ := flPop_ok hn hv hw h hq ho
        rw [e, sbind]
        have hq' : q + 1 < 2 * vs.length := by
          have h1 := (S_time (lt := cmp true) (v := val vs) (n := vs.length) (q + 1) (by omega)).1
          rw [S_cl ho, hS] at h1
          simp at h1; omega
        exact flLoop_ok hn hv hw hi f (by rw [S_cl ho, hS]; rw [hst] at hf; simp at hf ⊢; omega) hq' (by rw [S_cl ho]; exact hS1) h'
      | false =>
        rw [c] at ho
        rw [if_neg (by decide)]
        exact ⟨q, t, rfl, hS1, h, ho⟩

theorem flVals_ok (hn : vs.length + 1 < 2 ^ 63) (hv : ∀ x ∈ vs, x ≤ vs.length) {w : Nat} (hw : vs.length < 2 ^ w) : ∀ (xs : List Nat) {i : Nat} {t : FlSt} {q : Nat}, xs = vs.drop i → i ≤ vs.length →
    q ≤ 2 * vs.length → (ST q).1 = i → FlInv vs w t q →
    ∃ q' t', flVals xs t = some t' ∧ q' ≤ 2 * vs.length ∧ (ST q').1 = vs.length ∧ FlInv vs w t' q'
  | [], i, t, q, hx, hi, hq, hS, h => by
    have : i = vs.length := by
      have := congrArg List.length hx
      simp at this; omega
    subst this
    exact ⟨q, t, rfl, hq, hS, h⟩
  | x :: xs, i, t, q, hx, hi, hq, hS, h => by
    obtain ⟨h1, h2, h3⟩ := val_drop hx.symm
    have hq2 : q < 2 * vs.length := by
      have := (S_time (lt := cmp true) (v := val vs) (n := vs.length) q hq).1
      omega
    obtain ⟨q', t', e, hS', h', ho⟩ := flLoop_ok hn hv hw h1 (t.s.cnt + 1) (by rw [h.s.cnt]; simp) hq2 hS h
    have hq' := out_time ho
    have hl := S_le (mn := true) (vs := vs) q'
    obtain ⟨s2, e3, hs2⟩ := Sms.push_inv h'.s (x := val vs i) (val_le hv i) (by
      intro y hy
      cases hst : (ST q').2 with
      | nil => rw [hst] at hy; cases hy
      | cons a st =>
        have h4 := out_cons (i := i) (t := a) (st := st) (by rw [← hst, ← hS']) h1
        rw [ho] at h4
        rw [hst] at hy
        simp only [List.map_cons, List.head?_cons, Option.some.injEq] at hy
        simp only [Sct.cmp, if_true] at h4
        have h5 : ¬ val vs i < val vs a.1 := by simpa using h4.symm
        omega) (by rw [List.length_map]; omega)
    rw [flVals, ← h2, e, sbind, e3, sbind]
    dsimp only
    have hF : FL vs (q' + 1) = FL vs q' := by rw [FL, ho, if_neg (by simp)]
    refine flVals_ok hn hv hw xs h3.symm h1 hq' (i := i + 1) (by rw [S_op ho, ← hS']) ?_
    have hS2 := S_op ho
    exact ⟨by rw [hS2, List.map_cons, hS']; exact hs2, h'.len, h'.width, by rw [hF]; exact h'.cnt, by rw [hF]; exact h'.vals⟩

theorem flEnd_ok (hn : vs.length + 1 < 2 ^ 63) (hv : ∀ x ∈ vs, x ≤ vs.length) {w : Nat} (hw : vs.length < 2 ^ w) : ∀ (f : Nat) {t : FlSt} {q : Nat}, (ST q).2.length < f →
    q ≤ 2 * vs.length → (ST q).1 = vs.length → FlInv vs w t q → ∃ t', flEnd f t = some t' ∧ FlInv vs w t' (2 * vs.length)
  | 0, t, q, hf, _, _, _ => absurd hf (Nat.not_lt_zero _)
  | f + 1, t, q, hf, hq, hS1, h => by
    have h1 := (S_time (lt := cmp true) (v := val vs) (n := vs.length) q hq).1
    rw [flEnd]
    by_cases c : (ST q).2.length = 0
    · have he : t.s.empty = true := by unfold Sms.empty; rw [h.s.cnt, List.length_map, c]; rfl
      rw [he, if_pos rfl]
      have : q = 2 * vs.length := by omega
      exact ⟨t, rfl, this ▸ h⟩
    · have he : t.s.empty = false := by unfold Sms.empty; rw [h.s.cnt, List.length_map]; exact beq_false_of_ne c
      have ho : OUT q = false := out_end hS1
      obtain ⟨t', e, h'⟩ := flPop_ok hn hv hw h (by omega) ho
      rw [he, if_neg (by decide), e, sbind]
      exact flEnd_ok hn hv hw f (by rw [S_cl ho, List.length_tail]; omega) (by omega) (by rw [S_cl ho]; exact hS1) h'

theorem FL_val (hv : ∀ x ∈ vs, x ≤ vs.length) : ∀ q, ∀ x ∈ FL vs q, x ≤ vs.length
  | 0, x, h => absurd h List.not_mem_nil
  | q + 1, x, h => by
    rw [FL] at h
    split at h
    · rcases List.mem_append.1 h with h | h
      · exact FL_val hv q x h
      · rw [List.mem_singleton.1 h]; exact val_le hv _
    · exact FL_val hv q x h

theorem firstChildLcp_ok (hn : vs.length + 1 < 2 ^ 63) (hv : ∀ x ∈ vs, x ≤ vs.length) : ∃ a, firstChildLcp vs = some a ∧ a.xs = FL vs (2 * vs.length) := by
  obtain ⟨w, w1, w2, w3⟩ := hiW_spec (n := vs.length) (by omega)
  obtain ⟨s, e, hs⟩ := Sms.new_inv vs.length
  obtain ⟨q, t, e2, hq, hS, h⟩ := flVals_ok hn hv w2 vs (i := 0) (t := ⟨s, Arr.new vs.length 0 w, 0⟩) (q := 0) rfl (Nat.zero_le _) (Nat.zero_le _) rfl
    ⟨hs, new_len _ _ _, w3, rfl, fun k hk => absurd hk (Nat.not_lt_zero _)⟩
  obtain ⟨t', e3, h'⟩ := flEnd_ok hn hv w2 (t.s.cnt + 1) (by rw [h.s.cnt]; simp) hq hS h
  refine ⟨_, by rw [firstChildLcp, w1, sbind, e, sbind, e2, sbind, e3, sbind]; rfl, ?_⟩
  show t'.fc.xs.take t'.cnt = _
  apply List.ext_getElem?
  intro k
  have hle := FL_le (vs := vs) (2 * vs.length)
  rw [S_end] at hle
  have hle : (FL vs (2 * vs.length)).length ≤ 2 * vs.length - vs.length := hle
  rcases Nat.lt_or_ge k (FL vs (2 * vs.length)).length with c | c
  · rw [List.getElem?_take_of_lt (by rw [h'.cnt]; exact c)]
    exact h'.vals k c
  · rw [List.getElem?_eq_none (by rw [List.length_take, h'.cnt]; omega), List.getElem?_eq_none c]

theorem FL_prefix (q : Nat) : ∀ d, ∃ r, FL vs (q + d) = FL vs q ++ r
  | 0 => ⟨[], by simp⟩
  | d + 1 => by
    obtain ⟨r, hr⟩ := FL_prefix q d
    rw [← Nat.add_assoc, FL]
    split
    · exact ⟨_, by rw [hr, List.append_assoc]⟩
    · exact ⟨r, hr⟩

/-- The value of a closed entry is at the number of the first children that are closed before. -/
theorem FL_at : ∀ (d q : Nat), q + d = 2 * vs.length → q < 2 * vs.length → OUT q = false → (FL vs (2 * vs.length))[(FL vs q).length]? = some (topV vs (ST q).2)
  | 0, q, h, hq, _ => by omega
  | d + 1, q, h, hq, ho => by
    by_cases c : flag vs (ST q).2 = true
    · obtain ⟨r, hr⟩ := FL_prefix (vs := vs) (q + 1) d
      rw [show q + 1 + d = 2 * vs.length by omega] at hr
      rw [hr, FL, if_pos ⟨ho, c⟩, List.append_assoc, List.getElem?_append_right (Nat.le_refl _), Nat.sub_self]
      rfl
    · have hF : FL vs (q + 1) = FL vs q := by rw [FL, if_neg (fun h => c h.2)]
      have hne := S_ne hq ho
      cases hst : (ST q).2 with
      | nil => exact absurd hst hne
      | cons a st =>
        have hc : flag vs (a :: st) = false := by rw [← hst]; simpa using c
        rw [flag, decide_eq_false_iff_not, not_ne_iff, List.map_cons, List.tail_cons, List.head?_cons] at hc
        cases st with
        | nil => cases hc
        | cons b st =>
          rw [List.map_cons, List.head?_cons, Option.some_inj] at hc
          have hS : ST (q + 1) = ((ST q).1, b :: st) := by rw [S_cl ho, hst]; rfl
          have ho' : OUT (q + 1) = false := by
            have hle := (S_time (lt := cmp true) (v := val vs) (n := vs.length) q (by omega)).2
            rcases Nat.lt_or_ge (ST q).1 vs.length with e | e
            · have h1 := out_cons (i := (ST q).1) (t := a) (st := b :: st) (by rw [← hst]) e
              rw [ho] at h1
              rw [out_cons hS e, hc]
              exact h1.symm
            · exact out_end (by rw [hS]; dsimp only; omega)
          have hq' : q + 1 < 2 * vs.length := by
            have h1 := (S_time (lt := cmp true) (v := val vs) (n := vs.length) (q + 1) (by omega))
            rw [hS] at h1
            simp at h1; omega
          have := FL_at d (q + 1) (by omega) hq' ho'
          rw [hF, hS] at this
          rw [this]
          show some (val vs b.1) = some (val vs a.1)
          rw [hc]

/-- The number of first children in terms of any bits that hold the flags. -/
theorem FL_len {f : Nat → Bool} (hf : ∀ p, p < 2 * vs.length → OUT p = false → f (p - (ST p).1) = flag vs (ST p).2) : ∀ q, q ≤ 2 * vs.length → (FL vs q).length = countTrue f (q - (ST q).1)
  | 0, _ => by
    show 0 = countTrue f (0 - _)
    rw [Nat.zero_sub]; rfl
  | q + 1, hq => by
    have ih := FL_len hf q (by omega)
    have h1 := S_le_q (vs := vs) q
    rw [FL]
    cases ho : OUT q with
    | true =>
      rw [if_neg (by simp), ih, S_op ho]
      congr 1
      dsimp only; omega
    | false =>
      rw [S_cl ho]
      dsimp only
      rw [show q + 1 - (ST q).1 = q - (ST q).1 + 1 by omega, countTrue, hf q (by omega) ho, ← ih]
      by_cases c : flag vs (ST q).2 = true
      · rw [if_pos ⟨rfl, c⟩, c, List.length_append]; rfl
      · rw [if_neg (fun h => c h.2)]
        simp only [Bool.not_eq_true] at c
        rw [c]; simp

end

/-! ### lcp_support_tree -/

open CstSct3 Sdsl.Props Bp

theorem pr_congr {L : List Nat} {b c : Nat → Bool} (h : ∀ p, p < 2 * L.length → b p = c p) {t p q : Nat} (hp : Pr L b t p q) : Pr L c t p q := by
  obtain ⟨⟨h1, h2, h3⟩, ⟨h4, h5, h6⟩, h7⟩ := hp
  have hlt := h6.1
  have e : ∀ k, k ≤ 2 * L.length → exc b k = exc c k := fun k hk => exc_congr (fun j hj => h j (by omega))
  obtain ⟨g1, g2, g3⟩ := h6.exc
  refine ⟨⟨h1, by rw [← h p h1]; exact h2, by rw [← countTrue_congr (f := b) (g := c) (fun i hi => h i (by omega))]; exact h3⟩, ⟨by rw [← h p h1]; exact h4, by rw [← h q h7]; exact h5, ?_⟩, h7⟩
  refine balanced_of_exc hlt (by rw [← e _ (by omega), ← e _ (by omega)]; exact g2) (fun k k1 k2 => ?_)
  rw [← e _ (by omega), ← e _ (by omega)]
  exact g3 k k1 k2

theorem top_pair {L : List Nat} {t p q : Nat} (h : Pr L (out (cmp true) (val L) L.length) t p q) : topV L (S (cmp true) (val L) L.length q).2 = val L t := by
  obtain ⟨hp, hm, hq⟩ := h
  have tr := Sct.cmp_tr true
  have ok := Sct.S_ok (lt := Sct.cmp true) (v := Sct.val L) (n := L.length) tr q
  have hne := Sct.S_ne hq hm.2.1
  cases hst : (Sct.S (Sct.cmp true) (Sct.val L) L.length q).2 with
  | nil => exact absurd hst hne
  | cons a st =>
    have hS : Sct.S (Sct.cmp true) (Sct.val L) L.length q = ((Sct.S (Sct.cmp true) (Sct.val L) L.length q).1, a :: st) := by rw [← hst]
    have hm' := Sct.S_match tr hq hm.2.1 hS
    have hpa : p = a.2 := by
      obtain ⟨h7, h8, h9⟩ := hm.2.2.exc
      obtain ⟨g7, g8, g9⟩ := hm'.2.2.exc
      have h10 := exc_open hm.1
      have g10 := exc_open hm'.1
      rcases Nat.lt_trichotomy p a.2 with c | c | c
      · have := h9 a.2 (by omega) (by omega); omega
      · exact c
      · have := g9 p (by omega) (by omega); omega
    have ea := ok.ent a (by rw [hst]; exact List.mem_cons_self)
    have hta : t = a.1 := by
      have h7 := ea.2.2.2
      rw [← hpa] at h7
      have := hp.2.2; omega
    rw [hta]; rfl

/-- The first child bits are the flags of the machine. -/
theorem fc_flag {L : List Nat} {s : Cst} {S D : Nat} (ok : Ok L s S D) (hn : L.length + 1 < 2 ^ 63) (hv : ∀ x ∈ L, x ≤ L.length) :
    ∀ p, p < 2 * L.length → out (cmp true) (val L) L.length p = false → bitAt s.fc (p - (Sct.S (cmp true) (val L) L.length p).1) = flag L (Sct.S (cmp true) (val L) L.length p).2 := by
  have n0 : L ≠ [] := fun e => by have := ok.n0; rw [e] at this; exact absurd this (by decide)
  have hB : ∀ p, p < 2 * L.length → bitAt s.bp.mem p = out (cmp true) (val L) L.length p := C60_unique ok.sc (out_super true L (fun _ => rfl))
  have hcnt : ∀ q, q ≤ 2 * L.length → countTrue (bitAt s.bp.mem) q = (Sct.S (cmp true) (val L) L.length q).1 := by
    intro q hq
    rw [← S_cnt]; exact countTrue_congr (fun i hi => hB i (by omega))
  intro q hq ho
  obtain ⟨m, fc, h1, _, _, h4, h5, _⟩ := Sct.succFc_ok (vs := L) (W := 2 * L.length) (W' := L.length) hn hv (by omega) (by omega) n0
  obtain ⟨m', fc', k1, _, _, k4, k5, _⟩ := C60_first_child L hn hv n0 (W := 2 * L.length) (W' := L.length) (by omega) (by omega)
  rw [h1] at k1
  simp only [Option.some.injEq, Prod.mk.injEq] at k1
  obtain ⟨rfl, rfl, _⟩ := k1
  rw [← h5 q hq ho]
  obtain ⟨t, p, hp⟩ := pr_of_close ok.sc hq (by rw [hB q hq]; exact ho)
  have hp' : Pr L (bitAt m) t p q := pr_congr (fun p hp => by rw [hB p hp, h4]) hp
  have a1 := ok.fch t p q hp.1 hp.2.1 hp.2.2
  have a2 := k5 t p q hp'.1 hp'.2.1 hp'.2.2
  rw [hcnt q (by omega)] at a1
  rw [countTrue_congr (g := out (cmp true) (val L) L.length) (fun i _ => h4 i), S_cnt] at a2
  rw [Bool.eq_iff_iff]
  cases x1 : bitAt s.fc (q - (Sct.S (cmp true) (val L) L.length q).1) <;> cases x2 : bitAt fc (q - (Sct.S (cmp true) (val L) L.length q).1) <;> rw [x1] at a1 <;> rw [x2] at a2 <;> simp at a1 a2 ⊢
  · obtain ⟨y, y1, y2, y3⟩ := a1
    obtain ⟨z, z1, z2⟩ := a2 y y1 y2
    have := y3 z z1 z2.1
    omega
  · obtain ⟨y, y1, y2, y3⟩ := a2
    obtain ⟨z, z1, z2⟩ := a1 y y1 y2
    have := y3 z z1 z2.1
    omega

theorem tree_ok {L : List Nat} {s : Cst} {S D : Nat} (ok : Ok L s S D) (hn : L.length + 1 < 2 ^ 63) (hv : ∀ x ∈ L, x ≤ L.length) :
    ∃ a, firstChildLcp L = some a ∧ a.xs.length = countTrue (bitAt s.fc) L.length ∧ ∀ i, i < L.length → ∃ k, s.tlcpIdx i = some k ∧ k < a.xs.length ∧ a.get k = some (sym L i) := by
  obtain ⟨a, ha, hx⟩ := firstChildLcp_ok hn hv
  have hB : ∀ p, p < 2 * L.length → bitAt s.bp.mem p = out (cmp true) (val L) L.length p := C60_unique ok.sc (out_super true L (fun _ => rfl))
  have hcnt : ∀ q, q ≤ 2 * L.length → countTrue (bitAt s.bp.mem) q = (Sct.S (cmp true) (val L) L.length q).1 := by
    intro q hq
    rw [← S_cnt]; exact countTrue_congr (fun i hi => hB i (by omega))
  have hf := fc_flag ok hn hv
  refine ⟨a, ha, ?_, fun i hi => ?_⟩
  · rw [hx, FL_len hf _ (Nat.le_refl _), S_end]
    congr 1
    dsimp only; omega
  · obtain ⟨p, q, hp⟩ := pr_exists ok.sc hi
    have hq := hp.2.2
    have hp' := pr_congr hB hp
    have hat := FL_at (vs := L) (2 * L.length - q) q (by omega) hq hp'.cls
    rw [FL_len hf q (by omega), top_pair hp', ← hcnt q (by omega), ← hx] at hat
    refine ⟨_, tlcp_eq ok hp, (List.getElem?_eq_some_iff.1 hat).1, ?_⟩
    rw [Arr.get, hat, val, sym]
    rfl

end Sdsl.LcpRep
