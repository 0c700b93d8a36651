/-
  Lemmas about the Psi-based compressed suffix arrays.
-/
import Verif.CsaPsi
import Verif.CstSct3CsaLemmas
import Verif.CsaNew
import Verif.Props.EncVectors

namespace Sdsl.Csa

open CstSct3

/-- Psi by rows: `ps k` is the row of the suffix that follows the one of row `k`. -/
def IsPsi (T SA : List Nat) (ps : Nat → Nat) : Prop := ∀ k, k < T.length → ps k < T.length ∧ sym SA (ps k) = nxt T.length (sym SA k)

theorem IsPsi.lt_iff {T SA : List Nat} {ps : Nat → Nat} (hT : IsText T) (hS : IsSA T SA) (hp : IsPsi T SA ps) {c k i : Nat} (h1 : smaller T c ≤ k) (h2 : k < smaller T c + T.count c) :
    ps k < i ↔ k < smaller T c + ((bwtOf T SA).take i).count c := by
  have hle := smaller_add_count_le_length T c
  have hk : k < T.length := by omega
  obtain ⟨g1, g2⟩ := hp k hk
  have hc : sym T (sym SA k) = c := by
    obtain ⟨b1, b2⟩ := row_bounds hT hS hk
    exact row_unique b1 b2 h1 h2
  have hb : c = sym (bwtOf T SA) (ps k) := by rw [hS.bwt_sym g1, g2, prv_nxt (hS.sym_get_lt hk), hc]
  obtain ⟨l1, l2⟩ := IsSA.lf hT hS g1 c hb
  rw [g2, prv_nxt (hS.sym_get_lt hk)] at l2
  have he := hS.inj l1 hk l2
  have hbl := hS.bwt_length
  constructor
  · intro h
    have := count_take_mono (bwtOf T SA) (show ps k + 1 ≤ i by omega) c
    rw [count_take_succ (by omega) c, if_pos hb.symm] at this
    omega
  · intro h
    rcases Nat.lt_or_ge (ps k) i with h' | h'
    · exact h'
    · have := count_take_mono (bwtOf T SA) h' c
      omega

/-- The binary search: `p k < i` iff `k < r` in the interval. -/
theorem psiSearch_ok {p : Nat → Option Nat} {i : Nat} {R : Nat → Prop} : ∀ (f lo hi : Nat), hi ≤ f + lo → 0 < f → lo ≤ hi → (∀ k, lo < k → k < hi → ∃ x, p k = some x ∧ (x < i ↔ R k)) →
    ∃ l h, psiSearch p i f lo hi = some (l, h) ∧ lo ≤ l ∧ l ≤ h ∧ h ≤ hi ∧ h ≤ l + 1 ∧ (l = lo ∨ l < hi ∧ R l) ∧ (h = hi ∨ lo < h ∧ ¬ R h) ∧ (lo < hi → l < h)
  | 0, _, _, _, h, _, _ => by omega
  | f + 1, lo, hi, h1, _, h3, hp => by
    rw [psiSearch]
    by_cases c : lo + 1 < hi
    · rw [if_pos c]
      obtain ⟨x, x1, x2⟩ := hp ((lo + hi) / 2) (by omega) (by omega)
      rw [x1, sbind]
      by_cases c2 : x ≥ i
      · rw [if_pos c2]
        obtain ⟨l, h, e1, e2, e3, e4, e5, e6, e7, e8⟩ := psiSearch_ok f lo ((lo + hi) / 2) (by omega) (by omega) (by omega) (fun k a b => hp k a (by omega))
        refine ⟨l, h, e1, e2, e3, by omega, e5, e6.imp id (fun e => ⟨by omega, e.2⟩), ?_, fun _ => e8 (by omega)⟩
        rcases e7 with e | e
        · exact Or.inr ⟨by omega, by rw [e, ← x2]; omega⟩
        · exact Or.inr e
      · rw [if_neg c2]
        obtain ⟨l, h, e1, e2, e3, e4, e5, e6, e7, e8⟩ := psiSearch_ok f ((lo + hi) / 2) hi (by omega) (by omega) (by omega) (fun k a b => hp k (by omega) b)
        refine ⟨l, h, e1, by omega, e3, by omega, e5, ?_, e7.imp id (fun e => ⟨by omega, e.2⟩), fun _ => e8 (by omega)⟩
        rcases e6 with e | e
        · exact Or.inr ⟨by omega, by rw [e, ← x2]; omega⟩
        · exact Or.inr e
    · rw [if_neg c]
      exact ⟨lo, hi, rfl, by omega, h3, by omega, by omega, Or.inl rfl, Or.inl rfl, by omega⟩

/-- The end of `rank_bwt`: `b ≤ r ≤ e` is the end of the rows of the symbol whose Psi value is below `i`. -/
theorem rankFinish_ok {psi : Nat → Option Nat} {i b e r lo hi : Nat} (hb : b ≤ r) (hpsi : ∀ k, b ≤ k → k < e → ∃ x, psi k = some x ∧ (x < i ↔ k < r)) (h1 : b ≤ lo) (h2 : lo < hi) (h3 : hi ≤ e) (h4 : r ≤ hi)
    (h5 : lo = b ∨ lo < r) : rankFinish psi i b lo hi = some (r - b) := by
  obtain ⟨l, h, e1, e2, e3, e4, e5, e6, e7, e8⟩ := psiSearch_ok (p := psi) (i := i) (R := fun k => k < r) (hi + 1) lo hi (by omega) (by omega) (by omega) (fun k a b => hpsi k (by omega) (by omega))
  rw [rankFinish, e1, sbind]
  dsimp only
  by_cases c : l > b
  · rw [if_pos c]
    congr 1; omega
  · rw [if_neg c]
    have : l = b := by omega
    subst this
    obtain ⟨x, x1, x2⟩ := hpsi l (by omega) (by omega)
    rw [x1, sbind]
    by_cases c2 : x < i
    · have := x2.1 c2
      rw [if_pos c2]
      congr 1; omega
    · rw [if_neg c2]
      have : ¬ l < r := fun h => c2 (x2.2 h)
      congr 1; omega

/-- What `csa_sada` needs from its vector. -/
structure PsiVecOk (V : PsiVec) (n : Nat) (ps : Nat → Nat) : Prop where
  size : V.size = n
  dens : 0 < V.dens
  get : ∀ i, i < n → V.get i = some (ps i)
  sample : ∀ i, i * V.dens < n → V.sample i = some (ps (i * V.dens))
  inter : ∀ i, i * V.dens < n → ∃ vs, V.inter i = some vs ∧ vs.length = min V.dens (n - i * V.dens) ∧ ∀ k, k < vs.length → add64 (vs.getD k 0) (ps (i * V.dens)) = ps (i * V.dens + k)

theorem bufSearch_ok {smpl i : Nat} : ∀ (p : List Nat) (k d : Nat), (∀ t, t < d → add64 (p.getD t 0) smpl < i) → d < p.length → i ≤ add64 (p.getD d 0) smpl → bufSearch smpl i p k = some (k + d)
  | [], _, _, _, h, _ => by simp at h
  | x :: p, k, 0, _, _, h => by
    rw [bufSearch, if_neg (by simpa using h)]; rfl
  | x :: p, k, d + 1, h1, h2, h3 => by
    rw [bufSearch, if_pos (by simpa using h1 0 (by omega))]
    rw [bufSearch_ok p (k + 1) d (fun t ht => by simpa using h1 (t + 1) (by omega)) (by simpa using h2) (by simpa using h3)]
    congr 1; omega

theorem setList_ok {l : List Nat} {i x : Nat} (h : i < l.length) : ∃ m, setList l i x = some m ∧ m.length = l.length ∧ ∀ t, m.getD t 0 = if t = i then x else l.getD t 0 := by
  refine ⟨l.set i x, by rw [setList, if_pos h], by simp, fun t => ?_⟩
  rw [List.getD_eq_getElem?_getD, List.getD_eq_getElem?_getD, List.getElem?_set]
  by_cases e : i = t
  · subst e; rw [if_pos rfl, if_pos h, if_pos rfl]; rfl
  · rw [if_neg e, if_neg (fun h => e h.symm)]

theorem ceil_mul {b d : Nat} (hd : 0 < d) : b ≤ (b + d - 1) / d * d ∧ (b + d - 1) / d * d < b + d := by
  have h1 := Nat.div_add_mod' (b + d - 1) d
  have h2 := Nat.mod_lt (b + d - 1) hd
  omega

/-- `rank_bwt` of `csa_sada`: `b`, `e` bound the rows of the symbol, those before `r` have a Psi value below `i`. -/
theorem rankCases_ok {V : PsiVec} {n : Nat} {ps : Nat → Nat} (hV : PsiVecOk V n ps) {buf : List Nat} (hbuf : buf.length = 0 ∨ buf.length = V.dens + 1) {i b e r ls us : Nat} (hn : n < 2 ^ 64) (hi : i ≤ n)
    (hps : ∀ k, k < n → ps k < n) (hbe : b < e) (he : e ≤ n) (hb : b ≤ r) (hr : r ≤ e) (hR : ∀ k, b ≤ k → k < e → (ps k < i ↔ k < r))
    (h1 : (b + V.dens - 1) / V.dens ≤ ls) (h2 : ls ≤ us) (h3 : us ≤ (e + V.dens - 1) / V.dens) (h4 : us ≤ ls + 1) (h5 : ls = (b + V.dens - 1) / V.dens ∨ ls < (e + V.dens - 1) / V.dens ∧ ls * V.dens < r)
    (h6 : us = (e + V.dens - 1) / V.dens ∨ (b + V.dens - 1) / V.dens < us ∧ ¬ us * V.dens < r) (h7 : (b + V.dens - 1) / V.dens < (e + V.dens - 1) / V.dens → ls < us) :
    rankCases V buf i b e ls us = some (r - b) := by
  have hd := hV.dens
  obtain ⟨m1, m2⟩ := ceil_mul (b := b) hd
  obtain ⟨m3, m4⟩ := ceil_mul (b := e) hd
  have hget : ∀ k, b ≤ k → k < e → ∃ x, V.get k = some x ∧ (x < i ↔ k < r) := fun k a c => ⟨ps k, hV.get k (by omega), hR k a c⟩
  have hmono := Nat.mul_le_mul_right V.dens h1
  rw [rankCases]
  by_cases c1 : ls = us
  · rw [if_pos c1]
    exact rankFinish_ok hb hget (by omega) hbe (by omega) hr (Or.inl rfl)
  · rw [if_neg c1]
    have hlt : ls * V.dens < e := by
      have := Nat.mul_le_mul_right V.dens (show ls + 1 ≤ (e + V.dens - 1) / V.dens by omega)
      rw [Nat.succ_mul] at this
      omega
    have hus : us = ls + 1 := by omega
    have hmul : us * V.dens = ls * V.dens + V.dens := by rw [hus, Nat.succ_mul]
    have hru : r ≤ min (us * V.dens) e := by
      rcases h6 with h | h
      · rw [h] at hmul ⊢
        omega
      · omega
    by_cases c2 : ls > (b + V.dens - 1) / V.dens
    · rw [if_pos c2]
      have hlr : ls * V.dens < r := by
        rcases h5 with h | h
        · omega
        · exact h.2
      have hgt : b < ls * V.dens := by
        have := Nat.mul_le_mul_right V.dens (show (b + V.dens - 1) / V.dens + 1 ≤ ls by omega)
        rw [Nat.succ_mul] at this
        omega
      by_cases c3 : buf.length = 0
      · rw [if_pos c3]
        exact rankFinish_ok hb hget (by omega) (by omega) (by omega) hru (Or.inr hlr)
      · rw [if_neg c3]
        have hbl : buf.length = V.dens + 1 := by omega
        obtain ⟨vs, v1, v2, v3⟩ := hV.inter ls (by omega)
        have hends : bufEnd V.dens e (ls * V.dens) ≤ vs.length ∧ bufEnd V.dens e (ls * V.dens) ≤ V.dens ∧ r ≤ ls * V.dens + bufEnd V.dens e (ls * V.dens) ∧ ls * V.dens + bufEnd V.dens e (ls * V.dens) ≤ e := by
          rw [bufEnd]
          split <;> omega
        obtain ⟨q1, q2, q3, q4⟩ := hends
        obtain ⟨p, p1, p2, p3⟩ := setList_ok (l := vs ++ buf.drop vs.length) (i := bufEnd V.dens e (ls * V.dens)) (x := sub64 V.size (ps (ls * V.dens))) (by
          rw [List.length_append, List.length_drop]; omega)
        rw [rankBuf, v1, sbind, if_pos (by omega), hV.sample ls (by omega), sbind, p1, sbind]
        have hp0 := hps (ls * V.dens) (by omega)
        rw [bufSearch_ok p 0 (r - ls * V.dens), sbind]
        · congr 1; omega
        · intro t ht
          rw [p3, if_neg (by omega)]
          have : (vs ++ buf.drop vs.length).getD t 0 = vs.getD t 0 := by
            rw [List.getD_eq_getElem?_getD, List.getD_eq_getElem?_getD, List.getElem?_append_left (by omega)]
          rw [this, v3 t (by omega)]
          exact (hR _ (by omega) (by omega)).2 (by omega)
        · rw [p2, List.length_append, List.length_drop]; omega
        · rw [p3]
          by_cases e1 : r - ls * V.dens = bufEnd V.dens e (ls * V.dens)
          · rw [if_pos e1, hV.size, sub64_eq (by omega) hn, add64_eq (by omega)]; omega
          · rw [if_neg e1]
            have : (vs ++ buf.drop vs.length).getD (r - ls * V.dens) 0 = vs.getD (r - ls * V.dens) 0 := by
              rw [List.getD_eq_getElem?_getD, List.getD_eq_getElem?_getD, List.getElem?_append_left (by omega)]
            rw [this, v3 _ (by omega)]
            have := (hR (ls * V.dens + (r - ls * V.dens)) (by omega) (by omega))
            omega
    · rw [if_neg c2, hV.sample ls (by omega), sbind]
      have hx := hR (ls * V.dens) (by omega) hlt
      by_cases c3 : ps (ls * V.dens) ≥ i
      · rw [if_pos c3]
        exact rankFinish_ok hb hget (by omega) (by omega) (by omega) (by omega) (Or.inl rfl)
      · rw [if_neg c3]
        exact rankFinish_ok hb hget (by omega) (by omega) (by omega) hru (Or.inr (by omega))

/-- The rows of a symbol that occurs. -/
theorem alpha_rows {A : Alpha} {T SA : List Nat} {Q : Nat → Prop} (hT : IsText T) (hS : IsSA T SA) (hA : AlphaOk A (bwtOf T SA) Q) {c : Nat} (hc : c ∈ bwtOf T SA) :
    ∃ k, A.char2comp c = some k ∧ k < A.sigma ∧ A.comp2char k = some c ∧ A.C k = some (smaller T c) ∧ A.C (k + 1) = some (smaller T c + T.count c) ∧ ¬ (k = 0 ∧ c ≠ 0) ∧ 0 < T.count c := by
  obtain ⟨k, k1, k2, k3, k4, k5, k6⟩ := hA.present hc
  rw [bwt_smaller hS] at k4
  rw [bwt_smaller hS, bwt_count hS] at k5
  refine ⟨k, k1, k2, k3, k4, k5, fun h0 => ?_, ?_⟩
  · have h7 : (0 : Nat) ∈ bwtOf T SA := by
      rw [hS.bwt_perm.mem_iff, ← hT.last]
      exact sym_mem (by have := hT.pos; omega)
    have := k6 h0.1 0 h7
    exact h0.2 (by omega)
  · rw [← bwt_count hS]; exact List.count_pos_iff.2 hc

theorem zero_mem {T SA : List Nat} (hT : IsText T) (hS : IsSA T SA) : (0 : Nat) ∈ bwtOf T SA := by
  rw [hS.bwt_perm.mem_iff, ← hT.last]
  exact sym_mem (by have := hT.pos; omega)

theorem rank_bounds {T SA : List Nat} (hS : IsSA T SA) (i c : Nat) : ((bwtOf T SA).take i).count c ≤ T.count c := by
  rw [← bwt_count hS]
  exact List.Sublist.count_le c (List.take_sublist _ _)

/-- `rank_bwt` of `csa_sada`. -/
theorem rankSada_ok {V : PsiVec} {A : Alpha} {T SA : List Nat} {Q : Nat → Prop} {ps : Nat → Nat} (hT : IsText T) (hS : IsSA T SA) (hA : AlphaOk A (bwtOf T SA) Q) (hV : PsiVecOk V T.length ps) (hp : IsPsi T SA ps)
    (hn : T.length < 2 ^ 64) {buf : List Nat} (hbuf : buf.length = 0 ∨ buf.length = V.dens + 1) {i c : Nat} (hi : i ≤ T.length) (hc : Q c) :
    rankSada V A buf i c = some (((bwtOf T SA).take i).count c) := by
  have hd := hV.dens
  by_cases hm : c ∈ bwtOf T SA
  · obtain ⟨k, k1, k2, k3, k4, k5, k6, k7⟩ := alpha_rows hT hS hA hm
    rw [rankSada, k1, sbind, if_neg k6]
    by_cases h0 : i = 0
    · subst h0; rw [if_pos rfl]; rfl
    · rw [if_neg h0, k4, sbind, k5, sbind]
      have hle := smaller_add_count_le_length T c
      have hrb := rank_bounds hS i c
      have hR : ∀ k, smaller T c ≤ k → k < smaller T c + T.count c → (ps k < i ↔ k < smaller T c + ((bwtOf T SA).take i).count c) := fun k a b => hp.lt_iff hT hS a b
      obtain ⟨m1, m2⟩ := ceil_mul (b := smaller T c) hd
      obtain ⟨m3, m4⟩ := ceil_mul (b := smaller T c + T.count c) hd
      have hdiv : (smaller T c + V.dens - 1) / V.dens ≤ (smaller T c + T.count c + V.dens - 1) / V.dens := Nat.div_le_div_right (by omega)
      generalize hlo : (smaller T c + V.dens - 1) / V.dens = lo at *
      generalize hup : (smaller T c + T.count c + V.dens - 1) / V.dens = up at *
      obtain ⟨l, h, e1, e2, e3, e4, e5, e6, e7, e8⟩ := psiSearch_ok (p := V.sample) (i := i) (R := fun k => k * V.dens < smaller T c + ((bwtOf T SA).take i).count c)
        (up + 1) lo up (by omega) (by omega) hdiv (fun k a b => by
          have h1 := Nat.mul_le_mul_right V.dens (show k + 1 ≤ up by omega)
          have h2 := Nat.mul_le_mul_right V.dens (show lo ≤ k by omega)
          rw [Nat.succ_mul] at h1
          exact ⟨_, hV.sample k (by omega), hR _ (by omega) (by omega)⟩)
      rw [e1, sbind]
      dsimp only
      subst hlo hup
      rw [rankCases_ok hV hbuf hn hi (fun k hk => (hp k hk).1) (show smaller T c < smaller T c + T.count c by omega) hle (Nat.le_add_right _ _) (by omega) hR e2 e3 e4 e5 e6 e7 e8]
      congr 1; omega
  · rw [rankSada, hA.absent c hc hm, sbind, if_pos ⟨rfl, fun h0 => hm (by rw [h0]; exact zero_mem hT hS)⟩]
    have := (List.take_sublist i (bwtOf T SA)).count_le c
    rw [List.count_eq_zero_of_not_mem hm] at this
    congr 1; omega

/-- `rank_bwt` of `csa_bitcompressed`. -/
theorem rankBit_ok {psi : Nat → Option Nat} {A : Alpha} {T SA : List Nat} {Q : Nat → Prop} {ps : Nat → Nat} (hT : IsText T) (hS : IsSA T SA) (hA : AlphaOk A (bwtOf T SA) Q) (hpsi : ∀ k, k < T.length → psi k = some (ps k))
    (hp : IsPsi T SA ps) {i c : Nat} (hc : Q c) : rankBit psi A i c = some (((bwtOf T SA).take i).count c) := by
  by_cases hm : c ∈ bwtOf T SA
  · obtain ⟨k, k1, k2, k3, k4, k5, k6, k7⟩ := alpha_rows hT hS hA hm
    have hle := smaller_add_count_le_length T c
    have hrb := rank_bounds hS i c
    rw [rankBit, k1, sbind, if_neg k6, k4, sbind, Nat.add_comm 1 k, k5, sbind,
      rankFinish_ok (r := smaller T c + ((bwtOf T SA).take i).count c) (Nat.le_add_right _ _) (fun k a b => ⟨_, hpsi k (by omega), hp.lt_iff hT hS a b⟩) (Nat.le_refl _) (by omega) (Nat.le_refl _) (by omega)
      (Or.inl rfl)]
    congr 1; omega
  · rw [rankBit, hA.absent c hc hm, sbind, if_pos ⟨rfl, fun h0 => hm (by rw [h0]; exact zero_mem hT hS)⟩]
    have := (List.take_sublist i (bwtOf T SA)).count_le c
    rw [List.count_eq_zero_of_not_mem hm] at this
    congr 1; omega

/-! ### Access -/

theorem dist_fwd {n p q : Nat} (hp : p < n) (hq : q < n) (hne : p ≠ q) : (q + n - nxt n p) % n + 1 = (q + n - p) % n := by
  rcases Nat.lt_or_ge (p + 1) n with h | h
  · rw [nxt_small h]
    rcases Nat.lt_or_ge q p with h1 | h1
    · rw [Nat.mod_eq_of_lt (by omega), Nat.mod_eq_of_lt (by omega)]; omega
    · rw [show q + n - (p + 1) = (q - (p + 1)) + n by omega, Nat.add_mod_right, Nat.mod_eq_of_lt (by omega), show q + n - p = (q - p) + n by omega, Nat.add_mod_right,
        Nat.mod_eq_of_lt (by omega)]; omega
  · have : p = n - 1 := by omega
    subst this
    rw [nxt_last (by omega), Nat.sub_zero, Nat.add_mod_right, Nat.mod_eq_of_lt hq, Nat.mod_eq_of_lt (by omega)]; omega

section
variable {psi : Nat → Option Nat} {T SA : List Nat} {ps : Nat → Nat} (hS : IsSA T SA) (hpsi : ∀ k, k < T.length → psi k = some (ps k)) (hp : IsPsi T SA ps)
include hS hpsi hp

theorem saPsiLoop_ok {S : SaSample} (hSm : SaSampleOk S T SA) {i0 : Nat} (hi0 : i0 < T.length)
    (hs0 : S.isSampled i0 = some true) : ∀ (fuel i off : Nat), i < T.length → (sym SA i0 + T.length - sym SA i) % T.length ≤ fuel →
    ∃ j k, saPsiLoop psi S fuel i off = some (j, off + k) ∧ j < T.length ∧ S.get j = some (sym SA j) ∧ k < T.length ∧ k ≤ (sym SA i0 + T.length - sym SA i) % T.length ∧
      sym SA j = (sym SA i + k) % T.length := by
  intro fuel
  induction fuel with
  | zero =>
    intro i off hi hd
    obtain ⟨b, b1, b2⟩ := hSm.def_ i hi
    have hp1 := hS.sym_get_lt hi
    have hp0 := hS.sym_get_lt hi0
    have hb : b = true := by
      have he : sym SA i = sym SA i0 := by
        by_contra hne
        have := dist_fwd hp1 hp0 hne
        omega
      rw [hS.inj hi hi0 he, hs0] at b1
      simpa using b1.symm
    rw [saPsiLoop, b1, sbind, if_pos hb]
    exact ⟨i, 0, rfl, hi, b2 hb, by omega, by omega, by rw [Nat.add_zero, Nat.mod_eq_of_lt hp1]⟩
  | succ fuel ih =>
    intro i off hi hd
    obtain ⟨b, b1, b2⟩ := hSm.def_ i hi
    have hp1 := hS.sym_get_lt hi
    have hp0 := hS.sym_get_lt hi0
    rw [saPsiLoop, b1, sbind]
    cases b with
    | true =>
      rw [if_pos rfl]
      exact ⟨i, 0, rfl, hi, b2 rfl, by omega, by omega, by rw [Nat.add_zero, Nat.mod_eq_of_lt hp1]⟩
    | false =>
      rw [if_neg (by simp)]
      obtain ⟨j3, j4⟩ := hp i hi
      have hne : sym SA i ≠ sym SA i0 := by
        intro he
        rw [hS.inj hi hi0 he, hs0] at b1
        simp at b1
      have hst := dist_fwd hp1 hp0 hne
      rw [← j4] at hst
      have hm := Nat.mod_lt (sym SA i0 + T.length - sym SA i) (show 0 < T.length by omega)
      obtain ⟨r, k, r1, r2, r3, r4, r5, r6⟩ := ih (ps i) (off + 1) j3 (by omega)
      refine ⟨r, k + 1, ?_, r2, r3, by omega, by omega, ?_⟩
      · rw [hpsi i hi, sbind, r1, show off + 1 + k = off + (k + 1) by omega]
      · rw [r6, j4, nxt, Nat.mod_add_mod]; congr 1; omega

/-- `csa_sada::operator[]`. -/
theorem saPsi_ok {S : SaSample} (hSm : SaSampleOk S T SA) {fuel i : Nat} (hf : T.length ≤ fuel + 1) (hi : i < T.length) : saPsi T.length psi S fuel i = some (sym SA i) := by
  obtain ⟨i0, g1, g2⟩ := hSm.some_
  have hm := Nat.mod_lt (sym SA i0 + T.length - sym SA i) (show 0 < T.length by omega)
  obtain ⟨j, k, r1, r2, r3, r4, r5, r6⟩ := saPsiLoop_ok hS hpsi hp hSm g1 g2 fuel i 0 hi (by omega)
  rw [Nat.zero_add] at r1
  have hp1 := hS.sym_get_lt hi
  rw [saPsi, r1, sbind]
  dsimp only
  rw [r3, sbind]
  rcases Nat.lt_or_ge (sym SA i + k) T.length with h | h
  · rw [Nat.mod_eq_of_lt h] at r6
    rw [if_neg (by omega)]
    exact congrArg some (by omega)
  · rw [Nat.mod_eq_sub_mod h, Nat.mod_eq_of_lt (by omega)] at r6
    rw [if_pos (by omega)]
    exact congrArg some (by omega)

omit hS in
theorem psiRepeat_ok : ∀ (k x : Nat), x < T.length → sym SA x + k < T.length → ∃ y, psiRepeat psi k x = some y ∧ y < T.length ∧ sym SA y = sym SA x + k
  | 0, x, h1, _ => ⟨x, rfl, h1, rfl⟩
  | k + 1, x, h1, h2 => by
    obtain ⟨j1, j2⟩ := hp x h1
    rw [nxt_small (by omega)] at j2
    obtain ⟨y, y1, y2, y3⟩ := psiRepeat_ok k (ps x) j1 (by omega)
    exact ⟨y, by rw [psiRepeat, hpsi x h1, sbind, y1], y2, by omega⟩

omit hS in
/-- `isa[i]`. -/
theorem isaPsi_ok {I : IsaSample} (hI : IsaSampleOk I T SA) (hn : T.length < 2 ^ 64) {i : Nat} (hi : i < T.length) : ∃ r, isaPsi psi I i = some r ∧ r < T.length ∧ sym SA r = i := by
  obtain ⟨v, q, v1, v2, v3, v4⟩ := hI.leq i hi
  rw [isaPsi, v1, sbind]
  dsimp only
  rw [sub64_eq v4 (by omega)]
  obtain ⟨y, y1, y2, y3⟩ := psiRepeat_ok hpsi hp (i - q) v v2 (by omega)
  exact ⟨y, y1, y2, by omega⟩

end

/-- What the helper functions need from a Psi-based CSA. -/
structure PsiCsaOk (K : PsiCsa) (T SA : List Nat) (Q : Nat → Prop) : Prop where
  text : IsText T
  suf : IsSA T SA
  len : T.length < 2 ^ 63
  size : K.size = T.length
  alpha : AlphaOk K.alpha (bwtOf T SA) Q
  mem : ∀ c ∈ T, Q c
  psi : ∃ ps, IsPsi T SA ps ∧ ∀ k, k < T.length → K.psi k = some (ps k)
  sa : ∀ i, i < T.length → K.sa i = some (sym SA i)
  isa : ∀ i, i < T.length → ∃ r, K.isa i = some r ∧ r < T.length ∧ sym SA r = i
  rank : ∀ i c, i ≤ T.length → Q c → K.rank i c = some (((bwtOf T SA).take i).count c)

namespace PsiCsaOk
variable {K : PsiCsa} {T SA : List Nat} {Q : Nat → Prop} (h : PsiCsaOk K T SA Q)
include h

theorem lf_ok {i : Nat} (hi : i < T.length) : ∃ r, lfPsi K i = some r ∧ r < T.length ∧ sym SA r = prv T.length (sym SA i) := by
  have hp := h.suf.sym_get_lt hi
  have hn := h.len
  rw [lfPsi, h.sa i hi, sbind, h.size, add64_eq (by omega), sub64_eq (by omega) (by omega), show sym SA i + T.length - 1 = sym SA i + (T.length - 1) by omega]
  exact h.isa _ (prv_lt (by omega))

theorem firstRow_ok {i : Nat} (hi : i < T.length) : firstRow K.alpha i = some (sym T (sym SA i)) := by
  obtain ⟨c, c1, c2, c3, c4⟩ := h.alpha.firstRow_spec (i := i) (by rw [h.suf.bwt_length]; exact hi)
  rw [bwt_smaller h.suf] at c3
  rw [bwt_smaller h.suf, bwt_count h.suf] at c4
  obtain ⟨b1, b2⟩ := CstSct3.row_bounds h.text h.suf hi
  rw [c2, row_unique c3 c4 b1 b2]

/-- `bwt[i]`. -/
theorem bwt_ok {i : Nat} (hi : i < T.length) : bwtPsi K i = some (sym (bwtOf T SA) i) := by
  obtain ⟨r, r1, r2, r3⟩ := h.lf_ok hi
  rw [bwtPsi, r1, sbind, h.firstRow_ok r2, r3, h.suf.bwt_sym hi]

/-- `text[i]`. -/
theorem text_ok {i : Nat} (hi : i < T.length) : textPsi K i = some (sym T i) := by
  obtain ⟨r, r1, r2, r3⟩ := h.isa i hi
  rw [textPsi, r1, sbind, h.firstRow_ok r2, r3]

theorem extractLoop_ok : ∀ (k order : Nat), order < T.length → sym SA order + k ≤ T.length → extractPsiLoop K k order = some ((T.drop (sym SA order)).take k)
  | 0, _, _, _ => by simp [extractPsiLoop]
  | k + 1, order, h1, h2 => by
    obtain ⟨ps, p1, p2⟩ := h.psi
    obtain ⟨q1, q2⟩ := p1 order h1
    rw [extractPsiLoop, h.firstRow_ok h1, sbind, p2 order h1, sbind, drop_cons (show sym SA order < T.length by omega), List.take_succ_cons]
    rcases Nat.lt_or_ge (sym SA order + 1) T.length with c | c
    · rw [nxt_small c] at q2
      rw [extractLoop_ok k (ps order) q1 (by omega), sbind, q2]; rfl
    · have : k = 0 := by omega
      subst this
      simp [extractPsiLoop]

/-- `extract`. -/
theorem extract_ok {b e : Nat} (hbe : b ≤ e) (he : e < T.length) : extractPsi K b e = some ((T.drop b).take (e - b + 1)) := by
  obtain ⟨r, r1, r2, r3⟩ := h.isa b (by omega)
  rw [extractPsi, r1, sbind, h.extractLoop_ok _ r r2 (by omega), r3]

/-- `select_bwt`. -/
theorem select_ok {i : Nat} (hi : i < T.length) : selectPsi K (((bwtOf T SA).take i).count (sym (bwtOf T SA) i) + 1) (sym (bwtOf T SA) i) = some i := by
  have hn := h.len
  have hbl := h.suf.bwt_length
  obtain ⟨k, k1, k2, k3, k4, k5, k6, k7⟩ := alpha_rows h.text h.suf h.alpha (sym_mem (L := bwtOf T SA) (i := i) (by omega))
  obtain ⟨l1, l2⟩ := IsSA.lf h.text h.suf hi _ rfl
  obtain ⟨ps, p1, p2⟩ := h.psi
  have hb := count_take_mono (bwtOf T SA) (show i + 1 ≤ (bwtOf T SA).length by omega) (sym (bwtOf T SA) i)
  rw [count_take_succ (by omega), if_pos rfl, List.take_length, bwt_count h.suf] at hb
  rw [selectPsi, k1, sbind, if_neg k6, k4, sbind, k5, sbind, add64_eq (by omega), sub64_eq (by omega) (by omega), ← Nat.add_assoc, Nat.add_sub_cancel, if_pos (by omega), p2 _ l1]
  obtain ⟨q1, q2⟩ := p1 _ l1
  rw [l2, nxt_prv (h.suf.sym_get_lt hi)] at q2
  rw [h.suf.inj q1 hi q2]

/-- The algorithms of `csa_wt` work on these classes. -/
theorem csaOk : CsaOk (psiWt K) K.alpha T SA Q := by
  have hbl := h.suf.bwt_length
  have hn := h.len
  refine ⟨h.text, h.suf, h.alpha, ⟨by rw [hbl]; exact h.size, fun i hi => h.bwt_ok (by omega), fun i c hi hc => h.rank i c (by omega) hc, fun i hi => h.select_ok (by omega), fun i hi => ?_⟩, by omega⟩
  show (do let c ← bwtPsi K i; let r ← K.rank i c; pure (r, c)) = _
  rw [h.bwt_ok (by omega), sbind, h.rank i _ (by omega) (h.mem _ (h.suf.bwt_perm.mem_iff.1 (sym_mem hi))), sbind]; rfl

end PsiCsaOk

end Sdsl.Csa
