/-
  Lemmas for cst_sct3: the building blocks of the operations.
-/
import Verif.CstSct3Lemmas
import Verif.BitsScan
import Verif.BitsSel
import Verif.BitsRW

namespace Sdsl.CstSct3

open Spec Props Bits RmqSct

/-- The object belongs to the LCP array `L`. -/
structure Ok (L : List Nat) (s : Cst) (S D : Nat) : Prop where
  n0 : 0 < L.length
  v0 : V L 0 = 0
  bpn : s.bp.n = 2 * L.length
  hl : 2 * L.length ≤ 64 * s.bp.mem.length
  hb : 2 * (2 * L.length) + 2 < 2 ^ 64
  pS : 0 < S
  bS : S + 2 < 2 ^ 64
  h8 : S % 8 = 0
  hD : 2 ≤ D
  new : Bp.Sada.new s.bp.mem (2 * L.length) S D = some s.bp
  sc : SuperCartesian true L (bitAt s.bp.mem)
  fch : FirstChild L (bitAt s.bp.mem) (bitAt s.fc)
  fcl : L.length ≤ 64 * s.fc.length
  fcz : ∀ j, L.length ≤ j → bitAt s.fc j = false
  sig : s.sigma = countTrue (fun k => V L k == 0) L.length

theorem sub_eq {a b : Nat} (h : b ≤ a) : sub a b = some (a - b) := if_pos h

theorem word_zero {w : Word} (h : ∀ i, i < 64 → w.getLsbD i = false) : w = 0#64 := by
  apply BitVec.eq_of_getLsbD_eq
  intro i hi
  rw [h i hi]; simp

section
variable {L : List Nat} {s : Cst} {S D : Nat} (ok : Ok L s S D) {t p q : Nat}
include ok

theorem Ok.size : s.size = L.length := by rw [Cst.size, ok.bpn]; omega

theorem Ok.findClose (h : Pr L (bitAt s.bp.mem) t p q) : s.bp.findClose p = some q :=
  C59_find_close ok.hl ok.hb ok.pS ok.bS (by have := ok.hD; omega) ok.new h.2.1 h.2.2

theorem Ok.findOpen (h : Pr L (bitAt s.bp.mem) t p q) : s.bp.findOpen q = some p :=
  C59_find_open ok.hl ok.hb ok.pS ok.bS ok.h8 ok.hD ok.new h.2.1 h.2.2

theorem Ok.enclose {k : Nat} (h : Pr L (bitAt s.bp.mem) t p q) (hk : Encloses (bitAt s.bp.mem) k p) : s.bp.enclose p = some k :=
  C59_enclose ok.hl ok.hb ok.pS ok.bS ok.h8 ok.hD ok.new h.1.1 hk

theorem Ok.select (h : Pr L (bitAt s.bp.mem) t p q) : s.select (t + 1) = some p := by
  rw [Cst.select, ok.bpn]; exact selectC_eq h.1

theorem Ok.rankO (h : Pr L (bitAt s.bp.mem) t p q) : s.rank p = some (t + 1) := by
  rw [Cst.rank, ok.bpn, rankC_eq (by have := h.1.1; omega), cnt_open h.opn, h.cnt]

theorem Ok.index (h : Pr L (bitAt s.bp.mem) t p q) : s.index p = some t := by
  rw [Cst.index, ok.rankO h, sbind, sub_eq (by omega)]; rfl

theorem Ok.rankC (h : Pr L (bitAt s.bp.mem) t p q) : s.rank q = some (countTrue (bitAt s.bp.mem) q) := by
  rw [Cst.rank, ok.bpn, rankC_eq (by have := h.2.2; omega), cnt_close h.cls]

theorem Ok.rank0 (h : Pr L (bitAt s.bp.mem) t p q) : s.rank0 q = some (q - countTrue (bitAt s.bp.mem) q) := by
  rw [Cst.rank0, ok.rankC h, sbind, sub_eq (countTrue_le _ _)]

theorem Ok.nsv (h : Pr L (bitAt s.bp.mem) t p q) : s.nsv p = some (countTrue (bitAt s.bp.mem) q) := by
  rw [Cst.nsv, ok.findClose h, sbind, ok.rankC h]

theorem Ok.at' {k : Nat} (h : k < 2 * L.length) : s.at' k = some (bitAt s.bp.mem k) := by
  rw [Cst.at', ok.bpn, if_pos h]

theorem Ok.fcRank {k : Nat} (h : k ≤ L.length) : s.fcRank k = some (countTrue (bitAt s.fc) k) := by
  rw [Cst.fcRank, ok.size, rankC_eq h]

theorem Ok.fcSelect {k x : Nat} (h : IsSelect (bitAt s.fc) L.length k x) : s.fcSelect k = some x := by
  rw [Cst.fcSelect, ok.size, selectC_eq h]

theorem Ok.root_pr : Pr L (bitAt s.bp.mem) 0 0 (2 * L.length - 1) := pr_root ok.sc ok.n0 ok.v0

/-! ### The scans over the first child bits -/

omit ok in
theorem run_zero {f : Nat → Bool} {r n : Nat} (hn : ∃ o, r ≤ o ∧ o < n ∧ f o = true) : ∃ d, (∀ e, e < d → f (r + e) = false) ∧ f (r + d) = true ∧ r + d < n := by
  obtain ⟨o, o1, o2, o3⟩ := hn
  have key : ∀ k r, r ≤ o → o - r ≤ k → ∃ d, (∀ e, e < d → f (r + e) = false) ∧ f (r + d) = true ∧ r + d < n := by
    intro k
    induction k with
    | zero => intro r h1 h2; exact ⟨0, fun e he => by omega, by rw [show r + 0 = o by omega]; exact o3, by omega⟩
    | succ k ih =>
      intro r h1 h2
      cases c : f r with
      | true => exact ⟨0, fun e he => by omega, c, by omega⟩
      | false =>
        have hne : r ≠ o := by intro e; rw [e, o3] at c; cases c
        obtain ⟨d, d1, d2, d3⟩ := ih (r + 1) (by omega) (by omega)
        refine ⟨d + 1, fun e he => ?_, by rw [show r + (d + 1) = r + 1 + d by omega]; exact d2, by omega⟩
        rcases Nat.eq_zero_or_pos e with c1 | c1
        · rw [c1]; exact c
        · have := d1 (e - 1) (by omega)
          rwa [show r + 1 + (e - 1) = r + e by omega] at this
  exact key _ r o1 (Nat.le_refl _)

omit ok in
theorem scanUp_ok {r d : Nat} (h1 : ∀ e, e < d → bitAt s.fc (r + e) = false) (h2 : bitAt s.fc (r + d) = true) :
    ∀ t p delta, delta + 1 + r = 64 * p → delta < d → ∃ w delta', s.scanUp t p delta = some (w, delta') ∧ (w ≠ 0#64 → ∃ l, lo w = some l ∧ delta' + (l + 1) = d) := by
  have hlen : (r + d) / 64 < s.fc.length := by
    rcases Nat.lt_or_ge ((r + d) / 64) s.fc.length with c | c
    · exact c
    · rw [bitAt_of_ge c] at h2; cases h2
  have word : ∀ p delta, delta + 1 + r = 64 * p → delta < d → ∃ h : p < s.fc.length, (s.fc[p] ≠ 0#64 → ∃ l, lo s.fc[p] = some l ∧ delta + (l + 1) = d) ∧ (s.fc[p] = 0#64 → delta + 64 < d) := by
    intro p delta e1 e2
    have hp : p < s.fc.length := by omega
    refine ⟨hp, fun hw => ?_, fun hw => ?_⟩
    · obtain ⟨l, e3, l1, l2, l3⟩ := lo_isLo hw
      refine ⟨l, e3, ?_⟩
      have g1 := bitAt_mul_add (m := s.fc) l1 hp
      rw [l2] at g1
      rcases Nat.lt_trichotomy (delta + (l + 1)) d with c | c | c
      · have := h1 _ c
        rw [show r + (delta + (l + 1)) = 64 * p + l by omega, g1] at this; cases this
      · exact c
      · have := l3 (d - (delta + 1)) (by omega)
        rw [← bitAt_mul_add (m := s.fc) (by omega) hp, show 64 * p + (d - (delta + 1)) = r + d by omega, h2] at this; cases this
    · rcases Nat.lt_or_ge (delta + 64) d with c | c
      · exact c
      · have := bitAt_mul_add (m := s.fc) (j := d - (delta + 1)) (by omega) hp
        rw [show 64 * p + (d - (delta + 1)) = r + d by omega, h2, hw] at this
        simp at this
  intro t
  induction t with
  | zero =>
    intro p delta e1 e2
    obtain ⟨hp, g1, g2⟩ := word p delta e1 e2
    exact ⟨_, _, by rw [Cst.scanUp, ld_of_lt hp, sbind]; rfl, g1⟩
  | succ t ih =>
    intro p delta e1 e2
    obtain ⟨hp, g1, g2⟩ := word p delta e1 e2
    by_cases hw : s.fc[p] = 0#64
    · obtain ⟨w, delta', e3, e4⟩ := ih (p + 1) (delta + 64) (by omega) (g2 hw)
      exact ⟨w, delta', by rw [Cst.scanUp, ld_of_lt hp, sbind, if_pos hw]; exact e3, e4⟩
    · exact ⟨_, _, by rw [Cst.scanUp, ld_of_lt hp, sbind, if_neg hw]; rfl, g1⟩

/-- The search of `psv` arrives at the next one. -/
theorem psvSearch_ok (h : Pr L (bitAt s.bp.mem) t p q) {d : Nat} (h1 : ∀ e, e < d → bitAt s.fc (q - countTrue (bitAt s.bp.mem) q + e) = false)
    (h2 : bitAt s.fc (q - countTrue (bitAt s.bp.mem) q + d) = true) (h3 : q + d + 1 < 2 * L.length) :
    s.psvSearch p q = if d = 0 ∧ bitAt s.bp.mem (q + 1) = true then s.psvEnclose p else s.psvLast (q + d) := by
  have hz := z_bound ok.sc h
  have hfl := ok.fcl
  rw [Cst.psvSearch, ok.rank0 h, sbind]
  obtain ⟨r, hr⟩ : ∃ r, r = q - countTrue (bitAt s.bp.mem) q := ⟨_, rfl⟩
  rw [← hr] at h1 h2 hz ⊢
  have hd : r + d < L.length := by
    rcases Nat.lt_or_ge (r + d) L.length with c | c
    · exact c
    · rw [ok.fcz _ c] at h2; cases h2
  have hp : r / 64 < s.fc.length := by omega
  rw [ld_of_lt hp, sbind, shr, if_pos (by omega), sbind]
  have hbit : ∀ i, (s.fc[r / 64] >>> (r % 64)).getLsbD i = true → i < 64 - r % 64 ∧ bitAt s.fc (r + i) = true := by
    intro i hi
    rw [BitVec.getLsbD_ushiftRight] at hi
    have h64 : r % 64 + i < 64 := by
      rcases Nat.lt_or_ge (r % 64 + i) 64 with c | c
      · exact c
      · rw [BitVec.getLsbD_of_ge _ _ c] at hi; cases hi
    refine ⟨by omega, ?_⟩
    rw [show r + i = 64 * (r / 64) + (r % 64 + i) by omega, bitAt_mul_add h64 hp]; exact hi
  have hbit' : ∀ i, i < 64 - r % 64 → (s.fc[r / 64] >>> (r % 64)).getLsbD i = bitAt s.fc (r + i) := by
    intro i hi
    rw [BitVec.getLsbD_ushiftRight, show r + i = 64 * (r / 64) + (r % 64 + i) by omega, bitAt_mul_add (by omega) hp]
  by_cases hw : s.fc[r / 64] >>> (r % 64) ≠ 0#64
  · rw [if_pos hw]
    obtain ⟨l, e3, l1, l2, l3⟩ := lo_isLo hw
    obtain ⟨g1, g2⟩ := hbit l l2
    have hl : l = d := by
      rcases Nat.lt_trichotomy l d with c | c | c
      · rw [h1 l c] at g2; cases g2
      · exact c
      · have := l3 d c
        rw [hbit' d (by omega), h2] at this; cases this
    subst hl
    rw [e3, sbind, ok.at' (by omega), sbind]
    rcases Nat.eq_zero_or_pos l with c | c
    · subst c; rfl
    · rw [if_neg (by omega), if_neg (by omega)]
  · rw [if_neg hw]
    have hw : s.fc[r / 64] >>> (r % 64) = 0#64 := Classical.not_not.1 hw
    have hd64 : 63 - r % 64 < d := by
      rcases Nat.lt_or_ge (63 - r % 64) d with c | c
      · exact c
      · have := hbit' d (by omega)
        rw [hw, h2] at this; simp at this
    obtain ⟨w, delta, e3, e4⟩ := scanUp_ok h1 h2 4 (r / 64 + 1) (63 - r % 64) (by omega) hd64
    rw [e3, sbind]
    dsimp only
    have : s.psvDelta r w delta = some d := by
      unfold Cst.psvDelta
      by_cases hw2 : w ≠ 0#64
      · obtain ⟨l, l1, l2⟩ := e4 hw2
        rw [if_pos hw2, l1, sbind]
        exact congrArg some l2
      · rw [if_neg hw2, ok.fcRank (by omega), sbind]
        have hc : countTrue (bitAt s.fc) (r + d) = countTrue (bitAt s.fc) (r + 1) := by
          have h5 := countTrue_add (bitAt s.fc) (r + 1) (d - 1)
          rw [show r + 1 + (d - 1) = r + d by omega] at h5
          rw [h5, countTrue_congr (g := fun _ => false) (n := d - 1) fun i hi => by
            have := h1 (1 + i) (by omega)
            rwa [← Nat.add_assoc] at this]
          have : ∀ n, countTrue (fun _ => false) n = 0 := by
            intro n
            induction n with
            | zero => rfl
            | succ n ih => rw [countTrue, ih]; rfl
          rw [this]; rfl
        rw [ok.fcSelect (x := r + d) ⟨hd, h2, by rw [hc]⟩, sbind, sub_eq (by omega)]
        congr 1; omega
    rw [this, sbind, if_neg (by omega)]

omit ok in
/-- The search in the previous words. -/
theorem scanDown_ok {r : Nat} : ∀ t p res, p ≤ s.fc.length → 64 * p ≤ r → res + 64 * p = r + 2 → (∀ e, 64 * p ≤ e → e < r → bitAt s.fc e = false) →
    ∃ o, s.scanDown t p res = some o ∧ ∀ x, o = some x → ∃ m, x = m + 1 ∧ 1 ≤ m ∧ m ≤ r ∧ bitAt s.fc (r - m) = true ∧ ∀ e, 1 ≤ e → e < m → bitAt s.fc (r - e) = false
  | 0, p, res, _, _, _, _ => ⟨none, rfl, fun x h => by cases h⟩
  | t + 1, 0, res, _, _, _, _ => ⟨none, rfl, fun x h => by cases h⟩
  | t + 1, p + 1, res, hp, hpr, hres, hz => by
    have hp' : p < s.fc.length := by omega
    rw [Cst.scanDown, ld_of_lt hp', sbind]
    by_cases hw : s.fc[p] = 0#64
    · rw [if_pos hw]
      refine scanDown_ok t p (res + 64) (by omega) (by omega) (by omega) fun e e1 e2 => ?_
      rcases Nat.lt_or_ge e (64 * (p + 1)) with c | c
      · rw [show e = 64 * p + (e - 64 * p) by omega, bitAt_mul_add (by omega) hp', hw]; simp
      · exact hz e c e2
    · rw [if_neg hw, hi_eq, sbind]
      obtain ⟨h1, h2, h3⟩ := log2_isHi hw
      refine ⟨_, rfl, fun x hx => ?_⟩
      obtain ⟨y, hy⟩ : ∃ y, y = Nat.log2 s.fc[p].toNat := ⟨_, rfl⟩
      rw [← hy] at h1 h2 h3 hx
      injection hx with hx
      refine ⟨r - (64 * p + y), by omega, by omega, by omega, ?_, fun e e1 e2 => ?_⟩
      · rw [show r - (r - (64 * p + y)) = 64 * p + y by omega, bitAt_mul_add h1 hp']; exact h2
      · rcases Nat.lt_or_ge (r - e) (64 * (p + 1)) with c | c
        · rw [show r - e = 64 * p + (r - e - 64 * p) by omega, bitAt_mul_add (by omega) hp']
          exact h3 _ (by omega)
        · exact hz _ c (by omega)

/-- `degree` counts the zeros before the bit of the first l-index. -/
theorem degreeAt_ok (h : Pr L (bitAt s.bp.mem) t p q) {r : Nat} (hr : r = q - countTrue (bitAt s.bp.mem) q) :
    ∃ m, s.degreeAt q = some (m + 1) ∧ 1 ≤ m ∧ m ≤ r + 1 ∧ (∀ e, 1 ≤ e → e < m → bitAt s.fc (r - e) = false) ∧ (m ≤ r → bitAt s.fc (r - m) = true) := by
  have hz := z_bound ok.sc h
  have hfl := ok.fcl
  rw [← hr] at hz
  have hp : r / 64 < s.fc.length := by omega
  rw [Cst.degreeAt, ok.rank0 h, sbind, ← hr, ld_of_lt hp, sbind, loSet_eq (by omega), sbind]
  have hbit : ∀ i, (s.fc[r / 64] &&& BitVec.ofNat 64 (2 ^ (r % 64) - 1)).getLsbD i = (decide (i < r % 64) && bitAt s.fc (64 * (r / 64) + i)) := by
    intro i
    rw [BitVec.getLsbD_and, getLsbD_ones]
    by_cases c : i < r % 64
    · rw [bitAt_mul_add (by omega) hp, decide_eq_true c, decide_eq_true (show i < 64 by omega)]; simp
    · rw [decide_eq_false c]; simp
  by_cases hw : s.fc[r / 64] &&& BitVec.ofNat 64 (2 ^ (r % 64) - 1) ≠ 0#64
  · rw [if_pos hw, hi_eq, sbind]
    obtain ⟨h1, h2, h3⟩ := log2_isHi hw
    obtain ⟨y, hy⟩ : ∃ y, y = Nat.log2 (s.fc[r / 64] &&& BitVec.ofNat 64 (2 ^ (r % 64) - 1)).toNat := ⟨_, rfl⟩
    rw [← hy] at h1 h2 h3 ⊢
    rw [hbit] at h2
    simp only [Bool.and_eq_true, decide_eq_true_eq] at h2
    rw [sub_eq (by omega), sbind]
    refine ⟨r % 64 - y, rfl, by omega, by omega, fun e e1 e2 => ?_, fun _ => ?_⟩
    · have := h3 (r % 64 - e) (by omega)
      rw [hbit, decide_eq_true (by omega)] at this
      rw [show r - e = 64 * (r / 64) + (r % 64 - e) by omega]
      simpa using this
    · rw [show r - (r % 64 - y) = 64 * (r / 64) + y by omega]; exact h2.2
  · rw [if_neg hw]
    have hw : s.fc[r / 64] &&& BitVec.ofNat 64 (2 ^ (r % 64) - 1) = 0#64 := Classical.not_not.1 hw
    have hzero : ∀ e, 64 * (r / 64) ≤ e → e < r → bitAt s.fc e = false := by
      intro e e1 e2
      have := hbit (e - 64 * (r / 64))
      rw [hw, decide_eq_true (by omega), show 64 * (r / 64) + (e - 64 * (r / 64)) = e by omega] at this
      simpa using this.symm
    by_cases c : r / 64 = 0
    · rw [if_pos c]
      refine ⟨r + 1, by congr 1; omega, by omega, by omega, fun e e1 e2 => hzero _ (by omega) (by omega), fun h => by omega⟩
    · rw [if_neg c]
      obtain ⟨o, e1, e2⟩ := scanDown_ok (r := r) 4 (r / 64) (r % 64 + 2) (by omega) (by omega) (by omega) hzero
      rw [e1, sbind]
      cases o with
      | some x =>
        obtain ⟨m, m1, m2, m3, m4, m5⟩ := e2 x rfl
        exact ⟨m, by rw [← m1]; rfl, m2, by omega, m5, fun _ => m4⟩
      | none =>
        unfold Cst.degreeEnd
        dsimp only
        rw [ok.fcRank (by omega), sbind]
        by_cases g : countTrue (bitAt s.fc) r = 0
        · rw [if_pos g]
          refine ⟨r + 1, rfl, by omega, by omega, fun e e1 e2 => ?_, fun h => by omega⟩
          cases hb : bitAt s.fc (r - e) with
          | false => rfl
          | true =>
            have := countTrue_lt_of_true (f := bitAt s.fc) (show r - e < r by omega) hb
            omega
        · rw [if_neg g]
          obtain ⟨x, hx⟩ := select_exists (b := bitAt s.fc) (N := r) (n := countTrue (bitAt s.fc) r - 1) (by omega)
          have hxr := hx.1
          have hx2 := hx.2.2
          rw [show countTrue (bitAt s.fc) r - 1 + 1 = countTrue (bitAt s.fc) r by omega] at hx
          rw [ok.fcSelect (x := x) ⟨by omega, hx.2.1, hx.2.2⟩, sbind, sub_eq (by omega), sbind]
          refine ⟨r - x, rfl, by omega, by omega, fun e e1 e2 => ?_, fun _ => by rw [show r - (r - x) = x by omega]; exact hx.2.1⟩
          cases hb : bitAt s.fc (r - e) with
          | false => rfl
          | true =>
            have g1 := countTrue_lt_of_true (f := bitAt s.fc) (show r - e < r by omega) hb
            have g2 := countTrue_lt_of_true (f := bitAt s.fc) (show x < r - e by omega) hx.2.1
            omega

/-! ### psv, rmq -/

/-- The previous smaller value; the first position if there is none. -/
theorem psv_ok (h : Pr L (bitAt s.bp.mem) t p q) : ∃ k pk qk, s.psv p q = some (k, pk, qk) ∧ Pr L (bitAt s.bp.mem) k pk qk ∧ (t = 0 → k = 0) ∧
    (0 < t → k < t ∧ (k = 0 ∨ V L k < V L t) ∧ ∀ x, k < x → x < t → V L t ≤ V L x) := by
  unfold Cst.psv
  have hsig := sigma_test ok.sc ok.n0 ok.v0 ok.sig h
  rw [ok.bpn]
  by_cases c : q + s.sigma ≥ 2 * L.length
  · rw [if_pos c, sub_eq (by have := ok.n0; omega), sbind]
    exact ⟨0, 0, _, rfl, ok.root_pr, fun _ => rfl, fun h0 => ⟨h0, Or.inl rfl, fun x _ _ => by have := hsig.1 c; omega⟩⟩
  · rw [if_neg c]
    have hv : V L t ≠ 0 := fun e => c (hsig.2 e)
    have ht : 0 < t := by
      rcases Nat.eq_zero_or_pos t with e | e
      · rw [e] at hv; exact absurd ok.v0 hv
      · exact e
    have hq := pr_inside ok.sc ok.n0 ok.v0 h ht
    -- the pair around
    have enc : ∀ {t' p' q'}, Pr L (bitAt s.bp.mem) t' p' q' → 0 < t' → ∃ k pk qk, s.psvEnclose p' = some (k, pk, qk) ∧ Pr L (bitAt s.bp.mem) k pk qk ∧ k < t' ∧ p' < qk ∧ V L k ≤ V L t' ∧
        ∀ x, k < x → x < t' → V L t' < V L x := by
      intro t' p' q' h' ht'
      obtain ⟨o, ho⟩ := encloses_exists ok.sc h' ok.root_pr ht' (by have := h'.lt; have := pr_inside ok.sc ok.n0 ok.v0 h' ht'; omega)
      obtain ⟨k, qk, k1, k2, k3, k4, k5⟩ := pr_encloses ok.sc h' ho
      exact ⟨k, o, qk, by rw [Cst.psvEnclose, ok.enclose h' ho, sbind, ok.findClose k1, sbind, Cst.psvRet, ok.index k1, sbind]; rfl, k1, k2, k3, k4, k5⟩
    rw [ok.at' (by omega), sbind]
    cases hb : bitAt s.bp.mem (q + 1) with
    | true =>
      rw [if_pos rfl]
      obtain ⟨k, pk, qk, k1, k2, k3, k4, k5, k6⟩ := enc h ht
      refine ⟨k, pk, qk, k1, k2, fun e => by omega, fun _ => ⟨k3, Or.inr ?_, fun x x1 x2 => by have := k6 x x1 x2; omega⟩⟩
      -- the next value is smaller and inside
      obtain ⟨⟨q', g1⟩, g2⟩ := close_open ok.sc h (by omega) hb
      have hn := pr_nsv ok.sc h
      rcases pr_nest ok.sc k2 g1 (by omega) with ⟨c1, _⟩ | ⟨_, _, c1⟩
      · rcases pr_nest ok.sc k2 h k3 with ⟨c2, _⟩ | ⟨_, c2, _⟩
        · omega
        · omega
      · have := c1 _ (by omega) (Nat.le_refl _); omega
    | false =>
      rw [if_neg (by decide)]
      have hzb := z_bound ok.sc h
      obtain ⟨d, d1, d2, d3⟩ := run_zero (f := bitAt s.fc) (r := q - countTrue (bitAt s.bp.mem) q) (n := L.length) ⟨L.length - 1, by omega, by omega, fc_root ok.sc ok.fch ok.n0 ok.v0⟩
      obtain ⟨x, px, x1, x2, x3, x4, x5⟩ := run_up ok.sc ok.fch h d d1
      have hx0 : 0 < x := by
        rcases Nat.eq_zero_or_pos x with e | e
        · rw [e, ok.v0] at x4; omega
        · exact e
      have hqd := pr_inside ok.sc ok.n0 ok.v0 x1 hx0
      have hone : bitAt s.fc (q + d - countTrue (bitAt s.bp.mem) (q + d)) = true := by rw [x2]; exact d2
      have fin : ∀ {k}, k < x → V L k ≤ V L x → (∀ y, k < y → y < x → V L x < V L y) → k < t ∧ (k = 0 ∨ V L k < V L t) ∧ ∀ y, k < y → y < t → V L t ≤ V L y := by
        intro k k1 k2 k3
        have := fc_one ok.fch x1 hone k1 k2 k3
        refine ⟨by omega, Or.inr (by omega), fun y y1 y2 => ?_⟩
        rcases Nat.lt_or_ge y x with c | c
        · have := k3 y y1 c; omega
        · exact x5 y c (by omega)
      rw [psvSearch_ok ok h d1 d2 (by omega)]
      by_cases cd : d = 0 ∧ bitAt s.bp.mem (q + 1) = true
      · rw [hb] at cd; exact absurd cd.2 (by decide)
      · rw [if_neg cd, Cst.psvLast, ok.at' (by omega), sbind]
        cases hb2 : bitAt s.bp.mem (q + d + 1) with
        | false =>
          rw [if_pos (by decide)]
          obtain ⟨k, pk, hk⟩ := pr_of_close ok.sc (by omega) hb2
          obtain ⟨k1, k2, k3, k4⟩ := close_close ok.sc x1 hk
          exact ⟨k, pk, _, by rw [ok.findOpen hk, sbind, Cst.psvRet, ok.index hk, sbind]; rfl, hk, fun e => by omega, fun _ => fin k1 k3 k4⟩
        | true =>
          rw [if_neg (by decide), ok.findOpen x1, sbind]
          obtain ⟨k, pk, qk, k1, k2, k3, k4, k5, k6⟩ := enc x1 hx0
          exact ⟨k, pk, qk, k1, k2, fun e => by omega, fun _ => fin k3 k5 k6⟩

/-- The leftmost minimum. -/
theorem rmq_ok {l r : Nat} (hlr : l ≤ r) (hr : r < L.length) : ∃ m, s.rmq l r = some m ∧ l ≤ m ∧ m ≤ r ∧ (∀ k, l ≤ k → k ≤ r → V L m ≤ V L k) ∧ ∀ k, l ≤ k → k < m → V L m < V L k := by
  obtain ⟨i, c, h1⟩ := pr_exists ok.sc (t := l) (by omega)
  obtain ⟨j, c', h2⟩ := pr_exists ok.sc hr
  rw [Cst.rmq, ok.select h1, sbind, ok.select h2, sbind, ok.findClose h1, sbind]
  by_cases hj : j < c
  · rw [if_pos hj]
    refine ⟨l, rfl, Nat.le_refl _, hlr, fun k k1 k2 => ?_, fun k k1 k2 => by omega⟩
    rcases Nat.eq_or_lt_of_le k1 with e | e
    · rw [e]
    · exact (pr_around ok.sc h1 h2 (by omega)).1 hj k e k2
  · rw [if_neg hj]
    have hlr' : l < r := by
      rcases Nat.eq_or_lt_of_le hlr with e | e
      · subst e
        have := (pr_unique_idx h1 h2).1
        have := h1.lt; omega
      · exact e
    have hij := (pr_lt_iff h1 h2).1 hlr'
    have hcj : c < j := by rcases match_nest h1.2.1 h2.2.1 hij with c1 | c1 <;> have := h2.lt <;> omega
    have arnd : ∀ {x px qx}, Pr L (bitAt s.bp.mem) x px qx → x < r → (Around (bitAt s.bp.mem) px j ↔ j < qx) := by
      intro x px qx hx hxr
      have hp := (pr_lt_iff hx h2).1 hxr
      constructor
      · rintro ⟨_, m, m', g1, g2, g3⟩
        rw [match_right_unique hx.2.1 g1]
        have := g2.2.2.1; omega
      · intro hj
        refine ⟨hp, qx, c', hx.2.1, h2.2.1, ?_⟩
        rcases match_nest hx.2.1 h2.2.1 hp with c1 | c1 <;> omega
    -- everything in front of the result is closed before it
    have fin : ∀ {t pt qt}, Pr L (bitAt s.bp.mem) t pt qt → l < t → t ≤ r → c < pt → (t = r ∨ j < qt) → (∀ a, c < a → a < pt → ¬ Around (bitAt s.bp.mem) a j) →
        l ≤ t ∧ t ≤ r ∧ (∀ k, l ≤ k → k ≤ r → V L t ≤ V L k) ∧ ∀ k, l ≤ k → k < t → V L t < V L k := by
      intro t pt qt ht h3 h4 h5 h6 h7
      have g1 : ∀ k, l ≤ k → k < t → V L t < V L k := by
        refine before_gt ok.sc ht fun x px qx x1 x2 hx => ?_
        have hpt := (pr_lt_iff hx ht).1 x2
        rcases Nat.lt_or_ge px c with c1 | c1
        · have : qx ≤ c := by
            rcases Nat.eq_or_lt_of_le x1 with e | e
            · subst e
              have := (pr_unique_idx h1 hx).2; omega
            · have := (pr_lt_iff h1 hx).1 e
              rcases match_nest h1.2.1 hx.2.1 this with c2 | c2 <;> omega
          omega
        · have hne : px ≠ c := by intro e; rw [e] at hx; have := hx.opn; rw [h1.cls] at this; cases this
          have := h7 px (by omega) hpt
          rw [arnd hx (by omega)] at this
          rcases match_nest hx.2.1 ht.2.1 hpt with c2 | c2
          · exact c2
          · rcases h6 with e | e
            · subst e
              have := (pr_unique_idx ht h2).1
              have := ht.lt; omega
            · omega
      refine ⟨by omega, h4, fun k k1 k2 => ?_, g1⟩
      rcases Nat.lt_trichotomy k t with c1 | c1 | c1
      · have := g1 k k1 c1; omega
      · rw [c1]
      · rcases h6 with e | e
        · omega
        · exact (pr_around ok.sc ht h2 (by omega)).1 e k c1 k2
    obtain ⟨k, e3, h3⟩ := C59_rr_enclose ok.hl ok.hb ok.pS ok.bS ok.h8 ok.hD ok.new ok.sc.bal h1.2.1 h1.2.2 h2.1.1 h2.opn
    rw [e3, sbind, ok.bpn]
    rcases h3 with ⟨h4, h5, h6⟩ | ⟨h4, h5⟩
    · have hkj := h5.1
      have hkb : bitAt s.bp.mem k = true := by obtain ⟨_, _, _, h7, _⟩ := h5; exact h7.1
      have hjn := h2.1.1
      obtain ⟨qk, hk⟩ := pr_of_open ok.sc (p := k) (by omega) hkb
      have hkr := (pr_lt_iff hk h2).2 hkj
      have hlk := (pr_lt_iff h1 hk).2 (by have := h1.lt; omega)
      rw [if_neg (by omega), ok.index hk]
      exact ⟨_, rfl, fin hk hlk (by omega) h4 (Or.inr ((arnd hk hkr).1 h5)) h6⟩
    · rw [if_pos h4]
      exact ⟨r, rfl, fin h2 hlr' (Nat.le_refl _) hcj (Or.inl rfl) fun a a1 _ => h5 a a1⟩

/-! ### The first l-index and the children -/

end

end Sdsl.CstSct3
