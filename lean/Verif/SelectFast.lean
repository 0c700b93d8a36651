/-
  Lemmas on `select_support_mcl::init_fast`.
-/
import Verif.SelectBuild

namespace Sdsl.Select
open Bits Spec Rank IntVec Util

theorem R_succ {pat : Pat} {m : Mem} (i : Nat) : R pat m (i + 1) = R pat m i + (occ pat m i).toNat := rfl

theorem lastLoop_ok {pat : Pat} {v : IntVec} {base : Nat} (k : Nat) : ∀ (ii j last : Nat), (ii + k + 63) / 64 ≤ v.data.length ∨ k = 0 →
    occ pat v.data last = true → last < ii → R pat v.data (last + 1) = R pat v.data ii → R pat v.data last = base + j →
    ∃ r, lastLoop pat v ii k j last = some r ∧ last ≤ r ∧ (r = last ∨ r < ii + k) ∧ occ pat v.data r = true ∧
      (base + 4096 ≤ R pat v.data r ∨ R pat v.data (r + 1) = R pat v.data (ii + k)) := by
  induction k with
  | zero => intro ii j last _ h2 h3 h4 h5; exact ⟨last, rfl, by omega, by omega, h2, Or.inr h4⟩
  | succ k ih =>
    intro ii j last h1 h2 h3 h4 h5
    simp only [lastLoop]
    unfold sbSize
    by_cases hj : j < 4096
    · rw [if_pos hj, foundArg_eq (by omega), sbind]
      have hs := R_succ (pat := pat) (m := v.data) ii
      cases ho : occ pat v.data ii
      · rw [if_neg (by simp)]
        rw [ho] at hs
        obtain ⟨r, e, a1, a2, a3, a4⟩ := ih (ii + 1) j last (by omega) h2 (by omega) (by rw [hs, h4]; rfl) h5
        exact ⟨r, e, a1, by omega, a3, by rw [show ii + (k + 1) = ii + 1 + k by omega]; exact a4⟩
      · rw [if_pos rfl]
        rw [ho] at hs
        have hl := R_succ (pat := pat) (m := v.data) last
        rw [h2] at hl
        simp only [Bool.toNat_true] at hl hs
        obtain ⟨r, e, a1, a2, a3, a4⟩ := ih (ii + 1) (j + 1) ii (by omega) ho (by omega) rfl (by omega)
        exact ⟨r, e, by omega, by omega, a3, by rw [show ii + (k + 1) = ii + 1 + k by omega]; exact a4⟩
    · rw [if_neg hj]
      exact ⟨last, rfl, by omega, by omega, h2, Or.inl (by omega)⟩

theorem longLoop_ok {pat : Pat} {v : IntVec} {lim : Option Nat} {base : Nat} (n : Nat) : ∀ (j k : Nat) (a : Arr),
    (j + n + 63) / 64 ≤ v.data.length ∨ n = 0 → a.xs.length = 4096 →
    (lim = some 4096 ∨ (lim = none ∧ R pat v.data (j + n) ≤ base + 4096)) → (∀ p, p < j + n → p < 2 ^ a.width) →
    R pat v.data j = base + k → (∀ e, e < k → ∃ p, a.xs[e]? = some p ∧ At pat v.data (base + e) p) →
    ∃ b, longLoop pat v lim j n k a = some b ∧ b.xs.length = 4096 ∧
      ∀ e, e < 4096 → base + e < R pat v.data (j + n) → ∃ p, b.xs[e]? = some p ∧ At pat v.data (base + e) p := by
  induction n with
  | zero => intro j k a _ hl _ _ hk ha; exact ⟨a, rfl, hl, fun e _ he => ha e (by rw [Nat.add_zero] at he; omega)⟩
  | succ n ih =>
    intro j k a h1 hl hlim hw hk ha
    simp only [longLoop]
    have hs := R_succ (pat := pat) (m := v.data) j
    have hmono : R pat v.data (j + 1) ≤ R pat v.data (j + (n + 1)) := countTrue_mono _ (by omega)
    have hsum : j + (n + 1) = j + 1 + n := by omega
    by_cases hc : lim.all (k < ·) = true
    · rw [if_pos hc, foundArg_eq (by omega), sbind]
      cases ho : occ pat v.data j
      · rw [if_neg (by simp)]
        rw [ho] at hs
        simp only [Bool.toNat_false, Nat.add_zero] at hs
        rw [hsum] at hlim hw ⊢
        exact ih (j + 1) k a (by omega) hl hlim hw (by omega) ha
      · rw [if_pos rfl]
        rw [ho] at hs
        simp only [Bool.toNat_true] at hs
        have hk4 : k < 4096 := by
          rcases hlim with h | ⟨_, h⟩
          · rw [h] at hc; simpa using hc
          · omega
        rw [Arr.set_of_lt (by omega), sbind]
        have hjw := hw j (by omega)
        rw [hsum] at hlim hw ⊢
        refine ih (j + 1) (k + 1) _ (by omega) (by simp [hl]) hlim hw (by omega) ?_
        intro e he
        simp only
        by_cases h2 : e = k
        · subst h2
          rw [List.getElem?_set_self (by omega), Nat.mod_eq_of_lt hjw]
          exact ⟨j, rfl, ho, hk⟩
        · rw [List.getElem?_set_ne (by omega)]
          exact ha e (by omega)
    · rw [if_neg hc]
      refine ⟨a, rfl, hl, fun e he _ => ha e ?_⟩
      rcases hlim with h | ⟨h, _⟩
      · rw [h] at hc
        simp at hc; omega
      · rw [h] at hc; simp at hc

theorem fastFlush_ok {pat : Pat} {v : IntVec} {N sb lg logn4 : Nat} {s : BSt} (hv : (v.size + 63) / 64 ≤ v.data.length)
    (hcap : v.capWords * 64 < 2 ^ 64) (hlg : lg = Nat.log2 (v.capWords * 64) + 1) (hN : R pat v.data v.size = N)
    (h : Inv pat v.data N sb (sb + 1) lg s) (hs : s.sbCnt < sb)
    (hpos : ∀ o, o < 64 → ∃ p, s.pos[64 * o]? = some p ∧ p < v.capWords * 64 ∧ At pat v.data (4096 * s.sbCnt + 64 * o) p) :
    ∃ s', fastFlush pat v logn4 sb s = some s' ∧ s'.cnt = s.cnt ∧ s'.sbCnt = s.sbCnt + 1 ∧ Inv pat v.data N sb (sb + 1) lg s' := by
  have hcapW : v.capWords ≤ v.data.length := hv
  have hsz : v.size ≤ v.capWords * 64 := by unfold IntVec.capWords; omega
  obtain ⟨p0, e0, hp0c, hp0⟩ := hpos 0 (by omega)
  obtain ⟨pl, el, hplc, hpl⟩ := hpos 63 (by omega)
  have hle := hp0.le hpl (by omega)
  unfold fastFlush
  obtain ⟨sup, esup⟩ : ∃ sup, s.sup.set s.sbCnt p0 = some sup := ⟨_, Arr.set_of_lt (by rw [h.supLen]; exact hs)⟩
  obtain ⟨last, elast, hl1, hl2, hl3, hl4⟩ := lastLoop_ok (pat := pat) (v := v) (base := 4096 * s.sbCnt) (v.size - (pl + 1)) (pl + 1) (4096 - 64) pl
    (by omega) hpl.1 (by omega) rfl (by rw [hpl.2])
  unfold sbSize
  rw [show 64 * 0 = 0 from rfl] at e0
  rw [show 64 * 63 = 4096 - 64 from rfl] at el
  rw [e0, sbind, el, sbind, esup, sbind, elast, sbind]
  dsimp only
  have hlastc : last < v.capWords * 64 := by omega
  have hp0w : p0 < 2 ^ lg := by
    have := (hiWidth hcap).2.1
    rw [hlg]; omega
  by_cases hd : last - p0 > logn4
  · rw [if_pos hd]
    obtain ⟨w1, w2, w3⟩ := hiWidth (x := last) (by omega)
    rw [w1, sbind]
    obtain ⟨b, e, bl, hb⟩ := longLoop_ok (pat := pat) (v := v) (lim := some 4096) (base := 4096 * s.sbCnt) (last + 1 - p0) p0 0
      (Arr.new 4096 0 (Nat.log2 last + 1)) (by omega) (Arr.new_xs _ _) (Or.inl rfl)
      (by
        intro p hp
        show p < 2 ^ clampWidth _
        rw [w3]; omega)
      hp0.2 (by omega)
    rw [e, sbind]
    obtain ⟨l, el2, hinv⟩ := h.long (by omega) hs (a := b) ⟨by intro hE; rw [hE] at bl; simp at bl, by
        intro o h1 h2
        refine hb o h1 ?_
        rw [show p0 + (last + 1 - p0) = last + 1 by omega]
        rcases hl4 with h5 | h5
        · have : R pat v.data last ≤ R pat v.data (last + 1) := countTrue_mono _ (by omega)
          omega
        · rw [h5]
          have : R pat v.data v.size ≤ R pat v.data (pl + 1 + (v.size - (pl + 1))) := countTrue_mono _ (by omega)
          omega⟩ esup
    rw [el2, sbind]
    exact ⟨_, rfl, rfl, rfl, hinv⟩
  · rw [if_neg hd]
    obtain ⟨w1, w2, w3⟩ := hiWidth (x := last - p0) (by omega)
    rw [w1, sbind]
    obtain ⟨b, e, bl, hb, _⟩ := fillArr_eq (f := fun j => (s.pos[64 * j]?).map (· - p0)) (g := fun j => vals s.pos (64 * j) - p0)
      64 0 (Arr.new 64 0 (Nat.log2 (last - p0) + 1))
      (by rw [Arr.new_xs]; omega) (by
        intro i _ h2
        obtain ⟨p, ep, _, hp⟩ := hpos i (by omega)
        rw [vals_eq ep, ep]
        refine ⟨rfl, ?_⟩
        have := hp.le hpl (by omega)
        show p - p0 < 2 ^ (clampWidth _)
        rw [w3]; omega)
    rw [e, sbind]
    obtain ⟨l, el2, hinv⟩ := h.short (by omega) hs (a := b) (by
        intro o h1 h2
        obtain ⟨p, ep, _, hp⟩ := hpos o h1
        have := hp0.le hp (by omega)
        refine ⟨p - p0, by rw [hb o (by omega) (by omega), vals_eq ep], ?_⟩
        rw [show p0 + (p - p0) = p by omega]; exact hp) esup hp0w
    rw [el2, sbind]
    exact ⟨_, rfl, rfl, rfl, hinv⟩

/-- Invariant of the loop of `init_fast`: `q` samples have been taken. -/
structure FInv (pat : Pat) (v : IntVec) (N sb lg w q : Nat) (s : BSt) : Prop where
  inv : Inv pat v.data N sb (sb + 1) lg s
  cnt : s.cnt = R pat v.data (64 * w)
  le : R pat v.data (64 * w) ≤ 64 * q
  sbc : s.sbCnt = q / 64
  pos : ∀ o, o < q % 64 → ∃ p, s.pos[64 * o]? = some p ∧ p < v.capWords * 64 ∧ At pat v.data (4096 * (q / 64) + 64 * o) p

theorem fastLoop_ok {pat : Pat} (hpat : pat = .p0 ∨ pat = .p1) {v : IntVec} {N sb lg logn4 : Nat} (hv : (v.size + 63) / 64 ≤ v.data.length)
    (hcap : v.capWords * 64 < 2 ^ 64) (hlg : lg = Nat.log2 (v.capWords * 64) + 1) (hN : R pat v.data v.size = N)
    (hsb : sb = (N + 4096 - 1) / 4096) (n : Nat) : ∀ (w q : Nat) (c : Word) (s : BSt), w + n = v.capWords → FInv pat v N sb lg w q s →
    ∃ s' q', fastLoop pat v logn4 sb w n c (64 * (q % 64) + 1) (64 * q + 1) s = some (s', 64 * (q' % 64) + 1) ∧
      FInv pat v N sb lg v.capWords q' s' := by
  have hcapW : v.capWords ≤ v.data.length := hv
  have hcok : ∀ w c, CarryOk pat v.data w c := fun w c => hpat.elim Or.inl (fun h => Or.inr (Or.inl h))
  induction n with
  | zero =>
    intro w q c s hw h
    rw [Nat.add_zero] at hw
    subst hw
    exact ⟨s, q, rfl, h⟩
  | succ n ih =>
    intro w q c s hw h
    have hwl : w < v.data.length := by omega
    simp only [fastLoop]
    rw [ld_of_lt hwl, sbind]
    have hR := argsInWord_R pat hwl (hcok w c)
    have hc := h.cnt
    have hle := h.le
    generalize hargs : (argsInWord pat v.data[w] c).1.toNat = ar at *
    have har : ar ≤ 64 := by
      have := (R_le pat v.data (64 * w) 64).2
      rw [show 64 * w + 64 = 64 * (w + 1) by omega] at this
      omega
    by_cases hnew : s.cnt + ar ≥ 64 * q + 1
    · rw [if_pos hnew, ithWord_eq]
      -- the sampled occurrence
      have hx : ∀ j, j < 64 → (patWord pat v.data[w] (argsInWord pat v.data[w] c).2).getLsbD j =
          ((fun j => occ pat v.data (64 * w + j)) j && decide (0 ≤ j)) := by
        intro j hj; rw [getLsbD_patWord pat hwl hj (hcok _ _)]; simp
      have hcnt := popcount_tail (by omega) hx
      have hR1 := R_split pat v.data w 64
      rw [show 64 * w + 64 = 64 * (w + 1) by omega] at hR1
      have hz : countTrue (fun j => occ pat v.data (64 * w + j)) 0 = 0 := rfl
      obtain ⟨p, e, hp1, hp2, _, hp4⟩ := sel_tail (i := 64 * q + 1 - s.cnt) (by omega) (by omega) hx
      rw [e, sbind]
      have hR2 := R_split pat v.data w p
      have hAt : At pat v.data (64 * q) (64 * w + p) := ⟨hp2, by omega⟩
      have hposl := h.inv.posLen
      rw [setList_of_lt (by omega), sbind]
      unfold sbSize
      have hinv : Inv pat v.data N sb (sb + 1) lg { s with pos := s.pos.set (64 * (q % 64) + 1 - 1) (w * 64 + p), cnt := s.cnt + ar } :=
        ⟨h.inv.sbLe, by simp [hposl], h.inv.supLen, h.inv.supW, h.inv.miniLen, h.inv.longs, h.inv.blocks⟩
      have hpos : ∀ o, o ≤ q % 64 → ∃ p', (s.pos.set (64 * (q % 64) + 1 - 1) (w * 64 + p))[64 * o]? = some p' ∧ p' < v.capWords * 64 ∧
          At pat v.data (4096 * (q / 64) + 64 * o) p' := by
        intro o ho
        by_cases h1 : o = q % 64
        · refine ⟨w * 64 + p, ?_, by omega, ?_⟩
          · rw [show 64 * o = 64 * (q % 64) + 1 - 1 by omega]
            exact List.getElem?_set_self (by omega)
          · rw [show 4096 * (q / 64) + 64 * o = 64 * q by omega, Nat.mul_comm w 64]; exact hAt
        · rw [List.getElem?_set_ne (by omega)]
          exact h.pos o (by omega)
      by_cases hfl : 64 * (q % 64) + 1 + 64 = 4096 + 1
      · rw [if_pos hfl]
        have hsbc := h.sbc
        have hNle : R pat v.data (64 * (w + 1)) ≤ N + 63 := by
          have h1 : R pat v.data (64 * (w + 1)) ≤ R pat v.data (v.size + 63) := countTrue_mono _ (by unfold IntVec.capWords at hw; omega)
          have h2 := (R_le pat v.data v.size 63).2
          omega
        obtain ⟨s', e', a1, a2, a3⟩ := fastFlush_ok (logn4 := logn4) hv hcap hlg hN hinv (by simp only; omega)
          (by simp only; rw [hsbc]; intro o ho; exact hpos o (by omega))
        simp only at a1 a2
        rw [e', sbind]
        have := ih (w + 1) (q + 1) (argsInWord pat v.data[w] c).2 s' (by omega)
          ⟨a3, by omega, by omega, by omega, by intro o ho; omega⟩
        rw [show (q + 1) % 64 = 0 by omega] at this
        exact this
      · rw [if_neg hfl]
        have := ih (w + 1) (q + 1) (argsInWord pat v.data[w] c).2
          { s with pos := s.pos.set (64 * (q % 64) + 1 - 1) (w * 64 + p), cnt := s.cnt + ar } (by omega)
          ⟨hinv, by simp only; omega, by omega, by have := h.sbc; simp only; omega, by
            simp only; intro o ho
            rw [show (q + 1) / 64 = q / 64 by omega]
            exact hpos o (by omega)⟩
        rw [show 64 * ((q + 1) % 64) + 1 = 64 * (q % 64) + 1 + 64 by omega] at this
        exact this
    · rw [if_neg hnew]
      exact ih (w + 1) q _ _ (by omega) ⟨⟨h.inv.sbLe, h.inv.posLen, h.inv.supLen, h.inv.supW, h.inv.miniLen, h.inv.longs, h.inv.blocks⟩,
        by simp only; omega, by omega, h.sbc, h.pos⟩

theorem initFast_ok {pat : Pat} (hpat : pat = .p0 ∨ pat = .p1) {junk : Nat → Nat} {v : IntVec} (hv : (v.size + 63) / 64 ≤ v.data.length)
    (hcap : v.capWords * 64 < 2 ^ 64) :
    ∃ s, initFast pat junk v = some s ∧ s.argCnt = R pat v.data v.size ∧
      ∀ t, 4096 * t < R pat v.data v.size → Blk pat v.data (R pat v.data v.size) s.sup s.long s.mini t := by
  unfold initFast
  rw [logn_eq hcap, sbind, argCnt_eq hv, sbind]
  have hcapW : v.capWords ≤ v.data.length := hv
  have hsz : v.size ≤ v.capWords * 64 := by unfold IntVec.capWords; omega
  generalize hN : R pat v.data v.size = N
  by_cases h0 : N = 0
  · rw [if_pos h0]
    exact ⟨_, rfl, h0.symm, by omega⟩
  · rw [if_neg h0]
    dsimp only
    unfold sbSize
    generalize hsb : (N + 4096 - 1) / 4096 = sb
    obtain ⟨s, q, e, hs⟩ := fastLoop_ok (logn4 := (Nat.log2 (v.capWords * 64) + 1) * (Nat.log2 (v.capWords * 64) + 1) * ((Nat.log2 (v.capWords * 64) + 1) * (Nat.log2 (v.capWords * 64) + 1)))
      hpat hv hcap rfl hN hsb.symm v.capWords 0 0 0#64
      ⟨(List.range 4096).map junk, 0, 0, Arr.new sb 0 (Nat.log2 (v.capWords * 64) + 1), none, List.replicate sb Arr.empty⟩
      (by omega)
      ⟨⟨by simp, by simp, by simp [Arr.new_xs], (hiWidth hcap).2.2, by simp, by simp, by simp⟩, rfl, by simp [R, countTrue], rfl, by simp⟩
    rw [show 64 * (0 % 64) + 1 = 1 from rfl] at e
    rw [e, sbind]
    have hNR : N ≤ R pat v.data (64 * v.capWords) := by rw [← hN]; exact countTrue_mono _ (by omega)
    have hle := hs.le
    have hsbc := hs.sbc
    have hsbl := hs.inv.sbLe
    by_cases hl : 64 * (q % 64) + 1 > 1
    · rw [if_pos hl]
      obtain ⟨p0, e0, hp0c, hp0⟩ := hs.pos 0 (by omega)
      rw [show 64 * 0 = 0 from rfl] at e0
      rw [Nat.mul_zero, Nat.add_zero] at hp0
      have hvs : v.size ≠ 0 := by
        intro h; rw [h] at hN
        exact h0 hN.symm
      obtain ⟨w1, w2, w3⟩ := hiWidth (x := v.size - 1) (by omega)
      rw [e0, sbind, w1, sbind]
      -- the last superblock
      have hcov : ∃ b, longLoop pat v none p0 (v.size - p0) 0 (Arr.new 4096 0 (Nat.log2 (v.size - 1) + 1)) = some b ∧ b.xs.length = 4096 ∧
          ∀ e, e < 4096 → 4096 * (q / 64) + e < N → ∃ p, b.xs[e]? = some p ∧ At pat v.data (4096 * (q / 64) + e) p := by
        by_cases hps : p0 ≤ v.size
        · have hE : p0 + (v.size - p0) = v.size := by omega
          obtain ⟨b, eb, hb1, hb2⟩ := longLoop_ok (pat := pat) (v := v) (lim := none) (base := 4096 * (q / 64)) (v.size - p0) p0 0
            (Arr.new 4096 0 (Nat.log2 (v.size - 1) + 1)) (by omega) (Arr.new_xs _ _)
            (Or.inr ⟨rfl, by rw [hE]; omega⟩)
            (by
              intro p hp
              show p < 2 ^ clampWidth _
              rw [w3]; omega)
            hp0.2 (by omega)
          rw [hE, hN] at hb2
          exact ⟨b, eb, hb1, hb2⟩
        · rw [show v.size - p0 = 0 by omega]
          refine ⟨_, rfl, Arr.new_xs _ _, fun e _ he => ?_⟩
          have : R pat v.data v.size ≤ R pat v.data p0 := countTrue_mono _ (by omega)
          rw [hp0.2] at this
          omega
      obtain ⟨b, eb, hb1, hb2⟩ := hcov
      rw [eb, sbind]
      have hlong : (s.long.getD (List.replicate (sb + 1) Arr.empty)).length = sb + 1 := by
        cases hlong : s.long with
        | none => simp
        | some l => exact (hs.inv.longs l hlong).1
      rw [setList_of_lt (by rw [hlong]; show s.sbCnt < sb + 1; omega), sbind]
      refine ⟨_, rfl, rfl, fun t ht => ?_⟩
      simp only
      by_cases h1 : t < s.sbCnt
      · rcases hs.inv.blocks t h1 with ⟨l, b, e1, e2, hb⟩ | ⟨hemp, p, b, e1, e2, hb⟩
        · left
          refine ⟨_, b, rfl, ?_, hb⟩
          rw [List.getElem?_set_ne (by omega), e1]
          exact e2
        · right
          refine ⟨?_, p, b, e1, e2, hb⟩
          intro l' e
          have e := Option.some.inj e
          subst e
          rw [List.getElem?_set_ne (by omega)]
          cases hlong : s.long with
          | none =>
            have : t < sb + 1 := by omega
            exact ⟨Arr.empty, by simp [this], rfl⟩
          | some l => exact hemp l hlong
      · have ht' : t = s.sbCnt := by omega
        left
        refine ⟨_, b, rfl, by rw [ht']; exact List.getElem?_set_self (by rw [hlong]; show s.sbCnt < sb + 1; omega), by intro hE; rw [hE] at hb1; simp at hb1, ?_⟩
        rw [ht', hsbc]
        exact hb2
    · rw [if_neg hl]
      refine ⟨_, rfl, rfl, fun t ht => ?_⟩
      exact hs.inv.blocks t (by omega)

theorem mclBuild_ok {pat : Pat} {junk : Nat → Nat} {v : IntVec} (hv : (v.size + 63) / 64 ≤ v.data.length)
    (hcap : v.capWords * 64 < 2 ^ 64) :
    ∃ s, mclBuild pat junk v = some s ∧ s.argCnt = R pat v.data v.size ∧
      ∀ t, 4096 * t < R pat v.data v.size → Blk pat v.data (R pat v.data v.size) s.sup s.long s.mini t := by
  unfold mclBuild
  by_cases h : pat.bits.length > 1 ∨ v.size < 100000
  · rw [if_pos h]; exact initSlow_ok hv hcap
  · rw [if_neg h]
    refine initFast_ok ?_ hv hcap
    cases pat <;> simp [Pat.bits] at h ⊢

end Sdsl.Select
