/-
  Lemmas on the construction of `select_support_mcl`.
-/
import Verif.SelectMcl

namespace Sdsl.Select
open Bits Spec Rank IntVec Util

theorem hiWidth {x : Nat} (h : x < 2 ^ 64) : hi (BitVec.ofNat 64 x) = some (Nat.log2 x) ∧ x < 2 ^ (Nat.log2 x + 1) ∧
    clampWidth (Nat.log2 x + 1) = Nat.log2 x + 1 := by
  refine ⟨?_, Nat.lt_log2_self, ?_⟩
  · rw [hi_eq, BitVec.toNat_ofNat, Nat.mod_eq_of_lt h]
  · unfold clampWidth
    rw [if_pos]
    refine ⟨by omega, ?_⟩
    by_cases h0 : x = 0
    · subst h0; simp
    · have := (Nat.log2_lt h0).2 h
      omega

theorem fillArr_eq {f : Nat → Option Nat} {g : Nat → Nat} (k : Nat) : ∀ (j : Nat) (a : Arr), j + k ≤ a.xs.length →
    (∀ i, j ≤ i → i < j + k → f i = some (g i) ∧ g i < 2 ^ a.width) →
    ∃ b, fillArr f j k a = some b ∧ b.xs.length = a.xs.length ∧ (∀ i, j ≤ i → i < j + k → b.xs[i]? = some (g i)) ∧
      ∀ i, i < j → b.xs[i]? = a.xs[i]? := by
  induction k with
  | zero => intro j a h hf; exact ⟨a, rfl, rfl, by omega, fun _ _ => rfl⟩
  | succ k ih =>
    intro j a h hf
    obtain ⟨h1, h2⟩ := hf j (by omega) (by omega)
    simp only [fillArr]
    rw [h1, sbind, Arr.set_of_lt (by omega), sbind]
    obtain ⟨b, e, hl, hb, hb'⟩ := ih (j + 1) { a with xs := a.xs.set j (g j % 2 ^ a.width) } (by simp; omega)
      (fun i h1 h2 => hf i (by omega) (by omega))
    refine ⟨b, e, by simpa using hl, fun i h3 h4 => ?_, fun i h3 => ?_⟩
    · by_cases h5 : i = j
      · subst h5
        rw [hb' i (by omega)]
        simp only
        rw [List.getElem?_set_self (by omega), Nat.mod_eq_of_lt h2]
      · exact hb i (by omega) (by omega)
    · rw [hb' i (by omega)]
      simp only
      rw [List.getElem?_set_ne (by omega)]

/-! ### Invariant of the construction -/

structure Inv (pat : Pat) (m : Mem) (N sb L lg : Nat) (s : BSt) : Prop where
  sbLe : s.sbCnt ≤ sb
  posLen : s.pos.length = 4096
  supLen : s.sup.xs.length = sb
  supW : s.sup.width = lg
  miniLen : s.mini.length = sb
  longs : ∀ l, s.long = some l → l.length = L ∧ ∀ t, s.sbCnt ≤ t → t < L → l[t]? = some Arr.empty
  blocks : ∀ t, t < s.sbCnt → Blk pat m N s.sup s.long s.mini t

theorem Inv.long {pat : Pat} {m : Mem} {N sb L lg : Nat} {s : BSt} (h : Inv pat m N sb L lg s) (hL : sb ≤ L)
    {sup : Arr} {p0 : Nat} {a : Arr} (hs : s.sbCnt < sb) (ha : LongOk pat m N s.sbCnt a)
    (hsup : s.sup.set s.sbCnt p0 = some sup) :
    ∃ l, setList (s.long.getD (List.replicate L Arr.empty)) s.sbCnt a = some l ∧
      Inv pat m N sb L lg { s with sup := sup, long := some l, sbCnt := s.sbCnt + 1 } := by
  rw [Arr.set_of_lt (by rw [h.supLen]; exact hs)] at hsup
  have hsup' := Option.some.inj hsup
  have hl : (s.long.getD (List.replicate L Arr.empty)).length = L ∧
      ∀ t, s.sbCnt ≤ t → t < L → (s.long.getD (List.replicate L Arr.empty))[t]? = some Arr.empty := by
    cases hlong : s.long with
    | none => exact ⟨by simp, fun t _ ht => by simp [ht]⟩
    | some l => exact h.longs l hlong
  refine ⟨_, setList_of_lt (by omega), ⟨by show s.sbCnt + 1 ≤ sb; omega, h.posLen, ?_, ?_, h.miniLen, ?_, ?_⟩⟩
  · rw [← hsup']; simp [h.supLen]
  · rw [← hsup']; exact h.supW
  · intro l' e
    have e := Option.some.inj e
    subst e
    refine ⟨by simp [hl.1], fun t h1 h2 => ?_⟩
    have h1 : s.sbCnt + 1 ≤ t := h1
    rw [List.getElem?_set_ne (by omega)]
    exact hl.2 t (by omega) h2
  · intro t ht
    have ht : t < s.sbCnt + 1 := ht
    by_cases h1 : t = s.sbCnt
    · subst h1
      left
      exact ⟨_, a, rfl, List.getElem?_set_self (by omega), ha⟩
    · have ht' : t < s.sbCnt := by omega
      rcases h.blocks t ht' with ⟨l, b, e1, e2, hb⟩ | ⟨hemp, p, b, e1, e2, hb⟩
      · left
        refine ⟨_, b, rfl, ?_, hb⟩
        rw [List.getElem?_set_ne (by omega), e1]
        exact e2
      · right
        refine ⟨?_, p, b, ?_, e2, hb⟩
        · intro l' e
          have e := Option.some.inj e
          subst e
          rw [List.getElem?_set_ne (by omega)]
          cases hlong : s.long with
          | none =>
            have : t < L := by omega
            exact ⟨Arr.empty, by simp [this], rfl⟩
          | some l => exact hemp l hlong
        · rw [← hsup']
          simp only
          rw [List.getElem?_set_ne (by omega)]
          exact e1

theorem Inv.short {pat : Pat} {m : Mem} {N sb L lg : Nat} {s : BSt} (h : Inv pat m N sb L lg s) (hL : sb ≤ L)
    {sup : Arr} {p0 : Nat} {a : Arr} (hs : s.sbCnt < sb) (ha : MiniOk pat m N s.sbCnt p0 a)
    (hsup : s.sup.set s.sbCnt p0 = some sup) (hp : p0 < 2 ^ lg) :
    ∃ l, setList s.mini s.sbCnt a = some l ∧
      Inv pat m N sb L lg { s with sup := sup, mini := l, sbCnt := s.sbCnt + 1 } := by
  rw [Arr.set_of_lt (by rw [h.supLen]; exact hs), h.supW, Nat.mod_eq_of_lt hp] at hsup
  have hsup' := Option.some.inj hsup
  refine ⟨_, setList_of_lt (by rw [h.miniLen]; exact hs), ⟨by show s.sbCnt + 1 ≤ sb; omega, h.posLen, ?_, ?_, by simp [h.miniLen], ?_, ?_⟩⟩
  · rw [← hsup']; simp [h.supLen]
  · rw [← hsup']
  · intro l' e
    refine ⟨(h.longs l' e).1, fun t h1 h2 => ?_⟩
    have h1 : s.sbCnt + 1 ≤ t := h1
    exact (h.longs l' e).2 t (by omega) h2
  · intro t ht
    have ht : t < s.sbCnt + 1 := ht
    by_cases h1 : t = s.sbCnt
    · subst h1
      right
      refine ⟨fun l e => ⟨Arr.empty, (h.longs l e).2 _ (by omega) (by omega), rfl⟩, p0, a, ?_, ?_, ha⟩
      · rw [← hsup']
        simp only
        exact List.getElem?_set_self (by rw [h.supLen]; exact hs)
      · exact List.getElem?_set_self (by rw [h.miniLen]; exact hs)
    · have ht' : t < s.sbCnt := by omega
      rcases h.blocks t ht' with ⟨l, b, e1, e2, hb⟩ | ⟨hemp, p, b, e1, e2, hb⟩
      · left; exact ⟨l, b, e1, e2, hb⟩
      · right
        refine ⟨hemp, p, b, ?_, ?_, hb⟩
        · rw [← hsup']
          simp only
          rw [List.getElem?_set_ne (by omega)]
          exact e1
        · show (s.mini.set s.sbCnt a)[t]? = _
          rw [List.getElem?_set_ne (by omega)]
          exact e2

theorem Arr.new_xs (n w : Nat) : (Arr.new n 0 w).xs.length = n := by simp [Arr.new]

/-- The values of an array of positions. -/
def vals (pos : List Nat) (i : Nat) : Nat := pos.getD i 0

theorem vals_eq {pos : List Nat} {i p : Nat} (h : pos[i]? = some p) : vals pos i = p := by
  simp [vals, h]

/-! ### init_slow -/

theorem slowFlush_ok {pat : Pat} {m : Mem} {N sb lg logn4 c : Nat} {s : BSt} (h : Inv pat m N sb sb lg s) (hcnt : s.cnt = c + 1)
    (hs : s.sbCnt < sb) (ht : s.sbCnt = c / 4096) (hpos : ∀ o, o ≤ c % 4096 → ∃ p, s.pos[o]? = some p ∧ At pat m (4096 * s.sbCnt + o) p)
    (hend : (c + 1) % 4096 = 0 ∨ c + 1 = N) (hcN : c < N) (hmax : ∀ q p, q < N → At pat m q p → p < 2 ^ lg ∧ p < 2 ^ 64) :
    ∃ s', slowFlush logn4 sb s = some s' ∧ s'.cnt = s.cnt ∧ s'.sbCnt = s.sbCnt + 1 ∧ s'.pos = s.pos ∧ Inv pat m N sb sb lg s' := by
  obtain ⟨p0, e0, hp0⟩ := hpos 0 (by omega)
  obtain ⟨pl, el, hpl⟩ := hpos (c % 4096) (by omega)
  have hcov : ∀ o, o < 4096 → 4096 * s.sbCnt + o < N → o ≤ c % 4096 := by intro o h1 h2; omega
  have hm0 := hmax _ p0 (by omega) hp0
  have hml := hmax _ pl (by omega) hpl
  have hle := hp0.le hpl (by omega)
  have hlen := h.posLen
  unfold slowFlush
  obtain ⟨sup, esup⟩ : ∃ sup, s.sup.set s.sbCnt p0 = some sup := ⟨_, Arr.set_of_lt (by rw [h.supLen]; exact hs)⟩
  rw [e0, sbind, hcnt, Nat.add_sub_cancel]
  unfold sbSize
  rw [el, sbind, esup, sbind]
  dsimp only
  by_cases hd : pl - p0 > logn4
  · rw [if_pos hd]
    obtain ⟨w1, w2, w3⟩ := hiWidth hml.2
    rw [w1, sbind]
    obtain ⟨b, e, bl, hb, _⟩ := fillArr_eq (f := fun j => s.pos[j]?) (g := vals s.pos) (c % 4096 + 1) 0 (Arr.new 4096 0 (Nat.log2 pl + 1))
      (by rw [Arr.new_xs]; omega) (by
        intro i _ h2
        obtain ⟨p, ep, hp⟩ := hpos i (by omega)
        rw [vals_eq ep]
        refine ⟨ep, ?_⟩
        have := hp.le hpl (by omega)
        show p < 2 ^ (clampWidth _)
        rw [w3]; omega)
    rw [e, sbind]
    obtain ⟨l, el2, hinv⟩ := h.long (Nat.le_refl _) hs (a := b) ⟨by
        intro hE; rw [hE, Arr.new_xs] at bl; simp at bl, by
        intro o h1 h2
        have h3 := hcov o h1 h2
        obtain ⟨p, ep, hp⟩ := hpos o h3
        exact ⟨p, by rw [hb o (by omega) (by omega), vals_eq ep], hp⟩⟩ esup
    rw [el2, sbind]
    refine ⟨_, rfl, rfl, rfl, rfl, ?_⟩
    rw [← hcnt]; exact hinv
  · rw [if_neg hd]
    obtain ⟨w1, w2, w3⟩ := hiWidth (x := pl - p0) (by omega)
    rw [w1, sbind]
    obtain ⟨b, e, bl, hb, _⟩ := fillArr_eq (f := fun j => (s.pos[64 * j]?).map (· - p0)) (g := fun j => vals s.pos (64 * j) - p0)
      (c % 4096 / 64 + 1) 0 (Arr.new 64 0 (Nat.log2 (pl - p0) + 1))
      (by rw [Arr.new_xs]; omega) (by
        intro i _ h2
        obtain ⟨p, ep, hp⟩ := hpos (64 * i) (by omega)
        rw [vals_eq ep, ep]
        refine ⟨rfl, ?_⟩
        have := hp.le hpl (by omega)
        show p - p0 < 2 ^ (clampWidth _)
        rw [w3]; omega)
    rw [e, sbind]
    obtain ⟨l, el2, hinv⟩ := h.short (Nat.le_refl _) hs (a := b) (by
        intro o h1 h2
        have h3 := hcov (64 * o) (by omega) h2
        obtain ⟨p, ep, hp⟩ := hpos (64 * o) h3
        have := hp0.le hp (by omega)
        refine ⟨p - p0, by rw [hb o (by omega) (by omega), vals_eq ep], ?_⟩
        rw [show p0 + (p - p0) = p by omega]; exact hp) esup hm0.1
    rw [el2, sbind]
    refine ⟨_, rfl, rfl, rfl, rfl, ?_⟩
    rw [← hcnt]; exact hinv

/-- Invariant of the loop of `init_slow`. -/
structure SInv (pat : Pat) (m : Mem) (N sb lg i : Nat) (s : BSt) : Prop where
  inv : Inv pat m N sb sb lg s
  cnt : s.cnt = R pat m i
  sbc : (s.cnt < N → s.sbCnt = s.cnt / 4096) ∧ (s.cnt = N → s.sbCnt = sb)
  pos : s.cnt < N → ∀ o, o < s.cnt % 4096 → ∃ p, s.pos[o]? = some p ∧ At pat m (4096 * (s.cnt / 4096) + o) p

theorem slowStep_ok {pat : Pat} {v : IntVec} {N sb lg logn4 i : Nat} {s : BSt} (hw : i / 64 < v.data.length)
    (hN : R pat v.data (i + 1) ≤ N) (hsb : sb = (N + 4096 - 1) / 4096)
    (hmax : ∀ q p, q < N → At pat v.data q p → p < 2 ^ lg ∧ p < 2 ^ 64) (h : SInv pat v.data N sb lg i s) :
    ∃ s', slowStep pat v logn4 sb N i s = some s' ∧ SInv pat v.data N sb lg (i + 1) s' := by
  have hR : R pat v.data (i + 1) = R pat v.data i + (occ pat v.data i).toNat := rfl
  unfold slowStep
  rw [foundArg_eq hw, sbind]
  cases ho : occ pat v.data i
  · rw [if_neg (by simp)]
    rw [ho] at hR
    exact ⟨s, rfl, h.inv, by rw [hR, h.cnt]; rfl, h.sbc, h.pos⟩
  · rw [if_pos rfl]
    rw [ho] at hR
    simp only [Bool.toNat_true] at hR
    have hc := h.cnt
    have hlt : s.cnt < N := by omega
    have hlen := h.inv.posLen
    unfold sbSize
    rw [setList_of_lt (by omega), Option.bind_some]
    have hsbc := h.sbc.1 hlt
    have hp : ∀ o, o ≤ s.cnt % 4096 → ∃ p, (s.pos.set (s.cnt % 4096) i)[o]? = some p ∧ At pat v.data (4096 * (s.cnt / 4096) + o) p := by
      intro o h1
      by_cases h2 : o = s.cnt % 4096
      · subst h2
        refine ⟨i, List.getElem?_set_self (by omega), ho, ?_⟩
        rw [← hc]; omega
      · rw [List.getElem?_set_ne (by omega)]
        exact h.pos hlt o (by omega)
    have hinv : Inv pat v.data N sb sb lg { s with pos := s.pos.set (s.cnt % 4096) i, cnt := s.cnt + 1 } :=
      ⟨h.inv.sbLe, by simp [hlen], h.inv.supLen, h.inv.supW, h.inv.miniLen, h.inv.longs, h.inv.blocks⟩
    by_cases hfl : (s.cnt + 1) % 4096 = 0 ∨ s.cnt + 1 = N
    · rw [if_pos hfl]
      obtain ⟨s', e, h1, h2, h3, h4⟩ := slowFlush_ok (logn4 := logn4) (c := s.cnt) hinv rfl (show s.sbCnt < sb by omega) hsbc
        (by rw [show ({ s with pos := s.pos.set (s.cnt % 4096) i, cnt := s.cnt + 1 } : BSt).sbCnt = s.cnt / 4096 from hsbc]; exact hp) hfl hlt hmax
      simp only at h1 h2 h3
      refine ⟨s', e, h4, by omega, ?_, ?_⟩
      · rw [h1, h2]; omega
      · intro h5 o h6
        rw [h1] at h5 h6
        omega
    · rw [if_neg hfl]
      refine ⟨_, rfl, hinv, ?_, ?_, ?_⟩
      · simp only; omega
      · simp only; omega
      · simp only
        intro _ o h1
        rw [show (s.cnt + 1) / 4096 = s.cnt / 4096 by omega]
        exact hp o (by omega)

theorem slowLoop_ok {pat : Pat} {v : IntVec} {N sb lg logn4 : Nat} (hsb : sb = (N + 4096 - 1) / 4096)
    (hmax : ∀ q p, q < N → At pat v.data q p → p < 2 ^ lg ∧ p < 2 ^ 64) (k : Nat) : ∀ (i : Nat) (s : BSt),
    (i + k + 63) / 64 ≤ v.data.length → R pat v.data (i + k) ≤ N → SInv pat v.data N sb lg i s →
    ∃ s', slowLoop pat v logn4 sb N i k s = some s' ∧ SInv pat v.data N sb lg (i + k) s' := by
  induction k with
  | zero => intro i s _ _ h; exact ⟨s, rfl, h⟩
  | succ k ih =>
    intro i s h1 h2 h
    have : R pat v.data (i + 1) ≤ R pat v.data (i + (k + 1)) := countTrue_mono _ (by omega)
    obtain ⟨s', e, h'⟩ := slowStep_ok (logn4 := logn4) (by omega) (by omega) hsb hmax h
    simp only [slowLoop]
    rw [e, sbind]
    obtain ⟨s'', e', h''⟩ := ih (i + 1) s' (by rw [show i + 1 + k = i + (k + 1) by omega]; exact h1)
      (by rw [show i + 1 + k = i + (k + 1) by omega]; exact h2) h'
    exact ⟨s'', e', by rw [show i + (k + 1) = i + 1 + k by omega]; exact h''⟩

theorem logn_eq {v : IntVec} (h : v.capWords * 64 < 2 ^ 64) : logn v = some (Nat.log2 (v.capWords * 64) + 1) := by
  unfold logn
  rw [(hiWidth h).1, sbind]; rfl

theorem initSlow_ok {pat : Pat} {junk : Nat → Nat} {v : IntVec} (hv : (v.size + 63) / 64 ≤ v.data.length)
    (hcap : v.capWords * 64 < 2 ^ 64) :
    ∃ s, initSlow pat junk v = some s ∧ s.argCnt = R pat v.data v.size ∧
      ∀ t, 4096 * t < R pat v.data v.size → Blk pat v.data (R pat v.data v.size) s.sup s.long s.mini t := by
  unfold initSlow
  rw [logn_eq hcap, sbind, argCnt_eq hv, sbind]
  generalize hN : R pat v.data v.size = N
  by_cases h0 : N = 0
  · rw [if_pos h0]
    exact ⟨_, rfl, h0.symm, by omega⟩
  · rw [if_neg h0]
    dsimp only
    unfold sbSize
    have hcapsz : v.size ≤ v.capWords * 64 := by unfold IntVec.capWords; omega
    have hmax : ∀ q p, q < N → At pat v.data q p → p < 2 ^ (Nat.log2 (v.capWords * 64) + 1) ∧ p < 2 ^ 64 := by
      intro q p hq hp
      have h1 := hp.lt (n := v.size) (by omega)
      have h2 := (hiWidth hcap).2.1
      omega
    obtain ⟨s, e, hs⟩ := slowLoop_ok (logn4 := (Nat.log2 (v.capWords * 64) + 1) * (Nat.log2 (v.capWords * 64) + 1) * ((Nat.log2 (v.capWords * 64) + 1) * (Nat.log2 (v.capWords * 64) + 1)))
      (sb := (N + 4096 - 1) / 4096) rfl hmax v.size 0
      ⟨(List.range 4096).map junk, 0, 0, Arr.new ((N + 4096 - 1) / 4096) 0 (Nat.log2 (v.capWords * 64) + 1), none, List.replicate ((N + 4096 - 1) / 4096) Arr.empty⟩
      (by rw [Nat.zero_add]; exact hv) (by rw [Nat.zero_add]; omega)
      ⟨⟨by simp, by simp, by simp [Arr.new_xs], (hiWidth hcap).2.2, by simp, by simp, by simp⟩, rfl, by simp; omega, by simp⟩
    rw [e, sbind]
    refine ⟨_, rfl, rfl, fun t ht => ?_⟩
    rw [Nat.zero_add] at hs
    exact hs.inv.blocks t (by rw [hs.sbc.2 (by rw [hs.cnt, hN])]; omega)

end Sdsl.Select
