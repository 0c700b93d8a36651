/-
  Lemmas on `select_support_mcl`.
-/
import Verif.SelectLemmas

namespace Sdsl.Select
open Bits Spec Rank IntVec Util

theorem foundArg_eq {v : IntVec} {i : Nat} (h : i / 64 < v.data.length) (pat : Pat) : foundArg v i pat = some (occ pat v.data i) := by
  rw [occ_eq]
  by_cases h0 : i > 0
  · have h1 : (i - 1) / 64 < v.data.length := by omega
    have hb : ∀ c, before v.data c i = bitAt v.data (i - 1) := fun c => by unfold before; rw [if_neg (by omega)]
    cases pat <;> simp only [foundArg, bit, get1_eq h, get1_eq h1, if_pos h0, selB, hb, sbind] <;>
      cases bitAt v.data (i - 1) <;> cases bitAt v.data i <;> rfl
  · have hb : ∀ c, before v.data c i = c := fun c => by unfold before; rw [if_pos (by omega)]
    cases pat <;> simp only [foundArg, bit, get1_eq h, if_neg h0, selB, hb, initB, sbind] <;>
      cases bitAt v.data i <;> rfl

/-! ### Counting the occurrences -/

theorem argCntLoop_eq {pat : Pat} {m : Mem} (k : Nat) : ∀ (i r : Nat) (c : Word), i + k ≤ m.length → CarryOk pat m i c →
    ∃ c', argCntLoop pat m i k r c = some (r + (R pat m (64 * (i + k)) - R pat m (64 * i)), c') ∧ CarryOk pat m (i + k) c' := by
  induction k with
  | zero => intro i r c h hc; exact ⟨c, by simp [argCntLoop], hc⟩
  | succ k ih =>
    intro i r c h hc
    have hi : i < m.length := by omega
    simp only [argCntLoop]
    rw [ld_of_lt hi, sbind]
    obtain ⟨c', e, hc'⟩ := ih (i + 1) (r + (argsInWord pat m[i] c).1.toNat) (argsInWord pat m[i] c).2 (by omega) (argsInWord_snd pat c hi)
    refine ⟨c', ?_, by rw [show i + (k + 1) = i + 1 + k by omega]; exact hc'⟩
    rw [e]
    have e1 := argsInWord_R pat hi hc
    have e2 : R pat m (64 * (i + 1)) ≤ R pat m (64 * (i + 1 + k)) := countTrue_mono _ (by omega)
    rw [show i + (k + 1) = i + 1 + k by omega, show r + (argsInWord pat m[i] c).1.toNat + (R pat m (64 * (i + 1 + k)) - R pat m (64 * (i + 1))) =
      r + (R pat m (64 * (i + 1 + k)) - R pat m (64 * i)) by omega]

theorem lastWord_eq {pat : Pat} {m : Mem} {w s : Nat} {c x : Word} (hw : w < m.length) (hs : s < 64) (hc : CarryOk pat m w c)
    (hx : ∀ j, j < 64 → (patWord pat x c).getLsbD j = ((patWord pat m[w] c).getLsbD j && decide (j < s))) :
    R pat m (64 * w) + (argsInWord pat x c).1.toNat = R pat m (64 * w + s) := by
  rw [argsInWord_fst, Props.C01_cnt, R_split]
  refine congrArg (fun k => R pat m (64 * w) + k) ?_
  rw [← countTrue_masked (fun j => occ pat m (64 * w + j)) s 64 (by omega)]
  exact countTrue_congr (fun j hj => by rw [hx j hj, getLsbD_patWord pat hw hj hc])

theorem patWord00_mask {w c : Word} {s : Nat} : ∀ j, j < 64 →
    (patWord .p00 (w ||| ~~~(BitVec.ofNat 64 (2 ^ s - 1))) c).getLsbD j = ((patWord .p00 w c).getLsbD j && decide (j < s)) := by
  intro j hj
  simp only [patWord, BitVec.getLsbD_not, BitVec.getLsbD_or, BitVec.getLsbD_shiftLeft]
  simp only [show ∀ i, (BitVec.ofNat 64 (2 ^ s - 1) : Word).getLsbD i = (decide (i < 64) && decide (i < s)) from fun i => getLsbD_ones]
  by_cases h1 : j < s
  · have h2 : j - 1 < 64 := by omega
    have h3 : j - 1 < s := by omega
    simp [hj, h1, h2, h3]
  · simp [hj, h1]

theorem patWord11_mask {w c : Word} {s : Nat} : ∀ j, j < 64 →
    (patWord .p11 (w &&& (BitVec.ofNat 64 (2 ^ s - 1))) c).getLsbD j = ((patWord .p11 w c).getLsbD j && decide (j < s)) := by
  intro j hj
  simp only [patWord, BitVec.getLsbD_and, BitVec.getLsbD_or, BitVec.getLsbD_shiftLeft]
  simp only [show ∀ i, (BitVec.ofNat 64 (2 ^ s - 1) : Word).getLsbD i = (decide (i < 64) && decide (i < s)) from fun i => getLsbD_ones]
  by_cases h1 : j < s
  · have h2 : j - 1 < 64 := by omega
    have h3 : j - 1 < s := by omega
    simp [hj, h1, h2, h3]
  · simp [hj, h1]

theorem argCnt_eq {v : IntVec} (hv : (v.size + 63) / 64 ≤ v.data.length) (pat : Pat) :
    argCnt v pat = some (R pat v.data v.size) := by
  have hsplit : 64 * (v.size / 64) + v.size % 64 = v.size := by omega
  have hR : ∀ pat, R pat v.data v.size = countTrue (fun q => selB pat (before v.data (initB pat) q) (bitAt v.data q)) v.size := by
    intro pat; exact countTrue_congr (fun q _ => occ_eq pat v.data q)
  cases pat
  case p0 =>
    simp only [argCnt]
    rw [cntOneBits_eq hv, sbind, hR, ← countTrue_not]; rfl
  case p1 =>
    simp only [argCnt]
    rw [cntOneBits_eq hv, hR]; rfl
  case p10 =>
    simp only [argCnt]
    rw [cntOneZeroBits_eq hv, hR]; rfl
  case p01 =>
    simp only [argCnt]
    rw [cntZeroOneBits_eq hv, hR]; rfl
  case p00 =>
    simp only [argCnt]
    by_cases h : v.size = 0
    · rw [if_pos h, h]; rfl
    · rw [if_neg h]
      obtain ⟨c, e, hc⟩ := argCntLoop_eq (m := v.data) (v.size / 64) 0 0 _ (by omega) (initCarry_ok .p00 v.data)
      have hz : R .p00 v.data (64 * 0) = 0 := rfl
      rw [hz, Nat.zero_add, Nat.zero_add, Nat.sub_zero] at e
      rw [Nat.zero_add] at hc
      rw [e, sbind]
      by_cases h1 : v.size % 64 ≠ 0
      · have hw : v.size / 64 < v.data.length := by omega
        have := lastWord_eq (s := v.size % 64) hw (by omega) hc patWord00_mask
        rw [if_pos h1, ld_of_lt hw, sbind, loUnset_eq (by omega), sbind]
        rw [hsplit] at this
        dsimp only
        rw [this]; rfl
      · rw [if_neg h1]
        dsimp only
        rw [show 64 * (v.size / 64) = v.size by omega]; rfl
  case p11 =>
    simp only [argCnt]
    by_cases h : v.size = 0
    · rw [if_pos h, h]; rfl
    · rw [if_neg h]
      obtain ⟨c, e, hc⟩ := argCntLoop_eq (m := v.data) (v.size / 64) 0 0 _ (by omega) (initCarry_ok .p11 v.data)
      have hz : R .p11 v.data (64 * 0) = 0 := rfl
      rw [hz, Nat.zero_add, Nat.zero_add, Nat.sub_zero] at e
      rw [Nat.zero_add] at hc
      rw [e, sbind]
      by_cases h1 : v.size % 64 ≠ 0
      · have hw : v.size / 64 < v.data.length := by omega
        have := lastWord_eq (s := v.size % 64) hw (by omega) hc patWord11_mask
        rw [if_pos h1, ld_of_lt hw, sbind, loSet_eq (by omega), sbind]
        rw [hsplit] at this
        dsimp only
        rw [this]; rfl
      · rw [if_neg h1]
        dsimp only
        rw [show 64 * (v.size / 64) = v.size by omega]; rfl

/-! ### Positions of the occurrences -/

/-- `p` is the position of the occurrence number `q` (0-based). -/
def At (pat : Pat) (m : Mem) (q p : Nat) : Prop := occ pat m p = true ∧ R pat m p = q

theorem At.le {pat : Pat} {m : Mem} {q q' p p' : Nat} (h : At pat m q p) (h' : At pat m q' p') (hq : q ≤ q') : p ≤ p' := by
  rcases Nat.lt_or_ge p' p with h1 | h1
  · have := countTrue_lt_of_true h1 h'.1
    have := h.2; have := h'.2
    unfold R at *; omega
  · exact h1

theorem At.lt {pat : Pat} {m : Mem} {q p n : Nat} (h : At pat m q p) (hq : q < R pat m n) : p < n := by
  rcases Nat.lt_or_ge p n with h1 | h1
  · exact h1
  · have : R pat m n ≤ R pat m p := countTrue_mono _ h1
    have := h.2; omega

theorem At.succ {pat : Pat} {m : Mem} {q p : Nat} (h : At pat m q p) : R pat m (p + 1) = q + 1 := by
  show countTrue _ _ + _ = _
  rw [h.1, h.2.symm]; rfl

/-- Entries of a superblock stored as "long". -/
def LongOk (pat : Pat) (m : Mem) (N t : Nat) (a : Arr) : Prop :=
  a.xs ≠ [] ∧ ∀ o, o < 4096 → 4096 * t + o < N → ∃ p, a.xs[o]? = some p ∧ At pat m (4096 * t + o) p

/-- Entries of a superblock with miniblocks. -/
def MiniOk (pat : Pat) (m : Mem) (N t p0 : Nat) (a : Arr) : Prop :=
  ∀ o, o < 64 → 4096 * t + 64 * o < N → ∃ d, a.xs[o]? = some d ∧ At pat m (4096 * t + 64 * o) (p0 + d)

/-- Superblock `t` is represented correctly. -/
def Blk (pat : Pat) (m : Mem) (N : Nat) (sup : Arr) (long : Option (List Arr)) (mini : List Arr) (t : Nat) : Prop :=
  (∃ l a, long = some l ∧ l[t]? = some a ∧ LongOk pat m N t a) ∨
  ((∀ l, long = some l → ∃ a, l[t]? = some a ∧ a.xs = []) ∧
    ∃ p0 a, sup.xs[t]? = some p0 ∧ mini[t]? = some a ∧ MiniOk pat m N t p0 a)

theorem mclSelect_eq {pat : Pat} {v : IntVec} {s : Mcl} {i : Nat} (hv : (v.size + 63) / 64 ≤ v.data.length) (h1 : 1 ≤ i)
    (h2 : i ≤ R pat v.data v.size) (hb : Blk pat v.data (R pat v.data v.size) s.sup s.long s.mini ((i - 1) / 4096)) :
    ∃ p, mclSelect pat v s i = some p ∧ IsSelect (occ pat v.data) v.size i p := by
  have fin : ∀ p, At pat v.data (i - 1) p → IsSelect (occ pat v.data) v.size i p := fun p hp =>
    ⟨hp.lt (by omega), hp.1, by have := hp.2; unfold R at this; omega⟩
  have hsplit : 4096 * ((i - 1) / 4096) + (i - 1) % 4096 = i - 1 := by omega
  unfold mclSelect
  rcases hb with ⟨l, a, e1, e2, hne, ha⟩ | ⟨hl, p0, a, e1, e2, ha⟩
  · have hE : a.xs.isEmpty = false := by cases h : a.xs <;> simp_all
    have e3 : longBlock s ((i - 1) / 4096) = some (some a) := by
      unfold longBlock; rw [e1]; dsimp only; rw [e2, sbind, hE]; rfl
    rw [e3, sbind]
    obtain ⟨p, e, hp⟩ := ha ((i - 1) % 4096) (by omega) (by omega)
    rw [hsplit] at hp
    exact ⟨p, e, fin p hp⟩
  · have e3 : longBlock s ((i - 1) / 4096) = some none := by
      unfold longBlock
      cases hL : s.long with
      | none => rfl
      | some l =>
        obtain ⟨a, ea, hE⟩ := hl l hL
        dsimp only
        rw [ea, sbind, hE]; rfl
    rw [e3, sbind]
    dsimp only
    unfold shortSelect
    dsimp only
    simp only [Arr.get]
    obtain ⟨d, ed, hd⟩ := ha ((i - 1) % 4096 / 64) (by omega) (by omega)
    simp only [e1, e2, ed, sbind]
    by_cases h0 : (i - 1) % 4096 % 64 = 0
    · rw [if_pos h0]
      refine ⟨_, rfl, fin _ ?_⟩
      rw [show 4096 * ((i - 1) / 4096) + 64 * ((i - 1) % 4096 / 64) = i - 1 by omega] at hd
      exact hd
    · rw [if_neg h0]
      obtain ⟨p, hp⟩ := IsSelect.exists h1 h2
      refine ⟨p, ?_, hp⟩
      obtain ⟨hp1, hp2, hp3⟩ := hp
      have hAt : At pat v.data (i - 1) p := ⟨hp2, by unfold R; omega⟩
      have hle := hd.le hAt (by omega)
      have hne : p0 + d ≠ p := by
        intro h; rw [h] at hd
        have := hd.2; have := hAt.2; omega
      have hs := hd.succ
      exact search_eq (by omega) (by omega) hp2 (by omega) (by rw [hs, hAt.2]; omega)

end Sdsl.Select
