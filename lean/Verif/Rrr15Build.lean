/- The constructor of rrr_vector<15> builds a well-formed structure. -/
import Verif.Rrr15Vec
import Verif.RrrBuild

namespace Sdsl.Rrr15

open Sdsl.Spec Sdsl.Bv Sdsl.Rrr

variable {tk : Nat} {B : List Bool} {T : Tab}

theorem val_lt64 (b : List Bool) : val b < 2 ^ 64 := Nat.lt_of_lt_of_le (val_lt b) (by decide)

theorem blockType_eq {j len : Nat} (hl : len ≤ 15) (hp : j * 15 + len ≤ B.length)
    (h : ∀ t, len ≤ t → t < 15 → bit B (j * 15 + t) = false) : blockType B (j * 15) len = some (wt (blk 15 B j)) := by
  unfold blockType
  rw [getInt_of_le hp (by omega), sbind, val_fld hl h, cnt_toNat, pop_val (length_blk _ _ _)]; rfl

theorem pass1_eq (hT : TabOk T) : ∀ (c i : Nat) (bt : Arr), i + c = B.length / 15 → bt.xs.length = B.length / 15 + 1 →
    15 < 2 ^ bt.width → (∀ j, j < i → bt.xs[j]? = some (wt (blk 15 B j))) →
    (∀ j, i ≤ j → j < B.length / 15 + 1 → bt.xs[j]? = some 0) →
    ∃ bt', pass1 T B c bt (i * 15) i (cnt true B (i * 15)) (P 15 B i) =
        some (bt', cnt true B B.length, P 15 B (B.length / 15 + 1)) ∧
      bt'.xs.length = B.length / 15 + 1 ∧ ∀ j, j < B.length / 15 + 1 → bt'.xs[j]? = some (wt (blk 15 B j))
  | 0, i, bt, hi, hlen, hwd, hlo, hhi => by
    have hi' : i = B.length / 15 := by omega
    rw [pass1]
    have hP1 : P 15 B (i + 1) = P 15 B i + sp 15 (wt (blk 15 B i)) := rfl
    by_cases h : i * 15 < B.length
    · rw [if_pos h]
      have hw := wt_blk_le 15 B i
      have hset : i < bt.xs.length := by omega
      rw [blockType_eq (by omega) (by omega) (fun t h1 h2 => bit_of_ge (by omega)), sbind, Arr.set_of_lt hset, sbind,
        hT.sp _ hw, sbind]
      have e1 : cnt true B (i * 15) + wt (blk 15 B i) = cnt true B B.length := by
        rw [← cnt_next, cnt_ge (by rw [Nat.succ_mul]; omega)]
      refine ⟨{ bt with xs := bt.xs.set i (wt (blk 15 B i) % 2 ^ bt.width) }, ?_, ?_, ?_⟩
      · rw [e1, ← hi', hP1]; rfl
      · simpa using hlen
      · intro j hj
        dsimp only
        rw [set_get hset (by omega)]
        by_cases e : j = i
        · rw [if_pos e, e]
        · rw [if_neg e]; exact hlo j (by omega)
    · rw [if_neg h]
      have hd : wt (blk 15 B i) = 0 := wt_dummy (by omega)
      refine ⟨bt, ?_, hlen, ?_⟩
      · rw [← hi', hP1, hd, sp_zero, cnt_ge (by omega)]; rfl
      · intro j hj
        by_cases e : j = i
        · rw [e, hd]; exact hhi i (by omega) (by omega)
        · exact hlo j (by omega)
  | c + 1, i, bt, hi, hlen, hwd, hlo, hhi => by
    have hw := wt_blk_le 15 B i
    have hset : i < bt.xs.length := by omega
    rw [pass1, blockType_eq (Nat.le_refl 15) (by omega) (fun t h1 h2 => by omega), sbind, Arr.set_of_lt hset, sbind,
      hT.sp _ hw, sbind, ← cnt_next, ← Nat.succ_mul]
    apply pass1_eq hT c (i + 1) _ (by omega)
    · simpa using hlen
    · exact hwd
    · intro j hj
      dsimp only
      rw [set_get hset (by omega)]
      by_cases e : j = i
      · rw [if_pos e, e]
      · rw [if_neg e]; exact hlo j (by omega)
    · intro j hj hj2
      dsimp only
      rw [set_get hset (by omega), if_neg (by omega)]
      exact hhi j (by omega) hj2

/-- State after `i` blocks; the samples of the superblocks that start before block `a` are written. -/
structure BInv (tk : Nat) (B : List Bool) (a i : Nat) (s : St) : Prop where
  btnrpLen : s.btnrp.xs.length = B.length / (tk * 15) + 1
  btnrpW : P 15 B (B.length / 15 + 1) < 2 ^ s.btnrp.width
  btnrp : ∀ t, t * tk < a → s.btnrp.xs[t]? = some (P 15 B (t * tk))
  rankLen : s.rank.xs.length = B.length / (tk * 15) + 1 + (if B.length % (tk * 15) > 0 then 1 else 0)
  rankW : cnt true B B.length < 2 ^ s.rank.width
  rank : ∀ t, t * tk < a → s.rank.xs[t]? = some (cnt true B (t * (tk * 15)))
  btnrLen : P 15 B (B.length / 15 + 1) ≤ s.btnr.length
  btnr : ∀ j, j < i → fld s.btnr (P 15 B j) (sp 15 (wt (blk 15 B j))) = en (blk 15 B j)
  idx : s.i = i
  btnrPos : s.btnrPos = P 15 B i
  sum : s.sum = cnt true B (i * 15)

theorem sample_eq (htk : 1 ≤ tk) {i : Nat} {s : St} (hI : BInv tk B i i s) (hi : i ≤ B.length / 15) :
    ∃ s', sample tk s = some s' ∧ BInv tk B (i + 1) i s' ∧ s'.pos = s.pos := by
  unfold sample
  by_cases h0 : i % tk = 0
  · rw [hI.idx, if_pos h0]
    have e := Nat.div_add_mod i tk
    rw [h0, Nat.add_zero, Nat.mul_comm] at e
    have hq : i / tk ≤ B.length / (tk * 15) := by rw [← sp_tk]; exact Nat.div_le_div_right hi
    have hb : i / tk < s.btnrp.xs.length := by rw [hI.btnrpLen]; omega
    have hr : i / tk < s.rank.xs.length := by rw [hI.rankLen]; omega
    have hPle := P_mono (n := 15) B (show i ≤ B.length / 15 + 1 by omega)
    have hcle := cnt_mono true B (show i * 15 ≤ B.length by omega)
    have hwb := hI.btnrpW
    have hwr := hI.rankW
    have gb : ∀ t, t * tk < i + 1 → (s.btnrp.xs.set (i / tk) (P 15 B i % 2 ^ s.btnrp.width))[t]? = some (P 15 B (t * tk)) := by
      intro t ht
      rw [set_get hb (by omega)]
      rcases mul_mod_eq htk h0 ht with h1 | h1
      · rw [if_neg (by rintro rfl; omega)]; exact hI.btnrp t h1
      · rw [if_pos h1, h1, e]
    have gr : ∀ t, t * tk < i + 1 → (s.rank.xs.set (i / tk) (cnt true B (i * 15) % 2 ^ s.rank.width))[t]? =
        some (cnt true B (t * (tk * 15))) := by
      intro t ht
      rw [set_get hr (by omega)]
      rcases mul_mod_eq htk h0 ht with h1 | h1
      · rw [if_neg (by rintro rfl; omega)]; exact hI.rank t h1
      · rw [if_pos h1, h1, ← Nat.mul_assoc, e]
    rw [hI.btnrPos, hI.sum, Arr.set_of_lt hb, sbind, Arr.set_of_lt hr, sbind]
    refine ⟨_, rfl, ?_, rfl⟩
    exact { hI with
      btnrpLen := by simpa using hI.btnrpLen
      btnrpW := hwb
      btnrp := gb
      rankLen := by simpa using hI.rankLen
      rankW := hwr
      rank := gr
      idx := rfl, btnrPos := rfl, sum := rfl }
  · rw [hI.idx, if_neg h0]
    have hne : ∀ t, t * tk ≠ i := by
      rintro t rfl
      exact h0 (Nat.mul_mod_left _ _)
    refine ⟨s, rfl, ?_, rfl⟩
    exact { hI with
      btnrp := fun t ht => hI.btnrp t (by have := hne t; omega)
      rank := fun t ht => hI.rank t (by have := hne t; omega) }

theorem encBlock_eq (hT : TabOk T) {bt : Arr} (hbt : ∀ j, j < B.length / 15 + 1 → bt.xs[j]? = some (wt (blk 15 B j)))
    {i len : Nat} {s : St} (hI : BInv tk B (i + 1) i s)
    (hi : i ≤ B.length / 15) (hpos : s.pos = i * 15) (hl : len ≤ 15)
    (hp : i * 15 + len ≤ B.length) (hz : ∀ t, len ≤ t → t < 15 → bit B (i * 15 + t) = false) :
    ∃ s', encBlock T bt B len s = some s' ∧ BInv tk B (i + 1) (i + 1) s' ∧ s'.pos = s.pos := by
  have hw := wt_blk_le 15 B i
  have hP1 : P 15 B (i + 1) = P 15 B i + sp 15 (wt (blk 15 B i)) := rfl
  have hPle := P_mono (n := 15) B (show i + 1 ≤ B.length / 15 + 1 by omega)
  have hbl := hI.btnrLen
  have hsp := sp15_le (wt (blk 15 B i))
  have hencl : en (blk 15 B i) < 2 ^ sp 15 (wt (blk 15 B i)) := lt_sp (en_lt (length_blk 15 B i))
  have hsum : s.sum + wt (blk 15 B i) = cnt true B ((i + 1) * 15) := by rw [hI.sum, cnt_next]
  unfold encBlock
  rw [hI.idx, show bt.get i = _ from hbt i (by omega), sbind, hT.sp _ hw, sbind]
  by_cases h0 : sp 15 (wt (blk 15 B i)) ≠ 0
  · rw [if_pos h0, hpos, getInt_of_le hp (by omega), sbind, val_fld hl hz, hT.toNr _ (length_blk _ _ _), sbind, hI.btnrPos,
      setInt_of_le (by omega) (by omega), sbind]
    refine ⟨_, rfl, ?_, rfl⟩
    exact { hI with
      btnrLen := by show _ ≤ (wr _ _ _ _).length; rw [length_wr (by omega)]; exact hbl
      btnr := by
        intro j hj
        show fld (wr _ _ _ _) _ _ = _
        by_cases e : j = i
        · rw [e, fld_wr_self (by omega), Nat.mod_eq_of_lt hencl]
        · have hPj : P 15 B (j + 1) = P 15 B j + sp 15 (wt (blk 15 B j)) := rfl
          have := P_mono (n := 15) B (show j + 1 ≤ i by omega)
          rw [fld_wr_other (by omega) (by omega)]
          exact hI.btnr j (by omega)
      idx := rfl
      btnrPos := hP1.symm
      sum := hsum }
  · rw [if_neg h0, sbind]
    have h0' : sp 15 (wt (blk 15 B i)) = 0 := by omega
    refine ⟨_, rfl, ?_, rfl⟩
    exact { hI with
      btnr := by
        intro j hj
        by_cases e : j = i
        · rw [e, h0']
          rw [h0'] at hencl
          show 0 = _
          omega
        · exact hI.btnr j (by omega)
      idx := rfl
      btnrPos := by show s.btnrPos + _ = _; rw [hI.btnrPos, hP1]
      sum := hsum }

theorem pass2_eq (hT : TabOk T) {bt : Arr} (hbt : ∀ j, j < B.length / 15 + 1 → bt.xs[j]? = some (wt (blk 15 B j)))
    (htk : 1 ≤ tk) : ∀ (c i : Nat) (s : St), i + c = B.length / 15 →
    BInv tk B i i s → s.pos = i * 15 →
    ∃ (s' : St) (nb : Nat), pass2 T tk bt B c s = some s' ∧ BInv tk B nb nb s' ∧ B.length ≤ nb * 15 ∧ ∀ j, j * 15 < B.length → j < nb
  | 0, i, s, hi, hI, hpos => by
    rw [pass2, hpos]
    by_cases h : i * 15 < B.length
    · rw [if_pos h]
      obtain ⟨s1, h1, hI1, hp1⟩ := sample_eq htk hI (by omega)
      obtain ⟨s2, h2, hI2, hp2⟩ := encBlock_eq hT hbt (len := B.length - i * 15) hI1 (by omega) (by rw [hp1, hpos])
        (by omega) (by omega) (fun t ht1 ht2 => bit_of_ge (by omega))
      rw [h1, sbind, h2]
      exact ⟨s2, i + 1, rfl, hI2, by omega, fun j hj => by omega⟩
    · rw [if_neg h]
      exact ⟨s, i, rfl, hI, by omega, fun j hj => by omega⟩
  | c + 1, i, s, hi, hI, hpos => by
    obtain ⟨s1, h1, hI1, hp1⟩ := sample_eq htk hI (by omega)
    obtain ⟨s2, h2, hI2, hp2⟩ := encBlock_eq hT hbt (len := 15) hI1 (by omega) (by rw [hp1, hpos])
      (Nat.le_refl 15) (by omega) (fun t ht1 ht2 => by omega)
    rw [pass2, h1, sbind, h2, sbind]
    apply pass2_eq hT hbt htk c (i + 1) _ (by omega)
    · exact { hI2 with }
    · show s2.pos + 15 = _
      rw [hp2, hp1, hpos, Nat.succ_mul]

theorem build_good (hT : TabOk T) (htk : 1 ≤ tk) (hB : B.length + 15 < 2 ^ 64) :
    ∃ v, build T tk B = some v ∧ Good tk B v := by
  have hM : 1 ≤ tk * 15 := Nat.mul_pos htk (by omega)
  have hPtot : P 15 B (B.length / 15 + 1) < 2 ^ 64 := by
    have h1 := P_le (n := 15) (by omega) B (B.length / 15 + 1)
    omega
  have hct : cnt true B B.length < 2 ^ 64 := by
    have := cnt_le true B B.length
    omega
  obtain ⟨bt, hb1, hb2, hb4⟩ := pass1_eq (B := B) hT (B.length / 15) 0 (Arr.new (B.length / 15 + 1) 0 (Nat.log2 15 + 1))
    (by omega) (by simp [Arr.new]) (clamp_log (by decide)) (fun j hj => by omega)
    (fun j _ hj => by simp [Arr.new, hj])
  have hnsb : (bt.xs.length + tk - 1) / tk = B.length / (tk * 15) + 1 := by
    rw [hb2, show B.length / 15 + 1 + tk - 1 = B.length / 15 + tk by omega, Nat.add_div_right _ htk, sp_tk]
  unfold build
  dsimp only
  rw [show (0 : Nat) * 15 = 0 from Nat.zero_mul 15, cnt_zero] at hb1
  rw [show (P 15 B 0 : Nat) = 0 from rfl] at hb1
  rw [hb1, sbind]
  dsimp only
  rw [hnsb]
  obtain ⟨s, nb, hs1, hs2, hs3, hs4⟩ := pass2_eq (B := B) hT hb4 htk (B.length / 15) 0
    { btnr := List.replicate (max (P 15 B (B.length / 15 + 1)) 64) false,
      btnrp := Arr.new (B.length / (tk * 15) + 1) 0 (Nat.log2 (P 15 B (B.length / 15 + 1)) + 1),
      rank := Arr.new (B.length / (tk * 15) + 1 + (if B.length % (tk * 15) > 0 then 1 else 0)) 0 (Nat.log2 (cnt true B B.length) + 1),
      pos := 0, i := 0, btnrPos := 0, sum := 0 }
    (by omega)
    { btnrpLen := by simp [Arr.new]
      btnrpW := clamp_log hPtot
      btnrp := fun t ht => by omega
      rankLen := by simp [Arr.new]
      rankW := clamp_log hct
      rank := fun t ht => by omega
      btnrLen := by simp; omega
      btnr := fun j hj => by omega
      idx := rfl
      btnrPos := rfl
      sum := by rw [Nat.zero_mul, cnt_zero] }
    (by rw [Nat.zero_mul])
  rw [hs1, sbind]
  have hrl := hs2.rankLen
  have hlpos : 0 < s.rank.xs.length := by
    rw [hrl]; exact Nat.lt_of_lt_of_le (Nat.succ_pos _) (Nat.le_add_right _ _)
  have hlast : s.rank.xs.length - 1 < s.rank.xs.length := Nat.sub_lt hlpos (by omega)
  rw [Arr.set_of_lt hlast, sbind]
  have hsum : s.sum = cnt true B B.length := by rw [hs2.sum, cnt_ge hs3]
  have hrw := hs2.rankW
  refine ⟨_, rfl, ?_⟩
  have key : B.length ≤ (s.rank.xs.length - 1) * (tk * 15) ∧ (∀ t, t < s.rank.xs.length - 1 → t * (tk * 15) < B.length) := by
    have e := Nat.div_add_mod B.length (tk * 15)
    have hm := Nat.mod_lt B.length hM
    rw [Nat.mul_comm] at e
    generalize tk * 15 = M at *
    generalize B.length % M = r at *
    generalize B.length / M = d at *
    by_cases h : r > 0
    · rw [if_pos h] at hrl
      rw [hrl]
      refine ⟨?_, ?_⟩
      · rw [Nat.add_sub_cancel, Nat.succ_mul]; omega
      · intro t ht
        have : t ≤ d := by omega
        have := Nat.mul_le_mul_right M this
        omega
    · rw [if_neg h] at hrl
      rw [hrl]
      refine ⟨?_, ?_⟩
      · rw [Nat.add_zero, Nat.add_sub_cancel]; omega
      · intro t ht
        have : t + 1 ≤ d := by omega
        have := Nat.mul_le_mul_right M this
        rw [Nat.succ_mul] at this
        omega
  have htknb : ∀ t, t * (tk * 15) < B.length → t * tk < nb := by
    intro t ht
    apply hs4
    rw [Nat.mul_assoc]; exact ht
  exact {
    size := rfl, btLen := hb2, bt := hb4, btnrpLen := hs2.btnrpLen
    btnrp := fun t ht => hs2.btnrp t (htknb t ht)
    rankLen := by simpa using hs2.rankLen
    rank := by
      intro t ht
      dsimp only at ht ⊢
      rw [List.length_set] at ht
      rw [hsum, set_get hlast hrw]
      by_cases h : t = s.rank.xs.length - 1
      · rw [if_pos h, h, cnt_ge key.1]
      · rw [if_neg h]
        exact hs2.rank t (htknb t (key.2 t (by omega)))
    btnr := by
      intro j hj
      refine ⟨?_, hs2.btnr j (hs4 j hj)⟩
      exact Nat.le_trans (P_mono B (by omega)) hs2.btnrLen }

end Sdsl.Rrr15
