import Verif.HybQuery

/-! # C81: hyb_vector and rank_support_hyb -/

namespace Sdsl.Props
open Sdsl Sdsl.Spec

/-- C81. `hyb_vector` with any superblock rate: the constructor succeeds, and size, access, rank of both bits and `get_int` agree with the original vector. Either the rate divides the number of blocks of
an hblock, as the default 16 does, or the vector has at most 2^31 bits. -/
theorem C81_hyb_vector {rate : Nat} (hr : 0 < rate) (hr2 : rate < 2 ^ 24) {v : IntVec} (hv : v.WF) (hd : rate ∣ 2 ^ 23 ∨ v.size ≤ 2 ^ 31) :
    ∃ h, Hyb.new rate v = some h ∧ h.size = v.size ∧
      (∀ i, i < v.size → Hyb.access rate h i = some (bitAt v.data i)) ∧
      (∀ i, i ≤ v.size → Hyb.rank true rate h i = some (countTrue (fun p => bitAt v.data p) i) ∧ Hyb.rank false rate h i = some (countTrue (fun p => !bitAt v.data p) i)) ∧
      (∀ idx len, len ≤ 64 → idx + len ≤ v.size → ∃ w, Hyb.getInt rate h idx len = some w ∧ w.toNat = field v.data idx len) := by
  obtain ⟨h, h1, ok⟩ := Hyb.new_spec hr hr2 hv.bits_le
  have hd' : rate ∣ Hyb.hRate ∨ v.size ≤ 2 ^ 31 := hd
  refine ⟨h, h1, ok.size, fun i hi => Hyb.access_spec hr ok hd' hi, fun i hi => ?_, fun idx len hl hi => Hyb.getInt_spec hr ok hd' hl hi⟩
  have hc : countTrue (Hyb.pb v) i = countTrue (fun p => bitAt v.data p) i :=
    countTrue_congr (fun p hp => by rw [Hyb.pb, decide_eq_true (by omega), Bool.true_and])
  constructor
  · rw [Hyb.rank, Hyb.rank1_spec hr ok hd' hi, Hyb.hbind, hc]; rfl
  · rw [Hyb.rank, Hyb.rank1_spec hr ok hd' hi, Hyb.hbind, hc, countTrue_not]; rfl

/-- The bits of the vector, continued by zeros. -/
def padded (v : IntVec) (p : Nat) : Bool := decide (p < v.size) && bitAt v.data p

/-- The space for the encoded blocks: never more bytes than the plain bits take, than there are ones, than there are zeros (in the vector filled up to whole blocks), and than there are places where
the bit changes. -/
theorem C81_space {rate : Nat} (hr : 0 < rate) (hr2 : rate < 2 ^ 24) {v : IntVec} (hv : v.WF) :
    ∃ h, Hyb.new rate v = some h ∧ h.trunk.length ≤ 32 * ((v.size + 255) / 256) ∧ h.trunk.length ≤ countTrue (fun p => bitAt v.data p) v.size ∧
      h.trunk.length ≤ countTrue (fun p => !padded v p) (256 * ((v.size + 255) / 256)) ∧ h.trunk.length ≤ countTrue (fun p => padded v p != padded v (p + 1)) (256 * ((v.size + 255) / 256)) := by
  obtain ⟨h, h1, ok⟩ := Hyb.new_spec hr hr2 hv.bits_le
  refine ⟨h, h1, ?_, ?_, ?_, ?_⟩
  · rw [ok.trunk]
    have := Hyb.T_diff v (Nat.zero_le ((v.size + 255) / 256))
    have h0 : Hyb.T v 0 = 0 := rfl
    omega
  · rw [ok.trunk]
    refine Nat.le_trans (Hyb.T_le_ones v _) ?_
    rw [Hyb.R, Hyb.countTrue_none (a := v.size) (by omega) (fun q hq _ => by rw [Hyb.pb, decide_eq_false (by omega)]; rfl)]
    exact Nat.le_of_eq (countTrue_congr (fun p hp => by rw [Hyb.pb, decide_eq_true hp, Bool.true_and]))
  · rw [ok.trunk, countTrue_not]
    have := Hyb.T_le_zeros v ((v.size + 255) / 256)
    have h2 : Hyb.R v ((v.size + 255) / 256) = countTrue (padded v) (256 * ((v.size + 255) / 256)) := rfl
    have h3 : countTrue (fun p => padded v p) (256 * ((v.size + 255) / 256)) = countTrue (padded v) (256 * ((v.size + 255) / 256)) := rfl
    omega
  · rw [ok.trunk]
    exact Hyb.T_le_runs v _

/-- Every result of `rank` is at least the sum of the ranks stored for the hblock and the superblock. -/
theorem plainRank_ge {t : List Nat} {rest : Nat} : ∀ {k p a r : Nat}, Hyb.plainRank t rest k p a = some r → a ≤ r
  | 0, p, a, r, h => by
    rw [Hyb.plainRank] at h
    split at h
    · cases h1 : Hyb.rd 8 t p with
      | none => rw [h1] at h; cases h
      | some w =>
        rw [h1, Hyb.hbind] at h
        cases h2 : shl 1#64 rest with
        | none => rw [h2] at h; cases h
        | some m =>
          rw [h2, Hyb.hbind] at h
          obtain rfl := Option.some.inj h
          omega
    · obtain rfl := Option.some.inj h
      omega
  | k + 1, p, a, r, h => by
    rw [Hyb.plainRank] at h
    cases h1 : Hyb.rd 8 t p with
    | none => rw [h1] at h; cases h
    | some w =>
      rw [h1, Hyb.hbind] at h
      have := plainRank_ge h
      omega

theorem blockRank_ge {t : List Nat} {tp y li before r : Nat} (h : Hyb.blockRank t tp y li before = some r) : before ≤ r := by
  rw [Hyb.blockRank] at h
  dsimp only at h
  split at h
  · obtain rfl := Option.some.inj h
    omega
  · split at h
    · split at h
      · cases h1 : Hyb.minorLoop t li (y / 2 ^ 10) tp 0 with
        | none => rw [h1] at h; cases h
        | some m =>
          rw [h1, Hyb.hbind] at h
          obtain rfl := Option.some.inj h
          rw [Nat.add_assoc]
          exact Nat.le_add_right _ _
      · split at h
        · cases h1 : Hyb.runsRank t tp (y / 2 ^ 10) (y % 2 ^ 9) li with
          | none => rw [h1] at h; cases h
          | some m =>
            rw [h1, Hyb.hbind] at h
            obtain rfl := Option.some.inj h
            omega
        · cases h1 : Hyb.runsRank t tp (y / 2 ^ 10) (256 - y % 2 ^ 9) li with
          | none => rw [h1] at h; cases h
          | some m =>
            rw [h1, Hyb.hbind] at h
            obtain rfl := Option.some.inj h
            omega
    · exact plainRank_ge h

/-- 2^31 + 256 ones. -/
def hybOnes : IntVec := ⟨2 ^ 31 + 256, List.replicate (2 ^ 25 + 4) (BitVec.allOnes 64), 1⟩

theorem hybOnes_wf : hybOnes.WF := ⟨by decide, by decide, by
  show (2 ^ 31 + 256 + 63) / 64 ≤ (List.replicate (2 ^ 25 + 4) (BitVec.allOnes 64)).length
  rw [List.length_replicate]
  omega⟩

theorem hybOnes_bit {p : Nat} (h : p < 2 ^ 31 + 256) : bitAt hybOnes.data p = true := by
  have hl : hybOnes.data.length = 2 ^ 25 + 4 := List.length_replicate ..
  rw [bitAt_of_lt (by omega)]
  have : hybOnes.data[p / 64]'(by omega) = BitVec.allOnes 64 := List.getElem_replicate ..
  rw [this, BitVec.getLsbD_allOnes, decide_eq_true (by omega)]

theorem hybOnes_R {b : Nat} (h : b ≤ 8388609) : Hyb.R hybOnes b = 256 * b := by
  have hs : hybOnes.size = 2 ^ 31 + 256 := rfl
  rw [Hyb.R, countTrue_congr (g := fun _ => true) (fun p hp => by rw [Hyb.pb, hybOnes_bit (by omega), decide_eq_true (by omega)]; rfl), countTrue_true]

/-- If the rate does not divide 2^23 and the vector is longer than 2^31 bits, ranks are wrong: for rate 3, the superblock of the blocks 8388606 to 8388608 begins in the first hblock and
ends in the second one. The position 2^31 + 1 gets the rank of the second hblock plus the rank of the superblock inside the first one. -/
theorem C81_straddling_superblock : ∃ v : IntVec, v.WF ∧ ∃ h, Hyb.new 3 v = some h ∧ 2 ^ 31 + 1 ≤ v.size ∧ Hyb.rank true 3 h (2 ^ 31 + 1) ≠ some (countTrue (fun p => bitAt v.data p) (2 ^ 31 + 1)) := by
  obtain ⟨h, h1, ok⟩ := Hyb.new_spec (rate := 3) (by omega) (by omega) hybOnes_wf.bits_le
  have hs : hybOnes.size = 2 ^ 31 + 256 := rfl
  refine ⟨hybOnes, hybOnes_wf, h, h1, by rw [hs]; omega, fun hc => ?_⟩
  rw [countTrue_congr (g := fun _ => true) (fun p hp => hybOnes_bit (by omega)), countTrue_true] at hc
  have hnb : (hybOnes.size + 255) / 256 = 8388609 := by rw [hs]
  have hhb := ok.hb.val 1 (by rw [hnb, Hyb.hRate_eq]; omega)
  have hsu := ok.sh.supers 2796202 (by rw [hnb]; omega)
  have hrk := hsu.rank
  rw [Hyb.hRate_eq, hybOnes_R (by omega), hybOnes_R (by omega)] at hrk
  rw [Hyb.hRate_eq, hybOnes_R (by omega)] at hhb
  obtain ⟨x, x1, _⟩ := hsu.off
  have e1 : (2 ^ 31 + 1 - 1) / 256 = 8388608 := by decide
  have e2 : 2 * (8388608 / Hyb.hRate) = 2 := by rw [Hyb.hRate_eq]
  have e3 : 8388608 / 3 = 2796202 := by decide
  rw [Hyb.rank, Hyb.rank1, if_neg (by omega)] at hc
  dsimp only at hc
  rw [e1, e2, e3, hhb.1, Hyb.hbind, hhb.2, Hyb.hbind, x1, Hyb.hbind, hrk, Hyb.hbind] at hc
  have hge : ∀ {o : Option Nat}, (∀ r, o = some r → 256 * (1 * 8388608) + (256 * (2796202 * 3) - 256 * (2796202 * 3 / 8388608 * 8388608)) ≤ r) →
      (o >>= fun r => pure (if true then r else 2 ^ 31 + 1 - r)) ≠ some (2 ^ 31 + 1) := by
    intro o ho he
    cases o with
    | none => cases he
    | some r =>
      have := ho r rfl
      rw [Hyb.hbind] at he
      have h3 : r = 2 ^ 31 + 1 := Option.some.inj he
      omega
  refine hge (fun r hr => ?_) hc
  split at hr
  · cases h5 : h.sh[2796202 * Hyb.hs 3 + 9]? with
    | none => rw [h5] at hr; cases hr
    | some u =>
      rw [h5, Hyb.hbind] at hr
      obtain rfl := Option.some.inj hr
      exact Nat.le_add_right _ _
  · cases h5 : Hyb.forward h.sh (8388608 - 2796202 * 3) (2796202 * Hyb.hs 3 + 8) (Hyb.T hybOnes (1 * 8388608) + x % 2 ^ 30) 0 with
    | none => rw [h5] at hr; cases hr
    | some f =>
      rw [h5, Hyb.hbind] at hr
      cases h6 : Hyb.rd 2 h.sh f.1 with
      | none => rw [h6] at hr; cases hr
      | some y =>
        rw [h6, Hyb.hbind] at hr
        have := blockRank_ge hr
        omega

/-- A vector with blocks of all kinds: zeros, alternating bits (plain), few ones (minority), a few runs, the last block incomplete. -/
def hybSample : IntVec := ⟨1100, List.replicate 4 0#64 ++ List.replicate 4 0x5555555555555555#64 ++ [1#64 <<< 17, 1#64 <<< 3, 5#64, 0#64] ++ [0xfffff#64, 0xfffffff0#64, 0xffff0fffffffffff#64, 0xffffffffffffffff#64] ++
  [0xffffffff#64, 0xff#64], 1⟩

example : hybSample.WF := ⟨by decide, by decide, by decide⟩

example : ∃ h, Hyb.new 2 hybSample = some h ∧ h.size = hybSample.size := by
  obtain ⟨h, h1, h2, _⟩ := C81_hyb_vector (rate := 2) (by omega) (by omega) (v := hybSample) ⟨by decide, by decide, by decide⟩ (.inl ⟨2 ^ 22, by decide⟩)
  exact ⟨h, h1, h2⟩

/-- The model runs (with a table given as a function). -/
example : (Hyb.newWith (fun x => some (Hyb.c15 x)) 2 hybSample).bind (fun h => Hyb.rank true 2 h 1090) = some (countTrue (fun p => bitAt hybSample.data p) 1090) := by decide +kernel

example : (Hyb.newWith (fun x => some (Hyb.c15 x)) 2 hybSample).map (fun h => h.trunk.length) = some 43 := by decide +kernel

end Sdsl.Props
