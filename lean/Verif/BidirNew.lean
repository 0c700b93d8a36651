/-
  The wavelet trees with `lex_ordered = 1` that are modelled: `wt_blcd` and `wt_int`.
-/
import Verif.BidirSpec
import Verif.CsaNew
import Verif.Props.WtInt

namespace Sdsl.Csa

open _root_.Sdsl.Wt

/-- The modelled trees with `lex_ordered = 1` (wt_blcd.hpp:69, wt_int.hpp:75). -/
def TreeKind.lex : TreeKind → Bool
  | .blcd _ => true
  | .wtInt => true
  | _ => false

theorem countP_words {L : List Nat} (hL : ∀ c ∈ L, c < 2 ^ 64) {c : Nat} (hc : c < 2 ^ 64) :
    (L.map (BitVec.ofNat 64)).countP (fun b => decide (b < BitVec.ofNat 64 c)) = L.countP (fun a => decide (a < c)) ∧
    (L.map (BitVec.ofNat 64)).countP (fun b => decide (BitVec.ofNat 64 c < b)) = L.countP (fun a => decide (c < a)) := by
  rw [List.countP_map, List.countP_map]
  constructor <;>
  · apply List.countP_congr
    intro a ha
    have := hL a ha
    simp only [Function.comp_apply, decide_eq_true_eq, BitVec.lt_def, BitVec.toNat_ofNat]
    rw [Nat.mod_eq_of_lt this, Nat.mod_eq_of_lt hc]

theorem lexOk_of {W : Csa.Wt} {L : List Nat} {Q : Nat → Prop} (hL : ∀ c ∈ L, c < 2 ^ 64) (hQ : ∀ c, Q c → c < 2 ^ 64)
    (h : ∀ i j c, i ≤ j → j ≤ (L.map (BitVec.ofNat 64)).length → Q c → W.lexCount i j c = some (((L.map (BitVec.ofNat 64)).take i).count (BitVec.ofNat 64 c),
      (((L.map (BitVec.ofNat 64)).take j).drop i).countP (fun b => decide (b < BitVec.ofNat 64 c)), (((L.map (BitVec.ofNat 64)).take j).drop i).countP (fun b => decide (BitVec.ofNat 64 c < b)))) :
    LexOk W L Q := by
  intro i j c hij hj hc
  rw [h i j c hij (by simpa using hj) hc, ← List.map_take, ← List.map_take, ← List.map_drop, map_count (fun c hc => hL c (List.mem_of_mem_take hc)) (hQ c hc)]
  have := countP_words (L := (L.take j).drop i) (fun c hc => hL c (List.mem_of_mem_take (List.mem_of_mem_drop hc))) (hQ c hc)
  rw [this.1, this.2]

/-- The trees that keep the order. -/
theorem newWt_lex {tk : TreeKind} {ak : AlphaKind} {L : List Nat} (hk : tk.lex = true) (hL : L ≠ []) (h : Fits tk ak L) {W : Csa.Wt} (hW : newWt tk L = some W) : LexOk W L (SymOk tk ak) := by
  obtain ⟨h1, h2, h3, h4⟩ := h
  have hL64 : ∀ c ∈ L, c < 2 ^ 64 := fun c hc => by have := h3 c hc; omega
  have hlen : (L.map (BitVec.ofNat 64)).length = L.length := List.length_map _
  have htake : (L.map (BitVec.ofNat 64)).take L.length = L.map (BitVec.ofNat 64) := List.take_of_length_le (by omega)
  have hpos := List.length_pos_iff.2 hL
  have hm : L.map (BitVec.ofNat 64) ≠ [] := by intro e; rw [List.map_eq_nil_iff] at e; exact hL e
  have hmem : ∀ {B : Nat}, (∀ c ∈ L, c < B) → B ≤ 2 ^ 64 → ∀ a ∈ L.map (BitVec.ofNat 64), a.toNat < B := by
    intro B hB hB2 a ha
    obtain ⟨c, hc, rfl⟩ := List.mem_map.1 ha
    have := hB c hc
    rw [BitVec.toNat_ofNat, Nat.mod_eq_of_lt (by omega)]; exact this
  cases tk with
  | blcd b =>
    have hs : Props.PcSyms ⟨b, false⟩ ((L.map (BitVec.ofNat 64)).take L.length) := by
      rw [htake]
      intro a ha
      cases b with
      | true => exact hmem (h1 (by simp [TreeKind.isByte])) (by omega) a ha
      | false => exact hmem h2 (by simp [TreeKind.bounds]) a ha
    obtain ⟨t, g1, g2, -, g4, -⟩ := Props.C35_blcd_partial ⟨b, false⟩ rfl (L.map (BitVec.ofNat 64)) L.length hpos (by omega) hs
    rw [htake] at g4
    rw [newWt, g1] at hW
    obtain rfl : ofPc t = W := Option.some.inj hW
    refine lexOk_of hL64 (fun c hc => hc.1) (fun i j c hij hj hc => ?_)
    apply g4.lexCount i j _ hij hj
    intro hb
    rw [g2] at hb
    rw [BitVec.toNat_ofNat, Nat.mod_eq_of_lt hc.1]
    exact hc.2 (by dsimp only at hb; simp [hb, TreeKind.isByte])
  | wtInt =>
    obtain ⟨t, g1, g2, -⟩ := Props.C54_lex_partial 0 (L.map (BitVec.ofNat 64)) hm (by omega) (by rw [if_pos rfl]; exact hmem h3 (by omega))
    rw [newWt, g1] at hW
    obtain rfl : ofInt t = W := Option.some.inj hW
    exact lexOk_of hL64 (fun c hc => hc.1) (fun i j c hij hj _ => g2 i j _ hij hj)
  | _ => simp [TreeKind.lex] at hk

/-- The constructor of a `csa_wt` with such a tree. -/
theorem csaWt_lex {tk : TreeKind} {ak : AlphaKind} {T SA : List Nat} (hk : tk.lex = true) (hT : IsText T) (hS : IsSA T SA) (h : Fits tk ak T) :
    ∃ W A, csaWt tk ak T SA = some (W, A) ∧ CsaOk W A T SA (SymOk tk ak) ∧ LexOk W (bwtOf T SA) (SymOk tk ak) ∧ T.length < 2 ^ 63 := by
  obtain ⟨W, A, h1, h2, h3⟩ := csaWt_spec hT hS h
  refine ⟨W, A, h1, h2, ?_, h3⟩
  have hlen := hS.bwt_length
  have hne : bwtOf T SA ≠ [] := by
    intro e
    rw [e, List.length_nil] at hlen
    have := hT.pos
    omega
  have hf : Fits tk ak (bwtOf T SA) := by
    obtain ⟨h1, h2, h3, h4⟩ := h
    have hm : ∀ c, c ∈ bwtOf T SA ↔ c ∈ T := fun c => hS.bwt_perm.mem_iff
    simp only [Fits, hm, hlen]
    exact ⟨h1, h2, h3, h4⟩
  rw [csaWt, constructBwt_spec hS (by omega), sbind] at h1
  cases ha : newAlpha ak (bwtOf T SA) with
  | none => rw [ha] at h1; cases h1
  | some a =>
    rw [ha, sbind] at h1
    cases hw : newWt tk (bwtOf T SA) with
    | none => rw [hw] at h1; cases h1
    | some w =>
      rw [hw, sbind] at h1
      cases h1
      exact newWt_lex hk hne hf hw

end Sdsl.Csa
