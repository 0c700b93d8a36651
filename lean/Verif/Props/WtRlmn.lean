import Verif.CsaNew

/-! # C71, C72: the composed wavelet trees wt_rlmn and wt_ap -/

namespace Sdsl.Props
open Sdsl Sdsl.Csa

/-- The answers of a wavelet tree for the sequence `L`; `Q` are the symbols that the type of the tree can represent. -/
def SeqAnswers (W : Csa.Wt) (L : List Nat) (Q : Nat → Prop) : Prop :=
  W.size = L.length ∧
  (∀ i (hi : i < L.length), W.get i = some L[i]) ∧
  (∀ i c, i ≤ L.length → Q c → W.rank i c = some ((L.take i).count c)) ∧
  (∀ k c, 0 < k → k ≤ L.count c → ∃ p, W.select k c = some p ∧ ∃ hp : p < L.length, L[p] = c ∧ (L.take p).count c = k - 1) ∧
  ∀ i (hi : i < L.length), W.inverseSelect i = some ((L.take i).count L[i], L[i])

theorem exists_occ {L : List Nat} {c k : Nat} (hk : k < L.count c) : ∃ p, ∃ hp : p < L.length, L[p] = c ∧ (L.take p).count c = k := by
  induction L generalizing k with
  | nil => simp at hk
  | cons a L ih =>
    rw [List.count_cons] at hk
    by_cases e : a = c
    · subst e
      cases k with
      | zero => exact ⟨0, by simp, rfl, rfl⟩
      | succ k =>
        obtain ⟨p, hp, h1, h2⟩ := ih (k := k) (by simp at hk; omega)
        exact ⟨p + 1, by simpa using hp, by simpa using h1, by simp [h2]⟩
    · obtain ⟨p, hp, h1, h2⟩ := ih (k := k) (by simpa [e] using hk)
      exact ⟨p + 1, by simpa using hp, by simpa using h1, by simp [h2, e]⟩

theorem seqAnswers_of {W : Csa.Wt} {L : List Nat} {Q : Nat → Prop} (h : WtOk W L Q) : SeqAnswers W L Q := by
  have hs : ∀ i (hi : i < L.length), sym L i = L[i] := fun i hi => by simp [sym, hi]
  refine ⟨h.size, fun i hi => by rw [h.get i hi, hs i hi], h.rank, fun k c h0 hk => ?_, fun i hi => by rw [h.inverse i hi, hs i hi]⟩
  obtain ⟨p, hp, e1, e2⟩ := exists_occ (k := k - 1) (show k - 1 < L.count c by omega)
  refine ⟨p, ?_, hp, e1, e2⟩
  have := h.select p hp
  rw [hs p hp, e1, e2, Nat.sub_add_cancel h0] at this
  exact this

/-- C71. `wt_rlmn` over any of the modelled wavelet trees (also over another composed one) answers for the sequence itself. -/
theorem C71_wt_rlmn (tk : TreeKind) {L : List Nat} (hL : L ≠ []) (hF : Fits (.rlmn tk) .int L) :
    ∃ W, newWt (.rlmn tk) L = some W ∧ SeqAnswers W L (SymOk (.rlmn tk) .int) := by
  obtain ⟨W, h1, h2⟩ := newWt_spec hL hF
  exact ⟨W, h1, seqAnswers_of h2⟩

/-- The inner wavelet tree is used only through its answers: any tree that is correct for the sequence of the run heads gives a correct `wt_rlmn`. -/
theorem C71_any_inner {byte : Bool} {mk : List Nat → Option Csa.Wt} {L : List Nat} {Q : Nat → Prop} (hL : L ≠ []) (hb : byte = true → ∀ c ∈ L, c < 256) (h3 : ∀ c ∈ L, c < 2 ^ 63) (hn : L.length < 2 ^ 63)
    (hmk : ∀ M : List Nat, M ≠ [] → M.length ≤ L.length → (∀ c ∈ M, c ∈ L) → ∃ W, mk M = some W ∧ WtOk W M Q) :
    ∃ t, Rlmn.new byte mk L = some t ∧ SeqAnswers (Rlmn.wt t) L Q := by
  obtain ⟨W, w1, w2⟩ := hmk _ (Rlmn.heads_ne_nil hL) (Rlmn.heads_length_le _ _) (fun c hc => Rlmn.heads_mem (Nat.le_refl _) hc)
  obtain ⟨t, e1, e2⟩ := Rlmn.new_spec hL hb h3 hn w1 w2
  exact ⟨t, e1, seqAnswers_of e2.wtOk⟩

/-- The empty sequence: `size()` is 0 and `rank(0, c)` is 0 for all `c`. -/
theorem C71_empty (tk : TreeKind) : ∃ W, newWt (.rlmn tk) [] = some W ∧ SeqAnswers W [] (fun _ => True) :=
  ⟨_, rfl, rfl, by simp, fun i c hi _ => by
    obtain rfl : i = 0 := by simpa using hi
    rfl, by simp; omega, by simp⟩

/-- C72. `wt_ap` over any of the modelled wavelet trees, also for symbols that do not occur. -/
theorem C72_wt_ap (tb ti : TreeKind) {L : List Nat} (hL : L ≠ []) (hF : Fits (.ap tb ti) .int L) :
    ∃ W, newWt (.ap tb ti) L = some W ∧ SeqAnswers W L (fun c => c < 2 ^ 64) := by
  obtain ⟨W, h1, h2⟩ := newWt_spec hL hF
  exact ⟨W, h1, seqAnswers_of (h2.weaken (fun c hc => ⟨hc, by simp [TreeKind.isByte]⟩))⟩

/-- The empty sequence. -/
theorem C72_empty (tb ti : TreeKind) : ∃ W, newWt (.ap tb ti) [] = some W ∧ SeqAnswers W [] (fun _ => True) :=
  ⟨_, rfl, rfl, by simp, by simp [Ap.wt, Ap.rank, Ap.classOffset, Rlmn.emptyWt], by simp; omega, by simp⟩

/-! ### Examples -/

def rlSample : List Nat := [3, 3, 3, 1, 1, 3, 0, 0, 0, 0, 1, 1, 7]

example : Fits (.rlmn (.huff true)) .int rlSample ∧ Fits (.rlmn (.rlmn .wmInt)) .int rlSample ∧ Fits (.ap (.huff true) .wmInt) .int rlSample ∧ Fits (.ap (.rlmn .wtInt) (.ap .wmInt .wtInt)) .int rlSample :=
  ⟨⟨fun _ => by decide, by decide, by decide, by decide⟩, ⟨fun _ => by decide, by decide, by decide, by decide⟩, ⟨fun _ => by decide, by decide, by decide, by decide⟩, ⟨fun _ => by decide, by decide, by decide, by decide⟩⟩

def wtRun {α : Type} (tk : TreeKind) (L : List Nat) (f : Csa.Wt → Option α) : Option α := (newWt tk L).bind f

example : wtRun (.rlmn (.huff true)) rlSample (fun W => (List.range 13).mapM W.get) = some rlSample := by decide +kernel

example : wtRun (.rlmn .wmInt) rlSample (fun W => W.rank 12 1) = some 4 ∧ wtRun (.rlmn .wmInt) rlSample (fun W => W.rank 11 5) = some 0 ∧ wtRun (.rlmn .wmInt) rlSample (fun W => W.select 4 3) = some 5 ∧
    wtRun (.rlmn .wmInt) rlSample (fun W => W.inverseSelect 8) = some (2, 0) := by decide +kernel

example : wtRun (.ap (.huff true) .wmInt) rlSample (fun W => (List.range 13).mapM W.get) = some rlSample := by decide +kernel

example : wtRun (.ap (.huff true) .wmInt) rlSample (fun W => W.rank 12 1) = some 4 ∧ wtRun (.ap (.huff true) .wmInt) rlSample (fun W => W.rank 11 5) = some 0 ∧ wtRun (.ap (.huff true) .wmInt) rlSample (fun W => W.select 4 3) = some 5 ∧
    wtRun (.ap (.huff true) .wmInt) rlSample (fun W => W.inverseSelect 8) = some (2, 0) := by decide +kernel

end Sdsl.Props
