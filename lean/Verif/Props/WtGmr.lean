import Verif.WtGmrFull
import Verif.Props.WtRlmn

/-! # C78, C79, C80: inv_multi_perm_support, wt_gmr_rs and wt_gmr -/

namespace Sdsl.Props
open Sdsl Sdsl.Csa

/-- Every block of `cs` elements (the last one may be shorter) is a permutation of `0, 1, …`. -/
def BlockPerms (cs : Nat) (v : List Nat) : Prop := 0 < cs ∧ ∀ o, ((v.drop (o * cs)).take cs).Perm (List.range ((v.drop (o * cs)).take cs).length)

theorem isChunks_of_blocks {cs : Nat} {v : List Nat} (h : BlockPerms cs v) : Gmr.IsChunks cs v := by
  obtain ⟨h0, h⟩ := h
  have hat : ∀ j, ((v.drop (j / cs * cs)).take cs)[j % cs]? = v[j]? := by
    intro j
    have h1 := Nat.div_add_mod j cs
    rw [Nat.mul_comm] at h1
    rw [List.getElem?_take, if_pos (Nat.mod_lt _ h0), List.getElem?_drop, h1]
  refine ⟨h0, fun j x hx => ?_, fun i j x e hi hj => ?_⟩
  · rw [← hat] at hx
    have := (h (j / cs)).mem_iff.1 (List.mem_of_getElem? hx)
    rw [List.mem_range, List.length_take, List.length_drop] at this
    omega
  · rw [← hat] at hi hj
    rw [← e] at hj
    have hn : ((v.drop (i / cs * cs)).take cs).Nodup := (h (i / cs)).nodup_iff.2 List.nodup_range
    obtain ⟨a1, a2⟩ := List.getElem?_eq_some_iff.1 hi
    obtain ⟨b1, b2⟩ := List.getElem?_eq_some_iff.1 hj
    have := (hn.getElem_inj_iff).1 (a2.trans b2.symm)
    rw [← Nat.div_add_mod i cs, ← Nat.div_add_mod j cs, this, e]

/-- C78. The inverse of a sequence of permutations: `operator[](i)` is the position whose element, counted from the beginning of its chunk, is `i`. At most `ts` steps are made. -/
theorem C78_inverse {cs ts : Nat} {v : List Nat} (hv : BlockPerms cs v) (hts : 0 < ts) (hn : v.length ≤ 2 ^ 64) :
    ∃ p, Gmr.Imp.new ts v cs = some p ∧ ∀ i, i < v.length → ∃ j, p.get ts i = some j ∧ ∃ hj : j < v.length, j / cs * cs + v[j] = i := by
  obtain ⟨p, h1, _, _, h2⟩ := Gmr.imp_spec (ts := ts) (isChunks_of_blocks hv) hn
  refine ⟨p, h1, fun i hi => ?_⟩
  obtain ⟨j, x, j1, j2, j3⟩ := h2 ts i hi (.inr ⟨hts, rfl⟩)
  obtain ⟨a1, a2⟩ := List.getElem?_eq_some_iff.1 j2
  exact ⟨j, j1, a1, by rw [a2]; omega⟩

/-- Also for `t_s = 0`, where no bound on the steps is promised. -/
theorem C78_inverse_any {cs : Nat} (ts : Nat) {v : List Nat} (hv : BlockPerms cs v) (hn : v.length ≤ 2 ^ 64) :
    ∃ p, Gmr.Imp.new ts v cs = some p ∧ ∀ fuel i, 2 * v.length ≤ fuel → i < v.length → ∃ j, p.get fuel i = some j ∧ ∃ hj : j < v.length, j / cs * cs + v[j] = i := by
  obtain ⟨p, h1, _, _, h2⟩ := Gmr.imp_spec (ts := ts) (isChunks_of_blocks hv) hn
  refine ⟨p, h1, fun fuel i hf hi => ?_⟩
  obtain ⟨j, x, j1, j2, j3⟩ := h2 fuel i hi (.inl hf)
  obtain ⟨a1, a2⟩ := List.getElem?_eq_some_iff.1 j2
  exact ⟨j, j1, a1, by rw [a2]; omega⟩

/-- C79. `wt_gmr_rs` answers for the sequence, for all symbols; `m_sigma` is the number of different symbols. -/
theorem C79_wt_gmr_rs {L : List Nat} (hn : L.length < 2 ^ 62) (hs : ∀ c ∈ L, c < 2 ^ 62) :
    ∃ t, Gmr.Rs.new L = some t ∧ SeqAnswers t.wt L (fun _ => True) ∧ t.sigma = L.toFinset.card := by
  obtain ⟨t, g, h1, h2, h3⟩ := Gmr.rs_new hn hs
  exact ⟨t, h1, seqAnswers_of h2.wtOk, h3⟩

/-- C80. `wt_gmr` answers for the sequence, for all symbols and all parameters `t_s` of the inverse permutations; `m_sigma` is the number of different symbols. -/
theorem C80_wt_gmr (ts : Nat) {L : List Nat} (hn : L.length < 2 ^ 62) (hs : ∀ c ∈ L, c < 2 ^ 62) :
    ∃ t, Gmr.Gm.new ts L = some t ∧ SeqAnswers t.wt L (fun _ => True) ∧ t.sigma = L.toFinset.card := by
  obtain ⟨t, g, g', h1, h2, h3⟩ := Gmr.gm_new ts hn hs
  exact ⟨t, h1, seqAnswers_of h2.wtOk, h3⟩

/-- The two structures agree on all queries that are defined. -/
theorem C80_agree (ts : Nat) {L : List Nat} (hn : L.length < 2 ^ 62) (hs : ∀ c ∈ L, c < 2 ^ 62) :
    ∃ r t, Gmr.Rs.new L = some r ∧ Gmr.Gm.new ts L = some t ∧ (∀ i, i < L.length → r.get i = t.get i ∧ r.inverseSelect i = t.inverseSelect i) ∧ (∀ i c, i ≤ L.length → r.rank i c = t.rank i c) ∧
      r.sigma = t.sigma := by
  obtain ⟨r, _, r1, r2, r3⟩ := Gmr.rs_new hn hs
  obtain ⟨t, _, _, t1, t2, t3⟩ := Gmr.gm_new ts hn hs
  exact ⟨r, t, r1, t1, fun i hi => ⟨by rw [r2.get hi, t2.get hi], by rw [r2.inverse hi, t2.inverse hi]⟩, fun i c hi => by rw [r2.rank hi, t2.rank hi], by rw [r3, t3]⟩

/-! ### Examples -/

example : BlockPerms 4 [2, 0, 3, 1, 1, 2, 0] ∧ ¬ BlockPerms 4 [2, 0, 3, 1, 1, 3, 0] := by
  constructor
  · refine ⟨by decide, fun o => ?_⟩
    rcases o with _ | _ | o
    · decide
    · decide
    · rw [List.drop_of_length_le (by simp; omega)]; simp
  · intro h
    exact absurd (h.2 1) (by decide)

example : ((Gmr.Imp.new 1 [2, 0, 3, 1, 1, 2, 0] 4).bind fun p => (List.range 7).mapM (p.get 1)) = some [1, 3, 0, 2, 6, 4, 5] := by decide +kernel

def gmSample : List Nat := [3, 1, 4, 1, 5, 2, 6, 5, 3, 5, 0, 9, 7, 9, 3, 2, 3, 0, 4, 6]

example : gmSample.length < 2 ^ 62 ∧ ∀ c ∈ gmSample, c < 2 ^ 62 := by decide

example : ((Gmr.Rs.new gmSample).bind fun t => (List.range 20).mapM t.get) = some gmSample := by decide +kernel

example : ((Gmr.Rs.new gmSample).bind fun t => t.rank 15 3) = some 3 ∧ ((Gmr.Rs.new gmSample).bind fun t => t.select 3 5) = some 9 ∧ ((Gmr.Rs.new gmSample).bind fun t => t.inverseSelect 16) = some (3, 3) ∧
    ((Gmr.Rs.new gmSample).bind fun t => t.rank 20 11) = some 0 ∧ ((Gmr.Rs.new gmSample).map (·.sigma)) = some 9 := by decide +kernel

example : ((Gmr.Gm.new 2 gmSample).bind fun t => (List.range 20).mapM t.get) = some gmSample := by decide +kernel

example : ((Gmr.Gm.new 32 gmSample).bind fun t => t.rank 15 3) = some 3 ∧ ((Gmr.Gm.new 32 gmSample).bind fun t => t.select 3 5) = some 9 ∧ ((Gmr.Gm.new 32 gmSample).bind fun t => t.inverseSelect 16) = some (3, 3) ∧
    ((Gmr.Gm.new 32 gmSample).bind fun t => t.rank 20 8) = some 0 ∧ ((Gmr.Gm.new 32 gmSample).map (·.sigma)) = some 9 := by decide +kernel

/-- More than 50 occurrences of one symbol in a chunk: the binary search is used. -/
example : ((Gmr.Rs.new (List.replicate 60 1 ++ [99] ++ List.replicate 60 1)).bind fun t => do let a ← t.rank 80 1; let b ← t.get 70; let c ← t.get 60; pure [a, b, c]) = some [79, 1, 99] := by decide +kernel

example : ((Gmr.Gm.new 32 (List.replicate 60 1 ++ [99] ++ List.replicate 60 1)).bind fun t => do let a ← t.rank 80 1; let b ← t.get 70; let c ← t.get 60; pure [a, b, c]) = some [79, 1, 99] := by decide +kernel

/-- The empty sequence. -/
example : ((Gmr.Rs.new []).map fun t => (t.size, t.sigma)) = some (0, 0) ∧ ((Gmr.Gm.new 32 []).map fun t => (t.size, t.sigma)) = some (0, 0) := by decide +kernel

end Sdsl.Props
