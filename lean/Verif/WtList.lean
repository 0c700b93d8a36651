/-
  The functions of the wavelet-tree model in terms of lists.
-/
import Verif.WtIntRange

namespace Sdsl.Wt

open Spec

variable {xs : List Word}

theorem occ_count (a : Word) {i : Nat} (hi : i ≤ xs.length) : occ (fun j => xs.getD j 0#64) (fun b => b == a) i = (xs.take i).count a := by
  rw [occ_list _ i hi, List.count_eq_length_filter]

theorem occ_countP (P : Word → Bool) {i : Nat} (hi : i ≤ xs.length) : occ (fun j => xs.getD j 0#64) P i = (xs.take i).countP P := by
  rw [occ_list _ i hi, List.countP_eq_length_filter]

theorem countP_range (P : Word → Bool) {i j : Nat} (hij : i ≤ j) : (xs.take j).countP P - (xs.take i).countP P = ((xs.take j).drop i).countP P := by
  have h := List.take_append_drop i (xs.take j)
  rw [List.take_take, Nat.min_eq_left hij] at h
  have h2 := congrArg (List.countP P) h
  rw [List.countP_append] at h2
  omega

theorem getD_getElem {i : Nat} (h : i < xs.length) : xs.getD i 0#64 = xs[i] := by simp [h]

/-- The `i`-th occurrence exists. -/
theorem exists_occ (a : Word) : ∀ (xs : List Word) (i : Nat), 0 < i → i ≤ xs.count a → ∃ j, ∃ h : j < xs.length, xs[j] = a ∧ (xs.take j).count a + 1 = i := by
  intro xs
  induction xs with
  | nil => intro i h0 h1; simp at h1; omega
  | cons x xs ih =>
    intro i h0 h1
    rw [List.count_cons] at h1
    by_cases hx : x = a
    · subst hx
      by_cases hi : i = 1
      · exact ⟨0, by simp, rfl, by simp [hi]⟩
      · obtain ⟨j, hj, h2, h3⟩ := ih (i - 1) (by omega) (by simp at h1; omega)
        exact ⟨j + 1, by simpa using hj, by simpa using h2, by rw [List.take_succ_cons, List.count_cons]; simp; omega⟩
    · have hb : (x == a) = false := by simpa using hx
      rw [hb] at h1
      obtain ⟨j, hj, h2, h3⟩ := ih i h0 (by simpa using h1)
      exact ⟨j + 1, by simpa using hj, by simpa using h2, by rw [List.take_succ_cons, List.count_cons, hb]; simpa using h3⟩

theorem distinct_eq {L : Nat} (hL : L ≤ 64) (h : ∀ x ∈ xs, x.toNat < 2 ^ L) : WtInt.distinct L xs = countTrue (fun v => decide (BitVec.ofNat 64 v ∈ xs)) (2 ^ 64) := by
  have hp : 2 ^ L ≤ 2 ^ 64 := Nat.pow_le_pow_right (by decide) hL
  obtain ⟨d, hd⟩ := Nat.exists_eq_add_of_le hp
  rw [hd, countTrue_add]
  have h2 : countTrue (fun i => decide (BitVec.ofNat 64 (2 ^ L + i) ∈ xs)) d = 0 := by
    apply countTrue_none
    intro i hi
    simp only [decide_eq_false_iff_not]
    intro hm
    have := h _ hm
    rw [BitVec.toNat_ofNat, Nat.mod_eq_of_lt (by omega)] at this
    omega
  rw [h2, Nat.add_zero]
  unfold WtInt.distinct
  apply countTrue_congr
  intro v hv
  rw [Bool.eq_iff_iff]
  simp only [List.any_eq_true, beq_iff_eq, decide_eq_true_eq]
  constructor
  · rintro ⟨a, ha, rfl⟩
    rw [BitVec.ofNat_toNat, BitVec.setWidth_eq]; exact ha
  · intro hm
    exact ⟨_, hm, by rw [BitVec.toNat_ofNat, Nat.mod_eq_of_lt (by omega)]⟩

theorem count_pos_range {i j : Nat} (hij : i ≤ j) (a : Word) : (xs.take i).count a < (xs.take j).count a ↔ a ∈ (xs.take j).drop i := by
  have h := countP_range (xs := xs) (fun b => b == a) hij
  have h2 : ((xs.take j).drop i).countP (fun b => b == a) = ((xs.take j).drop i).count a := rfl
  have h3 : ∀ k, (xs.take k).countP (fun b => b == a) = (xs.take k).count a := fun _ => rfl
  rw [h2, h3, h3] at h
  rw [← List.count_pos_iff]
  omega

/-- The entries of `interval_symbols`. -/
theorem mem_entries {L : Nat} (hL : L ≤ 64) (hlt : ∀ x ∈ xs, x.toNat < 2 ^ L) {i j : Nat} (hij : i ≤ j) (hj : j ≤ xs.length) (c : Word) (ri rj : Nat) :
    (c, ri, rj) ∈ (List.range (2 ^ L)).filterMap (WtInt.entry (fun j => xs.getD j 0#64) i j) ↔
      c ∈ (xs.take j).drop i ∧ ri = (xs.take i).count c ∧ rj = (xs.take j).count c := by
  have hp : 2 ^ L ≤ 2 ^ 64 := Nat.pow_le_pow_right (by decide) hL
  rw [List.mem_filterMap]
  constructor
  · rintro ⟨v, hv, he⟩
    unfold WtInt.entry at he
    rw [occ_count _ (by omega), occ_count _ hj] at he
    split at he
    · rename_i hlt2
      simp only [Option.some.injEq, Prod.mk.injEq] at he
      obtain ⟨rfl, rfl, rfl⟩ := he
      exact ⟨(count_pos_range hij _).1 hlt2, rfl, rfl⟩
    · simp at he
  · rintro ⟨h1, rfl, rfl⟩
    have hm : c ∈ xs := (List.take_sublist j xs).mem ((List.drop_sublist i _).mem h1)
    refine ⟨c.toNat, by simpa using hlt c hm, ?_⟩
    unfold WtInt.entry
    rw [BitVec.ofNat_toNat, BitVec.setWidth_eq, occ_count _ (by omega), occ_count _ hj, if_pos ((count_pos_range hij _).2 h1)]

theorem entries_sorted {L : Nat} (hL : L ≤ 64) (x : Nat → Word) (i j : Nat) :
    ((List.range (2 ^ L)).filterMap (WtInt.entry x i j)).Pairwise (fun a b => a.1 < b.1) := by
  have hp : 2 ^ L ≤ 2 ^ 64 := Nat.pow_le_pow_right (by decide) hL
  rw [List.pairwise_filterMap]
  refine List.Pairwise.imp_of_mem ?_ List.pairwise_lt_range
  intro v w hv hw hlt a ha b hb
  have hw : w < 2 ^ L := by simpa using hw
  have e : ∀ v a, WtInt.entry x i j v = some a → a.1 = BitVec.ofNat 64 v := by
    intro v a h
    unfold WtInt.entry at h
    split at h
    · simp only [Option.some.injEq] at h; rw [← h]
    · simp at h
  rw [e v a ha, e w b hb, BitVec.lt_def, BitVec.toNat_ofNat, BitVec.toNat_ofNat, Nat.mod_eq_of_lt (by omega), Nat.mod_eq_of_lt (by omega)]
  exact hlt

/-- The points of `range_search_2d`. -/
theorem mem_box {L : Nat} (hlt : ∀ x ∈ xs, x.toNat < 2 ^ L) {lb re vlb vrb : Nat} (hre : re ≤ xs.length) (q v : Nat) :
    (q, v) ∈ WtInt.box (fun j => xs.getD j 0#64) lb re vlb vrb (List.range (2 ^ L)) ↔
      ∃ h : q < xs.length, lb ≤ q ∧ q < re ∧ xs[q].toNat = v ∧ vlb ≤ v ∧ v ≤ vrb := by
  unfold WtInt.box
  rw [List.mem_flatMap]
  constructor
  · rintro ⟨w, hw, hm⟩
    split at hm
    · rename_i hc
      unfold WtInt.pts at hm
      obtain ⟨q', hq', he⟩ := List.mem_map.1 hm
      obtain ⟨h1, h2⟩ := List.mem_filter.1 hq'
      have h1 := List.mem_range'_1.1 h1
      simp only [Prod.mk.injEq] at he
      obtain ⟨rfl, rfl⟩ := he
      have hq : q' < xs.length := by omega
      simp only [beq_iff_eq] at h2
      rw [getD_getElem hq] at h2
      exact ⟨hq, h1.1, by omega, h2, hc.1, hc.2⟩
    · simp at hm
  · rintro ⟨hq, h1, h2, rfl, h4, h5⟩
    refine ⟨xs[q].toNat, by simpa using hlt _ (List.getElem_mem hq), ?_⟩
    rw [if_pos ⟨h4, h5⟩]
    unfold WtInt.pts
    apply List.mem_map.2
    refine ⟨q, List.mem_filter.2 ⟨List.mem_range'_1.2 ⟨h1, by omega⟩, ?_⟩, rfl⟩
    show (xs.getD q 0#64).toNat == _
    rw [getD_getElem hq]; simp

/-- Points are listed by symbol, then by index. -/
theorem box_sorted (x : Nat → Word) (lb re vlb vrb N : Nat) :
    (WtInt.box x lb re vlb vrb (List.range N)).Pairwise (fun a b => a.2 < b.2 ∨ (a.2 = b.2 ∧ a.1 < b.1)) := by
  unfold WtInt.box
  rw [List.flatMap_def, List.pairwise_flatten]
  refine ⟨?_, ?_⟩
  · intro l hl
    obtain ⟨v, _, rfl⟩ := List.mem_map.1 hl
    split
    · unfold WtInt.pts
      rw [List.pairwise_map]
      refine List.Pairwise.imp (fun h => Or.inr ⟨rfl, h⟩) ?_
      exact List.Pairwise.filter _ List.pairwise_lt_range'
    · exact List.Pairwise.nil
  · rw [List.pairwise_map]
    refine List.Pairwise.imp ?_ List.pairwise_lt_range
    intro v w hvw a ha b hb
    have e : ∀ v a, a ∈ (if vlb ≤ v ∧ v ≤ vrb then WtInt.pts x lb re v else []) → a.2 = v := by
      intro v a h
      split at h
      · unfold WtInt.pts at h
        obtain ⟨q, _, rfl⟩ := List.mem_map.1 h; rfl
      · simp at h
    rw [e v a ha, e w b hb]
    exact Or.inl hvw

end Sdsl.Wt
