/-
  Stable regrouping of a sequence, level by level: the sequences of the levels of a wavelet tree.
-/
import Verif.WtNode

namespace Sdsl.Wt

open Spec

variable {α : Type}

/-- Partition every maximal run of equal keys stably by the bit `β`. -/
def regroup (key : α → Nat) (β : α → Bool) : List α → List α
  | [] => []
  | x :: T =>
    let U := x :: T.takeWhile (fun y => key y == key x)
    U.filter (fun y => !β y) ++ U.filter β ++ regroup key β (T.dropWhile (fun y => key y == key x))
termination_by l => l.length
decreasing_by
  have := (List.dropWhile_sublist (l := T) (fun y => key y == key x)).length_le
  simp; omega

/-- Number of non-empty parts produced by `regroup`. -/
def parts (key : α → Nat) (β : α → Bool) : List α → Nat
  | [] => 0
  | x :: T =>
    let U := x :: T.takeWhile (fun y => key y == key x)
    (decide ((U.filter (fun y => !β y)).length > 0)).toNat + (decide ((U.filter β).length > 0)).toNat +
      parts key β (T.dropWhile (fun y => key y == key x))
termination_by l => l.length
decreasing_by
  have := (List.dropWhile_sublist (l := T) (fun y => key y == key x)).length_le
  simp; omega

variable {key : α → Nat} {β : α → Bool}

/-- The list is sorted by `key`. -/
def Sorted (key : α → Nat) (l : List α) : Prop := l.Pairwise (fun a b => key a ≤ key b)

/-- A sorted list is its first run followed by bigger keys. -/
theorem run_split {x : α} {T : List α} (h : Sorted key (x :: T)) :
    (∀ y ∈ x :: T.takeWhile (fun y => key y == key x), key y = key x) ∧ (∀ y ∈ T.dropWhile (fun y => key y == key x), key x < key y) ∧
    Sorted key (T.dropWhile (fun y => key y == key x)) := by
  obtain ⟨h1, h2⟩ := List.pairwise_cons.1 h
  refine ⟨?_, ?_, List.Pairwise.sublist (List.dropWhile_sublist _) h2⟩
  · intro y hy
    rcases List.mem_cons.1 hy with rfl | hy
    · rfl
    · have : ∀ (l : List α) (y : α), y ∈ l.takeWhile (fun y => key y == key x) → key y = key x := by
        intro l
        induction l with
        | nil => intro y hy; simp at hy
        | cons z l ih =>
          intro y hy
          rw [List.takeWhile_cons] at hy
          by_cases hz : (key z == key x) = true
          · rw [if_pos hz] at hy
            rcases List.mem_cons.1 hy with rfl | hy
            · simpa using hz
            · exact ih y hy
          · rw [if_neg hz] at hy; simp at hy
      exact this T y hy
  · have : ∀ (l : List α), l.Pairwise (fun a b => key a ≤ key b) → (∀ y ∈ l, key x ≤ key y) →
        ∀ y ∈ l.dropWhile (fun y => key y == key x), key x < key y := by
      intro l
      induction l with
      | nil => intro _ _ y hy; simp at hy
      | cons z l ih =>
        intro hp hge y hy
        obtain ⟨g1, g2⟩ := List.pairwise_cons.1 hp
        rw [List.dropWhile_cons] at hy
        by_cases hz : (key z == key x) = true
        · rw [if_pos hz] at hy
          exact ih g2 (fun y hy => hge y (List.mem_cons_of_mem _ hy)) y hy
        · rw [if_neg hz] at hy
          have hz' : key x < key z := by
            have := hge z (by simp)
            have : key z ≠ key x := by simpa using hz
            omega
          rcases List.mem_cons.1 hy with rfl | hy
          · exact hz'
          · have := g1 y hy; omega
    exact this T h2 h1

/-- Strong induction along the runs. -/
theorem run_induction {motive : List α → Prop} (nil : motive [])
    (cons : ∀ x T, motive (T.dropWhile (fun y => key y == key x)) → motive (x :: T)) : ∀ l, motive l
  | [] => nil
  | x :: T => cons x T (run_induction nil cons _)
termination_by l => l.length
decreasing_by
  have := (List.dropWhile_sublist (l := T) (fun y => key y == key x)).length_le
  simp; omega

theorem regroup_cons (x : α) (T : List α) : regroup key β (x :: T) = (x :: T.takeWhile (fun y => key y == key x)).filter (fun y => !β y) ++
    (x :: T.takeWhile (fun y => key y == key x)).filter β ++ regroup key β (T.dropWhile (fun y => key y == key x)) := by
  rw [regroup]

theorem runs_append (x : α) (T : List α) : x :: T = (x :: T.takeWhile (fun y => key y == key x)) ++ T.dropWhile (fun y => key y == key x) := by
  rw [List.cons_append, List.takeWhile_append_dropWhile]

theorem partition_perm (l : List α) : (l.filter (fun y => !β y) ++ l.filter β).Perm l := by
  refine List.perm_append_comm.trans ?_
  exact List.filter_append_perm β l

theorem regroup_perm (l : List α) : (regroup key β l).Perm l := by
  induction l using run_induction (key := key) with
  | nil => rw [regroup]
  | cons x T ih =>
    rw [regroup_cons]
    conv => rhs; rw [runs_append (key := key) x T]
    exact List.Perm.append (partition_perm _) ih

theorem mem_regroup {l : List α} {y : α} : y ∈ regroup key β l ↔ y ∈ l := (regroup_perm l).mem_iff

/-- The refined key. -/
def key' (key : α → Nat) (β : α → Bool) (a : α) : Nat := 2 * key a + (β a).toNat

theorem regroup_sorted {l : List α} (h : Sorted key l) : Sorted (key' key β) (regroup key β l) := by
  induction l using run_induction (key := key) with
  | nil => rw [regroup]; exact List.Pairwise.nil
  | cons x T ih =>
    obtain ⟨h1, h2, h3⟩ := run_split h
    rw [regroup_cons]
    unfold Sorted
    rw [List.pairwise_append, List.pairwise_append]
    refine ⟨⟨?_, ?_, ?_⟩, ih h3, ?_⟩
    · apply List.pairwise_of_forall_mem_list
      intro a ha b hb
      obtain ⟨ha1, ha2⟩ := List.mem_filter.1 ha
      obtain ⟨hb1, hb2⟩ := List.mem_filter.1 hb
      have := h1 a ha1
      have := h1 b hb1
      simp only [Bool.not_eq_true'] at ha2 hb2
      simp only [key', ha2, hb2, Bool.toNat_false]; omega
    · apply List.pairwise_of_forall_mem_list
      intro a ha b hb
      obtain ⟨ha1, ha2⟩ := List.mem_filter.1 ha
      obtain ⟨hb1, hb2⟩ := List.mem_filter.1 hb
      have := h1 a ha1
      have := h1 b hb1
      simp only [key', ha2, hb2, Bool.toNat_true]; omega
    · intro a ha b hb
      obtain ⟨ha1, ha2⟩ := List.mem_filter.1 ha
      obtain ⟨hb1, hb2⟩ := List.mem_filter.1 hb
      have := h1 a ha1
      have := h1 b hb1
      simp only [Bool.not_eq_true'] at ha2
      simp only [key', ha2, hb2, Bool.toNat_false, Bool.toNat_true]; omega
    · intro a ha b hb
      have ha1 : a ∈ x :: T.takeWhile (fun y => key y == key x) := by
        rcases List.mem_append.1 ha with ha | ha <;> exact (List.mem_filter.1 ha).1
      have := h1 a ha1
      have := h2 b (mem_regroup.1 hb)
      have : (β a).toNat ≤ 1 := Bool.toNat_le _
      simp only [key']; omega

theorem filter_partition {U : List α} {q : Nat} :
    (U.filter (fun y => !β y)).filter (fun y => key' key β y == q) ++ (U.filter β).filter (fun y => key' key β y == q) =
      U.filter (fun y => key' key β y == q) := by
  rw [List.filter_filter, List.filter_filter]
  by_cases hq : q % 2 = 0
  · have e1 : U.filter (fun a => (key' key β a == q) && β a) = [] := by
      rw [List.filter_eq_nil_iff]
      intro a ha
      simp only [Bool.and_eq_true, beq_iff_eq, not_and, key']
      intro h2 h3
      rw [h3] at h2; simp at h2; omega
    rw [e1, List.append_nil]
    apply List.filter_congr
    intro a ha
    by_cases h2 : key' key β a = q
    · have : β a = false := by
        cases hb : β a
        · rfl
        · simp only [key', hb, Bool.toNat_true] at h2; omega
      simp [h2, this]
    · have : (key' key β a == q) = false := by simpa using h2
      rw [this]; rfl
  · have e1 : U.filter (fun a => (key' key β a == q) && !β a) = [] := by
      rw [List.filter_eq_nil_iff]
      intro a ha
      simp only [Bool.and_eq_true, beq_iff_eq, not_and, key']
      intro h2 h3
      simp only [Bool.not_eq_true'] at h3
      rw [h3] at h2; simp at h2; omega
    rw [e1, List.nil_append]
    apply List.filter_congr
    intro a ha
    by_cases h2 : key' key β a = q
    · have : β a = true := by
        cases hb : β a
        · simp only [key', hb, Bool.toNat_false] at h2; omega
        · rfl
      simp [h2, this]
    · have : (key' key β a == q) = false := by simpa using h2
      rw [this]; rfl

theorem regroup_filter {l : List α} (h : Sorted key l) (q : Nat) :
    (regroup key β l).filter (fun y => key' key β y == q) = l.filter (fun y => key' key β y == q) := by
  induction l using run_induction (key := key) with
  | nil => rw [regroup]
  | cons x T ih =>
    obtain ⟨h1, h2, h3⟩ := run_split h
    rw [regroup_cons]
    conv => rhs; rw [runs_append (key := key) x T]
    rw [List.filter_append, List.filter_append, List.filter_append, filter_partition, ih h3]

/-! ### Positions in the sorted sequence -/

/-- A sorted list consists of the smaller keys, the keys `p`, and the bigger ones. -/
theorem sorted_split {l : List α} (h : Sorted key l) (p : Nat) :
    ∃ R, l = l.filter (fun a => decide (key a < p)) ++ (l.filter (fun a => key a == p) ++ R) := by
  induction l with
  | nil => exact ⟨[], rfl⟩
  | cons x l ih =>
    obtain ⟨h1, h2⟩ := List.pairwise_cons.1 h
    obtain ⟨R, hR⟩ := ih h2
    rcases Nat.lt_trichotomy (key x) p with hlt | heq | hgt
    · refine ⟨R, ?_⟩
      rw [List.filter_cons, if_pos (by simpa using hlt), List.filter_cons, if_neg (by simp; omega), List.cons_append]
      rw [← hR]
    · have e : l.filter (fun a => decide (key a < p)) = [] := by
        rw [List.filter_eq_nil_iff]
        intro a ha
        have := h1 a ha
        simp; omega
      rw [e, List.nil_append] at hR
      refine ⟨R, ?_⟩
      rw [List.filter_cons, if_neg (by simp; omega), e, List.filter_cons, if_pos (by simpa using heq), List.nil_append, List.cons_append, ← hR]
    · have e : l.filter (fun a => decide (key a < p)) = [] := by
        rw [List.filter_eq_nil_iff]
        intro a ha
        have := h1 a ha
        simp; omega
      have e2 : l.filter (fun a => key a == p) = [] := by
        rw [List.filter_eq_nil_iff]
        intro a ha
        have := h1 a ha
        simp; omega
      refine ⟨x :: l, ?_⟩
      rw [List.filter_cons, if_neg (by simp; omega), e, List.filter_cons, if_neg (by simp; omega), e2]; rfl

theorem filter_getElem? (f : α → Bool) : ∀ (c : List α) (i : Nat) (h : i < c.length), f c[i] = true →
    (c.filter f)[((c.take i).filter f).length]? = some c[i] := by
  intro c
  induction c with
  | nil => intro i h; simp at h
  | cons x c ih =>
    intro i h hf
    cases i with
    | zero =>
      rw [List.getElem_cons_zero] at hf ⊢
      simp [hf]
    | succ i =>
      rw [List.getElem_cons_succ] at hf ⊢
      have := ih i (by simpa using h) hf
      rw [List.take_succ_cons, List.filter_cons, List.filter_cons]
      by_cases hx : f x = true
      · rw [if_pos hx, if_pos hx, List.length_cons, List.getElem?_cons_succ]; exact this
      · rw [if_neg hx, if_neg hx]; exact this

/-- Occurrences counted in a list. -/
theorem occ_list {d : α} {xs : List α} (P : α → Bool) : ∀ i, i ≤ xs.length → occ (fun j => xs.getD j d) P i = ((xs.take i).filter P).length := by
  intro i
  induction i with
  | zero => intro _; simp [occ_zero]
  | succ i ih =>
    intro hi
    have hlt : i < xs.length := by omega
    rw [occ_succ, ih (by omega), List.take_add_one, List.filter_append, List.length_append]
    have e : xs.getD i d = xs[i] := by simp [hlt]
    rw [e, List.getElem?_eq_getElem hlt]
    simp only [Option.toList_some, List.filter_cons, List.filter_nil]
    cases P xs[i] <;> rfl

theorem occ_list_all {d : α} {xs : List α} (P : α → Bool) : occ (fun j => xs.getD j d) P xs.length = (xs.filter P).length := by
  rw [occ_list P xs.length (Nat.le_refl _), List.take_length]

/-- `S` is `xs` stably sorted by `key`. -/
structure StableSort (key : α → Nat) (xs S : List α) : Prop where
  sorted : Sorted key S
  perm : S.Perm xs
  filter : ∀ p, S.filter (fun a => key a == p) = xs.filter (fun a => key a == p)

theorem StableSort.regroup {xs S : List α} (h : StableSort key xs S) (β : α → Bool) : StableSort (key' key β) xs (regroup key β S) := by
  refine ⟨regroup_sorted h.sorted, (regroup_perm S).trans h.perm, ?_⟩
  intro q
  rw [regroup_filter h.sorted]
  have e : ∀ l : List α, l.filter (fun y => key' key β y == q) = (l.filter (fun y => key y == q / 2)).filter (fun y => key' key β y == q) := by
    intro l
    rw [List.filter_filter]
    apply List.filter_congr
    intro a _
    by_cases h2 : key' key β a = q
    · have : key a = q / 2 := by
        have : (β a).toNat ≤ 1 := Bool.toNat_le _
        unfold key' at h2; omega
      simp [h2, this]
    · have : (key' key β a == q) = false := by simpa using h2
      rw [this]; rfl
  rw [e, h.filter, ← e]

theorem StableSort.getElem? {d : α} {xs S : List α} (h : StableSort key xs S) {j : Nat} (hj : j < xs.length) :
    S[occ (fun j => xs.getD j d) (fun a => decide (key a < key (xs.getD j d))) xs.length +
      occ (fun j => xs.getD j d) (fun a => key a == key (xs.getD j d)) j]? = some (xs.getD j d) := by
  have e : xs.getD j d = xs[j] := by simp [hj]
  obtain ⟨R, hR⟩ := sorted_split h.sorted (key (xs.getD j d))
  have h1 : (S.filter (fun a => decide (key a < key (xs.getD j d)))).length =
      occ (fun j => xs.getD j d) (fun a => decide (key a < key (xs.getD j d))) xs.length := by
    rw [occ_list_all, ← List.countP_eq_length_filter, ← List.countP_eq_length_filter, h.perm.countP_eq]
  have h2 := filter_getElem? (fun a => key a == key (xs.getD j d)) xs j hj (by rw [e]; simp)
  rw [← occ_list (d := d) _ j (by omega), ← h.filter] at h2
  conv => lhs; rw [hR]
  rw [List.getElem?_append_right (by omega), h1, Nat.add_sub_cancel_left, List.getElem?_append_left, h2, e]
  apply Decidable.byContradiction
  intro h3
  rw [List.getElem?_eq_none (by omega)] at h2
  simp at h2

theorem StableSort.init {xs : List α} (h : ∀ a ∈ xs, key a = 0) : StableSort key xs xs := by
  refine ⟨?_, List.Perm.refl _, fun _ => rfl⟩
  apply List.pairwise_of_forall_mem_list
  intro a ha b hb
  rw [h a ha, h b hb]; exact Nat.le_refl _

/-! ### Distinct refined keys -/

theorem countTrue_or {f g : Nat → Bool} {n : Nat} (h : ∀ i, i < n → ¬(f i = true ∧ g i = true)) :
    countTrue (fun i => f i || g i) n = countTrue f n + countTrue g n := by
  induction n with
  | zero => rfl
  | succ n ih =>
    rw [countTrue, countTrue, countTrue, ih (fun i hi => h i (by omega))]
    have := h n (by omega)
    cases hf : f n <;> cases hg : g n <;> simp [hf, hg] at this ⊢ <;> omega

theorem countTrue_none {f : Nat → Bool} {n : Nat} (h : ∀ i, i < n → f i = false) : countTrue f n = 0 := by
  induction n with
  | zero => rfl
  | succ n ih => rw [countTrue, ih (fun i hi => h i (by omega)), h n (by omega)]; rfl

theorem countTrue_single {n v : Nat} (h : v < n) : countTrue (fun i => i == v) n = 1 := by
  induction n with
  | zero => omega
  | succ n ih =>
    rw [countTrue]
    by_cases hv : v = n
    · subst hv
      rw [countTrue_none]
      · simp
      · intro i hi; simp; omega
    · rw [ih (by omega)]
      have : (n == v) = false := by simp; omega
      rw [this]; rfl

/-- The number of parts is the number of different refined keys. -/
theorem parts_eq {l : List α} (h : Sorted key l) {N : Nat} (hN : ∀ a ∈ l, key' key β a < N) :
    parts key β l = countTrue (fun v => l.any (fun a => key' key β a == v)) N := by
  induction l using run_induction (key := key) with
  | nil =>
    rw [parts, countTrue_none]
    intro i _; rfl
  | cons x T ih =>
    obtain ⟨h1, h2, h3⟩ := run_split h
    have hU : ∀ a ∈ x :: T.takeWhile (fun y => key y == key x), a ∈ x :: T := by
      intro a ha
      rw [runs_append (key := key) x T]; exact List.mem_append_left _ ha
    have hV : ∀ a ∈ T.dropWhile (fun y => key y == key x), a ∈ x :: T := by
      intro a ha
      rw [runs_append (key := key) x T]; exact List.mem_append_right _ ha
    rw [parts, ih h3 (fun a ha => hN a (hV a ha))]
    have e1 : ∀ v, (x :: T).any (fun a => key' key β a == v) =
        ((x :: T.takeWhile (fun y => key y == key x)).any (fun a => key' key β a == v) ||
          (T.dropWhile (fun y => key y == key x)).any (fun a => key' key β a == v)) := by
      intro v
      conv => lhs; rw [runs_append (key := key) x T]
      rw [List.any_append]
    generalize hUdef : x :: T.takeWhile (fun y => key y == key x) = U at *
    generalize hVdef : T.dropWhile (fun y => key y == key x) = V at *
    rw [countTrue_congr (fun v _ => e1 v), countTrue_or]
    · congr 1
      have e2 : ∀ v, U.any (fun a => key' key β a == v) =
          ((decide ((U.filter (fun y => !β y)).length > 0) && (v == 2 * key x)) || (decide ((U.filter β).length > 0) && (v == 2 * key x + 1))) := by
        intro v
        rw [Bool.eq_iff_iff]
        simp only [List.any_eq_true, Bool.or_eq_true, Bool.and_eq_true, decide_eq_true_eq, beq_iff_eq]
        constructor
        · rintro ⟨a, ha, hv⟩
          have hk := h1 a ha
          cases hb : β a
          · left
            refine ⟨List.length_pos_of_mem (List.mem_filter.2 ⟨ha, by simp [hb]⟩), ?_⟩
            simp only [key', hb, Bool.toNat_false] at hv; omega
          · right
            refine ⟨List.length_pos_of_mem (List.mem_filter.2 ⟨ha, hb⟩), ?_⟩
            simp only [key', hb, Bool.toNat_true] at hv; omega
        · rintro (⟨hl, hv⟩ | ⟨hl, hv⟩)
          · obtain ⟨a, ha⟩ := List.exists_mem_of_length_pos hl
            obtain ⟨ha, hb⟩ := List.mem_filter.1 ha
            simp only [Bool.not_eq_true'] at hb
            exact ⟨a, ha, by rw [key', h1 a ha, hb, hv]; rfl⟩
          · obtain ⟨a, ha⟩ := List.exists_mem_of_length_pos hl
            obtain ⟨ha, hb⟩ := List.mem_filter.1 ha
            exact ⟨a, ha, by rw [key', h1 a ha, hb, hv]; rfl⟩
      rw [countTrue_congr (fun v _ => e2 v), countTrue_or]
      · congr 1
        · by_cases hl : (U.filter (fun y => !β y)).length > 0
          · obtain ⟨a, ha⟩ := List.exists_mem_of_length_pos hl
            obtain ⟨ha, hb⟩ := List.mem_filter.1 ha
            simp only [Bool.not_eq_true'] at hb
            have := hN a (hU a ha)
            rw [key', h1 a ha, hb] at this
            simp only [hl, decide_true, Bool.true_and]
            rw [countTrue_single (by simpa using this)]; rfl
          · rw [countTrue_none]
            · simp [hl]
            · intro i _; simp [hl]
        · by_cases hl : (U.filter β).length > 0
          · obtain ⟨a, ha⟩ := List.exists_mem_of_length_pos hl
            obtain ⟨ha, hb⟩ := List.mem_filter.1 ha
            have := hN a (hU a ha)
            rw [key', h1 a ha, hb] at this
            simp only [hl, decide_true, Bool.true_and]
            rw [countTrue_single (by simpa using this)]; rfl
          · rw [countTrue_none]
            · simp [hl]
            · intro i _; simp [hl]
      · intro i _
        simp only [Bool.and_eq_true, beq_iff_eq]
        rintro ⟨⟨_, h4⟩, ⟨_, h5⟩⟩
        omega
    · intro i _
      simp only [List.any_eq_true, beq_iff_eq]
      rintro ⟨⟨a, ha, ha2⟩, ⟨c, hc, hc2⟩⟩
      have := h1 a ha
      have := h2 c hc
      have : (β a).toNat ≤ 1 := Bool.toNat_le _
      simp only [key'] at ha2 hc2; omega

end Sdsl.Wt
