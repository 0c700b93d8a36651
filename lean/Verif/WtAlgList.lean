/-
  The generic wavelet-tree algorithms in terms of lists.
-/
import Verif.WtUnique
import Verif.WtList

namespace Sdsl.Wt

open Spec WtInt

/-- The symbols `xs[lb..rb]`. -/
def slice (xs : List Word) (lb rb : Nat) : List Word := (xs.take (rb + 1)).drop lb

/-- Navigation with a list of directions. -/
def Tree.descend {N : Type} (T : Tree N) : N → List Bool → Option N
  | v, [] => some v
  | v, b :: bs => if T.isLeaf v then none else do
    let c ← T.expand v
    T.descend (if b then c.2 else c.1) bs

/-- The number written by the directions. -/
def pathVal (bs : List Bool) : Nat := bs.foldl (fun acc b => 2 * acc + b.toNat) 0

theorem sorted_get {c : Word} : ∀ (s : List Word) (q : Nat), s.Pairwise (· ≤ ·) → s.countP (fun b => decide (b < c)) ≤ q → q < s.countP (fun b => decide (b < c)) + s.count c → s[q]? = some c := by
  intro s
  induction s with
  | nil => intro q _ _ h; simp at h
  | cons y s ih =>
    intro q hs h1 h2
    rw [List.pairwise_cons] at hs
    rw [List.countP_cons] at h1 h2
    rw [List.count_cons] at h2
    by_cases hy : y < c
    · have hne : (y == c) = false := by rw [beq_eq_false_iff_ne]; intro e; subst e; exact absurd hy (BitVec.lt_irrefl _)
      rw [decide_eq_true hy, if_pos rfl] at h1 h2
      rw [hne, if_neg (by simp)] at h2
      obtain ⟨k, rfl⟩ : ∃ k, q = k + 1 := ⟨q - 1, by omega⟩
      rw [List.getElem?_cons_succ]
      exact ih k hs.2 (by omega) (by omega)
    · have hall : ∀ z ∈ s, c.toNat ≤ z.toNat := by
        intro z hz
        have := BitVec.le_def.1 (hs.1 z hz)
        rw [BitVec.lt_def] at hy
        omega
      have h0 : s.countP (fun b => decide (b < c)) = 0 := by
        rw [List.countP_eq_zero]
        intro z hz
        have := hall z hz
        rw [decide_eq_true_eq, BitVec.lt_def]; omega
      rw [h0] at h1 h2
      rw [decide_eq_false hy, if_neg (by simp)] at h1 h2
      by_cases he : y = c
      · subst he
        rw [show (y == y) = true by simp, if_pos rfl] at h2
        cases q with
        | zero => rfl
        | succ q =>
          rw [List.getElem?_cons_succ]
          exact ih q hs.2 (by omega) (by omega)
      · rw [show (y == c) = false by simpa using he, if_neg (by simp)] at h2
        have : s.count c = 0 := by
          rw [List.count_eq_zero]
          intro hm
          have h3 := BitVec.le_def.1 (hs.1 c hm)
          rw [BitVec.lt_def] at hy
          exact he (BitVec.eq_of_toNat_eq (by omega))
        omega

section slice

variable {xs : List Word} {lb rb : Nat}

theorem slice_countP (P : Word → Bool) (hlr : lb ≤ rb) (hrb : rb < xs.length) :
    occ (fun j => xs.getD j 0#64) P (rb + 1) - occ (fun j => xs.getD j 0#64) P lb = (slice xs lb rb).countP P := by
  rw [occ_countP _ (by omega), occ_countP _ (by omega), countP_range _ (by omega), slice]

theorem slice_count (c : Word) (hlr : lb ≤ rb) (hrb : rb < xs.length) :
    occ (fun j => xs.getD j 0#64) (fun b => b == c) (rb + 1) - occ (fun j => xs.getD j 0#64) (fun b => b == c) lb = (slice xs lb rb).count c := slice_countP _ hlr hrb

theorem slice_mem (c : Word) (hlr : lb ≤ rb) (hrb : rb < xs.length) :
    occ (fun j => xs.getD j 0#64) (fun b => b == c) lb < occ (fun j => xs.getD j 0#64) (fun b => b == c) (rb + 1) ↔ c ∈ slice xs lb rb := by
  rw [← List.count_pos_iff, ← slice_count c hlr hrb]; omega

theorem mem_slice_iff (c : Word) : c ∈ slice xs lb rb ↔ ∃ q, lb ≤ q ∧ q ≤ rb ∧ q < xs.length ∧ xs.getD q 0#64 = c := by
  rw [slice]
  constructor
  · intro h
    obtain ⟨k, hk, e⟩ := List.getElem_of_mem h
    rw [List.length_drop, List.length_take] at hk
    rw [List.getElem_drop, List.getElem_take] at e
    exact ⟨lb + k, by omega, by omega, by omega, by rw [getD_getElem (by omega)]; exact e⟩
  · rintro ⟨q, h1, h2, h3, rfl⟩
    rw [getD_getElem h3]
    have : ((xs.take (rb + 1)).drop lb)[q - lb]'(by rw [List.length_drop, List.length_take]; omega) = xs[q] := by
      rw [List.getElem_drop, List.getElem_take]; congr 1; omega
    rw [← this]
    exact List.getElem_mem _

end slice

/-- The `occ P j`-th symbol that satisfies `P`. -/
theorem filter_get (P : Word → Bool) : ∀ (xs : List Word) (k : Nat) (hk : k < (xs.filter P).length), ∃ j, ∃ h : j < xs.length, P xs[j] = true ∧ (xs.take j).countP P = k ∧ (xs.filter P)[k] = xs[j] := by
  intro xs
  induction xs with
  | nil => intro k hk; simp at hk
  | cons x xs ih =>
    intro k hk
    by_cases hx : P x = true
    · simp only [List.filter_cons, hx, if_true, List.length_cons] at hk ⊢
      cases k with
      | zero => exact ⟨0, by simp, hx, by simp, rfl⟩
      | succ k =>
        obtain ⟨j, h1, h2, h3, h4⟩ := ih k (by omega)
        exact ⟨j + 1, by simpa using h1, by simpa using h2, by rw [List.take_succ_cons, List.countP_cons, h3, hx]; rfl, by simpa using h4⟩
    · have hx' : P x = false := by simpa using hx
      simp only [List.filter_cons, hx', if_false, Bool.false_eq_true] at hk ⊢
      obtain ⟨j, h1, h2, h3, h4⟩ := ih k hk
      exact ⟨j + 1, by simpa using h1, by simpa using h2, by rw [List.take_succ_cons, List.countP_cons, h3, hx']; rfl, by simpa using h4⟩

namespace Fixed

variable {T : Tree INode} {xs : List Word} {L : Nat} {tree : List Bool} {offs : Nat → Word → Nat}

theorem descend_spec (h : Fixed T xs L tree offs) : ∀ (bs : List Bool) (d : Nat) (a : Word), bs.length ≤ d → d ≤ L → a.toNat < 2 ^ L →
    ∃ a', a'.toNat < 2 ^ L ∧ T.descend (inode xs L offs d a) bs = some (inode xs L offs (d - bs.length) a') ∧ key (d - bs.length) a' = bs.foldl (fun acc b => 2 * acc + b.toNat) (key d a) := by
  intro bs
  induction bs with
  | nil => intro d a _ _ ha; exact ⟨a, ha, rfl, rfl⟩
  | cons b bs ih =>
    intro d a hd hL ha
    rw [List.length_cons] at hd
    obtain ⟨d, rfl⟩ : ∃ e, d = e + 1 := ⟨d - 1, by omega⟩
    obtain ⟨a', h1, h2, h3⟩ := ih d (child d a b) (by omega) (by omega) (h.child_lt (by omega) ha b)
    refine ⟨a', h1, ?_, ?_⟩
    · rw [Tree.descend, if_neg (by rw [h.leaf_false]; simp), h.expand (by omega) ha, sbind]
      dsimp only
      rw [show (if b = true then inode xs L offs d (child d a true) else inode xs L offs d (child d a false)) = inode xs L offs d (child d a b) by cases b <;> rfl, h2, List.length_cons,
        Nat.add_sub_add_right]
    · rw [List.length_cons, Nat.add_sub_add_right, h3, List.foldl_cons, child_key h.level (by omega) ha]

/-- Every node reached by at most `L` directions. -/
theorem nav_spec (h : Fixed T xs L tree offs) (bs : List Bool) (hbs : bs.length ≤ L) :
    ∃ v, T.descend T.root bs = some v ∧ (T.isLeaf v = true ↔ bs.length = L) ∧ (T.sym v).toNat = pathVal bs ∧
      T.size v = (xs.filter (fun b => b.toNat / 2 ^ (L - bs.length) == pathVal bs)).length ∧
      (∀ k (hk : k < (xs.filter (fun b => b.toNat / 2 ^ (L - bs.length) == pathVal bs)).length),
        T.seq (L - bs.length + 1) v k = some (xs.filter (fun b => b.toNat / 2 ^ (L - bs.length) == pathVal bs))[k]) := by
  have hz : (0#64 : Word).toNat < 2 ^ L := Nat.two_pow_pos _
  obtain ⟨a, h1, h2, h3⟩ := h.descend_spec bs L 0#64 hbs (Nat.le_refl _) hz
  rw [← h.root_inode hz] at h2
  have hk0 : key L (0#64 : Word) = 0 := Nat.div_eq_of_lt hz
  rw [hk0] at h3
  have hP : agree (L - bs.length) a = fun b => b.toNat / 2 ^ (L - bs.length) == pathVal bs := by
    funext b
    rw [agree, h3]; rfl
  refine ⟨_, h2, ?_, ?_, ?_, ?_⟩
  · rw [h.isLeaf, inode, beq_iff_eq]
    dsimp only; omega
  · rw [h.sym, inode]
    dsimp only
    have : key (L - bs.length) a ≤ a.toNat := Nat.div_le_self _ _
    rw [BitVec.toNat_ofNat, Nat.mod_eq_of_lt (by have := a.isLt; omega), h3]; rfl
  · rw [h.size, inode]
    dsimp only
    rw [occ_countP _ (Nat.le_refl _), List.take_length, List.countP_eq_length_filter, hP]
  · intro k hk
    obtain ⟨j, hj, e1, e2, e3⟩ := filter_get _ xs k hk
    have := h.refines.seq_spec hj (L - bs.length) _ _ ⟨a, h1, by omega, rfl, rfl⟩ (by rw [hP, getD_getElem hj]; exact e1)
    rw [occ_countP _ (by omega), hP, e2, getD_getElem hj] at this
    rw [this, e3]

theorem intersect_list (h : Fixed T xs L tree offs) {R : List (Nat × Nat)} (hR : ∀ p ∈ R, p.1 ≤ p.2 ∧ p.2 < xs.length) {t : Nat} (ht : t ≤ R.length) :
    ∃ out, Tree.intersect T R t = some out ∧ out.Pairwise (fun a b => a.1 < b.1) ∧
      ∀ c f, (c, f) ∈ out ↔ R ≠ [] ∧ (if t = 0 then R.length else t) ≤ (R.filter (fun p => decide (c ∈ slice xs p.1 p.2))).length ∧
        f = (R.map (fun p => (slice xs p.1 p.2).count c)).sum % 2 ^ 64 := by
  obtain ⟨out, h1, -, h2, h3⟩ := h.refines.intersect_spec hR ht
  refine ⟨out, h1, h2 trivial, fun c f => ?_⟩
  rw [h3, List.length_pos_iff]
  have e1 : R.filter (fun p => decide (occ (fun j => xs.getD j 0#64) (fun b => b == c) p.1 < occ (fun j => xs.getD j 0#64) (fun b => b == c) (p.2 + 1))) = R.filter (fun p => decide (c ∈ slice xs p.1 p.2)) := by
    apply List.filter_congr
    intro p hp
    have := hR p hp
    rw [Bool.eq_iff_iff, decide_eq_true_eq, decide_eq_true_eq, slice_mem c this.1 this.2]
  have e2 : R.map (fun p => occ (fun j => xs.getD j 0#64) (fun b => b == c) (p.2 + 1) - occ (fun j => xs.getD j 0#64) (fun b => b == c) p.1) = R.map (fun p => (slice xs p.1 p.2).count c) := by
    apply List.map_congr_left
    intro p hp
    have := hR p hp
    exact slice_count c this.1 this.2
  rw [e1, e2]

theorem quantile_list (h : Fixed T xs L tree offs) {lb rb q : Nat} (hlr : lb ≤ rb) (hrb : rb < xs.length) (hq : q ≤ rb - lb) :
    ∃ c, Tree.quantileFreq T lb rb q = some (c, (slice xs lb rb).count c) ∧ ∀ s : List Word, s.Perm (slice xs lb rb) → s.Pairwise (· ≤ ·) → s[q]? = some c := by
  obtain ⟨c, h1, h2, h3⟩ := h.refines.quantileFreq_spec trivial hlr hrb hq
  rw [slice_count c hlr hrb] at h1 h3
  rw [slice_countP _ hlr hrb] at h2 h3
  refine ⟨c, h1, fun s hs hso => sorted_get s q hso ?_ ?_⟩
  · rw [hs.countP_eq]; exact h2
  · rw [hs.countP_eq, hs.count_eq]; exact h3

theorem interval_list (h : Fixed T xs L tree offs) {inv : Nat → Option (Nat × Word)}
    (hinv : ∀ i, i < xs.length → inv i = some (occ (fun j => xs.getD j 0#64) (fun b => b == xs.getD i 0#64) i, xs.getD i 0#64)) {i j : Nat} (hij : i ≤ j) (hj : j ≤ xs.length) :
    ∃ l, Tree.intervalSymbols T inv i j = some l ∧ l.Pairwise (fun a b => a.1 < b.1) ∧
      ∀ c ri rj, (c, ri, rj) ∈ l ↔ c ∈ (xs.take j).drop i ∧ ri = (xs.take i).count c ∧ rj = (xs.take j).count c := by
  obtain ⟨out, h1, -, h2, h3⟩ := h.refines.intervalSymbols_spec hinv hij hj
  refine ⟨out, h1, h2 trivial, fun c ri rj => ?_⟩
  rw [h3, occ_count c (by omega), occ_count c hj, count_pos_range hij]

theorem unique_list (h : Fixed T xs L tree offs) (hL : L ≤ 63) (xi xj : Nat) (yi yj : Word) :
    ∃ out, Tree.restrictedUnique T xs.length (Tree.symbolGte T L) (Tree.symbolLte T L) (fun c => (L, c)) xi xj yi yj = some out ∧ out.Pairwise (· < ·) ∧
      ∀ c, c ∈ out ↔ c ∈ slice xs xi xj ∧ yi ≤ c ∧ c ≤ yj := by
  obtain ⟨out, h1, h2, h3⟩ := h.restrictedUnique_spec hL xi xj yi yj
  refine ⟨out, h1, h2, fun c => ?_⟩
  rw [h3, mem_slice_iff]
  exact ⟨fun e => ⟨e.2.2, e.1, e.2.1⟩, fun e => ⟨e.2.1, e.2.2, e.1⟩⟩

end Fixed

end Sdsl.Wt
