/-
  Weighted code trees: height, cost, and the theorem behind Huffman's algorithm.
-/
import Verif.WtPcTree
import Verif.SpecFib
import Mathlib.Data.List.Basic
import Mathlib.Data.List.Perm.Basic

namespace Sdsl.Wt

open Spec

namespace CT

/-- Length of the longest code. -/
def height : CT → Nat
  | leaf _ _ => 0
  | node l r => 1 + max l.height r.height

/-- The frequencies of the leaves. -/
def weights (t : CT) : List Nat := t.leaves.map (·.2)

/-- The larger frequency of the two children. -/
def childMax : CT → Nat
  | leaf _ _ => 0
  | node l r => max l.freq r.freq

theorem weights_leaf (f s : Nat) : (leaf f s).weights = [f] := rfl

theorem weights_node (l r : CT) : (node l r).weights = l.weights ++ r.weights := by simp [weights, leaves]

theorem freq_weights (t : CT) : t.freq = t.weights.sum := by
  induction t with
  | leaf f s => simp [weights_leaf, freq]
  | node l r ih1 ih2 => rw [weights_node, List.sum_append, freq, ih1, ih2]

/-- Replacing a leaf by a heavier one. -/
theorem replace : ∀ (t : CT) (a x : Nat) (R : List Nat), t.weights.Perm (a :: R) → a ≤ x →
    ∃ t' : CT, t'.weights.Perm (x :: R) ∧ t'.height ≤ t.height ∧ t'.cost ≤ t.cost + t.height * (x - a) := by
  intro t
  induction t with
  | leaf f s =>
    intro a x R h hle
    rw [weights_leaf] at h
    have := h.length_eq
    have hR : R = [] := List.eq_nil_of_length_eq_zero (by simpa using this.symm)
    subst hR
    exact ⟨leaf x s, List.Perm.refl _, Nat.le_refl _, by simp [cost]⟩
  | node l r ih1 ih2 =>
    intro a x R h hle
    rw [weights_node] at h
    have hm : a ∈ l.weights ++ r.weights := h.mem_iff.2 (by simp)
    have hfl := l.freq_weights
    have hfr := r.freq_weights
    rcases List.mem_append.1 hm with hm | hm
    · have p1 := List.perm_cons_erase hm
      obtain ⟨t', q1, q2, q3⟩ := ih1 a x _ p1 hle
      have p2 : R.Perm (l.weights.erase a ++ r.weights) := by
        apply List.Perm.cons_inv (a := a)
        rw [← List.cons_append]
        exact h.symm.trans (p1.append_right _)
      have hs1 := p1.sum_nat
      have hs2 := q1.sum_nat
      rw [List.sum_cons] at hs1 hs2
      have hft := t'.freq_weights
      refine ⟨node t' r, ?_, ?_, ?_⟩
      · rw [weights_node]
        refine (q1.append_right _).trans ?_
        rw [List.cons_append]
        exact p2.symm.cons x
      · simp only [height]; omega
      · simp only [cost, height]
        have h1 : l.height * (x - a) ≤ max l.height r.height * (x - a) := Nat.mul_le_mul_right _ (Nat.le_max_left _ _)
        rw [Nat.add_mul, Nat.one_mul]
        omega
    · have p1 := List.perm_cons_erase hm
      obtain ⟨t', q1, q2, q3⟩ := ih2 a x _ p1 hle
      have p2 : R.Perm (l.weights ++ r.weights.erase a) := by
        apply List.Perm.cons_inv (a := a)
        refine h.symm.trans ((p1.append_left _).trans ?_)
        exact List.perm_middle
      have hs1 := p1.sum_nat
      have hs2 := q1.sum_nat
      rw [List.sum_cons] at hs1 hs2
      have hft := t'.freq_weights
      refine ⟨node l t', ?_, ?_, ?_⟩
      · rw [weights_node]
        refine (q1.append_left _).trans ?_
        exact List.perm_middle.trans (p2.symm.cons x)
      · simp only [height]; omega
      · simp only [cost, height]
        have h1 : r.height * (x - a) ≤ max l.height r.height * (x - a) := Nat.mul_le_mul_right _ (Nat.le_max_right _ _)
        rw [Nat.add_mul, Nat.one_mul]
        omega

theorem height_zero {t : CT} (h : t.height = 0) : ∃ f s, t = leaf f s := by
  cases t with
  | leaf f s => exact ⟨f, s, rfl⟩
  | node l r => simp only [height] at h; omega

/-- Two deepest sibling leaves can be replaced by one leaf. -/
theorem contract : ∀ (t : CT) (h : Nat), t.height = h + 1 → ∃ (x y : Nat) (R : List Nat), t.weights.Perm (x :: y :: R) ∧
    ∀ z, ∃ t0 : CT, t0.weights.Perm (z :: R) ∧ t0.height ≤ h + 1 ∧ t0.cost + (h + 1) * (x + y) = t.cost + h * z := by
  intro t
  induction t with
  | leaf f s => intro h hh; simp [height] at hh
  | node l r ih1 ih2 =>
    intro h hh
    have hfl := l.freq_weights
    have hfr := r.freq_weights
    simp only [height] at hh
    cases h with
    | zero =>
      obtain ⟨f, s, rfl⟩ := height_zero (t := l) (by omega)
      obtain ⟨f', s', rfl⟩ := height_zero (t := r) (by omega)
      refine ⟨f, f', [], by rw [weights_node]; exact List.Perm.refl _, fun z => ⟨leaf z 0, List.Perm.refl _, by simp [height], by simp [cost, freq]⟩⟩
    | succ h =>
      rcases Nat.le_total r.height l.height with hle | hle
      · obtain ⟨x, y, R, p1, p2⟩ := ih1 h (by omega)
        refine ⟨x, y, R ++ r.weights, by rw [weights_node]; exact p1.append_right _, fun z => ?_⟩
        obtain ⟨t0, q1, q2, q3⟩ := p2 z
        have hs1 := p1.sum_nat
        have hs2 := q1.sum_nat
        simp only [List.sum_cons] at hs1 hs2
        have hft := t0.freq_weights
        refine ⟨node t0 r, by rw [weights_node]; exact q1.append_right _, by simp only [height]; omega, ?_⟩
        simp only [cost]
        rw [Nat.add_mul (h + 1), Nat.add_mul h 1 z, Nat.one_mul, Nat.one_mul]
        omega
      · obtain ⟨x, y, R, p1, p2⟩ := ih2 h (by omega)
        refine ⟨x, y, l.weights ++ R, by
          rw [weights_node]
          refine (p1.append_left _).trans ?_
          exact List.perm_middle.trans (List.perm_middle.cons x), fun z => ?_⟩
        obtain ⟨t0, q1, q2, q3⟩ := p2 z
        have hs1 := p1.sum_nat
        have hs2 := q1.sum_nat
        simp only [List.sum_cons] at hs1 hs2
        have hft := t0.freq_weights
        refine ⟨node l t0, by rw [weights_node]; exact (q1.append_left _).trans List.perm_middle, by simp only [height]; omega, ?_⟩
        simp only [cost]
        rw [Nat.add_mul (h + 1), Nat.add_mul h 1 z, Nat.one_mul, Nat.one_mul]
        omega

/-- The step of Huffman's algorithm: two smallest frequencies may be merged. -/
theorem merge {t : CT} {a b : Nat} {W : List Nat} (hp : t.weights.Perm (a :: b :: W)) (hab : a ≤ b) (hb : ∀ w ∈ W, b ≤ w) :
    ∃ t' : CT, t'.weights.Perm ((a + b) :: W) ∧ t'.cost + (a + b) ≤ t.cost := by
  obtain ⟨h, hh⟩ : ∃ h, t.height = h + 1 := by
    cases t with
    | leaf f s => have := hp.length_eq; simp [weights_leaf] at this
    | node l r => exact ⟨max l.height r.height, by rw [height]; omega⟩
  obtain ⟨x, y, R, p1, p2⟩ := contract t h hh
  have main : ∀ x y, x ≤ y → (x :: y :: R).Perm (a :: b :: W) → (∃ t0 : CT, t0.weights.Perm ((a + b) :: R) ∧ t0.height ≤ h + 1 ∧ t0.cost + (h + 1) * (x + y) = t.cost + h * (a + b)) →
      ∃ t' : CT, t'.weights.Perm ((a + b) :: W) ∧ t'.cost + (a + b) ≤ t.cost := by
    rintro x y hxy hq ⟨t0, q1, q2, q3⟩
    have hmin : ∀ w ∈ a :: b :: W, w = a ∨ b ≤ w := by
      intro w hw
      rcases List.mem_cons.1 hw with rfl | hw
      · left; rfl
      · rcases List.mem_cons.1 hw with rfl | hw
        · right; omega
        · right; exact hb w hw
    have hx := hmin x (hq.mem_iff.1 (by simp))
    have hy := hmin y (hq.mem_iff.1 (by simp))
    -- one replacement suffices
    have one : ∀ (u v : Nat) (R' : List Nat), R.Perm (u :: R') → u ≤ v → W.Perm (v :: R') → u + x + y = a + b + v →
        ∃ t' : CT, t'.weights.Perm ((a + b) :: W) ∧ t'.cost + (a + b) ≤ t.cost := by
      intro u v R' r1 r2 r3 r4
      obtain ⟨t1, s1, s2, s3⟩ := replace t0 u v ((a + b) :: R') (q1.trans ((r1.cons _).trans (List.Perm.swap _ _ _))) r2
      refine ⟨t1, s1.trans ((List.Perm.swap _ _ _).trans (r3.symm.cons _)), ?_⟩
      have h1 : t0.height * (v - u) ≤ (h + 1) * (v - u) := Nat.mul_le_mul_right _ q2
      have h2 : (h + 1) * (x + y) = (h + 1) * (a + b) + (h + 1) * (v - u) := by
        rw [← Nat.mul_add]; congr 1; omega
      have h3 : (h + 1) * (a + b) = h * (a + b) + (a + b) := by rw [Nat.add_mul, Nat.one_mul]
      omega
    by_cases hxa : x = a
    · subst hxa
      have hq1 := hq.cons_inv
      by_cases hyb : y = b
      · subst hyb
        have hq2 := hq1.cons_inv
        refine ⟨t0, q1.trans (hq2.cons _), ?_⟩
        have h3 : (h + 1) * (x + y) = h * (x + y) + (x + y) := by rw [Nat.add_mul, Nat.one_mul]
        omega
      · have hbR : b ∈ R := by
          have : b ∈ y :: R := hq1.mem_iff.2 (by simp)
          rcases List.mem_cons.1 this with e | e
          · exact absurd e.symm hyb
          · exact e
        have pe := List.perm_cons_erase hbR
        have hW : W.Perm (y :: R.erase b) := by
          apply List.Perm.cons_inv (a := b)
          exact hq1.symm.trans ((pe.cons y).trans (List.Perm.swap _ _ _))
        refine one b y (R.erase b) pe ?_ hW (by omega)
        exact hb y (hW.mem_iff.2 (by simp))
    · have hbx : b ≤ x := hx.resolve_left hxa
      have hya : y ≠ a ∨ a = b := by
        by_cases he : y = a
        · right; omega
        · left; exact he
      have haR : a ∈ R := by
        have : a ∈ x :: y :: R := hq.mem_iff.2 (by simp)
        rcases List.mem_cons.1 this with e | e
        · exact absurd e.symm hxa
        · rcases List.mem_cons.1 e with e | e
          · exfalso; omega
          · exact e
      have pe := List.perm_cons_erase haR
      have hq2 : (x :: y :: R.erase a).Perm (b :: W) := by
        apply List.Perm.cons_inv (a := a)
        refine List.Perm.trans ?_ hq
        refine ((List.Perm.swap x a _).trans ?_)
        exact ((List.Perm.swap y a _).trans (pe.symm.cons y)).cons x
      by_cases hxb : x = b
      · subst hxb
        exact one a y _ pe (by omega) hq2.cons_inv.symm (by omega)
      · by_cases hyb : y = b
        · exfalso; omega
        · have hbR : b ∈ R.erase a := by
            have : b ∈ x :: y :: R.erase a := hq2.mem_iff.2 (by simp)
            rcases List.mem_cons.1 this with e | e
            · exact absurd e.symm hxb
            · rcases List.mem_cons.1 e with e | e
              · exact absurd e.symm hyb
              · exact e
          have pe2 := List.perm_cons_erase hbR
          have hW : W.Perm (x :: y :: (R.erase a).erase b) := by
            apply List.Perm.cons_inv (a := b)
            refine hq2.symm.trans ?_
            refine List.Perm.trans ?_ (List.Perm.swap b x _)
            exact (((pe2.cons y).trans (List.Perm.swap b y _))).cons x
          obtain ⟨t1, s1, s2, s3⟩ := replace t0 a x ((a + b) :: R.erase a) (q1.trans ((pe.cons _).trans (List.Perm.swap _ _ _))) (by omega)
          have s1' : t1.weights.Perm (b :: (a + b) :: x :: (R.erase a).erase b) := by
            refine s1.trans ?_
            refine (((pe2.cons (a + b)).cons x)).trans ?_
            refine ((List.Perm.swap b (a + b) _).cons x).trans ?_
            refine (List.Perm.swap b x _).trans ?_
            exact (List.Perm.swap (a + b) x _).cons b
          obtain ⟨t2, u1, u2, u3⟩ := replace t1 b y _ s1' (by omega)
          refine ⟨t2, ?_, ?_⟩
          · refine u1.trans ?_
            refine (List.Perm.swap (a + b) y _).trans ?_
            refine List.Perm.cons _ ?_
            exact (List.Perm.swap x y _).trans hW.symm
          · have h1 : t0.height * (x - a) ≤ (h + 1) * (x - a) := Nat.mul_le_mul_right _ q2
            have h2 : t1.height * (y - b) ≤ (h + 1) * (y - b) := Nat.mul_le_mul_right _ (by omega)
            have h4 : (h + 1) * (x + y) = (h + 1) * (a + b) + (h + 1) * (x - a) + (h + 1) * (y - b) := by
              rw [← Nat.mul_add, ← Nat.mul_add]; congr 1; omega
            have h3 : (h + 1) * (a + b) = h * (a + b) + (a + b) := by rw [Nat.add_mul, Nat.one_mul]
            omega
  rcases Nat.le_total x y with hxy | hxy
  · exact main x y hxy (p1.symm.trans hp) (p2 (a + b))
  · refine main y x hxy ((List.Perm.swap _ _ _).trans (p1.symm.trans hp)) ?_
    rw [Nat.add_comm y x]
    exact p2 (a + b)

/-- A prefix-free code gives a tree that costs at most as much. -/
theorem of_code : ∀ (n : Nat) (L : List (Nat × List Bool)), L ≠ [] → (L.map (fun e => e.2.length)).sum ≤ n → L.Pairwise (fun e e' => ¬ e.2 <+: e'.2 ∧ ¬ e'.2 <+: e.2) →
    ∃ t : CT, t.weights.Perm (L.map (·.1)) ∧ t.cost ≤ (L.map (fun e => e.1 * e.2.length)).sum := by
  intro n
  induction n with
  | zero =>
    intro L hne hl hp
    match L, hne, hl, hp with
    | [e], _, _, _ => exact ⟨leaf e.1 0, List.Perm.refl _, Nat.zero_le _⟩
    | e :: e' :: L, _, hl, hp =>
      simp only [List.map_cons, List.sum_cons] at hl
      rw [List.pairwise_cons] at hp
      have h1 : e.2 = [] := List.eq_nil_of_length_eq_zero (by omega)
      have := (hp.1 e' (by simp)).1
      rw [h1] at this
      exact absurd (List.nil_prefix) this
  | succ n ih =>
    intro L hne hl hp
    match L, hne, hl, hp with
    | [e], _, _, _ => exact ⟨leaf e.1 0, List.Perm.refl _, Nat.zero_le _⟩
    | e1 :: e2 :: L', _, hl, hp =>
      generalize hL : e1 :: e2 :: L' = L at *
      have hnil : ∀ e ∈ L, e.2 ≠ [] := by
        rw [← hL] at hp ⊢
        intro e he h0
        rw [List.pairwise_cons] at hp
        rcases List.mem_cons.1 he with rfl | he
        · have := (hp.1 e2 (by simp)).1
          rw [h0] at this
          exact this List.nil_prefix
        · have := (hp.1 e he).2
          rw [h0] at this
          exact this List.nil_prefix
      -- the halves
      let half (b : Bool) : List (Nat × List Bool) := (L.filter (fun e => e.2.head? == some b)).map (fun e => (e.1, e.2.tail))
      have hcons : ∀ b, ∀ e ∈ L.filter (fun e => e.2.head? == some b), e.2 = b :: e.2.tail := by
        intro b e he
        rw [List.mem_filter, beq_iff_eq] at he
        cases h2 : e.2 with
        | nil => rw [h2] at he; simp at he
        | cons c l => rw [h2] at he; simp at he; rw [he.2]; rfl
      have hpw : ∀ b, (half b).Pairwise (fun e e' => ¬ e.2 <+: e'.2 ∧ ¬ e'.2 <+: e.2) := by
        intro b
        rw [List.pairwise_map]
        have h1 := hp.filter (fun e => e.2.head? == some b)
        refine h1.imp_of_mem ?_
        intro e e' he he' ⟨g1, g2⟩
        rw [hcons b e he, hcons b e' he', List.cons_prefix_cons] at g1 g2
        dsimp only
        exact ⟨fun h => g1 ⟨rfl, h⟩, fun h => g2 ⟨rfl, h⟩⟩
      have hperm : L.Perm (L.filter (fun e => e.2.head? == some false) ++ L.filter (fun e => e.2.head? == some true)) := by
        have h1 := (List.filter_append_perm (fun e : Nat × List Bool => e.2.head? == some false) L).symm
        refine h1.trans (List.Perm.append_left _ ?_)
        have : L.filter (fun e => !(e.2.head? == some false)) = L.filter (fun e => e.2.head? == some true) := by
          apply List.filter_congr
          intro e he
          have := hnil e he
          cases h2 : e.2 with
          | nil => exact absurd h2 this
          | cons c l => cases c <;> simp
        rw [this]
      have hfst : ∀ b, (half b).map (·.1) = (L.filter (fun e => e.2.head? == some b)).map (·.1) := by
        intro b; rw [List.map_map]; rfl
      have hlen : ∀ b, ((half b).map (fun e => e.2.length)).sum + (half b).length = ((L.filter (fun e => e.2.head? == some b)).map (fun e => e.2.length)).sum := by
        intro b
        have : ∀ F : List (Nat × List Bool), (∀ e ∈ F, e.2 = b :: e.2.tail) → ((F.map (fun e => (e.1, e.2.tail))).map (fun e => e.2.length)).sum + (F.map (fun e => (e.1, e.2.tail))).length = (F.map (fun e => e.2.length)).sum := by
          intro F
          induction F with
          | nil => intro _; rfl
          | cons e F ih =>
            intro h
            have h1 := ih (fun e' he' => h e' (by simp [he']))
            have h2 := congrArg List.length (h e (by simp))
            simp only [List.map_cons, List.sum_cons, List.length_cons] at h1 h2 ⊢
            omega
        exact this _ (hcons b)
      have hcost : ∀ b, ((half b).map (fun e => e.1 * e.2.length)).sum + ((half b).map (·.1)).sum = ((L.filter (fun e => e.2.head? == some b)).map (fun e => e.1 * e.2.length)).sum := by
        intro b
        have : ∀ F : List (Nat × List Bool), (∀ e ∈ F, e.2 = b :: e.2.tail) →
            ((F.map (fun e => (e.1, e.2.tail))).map (fun e => e.1 * e.2.length)).sum + ((F.map (fun e => (e.1, e.2.tail))).map (·.1)).sum = (F.map (fun e => e.1 * e.2.length)).sum := by
          intro F
          induction F with
          | nil => intro _; rfl
          | cons e F ih =>
            intro h
            have h1 := ih (fun e' he' => h e' (by simp [he']))
            have h2 : e.1 * e.2.length = e.1 * e.2.tail.length + e.1 := by
              have := congrArg List.length (h e (by simp))
              rw [this, List.length_cons, Nat.mul_add, Nat.mul_one]
            simp only [List.map_cons, List.sum_cons] at h1 ⊢
            omega
        exact this _ (hcons b)
      have hsl := (hperm.map (fun e => e.2.length)).sum_nat
      have hsc := (hperm.map (fun e => e.1 * e.2.length)).sum_nat
      have hsf := hperm.map (·.1)
      rw [List.map_append, List.sum_append] at hsl hsc
      rw [List.map_append] at hsf
      have hLlen := hperm.length_eq
      rw [List.length_append] at hLlen
      have hhl : ∀ b, (half b).length = (L.filter (fun e => e.2.head? == some b)).length := fun b => List.length_map _
      have hL2 : 2 ≤ L.length := by rw [← hL]; simp
      have e0 := hlen false
      have e1 := hlen true
      have c0 := hcost false
      have c1 := hcost true
      have l0 := hhl false
      have l1 := hhl true
      by_cases z0 : half false = []
      · rw [z0] at e0 c0 l0
        simp only [List.map_nil, List.sum_nil, List.length_nil] at e0 c0 l0
        have hne1 : half true ≠ [] := by
          intro h; rw [h] at l1; simp at l1; omega
        obtain ⟨t, t1, t2⟩ := ih (half true) hne1 (by omega) (hpw true)
        refine ⟨t, t1.trans ?_, by omega⟩
        rw [hfst]
        have : L.filter (fun e => e.2.head? == some false) = [] := List.eq_nil_of_length_eq_zero (by omega)
        rw [this] at hsf
        exact hsf.symm
      · by_cases z1 : half true = []
        · rw [z1] at e1 c1 l1
          simp only [List.map_nil, List.sum_nil, List.length_nil] at e1 c1 l1
          have hlp := List.length_pos_of_ne_nil z0
          obtain ⟨t, t1, t2⟩ := ih (half false) z0 (by omega) (hpw false)
          refine ⟨t, t1.trans ?_, by omega⟩
          rw [hfst]
          have : L.filter (fun e => e.2.head? == some true) = [] := List.eq_nil_of_length_eq_zero (by omega)
          rw [this, List.map_nil, List.append_nil] at hsf
          exact hsf.symm
        · have hlp := List.length_pos_of_ne_nil z0
          have hlq := List.length_pos_of_ne_nil z1
          obtain ⟨t, t1, t2⟩ := ih (half false) z0 (by omega) (hpw false)
          obtain ⟨u, u1, u2⟩ := ih (half true) z1 (by omega) (hpw true)
          refine ⟨node t u, ?_, ?_⟩
          · rw [weights_node]
            refine (t1.append u1).trans ?_
            rw [hfst, hfst]
            exact hsf.symm
          · have f1 := t.freq_weights
            have f2 := u.freq_weights
            rw [t1.sum_nat] at f1
            rw [u1.sum_nat] at f2
            rw [cost, f1, f2]
            omega

end CT

/-! ### The forest of Huffman's algorithm -/

/-- Every tree is balanced enough with respect to the others. -/
structure Forest (F : List CT) : Prop where
  mono : ∀ e ∈ F, ∀ e' ∈ F, e.childMax ≤ e'.freq
  fib : ∀ e ∈ F, fibN e.height ≤ e.freq
  pos : ∀ e ∈ F, 0 < e.freq
  child : ∀ e ∈ F, ∀ l r, e = CT.node l r → fibN l.height ≤ l.freq ∧ fibN r.height ≤ r.freq

theorem fibN_step (k : Nat) : fibN (k + 2) = fibN k + fibN (k + 1) := rfl

theorem Forest.perm {F F' : List CT} (h : Forest F) (hp : F.Perm F') : Forest F' :=
  ⟨fun e he e' he' => h.mono e (hp.mem_iff.2 he) e' (hp.mem_iff.2 he'), fun e he => h.fib e (hp.mem_iff.2 he), fun e he => h.pos e (hp.mem_iff.2 he), fun e he => h.child e (hp.mem_iff.2 he)⟩

theorem Forest.merge {e1 e2 : CT} {F : List CT} (h : Forest (e1 :: e2 :: F)) (h12 : e1.freq ≤ e2.freq) (h2 : ∀ e ∈ F, e2.freq ≤ e.freq) : Forest (CT.node e1 e2 :: F) := by
  have m12 := h.mono e1 (by simp) e2 (by simp)
  have m21 := h.mono e2 (by simp) e1 (by simp)
  have f1 := h.fib e1 (by simp)
  have f2 := h.fib e2 (by simp)
  have p1 := h.pos e1 (by simp)
  have p2 := h.pos e2 (by simp)
  have key : ∀ a b : CT, Forest [a, b] → a.height ≥ b.height → fibN (1 + a.height) ≤ a.freq + b.freq := by
    intro a b hf _
    have q1 := hf.pos a (by simp)
    have q2 := hf.pos b (by simp)
    cases a with
    | leaf f s => show fibN 1 ≤ _; rw [show fibN 1 = 2 from rfl]; omega
    | node l r =>
      have g1 := hf.fib _ (by simp : CT.node l r ∈ [CT.node l r, b])
      have g2 := hf.mono (CT.node l r) (by simp) b (by simp)
      have g3 := hf.child _ (by simp : CT.node l r ∈ [CT.node l r, b]) l r rfl
      simp only [CT.height, CT.childMax] at g1 g2 ⊢
      have g4 : fibN (max l.height r.height) ≤ b.freq := by
        rcases Nat.le_total l.height r.height with hle | hle
        · rw [Nat.max_eq_right hle]; omega
        · rw [Nat.max_eq_left hle]; omega
      rw [show 1 + (1 + max l.height r.height) = max l.height r.height + 2 by omega, fibN_step]
      rw [Nat.add_comm 1] at g1
      omega
  have hsub : ∀ a b : CT, a ∈ e1 :: e2 :: F → b ∈ e1 :: e2 :: F → Forest [a, b] := by
    intro a b ha hb
    have hm : ∀ e ∈ [a, b], e ∈ e1 :: e2 :: F := by
      intro e he
      simp only [List.mem_cons, List.not_mem_nil, or_false] at he
      rcases he with rfl | rfl
      · exact ha
      · exact hb
    exact ⟨fun e he e' he' => h.mono e (hm e he) e' (hm e' he'), fun e he => h.fib e (hm e he), fun e he => h.pos e (hm e he), fun e he => h.child e (hm e he)⟩
  refine ⟨?_, ?_, ?_, ?_⟩
  · intro e he e' he'
    rcases List.mem_cons.1 he with rfl | he
    · rcases List.mem_cons.1 he' with rfl | he'
      · simp only [CT.childMax, CT.freq]; omega
      · have := h2 e' he'
        simp only [CT.childMax]; omega
    · have g1 := h.mono e (by simp [he]) e1 (by simp)
      rcases List.mem_cons.1 he' with rfl | he'
      · simp only [CT.freq]; omega
      · exact h.mono e (by simp [he]) e' (by simp [he'])
  · intro e he
    rcases List.mem_cons.1 he with rfl | he
    · simp only [CT.height, CT.freq]
      rcases Nat.le_total e2.height e1.height with hle | hle
      · rw [Nat.max_eq_left hle]
        exact key e1 e2 (hsub _ _ (by simp) (by simp)) hle
      · rw [Nat.max_eq_right hle]
        have := key e2 e1 (hsub _ _ (by simp) (by simp)) hle
        omega
    · exact h.fib e (by simp [he])
  · intro e he
    rcases List.mem_cons.1 he with rfl | he
    · simp only [CT.freq]; omega
    · exact h.pos e (by simp [he])
  · intro e he l r hlr
    rcases List.mem_cons.1 he with rfl | he
    · cases hlr; exact ⟨f1, f2⟩
    · exact h.child e (by simp [he]) l r hlr

end Sdsl.Wt
