/-
  The generic wavelet-tree algorithms over any node interface that refines a sequence.
-/
import Verif.WtAlg
import Verif.WtIntMore
import Verif.WmIntLemmas

namespace Sdsl.Wt

open Spec WtInt

/-- The range of a node that holds the symbols of `[i..j-1]`. -/
def rng (x : Nat → Word) (P : Word → Bool) (i j : Nat) : Range := Range.mk (occ x P i) (occ x P j - occ x P i)

section rng

variable {x : Nat → Word} {P : Word → Bool} {n i j : Nat}

theorem rng_le (hn : n < 2 ^ 64) (hij : i ≤ j) (hj : j ≤ n) : occ x P i + (occ x P j - occ x P i) < 2 ^ 64 := by
  have h1 := occ_mono (x := x) P hij
  have h2 := occ_le (x := x) P j
  omega

theorem rng_stop (hn : n < 2 ^ 64) (hij : i ≤ j) (hj : j ≤ n) : Range.stop (rng x P i j) = occ x P j := by
  have h1 := occ_mono (x := x) P hij
  rw [rng, Range.mk_stop (rng_le hn hij hj)]; omega

theorem rng_size (hn : n < 2 ^ 64) (hij : i ≤ j) (hj : j ≤ n) : Range.size (rng x P i j) = occ x P j - occ x P i := by
  rw [rng, Range.mk_size (rng_le hn hij hj)]

theorem rng_empty (hn : n < 2 ^ 64) (hij : i ≤ j) (hj : j ≤ n) : Range.empty (rng x P i j) = !decide (occ x P i < occ x P j) := by
  rw [rng, Range.mk_empty (rng_le hn hij hj), Bool.eq_iff_iff]
  simp only [beq_iff_eq, Bool.not_eq_true', decide_eq_false_iff_not]
  omega

theorem rng_fst : (rng x P i j).1 = occ x P i := rfl

theorem rng_snd (hn : n < 2 ^ 64) (hj : j ≤ n) (h : occ x P i < occ x P j) : (rng x P i j).2 = occ x P j - 1 := by
  have h2 := occ_le (x := x) P j
  rw [rng, Range.mk]
  dsimp only
  rw [show occ x P i + (occ x P j - occ x P i) + (2 ^ 64 - 1) = occ x P j - 1 + 2 ^ 64 by omega, Nat.add_mod_right, Nat.mod_eq_of_lt (by omega)]

theorem occ_lt_iff (hij : i ≤ j) : occ x P i < occ x P j ↔ ∃ q, i ≤ q ∧ q < j ∧ P (x q) = true := by
  have h1 := occ_mono (x := x) P hij
  have h2 := occ_eq_iff (x := x) (P := P) hij
  constructor
  · intro h
    apply Classical.byContradiction
    intro hc
    have : occ x P i = occ x P j := h2.2 (fun q h3 h4 => Bool.eq_false_iff.2 (fun h5 => hc ⟨q, h3, h4, h5⟩))
    omega
  · rintro ⟨q, h3, h4, h5⟩
    have := occ_lt (x := x) h4 h5
    have := occ_mono (x := x) P h3
    omega

end rng

/-- The node interface describes the sequence `x 0, …, x (n-1)`: `rel v P d` says that node `v` stands for the symbols satisfying `P` and has height at most `d`. -/
structure Refines {N : Type} (T : Tree N) (x : Nat → Word) (n : Nat) (lex : Prop) (rel : N → (Word → Bool) → Nat → Prop) : Prop where
  small : n < 2 ^ 64
  root : ∃ P, rel T.root P T.depth ∧ ∀ j, j < n → P (x j) = true
  leaf : ∀ {v P d}, rel v P d → T.isLeaf v = true → ∀ a, P a = true ↔ a = T.sym v
  size : ∀ {v P d}, rel v P d → T.size v = occ x P n
  inner : ∀ {v P d}, rel v P d → T.isLeaf v = false → ∃ (d' : Nat) (β : Word → Bool) (l r : N), d = d' + 1 ∧ T.expand v = some (l, r) ∧
    rel l (fun a => P a && !β a) d' ∧ rel r (fun a => P a && β a) d' ∧
    (∀ i j, i ≤ j → j ≤ n → T.expandRange v (rng x P i j) = some (rng x (fun a => P a && !β a) i j, rng x (fun a => P a && β a) i j)) ∧
    (∀ j, j < n → P (x j) = true → T.bit v (occ x P j) = some (β (x j))) ∧
    (lex → ∀ a b, P a = true → P b = true → β a = false → β b = true → a < b)

namespace Refines

variable {N : Type} {T : Tree N} {x : Nat → Word} {n : Nat} {lex : Prop} {rel : N → (Word → Bool) → Nat → Prop}

/-! ### intersect -/

/-- The intervals that contain a symbol of `P`. -/
def nonE (x : Nat → Word) (P : Word → Bool) (R : List (Nat × Nat)) : List (Nat × Nat) := R.filter (fun p => decide (occ x P p.1 < occ x P p.2))

def imgs (x : Nat → Word) (P : Word → Bool) (R : List (Nat × Nat)) : List Range := R.map (fun p => rng x P p.1 p.2)

/-- Number of symbols of `P` in the intervals. -/
def total (x : Nat → Word) (P : Word → Bool) (R : List (Nat × Nat)) : Nat := (R.map (fun p => occ x P p.2 - occ x P p.1)).sum

theorem nonE_imp {P Q : Word → Bool} {R : List (Nat × Nat)} (hR : ∀ p ∈ R, p.1 ≤ p.2) (h : ∀ a, Q a = true → P a = true) : nonE x Q (nonE x P R) = nonE x Q R := by
  unfold nonE
  rw [List.filter_filter]
  apply List.filter_congr
  intro p hp
  have hle := hR p hp
  rw [Bool.eq_iff_iff]
  simp only [Bool.and_eq_true, decide_eq_true_eq]
  constructor
  · exact fun h => h.1
  · intro h1
    refine ⟨h1, ?_⟩
    rw [occ_lt_iff hle] at h1 ⊢
    obtain ⟨q, h2, h3, h4⟩ := h1
    exact ⟨q, h2, h3, h _ h4⟩

theorem nonE_length_le {P Q : Word → Bool} {R : List (Nat × Nat)} (hR : ∀ p ∈ R, p.1 ≤ p.2) (h : ∀ a, Q a = true → P a = true) : (nonE x Q R).length ≤ (nonE x P R).length := by
  rw [← nonE_imp hR h]
  exact List.length_filter_le _ _

theorem freq_eq (hn : n < 2 ^ 64) (P : Word → Bool) : ∀ (R : List (Nat × Nat)), (∀ p ∈ R, p.1 ≤ p.2 ∧ p.2 ≤ n) → Tree.freq (imgs x P (nonE x P R)) = total x P R % 2 ^ 64 := by
  have key : ∀ (R : List (Nat × Nat)) (acc : Nat), (∀ p ∈ R, p.1 ≤ p.2 ∧ p.2 ≤ n) →
      (imgs x P (nonE x P R)).foldl (fun acc r => (acc + Range.size r) % 2 ^ 64) (acc % 2 ^ 64) = (acc + total x P R) % 2 ^ 64 := by
    intro R
    induction R with
    | nil => intro acc _; simp [imgs, nonE, total]
    | cons p R ih =>
      intro acc hR
      have hp := hR p (by simp)
      have hR' := fun q hq => hR q (List.mem_cons_of_mem _ hq)
      unfold nonE total at *
      rw [List.filter_cons, List.map_cons, List.sum_cons]
      by_cases hlt : occ x P p.1 < occ x P p.2
      · rw [if_pos (by simpa using hlt)]
        unfold imgs at *
        rw [List.map_cons, List.foldl_cons, rng_size hn hp.1 hp.2, Nat.mod_add_mod, ih _ hR']
        congr 1; omega
      · rw [if_neg (by simpa using hlt), ih _ hR']
        congr 1; omega
  intro R hR
  have := key R 0 hR
  simpa [Tree.freq] using this

theorem expandAll_eq {v : N} {P Q Q' : Word → Bool} (he : ∀ i j, i ≤ j → j ≤ n → T.expandRange v (rng x P i j) = some (rng x Q i j, rng x Q' i j)) :
    ∀ (R : List (Nat × Nat)), (∀ p ∈ R, p.1 ≤ p.2 ∧ p.2 ≤ n) → T.expandAll v (imgs x P R) = some (imgs x Q R, imgs x Q' R) := by
  intro R
  induction R with
  | nil => intro _; rfl
  | cons p R ih =>
    intro hR
    have hp := hR p (by simp)
    have := ih (fun q hq => hR q (List.mem_cons_of_mem _ hq))
    unfold imgs at *
    rw [List.map_cons, Tree.expandAll, he _ _ hp.1 hp.2, sbind, this, sbind]; rfl

theorem filter_imgs (hn : n < 2 ^ 64) (P : Word → Bool) {R : List (Nat × Nat)} (hR : ∀ p ∈ R, p.1 ≤ p.2 ∧ p.2 ≤ n) : (imgs x P R).filter (fun r => !Range.empty r) = imgs x P (nonE x P R) := by
  unfold imgs nonE
  rw [List.filter_map]
  congr 1
  apply List.filter_congr
  intro p hp
  have := hR p hp
  rw [Function.comp_apply, rng_empty hn this.1 this.2, Bool.not_not]

theorem nonE_mem {P : Word → Bool} {R : List (Nat × Nat)} (hR : ∀ p ∈ R, p.1 ≤ p.2 ∧ p.2 ≤ n) : ∀ p ∈ nonE x P R, p.1 ≤ p.2 ∧ p.2 ≤ n :=
  fun p hp => hR p (List.mem_filter.1 hp).1

theorem nonE_congr {P Q : Word → Bool} (h : ∀ a, P a = Q a) (R : List (Nat × Nat)) : nonE x P R = nonE x Q R := by
  rw [funext h]

/-- The result of `intersect` below a node. -/
structure IntersectOut (x : Nat → Word) (R : List (Nat × Nat)) (t : Nat) (lex : Prop) (P : Word → Bool) (out : List (Word × Nat)) : Prop where
  mem : ∀ c f, (c, f) ∈ out ↔ P c = true ∧ t ≤ (nonE x (fun b => b == c) R).length ∧ f = total x (fun b => b == c) R % 2 ^ 64
  ne : out.Pairwise (fun a b => a.1 ≠ b.1)
  lt : lex → out.Pairwise (fun a b => a.1 < b.1)

/-- The stack after `push_node`. -/
def pushed (x : Nat → Word) (R : List (Nat × Nat)) (t : Nat) (v : N) (P : Word → Bool) (st : List (N × List Range)) : List (N × List Range) :=
  if t ≤ (nonE x P R).length then (v, imgs x P (nonE x P R)) :: st else st

theorem intersect_node (h : Refines T x n lex rel) {R : List (Nat × Nat)} (hR : ∀ p ∈ R, p.1 ≤ p.2 ∧ p.2 ≤ n) {t : Nat} : ∀ (d : Nat) (v : N) (P : Word → Bool), rel v P d →
    ∃ out used, used < 2 ^ (d + 1) ∧ IntersectOut x R t lex P out ∧
      ∀ fuel st res, Tree.intersectLoop T t (fuel + used) (pushed x R t v P st) res = Tree.intersectLoop T t fuel st (res ++ out) := by
  have hR1 : ∀ p ∈ R, p.1 ≤ p.2 := fun p hp => (hR p hp).1
  -- a node that is not pushed
  have hskip : ∀ (d : Nat) (v : N) (P : Word → Bool), ¬ t ≤ (nonE x P R).length → ∃ out used, used < 2 ^ (d + 1) ∧ IntersectOut x R t lex P out ∧
      ∀ fuel st res, Tree.intersectLoop T t (fuel + used) (pushed x R t v P st) res = Tree.intersectLoop T t fuel st (res ++ out) := by
    intro d v P ht
    refine ⟨[], 0, Nat.two_pow_pos _, ⟨?_, List.Pairwise.nil, fun _ => List.Pairwise.nil⟩, ?_⟩
    · intro c f
      simp only [List.not_mem_nil, false_iff, not_and]
      intro h1 h2
      have := nonE_length_le (x := x) (P := P) (Q := fun b => b == c) hR1 (fun a ha => by rw [beq_iff_eq] at ha; subst ha; exact h1)
      omega
    · intro fuel st res
      rw [pushed, if_neg ht, List.append_nil, Nat.add_zero]
  have hleaf : ∀ (d : Nat) (v : N) (P : Word → Bool), rel v P d → T.isLeaf v = true → t ≤ (nonE x P R).length → ∃ out used, used < 2 ^ (d + 1) ∧ IntersectOut x R t lex P out ∧
      ∀ fuel st res, Tree.intersectLoop T t (fuel + used) (pushed x R t v P st) res = Tree.intersectLoop T t fuel st (res ++ out) := by
    intro d v P hrel hl ht
    have hP := h.leaf hrel hl
    have hPe : P = fun b => b == T.sym v := by
      funext b
      rw [Bool.eq_iff_iff, hP b, beq_iff_eq]
    refine ⟨[(T.sym v, total x P R % 2 ^ 64)], 1, Nat.one_lt_two_pow (by omega), ⟨?_, List.pairwise_singleton _ _, fun _ => List.pairwise_singleton _ _⟩, ?_⟩
    · intro c f
      rw [List.mem_singleton, Prod.mk.injEq, hP c]
      constructor
      · rintro ⟨h1, h2⟩
        rw [h1, ← hPe]
        exact ⟨rfl, ht, h2⟩
      · rintro ⟨h1, h2, h3⟩
        rw [h1, ← hPe] at h3
        exact ⟨h1, h3⟩
    · intro fuel st res
      rw [pushed, if_pos ht, Tree.intersectLoop, if_pos hl, if_pos (by rw [imgs, List.length_map]; exact ht), freq_eq h.small P R hR]
  intro d
  induction d with
  | zero =>
    intro v P hrel
    by_cases ht : t ≤ (nonE x P R).length
    · cases hl : T.isLeaf v with
      | true => exact hleaf 0 v P hrel hl ht
      | false =>
        obtain ⟨d', _, _, _, h1, _⟩ := h.inner hrel hl
        omega
    · exact hskip 0 v P ht
  | succ d ih =>
    intro v P hrel
    by_cases ht : t ≤ (nonE x P R).length
    · cases hl : T.isLeaf v with
      | true => exact hleaf _ v P hrel hl ht
      | false =>
        obtain ⟨d', β, l, r, h1, h2, h3, h4, h5, -, h6⟩ := h.inner hrel hl
        obtain rfl : d = d' := by omega
        obtain ⟨o1, u1, a1, a2, a3⟩ := ih l _ h3
        obtain ⟨o2, u2, b1, b2, b3⟩ := ih r _ h4
        have hdis : ∀ a ∈ o1, ∀ b ∈ o2, β a.1 = false ∧ β b.1 = true ∧ P a.1 = true ∧ P b.1 = true := by
          intro a ha b hb
          have e1 := ((a2.mem a.1 a.2).1 ha).1
          have e2 := ((b2.mem b.1 b.2).1 hb).1
          simp only [Bool.and_eq_true, Bool.not_eq_true'] at e1 e2
          exact ⟨e1.2, e2.2, e1.1, e2.1⟩
        refine ⟨o1 ++ o2, 1 + u1 + u2, by rw [Nat.pow_succ]; omega, ⟨?_, ?_, ?_⟩, ?_⟩
        · intro c f
          rw [List.mem_append, a2.mem, b2.mem]
          cases P c <;> cases β c <;> simp
        · rw [List.pairwise_append]
          refine ⟨a2.ne, b2.ne, fun a ha b hb heq => ?_⟩
          obtain ⟨e1, e2, -⟩ := hdis a ha b hb
          rw [heq, e2] at e1
          exact absurd e1 (by simp)
        · intro hlex
          rw [List.pairwise_append]
          refine ⟨a2.lt hlex, b2.lt hlex, fun a ha b hb => ?_⟩
          obtain ⟨e1, e2, e3, e4⟩ := hdis a ha b hb
          exact h6 hlex _ _ e3 e4 e1 e2
        · intro fuel st res
          have hmem := nonE_mem (x := x) (P := P) hR
          have hpush : ∀ (w : N) (Q : Word → Bool) (st' : List (N × List Range)), (∀ a, Q a = true → P a = true) → Tree.pushNode t st' w (imgs x Q (nonE x P R)) = some (pushed x R t w Q st') := by
            intro w Q st' hQ
            rw [Tree.pushNode, if_neg (by rw [imgs, List.length_map]; omega)]
            dsimp only
            rw [filter_imgs h.small Q hmem, nonE_imp hR1 hQ, pushed, imgs, List.length_map]
            split <;> rfl
          rw [pushed, if_pos ht, show fuel + (1 + u1 + u2) = fuel + u2 + u1 + 1 by omega, Tree.intersectLoop, if_neg (by rw [hl]; simp), h2, sbind, expandAll_eq h5 _ hmem, sbind]
          dsimp only
          rw [hpush _ _ _ (fun a ha => by simp only [Bool.and_eq_true] at ha; exact ha.1), sbind, hpush _ _ _ (fun a ha => by simp only [Bool.and_eq_true] at ha; exact ha.1), sbind, a3, b3,
            List.append_assoc]
    · exact hskip _ v P ht

/-- `intersect` reports the symbols that occur in at least `t` of the intervals, each with the number of its occurrences in them. -/
theorem intersect_spec (h : Refines T x n lex rel) {R : List (Nat × Nat)} (hR : ∀ p ∈ R, p.1 ≤ p.2 ∧ p.2 < n) {t : Nat} (ht : t ≤ R.length) :
    ∃ out, Tree.intersect T R t = some out ∧ out.Pairwise (fun a b => a.1 ≠ b.1) ∧ (lex → out.Pairwise (fun a b => a.1 < b.1)) ∧
      ∀ c f, (c, f) ∈ out ↔ 0 < R.length ∧ (if t = 0 then R.length else t) ≤ (R.filter (fun p => decide (occ x (fun b => b == c) p.1 < occ x (fun b => b == c) (p.2 + 1)))).length ∧
        f = (R.map (fun p => occ x (fun b => b == c) (p.2 + 1) - occ x (fun b => b == c) p.1)).sum % 2 ^ 64 := by
  rw [Tree.intersect]
  by_cases h0 : R.length = 0
  · rw [if_pos h0]
    exact ⟨[], rfl, List.Pairwise.nil, fun _ => List.Pairwise.nil, fun c f => by simp [h0]⟩
  rw [if_neg h0]
  obtain ⟨P, hroot, hP⟩ := h.root
  let R' : List (Nat × Nat) := R.map (fun p => (p.1, p.2 + 1))
  have hR' : ∀ p ∈ R', p.1 ≤ p.2 ∧ p.2 ≤ n := by
    intro p hp
    obtain ⟨q, hq, rfl⟩ := List.mem_map.1 hp
    have := hR q hq
    dsimp only; omega
  have hoccP : ∀ i, i ≤ n → occ x P i = i := by
    intro i hi
    rw [occ_congr (Q := fun _ => true) (fun j hj => hP j (by omega)), occ_true]
  generalize hT : (if t = 0 then R.length else t) = t'
  have ht' : 1 ≤ t' ∧ t' ≤ R.length := by subst hT; split <;> omega
  obtain ⟨out, used, h1, h2, h3⟩ := intersect_node h hR' (t := t') T.depth T.root P hroot
  have hne : nonE x P R' = R' := by
    rw [nonE, List.filter_eq_self]
    intro p hp
    have h5 := hR' p hp
    obtain ⟨q, hq, rfl⟩ := List.mem_map.1 hp
    have := hR q hq
    dsimp only at *
    rw [hoccP _ (by omega), hoccP _ (by omega)]
    simp; omega
  have himg : imgs x P R' = R := by
    rw [imgs, List.map_map]
    conv => rhs; rw [← List.map_id R]
    apply List.map_congr_left
    intro p hp
    have := hR p hp
    have hs := h.small
    rw [Function.comp_apply, rng]
    dsimp only
    rw [hoccP _ (by omega), hoccP _ (by omega)]
    exact (Range.eq_mk this.1 (by omega)).symm
  refine ⟨out, ?_, h2.ne, h2.lt, ?_⟩
  · have h4 := h3 (2 ^ (T.depth + 1) - used) [] []
    rw [pushed, hne, himg, if_pos (by rw [List.length_map]; exact ht'.2), Nat.sub_add_cancel (by omega)] at h4
    rw [h4]
    obtain ⟨k, hk⟩ : ∃ k, 2 ^ (T.depth + 1) - used = k + 1 := ⟨2 ^ (T.depth + 1) - used - 1, by omega⟩
    rw [hk, Tree.intersectLoop, List.nil_append]
  · intro c f
    rw [h2.mem]
    have e1 : (nonE x (fun b => b == c) R').length = (R.filter (fun p => decide (occ x (fun b => b == c) p.1 < occ x (fun b => b == c) (p.2 + 1)))).length := by
      rw [nonE, List.filter_map, List.length_map]; rfl
    have e2 : total x (fun b => b == c) R' = (R.map (fun p => occ x (fun b => b == c) (p.2 + 1) - occ x (fun b => b == c) p.1)).sum := by
      rw [total, List.map_map]; rfl
    rw [e1, e2]
    constructor
    · rintro ⟨h5, h6, h7⟩; exact ⟨by omega, h6, h7⟩
    · rintro ⟨h5, h6, h7⟩
      refine ⟨?_, h6, h7⟩
      obtain ⟨p, hp⟩ := List.exists_mem_of_length_pos (l := R.filter (fun p => decide (occ x (fun b => b == c) p.1 < occ x (fun b => b == c) (p.2 + 1)))) (by omega)
      obtain ⟨hp1, hp2⟩ := List.mem_filter.1 hp
      have hp3 := hR p hp1
      rw [decide_eq_true_eq, occ_lt_iff (by omega)] at hp2
      obtain ⟨q, hq1, hq2, hq3⟩ := hp2
      rw [beq_iff_eq] at hq3
      rw [← hq3]
      exact hP q (by omega)

/-! ### quantile_freq -/

theorem quantileLoop_spec (h : Refines T x n lex rel) (hlex : lex) {i j : Nat} (hij : i ≤ j) (hj : j ≤ n) : ∀ (d : Nat) (v : N) (P : Word → Bool) (q : Nat), rel v P d →
    q < occ x P j - occ x P i → ∃ c, Tree.quantileLoop T (d + 1) v (rng x P i j) q = some (c, occ x (fun b => b == c) j - occ x (fun b => b == c) i) ∧ P c = true ∧
      occ x (fun b => P b && decide (b < c)) j - occ x (fun b => P b && decide (b < c)) i ≤ q ∧
      q < (occ x (fun b => P b && decide (b < c)) j - occ x (fun b => P b && decide (b < c)) i) + (occ x (fun b => b == c) j - occ x (fun b => b == c) i) := by
  have hleaf : ∀ (d : Nat) (v : N) (P : Word → Bool) (q : Nat), rel v P d → T.isLeaf v = true → q < occ x P j - occ x P i →
    ∃ c, Tree.quantileLoop T (d + 1) v (rng x P i j) q = some (c, occ x (fun b => b == c) j - occ x (fun b => b == c) i) ∧ P c = true ∧
      occ x (fun b => P b && decide (b < c)) j - occ x (fun b => P b && decide (b < c)) i ≤ q ∧
      q < (occ x (fun b => P b && decide (b < c)) j - occ x (fun b => P b && decide (b < c)) i) + (occ x (fun b => b == c) j - occ x (fun b => b == c) i) := by
    intro d v P q hrel hl hq
    have hP := h.leaf hrel hl
    have hPe : P = fun b => b == T.sym v := by
      funext b
      rw [Bool.eq_iff_iff, hP b, beq_iff_eq]
    refine ⟨T.sym v, ?_, (hP _).2 rfl, ?_, ?_⟩
    · rw [Tree.quantileLoop, if_pos hl, rng_size h.small hij hj, ← hPe]
    · have : (fun b => P b && decide (b < T.sym v)) = fun _ => false := by
        funext b
        rw [hPe]
        by_cases hb : b = T.sym v
        · subst hb; simp
        · simp [hb]
      rw [this, (occ_eq_zero (P := fun _ => false)).2 (fun _ _ => rfl)]
      omega
    · rw [← hPe]; omega
  intro d
  induction d with
  | zero =>
    intro v P q hrel hq
    cases hl : T.isLeaf v with
    | true => exact hleaf 0 v P q hrel hl hq
    | false =>
      obtain ⟨d', _, _, _, h1, _⟩ := h.inner hrel hl
      omega
  | succ d ih =>
    intro v P q hrel hq
    cases hl : T.isLeaf v with
    | true => exact hleaf _ v P q hrel hl hq
    | false =>
      obtain ⟨d', β, l, r, h1, h2, h3, h4, h5, -, h6⟩ := h.inner hrel hl
      obtain rfl : d = d' := by omega
      have h6 := h6 hlex
      have s1 := occ_split (x := x) P β i
      have s2 := occ_split (x := x) P β j
      have m1 := occ_mono (x := x) (fun a => P a && β a) hij
      have m2 := occ_mono (x := x) (fun a => P a && !β a) hij
      rw [Tree.quantileLoop, if_neg (by rw [hl]; simp), h2, sbind, h5 i j hij hj, sbind]
      dsimp only
      rw [rng_size h.small hij hj]
      by_cases hz : q ≥ occ x (fun a => P a && !β a) j - occ x (fun a => P a && !β a) i
      · rw [if_pos hz]
        obtain ⟨c, e1, e2, e3, e4⟩ := ih r _ (q - (occ x (fun a => P a && !β a) j - occ x (fun a => P a && !β a) i)) h4 (by omega)
        simp only [Bool.and_eq_true] at e2
        have hs : ∀ k, occ x (fun b => P b && decide (b < c)) k = occ x (fun a => P a && !β a) k + occ x (fun b => (P b && β b) && decide (b < c)) k := by
          intro k
          rw [occ_split (x := x) (fun b => P b && decide (b < c)) β k, Nat.add_comm]
          congr 1
          · apply occ_congr
            intro p _
            by_cases hp : P (x p) = true
            · by_cases hb : β (x p) = true
              · simp [hb]
              · have hb' : β (x p) = false := by simpa using hb
                have := h6 _ _ hp e2.1 hb' e2.2
                simp [this]
            · simp [hp]
          · apply occ_congr
            intro p _
            cases P (x p) <;> cases β (x p) <;> simp
        have m3 := occ_mono (x := x) (fun b => (P b && β b) && decide (b < c)) hij
        refine ⟨c, e1, e2.1, ?_, ?_⟩
        · rw [hs, hs]; omega
        · rw [hs, hs]; omega
      · rw [if_neg hz]
        obtain ⟨c, e1, e2, e3, e4⟩ := ih l _ q h3 (by omega)
        simp only [Bool.and_eq_true, Bool.not_eq_true'] at e2
        have hs : (fun b => P b && decide (b < c)) = (fun b => (P b && !β b) && decide (b < c)) := by
          funext b
          by_cases hp : P b = true
          · by_cases hb : β b = true
            · have := h6 _ _ e2.1 hp e2.2 hb
              have : ¬ b < c := by rw [BitVec.lt_def] at this ⊢; omega
              simp [this]
            · simp [hb]
          · simp [hp]
        rw [← hs] at e3 e4
        exact ⟨c, e1, e2.1, e3, e4⟩

theorem root_occ (h : Refines T x n lex rel) : ∃ P, rel T.root P T.depth ∧ (∀ j, j < n → P (x j) = true) ∧ ∀ i, i ≤ n → occ x P i = i := by
  obtain ⟨P, hroot, hP⟩ := h.root
  refine ⟨P, hroot, hP, fun i hi => ?_⟩
  rw [occ_congr (Q := fun _ => true) (fun j hj => hP j (by omega)), occ_true]

theorem root_rng (h : Refines T x n lex rel) {P : Word → Bool} (hP : ∀ i, i ≤ n → occ x P i = i) {lb rb : Nat} (hlr : lb ≤ rb) (hrb : rb < n) : (lb, rb) = rng x P lb (rb + 1) := by
  have hs := h.small
  rw [rng, hP _ (by omega), hP _ (by omega)]
  exact Range.eq_mk hlr (by omega)

/-- `quantile_freq` returns the symbol that is at index `q` in the sorted interval, and the number of its occurrences in it. -/
theorem quantileFreq_spec (h : Refines T x n lex rel) (hlex : lex) {lb rb q : Nat} (hlr : lb ≤ rb) (hrb : rb < n) (hq : q ≤ rb - lb) :
    ∃ c, Tree.quantileFreq T lb rb q = some (c, occ x (fun b => b == c) (rb + 1) - occ x (fun b => b == c) lb) ∧
      occ x (fun b => decide (b < c)) (rb + 1) - occ x (fun b => decide (b < c)) lb ≤ q ∧
      q < (occ x (fun b => decide (b < c)) (rb + 1) - occ x (fun b => decide (b < c)) lb) + (occ x (fun b => b == c) (rb + 1) - occ x (fun b => b == c) lb) := by
  obtain ⟨P, hroot, hP, hocc⟩ := h.root_occ
  rw [Tree.quantileFreq, h.root_rng hocc hlr hrb]
  obtain ⟨c, e1, e2, e3, e4⟩ := quantileLoop_spec h hlex (i := lb) (j := rb + 1) (by omega) (by omega) T.depth T.root P q hroot (by rw [hocc _ (by omega), hocc _ (by omega)]; omega)
  have hs : ∀ k, k ≤ n → occ x (fun b => P b && decide (b < c)) k = occ x (fun b => decide (b < c)) k := by
    intro k hk
    apply occ_congr
    intro p hp
    rw [hP p (by omega), Bool.true_and]
  rw [hs _ (by omega), hs _ (by omega)] at e3 e4
  exact ⟨c, e1, e3, e4⟩

/-! ### interval_symbols -/

theorem intervalRec_spec (h : Refines T x n lex rel) {i j : Nat} (hij : i ≤ j) (hj : j ≤ n) : ∀ (d : Nat) (v : N) (P : Word → Bool), rel v P d → occ x P i < occ x P j →
    ∃ out, Tree.intervalRec T (d + 1) (rng x P i j) v = some out ∧ out.Pairwise (fun a b => a.1 ≠ b.1) ∧ (lex → out.Pairwise (fun a b => a.1 < b.1)) ∧
      ∀ c ri rj, (c, ri, rj) ∈ out ↔ P c = true ∧ occ x (fun b => b == c) i < occ x (fun b => b == c) j ∧ ri = occ x (fun b => b == c) i ∧ rj = occ x (fun b => b == c) j := by
  have hleaf : ∀ (d : Nat) (v : N) (P : Word → Bool), rel v P d → T.isLeaf v = true → occ x P i < occ x P j →
    ∃ out, Tree.intervalRec T (d + 1) (rng x P i j) v = some out ∧ out.Pairwise (fun a b => a.1 ≠ b.1) ∧ (lex → out.Pairwise (fun a b => a.1 < b.1)) ∧
      ∀ c ri rj, (c, ri, rj) ∈ out ↔ P c = true ∧ occ x (fun b => b == c) i < occ x (fun b => b == c) j ∧ ri = occ x (fun b => b == c) i ∧ rj = occ x (fun b => b == c) j := by
    intro d v P hrel hl hlt
    have hP := h.leaf hrel hl
    have hPe : P = fun b => b == T.sym v := by
      funext b
      rw [Bool.eq_iff_iff, hP b, beq_iff_eq]
    rw [Tree.intervalRec, if_pos hl, rng_stop h.small hij hj, rng_fst]
    refine ⟨_, rfl, List.pairwise_singleton _ _, fun _ => List.pairwise_singleton _ _, ?_⟩
    intro c ri rj
    rw [List.mem_singleton, Prod.mk.injEq, Prod.mk.injEq, hP c]
    constructor
    · rintro ⟨rfl, rfl, rfl⟩
      rw [← hPe]
      exact ⟨rfl, hlt, rfl, rfl⟩
    · rintro ⟨rfl, -, rfl, rfl⟩
      rw [← hPe]
      exact ⟨rfl, rfl, rfl⟩
  intro d
  induction d with
  | zero =>
    intro v P hrel hlt
    cases hl : T.isLeaf v with
    | true => exact hleaf 0 v P hrel hl hlt
    | false =>
      obtain ⟨d', _, _, _, h1, _⟩ := h.inner hrel hl
      omega
  | succ d ih =>
    intro v P hrel hlt
    cases hl : T.isLeaf v with
    | true => exact hleaf _ v P hrel hl hlt
    | false =>
      obtain ⟨d', β, l, r, h1, h2, h3, h4, h5, -, h6⟩ := h.inner hrel hl
      obtain rfl : d = d' := by omega
      rw [Tree.intervalRec, if_neg (by rw [hl]; simp), h2, sbind, h5 i j hij hj, sbind]
      dsimp only
      have hchild : ∀ (w : N) (Q : Word → Bool), rel w Q d →
          ∃ out, (if Range.empty (rng x Q i j) = true then some [] else Tree.intervalRec T (d + 1) (rng x Q i j) w) = some out ∧ out.Pairwise (fun a b => a.1 ≠ b.1) ∧
            (lex → out.Pairwise (fun a b => a.1 < b.1)) ∧
            ∀ c ri rj, (c, ri, rj) ∈ out ↔ Q c = true ∧ occ x (fun b => b == c) i < occ x (fun b => b == c) j ∧ ri = occ x (fun b => b == c) i ∧ rj = occ x (fun b => b == c) j := by
        intro w Q hw
        rw [rng_empty h.small hij hj]
        by_cases hq : occ x Q i < occ x Q j
        · rw [if_neg (by simpa using hq)]
          exact ih w Q hw hq
        · rw [if_pos (by simpa using hq)]
          refine ⟨[], rfl, List.Pairwise.nil, fun _ => List.Pairwise.nil, fun c ri rj => ?_⟩
          simp only [List.not_mem_nil, false_iff, not_and]
          intro e1 e2
          exfalso
          apply hq
          rw [occ_lt_iff hij] at e2 ⊢
          obtain ⟨p, p1, p2, p3⟩ := e2
          rw [beq_iff_eq] at p3
          exact ⟨p, p1, p2, by rw [p3]; exact e1⟩
      obtain ⟨o1, a1, a2, a3, a4⟩ := hchild l _ h3
      obtain ⟨o2, b1, b2, b3, b4⟩ := hchild r _ h4
      rw [a1, b1]
      have hdis : ∀ a ∈ o1, ∀ b ∈ o2, β a.1 = false ∧ β b.1 = true ∧ P a.1 = true ∧ P b.1 = true := by
        intro a ha b hb
        have e1 := ((a4 a.1 a.2.1 a.2.2).1 ha).1
        have e2 := ((b4 b.1 b.2.1 b.2.2).1 hb).1
        simp only [Bool.and_eq_true, Bool.not_eq_true'] at e1 e2
        exact ⟨e1.2, e2.2, e1.1, e2.1⟩
      refine ⟨o1 ++ o2, rfl, ?_, ?_, ?_⟩
      · rw [List.pairwise_append]
        refine ⟨a2, b2, fun a ha b hb heq => ?_⟩
        obtain ⟨e1, e2, -⟩ := hdis a ha b hb
        rw [heq, e2] at e1
        exact absurd e1 (by simp)
      · intro hlex
        rw [List.pairwise_append]
        refine ⟨a3 hlex, b3 hlex, fun a ha b hb => ?_⟩
        obtain ⟨e1, e2, e3, e4⟩ := hdis a ha b hb
        exact h6 hlex _ _ e3 e4 e1 e2
      · intro c ri rj
        rw [List.mem_append, a4, b4]
        cases P c <;> cases β c <;> simp

/-- `interval_symbols` reports the symbols of `[i..j-1]` with their ranks. -/
theorem intervalSymbols_spec (h : Refines T x n lex rel) {inv : Nat → Option (Nat × Word)} (hinv : ∀ i, i < n → inv i = some (occ x (fun b => b == x i) i, x i)) {i j : Nat} (hij : i ≤ j) (hj : j ≤ n) :
    ∃ out, Tree.intervalSymbols T inv i j = some out ∧ out.Pairwise (fun a b => a.1 ≠ b.1) ∧ (lex → out.Pairwise (fun a b => a.1 < b.1)) ∧
      ∀ c ri rj, (c, ri, rj) ∈ out ↔ occ x (fun b => b == c) i < occ x (fun b => b == c) j ∧ ri = occ x (fun b => b == c) i ∧ rj = occ x (fun b => b == c) j := by
  rw [Tree.intervalSymbols]
  by_cases h1 : i + 1 = j
  · subst h1
    rw [if_pos rfl, hinv i (by omega), sbind]
    refine ⟨_, rfl, List.pairwise_singleton _ _, fun _ => List.pairwise_singleton _ _, ?_⟩
    intro c ri rj
    rw [List.mem_singleton, Prod.mk.injEq, Prod.mk.injEq, occ_succ]
    constructor
    · rintro ⟨rfl, rfl, rfl⟩
      simp
    · rintro ⟨e1, rfl, rfl⟩
      have : x i = c := by
        apply Classical.byContradiction
        intro hne
        rw [show (x i == c) = false by simpa using hne] at e1
        simp at e1
      subst this
      simp
  · rw [if_neg h1]
    by_cases h2 : j > i
    · rw [if_pos h2]
      obtain ⟨P, hroot, hP, hocc⟩ := h.root_occ
      have e0 := h.root_rng hocc (lb := i) (rb := j - 1) (by omega) (by omega)
      rw [show j - 1 + 1 = j by omega] at e0
      rw [e0]
      obtain ⟨out, e1, e2, e3, e4⟩ := intervalRec_spec h hij hj T.depth T.root P hroot (by rw [hocc _ (by omega), hocc _ hj]; omega)
      refine ⟨out, e1, e2, e3, fun c ri rj => ?_⟩
      rw [e4]
      constructor
      · exact fun e => e.2
      · intro e
        refine ⟨?_, e⟩
        obtain ⟨p, p1, p2, p3⟩ := (occ_lt_iff hij).1 e.1
        rw [beq_iff_eq] at p3
        rw [← p3]; exact hP p (by omega)
    · rw [if_neg h2]
      obtain rfl : i = j := by omega
      exact ⟨[], rfl, List.Pairwise.nil, fun _ => List.Pairwise.nil, fun c ri rj => by simp⟩

/-! ### seq -/

/-- `seq(v)[k]` is the `k`-th symbol of the node. -/
theorem seq_spec (h : Refines T x n lex rel) {j : Nat} (hj : j < n) : ∀ (d : Nat) (v : N) (P : Word → Bool), rel v P d → P (x j) = true → Tree.seq T (d + 1) v (occ x P j) = some (x j) := by
  intro d
  induction d with
  | zero =>
    intro v P hrel hp
    cases hl : T.isLeaf v with
    | true => rw [Tree.seq, if_pos hl, ((h.leaf hrel hl) _).1 hp]
    | false =>
      obtain ⟨d', _, _, _, h1, _⟩ := h.inner hrel hl
      omega
  | succ d ih =>
    intro v P hrel hp
    cases hl : T.isLeaf v with
    | true => rw [Tree.seq, if_pos hl, ((h.leaf hrel hl) _).1 hp]
    | false =>
      obtain ⟨d', β, l, r, h1, h2, h3, h4, h5, h7, h6⟩ := h.inner hrel hl
      obtain rfl : d = d' := by omega
      have hs := h.small
      have hr : (0, occ x P j) = rng x P 0 (j + 1) := by
        have := occ_le (x := x) P j
        rw [rng, occ_zero, occ_succ, hp]
        exact Range.eq_mk (Nat.zero_le _) (by omega)
      rw [Tree.seq, if_neg (by rw [hl]; simp), h2, sbind, hr, h5 0 (j + 1) (by omega) hj, sbind, h7 j hj hp, sbind]
      dsimp only
      cases hb : β (x j) with
      | true =>
        have hQ : (fun a => P a && β a) (x j) = true := by simp [hp, hb]
        have ho : occ x (fun a => P a && β a) (j + 1) = occ x (fun a => P a && β a) j + 1 := by rw [occ_succ]; simp [hp, hb]
        rw [if_pos rfl, rng_snd h.small hj (by rw [occ_zero, ho]; omega), ho, Nat.add_sub_cancel]
        exact ih r _ h4 hQ
      | false =>
        have hQ : (fun a => P a && !β a) (x j) = true := by simp [hp, hb]
        have ho : occ x (fun a => P a && !β a) (j + 1) = occ x (fun a => P a && !β a) j + 1 := by rw [occ_succ]; simp [hp, hb]
        rw [if_neg (by simp), rng_snd h.small hj (by rw [occ_zero, ho]; omega), ho, Nat.add_sub_cancel]
        exact ih l _ h3 hQ

end Refines

end Sdsl.Wt
