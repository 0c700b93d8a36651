/-
  The depth-first iterator of `cst_sct3` (CstIter.lean).
-/
import Verif.CstIterLemmas

namespace Sdsl.CstSct3

open Spec Props

/-- A visit of the depth-first traversal: an interval, and whether it is the first or the second visit. -/
abbrev Visit := (Nat × Nat) × Nat

/-- The visits of the depth-first traversal of the subtree of `[i0..j0]` that leaves out everything below the nodes in `skip`:
every node once (`1`), inner nodes that are not skipped a second time (`2`). -/
def IsVisit (L : List Nat) (skip : Nat → Nat → Bool) (i0 j0 : Nat) (e : Visit) : Prop :=
  IsNode L e.1.1 e.1.2 ∧ i0 ≤ e.1.1 ∧ e.1.2 ≤ j0 ∧
  (∀ a c, IsNode L a c → i0 ≤ a → c ≤ j0 → a ≤ e.1.1 → e.1.2 ≤ c → ¬ (a = e.1.1 ∧ c = e.1.2) → skip a c = false) ∧
  (e.2 = 1 ∨ (e.2 = 2 ∧ e.1.1 < e.1.2 ∧ skip e.1.1 e.1.2 = false))

/-- `e` comes before `f` in depth-first order: its node is to the left, or it is the first visit of an ancestor, or `f` is the second visit of an ancestor,
or both visit the same node. -/
def Before (e f : Visit) : Prop :=
  e.1.2 < f.1.1 ∨
  (e.2 = 1 ∧ e.1.1 ≤ f.1.1 ∧ f.1.2 ≤ e.1.2 ∧ e.1 ≠ f.1) ∨
  (f.2 = 2 ∧ f.1.1 ≤ e.1.1 ∧ e.1.2 ≤ f.1.2 ∧ e.1 ≠ f.1) ∨
  (e.1 = f.1 ∧ e.2 = 1 ∧ f.2 = 2)

/-- The visit of an iterator. -/
def ev (x : Node × Nat) : Visit := ((x.1.i, x.1.j), x.2)

namespace Dfs

/-- `l` are the nodes visited by the loop from `it` to `it'`. -/
def Steps (s : Cst) (skip : Node → Bool) (last : Dfs) : Dfs → List (Node × Nat) → Dfs → Prop
  | it, [], it' => it = it'
  | it, e :: l, it' => same it last = false ∧ e = (it.v, visit it) ∧ ∃ m, next s (if !it.visited && skip it.v then skipSubtree it else it) = some m ∧ Steps s skip last m l it'

section
variable {s : Cst} {skip : Node → Bool} {last : Dfs}

theorem Steps.trans : ∀ {l l' : List (Node × Nat)} {a b c : Dfs}, Steps s skip last a l b → Steps s skip last b l' c → Steps s skip last a (l ++ l') c
  | [], _, _, _, _, h1, h2 => by
    have h1 : _ = _ := h1
    rw [h1]; exact h2
  | _ :: _, _, _, _, _, ⟨h1, h2, m, h3, h4⟩, h5 => ⟨h1, h2, m, h3, h4.trans h5⟩

theorem Steps.loop {f : Nat} : ∀ {l : List (Node × Nat)} {a b : Dfs}, Steps s skip last a l b → same b last = true → Dfs.loop s skip last (l.length + f + 1) a = some l
  | [], a, b, h1, h2 => by
    have h1 : a = b := h1
    rw [Dfs.loop, h1, if_pos h2]
  | e :: l, a, b, ⟨h1, h2, m, h3, h4⟩, h5 => by
    rw [show (e :: l).length + f + 1 = (l.length + f + 1) + 1 by simp; omega, Dfs.loop, if_neg (by rw [h1]; decide), h3, sbind, h4.loop h5, sbind, h2]
    rfl

end

/-- The cache holds the ancestors of `v`, which has the depth `d`. -/
def Anc (L : List Nat) (s : Cst) (a : List Node) : Nat → Node → Prop
  | 0, v => Top L v
  | d + 1, v => ∃ p, s.parent v = some p ∧ Valid L (Par s) p ∧ IsParent L v.i v.j p.i p.j ∧ (d < cacheSize → a[d]? = some p) ∧ Anc L s a d p

/-- No node has the depth `2^32`. -/
def Shallow (L : List Nat) : Prop := ∀ i j d, IsNode L i j → NodeDepth L i j d → d < 2 ^ 32

/-- The iterator is at `v`; its cache is in order. -/
structure At (L : List Nat) (s : Cst) (it : Dfs) (v : Node) (visited : Bool) : Prop where
  node : it.v = v
  vis : it.visited = visited
  ok : it.valid = true
  stack : it.cache = none ∨ ∃ a, it.cache = some a ∧ a.length = cacheSize ∧ Anc L s a it.sz v ∧ Shallow L

theorem Anc.set {L : List Nat} {s : Cst} {a : List Node} {k : Nat} {x : Node} : ∀ {d v}, d ≤ k → Anc L s a d v → Anc L s (a.set k x) d v
  | 0, _, _, h => h
  | d + 1, _, hd, ⟨p, h1, h2, h3, h4, h5⟩ => ⟨p, h1, h2, h3, fun hc => by rw [List.getElem?_set_ne (by omega)]; exact h4 hc, h5.set (by omega)⟩

theorem Anc.depth {L : List Nat} {s : Cst} {a : List Node} : ∀ {d v}, Anc L s a d v → NodeDepth L v.i v.j d
  | 0, v, h => by
    have : v.j = L.length - 1 := by have := h.2; omega
    rw [h.1, this]
    exact .root
  | _ + 1, _, ⟨_, _, _, h3, _, h5⟩ => .step h3 h5.depth

/-- The loop does not end inside `v`. -/
def Far (last : Dfs) (v : Node) : Prop := last.valid = false ∨ ¬ (v.i ≤ last.v.i ∧ last.v.j ≤ v.j)

theorem Far.ne {last it : Dfs} {v : Node} (h : Far last v) (hv : it.valid = true) (h1 : v.i ≤ it.v.i) (h2 : it.v.j ≤ v.j) : same it last = false := by
  rcases h with h | h
  · simp [same, hv, h]
  · have : it.v.same last.v = false := by
      rw [same_false]
      rintro ⟨e1, e2⟩
      rw [e1] at h1
      rw [e2] at h2
      exact h ⟨h1, h2⟩
    simp [same, this]

section
variable {L : List Nat} {s : Cst} (h : CstOf L s) {v : Node} {it : Dfs}
include h

/-- Going up. -/
theorem up_ok {b : Bool} (ha : At L s it v b) (hv : Valid L (Par s) v) (hn : ¬ Top L v) :
    ∃ p X, s.parent v = some p ∧ Valid L (Par s) p ∧ IsParent L v.i v.j p.i p.j ∧ up s it = some X ∧ At L s X p true := by
  obtain ⟨p, p1, p2, p3⟩ := (C62_parent h hv).2 hn
  obtain ⟨z, hz⟩ : ∃ z, z = (it.sz + (2 ^ 32 - 1)) % 2 ^ 32 := ⟨_, rfl⟩
  refine ⟨p, { it with v := p, visited := true, sz := z }, p1, p2, p3, ?_, ⟨rfl, rfl, ha.ok, ?_⟩⟩
  · rw [up, parent, ← hz]
    rcases ha.stack with e | ⟨a, e1, e2, e3, e4⟩
    · rw [e]
      dsimp only
      rw [ha.node, p1, sbind]
      rfl
    · rw [e1]
      dsimp only
      cases hs : it.sz with
      | zero => rw [hs] at e3; exact absurd e3 hn
      | succ d =>
        rw [hs] at e3
        have hlt := e4 _ _ _ hv.node e3.depth
        obtain ⟨q, q1, q2, q3, q4, q5⟩ := e3
        rw [p1, Option.some.injEq] at q1
        subst q1
        have hm : z = d := by omega
        rw [hm]
        by_cases hc : d < cacheSize
        · rw [if_pos hc, q4 hc, sbind]; rfl
        · rw [if_neg hc, ha.node, p1, sbind]; rfl
  · rcases ha.stack with e | ⟨a, e1, e2, e3, e4⟩
    · exact Or.inl e
    · refine Or.inr ⟨a, e1, e2, ?_, e4⟩
      cases hs : it.sz with
      | zero => rw [hs] at e3; exact absurd e3 hn
      | succ d =>
        rw [hs] at e3
        have hlt := e4 _ _ _ hv.node e3.depth
        obtain ⟨q, q1, q2, q3, q4, q5⟩ := e3
        rw [p1, Option.some.injEq] at q1
        subst q1
        show Anc L s a z p
        rw [show z = d by omega]
        exact q5

/-- Leaving a node that has a right sibling. -/
theorem next_sibling {w : Node} (ha : At L s it v true) (hw : s.sibling v = some w) (hwt : ¬ Top L w) (hn : ¬ Top L v) (hw2 : Valid L (Par s) w) {p : Node}
    (hp : IsParent L v.i v.j p.i p.j) (hp2 : IsParent L w.i w.j p.i p.j) (hpv : Valid L (Par s) p) : ∃ X, next s it = some X ∧ At L s X w false := by
  obtain ⟨r, r1, r2, r3, r4⟩ := root_of h
  refine ⟨{ it with v := w, visited := false }, ?_, ⟨rfl, rfl, ha.ok, ?_⟩⟩
  · have e1 : v.same r = false := by rw [Bool.eq_false_iff, ne_eq, r4]; exact hn
    have e2 : w.same r = false := by rw [Bool.eq_false_iff, ne_eq, r4]; exact hwt
    simp [next, ha.ok, ha.vis, ha.node, r1, e1, hw, e2]
  · rcases ha.stack with e | ⟨a, e1, e2, e3, e4⟩
    · exact Or.inl e
    · refine Or.inr ⟨a, e1, e2, ?_, e4⟩
      show Anc L s a it.sz w
      cases hs : it.sz with
      | zero => rw [hs] at e3; exact absurd e3 hn
      | succ d =>
        rw [hs] at e3
        obtain ⟨q, q1, q2, q3, q4, q5⟩ := e3
        obtain ⟨g1, g2⟩ := parent_unique q3 hp
        have := q2.ext hpv g1 g2
        subst this
        exact ⟨q, parent_of h hw2 q2 hp2, q2, hp2, q4, q5⟩

/-- Leaving a node that has no right sibling. -/
theorem next_up (ha : At L s it v true) (hv : Valid L (Par s) v) (hw : s.sibling v = s.root) (hn : ¬ Top L v) {p : Node} (hp : s.parent v = some p) : ∃ X, next s it = some X ∧ At L s X p true := by
  obtain ⟨r, r1, r2, r3, r4⟩ := root_of h
  obtain ⟨q, X, q1, q2, q3, q4, q5⟩ := up_ok h ha hv hn
  rw [hp, Option.some.injEq] at q1
  subst q1
  refine ⟨X, ?_, q5⟩
  have e1 : v.same r = false := by rw [Bool.eq_false_iff, ne_eq, r4]; exact hn
  have e2 : r.same r = true := by rw [r4]; exact r3
  simp [next, ha.ok, ha.vis, ha.node, r1, e1, hw, e2, q4]

/-- A leaf is left at the first visit like other nodes at the second. -/
theorem next_leaf (hv : it.valid = true) (hb : it.visited = false) (hl : it.v.i = it.v.j) (hn : ¬ Top L it.v) : next s it = next s { it with visited := true } := by
  obtain ⟨r, r1, r2, r3, r4⟩ := root_of h
  have e1 : it.v.same r = false := by rw [Bool.eq_false_iff, ne_eq, r4]; exact hn
  have e2 : Cst.isLeaf it.v = true := by rw [Cst.isLeaf, beq_iff_eq]; exact hl
  obtain ⟨v, b, va, ca, sz⟩ := it
  dsimp only at *
  subst hv hb
  rw [next, next, r1]
  simp only [sbind, e1, e2, Bool.not_true, Bool.not_false, Bool.false_and, if_true, if_false, Bool.false_eq_true]
  rfl

/-- Going down. -/
theorem next_down (ha : At L s it v false) (hv : Valid L (Par s) v) (hi : v.i < v.j) {c : Node} (hc : s.selectChild v 1 = some c) (hcv : Valid L (Par s) c) (hp : IsParent L c.i c.j v.i v.j) :
    ∃ X, next s it = some X ∧ At L s X c false := by
  obtain ⟨r, r1, r2, r3, r4⟩ := root_of h
  refine ⟨{ it with v := c, cache := push it, sz := (it.sz + 1) % 2 ^ 32 }, ?_, ⟨rfl, ha.vis, ha.ok, ?_⟩⟩
  · have e2 : Cst.isLeaf v = false := by rw [Cst.isLeaf, beq_eq_false_iff_ne]; omega
    rw [next, ha.ok, ha.vis, ha.node, r1, sbind, e2, hc, sbind]
    simp only [Bool.and_false, Bool.not_false, Bool.not_true, if_true, if_false, Bool.false_eq_true]
    rfl
  · rcases ha.stack with e | ⟨a, e1, e2, e3, e4⟩
    · exact Or.inl (by show push it = none; rw [push, e])
    · refine Or.inr ?_
      have hA : ∀ a' : List Node, a'.length = cacheSize → Anc L s a' it.sz v → (it.sz < cacheSize → a'[it.sz]? = some v) → Anc L s a' ((it.sz + 1) % 2 ^ 32) c := by
        intro a' _ g1 g2
        have : Anc L s a' (it.sz + 1) c := ⟨v, parent_of h hcv hv hp, hv, hp, g2, g1⟩
        rw [Nat.mod_eq_of_lt (e4 _ _ _ hcv.node this.depth)]
        exact this
      by_cases hs : it.sz < cacheSize
      · refine ⟨a.set it.sz v, by show push it = _; rw [push, e1]; simp only [hs, if_true, ha.node], by rw [List.length_set]; exact e2, ?_, e4⟩
        exact hA _ (by rw [List.length_set]; exact e2) (e3.set (Nat.le_refl _)) (fun _ => by rw [List.getElem?_set_self (by omega)])
      · exact ⟨a, by show push it = _; rw [push, e1]; simp only [hs, if_false], e2, hA _ e2 e3 (fun g => absurd g hs), e4⟩

end

/-! ### The visits -/

theorem pw_or {α : Type} {R : α → α → Prop} {l : List α} (h : l.Pairwise R) {x y : α} (hx : x ∈ l) (hy : y ∈ l) (hne : x ≠ y) : R x y ∨ R y x := by
  induction h with
  | nil => exact absurd hx (by simp)
  | cons h1 _ ih =>
    rcases List.mem_cons.1 hx with ex | hx'
    · rcases List.mem_cons.1 hy with ey | hy'
      · exact absurd (ex.trans ey.symm) hne
      · rw [ex]; exact Or.inl (h1 _ hy')
    · rcases List.mem_cons.1 hy with ey | hy'
      · rw [ey]; exact Or.inr (h1 _ hx')
      · exact ih hx' hy'

theorem visit_sub {L : List Nat} {skip : Nat → Nat → Bool} {i j : Nat} {e : Visit} (he : IsVisit L skip i j e) : i ≤ e.1.1 ∧ e.1.1 ≤ e.1.2 ∧ e.1.2 ≤ j := ⟨he.2.1, he.1.1, he.2.2.1⟩

/-- The visits of `l` are those of the subtree of `[i..j]`, in order. -/
def Good (L : List Nat) (skip : Nat → Nat → Bool) (i j : Nat) (l : List Visit) : Prop := (∀ e, e ∈ l ↔ IsVisit L skip i j e) ∧ l.Pairwise Before

/-- The visits of `l` are those of the subtrees of `cs`, in order. -/
def GoodL (L : List Nat) (skip : Nat → Nat → Bool) (cs : List Node) (l : List Visit) : Prop := (∀ e, e ∈ l ↔ ∃ w ∈ cs, IsVisit L skip w.i w.j e) ∧ l.Pairwise Before

theorem GoodL.cons {L : List Nat} {skip : Nat → Nat → Bool} {w : Node} {cs : List Node} {l l' : List Visit} (h1 : Good L skip w.i w.j l) (h2 : GoodL L skip cs l') (ho : ∀ x ∈ cs, w.j < x.i) :
    GoodL L skip (w :: cs) (l ++ l') := by
  refine ⟨fun e => ?_, List.pairwise_append.2 ⟨h1.2, h2.2, fun e he f hf => ?_⟩⟩
  · rw [List.mem_append, h1.1, h2.1]
    simp
  · obtain ⟨x, x1, x2⟩ := (h2.1 f).1 hf
    have a1 := visit_sub ((h1.1 e).1 he)
    have a2 := visit_sub x2
    have := ho x x1
    exact Or.inl (by omega)

theorem good_leaf {L : List Nat} {skip : Nat → Nat → Bool} {i : Nat} (hn : IsNode L i i) : Good L skip i i [((i, i), 1)] := by
  refine ⟨fun e => ?_, by simp⟩
  rw [List.mem_singleton]
  constructor
  · rintro rfl
    refine ⟨hn, Nat.le_refl _, Nat.le_refl _, ?_, Or.inl rfl⟩
    intro a c _ g1 g2 g3 g4 g5
    dsimp only at *
    omega
  · intro he
    have a := visit_sub he
    obtain ⟨⟨x, y⟩, k⟩ := e
    dsimp only at a
    obtain rfl : x = i := by omega
    obtain rfl : y = x := by omega
    rcases he.2.2.2.2 with g | ⟨_, g, _⟩
    · dsimp only at g
      rw [g]
    · dsimp only at g
      omega

theorem good_skip {L : List Nat} {skip : Nat → Nat → Bool} {i j : Nat} (hn : IsNode L i j) (hs : skip i j = true) : Good L skip i j [((i, j), 1)] := by
  refine ⟨fun e => ?_, by simp⟩
  rw [List.mem_singleton]
  constructor
  · rintro rfl
    refine ⟨hn, Nat.le_refl _, Nat.le_refl _, ?_, Or.inl rfl⟩
    intro a c _ g1 g2 g3 g4 g5
    dsimp only at *
    omega
  · intro he
    have a := visit_sub he
    obtain ⟨⟨x, y⟩, k⟩ := e
    dsimp only at a
    by_cases hxy : i = x ∧ j = y
    · obtain ⟨rfl, rfl⟩ := hxy
      rcases he.2.2.2.2 with g | ⟨_, _, g⟩
      · dsimp only at g
        rw [g]
      · dsimp only at g
        rw [hs] at g
        exact absurd g (by decide)
    · have := he.2.2.2.1 i j hn (Nat.le_refl _) (Nat.le_refl _) a.1 a.2.2 hxy
      rw [hs] at this
      exact absurd this (by decide)

theorem good_inner {L : List Nat} {s : Cst} {skip : Nat → Nat → Bool} {v : Node} {cs : List Node} {l : List Visit} (hv : Valid L (Par s) v) (hi : v.i < v.j) (hs : skip v.i v.j = false) (hk : Kids L s v cs)
    (hl : GoodL L skip cs l) : Good L skip v.i v.j (((v.i, v.j), 1) :: (l ++ [((v.i, v.j), 2)])) := by
  have hsub : ∀ w ∈ cs, v.i ≤ w.i ∧ w.j ≤ v.j ∧ ¬ (v.i = w.i ∧ v.j = w.j) := fun w hw => ⟨(hk.par w hw).2.1, (hk.par w hw).2.2.1, (hk.par w hw).2.2.2.1⟩
  have hin : ∀ e ∈ l, v.i ≤ e.1.1 ∧ e.1.2 ≤ v.j ∧ e.1 ≠ (v.i, v.j) := by
    intro e he
    obtain ⟨w, w1, w2⟩ := (hl.1 e).1 he
    have a := visit_sub w2
    have b := hsub w w1
    refine ⟨by omega, by omega, fun g => ?_⟩
    rw [g] at a
    dsimp only at a
    omega
  refine ⟨fun e => ?_, ?_⟩
  · rw [List.mem_cons, List.mem_append, List.mem_singleton, hl.1]
    constructor
    · rintro (rfl | ⟨w, w1, w2⟩ | rfl)
      · refine ⟨hv.node, Nat.le_refl _, Nat.le_refl _, ?_, Or.inl rfl⟩
        intro a c _ g1 g2 g3 g4 g5
        dsimp only at *
        omega
      · have b := hsub w w1
        have a := visit_sub w2
        refine ⟨w2.1, by omega, by omega, fun a' c' g1 g2 g3 g4 g5 g6 => ?_, w2.2.2.2.2⟩
        by_cases e1 : a' = v.i ∧ c' = v.j
        · rw [e1.1, e1.2]; exact hs
        · obtain ⟨x, x1, x2, x3⟩ := hk.all a' c' g1 g2 g3 e1
          have hxw : x = w := by
            have hx := hk.order
            rcases eq_or_ne x w with g | g
            · exact g
            · exfalso
              have hd : x.j < w.i ∨ w.j < x.i := pw_or hx x1 w1 g
              omega
          subst hxw
          exact w2.2.2.2.1 a' c' g1 x2 x3 g4 g5 g6
      · refine ⟨hv.node, Nat.le_refl _, Nat.le_refl _, ?_, Or.inr ⟨rfl, hi, hs⟩⟩
        intro a c _ g1 g2 g3 g4 g5
        dsimp only at *
        omega
    · intro he
      have a := visit_sub he
      by_cases e1 : e.1.1 = v.i ∧ e.1.2 = v.j
      · obtain ⟨⟨x, y⟩, k⟩ := e
        dsimp only at e1
        obtain ⟨rfl, rfl⟩ := e1
        rcases he.2.2.2.2 with g | ⟨g, _⟩
        · exact Or.inl (by dsimp only at g; rw [g])
        · exact Or.inr (Or.inr (by dsimp only at g; rw [g]))
      · obtain ⟨w, w1, w2, w3⟩ := hk.all _ _ he.1 he.2.1 he.2.2.1 e1
        have b := hsub w w1
        exact Or.inr (Or.inl ⟨w, w1, he.1, w2, w3, fun a' c' g1 g2 g3 g4 g5 g6 => he.2.2.2.1 a' c' g1 (by omega) (by omega) g4 g5 g6, he.2.2.2.2⟩)
  · refine List.pairwise_cons.2 ⟨fun f hf => ?_, List.pairwise_append.2 ⟨hl.2, by simp, fun e he f hf => ?_⟩⟩
    · rcases List.mem_append.1 hf with hf | hf
      · obtain ⟨g1, g2, g3⟩ := hin f hf
        exact Or.inr (Or.inl ⟨rfl, g1, g2, fun g => g3 g.symm⟩)
      · rw [List.mem_singleton.1 hf]
        exact Or.inr (Or.inr (Or.inr ⟨rfl, rfl, rfl⟩))
    · rw [List.mem_singleton.1 hf]
      obtain ⟨g1, g2, g3⟩ := hin e he
      exact Or.inr (Or.inr (Or.inl ⟨rfl, g1, g2, g3⟩))

/-! ### The traversal -/

section
variable {L : List Nat} {s : Cst} (h : CstOf L s) (skip : Nat → Nat → Bool) {last : Dfs}
include h

/-- The traversal of the subtree of `v`. -/
def Trav (L : List Nat) (s : Cst) (skip : Nat → Nat → Bool) (last : Dfs) (v : Node) : Prop :=
  ∀ it, At L s it v false → Far last v → ∃ l it1, At L s it1 v true ∧ Good L skip v.i v.j (l.map ev) ∧ ∀ X, next s it1 = some X → Steps s (fun v => skip v.i v.j) last it l X

theorem trav_chain {v : Node} (hv : Valid L (Par s) v) (hf : Far last v) : ∀ cs : List Node, Chain s cs → (∀ w ∈ cs, Valid L (Par s) w ∧ IsParent L w.i w.j v.i v.j ∧ Trav L s skip last w) →
    cs.Pairwise (fun x y => x.j < y.i) → ∀ c l, cs = c :: l → ∀ it, At L s it c false →
    ∃ l it2, At L s it2 v true ∧ GoodL L skip cs (l.map ev) ∧ Steps s (fun v => skip v.i v.j) last it l it2 := by
  intro cs hc
  have hfar : ∀ {w : Node}, IsParent L w.i w.j v.i v.j → Far last w := by
    intro w hw
    rcases hf with g | g
    · exact Or.inl g
    · refine Or.inr (fun g' => g ?_)
      have := hw.2.1
      have := hw.2.2.1
      omega
  induction hc with
  | @last w hw =>
    intro h1 _ c l e it hit
    rw [List.cons.injEq] at e
    obtain ⟨rfl, _⟩ := e
    obtain ⟨g1, g2, g3⟩ := h1 w (by simp)
    obtain ⟨m, it1, m1, m2, m3⟩ := g3 it hit (hfar g2)
    obtain ⟨X, x1, x2⟩ := next_up h m1 g1 hw (nontop_of_parent g2) (parent_of h g1 hv g2)
    refine ⟨m, X, x2, ?_, m3 X x1⟩
    have := GoodL.cons (cs := []) (l' := []) m2 ⟨by simp, by simp⟩ (by simp)
    rwa [List.append_nil] at this
  | @cons w w' cs hw _ ih =>
    intro h1 h2 c l e it hit
    rw [List.cons.injEq] at e
    obtain ⟨rfl, _⟩ := e
    obtain ⟨g1, g2, g3⟩ := h1 w (by simp)
    obtain ⟨g1', g2', g3'⟩ := h1 w' (by simp)
    obtain ⟨m, it1, m1, m2, m3⟩ := g3 it hit (hfar g2)
    obtain ⟨X, x1, x2⟩ := next_sibling h m1 hw (nontop_of_parent g2') (nontop_of_parent g2) g1' g2 g2' hv
    obtain ⟨l2, it2, k1, k2, k3⟩ := ih (fun y hy => h1 y (List.mem_cons_of_mem _ hy)) (List.pairwise_cons.1 h2).2 w' cs rfl X x2
    refine ⟨m ++ l2, it2, k1, ?_, (m3 X x1).trans k3⟩
    rw [List.map_append]
    exact GoodL.cons m2 k2 (List.pairwise_cons.1 h2).1

theorem trav (h2 : 2 ≤ L.length) : ∀ m v, v.j - v.i ≤ m → Valid L (Par s) v → Trav L s skip last v := by
  intro m
  induction m with
  | zero =>
    intro v hm hv it hit hf
    have h1 := hv.node.1
    have hl : v.i = v.j := by omega
    have hnt : ¬ Top L v := by
      rintro ⟨g1, g2⟩
      omega
    refine ⟨[(v, 1)], { it with visited := true }, ⟨hit.node, rfl, hit.ok, hit.stack⟩, ?_, fun X hX => ?_⟩
    · have := good_leaf (skip := skip) (show IsNode L v.i v.i by have := hv.node; rwa [← hl] at this)
      rw [← hl]
      show Good L skip v.i v.i [((v.i, v.j), 1)]
      rwa [← hl]
    · refine ⟨hf.ne hit.ok (by rw [hit.node]) (by rw [hit.node]), by rw [hit.node, visit, hit.vis]; rfl, X, ?_, rfl⟩
      by_cases hs : (!it.visited && skip it.v.i it.v.j) = true
      · rw [if_pos hs, skipSubtree, if_pos hit.ok]; exact hX
      · rw [if_neg hs, next_leaf h hit.ok hit.vis (by rw [hit.node]; exact hl) (by rw [hit.node]; exact hnt)]; exact hX
  | succ m ih =>
    intro v hm hv
    by_cases hlt : v.j - v.i ≤ m
    · exact ih v hlt hv
    · intro it hit hf
      by_cases hs : skip v.i v.j = true
      · refine ⟨[(v, 1)], { it with visited := true }, ⟨hit.node, rfl, hit.ok, hit.stack⟩, good_skip hv.node hs, fun X hX => ?_⟩
        refine ⟨hf.ne hit.ok (by rw [hit.node]) (by rw [hit.node]), by rw [hit.node, visit, hit.vis]; rfl, X, ?_, rfl⟩
        rw [if_pos (by rw [hit.node, hit.vis]; simp [hs]), skipSubtree, if_pos hit.ok]; exact hX
      · have hi : v.i < v.j := by omega
        obtain ⟨cs, hk⟩ := kids h hv hi
        obtain ⟨c, l, e1, e2, e3⟩ := hk.first
        have hcm : c ∈ cs := by rw [e1]; simp
        obtain ⟨X, x1, x2⟩ := next_down h hit hv hi e2 (hk.valid c hcm) (hk.par c hcm)
        obtain ⟨l2, it2, k1, k2, k3⟩ := trav_chain h skip hv hf cs hk.chain (fun w hw => ⟨hk.valid w hw, hk.par w hw, ih w (by
          have g1 := (hk.par w hw).2.1
          have g2 := (hk.par w hw).2.2.1
          have g3 := (hk.par w hw).2.2.2.1
          omega) (hk.valid w hw)⟩) hk.order c l e1 X x2
        have hs' : skip v.i v.j = false := by simpa using hs
        refine ⟨(v, 1) :: (l2 ++ [(v, 2)]), it2, k1, ?_, fun Y hY => ?_⟩
        · have := good_inner hv hi hs' hk k2
          rw [List.map_cons, List.map_append]
          exact this
        · refine ⟨hf.ne hit.ok (by rw [hit.node]) (by rw [hit.node]), by rw [hit.node, visit, hit.vis]; rfl, X, ?_, k3.trans ?_⟩
          · rw [if_neg (by rw [hit.node]; simp [hs'])]; exact x1
          · refine ⟨hf.ne k1.ok (by rw [k1.node]) (by rw [k1.node]), by rw [k1.node, visit, k1.vis]; rfl, Y, ?_, rfl⟩
            rw [if_neg (by rw [k1.vis]; simp)]; exact hY

/-- The traversal of the whole tree. -/
theorem loop_all (h2 : 2 ≤ L.length) (hd : Shallow L) (j1 j2 : Nat) : ∃ first last l, begin s j1 = some first ∧ «end» s j2 = some last ∧ Good L skip 0 (L.length - 1) (l.map ev) ∧
    ∀ f, l.length < f → loop s (fun v => skip v.i v.j) last f first = some l := by
  obtain ⟨r, r1, r2, r3, r4⟩ := root_of h
  obtain ⟨S, D, ok, _⟩ := h.ok
  have hrr : r.same r = true := by rw [r4]; exact r3
  have hbp : s.bp.n ≠ 0 := by
    have := ok.size
    rw [Cst.size] at this
    omega
  refine ⟨⟨r, false, true, some (List.replicate cacheSize ⟨0, 0, 0, 0, 0⟩), 0⟩, ⟨r, true, false, none, j2⟩, ?_⟩
  obtain ⟨l, it1, l1, l2, l3⟩ := trav h skip (last := ⟨r, true, false, none, j2⟩) h2 _ r (Nat.le_refl _) r2 ⟨r, false, true, some (List.replicate cacheSize ⟨0, 0, 0, 0, 0⟩), 0⟩
    ⟨rfl, rfl, rfl, Or.inr ⟨_, rfl, List.length_replicate, r3, hd⟩⟩ (Or.inl rfl)
  refine ⟨l, ?_, ?_, ?_, fun f hf => ?_⟩
  · rw [begin, if_neg hbp, r1, sbind, new, r1, sbind, hrr]
    rfl
  · rw [«end», r1, sbind, new, r1, sbind, hrr]
    rfl
  · have := r3.1
    have := r3.2
    rw [show 0 = r.i by omega, show L.length - 1 = r.j by omega]
    exact l2
  · have hn : next s it1 = some { it1 with valid := false } := by
      rw [next, l1.ok, l1.vis, l1.node, r1, sbind, hrr]
      rfl
    have := (l3 _ hn).loop (f := f - l.length - 1) (by
      show (it1.visited == true && false == false && it1.v.same r) = true
      rw [l1.node, l1.vis, hrr]
      rfl)
    rwa [show l.length + (f - l.length - 1) + 1 = f by omega] at this

/-- The traversal of a proper subtree. -/
theorem loop_sub {v : Node} (hv : Valid L (Par s) v) (hn : ¬ Top L v) (j1 j2 : Nat) : ∃ first last l, beginAt s j1 v = some first ∧ endAt s j2 v = some last ∧ Good L skip v.i v.j (l.map ev) ∧
    ∀ f, l.length < f → loop s (fun v => skip v.i v.j) last f first = some l := by
  obtain ⟨r, r1, r2, r3, r4⟩ := root_of h
  obtain ⟨S, D, ok, _⟩ := h.ok
  have h2 : 2 ≤ L.length := by
    have := hv.node.1
    have := hv.node.2.1
    rw [Top] at hn
    omega
  have hbp : s.bp.n ≠ 0 := by
    have := ok.size
    rw [Cst.size] at this
    omega
  have hvr : v.same r = false := by rw [Bool.eq_false_iff, ne_eq, r4]; exact hn
  have hrv : r.same v = false := by rw [same_false] at hvr ⊢; omega
  obtain ⟨p, p1, p2, p3⟩ := (C62_parent h hv).2 hn
  -- leaving `v`
  have key : ∃ w b, ¬ (v.i ≤ w.i ∧ w.j ≤ v.j) ∧ ∀ it, At L s it v true → ∃ X, next s it = some X ∧ At L s X w b := by
    by_cases hj : v.j < p.j
    · obtain ⟨w, w1, w2, w3, w4⟩ := (C62_sibling h hv).1 _ _ p3 hj
      refine ⟨w, false, ?_, fun it hit => next_sibling h hit w1 (nontop_of_parent w4) hn w2 p3 w4 p2⟩
      have := w2.node.1
      omega
    · have e : p.j = v.j := by have := p3.2.2.1; omega
      refine ⟨p, true, ?_, fun it hit => next_up h hit hv ((C62_sibling h hv).2.1 p.i (by rw [← e]; rw [← e] at p3; exact p3)) hn p1⟩
      have g1 := p3.2.1
      have g2 := p3.2.2.2.1
      omega
  obtain ⟨w, b, k1, k2⟩ := key
  obtain ⟨Y, y1, y2⟩ := k2 ⟨v, true, true, none, j2⟩ ⟨rfl, rfl, rfl, Or.inl rfl⟩
  obtain ⟨l, it1, l1, l2, l3⟩ := trav h skip (last := Y) h2 _ v (Nat.le_refl _) hv ⟨v, false, true, none, j1⟩ ⟨rfl, rfl, rfl, Or.inl rfl⟩ (Or.inr (by rw [y2.node]; exact k1))
  refine ⟨⟨v, false, true, none, j1⟩, Y, l, ?_, ?_, l2, fun f hf => ?_⟩
  · rw [beginAt, r1, sbind, if_neg (by omega), new, r1, sbind, hvr]
    rfl
  · rw [endAt, r1, sbind, hrv]
    simp only [Bool.false_eq_true, if_false]
    rw [new, r1, sbind, hvr]
    exact y1
  · obtain ⟨X, x1, x2⟩ := k2 it1 l1
    have := (l3 _ x1).loop (f := f - l.length - 1) (by
      rw [same, x2.node, x2.ok, x2.vis, y2.node, y2.ok, y2.vis]
      simp [Node.same])
    rwa [show l.length + (f - l.length - 1) + 1 = f by omega] at this

end

end Dfs
end Sdsl.CstSct3
