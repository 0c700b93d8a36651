/-
  The bottom-up and the breadth-first iterator of `cst_sct3` (CstIter.lean).
-/
import Verif.CstIterDfs
import Mathlib.Data.Finset.Prod
import Mathlib.Data.Finset.Card

namespace Sdsl.CstSct3

open Spec Props

/-- The interval of a node. -/
def iv (v : Node) : Nat × Nat := (v.i, v.j)

/-- `x` comes before `y` bottom-up: it is to the left or a proper descendant. -/
def BeforeUp (x y : Nat × Nat) : Prop := x.2 < y.1 ∨ (y.1 ≤ x.1 ∧ x.2 ≤ y.2 ∧ x ≠ y)

namespace BottomUp

/-- `l` are the nodes visited by the loop from `it` to `it'`. -/
def Steps (s : Cst) (last : BottomUp) : BottomUp → List Node → BottomUp → Prop
  | it, [], it' => it = it'
  | it, e :: l, it' => same it last = false ∧ e = it.v ∧ ∃ m, next s it = some m ∧ Steps s last m l it'

section
variable {s : Cst} {last : BottomUp}

theorem Steps.trans : ∀ {l l' : List Node} {a b c : BottomUp}, Steps s last a l b → Steps s last b l' c → Steps s last a (l ++ l') c
  | [], _, _, _, _, h1, h2 => by
    have h1 : _ = _ := h1
    rw [h1]; exact h2
  | _ :: _, _, _, _, _, ⟨h1, h2, m, h3, h4⟩, h5 => ⟨h1, h2, m, h3, h4.trans h5⟩

theorem Steps.loop {f : Nat} : ∀ {l : List Node} {a b : BottomUp}, Steps s last a l b → same b last = true → BottomUp.loop s last (l.length + f + 1) a = some l
  | [], a, b, h1, h2 => by
    have h1 : a = b := h1
    rw [BottomUp.loop, h1, if_pos h2]
  | e :: l, a, b, ⟨h1, h2, m, h3, h4⟩, h5 => by
    rw [show (e :: l).length + f + 1 = (l.length + f + 1) + 1 by simp; omega, BottomUp.loop, if_neg (by rw [h1]; decide), h3, sbind, h4.loop h5, sbind, h2]
    rfl

end

/-- The nodes of the subtree of `[i..j]` bottom-up. -/
def Good (L : List Nat) (i j : Nat) (l : List (Nat × Nat)) : Prop := (∀ x, x ∈ l ↔ IsNode L x.1 x.2 ∧ i ≤ x.1 ∧ x.2 ≤ j) ∧ l.Pairwise BeforeUp

/-- The nodes of the subtrees of `cs` bottom-up. -/
def GoodL (L : List Nat) (cs : List Node) (l : List (Nat × Nat)) : Prop := (∀ x, x ∈ l ↔ ∃ w ∈ cs, IsNode L x.1 x.2 ∧ w.i ≤ x.1 ∧ x.2 ≤ w.j) ∧ l.Pairwise BeforeUp

theorem GoodL.cons {L : List Nat} {w : Node} {cs : List Node} {l l' : List (Nat × Nat)} (h1 : Good L w.i w.j l) (h2 : GoodL L cs l') (ho : ∀ x ∈ cs, w.j < x.i) :
    GoodL L (w :: cs) (l ++ l') := by
  refine ⟨fun e => ?_, List.pairwise_append.2 ⟨h1.2, h2.2, fun e he f hf => ?_⟩⟩
  · rw [List.mem_append, h1.1, h2.1]
    simp
  · obtain ⟨x, x1, x2, x3, x4⟩ := (h2.1 f).1 hf
    obtain ⟨a1, a2, a3⟩ := (h1.1 e).1 he
    have := ho x x1
    exact Or.inl (by omega)

theorem good_inner {L : List Nat} {s : Cst} {v : Node} {cs : List Node} {l : List (Nat × Nat)} (hv : Valid L (Par s) v) (hk : Kids L s v cs) (hl : GoodL L cs l) : Good L v.i v.j (l ++ [iv v]) := by
  have hsub : ∀ w ∈ cs, v.i ≤ w.i ∧ w.j ≤ v.j ∧ ¬ (v.i = w.i ∧ v.j = w.j) := fun w hw => ⟨(hk.par w hw).2.1, (hk.par w hw).2.2.1, (hk.par w hw).2.2.2.1⟩
  refine ⟨fun x => ?_, List.pairwise_append.2 ⟨hl.2, by simp, fun e he f hf => ?_⟩⟩
  · rw [List.mem_append, List.mem_singleton, hl.1]
    constructor
    · rintro (⟨w, w1, w2, w3, w4⟩ | rfl)
      · have := hsub w w1
        exact ⟨w2, by omega, by omega⟩
      · exact ⟨hv.node, Nat.le_refl _, Nat.le_refl _⟩
    · rintro ⟨h1, h2, h3⟩
      by_cases e : x.1 = v.i ∧ x.2 = v.j
      · exact Or.inr (Prod.ext e.1 e.2)
      · obtain ⟨w, w1, w2, w3⟩ := hk.all _ _ h1 h2 h3 e
        exact Or.inl ⟨w, w1, h1, w2, w3⟩
  · rw [List.mem_singleton.1 hf]
    obtain ⟨w, w1, w2, w3, w4⟩ := (hl.1 e).1 he
    have := hsub w w1
    have := w2.1
    refine Or.inr ⟨by show v.i ≤ _; omega, by show _ ≤ v.j; omega, fun g => ?_⟩
    rw [g] at w3 w4
    have w3 : w.i ≤ v.i := w3
    have w4 : v.j ≤ w.j := w4
    omega

section
variable {L : List Nat} {s : Cst} (h : CstOf L s) {last : BottomUp}
include h

/-- The part of the traversal from the leftmost leaf of `v` to `v`. -/
def Trav (L : List Nat) (s : Cst) (last : BottomUp) (v : Node) : Prop :=
  ∃ lf l, s.leftmostLeaf v = some lf ∧ Steps s last ⟨lf, true⟩ l ⟨v, true⟩ ∧ Good L v.i v.j (l.map iv ++ [iv v])

theorem trav_chain {v : Node} (hv : Valid L (Par s) v) (hlast : last.valid = false) : ∀ cs : List Node, Chain s cs → (∀ w ∈ cs, Valid L (Par s) w ∧ IsParent L w.i w.j v.i v.j ∧ Trav L s last w) →
    cs.Pairwise (fun x y => x.j < y.i) → ∀ c t, cs = c :: t →
    ∃ lf l, s.leftmostLeaf c = some lf ∧ Steps s last ⟨lf, true⟩ l ⟨v, true⟩ ∧ GoodL L cs (l.map iv) := by
  obtain ⟨r, r1, r2, r3, r4⟩ := root_of h
  have hne : ∀ x : Node, same ⟨x, true⟩ last = false := fun x => by simp [same, hlast]
  have hnt : ∀ {w : Node}, IsParent L w.i w.j v.i v.j → w.same r = false := fun hw => by rw [Bool.eq_false_iff, ne_eq, r4]; exact nontop_of_parent hw
  intro cs hc
  induction hc with
  | @last w hw =>
    intro h1 _ c t e
    rw [List.cons.injEq] at e
    obtain ⟨rfl, _⟩ := e
    obtain ⟨g1, g2, lf, l, g3, g4, g5⟩ := h1 w (by simp)
    refine ⟨lf, l ++ [w], g3, g4.trans ⟨hne w, rfl, ⟨v, true⟩, ?_, rfl⟩, ?_⟩
    · have e2 : r.same r = true := by rw [r4]; exact r3
      simp [next, r1, hnt g2, hw, e2, parent_of h g1 hv g2]
    · have := GoodL.cons (cs := []) (l' := []) g5 ⟨by simp, by simp⟩ (by simp)
      rw [List.append_nil] at this
      rw [List.map_append]
      exact this
  | @cons w w' cs hw _ ih =>
    intro h1 h2 c t e
    rw [List.cons.injEq] at e
    obtain ⟨rfl, _⟩ := e
    obtain ⟨g1, g2, lf, l, g3, g4, g5⟩ := h1 w (by simp)
    obtain ⟨_, g2', _⟩ := h1 w' (by simp)
    obtain ⟨lf2, l2, k1, k2, k3⟩ := ih (fun y hy => h1 y (List.mem_cons_of_mem _ hy)) (List.pairwise_cons.1 h2).2 w' cs rfl
    have hst : Steps s last ⟨w, true⟩ [w] ⟨lf2, true⟩ := ⟨hne w, rfl, ⟨lf2, true⟩, by simp [next, r1, hnt g2, hw, hnt g2', k1], rfl⟩
    refine ⟨lf, (l ++ [w]) ++ l2, g3, (g4.trans hst).trans k2, ?_⟩
    · rw [List.map_append, List.map_append]
      exact GoodL.cons g5 k3 (List.pairwise_cons.1 h2).1

theorem trav (hlast : last.valid = false) : ∀ m v, v.j - v.i ≤ m → Valid L (Par s) v → Trav L s last v := by
  intro m
  induction m with
  | zero =>
    intro v hm hv
    have h1 := hv.node.1
    have hl : v.i = v.j := by omega
    obtain ⟨⟨lf, f1, f2, f3, f4⟩, _⟩ := C62_outer_leaves h hv
    have : lf = v := f2.ext hv f3 (by omega)
    subst this
    refine ⟨lf, [], f1, rfl, fun x => ?_, by simp⟩
    rw [List.map_nil, List.nil_append, List.mem_singleton]
    constructor
    · rintro rfl
      exact ⟨hv.node, Nat.le_refl _, Nat.le_refl _⟩
    · rintro ⟨g1, g2, g3⟩
      have := g1.1
      exact Prod.ext (by show x.1 = lf.i; omega) (by show x.2 = lf.j; omega)
  | succ m ih =>
    intro v hm hv
    by_cases hlt : v.j - v.i ≤ m
    · exact ih v hlt hv
    · have hi : v.i < v.j := by omega
      obtain ⟨cs, hk⟩ := kids h hv hi
      obtain ⟨c, t, e1, e2, e3⟩ := hk.first
      obtain ⟨lf, l, g1, g2, g3⟩ := trav_chain h hv hlast cs hk.chain (fun w hw => ⟨hk.valid w hw, hk.par w hw, ih w (by
          have g1 := (hk.par w hw).2.1
          have g2 := (hk.par w hw).2.2.1
          have g3 := (hk.par w hw).2.2.2.1
          omega) (hk.valid w hw)⟩) hk.order c t e1
      refine ⟨lf, l, ?_, g2, good_inner hv hk g3⟩
      rw [Cst.leftmostLeaf, e3] at g1
      exact g1

theorem loop_all : ∃ first last l, begin s = some first ∧ «end» s = some last ∧ Good L 0 (L.length - 1) (l.map iv) ∧ ∀ f, l.length < f → loop s last f first = some l := by
  obtain ⟨r, r1, r2, r3, r4⟩ := root_of h
  obtain ⟨S, D, ok, _⟩ := h.ok
  have hrr : r.same r = true := by rw [r4]; exact r3
  have hbp : s.bp.n ≠ 0 := by
    have := ok.size
    have := h.pos
    rw [Cst.size] at *
    omega
  obtain ⟨lf, l, g1, g2, g3⟩ := trav h (last := ⟨r, false⟩) rfl _ r (Nat.le_refl _) r2
  refine ⟨⟨lf, true⟩, ⟨r, false⟩, l ++ [r], ?_, by rw [«end», r1]; rfl, ?_, fun f hf => ?_⟩
  · rw [begin, if_neg hbp, r1, sbind, g1]; rfl
  · have := r3.1
    have := r3.2
    rw [show 0 = r.i by omega, show L.length - 1 = r.j by omega, List.map_append]
    exact g3
  · have hst : Steps s ⟨r, false⟩ ⟨r, true⟩ [r] ⟨r, false⟩ := ⟨by simp [same], rfl, ⟨r, false⟩, by simp [next, r1, hrr], rfl⟩
    have := (g2.trans hst).loop (f := f - (l ++ [r]).length - 1) (by show (false == false && r.same r) = true; rw [hrr]; rfl)
    rwa [show (l ++ [r]).length + (f - (l ++ [r]).length - 1) + 1 = f by omega] at this

end

end BottomUp

/-! ### Breadth first -/

/-- `x` comes before `y` in breadth-first order: it has a smaller depth, or the same depth and is to the left. -/
def BeforeLevel (L : List Nat) (x y : Nat × Nat) : Prop := ∃ d e, NodeDepth L x.1 x.2 d ∧ NodeDepth L y.1 y.2 e ∧ (d < e ∨ (d = e ∧ x.2 < y.1))

namespace Bfs

theorem depth_unique {L : List Nat} {i j d e : Nat} (h1 : NodeDepth L i j d) (h2 : NodeDepth L i j e) : d = e := by
  induction h1 generalizing e with
  | root =>
    cases h2 with
    | root => rfl
    | step h3 _ => exact absurd h3 root_no_parent
  | step h3 _ ih =>
    cases h2 with
    | root => exact absurd h3 root_no_parent
    | step h4 h5 =>
      obtain ⟨rfl, rfl⟩ := parent_unique h3 h4
      rw [ih h5]

section
variable {L : List Nat} {s : Cst} (h : CstOf L s)
include h

theorem depth_of {v : Node} (hv : Valid L (Par s) v) : ∃ d, NodeDepth L v.i v.j d := by
  obtain ⟨d, _, e⟩ := C62_node_depth h hv
  exact ⟨d, e⟩

theorem pushAll_ok {r : Node} (r1 : s.root = some r) : ∀ (cs : List Node), Chain s cs → (∀ w ∈ cs, ¬ Top L w) → ∀ c t, cs = c :: t → ∀ q f, cs.length < f → pushAll s r f q c = some (q ++ cs) := by
  obtain ⟨r', r1', r2, r3, r4⟩ := root_of h
  rw [r1, Option.some.injEq] at r1'
  subst r1'
  have hne : ∀ w : Node, ¬ Top L w → r.same w = false := by
    intro w hw
    rw [← r4, same_iff] at hw
    rw [same_false]
    omega
  intro cs hc
  induction hc with
  | @last w hw =>
    intro h1 c t e q f hf
    rw [List.cons.injEq] at e
    obtain ⟨rfl, _⟩ := e
    obtain ⟨f, rfl⟩ : ∃ g, f = g + 2 := ⟨f - 2, by simp at hf; omega⟩
    rw [pushAll, hne w (h1 w (by simp)), hw, r1, sbind, pushAll]
    simp [Node.same]
  | @cons w w' cs hw _ ih =>
    intro h1 c t e q f hf
    rw [List.cons.injEq] at e
    obtain ⟨rfl, _⟩ := e
    obtain ⟨f, rfl⟩ : ∃ g, f = g + 1 := ⟨f - 1, by omega⟩
    rw [pushAll, hne w (h1 w (by simp)), hw, sbind, ih (fun y hy => h1 y (List.mem_cons_of_mem _ hy)) w' cs rfl _ _ (by simp at hf ⊢; omega), List.append_assoc]
    rfl

/-- The children of a node, none for a leaf. -/
theorem next_ok {v : Node} {q : List Node} (hv : Valid L (Par s) v) : ∃ cs, next s ⟨v :: q, true⟩ = some ⟨q ++ cs, true⟩ ∧ (∀ w ∈ cs, Valid L (Par s) w ∧ IsParent L w.i w.j v.i v.j) ∧
    cs.Pairwise (fun x y => x.j < y.i) ∧ ∀ w, Valid L (Par s) w → IsParent L w.i w.j v.i v.j → w ∈ cs := by
  obtain ⟨r, r1, r2, r3, r4⟩ := root_of h
  obtain ⟨S, D, ok, _⟩ := h.ok
  by_cases hi : v.i < v.j
  · obtain ⟨cs, hk⟩ := kids h hv hi
    obtain ⟨c, t, e1, e2, e3⟩ := hk.first
    have hlen : cs.length ≤ L.length := by
      have : ∀ (l : List Node) (b : Nat), l.Pairwise (fun x y => x.j < y.i) → (∀ w ∈ l, b ≤ w.i ∧ w.i ≤ w.j ∧ w.j < L.length) → l.length + b ≤ max L.length b := by
        intro l
        induction l with
        | nil => intro b _ _; simp
        | cons a l ih =>
          intro b g1 g2
          obtain ⟨g3, g4⟩ := List.pairwise_cons.1 g1
          have ha := g2 a (by simp)
          have := ih (a.j + 1) g4 (fun w hw => ⟨g3 w hw, (g2 w (by simp [hw])).2⟩)
          simp only [List.length_cons]
          omega
      have := this cs 0 hk.order (fun w hw => ⟨Nat.zero_le _, (hk.valid w hw).node.1, (hk.valid w hw).node.2.1⟩)
      omega
    refine ⟨cs, ?_, fun w hw => ⟨hk.valid w hw, hk.par w hw⟩, hk.order, fun w hw hp => ?_⟩
    · have hp := pushAll_ok h r1 cs hk.chain hk.nontop c t e1 q (s.size + 1) (by rw [ok.size]; omega)
      simp [next, e2, r1, hp]
    · obtain ⟨x, x1, x2, x3⟩ := hk.all w.i w.j hw.node hp.2.1 hp.2.2.1 (fun g => hp.2.2.2.1 ⟨g.1.symm, g.2.symm⟩)
      have hx := hk.par x x1
      have : w = x := by
        apply hw.ext (hk.valid x x1)
        · by_contra g
          have := hp.2.2.2.2 x.i x.j (hk.valid x x1).node x2 x3 (by omega)
          have g1 := hx.2.1
          have g2 := hx.2.2.1
          have g3 := hx.2.2.2.1
          omega
        · by_contra g
          have := hp.2.2.2.2 x.i x.j (hk.valid x x1).node x2 x3 (by omega)
          have g1 := hx.2.1
          have g2 := hx.2.2.1
          have g3 := hx.2.2.2.1
          omega
      rw [this]; exact x1
  · have hl : v.i = v.j := by have := hv.node.1; omega
    refine ⟨[], ?_, by simp, by simp, fun w hw hp => ?_⟩
    · have e1 : s.selectChild v 1 = some r := by rw [Cst.selectChild, if_pos (by rw [Cst.isLeaf, beq_iff_eq]; exact hl), r1]
      simp [next, e1, r1, pushAll, Node.same]
    · have g1 := hp.2.1
      have g2 := hp.2.2.1
      have g3 := hp.2.2.2.1
      have := hw.node.1
      omega

/-- The invariant of the traversal: `P` are the visited nodes. -/
structure Inv (L : List Nat) (s : Cst) (P Q : List Node) : Prop where
  valid : ∀ x ∈ P ++ Q, Valid L (Par s) x
  order : (P ++ Q).Pairwise (fun x y => BeforeLevel L (iv x) (iv y))
  root : ∃ r ∈ P ++ Q, Top L r
  down : ∀ x ∈ P, ∀ w, Valid L (Par s) w → IsParent L w.i w.j x.i x.j → w ∈ P ++ Q
  up : ∀ x ∈ P ++ Q, Top L x ∨ ∃ p ∈ P, IsParent L x.i x.j p.i p.j

theorem Inv.step {P Q : List Node} {v : Node} (hI : Inv L s P (v :: Q)) : ∃ cs, next s ⟨v :: Q, true⟩ = some ⟨Q ++ cs, true⟩ ∧ Inv L s (P ++ [v]) (Q ++ cs) := by
  have hv : Valid L (Par s) v := hI.valid v (by simp)
  obtain ⟨cs, c1, c2, c3, c4⟩ := next_ok h (q := Q) hv
  have hperm : P ++ [v] ++ (Q ++ cs) = (P ++ v :: Q) ++ cs := by simp
  obtain ⟨dv, hdv⟩ := depth_of h hv
  -- everything before `v` is at most as deep, and to the left if at the same depth
  have hP : ∀ p ∈ P ++ [v], ∀ d, NodeDepth L p.i p.j d → d < dv ∨ (d = dv ∧ (p = v ∨ p.j < v.i)) := by
    intro p hp d hd
    rcases List.mem_append.1 hp with hp | hp
    · obtain ⟨d', e', g1, g2, g3⟩ := (List.pairwise_append.1 hI.order).2.2 p hp v (by simp)
      rw [depth_unique hd g1]
      rw [depth_unique hdv g2]
      rcases g3 with g3 | ⟨g3, g4⟩
      · exact Or.inl g3
      · exact Or.inr ⟨g3, Or.inr g4⟩
    · have := List.mem_singleton.1 hp
      subst this
      exact Or.inr ⟨depth_unique hd hdv, Or.inl rfl⟩
  refine ⟨cs, c1, ?_, ?_, ?_, ?_, ?_⟩
  · rw [hperm]
    intro x hx
    rcases List.mem_append.1 hx with hx | hx
    · exact hI.valid x hx
    · exact (c2 x hx).1
  · rw [hperm]
    refine List.pairwise_append.2 ⟨hI.order, ?_, ?_⟩
    · refine c3.imp_of_mem ?_
      intro x y hx hy hxy
      exact ⟨dv + 1, dv + 1, .step (c2 x hx).2 hdv, .step (c2 y hy).2 hdv, Or.inr ⟨rfl, hxy⟩⟩
    · intro x hx c hc
      obtain ⟨dx, hdx⟩ := depth_of h (hI.valid x hx)
      refine ⟨dx, dv + 1, hdx, .step (c2 c hc).2 hdv, ?_⟩
      rcases hI.up x hx with g | ⟨p, p1, p2⟩
      · have : NodeDepth L x.i x.j 0 := by
          have e : x.j = L.length - 1 := by have := g.2; omega
          rw [g.1, e]; exact .root
        rw [depth_unique hdx this]
        exact Or.inl (by omega)
      · obtain ⟨dp, hdp⟩ := depth_of h (hI.valid p (by simp [p1]))
        have e := depth_unique hdx (.step p2 hdp)
        rcases hP p (by simp [p1]) dp hdp with g | ⟨g1, g2 | g2⟩
        · exact Or.inl (by omega)
        · exfalso
          subst g2
          obtain ⟨d', e', _, _, g3⟩ := (List.pairwise_append.1 hI.order).2.2 p p1 p (by simp)
          have := hv.node.1
          rename_i q1 q2
          have := depth_unique q1 q2
          rcases g3 with g3 | ⟨_, g4⟩
          · omega
          · have g4 : p.j < p.i := g4
            omega
        · refine Or.inr ⟨by omega, ?_⟩
          have a1 := p2.2.2.1
          have a2 := (c2 c hc).2.2.1
          show x.j < c.i
          omega
  · obtain ⟨r, g1, g2⟩ := hI.root
    exact ⟨r, by rw [hperm]; exact List.mem_append_left _ g1, g2⟩
  · intro x hx w hw hp
    rw [hperm]
    rcases List.mem_append.1 hx with hx | hx
    · exact List.mem_append_left _ (hI.down x hx w hw hp)
    · rw [List.mem_singleton.1 hx] at hp
      exact List.mem_append_right _ (c4 w hw hp)
  · rw [hperm]
    intro x hx
    rcases List.mem_append.1 hx with hx | hx
    · rcases hI.up x hx with g | ⟨p, p1, p2⟩
      · exact Or.inl g
      · exact Or.inr ⟨p, by simp [p1], p2⟩
    · exact Or.inr ⟨v, by simp, (c2 x hx).2⟩

omit h in
theorem level_irrefl {x : Nat × Nat} (hx : x.1 ≤ x.2) : ¬ BeforeLevel L x x := by
  rintro ⟨d, e, h1, h2, h3⟩
  rw [depth_unique h1 h2] at h3
  omega

omit h in
theorem Inv.len {P Q : List Node} (hI : Inv L s P Q) : P.length ≤ L.length * L.length := by
  have hnd : (P.map iv).Nodup := by
    rw [List.nodup_map_iff_inj_on]
    · intro x hx y hy e
      exact (hI.valid x (by simp [hx])).ext (hI.valid y (by simp [hy])) (congrArg Prod.fst e) (congrArg Prod.snd e)
    · refine ((List.pairwise_append.1 hI.order).1).imp_of_mem ?_
      intro x y hx hy hxy e
      subst e
      exact level_irrefl (x := iv x) (hI.valid x (by simp [hx])).node.1 hxy
  have hsub : (P.map iv).toFinset ⊆ Finset.range L.length ×ˢ Finset.range L.length := by
    intro x hx
    obtain ⟨y, y1, rfl⟩ := List.mem_map.1 (List.mem_toFinset.1 hx)
    have g1 := (hI.valid y (by simp [y1])).node.1
    have g2 := (hI.valid y (by simp [y1])).node.2.1
    simp only [Finset.mem_product, Finset.mem_range, iv]
    omega
  have := Finset.card_le_card hsub
  rw [List.toFinset_card_of_nodup hnd, Finset.card_product, Finset.card_range, List.length_map] at this
  exact this

/-- At the end all nodes have been visited. -/
theorem Inv.all {P : List Node} (hI : Inv L s P []) {i j : Nat} (hn : IsNode L i j) : ∃ x ∈ P, iv x = (i, j) := by
  obtain ⟨v, v1, v2, v3, v4⟩ := C62_node h hn
  obtain ⟨d, hd⟩ := depth_of h v2
  rw [v3, v4] at hd
  clear v1 v2 v3 v4 v
  induction hd with
  | root =>
    obtain ⟨r, g1, g2⟩ := hI.root
    exact ⟨r, by simpa using g1, Prod.ext g2.1 (by have := g2.2; show r.j = L.length - 1; omega)⟩
  | @step i j i' j' d hp _ ih =>
    obtain ⟨p, p1, p2⟩ := ih hp.1
    obtain ⟨v, v1, v2, v3, v4⟩ := C62_node h hn
    rw [iv, Prod.mk.injEq] at p2
    have := hI.down p p1 v v2 (by rw [v3, v4, p2.1, p2.2]; exact hp)
    exact ⟨v, by simpa using this, Prod.ext v3 v4⟩

theorem loop_inv : ∀ m P Q, L.length * L.length + 1 ≤ P.length + m → Inv L s P Q →
    ∃ l, Inv L s (P ++ l) [] ∧ l.length ≤ m ∧ ∀ f, l.length < f → loop s ⟨[], true⟩ f ⟨Q, true⟩ = some l := by
  intro m
  induction m with
  | zero =>
    intro P Q hm hI
    have := hI.len
    omega
  | succ m ih =>
    intro P Q hm hI
    cases Q with
    | nil =>
      refine ⟨[], by simpa using hI, Nat.zero_le _, fun f hf => ?_⟩
      obtain ⟨g, rfl⟩ : ∃ g, f = g + 1 := ⟨f - 1, by simp at hf; omega⟩
      rfl
    | cons v Q =>
      obtain ⟨cs, c1, c2⟩ := hI.step h
      obtain ⟨l, l1, l2, l3⟩ := ih _ _ (by simp; omega) c2
      refine ⟨v :: l, by simpa using l1, by simp; omega, fun f hf => ?_⟩
      obtain ⟨g, rfl⟩ : ∃ g, f = g + 1 := ⟨f - 1, by simp at hf; omega⟩
      rw [loop, if_neg (by simp [same])]
      rw [show (Bfs.mk (v :: Q) true).queue.head? = some v from rfl, sbind, c1, sbind, l3 g (by simp at hf; omega)]
      rfl

theorem loop_all : ∃ r l, s.root = some r ∧ (∀ x, x ∈ l.map iv ↔ IsNode L x.1 x.2) ∧ (l.map iv).Pairwise (BeforeLevel L) ∧ l.length ≤ L.length * L.length ∧
    ∀ f, l.length < f → loop s (new r true true) f (new r true false) = some l := by
  obtain ⟨r, r1, r2, r3, r4⟩ := root_of h
  obtain ⟨l, l1, l2, l3⟩ := loop_inv h (L.length * L.length + 1) [] [r] (by simp) ⟨by simpa using r2, by simp, ⟨r, by simp, r3⟩, by simp, by simp [r3]⟩
  rw [List.nil_append] at l1
  refine ⟨r, l, r1, fun x => ⟨fun hx => ?_, fun hx => ?_⟩, ?_, by have := l1.len; exact this, l3⟩
  · obtain ⟨y, y1, rfl⟩ := List.mem_map.1 hx
    exact (l1.valid y (by simp [y1])).node
  · obtain ⟨y, y1, y2⟩ := l1.all h hx
    exact List.mem_map.2 ⟨y, y1, y2⟩
  · rw [List.pairwise_map]
    simpa using l1.order

end

end Bfs
end Sdsl.CstSct3
