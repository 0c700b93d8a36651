/-
  Lemmas about the iterators over the nodes of `cst_sct3` (CstIter.lean).
-/
import Verif.CstIter
import Verif.Props.CstSct3

namespace Sdsl.CstSct3

open Spec Props

/-! ### Nodes and their children -/

theorem same_iff {v w : Node} : v.same w = true ↔ v.i = w.i ∧ v.j = w.j := by simp [Node.same]

theorem same_false {v w : Node} : v.same w = false ↔ ¬ (v.i = w.i ∧ v.j = w.j) := by rw [← same_iff]; simp

/-- The node of the whole array. -/
def Top (L : List Nat) (v : Node) : Prop := v.i = 0 ∧ v.j + 1 = L.length

/-- A list of siblings up to the last one. -/
inductive Chain (s : Cst) : List Node → Prop
  | last {w : Node} : s.sibling w = s.root → Chain s [w]
  | cons {w w' : Node} {cs : List Node} : s.sibling w = some w' → Chain s (w' :: cs) → Chain s (w :: w' :: cs)

/-- The list of the children of `v`. -/
structure Kids (L : List Nat) (s : Cst) (v : Node) (cs : List Node) : Prop where
  chain : Chain s cs
  first : ∃ c l, cs = c :: l ∧ s.selectChild v 1 = some c ∧ c.i = v.i
  valid : ∀ w ∈ cs, Valid L (Par s) w
  par : ∀ w ∈ cs, IsParent L w.i w.j v.i v.j
  parent : ∀ w ∈ cs, s.parent w = some v
  nontop : ∀ w ∈ cs, ¬ Top L w
  order : cs.Pairwise (fun x y => x.j < y.i)
  all : ∀ a c, IsNode L a c → v.i ≤ a → c ≤ v.j → ¬ (a = v.i ∧ c = v.j) → ∃ w ∈ cs, w.i ≤ a ∧ c ≤ w.j

section
variable {L : List Nat} {s : Cst} (h : CstOf L s) {v : Node}
include h

omit h in
theorem nontop_of_parent {i' j' : Nat} (hp : IsParent L v.i v.j i' j') : ¬ Top L v := by
  rintro ⟨h1, h2⟩
  have := hp.1.2.1
  have := hp.2.2.2.1
  have := hp.2.1
  have := hp.2.2.1
  omega

theorem parent_of (hv : Valid L (Par s) v) {w : Node} (hw : Valid L (Par s) w) (hp : IsParent L v.i v.j w.i w.j) : s.parent v = some w := by
  obtain ⟨u, u1, u2, u3⟩ := (C62_parent h hv).2 (nontop_of_parent hp)
  obtain ⟨e1, e2⟩ := parent_unique u3 hp
  rw [u1, u2.ext hw e1 e2]

/-- A node inside `v` is inside a child if the children are known. -/
theorem in_child {i j : Nat} (P : Nat → Nat → Prop) (hP : ∀ a c, IsNode L a c → IsParent L a c i j → P a c) (hij : IsNode L i j) :
    ∀ m a c, L.length - (c - a) ≤ m → IsNode L a c → i ≤ a → c ≤ j → ¬ (a = i ∧ c = j) → ∃ a' c', P a' c' ∧ a' ≤ a ∧ c ≤ c' := by
  intro m
  induction m with
  | zero =>
    intro a c hm hn
    have := hn.2.1
    omega
  | succ m ih =>
    intro a c hm hn h1 h2 h3
    obtain ⟨x, x1, x2, x3, x4⟩ := C62_node h hn
    have hnt : ¬ (x.i = 0 ∧ x.j + 1 = L.length) := by
      have := hij.2.1
      omega
    obtain ⟨p, p1, p2, p3⟩ := (C62_parent h x2).2 hnt
    rw [x3, x4] at p3
    obtain ⟨q1, q2⟩ := p3.2.2.2.2 i j hij h1 h2 (by omega)
    by_cases e : p.i = i ∧ p.j = j
    · rw [e.1, e.2] at p3
      exact ⟨a, c, hP a c hn p3, Nat.le_refl _, Nat.le_refl _⟩
    · have e1 := p3.2.1
      have e2 := p3.2.2.1
      have e3 := p3.2.2.2.1
      have e4 := p3.1.2.1
      have e5 := hn.1
      obtain ⟨a', c', g1, g2, g3⟩ := ih p.i p.j (by omega) p3.1 q1 q2 e
      exact ⟨a', c', g1, by omega, by omega⟩

theorem kids (hv : Valid L (Par s) v) (hi : v.i < v.j) : ∃ cs, Kids L s v cs := by
  obtain ⟨d, κ, k1, k2, k3, k4, k5, k6, k7, k8⟩ := (C62_children h hv).2 hi
  have mono : ∀ e f, e ≤ f → f ≤ d → κ e ≤ κ f := by
    intro e f he
    induction f with
    | zero => intro _; rw [Nat.le_zero.1 he]
    | succ f ih =>
      intro hf
      by_cases e1 : e = f + 1
      · rw [e1]
      · have := ih (by omega) (by omega)
        have := k5 f (by omega)
        omega
  have key : ∀ m e, e + m + 1 = d → ∃ cs, Chain s cs ∧ (∃ c l, cs = c :: l ∧ s.selectChild v (e + 1) = some c ∧ Valid L (Par s) c ∧ c.i = κ e) ∧
      (∀ w ∈ cs, Valid L (Par s) w ∧ IsParent L w.i w.j v.i v.j ∧ κ e ≤ w.i) ∧ cs.Pairwise (fun x y => x.j < y.i) ∧ ∀ f, e ≤ f → f < d → ∃ w ∈ cs, w.i = κ f ∧ w.j + 1 = κ (f + 1) := by
    intro m
    induction m with
    | zero =>
      intro e he
      obtain ⟨w, w1, w2, w3, w4, w5⟩ := k6 e (by omega)
      have hlast : w.j = v.j := by rw [show e + 1 = d by omega] at w4; omega
      refine ⟨[w], Chain.last ((C62_sibling h w2).2.1 v.i (by rw [hlast]; rw [hlast] at w5; exact w5)), ⟨w, [], rfl, w1, w2, w3⟩, ?_, by simp, ?_⟩
      · intro x hx
        rw [List.mem_singleton.1 hx]
        exact ⟨w2, w5, by omega⟩
      · intro f h1 h2
        rw [show f = e by omega]
        exact ⟨w, by simp, w3, w4⟩
    | succ m ih =>
      intro e he
      obtain ⟨cs, c1, ⟨c, l, rfl, c2, c3, c4⟩, c5, c6, c7⟩ := ih (e + 1) (by omega)
      obtain ⟨w, w1, w2, w3, w4, w5⟩ := k6 e (by omega)
      have hlt : w.j < v.j := by
        have := k5 (e + 1) (by omega)
        have := mono (e + 1 + 1) d (by omega) (Nat.le_refl _)
        omega
      obtain ⟨x, x1, x2, x3, x4⟩ := (C62_sibling h w2).1 _ _ w5 hlt
      have hx : x = c := by
        obtain ⟨f, f1, f2, f3⟩ := k8 x.i x.j x2.node x4
        have hfe : f = e + 1 := by
          rcases Nat.lt_trichotomy f (e + 1) with g | g | g
          · have := k5 e (by omega)
            have := mono f e (by omega) (by omega)
            omega
          · exact g
          · have := k5 (e + 1) (by omega)
            have := mono (e + 1 + 1) f (by omega) (by omega)
            omega
        obtain ⟨y, y1, y2, y3, y4, _⟩ := k6 (e + 1) (by omega)
        rw [c2, Option.some.injEq] at y1
        subst y1
        exact x2.ext y2 (by rw [f2, y3, hfe]) (by rw [hfe] at f3; omega)
      subst hx
      refine ⟨w :: x :: l, Chain.cons x1 c1, ⟨w, _, rfl, w1, w2, w3⟩, ?_, ?_, ?_⟩
      · intro y hy
        rcases List.mem_cons.1 hy with rfl | hy
        · exact ⟨w2, w5, by omega⟩
        · obtain ⟨g1, g2, g3⟩ := c5 y hy
          have := k5 e (by omega)
          exact ⟨g1, g2, by omega⟩
      · refine List.pairwise_cons.2 ⟨fun y hy => ?_, c6⟩
        have := (c5 y hy).2.2
        omega
      · intro f h1 h2
        by_cases e1 : f = e
        · subst e1
          exact ⟨w, by simp, w3, w4⟩
        · obtain ⟨y, y1, y2⟩ := c7 f (by omega) h2
          exact ⟨y, by simp [y1], y2⟩
  obtain ⟨cs, c1, ⟨c, l, c2, c3, c4, c5⟩, c6, c7, c8⟩ := key (d - 1) 0 (by omega)
  refine ⟨cs, c1, ⟨c, l, c2, c3, by omega⟩, fun w hw => (c6 w hw).1, fun w hw => (c6 w hw).2.1, fun w hw => parent_of h (c6 w hw).1 hv (c6 w hw).2.1,
    fun w hw => nontop_of_parent (c6 w hw).2.1, c7, fun a c g1 g2 g3 g4 => ?_⟩
  obtain ⟨a', c', ⟨w, w1, w2, w3⟩, g5, g6⟩ := in_child h (fun a c => ∃ w ∈ cs, w.i = a ∧ w.j = c) (fun a c e1 e2 => by
    obtain ⟨f, f1, f2, f3⟩ := k8 a c e1 e2
    obtain ⟨w, w1, w2, w3⟩ := c8 f (Nat.zero_le _) f1
    exact ⟨w, w1, by omega, by omega⟩) hv.node _ a c (Nat.le_refl _) g1 g2 g3 g4
  exact ⟨w, w1, by omega, by omega⟩

theorem root_of : ∃ r, s.root = some r ∧ Valid L (Par s) r ∧ Top L r ∧ ∀ w : Node, w.same r = true ↔ Top L w := by
  obtain ⟨r, r1, r2, r3, r4⟩ := C62_root h
  refine ⟨r, r1, r2, ⟨r3, r4⟩, fun w => ?_⟩
  rw [same_iff, Top]
  omega

end

end Sdsl.CstSct3
