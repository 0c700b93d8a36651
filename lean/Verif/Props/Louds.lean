/-
  C47: navigation in `louds_tree`. A node of the traversed tree is named by the list of child numbers on the path from the root.
-/
import Verif.LoudsNav

namespace Sdsl.Props

open Sdsl RTree

/-- C47 for every tree whose sequence fits into the space that the constructor reserves (4 bits per leaf): the object has as many nodes
as the tree, and on the node `v` reached over any path of the tree, `is_leaf` and `degree` are those of the tree, `child(v, i)` is
the node of the `i`-th child, and `parent` of it is `v` again. -/
theorem C47_navigation_fits (t : RTree) (h : 2 * t.nodes ≤ 4 * t.leaves + 1) :
    ∃ T, Louds.build t = some T ∧ Louds.nodes T = t.nodes ∧ Louds.parent T Louds.root = some Louds.root ∧
      ∀ p s, sub t p = some s → ∃ v, Louds.follow T Louds.root p = some v ∧
        Louds.isLeaf T v = some (decide (s.children.length = 0)) ∧ Louds.degree T v = some s.children.length ∧
        Louds.id v < Louds.nodes T ∧
        ∀ i, i < s.children.length → ∃ w, Louds.child T v (i + 1) = some w ∧ Louds.follow T Louds.root (p ++ [i]) = some w ∧
          Louds.parent T w = some v := by
  have hn : Louds.nodes ⟨Louds.bits (Louds.degs t)⟩ = t.nodes := by
    have := Louds.bits_len t
    unfold Louds.nodes
    dsimp only
    omega
  refine ⟨_, Louds.build_eq h, hn, by rw [Louds.parent, if_pos rfl], ?_⟩
  intro p s hp
  obtain ⟨k, hk, hf⟩ := Louds.follow_eq t p s hp
  refine ⟨_, hf, ?_, Louds.degree_eq hk, ?_, ?_⟩
  · rw [Louds.isLeaf_eq hk]
    dsimp only
    cases s.children <;> rfl
  · rw [hn, ← Louds.order_length]
    exact (List.getElem?_eq_some_iff.1 hk).1
  · intro i hi
    refine ⟨_, Louds.child_eq hk hi, ?_, Louds.parent_eq hk hi⟩
    rw [Louds.follow_snoc, hf, Option.bind_some, Louds.child_eq hk hi]

/-- C47 for the trees the class is built from: a suffix tree has no node with exactly one child. -/
theorem C47_navigation (t : RTree) (h : t.noUnary = true) :
    ∃ T, Louds.build t = some T ∧ Louds.nodes T = t.nodes ∧ Louds.parent T Louds.root = some Louds.root ∧
      ∀ p s, sub t p = some s → ∃ v, Louds.follow T Louds.root p = some v ∧
        Louds.isLeaf T v = some (decide (s.children.length = 0)) ∧ Louds.degree T v = some s.children.length ∧
        Louds.id v < Louds.nodes T ∧
        ∀ i, i < s.children.length → ∃ w, Louds.child T v (i + 1) = some w ∧ Louds.follow T Louds.root (p ++ [i]) = some w ∧
          Louds.parent T w = some v :=
  C47_navigation_fits t (by have := Louds.nodes_le t h; omega)

/-- C47: `id` numbers the nodes in level order (by depth, nodes of the same depth from left to right), every number below `nodes()` is
the id of exactly one node. -/
theorem C47_ids (t : RTree) (T : Louds.Tree) (h : 2 * t.nodes ≤ 4 * t.leaves + 1) (hT : Louds.build t = some T) :
    (∀ p s q u v w, sub t p = some s → sub t q = some u → Louds.follow T Louds.root p = some v → Louds.follow T Louds.root q = some w →
      (Louds.id v < Louds.id w ↔ (p.length < q.length ∨ (p.length = q.length ∧ p < q))) ∧ (Louds.id v = Louds.id w ↔ p = q)) ∧
    (∀ k, k < Louds.nodes T → ∃ p s v, sub t p = some s ∧ Louds.follow T Louds.root p = some v ∧ Louds.id v = k) := by
  rw [Louds.build_eq h] at hT
  obtain rfl := Option.some.inj hT
  have hn : Louds.nodes ⟨Louds.bits (Louds.degs t)⟩ = t.nodes := by
    have := Louds.bits_len t
    unfold Louds.nodes
    dsimp only
    omega
  have hs := Louds.order_sorted t
  rw [List.pairwise_iff_getElem] at hs
  constructor
  · intro p s q u v w hp hq hv hw
    obtain ⟨k, hk, hf⟩ := Louds.follow_eq t p s hp
    obtain ⟨l, hl, hg⟩ := Louds.follow_eq t q u hq
    rw [hf] at hv; rw [hg] at hw
    obtain rfl := Option.some.inj hv
    obtain rfl := Option.some.inj hw
    change (k < l ↔ Louds.LevelLt p q) ∧ (k = l ↔ p = q)
    obtain ⟨hkl, hk2⟩ := List.getElem?_eq_some_iff.1 hk
    obtain ⟨hll, hl2⟩ := List.getElem?_eq_some_iff.1 hl
    have lt1 : k < l → Louds.LevelLt p q := by
      intro h
      have := hs k l hkl hll h
      rwa [hk2, hl2] at this
    have lt2 : l < k → Louds.LevelLt q p := by
      intro h
      have := hs l k hll hkl h
      rwa [hk2, hl2] at this
    have eq1 : k = l → p = q := by
      rintro rfl
      rw [hk] at hl
      exact congrArg Prod.fst (Option.some.inj hl)
    refine ⟨⟨lt1, ?_⟩, ⟨eq1, ?_⟩⟩
    · intro hpq
      rcases Nat.lt_trichotomy k l with h | h | h
      · exact h
      · rw [eq1 h] at hpq; exact absurd hpq (Louds.LevelLt.irrefl _)
      · exact absurd (hpq.trans (lt2 h)) (Louds.LevelLt.irrefl _)
    · intro hpq
      subst hpq
      rcases Nat.lt_trichotomy k l with h | h | h
      · exact absurd (lt1 h) (Louds.LevelLt.irrefl _)
      · exact h
      · exact absurd (lt2 h) (Louds.LevelLt.irrefl _)
  · intro k hk
    rw [hn, ← Louds.order_length] at hk
    have hx := List.getElem?_eq_getElem hk
    have hsub := Louds.order_sub hx
    obtain ⟨l, hl, hf⟩ := Louds.follow_eq t _ _ hsub
    have : l = k := by
      obtain ⟨hll, hl2⟩ := List.getElem?_eq_some_iff.1 hl
      rcases Nat.lt_trichotomy k l with h | h | h
      · have := hs k l hk hll h
        rw [hl2] at this
        exact absurd this (Louds.LevelLt.irrefl _)
      · exact h.symm
      · have := hs l k hll hk h
        rw [hl2] at this
        exact absurd this (Louds.LevelLt.irrefl _)
    exact ⟨_, _, _, hsub, hf, this⟩

/-- C47 does not hold for trees with many unary nodes: the reserved space of 4 bits per leaf is exceeded and the constructor writes
behind the end of the vector. -/
theorem C47_unary_nodes_overflow : ∃ t : RTree, Louds.build t = none ∧ t.nodes = 4 ∧ t.leaves = 1 :=
  ⟨.node [.node [.node [.node []]]], by decide +kernel, by decide +kernel, by decide +kernel⟩

/-- The tree of the class comment, `(()()(()()))`. -/
def loudsExample : RTree := .node [.node [], .node [], .node [.node [], .node []]]

example : loudsExample.noUnary = true ∧ loudsExample.nodes = 6 ∧ loudsExample.leaves = 4 ∧ 2 * loudsExample.nodes ≤ 4 * loudsExample.leaves + 1 := by
  decide +kernel

/-- The documented sequence `10001110011`. -/
example : Louds.build loudsExample = some ⟨[true, false, false, false, true, true, true, false, false, true, true]⟩ := by decide +kernel

example : (Louds.build loudsExample).bind (fun T => Louds.follow T Louds.root [2, 1]) = some ⟨5, 10⟩ := by decide +kernel
example : (Louds.build loudsExample).bind (fun T => Louds.parent T ⟨5, 10⟩) = some ⟨3, 6⟩ := by decide +kernel

end Sdsl.Props
