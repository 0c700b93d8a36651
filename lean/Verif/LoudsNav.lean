/-
  LOUDS navigation: the constructed sequence and the operations in terms of breadth-first order.
-/
import Verif.LoudsLemmas
import Mathlib.Data.List.Induction

namespace Sdsl.Louds

open Sdsl RTree

/-- All nodes with their paths in breadth-first order. -/
def order (t : RTree) : List (List Nat × RTree) := bfs t.nodes [([], t)]

def degs (t : RTree) : List Nat := (order t).map deg

theorem qn_root (t : RTree) : qn [([], t)] = t.nodes := by simp [qn, nodesL]

theorem order_length (t : RTree) : (order t).length = t.nodes := by
  rw [order, bfs_length _ _ (by rw [qn_root]; omega), qn_root]

theorem bits_len (t : RTree) : (bits (degs t)).length + 1 = 2 * t.nodes := by
  have h := bfs_sum t.nodes [([], t)] (by rw [qn_root]; omega)
  have hl := order_length t
  unfold order at hl
  rw [bits_length]
  unfold P
  rw [List.take_length]
  unfold degs order
  rw [List.length_map]
  simp only [List.length_cons, List.length_nil] at h
  omega

theorem order_root (t : RTree) : (order t)[0]? = some ([], t) := by
  have := bfs_prefix t.nodes [([], t)] 0 (by simp)
  simpa [order] using this

theorem order_child {t : RTree} {k i : Nat} {x : List Nat × RTree} {c : RTree} (h : (order t)[k]? = some x) (hc : x.2.children[i]? = some c) :
    (order t)[1 + ((degs t).take k).sum + i]? = some (x.1 ++ [i], c) :=
  bfs_child t.nodes [([], t)] (by rw [qn_root]; omega) k x i c h hc

theorem order_sub {t : RTree} {k : Nat} {x : List Nat × RTree} (h : (order t)[k]? = some x) : sub t x.1 = some x.2 :=
  bfs_sub t t.nodes [([], t)] (by intro x hx; simp only [List.mem_singleton] at hx; subst hx; rfl) x (List.mem_of_getElem? h)

theorem order_sorted (t : RTree) : (order t).Pairwise fun a b => LevelLt a.1 b.1 := by
  apply bfs_sorted t.nodes [([], t)] (by rw [qn_root]; omega) (by simp)
  intro x hx y hy i
  simp only [List.mem_singleton] at hx hy
  subst hx; subst hy
  exact LevelLt.child _ _

/-- Every node of the tree is visited. -/
theorem order_exists (t : RTree) : ∀ (p : List Nat) (s : RTree), sub t p = some s → ∃ k : Nat, (order t)[k]? = some (p, s) := by
  intro p
  induction p using List.reverseRecOn with
  | nil => intro s h; rw [RTree.sub] at h; obtain rfl := Option.some.inj h; exact ⟨0, order_root t⟩
  | append_singleton p i ih =>
    intro s h
    rw [sub_snoc] at h
    cases hp : sub t p with
    | none => rw [hp] at h; simp at h
    | some u =>
      rw [hp] at h
      obtain ⟨k, hk⟩ := ih u hp
      exact ⟨_, order_child hk h⟩

theorem degs_get {t : RTree} {k : Nat} {x : List Nat × RTree} (h : (order t)[k]? = some x) : (degs t)[k]? = some (deg x) := by
  unfold degs; rw [List.getElem?_map, h]; rfl

theorem build_eq {t : RTree} (h : 2 * t.nodes ≤ 4 * t.leaves + 1) : build t = some ⟨bits (degs t)⟩ := by
  have hb := bits_len t
  have hf := fill_eq t.nodes [([], t)] (by rw [qn_root]; omega) [] (4 * t.leaves) (by
    change (bits (degs t)).length ≤ _; omega)
  change fill t.nodes [t] (List.replicate (4 * t.leaves) false) 0 = some ([] ++ bits (degs t) ++ List.replicate (4 * t.leaves - (bits (degs t)).length) false, 0 + (bits (degs t)).length) at hf
  unfold build
  dsimp only
  rw [hf, sbind]
  dsimp only
  rw [if_pos (by simp)]
  simp

/-- Position of a node: its rank in breadth-first order and the position of its 1-bit. -/
def locate (t : RTree) (k : Nat) : Node := ⟨k, P (degs t) k⟩

section
variable {t : RTree} {k : Nat} {x : List Nat × RTree} (h : (order t)[k]? = some x)
include h

theorem isLeaf_eq : isLeaf ⟨bits (degs t)⟩ (locate t k) = some (x.2.children.isEmpty) := by
  have hd := degs_get h
  have hP := P_le hd
  unfold isLeaf locate
  dsimp only
  by_cases h0 : x.2.children = []
  · rw [h0]
    by_cases he : P (degs t) k + 1 = (bits (degs t)).length
    · rw [if_pos he]; rfl
    · rw [if_neg he]
      have d0 : deg x = 0 := by unfold deg; rw [h0]; rfl
      rw [d0] at hd hP
      have e : P (degs t) k + 1 = P (degs t) (k + 1) := by rw [P_succ hd]
      have hk : k + 1 < (degs t).length := by
        rw [bits_length] at he hP
        rcases Nat.lt_or_ge (k + 1) (degs t).length with h2 | h2
        · exact h2
        · exfalso
          have := (List.getElem?_eq_some_iff.1 hd).1
          have : k + 1 = (degs t).length := by omega
          rw [this] at e
          omega
      rw [Bv.get_of_lt (by omega), e, (bits_block (List.getElem?_eq_getElem hk)).1]
      rfl
  · have hd1 : 0 < deg x := by unfold deg; exact List.length_pos_iff.2 h0
    rw [if_neg (by omega), Bv.get_of_lt (by omega)]
    have := (bits_block hd).2.1 0 hd1
    rw [Nat.add_zero] at this
    rw [this]
    cases hc : x.2.children with
    | nil => exact absurd hc h0
    | cons a b => rfl

theorem next_exists (hne : x.2.children ≠ []) : ∃ y, (order t)[k + 1]? = some y := by
  obtain ⟨c, cs, hc⟩ := List.exists_cons_of_ne_nil hne
  have h1 := order_child (i := 0) (c := c) h (by rw [hc]; rfl)
  have hk1 := (List.getElem?_eq_some_iff.1 h1).1
  have hk : k + 1 < (order t).length := by
    -- a child comes later in level order
    rcases Nat.lt_or_ge (k + 1) (order t).length with h2 | h2
    · exact h2
    · exfalso
      have hkl := (List.getElem?_eq_some_iff.1 h).1
      have hs := order_sorted t
      rw [List.pairwise_iff_getElem] at hs
      have hle : 1 + ((degs t).take k).sum + 0 ≤ k := by omega
      rcases Nat.lt_or_eq_of_le hle with hlt | heq
      · have := hs _ _ hk1 hkl hlt
        rw [(List.getElem?_eq_some_iff.1 h1).2, (List.getElem?_eq_some_iff.1 h).2] at this
        exact LevelLt.irrefl _ (this.trans (LevelLt.child x.1 0))
      · rw [heq, h] at h1
        have := congrArg (fun z => z.1.length) (Option.some.inj h1)
        simp at this
  exact ⟨_, List.getElem?_eq_getElem hk⟩

theorem degree_eq : degree ⟨bits (degs t)⟩ (locate t k) = some x.2.children.length := by
  unfold degree
  rw [isLeaf_eq h, sbind]
  by_cases h0 : x.2.children = []
  · rw [h0]; rfl
  · rw [if_neg (by simpa using h0)]
    obtain ⟨y, hy⟩ := next_exists h h0
    have hs := select_one (degs_get hy)
    unfold locate
    dsimp only
    rw [show k + 2 = k + 1 + 1 by omega, hs, sbind, P_succ (degs_get h)]
    unfold deg
    congr 1; omega

theorem child_eq {i : Nat} (hi : i < x.2.children.length) :
    child ⟨bits (degs t)⟩ (locate t k) (i + 1) = some (locate t (1 + ((degs t).take k).sum + i)) := by
  have hc := order_child h (List.getElem?_eq_getElem hi)
  have hs := select_one (degs_get hc)
  unfold child locate
  dsimp only
  have e : P (degs t) k + (i + 1) + 1 - (k + 1) = 1 + ((degs t).take k).sum + i := by unfold P; omega
  rw [e, hs, sbind]

theorem parent_eq {i : Nat} (hi : i < x.2.children.length) :
    parent ⟨bits (degs t)⟩ (locate t (1 + ((degs t).take k).sum + i)) = some (locate t k) := by
  have hd := degs_get h
  unfold parent
  rw [if_neg (by
    intro e
    have := congrArg Node.nr e
    unfold locate root at this
    dsimp only at this; omega)]
  unfold locate
  dsimp only
  have hz := select_zero hd (i := i) hi
  rw [show 1 + ((degs t).take k).sum + i = ((degs t).take k).sum + i + 1 by omega, hz, sbind]
  have e : P (degs t) k + 1 + i + 1 - (((degs t).take k).sum + i + 1) - 1 = k := by unfold P; omega
  rw [e, select_one hd, sbind]

end

theorem follow_snoc (T : Tree) : ∀ (p : List Nat) (v : Node) (i : Nat), follow T v (p ++ [i]) = (follow T v p).bind fun w => child T w (i + 1)
  | [], v, i => by
    simp only [List.nil_append, follow, Option.bind_some]
    cases child T v (i + 1) <;> rfl
  | j :: p, v, i => by
    simp only [List.cons_append, follow]
    cases child T v (j + 1) with
    | none => rfl
    | some w => exact follow_snoc T p w i

theorem follow_eq (t : RTree) : ∀ (p : List Nat) (s : RTree), sub t p = some s →
    ∃ k : Nat, (order t)[k]? = some (p, s) ∧ follow ⟨bits (degs t)⟩ root p = some (locate t k) := by
  intro p
  induction p using List.reverseRecOn with
  | nil =>
    intro s h; rw [RTree.sub] at h; obtain rfl := Option.some.inj h
    exact ⟨0, order_root t, by rw [follow]; unfold locate; rw [P_zero]; rfl⟩
  | append_singleton p i ih =>
    intro s h
    rw [sub_snoc] at h
    cases hp : sub t p with
    | none => rw [hp] at h; simp at h
    | some u =>
      rw [hp] at h
      obtain ⟨k, hk, hf⟩ := ih u hp
      have hi : i < u.children.length := (List.getElem?_eq_some_iff.1 h).1
      exact ⟨_, order_child hk h, by rw [follow_snoc, hf, Option.bind_some, child_eq hk hi]⟩

/-! ### Suffix-tree shaped trees fit into the reserved space -/

mutual
theorem nodes_le : ∀ (t : RTree), t.noUnary = true → t.nodes + 1 ≤ 2 * t.leaves
  | .node [], _ => by simp [RTree.nodes, RTree.nodesL, RTree.leaves]
  | .node [c], h => by simp [RTree.noUnary] at h
  | .node (c :: d :: cs), h => by
    rw [RTree.noUnary, RTree.noUnaryL, RTree.noUnaryL] at h
    simp only [Bool.and_eq_true] at h
    have h1 := nodes_le c h.2.1
    have h2 := nodes_le d h.2.2.1
    have h3 := nodesL_le cs h.2.2.2
    rw [RTree.nodes, RTree.nodesL, RTree.nodesL, RTree.leaves, RTree.leavesL]
    omega
theorem nodesL_le : ∀ (ts : List RTree), noUnaryL ts = true → nodesL ts ≤ 2 * leavesL ts
  | [], _ => by simp [RTree.nodesL]
  | t :: ts, h => by
    rw [RTree.noUnaryL, Bool.and_eq_true] at h
    have h1 := nodes_le t h.1
    have h2 := nodesL_le ts h.2
    rw [RTree.nodesL, RTree.leavesL]
    omega
end

end Sdsl.Louds
