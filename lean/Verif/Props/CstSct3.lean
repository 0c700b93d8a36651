/-
  C62, C63: the compressed suffix tree cst_sct3 (include/sdsl/cst_sct3.hpp): construction, navigation, ids.
-/
import Verif.CstSct3Ids

namespace Sdsl.Props

open Spec CstSct3

/-- `s` is the tree constructed for the LCP array `L`: `sigma` is the number of zeros (the size of the alphabet), the vectors have enough words, the
small blocks of the `bp_support_sada` consist of whole bytes and a medium block has at least two of them (default: 256 and 32). -/
structure CstOf (L : List Nat) (s : Cst) : Prop where
  pos : 0 < L.length
  first : L.getD 0 0 = 0
  made : ∃ W Wfc S D, 2 * L.length ≤ 64 * W ∧ L.length ≤ 64 * Wfc ∧ 0 < S ∧ S + 2 < 2 ^ 64 ∧ S % 8 = 0 ∧ 2 ≤ D ∧ 4 * L.length + 2 < 2 ^ 64 ∧ (∀ x ∈ L, x ≤ L.length) ∧
    CstSct3.new L (countTrue (fun k => L.getD k 0 == 0) L.length) W Wfc S D = some s

/-- The bits of the parentheses of `s`. -/
abbrev Par (s : Cst) : Nat → Bool := bitAt s.bp.mem

theorem CstOf.ok {L : List Nat} {s : Cst} (h : CstOf L s) : ∃ S D, Ok L s S D ∧ s.nodes = if L.length = 1 then 1 else L.length + countTrue (bitAt s.fc) L.length := by
  obtain ⟨W, Wfc, S, D, h1, h2, h3, h4, h5, h6, h7, h8, h9⟩ := h.made
  obtain ⟨s', e1, e2, e3⟩ := CstSct3.new_ok h.pos h.first h8 h7 h1 h2 h3 h4 h5 h6
  have : s' = s := Option.some.inj (e1.symm.trans h9)
  subst this
  exact ⟨S, D, e2, e3⟩

/-- **C62** The tree is constructed for every LCP array. -/
theorem C62_construct (L : List Nat) (h0 : 0 < L.length) (h1 : L.getD 0 0 = 0) (hv : ∀ x ∈ L, x ≤ L.length) (hn : 4 * L.length + 2 < 2 ^ 64) {W Wfc S D : Nat} (hW : 2 * L.length ≤ 64 * W)
    (hW' : L.length ≤ 64 * Wfc) (pS : 0 < S) (bS : S + 2 < 2 ^ 64) (h8 : S % 8 = 0) (hD : 2 ≤ D) :
    ∃ s, CstSct3.new L (countTrue (fun k => L.getD k 0 == 0) L.length) W Wfc S D = some s ∧ CstOf L s := by
  obtain ⟨s, e, _⟩ := CstSct3.new_ok h0 h1 hv hn hW hW' pS bS h8 hD
  exact ⟨s, e, h0, h1, W, Wfc, S, D, hW, hW', pS, bS, h8, hD, hn, hv, e⟩

section
variable {L : List Nat} {s : Cst} (h : CstOf L s) {v w : Node}
include h

/-- **C62** `root` is the node of the whole array. -/
theorem C62_root : ∃ r, s.root = some r ∧ Valid L (Par s) r ∧ r.i = 0 ∧ r.j + 1 = L.length := by
  obtain ⟨S, D, ok, _⟩ := h.ok
  obtain ⟨r, r1, r2, r3, r4⟩ := root_ok ok
  exact ⟨r, r1, r4, r2, by have := h.pos; omega⟩

/-- **C62** `node(lb, rb)` for every LCP interval. -/
theorem C62_node {i j : Nat} (hn : IsNode L i j) : ∃ v, s.node i j = some v ∧ Valid L (Par s) v ∧ v.i = i ∧ v.j = j := by
  obtain ⟨S, D, ok, _⟩ := h.ok
  obtain ⟨r, r1, r2, r3, r4⟩ := node_ok ok hn
  exact ⟨r, r1, r4, r2, r3⟩

omit h in
/-- **C62** There is only one object for an interval, so that the results of the other functions are determined. -/
theorem C62_unique (hv : Valid L (Par s) v) (hw : Valid L (Par s) w) (h1 : v.i = w.i) (h2 : v.j = w.j) : v = w := hv.ext hw h1 h2

/-- **C62** `select_leaf(i)` is the leaf of position `i-1`. -/
theorem C62_select_leaf {i : Nat} (h1 : 1 ≤ i) (h2 : i ≤ L.length) : ∃ v, s.selectLeaf i = some v ∧ Valid L (Par s) v ∧ v.i = i - 1 ∧ v.j = i - 1 := by
  obtain ⟨S, D, ok, _⟩ := h.ok
  obtain ⟨r, r1, r2, r3, r4⟩ := leaf_ok ok h1 h2
  exact ⟨r, r1, r4, r2, r3⟩

/-- **C62** The leftmost and the rightmost leaf of a node. -/
theorem C62_outer_leaves (hv : Valid L (Par s) v) : (∃ l, s.leftmostLeaf v = some l ∧ Valid L (Par s) l ∧ l.i = v.i ∧ l.j = v.i) ∧ ∃ r, s.rightmostLeaf v = some r ∧ Valid L (Par s) r ∧ r.i = v.j ∧ r.j = v.j := by
  have h1 := hv.node.1
  have h2 := hv.node.2.1
  obtain ⟨l, l1, l2, l3, l4⟩ := C62_select_leaf h (i := v.i + 1) (by omega) (by omega)
  obtain ⟨r, r1, r2, r3, r4⟩ := C62_select_leaf h (i := v.j + 1) (by omega) (by omega)
  exact ⟨⟨l, l1, l2, l3, l4⟩, r, r1, r2, r3, r4⟩

omit h in
/-- **C62** `size(v)` is the number of leaves, the positions of the interval. -/
theorem C62_leaves (hv : Valid L (Par s) v) : Cst.leaves v = some (countTrue (fun k => decide (v.i ≤ k ∧ k ≤ v.j)) L.length) := by
  have h1 := hv.node.1
  have h2 := hv.node.2.1
  rw [Cst.leaves, sub_eq h1, sbind]
  have key : ∀ n, countTrue (fun k => decide (v.i ≤ k ∧ k ≤ v.j)) n = min n (v.j + 1) - min n v.i := by
    intro n
    induction n with
    | zero => simp [countTrue]
    | succ n ih =>
      rw [countTrue, ih]
      by_cases c : v.i ≤ n ∧ n ≤ v.j
      · rw [decide_eq_true c]; simp only [Bool.toNat_true]; omega
      · rw [decide_eq_false c]; simp only [Bool.toNat_false]; omega
  rw [key]
  show some _ = some _
  congr 1; omega

/-- **C62** `parent` yields the smallest node properly around the node, for the root the root. -/
theorem C62_parent (hv : Valid L (Par s) v) : (v.i = 0 → v.j + 1 = L.length → s.parent v = some v) ∧
    (¬ (v.i = 0 ∧ v.j + 1 = L.length) → ∃ w, s.parent v = some w ∧ Valid L (Par s) w ∧ IsParent L v.i v.j w.i w.j) := by
  obtain ⟨S, D, ok, _⟩ := h.ok
  obtain ⟨w, w1, w2, w3, w4, _⟩ := parent_ok ok hv
  refine ⟨fun h1 h2 => ?_, fun h1 => ⟨w, w1, w2, w4 h1⟩⟩
  obtain ⟨e1, e2⟩ := w3 h1 h2
  rw [w1, w2.ext hv (by omega) e2]

/-- **C62** `degree` and `select_child`: a leaf has no children; the children of an inner node are at least two, they cut its interval into consecutive
parts, and there are no others. -/
theorem C62_children (hv : Valid L (Par s) v) : (v.i = v.j → s.degree v = some 0) ∧
    (v.i < v.j → ∃ (d : Nat) (κ : Nat → Nat), s.degree v = some d ∧ 2 ≤ d ∧ κ 0 = v.i ∧ κ d = v.j + 1 ∧ (∀ e, e < d → κ e < κ (e + 1)) ∧
      (∀ e, e < d → ∃ w, s.selectChild v (e + 1) = some w ∧ Valid L (Par s) w ∧ w.i = κ e ∧ w.j + 1 = κ (e + 1) ∧ IsParent L w.i w.j v.i v.j) ∧
      (∀ e, d ≤ e → s.selectChild v (e + 1) = s.root) ∧ ∀ a c, IsNode L a c → IsParent L a c v.i v.j → ∃ e, e < d ∧ a = κ e ∧ c + 1 = κ (e + 1)) := by
  obtain ⟨S, D, ok, _⟩ := h.ok
  refine ⟨fun h1 => by rw [Cst.degree, if_pos (by rw [Cst.isLeaf, beq_iff_eq]; exact h1)], fun h1 => ?_⟩
  obtain ⟨d, κ, g1, g2, g3, g4, g5, g6, g7⟩ := children_ok ok hv h1
  have key : ∀ e, e < d → IsNode L (κ e) (κ (e + 1) - 1) ∧ IsParent L (κ e) (κ (e + 1) - 1) v.i v.j := by
    intro e he
    obtain ⟨w, _, w2, w3, w4, w5⟩ := g6 e he
    rw [← w3, show κ (e + 1) - 1 = w.j by omega]
    exact ⟨w2.node, w5⟩
  exact ⟨d, κ, g1, g2, g3, g4, g5, g6, g7, fun a c h2 h3 => all_children g3 g4 g5 (fun e he => (key e he).2) (fun e he => (key e he).1) h2 h3⟩

/-- **C62** `sibling` yields the next child of the parent, or the root if the node is the last child or the root. -/
theorem C62_sibling (hv : Valid L (Par s) v) : (∀ i' j', IsParent L v.i v.j i' j' → v.j < j' → ∃ w, s.sibling v = some w ∧ Valid L (Par s) w ∧ w.i = v.j + 1 ∧ IsParent L w.i w.j i' j') ∧
    (∀ i', IsParent L v.i v.j i' v.j → s.sibling v = s.root) ∧ (v.i = 0 → v.j + 1 = L.length → s.sibling v = s.root) := by
  obtain ⟨S, D, ok, _⟩ := h.ok
  exact sibling_ok ok hv

/-- **C62** `lca` yields the smallest node around both nodes. -/
theorem C62_lca (hv : Valid L (Par s) v) (hw : Valid L (Par s) w) : ∃ x, s.lca v w = some x ∧ Valid L (Par s) x ∧ IsLca L v.i v.j w.i w.j x.i x.j := by
  obtain ⟨S, D, ok, _⟩ := h.ok
  exact lca_ok ok hv hw

/-- **C62** `depth` of an inner node is the smallest LCP value in its interval, that of a leaf the length of the suffix (`sa` is `m_csa[]`). -/
theorem C62_depth (hz : 1 < L.length → ∃ k, 0 < k ∧ k < L.length ∧ L.getD k 0 = 0) (hv : Valid L (Par s) v) {sa : Nat → Option Nat} {x : Nat} (hx : x ≤ L.length) (hs : sa v.i = some x) :
    (v.i = v.j → s.depth L sa v = some (L.length - x)) ∧
    (v.i < v.j → ∃ d, s.depth L sa v = some d ∧ (∃ k, v.i < k ∧ k ≤ v.j ∧ L.getD k 0 = d) ∧ ∀ k, v.i < k → k ≤ v.j → d ≤ L.getD k 0) := by
  obtain ⟨S, D, ok, _⟩ := h.ok
  have h2 := hv.node.2.1
  refine ⟨fun e => ?_, fun e => depth_ok ok hv e (hz (by omega)) sa⟩
  rw [Cst.depth, if_pos e, hs, sbind, ok.size, sub_eq hx]

/-- **C62** `node_depth` counts the proper ancestors; it needs at most `n` steps. -/
theorem C62_node_depth (hv : Valid L (Par s) v) : ∃ d, s.nodeDepth L.length v 0 = some d ∧ NodeDepth L v.i v.j d := by
  obtain ⟨S, D, ok, _⟩ := h.ok
  obtain ⟨d, d1, d2, d3⟩ := nodeDepth_ok ok _ v (Nat.le_refl _) hv
  exact ⟨d, by rw [d3 _ _ (by omega), Nat.zero_add], d1⟩

/-- **C63** The id of a node is smaller than the number of nodes, and `inv_id` returns the node. -/
theorem C63_id (hz : 1 < L.length → ∃ k, 0 < k ∧ k < L.length ∧ L.getD k 0 = 0) (hv : Valid L (Par s) v) : ∃ x, s.id v = some x ∧ x < s.nodes ∧ s.invId x = some v := by
  obtain ⟨S, D, ok, e⟩ := h.ok
  obtain ⟨x, x1, x2⟩ := id_lt ok hz hv
  obtain ⟨w, w1, w2, w3⟩ := invId_ok ok hz x2
  refine ⟨x, x1, ?_, ?_⟩
  · rw [e]
    by_cases c : L.length = 1
    · rw [if_pos c]; omega
    · rw [if_neg c]; omega
  · rw [w1, id_inj ok hz w2 hv (by rw [w3, x1])]

/-- **C63** `inv_id` of every number smaller than the number of nodes is a node, and its id is the number. -/
theorem C63_inv_id (hz : 1 < L.length → ∃ k, 0 < k ∧ k < L.length ∧ L.getD k 0 = 0) {x : Nat} (hx : x < s.nodes) : ∃ v, s.invId x = some v ∧ Valid L (Par s) v ∧ s.id v = some x := by
  obtain ⟨S, D, ok, e⟩ := h.ok
  rw [e] at hx
  refine invId_ok ok hz ?_
  have := h.pos
  by_cases c : L.length = 1
  · rw [if_pos c] at hx; omega
  · rw [if_neg c] at hx; omega

/-- **C63** Leaves have the ids of their positions, inner nodes larger ones. -/
theorem C63_leaf_id (hv : Valid L (Par s) v) (hz : 1 < L.length → ∃ k, 0 < k ∧ k < L.length ∧ L.getD k 0 = 0) : (v.i = v.j → s.id v = some v.i) ∧ (v.i < v.j → ∃ x, s.id v = some x ∧ L.length ≤ x) := by
  obtain ⟨S, D, ok, e⟩ := h.ok
  have h2 := hv.node.2.1
  refine ⟨fun e => id_leaf e, fun e => ?_⟩
  obtain ⟨r, t, p, q, _, _, _, _, g, _⟩ := id_ok ok hv e (hz (by omega))
  exact ⟨_, g, by omega⟩

/-- **C63** `tlcp_idx(k)` is, behind the leaves, the id of the node whose interval has its minimum at `k`: the values of the LCP array can be stored per node. -/
theorem C63_tlcp_idx (hv : Valid L (Par s) v) {k : Nat} (hik : v.i < k) (hkj : k ≤ v.j) (hmin : ∀ x, v.i < x → x ≤ v.j → L.getD k 0 ≤ L.getD x 0) :
    ∃ y, s.tlcpIdx k = some y ∧ s.id v = some (L.length + y) := by
  obtain ⟨S, D, ok, _⟩ := h.ok
  exact tlcp_ok ok hv hik hkj hmin

end

/-- An LCP array for the examples. -/
def exL : List Nat := [0, 0, 3, 1, 2, 2, 1, 0, 4, 4, 2, 0]

example : 0 < exL.length ∧ exL.getD 0 0 = 0 ∧ (∀ x ∈ exL, x ≤ exL.length) ∧ 4 * exL.length + 2 < 2 ^ 64 ∧ 2 * exL.length ≤ 64 * 1 ∧ 8 % 8 = 0 := by decide
example : countTrue (fun k => exL.getD k 0 == 0) exL.length = 4 := by decide
example : ((CstSct3.new exL 4 1 1 8 2).bind (fun s => do let v ← s.node 3 5; s.parent v)).map (fun v => (v.i, v.j)) = some (1, 6) := by decide +kernel
example : (CstSct3.new exL 4 1 1 8 2).bind (fun s => do let v ← s.node 3 5; s.id v) = some 13 := by decide +kernel
example : (CstSct3.new exL 4 1 1 8 2).bind (fun s => do let v ← s.node 8 8; let w ← s.node 10 10; s.lca v w) = (CstSct3.new exL 4 1 1 8 2).bind (fun s => s.node 7 10) := by decide +kernel
example : ∃ k, 0 < k ∧ k < exL.length ∧ exL.getD k 0 = 0 := ⟨1, by decide⟩

end Sdsl.Props
