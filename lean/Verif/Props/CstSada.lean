/-
  C82, C83, C84: the compressed suffix tree cst_sada (include/sdsl/cst_sada.hpp): construction, navigation, ids.
-/
import Verif.CstSadaIds
import Verif.Props.CstSct3

namespace Sdsl.Props

open Spec CstSada

/-- `s` is the tree constructed for the LCP array `L`; the small blocks of the `bp_support_sada` consist of whole bytes and a medium block has at least
two of them (default: 256 and 32). `junk` is the content of the words of the parentheses before the constructor fills them. -/
structure SadaOf (L : List Nat) (s : CstSada.Cst) : Prop where
  pos : 0 < L.length
  made : ∃ junk S D, 0 < S ∧ S + 2 < 2 ^ 64 ∧ S % 8 = 0 ∧ 2 ≤ D ∧ 8 * L.length + 8 < 2 ^ 64 ∧ (∀ x ∈ L, x ≤ L.length) ∧ CstSada.new junk L S D = some s

theorem SadaOf.ok {L : List Nat} {s : CstSada.Cst} (h : SadaOf L s) : ∃ S D, CstSada.Ok L s S D := by
  obtain ⟨junk, S, D, h1, h2, h3, h4, h5, h6, h7⟩ := h.made
  obtain ⟨s', e1, e2⟩ := CstSada.new_ok junk h.pos h6 h5 h1 h2 h3 h4
  have : s' = s := Option.some.inj (e1.symm.trans h7)
  subst this
  exact ⟨S, D, e2⟩

/-- `v` represents the LCP interval `[i..j]`: it is an opening parenthesis, `i` leaves "()" end before it and `j+1` up to the closing parenthesis that
matches it. -/
def NodeAt (L : List Nat) (s : CstSada.Cst) (v i j : Nat) : Prop :=
  IsNode L i j ∧ ∃ c, Match (bitAt s.bp.mem) v c ∧ c < s.bp.n ∧ countTrue (occ .p10 s.bp.mem) v = i ∧ countTrue (occ .p10 s.bp.mem) (c + 1) = j + 1

theorem nodeAt_of {L : List Nat} {s : CstSada.Cst} {S D : Nat} (ok : CstSada.Ok L s S D) {i j : Nat} (h : IsNode L i j) : NodeAt L s (oP (vals L) L.length i j) i j :=
  ⟨h, _, ok.mtch h, ok.xlt h, leaves_oP ok.blk h, leaves_cP ok.blk h⟩

theorem nodeAt_eq {L : List Nat} {s : CstSada.Cst} {S D : Nat} (ok : CstSada.Ok L s S D) {v i j : Nat} (h : NodeAt L s v i j) : v = oP (vals L) L.length i j := by
  obtain ⟨h1, c, h2, h3, h4, h5⟩ := h
  have hvc := h2.2.2.1
  obtain ⟨a, b, g1, rfl⟩ := ok.open_node (p := v) (by omega) h2.1
  obtain ⟨x, -, -, hx⟩ := C48_match_open ok.bal (ok.olt g1) (ok.oopen g1)
  have e : c = cP (vals L) L.length a b := by rw [hx _ h2, hx _ (ok.mtch g1)]
  rw [leaves_oP ok.blk g1] at h4
  rw [e, leaves_cP ok.blk g1] at h5
  rw [h4, show b = j by omega]

/-- **C82** The tree is constructed for every LCP array: the stacks of the two passes stay inside the vector of `4n` bits, whatever it contained. -/
theorem C82_construct (junk : Nat → Word) (L : List Nat) (h0 : 0 < L.length) (hv : ∀ x ∈ L, x ≤ L.length) (hn : 8 * L.length + 8 < 2 ^ 64) {S D : Nat} (pS : 0 < S) (bS : S + 2 < 2 ^ 64)
    (h8 : S % 8 = 0) (hD : 2 ≤ D) : ∃ s, CstSada.new junk L S D = some s ∧ SadaOf L s := by
  obtain ⟨s, e, _⟩ := CstSada.new_ok junk h0 hv hn pS bS h8 hD
  exact ⟨s, e, h0, junk, S, D, pS, bS, h8, hD, hn, hv, e⟩

section
variable {L : List Nat} {s : CstSada.Cst} (h : SadaOf L s) {v w i j a c : Nat}
include h

/-- **C82** The parentheses are balanced and there is one leaf "()" for every position. -/
theorem C82_balanced : Balanced (bitAt s.bp.mem) 0 s.bp.n ∧ countTrue (occ .p10 s.bp.mem) s.bp.n = L.length ∧ s.size = L.length := by
  obtain ⟨S, D, ok⟩ := h.ok
  exact ⟨ok.bal, ok.count_leaf, ok.csz⟩

/-- **C82** Every opening parenthesis represents exactly one node. -/
theorem C82_position (hv : v < s.bp.n) (hb : bitAt s.bp.mem v = true) : ∃ i j, NodeAt L s v i j ∧ ∀ a c, NodeAt L s v a c → a = i ∧ c = j := by
  obtain ⟨S, D, ok⟩ := h.ok
  obtain ⟨i, j, g1, rfl⟩ := ok.open_node hv hb
  refine ⟨i, j, nodeAt_of ok g1, fun a c g2 => ?_⟩
  have := oP_inj (V := vals L) g1 g2.1 (nodeAt_eq ok g2)
  exact ⟨this.1.symm, this.2.symm⟩

/-- **C82** Every LCP interval is represented by exactly one opening parenthesis. -/
theorem C82_node (hn : IsNode L i j) : ∃ v, NodeAt L s v i j ∧ ∀ w, NodeAt L s w i j → w = v := by
  obtain ⟨S, D, ok⟩ := h.ok
  exact ⟨_, nodeAt_of ok hn, fun w hw => nodeAt_eq ok hw⟩

/-- **C82** The nodes are numbered in preorder. -/
theorem C82_order (hv : NodeAt L s v i j) (hw : NodeAt L s w a c) : v < w ↔ i < a ∨ i = a ∧ c < j := by
  obtain ⟨S, D, ok⟩ := h.ok
  rw [nodeAt_eq ok hv, nodeAt_eq ok hw]
  exact oP_lt_iff (V := vals L) hv.1 hw.1

/-- **C82** `nodes()` is the number of LCP intervals. -/
theorem C82_nodes : ∃ l : List (Nat × Nat), l.Nodup ∧ (∀ i j, (i, j) ∈ l ↔ IsNode L i j) ∧ s.nodes = l.length := by
  obtain ⟨S, D, ok⟩ := h.ok
  have hd : ∀ p, ∃ q : Nat × Nat, p < s.bp.n → bitAt s.bp.mem p = true → IsNode L q.1 q.2 ∧ p = oP (vals L) L.length q.1 q.2 := by
    intro p
    by_cases g : p < s.bp.n ∧ bitAt s.bp.mem p = true
    · obtain ⟨i, j, g1, g2⟩ := ok.open_node g.1 g.2
      exact ⟨(i, j), fun _ _ => ⟨g1, g2⟩⟩
    · exact ⟨(0, 0), fun g1 g2 => absurd ⟨g1, g2⟩ g⟩
  obtain ⟨d, hd⟩ := Classical.axiomOfChoice hd
  have mem : ∀ p, p ∈ (List.range s.bp.n).filter (bitAt s.bp.mem) ↔ p < s.bp.n ∧ bitAt s.bp.mem p = true := fun p => by rw [List.mem_filter, List.mem_range]
  refine ⟨((List.range s.bp.n).filter (bitAt s.bp.mem)).map d, ?_, fun i j => ?_, ?_⟩
  · refine List.Nodup.map_on (fun x hx y hy e => ?_) (List.nodup_range.filter _)
    rw [mem] at hx hy
    rw [(hd x hx.1 hx.2).2, (hd y hy.1 hy.2).2, e]
  · rw [List.mem_map]
    constructor
    · rintro ⟨p, hp, e⟩
      rw [mem] at hp
      have := (hd p hp.1 hp.2).1
      rw [e] at this; exact this
    · intro hn
      refine ⟨oP (vals L) L.length i j, (mem _).2 ⟨ok.olt hn, ok.oopen hn⟩, ?_⟩
      obtain ⟨g1, g2⟩ := hd _ (ok.olt hn) (ok.oopen hn)
      have := oP_inj (V := vals L) hn g1 g2
      exact Prod.ext this.1.symm this.2.symm
  · rw [List.length_map, ok.nodes_eq]
    have : ∀ n, countTrue (bitAt s.bp.mem) n = ((List.range n).filter (bitAt s.bp.mem)).length := by
      intro n
      induction n with
      | zero => rfl
      | succ n ih =>
        rw [List.range_succ, List.filter_append, List.length_append, ← ih]
        show _ + (bitAt s.bp.mem n).toNat = _
        cases e : bitAt s.bp.mem n <;> simp [e]
    exact this _

/-- **C83** `root` is the node of the whole array. -/
theorem C83_root : NodeAt L s Cst.root 0 (L.length - 1) := by
  obtain ⟨S, D, ok⟩ := h.ok
  have := nodeAt_of ok (CstSct3.isNode_root h.pos)
  rw [ok.root] at this
  exact this

/-- **C83** `is_leaf`. -/
theorem C83_is_leaf (hv : NodeAt L s v i j) : s.isLeaf v = some (decide (i = j)) := by
  obtain ⟨S, D, ok⟩ := h.ok
  rw [nodeAt_eq ok hv]
  exact ok.isLeaf hv.1

/-- **C83** `lb` and `rb` are the bounds of the interval. -/
theorem C83_bounds (hv : NodeAt L s v i j) : s.lb v = some i ∧ s.rb v = some j := by
  obtain ⟨S, D, ok⟩ := h.ok
  rw [nodeAt_eq ok hv]
  exact ⟨ok.lb hv.1, ok.rb hv.1⟩

/-- **C83** `select_leaf(i)` is the leaf of position `i-1`. -/
theorem C83_select_leaf {k : Nat} (h1 : 1 ≤ k) (h2 : k ≤ L.length) : ∃ v, s.selectLeaf k = some v ∧ NodeAt L s v (k - 1) (k - 1) := by
  obtain ⟨S, D, ok⟩ := h.ok
  have := ok.selectLeaf (i := k - 1) (by omega)
  rw [show k - 1 + 1 = k by omega] at this
  exact ⟨_, this, nodeAt_of ok (leaf_node (by omega))⟩

/-- **C83** The leftmost and the rightmost leaf of a node. -/
theorem C83_outer_leaves (hv : NodeAt L s v i j) : (∃ l, s.leftmostLeaf v = some l ∧ NodeAt L s l i i) ∧ ∃ r, s.rightmostLeaf v = some r ∧ NodeAt L s r j j := by
  obtain ⟨S, D, ok⟩ := h.ok
  rw [nodeAt_eq ok hv]
  exact ⟨⟨_, ok.leftmost hv.1, nodeAt_of ok (leaf_node (Nd_lt hv.1))⟩, _, ok.rightmost hv.1, nodeAt_of ok (leaf_node hv.1.2.1)⟩

/-- **C83** `size(v)` is the number of leaves. -/
theorem C83_leaves (hv : NodeAt L s v i j) : s.sizeOf' v = some (j + 1 - i) := by
  obtain ⟨S, D, ok⟩ := h.ok
  rw [nodeAt_eq ok hv]
  exact ok.sizeOf' hv.1

/-- **C83** `parent` yields the smallest node properly around the node, for the root the root. -/
theorem C83_parent (hv : NodeAt L s v i j) : (i = 0 → j + 1 = L.length → s.parent v = some v) ∧
    (¬ (i = 0 ∧ j + 1 = L.length) → ∃ w a c, s.parent v = some w ∧ NodeAt L s w a c ∧ IsParent L i j a c) := by
  obtain ⟨S, D, ok⟩ := h.ok
  rw [nodeAt_eq ok hv]
  refine ⟨fun h1 h2 => ?_, fun h1 => ?_⟩
  · rw [(ok.root_iff hv.1).2 ⟨h1, h2⟩]; exact ok.parent_root
  · obtain ⟨a, c, g1, -⟩ := ok.has_parent hv.1 h1
    exact ⟨_, a, c, ok.parent hv.1 g1, nodeAt_of ok g1.1, g1⟩

/-- **C83** `degree` and `select_child`: a leaf has no children; the children of an inner node are at least two, they cut its interval into consecutive
parts, and there are no others. -/
theorem C83_children (hv : NodeAt L s v i j) : (i = j → s.degree v = some 0 ∧ ∀ e, s.selectChild v e = some Cst.root) ∧
    (i < j → ∃ (d : Nat) (κ : Nat → Nat), s.degree v = some d ∧ 2 ≤ d ∧ κ 0 = i ∧ κ d = j + 1 ∧ (∀ e, e < d → κ e < κ (e + 1)) ∧
      (∀ e, e < d → ∃ w, s.selectChild v (e + 1) = some w ∧ NodeAt L s w (κ e) (κ (e + 1) - 1) ∧ IsParent L (κ e) (κ (e + 1) - 1) i j) ∧
      (∀ e, d ≤ e → s.selectChild v (e + 1) = some Cst.root) ∧ ∀ a c, IsNode L a c → IsParent L a c i j → ∃ e, e < d ∧ a = κ e ∧ c + 1 = κ (e + 1)) := by
  obtain ⟨S, D, ok⟩ := h.ok
  rw [nodeAt_eq ok hv]
  refine ⟨fun e => ?_, fun hij => ?_⟩
  · subst e
    exact ⟨ok.degree_leaf (Nd_lt hv.1), fun e => ok.selectChild_leaf (Nd_lt hv.1) e⟩
  · obtain ⟨d, κ, g1, g2, g3, g4, g5, g6, g7, g8⟩ := ok.children hv.1 hij
    exact ⟨d, κ, g1, g2, g3, g4, g5, fun e he => ⟨_, (g6 e he).2.1, nodeAt_of ok (g6 e he).1, (g6 e he).2.2⟩, g7, g8⟩

/-- **C83** `sibling` yields the next child of the parent, or the root if the node is the last child or the root. -/
theorem C83_sibling (hv : NodeAt L s v i j) : (∀ i' j', IsParent L i j i' j' → j < j' → ∃ w c, s.sibling v = some w ∧ NodeAt L s w (j + 1) c ∧ IsParent L (j + 1) c i' j') ∧
    (∀ i', IsParent L i j i' j → s.sibling v = some Cst.root) ∧ (i = 0 → j + 1 = L.length → s.sibling v = some Cst.root) := by
  obtain ⟨S, D, ok⟩ := h.ok
  rw [nodeAt_eq ok hv]
  refine ⟨fun i' j' hp hlt => ?_, fun i' hp => (ok.sibling hv.1 hp).2 rfl, fun h1 h2 => ?_⟩
  · obtain ⟨c, g1, g2, g3⟩ := (ok.sibling hv.1 hp).1 hlt
    exact ⟨_, c, g2, nodeAt_of ok g1, g3⟩
  · rw [(ok.root_iff hv.1).2 ⟨h1, h2⟩, Cst.sibling, if_pos (show 0 = Cst.root from rfl)]

/-- **C83** `lca` yields the smallest node around both nodes, if none of them contains the other, if they are equal, if one of them is the root, or
if one is the parent of the other. Missing: the remaining pairs of an ancestor and a descendant, where the function is wrong
(`C83_lca_nested`, `C83_lca_refuted`). -/
theorem C83_lca_partial (hv : NodeAt L s v i j) (hw : NodeAt L s w a c)
    (hc : (j < a ∨ c < i) ∨ v = w ∨ v = Cst.root ∨ w = Cst.root ∨ IsParent L i j a c ∨ IsParent L a c i j) : ∃ x k l, s.lca v w = some x ∧ NodeAt L s x k l ∧ IsLca L i j a c k l := by
  obtain ⟨S, D, ok⟩ := h.ok
  have hij := hv.1.1
  have hac := hw.1.1
  have hjn := hv.1.2.1
  have hcn := hw.1.2.1
  have e1 := nodeAt_eq ok hv
  have e2 := nodeAt_eq ok hw
  have par : ∀ {i j a c : Nat}, IsNode L i j → IsParent L i j a c → IsLca L i j a c a c := fun h1 h2 =>
    ⟨h2.1, h2.2.1, h2.2.2.1, Nat.le_refl _, Nat.le_refl _, fun _ _ _ _ _ h3 h4 => ⟨h3, h4⟩⟩
  have rt : ∀ {i j : Nat}, IsNode L i j → oP (vals L) L.length i j = 0 → ∀ {a c : Nat}, IsNode L a c → IsLca L i j a c i j := fun g1 g2 a c g3 => by
    obtain ⟨q1, q2⟩ := (ok.root_iff g1).1 g2
    have := g3.2.1
    exact ⟨g1, Nat.le_refl _, Nat.le_refl _, by omega, by omega, fun _ _ _ h3 h4 _ _ => ⟨h3, h4⟩⟩
  rcases hc with (hc | hc) | hc | hc | hc | hc | hc
  · obtain ⟨x, y, g1, -, g2⟩ := ok.lca_disjoint hv.1 hw.1 hc
    rw [e1, e2]
    exact ⟨_, x, y, g1, nodeAt_of ok g2.1, g2⟩
  · obtain ⟨x, y, -, g1, g2⟩ := ok.lca_disjoint hw.1 hv.1 hc
    rw [e1, e2]
    exact ⟨_, x, y, g1, nodeAt_of ok g2.1, lca_comm g2⟩
  · subst hc
    have := oP_inj (V := vals L) hv.1 hw.1 (e1.symm.trans e2)
    obtain ⟨rfl, rfl⟩ := this
    exact ⟨v, i, j, ok.lca_self v, hv, hv.1, Nat.le_refl _, Nat.le_refl _, Nat.le_refl _, Nat.le_refl _, fun _ _ _ h3 h4 _ _ => ⟨h3, h4⟩⟩
  · have hc' : v = 0 := hc
    refine ⟨0, i, j, by rw [hc', (ok.lca_root w).1], by rw [← hc']; exact hv, rt hv.1 (by rw [← e1, hc']) hw.1⟩
  · have hc' : w = 0 := hc
    refine ⟨0, a, c, by rw [hc', (ok.lca_root v).2], by rw [← hc']; exact hw, lca_comm (rt hw.1 (by rw [← e2, hc']) hv.1)⟩
  · by_cases hr : w = 0
    · exact ⟨0, a, c, by rw [hr, (ok.lca_root v).2], by rw [← hr]; exact hw, par hv.1 hc⟩
    · have := ok.lca_nested hv.1 hw.1 hc.2.1 hc.2.2.1 hc.2.2.2.1 (fun g => hr (by rw [e2]; exact (ok.root_iff hw.1).2 g)) hc
      rw [e1, e2]
      exact ⟨_, a, c, this.2, nodeAt_of ok hw.1, par hv.1 hc⟩
  · by_cases hr : v = 0
    · exact ⟨0, i, j, by rw [hr, (ok.lca_root w).1], by rw [← hr]; exact hv, lca_comm (par hw.1 hc)⟩
    · have := ok.lca_nested hw.1 hv.1 hc.2.1 hc.2.2.1 hc.2.2.2.1 (fun g => hr (by rw [e1]; exact (ok.root_iff hv.1).2 g)) hc
      rw [e1, e2]
      exact ⟨_, i, j, this.1, nodeAt_of ok hv.1, lca_comm (par hw.1 hc)⟩

/-- **C83** What `lca` computes for a node different from the root and a proper descendant: the parent of the descendant. -/
theorem C83_lca_nested (hv : NodeAt L s v i j) (hw : NodeAt L s w a c) (h1 : i ≤ a) (h2 : c ≤ j) (h3 : v ≠ w) (h4 : v ≠ Cst.root) :
    s.lca v w = s.parent w ∧ s.lca w v = s.parent w := by
  obtain ⟨S, D, ok⟩ := h.ok
  have e1 := nodeAt_eq ok hv
  have e2 := nodeAt_eq ok hw
  have hr : ¬ (i = 0 ∧ j + 1 = L.length) := fun g => h4 (by rw [e1]; exact (ok.root_iff hv.1).2 g)
  have hne : ¬ (i = a ∧ j = c) := by
    rintro ⟨rfl, rfl⟩
    exact h3 (by rw [e1, e2])
  have hjn := hv.1.2.1
  obtain ⟨x, y, g1, -⟩ := ok.has_parent hw.1 (by omega)
  have := ok.lca_nested hw.1 hv.1 h1 h2 hne hr g1
  rw [e1, e2, this.1, this.2, ok.parent hw.1 g1]
  exact ⟨rfl, rfl⟩

/-- **C83** `node(lb, rb)` for every LCP interval. -/
theorem C83_node (hn : IsNode L i j) : ∃ v, s.node i j = some v ∧ NodeAt L s v i j := by
  obtain ⟨S, D, ok⟩ := h.ok
  exact ⟨_, ok.node hn, nodeAt_of ok hn⟩

/-- **C83** `depth` of an inner node is the smallest LCP value in its interval, that of a leaf the length of the suffix (`sa` is `m_csa[]`); the root has
depth 0, also if it is a leaf. -/
theorem C83_depth (hz : 1 < L.length → ∃ k, 0 < k ∧ k < L.length ∧ L.getD k 0 = 0) (hv : NodeAt L s v i j) {sa : Nat → Option Nat} {x : Nat} (hx : x ≤ L.length) (hs : sa i = some x) :
    (i = j → 1 < L.length → s.depth L sa v = some (L.length - x)) ∧
    (i < j → ∃ d, s.depth L sa v = some d ∧ (∃ k, i < k ∧ k ≤ j ∧ L.getD k 0 = d) ∧ ∀ k, i < k → k ≤ j → d ≤ L.getD k 0) ∧ s.depth L sa Cst.root = some 0 := by
  obtain ⟨S, D, ok⟩ := h.ok
  rw [nodeAt_eq ok hv]
  refine ⟨fun e hn => ?_, fun hij => ok.depth_inner hz hv.1 hij sa, ok.depth_root _ _⟩
  subst e
  exact ok.depth_leaf (Nd_lt hv.1) hn hx hs

/-- **C83** `node_depth` is the number of proper ancestors. -/
theorem C83_node_depth (hv : NodeAt L s v i j) : ∃ d, s.nodeDepth v = some d ∧ NodeDepth L i j d := by
  obtain ⟨S, D, ok⟩ := h.ok
  rw [nodeAt_eq ok hv]
  exact ok.nodeDepth hv.1

/-- **C84** The id of a node is smaller than the number of nodes, and `inv_id` returns the node. -/
theorem C84_id (hv : NodeAt L s v i j) : ∃ x, s.id v = some x ∧ x < s.nodes ∧ s.invId x = some v := by
  obtain ⟨S, D, ok⟩ := h.ok
  rw [nodeAt_eq ok hv]
  obtain ⟨x, h1, h2⟩ := ok.id_lt hv.1
  obtain ⟨a, c, g1, g2, g3⟩ := ok.invId h2
  exact ⟨x, h1, h2, by rw [g2, ok.id_inj g1 hv.1 (by rw [g3, h1])]⟩

/-- **C84** `inv_id` of every number smaller than the number of nodes is a node, and its id is the number. -/
theorem C84_inv_id {x : Nat} (hx : x < s.nodes) : ∃ v i j, s.invId x = some v ∧ NodeAt L s v i j ∧ s.id v = some x := by
  obtain ⟨S, D, ok⟩ := h.ok
  obtain ⟨a, c, g1, g2, g3⟩ := ok.invId hx
  exact ⟨_, a, c, g2, nodeAt_of ok g1, g3⟩

/-- **C84** Leaves have the ids of their positions, inner nodes larger ones, in preorder. -/
theorem C84_id_order (hv : NodeAt L s v i j) : (i = j → s.id v = some i) ∧
    (i < j → ∃ x, s.id v = some x ∧ L.length ≤ x ∧ ∀ w a c, NodeAt L s w a c → a < c → v < w → ∃ y, s.id w = some y ∧ x < y) := by
  obtain ⟨S, D, ok⟩ := h.ok
  rw [nodeAt_eq ok hv]
  refine ⟨fun e => ?_, fun hij => ⟨_, ok.id_inner hv.1 hij, by omega, fun w a c hw hac hlt => ?_⟩⟩
  · subst e; exact ok.id_leaf (Nd_lt hv.1)
  · rw [nodeAt_eq ok hw] at hlt ⊢
    refine ⟨_, ok.id_inner hw.1 hac, ?_⟩
    have := countTrue_lt_of_true hlt (ok.inn_node hv.1 hij)
    omega

/-- **C84** `tlcp_idx(k)` belongs to the inner node whose interval has its minimum at `k`: two positions get the same index exactly if they have the
same node, the indices are smaller than the number of inner nodes, and they number the inner nodes in postorder. -/
theorem C84_tlcp_idx (hv : NodeAt L s v i j) {k : Nat} (hik : i < k) (hkj : k ≤ j) (hmin : ∀ x, i < x → x ≤ j → L.getD k 0 ≤ L.getD x 0) :
    ∃ y, s.tlcpIdx k = some y ∧ L.length + y < s.nodes ∧ ∀ w a c l, NodeAt L s w a c → a < l → l ≤ c → (∀ x, a < x → x ≤ c → L.getD l 0 ≤ L.getD x 0) →
      ∃ z, s.tlcpIdx l = some z ∧ (y = z ↔ v = w) ∧ (y < z ↔ j < c ∨ j = c ∧ a < i) := by
  obtain ⟨S, D, ok⟩ := h.ok
  refine ⟨_, ok.tlcp_of hv.1 rfl (ok.tlcpNode hv.1 hik hkj hmin), ok.tlcp_lt hv.1 (by omega), fun w a c l hw h1 h2 h3 => ?_⟩
  refine ⟨_, ok.tlcp_of hw.1 rfl (ok.tlcpNode hw.1 h1 h2 h3), ?_, ok.tlcp_order hv.1 (by omega) hw.1⟩
  have o1 := ok.tlcp_order hv.1 (by omega) hw.1
  have o2 := ok.tlcp_order hw.1 (by omega) hv.1
  constructor
  · intro e
    have e1 : i = a ∧ j = c := by omega
    rw [nodeAt_eq ok hv, nodeAt_eq ok hw, e1.1, e1.2]
  · intro e
    rw [nodeAt_eq ok hv, nodeAt_eq ok hw] at e
    obtain ⟨rfl, rfl⟩ := oP_inj (V := vals L) hv.1 hw.1 e
    rfl

/-- **C84** Every position behind the first one has such a node, and position 0 gets the index of the root. -/
theorem C84_tlcp_node : (∀ k, 0 < k → k < L.length → ∃ v i j, NodeAt L s v i j ∧ i < k ∧ k ≤ j ∧ ∀ x, i < x → x ≤ j → L.getD k 0 ≤ L.getD x 0) ∧
    (1 < L.length → ∃ y, s.tlcpIdx 0 = some y ∧ L.length + y + 1 = s.nodes) := by
  obtain ⟨S, D, ok⟩ := h.ok
  refine ⟨fun k h0 hk => ?_, fun hn => ?_⟩
  · obtain ⟨x, x1, x2, x3⟩ : ∃ x, x < k ∧ (x = 0 ∨ L.getD x 0 < L.getD k 0) ∧ ∀ y, x < y → y < k → L.getD k 0 ≤ L.getD y 0 := by
      have : ∀ m, 0 < m → m ≤ k → (∀ y, m ≤ y → y < k → L.getD k 0 ≤ L.getD y 0) → ∃ x, x < k ∧ (x = 0 ∨ L.getD x 0 < L.getD k 0) ∧ ∀ y, x < y → y < k → L.getD k 0 ≤ L.getD y 0 := by
        intro m
        induction m with
        | zero => intro h; omega
        | succ m ih =>
          intro _ h1 h2
          by_cases c : m = 0 ∨ L.getD m 0 < L.getD k 0
          · exact ⟨m, by omega, c, fun y y1 y2 => h2 y (by omega) y2⟩
          · refine ih (by omega) (by omega) (fun y y1 y2 => ?_)
            rcases Nat.eq_or_lt_of_le y1 with e | e
            · subst e; omega
            · exact h2 y e y2
      exact this k h0 (Nat.le_refl _) (fun y y1 y2 => by omega)
    obtain ⟨u, u1, u2, u3, u4⟩ : ∃ u, k < u ∧ u ≤ L.length ∧ (∀ y, k < y → y < u → L.getD k 0 ≤ L.getD y 0) ∧ (u < L.length → L.getD u 0 < L.getD k 0) := by
      have : ∀ d m, L.length - m = d → k < m → m ≤ L.length → (∀ y, k < y → y < m → L.getD k 0 ≤ L.getD y 0) →
          ∃ u, k < u ∧ u ≤ L.length ∧ (∀ y, k < y → y < u → L.getD k 0 ≤ L.getD y 0) ∧ (u < L.length → L.getD u 0 < L.getD k 0) := by
        intro d
        induction d with
        | zero => intro m h1 h2 h3 h4; exact ⟨m, h2, h3, h4, fun h => by omega⟩
        | succ d ih =>
          intro m h1 h2 h3 h4
          rcases Nat.lt_or_ge (L.getD m 0) (L.getD k 0) with c | c
          · exact ⟨m, h2, h3, h4, fun _ => c⟩
          · refine ih (m + 1) (by omega) (by omega) (by omega) (fun y y1 y2 => ?_)
            rcases Nat.lt_or_ge y m with e | e
            · exact h4 y y1 e
            · rw [show y = m by omega]; exact c
      exact this _ (k + 1) rfl (by omega) (by omega) (fun y y1 y2 => by omega)
    obtain ⟨q1, q2⟩ := CstSct3.interval_node hk x1 x2 x3 u1 u2 u3 u4
    exact ⟨_, x, u - 1, nodeAt_of ok q1, x1, by omega, q2⟩
  · have hr : IsNode L 0 (L.length - 1) := CstSct3.isNode_root h.pos
    refine ⟨_, ok.tlcp_of hr ok.root.symm ok.tlcpNode_zero, ?_⟩
    have h1 := ok.cin_total
    have h2 := ok.xlt hr
    have h3 : cP (vals L) L.length 0 (L.length - 1) + 1 = s.bp.n := by
      rcases Nat.lt_or_ge (cP (vals L) L.length 0 (L.length - 1) + 1) s.bp.n with g | g
      · exfalso
        obtain ⟨a, c, g1, g2⟩ := ok.close_node (p := s.bp.n - 1) (by omega) ok.last
        have g3 := (cP_lt_iff (V := vals L) hr g1).1 (by omega)
        have := g1.2.1
        omega
      · omega
    have h4 : countTrue (CstSada.cin (bitAt s.bp.mem)) (cP (vals L) L.length 0 (L.length - 1) + 1) = countTrue (CstSada.cin (bitAt s.bp.mem)) (cP (vals L) L.length 0 (L.length - 1)) + 1 := by
      show _ + (CstSada.cin (bitAt s.bp.mem) _).toNat = _
      rw [ok.cin_node hr (by omega)]; rfl
    rw [h3] at h4
    omega

end

/-- The tree of the examples. -/
def exSada : Option CstSada.Cst := CstSada.new (fun _ => 0xdeadbeef#64) exL 8 2

/-- **C83** The claim for `lca` fails for an ancestor that is not the parent: for the nodes [1..6] and [5..5] of the tree for `exL` the function returns
the node [3..5] of the parent of [5..5], which does not contain [1..6]. -/
theorem C83_lca_refuted : ∃ (L : List Nat) (s : CstSada.Cst) (v w x a c : Nat), SadaOf L s ∧ NodeAt L s v 1 6 ∧ NodeAt L s w 5 5 ∧ s.lca v w = some x ∧ NodeAt L s x a c ∧
    IsLca L 1 6 5 5 1 6 ∧ ¬ IsLca L 1 6 5 5 a c := by
  obtain ⟨s, e, hs⟩ := C82_construct (fun _ => 0xdeadbeef#64) exL (by decide) (by decide) (by decide) (S := 8) (D := 2) (by decide) (by decide) (by decide) (by decide)
  have n1 : IsNode exL 1 6 := ⟨by decide, by decide, fun k h1 h2 => by
    obtain rfl | rfl | rfl | rfl | rfl : k = 2 ∨ k = 3 ∨ k = 4 ∨ k = 5 ∨ k = 6 := by omega
    all_goals decide⟩
  have n2 : IsNode exL 5 5 := ⟨by decide, by decide, fun k h1 h2 => by omega⟩
  have n3 : IsNode exL 3 5 := ⟨by decide, by decide, fun k h1 h2 => by
    obtain rfl | rfl : k = 4 ∨ k = 5 := by omega
    all_goals decide⟩
  obtain ⟨v, hv, -⟩ := C82_node hs n1
  obtain ⟨w, hw, -⟩ := C82_node hs n2
  have hl := (C83_lca_nested hs hv hw (by omega) (by omega) (fun e => by
    have h1 := (C83_bounds hs hv).1
    have h2 := (C83_bounds hs hw).1
    rw [e, h2] at h1
    exact absurd h1 (by decide)) (fun e => by
    have h1 := (C83_bounds hs hv).1
    have h2 := (C83_bounds hs (C83_root hs)).1
    rw [e, h2] at h1
    exact absurd h1 (by decide))).1
  obtain ⟨x, a, c, h1, h2, h3⟩ := (C83_parent hs hw).2 (by omega)
  refine ⟨exL, s, v, w, x, a, c, hs, hv, hw, by rw [hl, h1], h2, ⟨n1, Nat.le_refl _, Nat.le_refl _, by omega, by omega, fun _ _ _ g1 g2 _ _ => ⟨g1, g2⟩⟩, fun g => ?_⟩
  have := h3.2.2.2.2 3 5 n3 (by omega) (by omega) (by omega)
  have := g.2.1
  omega

example : ∃ s, exSada = some s ∧ SadaOf exL s := by
  obtain ⟨s, e, hs⟩ := C82_construct (fun _ => 0xdeadbeef#64) exL (by decide) (by decide) (by decide) (S := 8) (D := 2) (by decide) (by decide) (by decide) (by decide)
  exact ⟨s, e, hs⟩

-- the parentheses, nodes() and the operations on some nodes
example : exSada.map (fun s => ((List.range s.bp.n).map (bitAt s.bp.mem) |>.map Bool.toNat, s.nodes)) = some ([1, 1, 0, 1, 1, 1, 0, 1, 0, 0, 1, 1, 0, 1, 0, 1, 0, 0, 1, 0, 0, 1, 1, 1, 0, 1, 0, 1, 0, 0, 1, 0, 0, 1, 0, 0], 18) := by decide +kernel
example : exSada.bind (fun s => do let v ← s.node 3 5; let p ← s.parent v; pure (v, p, ← s.lb p, ← s.rb p)) = some (10, 3, 1, 6) := by decide +kernel
example : exSada.bind (fun s => do let v ← s.node 1 6; pure (← s.degree v, ← s.selectChild v 2, ← s.nodeDepth v, ← s.depth exL (fun _ => none) v)) = some (3, 10, 1, 1) := by decide +kernel
example : exSada.bind (fun s => do let v ← s.node 3 5; let x ← s.id v; pure (v, x, ← s.invId x)) = some (10, 15, 10) := by decide +kernel
example : exSada.bind (fun s => (List.range exL.length).mapM s.tlcpIdx) = some [5, 5, 0, 2, 1, 1, 2, 5, 3, 3, 4, 5] := by decide +kernel

end Sdsl.Props
