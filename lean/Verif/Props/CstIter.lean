/-
  C73, C74: the iterators over the nodes of a suffix tree (include/sdsl/cst_iterators.hpp), on cst_sct3.
-/
import Verif.CstIterOrd

namespace Sdsl.Props

open Spec CstSct3

section
variable {L : List Nat} {s : Cst} (h : CstOf L s)
include h

/-- **C73** (partial: at least two leaves, depth below 2^32) The depth-first traversal `for (auto it = cst.begin(); it != cst.end(); ++it)`, where the body calls
`skip_subtree()` at the first visit of the nodes in `skip`: it ends, and it visits exactly the nodes without a skipped proper ancestor, in depth-first order,
leaves and skipped nodes once, and the other nodes a first and a second time. `Before` is irreflexive, so nothing is visited more often.
The initial values `j1`, `j2` of the uninitialised member `m_stack_size` do not matter. -/
theorem C73_dfs_partial (skip : Nat → Nat → Bool) (h2 : 2 ≤ L.length) (hd : ∀ i j d, IsNode L i j → NodeDepth L i j d → d < 2 ^ 32) (j1 j2 : Nat) :
    ∃ first last l, Dfs.begin s j1 = some first ∧ Dfs.end s j2 = some last ∧ (∀ f, l.length < f → Dfs.loop s (fun v => skip v.i v.j) last f first = some l) ∧
      (∀ e : Visit, e ∈ l.map ev ↔ IsVisit L skip 0 (L.length - 1) e) ∧ (l.map ev).Pairwise Before := by
  obtain ⟨a, b, l, h1, h2, h3, h4⟩ := Dfs.loop_all h skip h2 hd j1 j2
  exact ⟨a, b, l, h1, h2, h4, h3.1, h3.2⟩

omit h in
theorem depth_width {i j d : Nat} (hn : NodeDepth L i j d) : j < L.length - 1 + 1 ∧ d + j ≤ L.length - 1 + i := by
  induction hn with
  | root => omega
  | @step i j i' j' d hp _ ih =>
    have h1 := hp.2.1
    have h2 := hp.2.2.1
    have h3 := hp.2.2.2.1
    omega

/-- **C73** (partial: at least two leaves) No condition on the depth is needed for texts of at most 2^32 characters. -/
theorem C73_dfs_short_partial (skip : Nat → Nat → Bool) (h2 : 2 ≤ L.length) (hn : L.length ≤ 2 ^ 32) (j1 j2 : Nat) :
    ∃ first last l, Dfs.begin s j1 = some first ∧ Dfs.end s j2 = some last ∧ (∀ f, l.length < f → Dfs.loop s (fun v => skip v.i v.j) last f first = some l) ∧
      (∀ e : Visit, e ∈ l.map ev ↔ IsVisit L skip 0 (L.length - 1) e) ∧ (l.map ev).Pairwise Before := by
  refine C73_dfs_partial h skip h2 (fun i j d hi hd => ?_) j1 j2
  have := depth_width hd
  have := hi.1
  omega

/-- **C73** The traversal of the subtree of a node other than the root, from `begin(v)` to `end(v)`, for every tree. -/
theorem C73_dfs_subtree (skip : Nat → Nat → Bool) {v : Node} (hv : Valid L (Par s) v) (hn : ¬ (v.i = 0 ∧ v.j + 1 = L.length)) (j1 j2 : Nat) :
    ∃ first last l, Dfs.beginAt s j1 v = some first ∧ Dfs.endAt s j2 v = some last ∧ (∀ f, l.length < f → Dfs.loop s (fun v => skip v.i v.j) last f first = some l) ∧
      (∀ e : Visit, e ∈ l.map ev ↔ IsVisit L skip v.i v.j e) ∧ (l.map ev).Pairwise Before := by
  obtain ⟨a, b, l, h1, h2, h3, h4⟩ := Dfs.loop_sub h skip hv hn j1 j2
  exact ⟨a, b, l, h1, h2, h4, h3.1, h3.2⟩

omit h in
/-- **C73** `begin(root())` and `end(root())` are `begin()` and `end()`. -/
theorem C73_dfs_at_root (j : Nat) {r : Node} (hr : s.root = some r) : Dfs.beginAt s j r = Dfs.begin s j ∧ Dfs.endAt s j r = Dfs.end s j := by
  have hrr : r.same r = true := by simp [Node.same]
  refine ⟨?_, ?_⟩
  · rw [Dfs.beginAt, Dfs.begin, hr, sbind]
    simp [hrr]
  · rw [Dfs.endAt, hr, sbind, if_pos hrr]

/-- **C73** (finding) In the tree with one node (the suffix tree of the empty text) the root is a leaf and it is visited twice, against the documentation
"each leaf node is visited only once" (cst_iterators.hpp:30-31). -/
theorem C73_single_node_twice (hn : L.length = 1) (j1 j2 : Nat) : ∃ first last r, Dfs.begin s j1 = some first ∧ Dfs.end s j2 = some last ∧ s.root = some r ∧ Cst.isLeaf r = true ∧
    Dfs.loop s (fun _ => false) last 3 first = some [(r, 1), (r, 2)] := by
  obtain ⟨r, r1, r2, r3, r4⟩ := root_of h
  obtain ⟨S, D, ok, _⟩ := h.ok
  have hrr : r.same r = true := by simp [Node.same]
  have hbp : s.bp.n ≠ 0 := by
    have := ok.size
    rw [Cst.size] at this
    omega
  have hl : Cst.isLeaf r = true := by
    have := r3.1
    have := r3.2
    rw [Cst.isLeaf, beq_iff_eq]
    omega
  have hs := (C62_sibling h r2).2.2 r3.1 r3.2
  have hp := (C62_parent h r2).1 r3.1 r3.2
  obtain ⟨c, hc⟩ : ∃ c : List Node, c = List.replicate cacheSize ⟨0, 0, 0, 0, 0⟩ := ⟨_, rfl⟩
  refine ⟨⟨r, false, true, some c, 0⟩, ⟨r, true, false, none, j2⟩, r, ?_, ?_, r1, hl, ?_⟩
  · rw [Dfs.begin, if_neg hbp, r1, sbind, Dfs.new, r1, sbind]
    rw [← hc]
    simp [hrr]
  · rw [Dfs.end, r1, sbind, Dfs.new, r1, sbind]
    simp
  · simp [Dfs.loop, Dfs.same, Dfs.next, Dfs.up, Dfs.parent, Dfs.visit, hrr, r1, hs, hp, hl, cacheSize]

/-- **C74** The bottom-up traversal `for (auto it = cst.begin_bottom_up(); it != cst.end_bottom_up(); ++it)` ends and visits every node exactly once,
every node after all nodes to the left of it and after all its descendants (`BeforeUp` is irreflexive). -/
theorem C74_bottom_up : ∃ first last l, BottomUp.begin s = some first ∧ BottomUp.end s = some last ∧ (∀ f, l.length < f → BottomUp.loop s last f first = some l) ∧
    (∀ i j, (i, j) ∈ l.map iv ↔ IsNode L i j) ∧ (l.map iv).Pairwise BeforeUp := by
  obtain ⟨a, b, l, h1, h2, h3, h4⟩ := BottomUp.loop_all h
  refine ⟨a, b, l, h1, h2, h4, fun i j => ?_, h3.2⟩
  rw [h3.1]
  exact ⟨fun g => g.1, fun g => ⟨g, Nat.zero_le _, by have := g.2.1; show j ≤ _; omega⟩⟩

/-- **C74** The breadth-first traversal from `cst_bfs_iterator(&cst, root())` to `cst_bfs_iterator(&cst, root(), true, true)` ends and visits every node exactly once,
ordered by depth and from left to right within the same depth (`BeforeLevel` is irreflexive on nodes). -/
theorem C74_breadth_first : ∃ r l, s.root = some r ∧ (∀ f, l.length < f → Bfs.loop s (Bfs.new r true true) f (Bfs.new r true false) = some l) ∧
    (∀ i j, (i, j) ∈ l.map iv ↔ IsNode L i j) ∧ (l.map iv).Pairwise (BeforeLevel L) := by
  obtain ⟨r, l, h1, h2, h3, _, h4⟩ := Bfs.loop_all h
  exact ⟨r, l, h1, h4, fun i j => h2 (i, j), h3⟩

end

/-- **C73, C74** The orders are irreflexive. -/
theorem C73_before_irrefl (e : Visit) (h : e.1.1 ≤ e.1.2) : ¬ Before e e := by
  rintro (g | ⟨_, _, _, g⟩ | ⟨_, _, _, g⟩ | ⟨_, g, g'⟩)
  · omega
  · exact g rfl
  · exact g rfl
  · omega

theorem C74_before_irrefl (L : List Nat) (x : Nat × Nat) (h : x.1 ≤ x.2) : ¬ BeforeUp x x ∧ ¬ BeforeLevel L x x := by
  refine ⟨?_, Bfs.level_irrefl h⟩
  rintro (g | ⟨_, _, g⟩)
  · omega
  · exact g rfl

/-! Examples: the suffix tree of `exL`. -/

example : 2 ≤ exL.length ∧ exL.length ≤ 2 ^ 32 := by decide

example : (CstSct3.new exL 4 1 1 8 2).bind (fun s => do
    let a ← Dfs.begin s 77
    let b ← Dfs.end s 5
    let l ← Dfs.loop s (fun v => v.i == 1 && v.j == 6) b 40 a
    pure (l.map ev)) =
  some [((0, 11), 1), ((0, 0), 1), ((1, 6), 1), ((7, 10), 1), ((7, 9), 1), ((7, 7), 1), ((8, 8), 1), ((9, 9), 1), ((7, 9), 2), ((10, 10), 1), ((7, 10), 2), ((11, 11), 1), ((0, 11), 2)] := by
  decide +kernel

example : (CstSct3.new exL 4 1 1 8 2).bind (fun s => do
    let v ← s.node 1 6
    let a ← Dfs.beginAt s 77 v
    let b ← Dfs.endAt s 5 v
    let l ← Dfs.loop s (fun _ => false) b 40 a
    pure (l.map ev)) =
  some [((1, 6), 1), ((1, 2), 1), ((1, 1), 1), ((2, 2), 1), ((1, 2), 2), ((3, 5), 1), ((3, 3), 1), ((4, 4), 1), ((5, 5), 1), ((3, 5), 2), ((6, 6), 1), ((1, 6), 2)] := by
  decide +kernel

example : (CstSct3.new exL 4 1 1 8 2).bind (fun s => do
    let a ← BottomUp.begin s
    let b ← BottomUp.end s
    let l ← BottomUp.loop s b 40 a
    pure (l.map iv)) =
  some [(0, 0), (1, 1), (2, 2), (1, 2), (3, 3), (4, 4), (5, 5), (3, 5), (6, 6), (1, 6), (7, 7), (8, 8), (9, 9), (7, 9), (10, 10), (7, 10), (11, 11), (0, 11)] := by
  decide +kernel

example : (CstSct3.new exL 4 1 1 8 2).bind (fun s => do
    let r ← s.root
    let l ← Bfs.loop s (Bfs.new r true true) 40 (Bfs.new r true false)
    pure (l.map iv)) =
  some [(0, 11), (0, 0), (1, 6), (7, 10), (11, 11), (1, 2), (3, 5), (6, 6), (7, 9), (10, 10), (1, 1), (2, 2), (3, 3), (4, 4), (5, 5), (7, 7), (8, 8), (9, 9)] := by
  decide +kernel

example : [0].length = 1 ∧ ((CstSct3.new [0] 1 1 1 8 2).map (fun s => s.size)) = some 1 := by decide +kernel

end Sdsl.Props
