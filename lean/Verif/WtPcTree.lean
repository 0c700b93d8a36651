/-
  The code tree of `wt_pc` and its representation in memory in BFS order.
-/
import Verif.WtPc
import Verif.UtilLemmas

namespace Sdsl.Wt

open Bits

/-- A code tree: leaves carry a frequency and a symbol. -/
inductive CT where
  | leaf (f s : Nat)
  | node (l r : CT)
deriving Repr

namespace CT

def freq : CT → Nat
  | leaf f _ => f
  | node l r => l.freq + r.freq

/-- The leaves from left to right: symbol and frequency. -/
def leaves : CT → List (Nat × Nat)
  | leaf f s => [(s, f)]
  | node l r => l.leaves ++ r.leaves

/-- The symbols from left to right. -/
def syms (t : CT) : List Nat := t.leaves.map (·.1)

def size : CT → Nat
  | leaf _ _ => 1
  | node l r => 1 + l.size + r.size

/-- Number of bits of the root of the tree. -/
def bits : CT → Nat
  | leaf _ _ => 0
  | node l r => l.freq + r.freq

/-- The sum of the frequencies of the inner nodes: the length of the encoded text. -/
def cost : CT → Nat
  | leaf _ _ => 0
  | node l r => l.cost + r.cost + (l.freq + r.freq)

theorem size_pos (t : CT) : 0 < t.size := by cases t <;> simp [size] <;> omega

theorem syms_leaf (f s : Nat) : (leaf f s).syms = [s] := rfl

theorem syms_node (l r : CT) : (node l r).syms = l.syms ++ r.syms := by simp [syms, leaves]

theorem syms_ne (t : CT) : t.syms ≠ [] := by
  induction t with
  | leaf f s => simp [syms, leaves]
  | node l r ih1 ih2 => rw [syms_node]; simp [ih1]

theorem size_syms (t : CT) : t.size + 1 = 2 * t.syms.length := by
  induction t with
  | leaf f s => rfl
  | node l r ih1 ih2 => rw [syms_node, List.length_append, size]; omega

/-- Node `a` of the array `temp` is the root of the tree. -/
def Rep (temp : List PcNode) : CT → Nat → Prop
  | leaf f s, a => ∃ p, temp[a]? = some p ∧ p.freq = f ∧ p.sym = s ∧ p.child0 = PcNode.undef ∧ p.child1 = PcNode.undef
  | node l r, a => ∃ p, temp[a]? = some p ∧ p.freq = l.freq + r.freq ∧ Rep temp l p.child0 ∧ Rep temp r p.child1

theorem Rep.lt {temp : List PcNode} {t : CT} {a : Nat} (h : Rep temp t a) : a < temp.length := by
  cases t with
  | leaf f s => obtain ⟨p, h1, _⟩ := h; exact (List.getElem?_eq_some_iff.1 h1).1
  | node l r => obtain ⟨p, h1, _⟩ := h; exact (List.getElem?_eq_some_iff.1 h1).1

/-- A node in memory that has been copied but not yet visited. -/
def RepD (S : Strat) (temp : List PcNode) : CT → DNode → Prop
  | leaf f s, d => d.bvPos = f ∧ d.bvRank = s ∧ d.child0 = S.undef ∧ d.child1 = S.undef
  | node l r, d => d.bvPos = l.freq + r.freq ∧ Rep temp l d.child0 ∧ Rep temp r d.child1

end CT

open CT

/-- Start of the bits of the `j`-th node. -/
def start (ts : List CT) (j : Nat) : Nat := ((ts.take j).map CT.bits).sum

theorem start_succ {ts : List CT} {j : Nat} {t : CT} (h : ts[j]? = some t) : start ts (j + 1) = start ts j + t.bits := by
  obtain ⟨h1, h2⟩ := List.getElem?_eq_some_iff.1 h
  unfold start
  rw [List.take_add_one, h]
  simp

theorem start_append {ts us : List CT} {j : Nat} (h : j ≤ ts.length) : start (ts ++ us) j = start ts j := by
  unfold start
  rw [List.take_append_of_le_length h]

theorem start_mono (ts : List CT) {i j : Nat} (h : i ≤ j) : start ts i ≤ start ts j := by
  induction j with
  | zero => have : i = 0 := by omega
            subst this; omega
  | succ j ih =>
    rcases Nat.lt_or_ge i (j + 1) with h1 | h1
    · have := ih (by omega)
      rcases hj : ts[j]? with _ | t
      · unfold start at *
        rw [List.take_add_one, hj]; simpa using this
      · rw [start_succ hj]; omega
    · have : i = j + 1 := by omega
      subst this; omega

section store

variable {S : Strat} {temp : List PcNode}

theorem node_of_lt {x : Nat} (h : x < S.undef) : S.node x = x := by
  unfold Strat.node; exact Nat.mod_eq_of_lt (by omega)

theorem undef_node : S.node PcNode.undef = S.undef := by
  unfold Strat.node Strat.undef PcNode.undef
  cases S.byte <;> rfl

theorem repD_ofPc (hN : temp.length < S.undef) {t : CT} {a : Nat} (h : Rep temp t a) : ∃ p, temp[a]? = some p ∧ ∀ i, RepD S temp t { DNode.ofPc S p with parent := i } := by
  cases t with
  | leaf f s =>
    obtain ⟨p, h1, h2, h3, h4, h5⟩ := h
    refine ⟨p, h1, fun i => ⟨h2, h3, ?_, ?_⟩⟩
    · simp only [DNode.ofPc]; rw [h4]; exact undef_node
    · simp only [DNode.ofPc]; rw [h5]; exact undef_node
  | node l r =>
    obtain ⟨p, h1, h2, h3, h4⟩ := h
    have h5 := h3.lt
    have h6 := h4.lt
    refine ⟨p, h1, fun i => ⟨h2, ?_, ?_⟩⟩
    · simp only [DNode.ofPc]; rw [node_of_lt (by omega)]; exact h3
    · simp only [DNode.ofPc]; rw [node_of_lt (by omega)]; exact h4

/-- A node in memory that has been visited. -/
def DoneD (S : Strat) (nodes : List DNode) (ts : List CT) (j : Nat) : CT → DNode → Prop
  | leaf _ s, d => d.bvRank = s ∧ d.child0 = S.undef
  | node l r, d => j < d.child0 ∧ d.child1 = d.child0 + 1 ∧ d.child0 % 2 = 1 ∧ ts[d.child0]? = some l ∧ ts[d.child1]? = some r ∧ (∃ e, nodes[d.child0]? = some e ∧ e.parent = j) ∧
      ∃ e, nodes[d.child1]? = some e ∧ e.parent = j

/-- Largest symbol of the leaves in the list. -/
def maxSym (ts : List CT) : Nat := ts.foldl (fun m t => match t with | .leaf _ s => max m s | .node _ _ => m) 0

structure Inv (S : Strat) (temp : List PcNode) (s : BState) (ts : List CT) (idx : Nat) : Prop where
  nlen : s.nodes.length = temp.length
  clen : ts.length = s.cnt
  q : s.q = List.range' idx (s.cnt - idx)
  le : idx ≤ s.cnt
  odd : s.cnt % 2 = 1
  total : s.cnt + ((ts.drop idx).map (fun t => t.size - 1)).sum = temp.length
  done : ∀ j t, j < idx → ts[j]? = some t → ∃ d, s.nodes[j]? = some d ∧ d.bvPos = start ts j ∧ DoneD S s.nodes ts j t d
  todo : ∀ j t, idx ≤ j → ts[j]? = some t → ∃ d, s.nodes[j]? = some d ∧ RepD S temp t d
  par : ∀ j, 0 < j → j < s.cnt → ∃ d p, s.nodes[j]? = some d ∧ d.parent < idx ∧ d.parent < j ∧ s.nodes[d.parent]? = some p ∧ p.child0 = j - (j + 1) % 2 ∧ p.child1 = j - (j + 1) % 2 + 1
  last : (idx ≤ 1 → s.last = S.undef) ∧ (1 < idx → ∃ d, s.nodes[idx - 1]? = some d ∧ s.last = d.parent)
  bv : s.bvSize = start ts idx
  maxC : s.maxC = maxSym (ts.take idx)

theorem addChild_eq {idx cnt : Nat} {k : Bool} {nodes : List DNode} {q : List Nat} {d : DNode} {p : PcNode} (h1 : nodes[idx]? = some d) (h2 : temp[d.child k]? = some p)
    (h3 : cnt < nodes.length) (h4 : cnt ≠ idx) (h5 : cnt < S.undef) :
    addChild S temp idx k nodes cnt q = some ((nodes.set cnt { DNode.ofPc S p with parent := idx }).set idx (d.setChild k cnt), cnt + 1, q ++ [cnt]) := by
  have hl := (List.getElem?_eq_some_iff.1 h1).1
  have h6 : (nodes.set cnt { DNode.ofPc S p with parent := idx })[idx]? = some d := by
    rw [List.getElem?_set, if_neg h4, h1]
  unfold addChild
  rw [h1, sbind, h2, sbind, setList_of_lt h3, sbind, h6, sbind, setList_of_lt (by simpa using hl), sbind, node_of_lt h5]
  rfl

theorem getElem?_set' {α : Type} {l : List α} {i j : Nat} {x : α} (h : i < l.length) : (l.set i x)[j]? = if i = j then some x else l[j]? := by
  rw [List.getElem?_set]
  by_cases e : i = j
  · subst e; simp [h]
  · rw [if_neg e, if_neg e]

theorem set_self {α : Type} {l : List α} {i : Nat} {x : α} (h : l[i]? = some x) : l.set i x = l := by
  apply List.ext_getElem?
  intro j
  rw [getElem?_set' (List.getElem?_eq_some_iff.1 h).1]
  by_cases e : i = j
  · subst e; rw [if_pos rfl, h]
  · rw [if_neg e]

/-- The first half of `visit`: the child pointer of the parent is already right in BFS order. -/
theorem visit_eq {s : BState} {ts : List CT} {idx : Nat} (h : Inv S temp s ts idx) (hlt : idx < s.cnt) {d : DNode} (hd : s.nodes[idx]? = some d) (q : List Nat) (hN : temp.length < S.undef) :
    visit S temp s idx q =
      (if d.child0 = S.undef then some ⟨s.nodes.set idx { d with bvPos := s.bvSize }, s.bvSize, s.cnt, if idx > 0 then d.parent else s.last, q, max s.maxC d.bvRank⟩
      else do
        let (nodes, cnt, q) ← addChild S temp idx false (s.nodes.set idx { d with bvPos := s.bvSize }) s.cnt q
        let (nodes, cnt, q) ← addChild S temp idx true nodes cnt q
        pure ⟨nodes, s.bvSize + d.bvPos, cnt, if idx > 0 then d.parent else s.last, q, s.maxC⟩) := by
  have hl := (List.getElem?_eq_some_iff.1 hd).1
  have e0 : (if idx > 0 then do
      let p ← (s.nodes.set idx { d with bvPos := s.bvSize })[d.parent]?
      let nodes ← setList (s.nodes.set idx { d with bvPos := s.bvSize }) d.parent (p.setChild (s.last == d.parent) idx)
      pure (nodes, d.parent)
    else some (s.nodes.set idx { d with bvPos := s.bvSize }, s.last)) = some (s.nodes.set idx { d with bvPos := s.bvSize }, if idx > 0 then d.parent else s.last) := by
    by_cases h0 : idx > 0
    · rw [if_pos h0, if_pos h0]
      obtain ⟨d', p, h1, h2, h3, h4, h5, h6⟩ := h.par idx h0 hlt
      rw [hd] at h1; cases h1
      have h7 : (s.nodes.set idx { d with bvPos := s.bvSize })[d.parent]? = some p := by
        rw [getElem?_set' hl, if_neg (by omega), h4]
      have h8 : p.setChild (s.last == d.parent) idx = p := by
        rcases Nat.mod_two_eq_zero_or_one idx with he | ho
        · -- right child
          have h9 : s.last = d.parent := by
            obtain ⟨e, h10, h11⟩ := h.last.2 (by omega)
            obtain ⟨e', p', h12, h13, h14, h15, h16, h17⟩ := h.par (idx - 1) (by omega) (by omega)
            rw [h10] at h12; cases h12
            rw [h11]
            apply Classical.byContradiction
            intro hne
            obtain ⟨t, ht⟩ : ∃ t, ts[e.parent]? = some t := ⟨ts[e.parent]'(by rw [h.clen]; omega), List.getElem?_eq_getElem (by rw [h.clen]; omega)⟩
            obtain ⟨t', ht'⟩ : ∃ t, ts[d.parent]? = some t := ⟨ts[d.parent]'(by rw [h.clen]; omega), List.getElem?_eq_getElem (by rw [h.clen]; omega)⟩
            obtain ⟨a, a1, a2, a3⟩ := h.done _ _ h13 ht
            obtain ⟨b, b1, b2, b3⟩ := h.done _ _ h2 ht'
            rw [h15] at a1; cases a1
            rw [h4] at b1; cases b1
            have hN' := h.nlen
            have hcN : s.cnt ≤ temp.length := by have := h.total; omega
            cases t with
            | leaf f sy => have := a3.2; omega
            | node l r =>
              cases t' with
              | leaf f sy => have := b3.2; omega
              | node l' r' =>
                obtain ⟨_, a4, _, _, _, ⟨x, a5, a6⟩, _⟩ := a3
                obtain ⟨_, b4, _, _, _, ⟨y, b5, b6⟩, _⟩ := b3
                have : p'.child0 = p.child0 := by omega
                rw [this, b5] at a5; cases a5
                omega
          rw [h9, beq_self_eq_true, DNode.setChild, if_pos rfl]
          have : p.child1 = idx := by omega
          rw [← this]
        · have h9 : s.last ≠ d.parent := by
            by_cases h1 : idx = 1
            · rw [h.last.1 (by omega)]
              have : s.cnt ≤ temp.length := by have := h.total; omega
              omega
            · obtain ⟨e, h10, h11⟩ := h.last.2 (by omega)
              obtain ⟨e', p', h12, h13, h14, h15, h16, h17⟩ := h.par (idx - 1) (by omega) (by omega)
              rw [h10] at h12; cases h12
              rw [h11]
              intro hne
              rw [hne, h4] at h15; cases h15
              omega
          rw [beq_false_of_ne h9, DNode.setChild, if_neg (by simp)]
          have : p.child0 = idx := by omega
          rw [← this]
      rw [h7, sbind, h8, setList_of_lt (by rw [List.length_set]; exact (List.getElem?_eq_some_iff.1 h4).1), sbind, set_self h7]
      rfl
    · rw [if_neg h0, if_neg h0]
  unfold visit
  rw [hd, sbind, setList_of_lt hl, sbind]
  dsimp only
  rw [e0, Option.bind]
  dsimp only
  rw [getElem?_set' hl, if_pos rfl, sbind]
  dsimp only
  by_cases hc : d.child0 = S.undef
  · rw [if_pos hc, if_pos hc, hc, beq_self_eq_true, if_pos rfl, if_pos rfl]; rfl
  · rw [if_neg hc, if_neg hc, beq_false_of_ne hc]
    simp only [Bool.false_eq_true, if_false]

theorem maxSym_snoc (ts : List CT) (t : CT) : maxSym (ts ++ [t]) = match t with | .leaf _ s => max (maxSym ts) s | .node _ _ => maxSym ts := by
  unfold maxSym
  rw [List.foldl_append]
  rfl

theorem take_snoc {ts : List CT} {j : Nat} {t : CT} (h : ts[j]? = some t) : ts.take (j + 1) = ts.take j ++ [t] := by
  rw [List.take_add_one, h]; rfl

theorem drop_cons {ts : List CT} {j : Nat} {t : CT} (h : ts[j]? = some t) : ts.drop j = t :: ts.drop (j + 1) := by
  obtain ⟨h1, h2⟩ := List.getElem?_eq_some_iff.1 h
  rw [List.drop_eq_getElem_cons h1, h2]

theorem step_leaf {s : BState} {ts : List CT} {idx f sy : Nat} (h : Inv S temp s ts idx) (hN : temp.length < S.undef) (ht : ts[idx]? = some (.leaf f sy)) :
    ∃ s', visit S temp s idx (List.range' (idx + 1) (s.cnt - (idx + 1))) = some s' ∧ Inv S temp s' ts (idx + 1) := by
  have hlt : idx < s.cnt := by rw [← h.clen]; exact (List.getElem?_eq_some_iff.1 ht).1
  obtain ⟨d, hd, r1, r2, r3, r4⟩ := h.todo idx _ (Nat.le_refl _) ht
  have hl := (List.getElem?_eq_some_iff.1 hd).1
  rw [visit_eq h hlt hd _ hN, if_pos r3]
  refine ⟨_, rfl, ?_⟩
  have hg : ∀ j, (s.nodes.set idx { d with bvPos := s.bvSize })[j]? = if idx = j then some { d with bvPos := s.bvSize } else s.nodes[j]? := fun j => getElem?_set' hl
  -- pointers of nodes are unchanged
  have hp : ∀ (i a : Nat), (∃ e, s.nodes[i]? = some e ∧ e.parent = a) → ∃ e, (s.nodes.set idx { d with bvPos := s.bvSize })[i]? = some e ∧ e.parent = a := by
    rintro i a ⟨e, h1, h2⟩
    rw [hg]
    by_cases hi : idx = i
    · rw [if_pos hi]; subst hi; rw [hd] at h1; cases h1; exact ⟨_, rfl, h2⟩
    · rw [if_neg hi]; exact ⟨e, h1, h2⟩
  constructor
  · dsimp only; rw [List.length_set]; exact h.nlen
  · exact h.clen
  · rfl
  · exact hlt
  · exact h.odd
  · have h1 := h.total
    rw [drop_cons ht, List.map_cons, List.sum_cons] at h1
    simpa [CT.size] using h1
  · intro j t hj hjt
    dsimp only
    rw [hg]
    by_cases hi : idx = j
    · subst hi
      rw [ht] at hjt; cases hjt
      rw [if_pos rfl]
      exact ⟨_, rfl, h.bv, r2, r3⟩
    · rw [if_neg hi]
      obtain ⟨e, h1, h2, h3⟩ := h.done j t (by omega) hjt
      refine ⟨e, h1, h2, ?_⟩
      cases t with
      | leaf f s => exact h3
      | node l r =>
        obtain ⟨a1, a2, a3, a4, a5, a6, a7⟩ := h3
        exact ⟨a1, a2, a3, a4, a5, hp _ _ a6, hp _ _ a7⟩
  · intro j t hj hjt
    dsimp only
    rw [hg, if_neg (by omega)]
    exact h.todo j t (by omega) hjt
  · intro j h0 hj
    dsimp only at hj ⊢
    obtain ⟨e, p, h1, h2, h3, h4, h5, h6⟩ := h.par j h0 hj
    have h7 : (s.nodes.set idx { d with bvPos := s.bvSize })[e.parent]? = some p := by rw [hg, if_neg (by omega), h4]
    rw [hg]
    by_cases hi : idx = j
    · subst hi
      rw [hd] at h1; cases h1
      rw [if_pos rfl]
      exact ⟨_, p, rfl, by dsimp only; omega, h3, h7, h5, h6⟩
    · rw [if_neg hi]
      exact ⟨e, p, h1, by omega, h3, h7, h5, h6⟩
  · constructor
    · intro h1
      dsimp only
      rw [if_neg (by omega)]
      exact h.last.1 (by omega)
    · intro h1
      dsimp only
      rw [if_pos (by omega), Nat.add_sub_cancel, hg, if_pos rfl]
      exact ⟨_, rfl, rfl⟩
  · dsimp only
    rw [start_succ ht, h.bv]; rfl
  · dsimp only
    rw [take_snoc ht, maxSym_snoc, h.maxC, r2]

theorem step_node {s : BState} {ts : List CT} {idx : Nat} {l r : CT} (h : Inv S temp s ts idx) (hN : temp.length < S.undef) (ht : ts[idx]? = some (.node l r)) :
    ∃ s', visit S temp s idx (List.range' (idx + 1) (s.cnt - (idx + 1))) = some s' ∧ Inv S temp s' (ts ++ [l, r]) (idx + 1) := by
  have hlt : idx < s.cnt := by rw [← h.clen]; exact (List.getElem?_eq_some_iff.1 ht).1
  obtain ⟨d, hd, r1, r2, r3⟩ := h.todo idx _ (Nat.le_refl _) ht
  have hl := (List.getElem?_eq_some_iff.1 hd).1
  have htot := h.total
  rw [drop_cons ht, List.map_cons, List.sum_cons] at htot
  have hs1 := l.size_pos
  have hs2 := r.size_pos
  have hc2 : s.cnt + 1 < s.nodes.length := by rw [h.nlen]; simp only [CT.size] at htot; omega
  have hnl := h.nlen
  have hr2 := r2.lt
  have hr3 := r3.lt
  obtain ⟨p0, p01, p02⟩ := repD_ofPc hN r2
  obtain ⟨p1, p11, p12⟩ := repD_ofPc hN r3
  rw [visit_eq h hlt hd _ hN, if_neg (by omega)]
  have hg0 : (s.nodes.set idx { d with bvPos := s.bvSize })[idx]? = some { d with bvPos := s.bvSize } := by rw [getElem?_set' hl, if_pos rfl]
  rw [addChild_eq hg0 p01 (by rw [List.length_set]; omega) (by omega) (by omega), sbind]
  dsimp only
  rw [addChild_eq (d := ⟨s.bvSize, d.bvRank, d.parent, s.cnt, d.child1⟩) (p := p1) (by rw [getElem?_set' (by simpa using hl), if_pos rfl]; rfl) (by exact p11)
    (by simp only [List.length_set]; omega) (by omega) (by omega), sbind]
  refine ⟨_, rfl, ?_⟩
  obtain ⟨c0, hc0⟩ : ∃ c0, c0 = { DNode.ofPc S p0 with parent := idx } := ⟨_, rfl⟩
  obtain ⟨c1, hc1⟩ : ∃ c1, c1 = { DNode.ofPc S p1 with parent := idx } := ⟨_, rfl⟩
  have hg : ∀ j, ((((((s.nodes.set idx { d with bvPos := s.bvSize }).set s.cnt c0).set idx (DNode.setChild { d with bvPos := s.bvSize } false s.cnt))).set (s.cnt + 1) c1).set idx
      (DNode.setChild ⟨s.bvSize, d.bvRank, d.parent, s.cnt, d.child1⟩ true (s.cnt + 1)))[j]? =
      if j = idx then some ⟨s.bvSize, d.bvRank, d.parent, s.cnt, s.cnt + 1⟩ else if j = s.cnt then some c0 else if j = s.cnt + 1 then some c1 else s.nodes[j]? := by
    intro j
    rw [getElem?_set' (by simp only [List.length_set]; omega), getElem?_set' (by simp only [List.length_set]; omega), getElem?_set' (by simp only [List.length_set]; omega),
      getElem?_set' (by simp only [List.length_set]; omega), getElem?_set' (by omega)]
    by_cases h1 : idx = j
    · rw [if_pos h1, if_pos h1.symm]; rfl
    · have h1' : ¬ j = idx := fun e => h1 e.symm
      by_cases h2 : s.cnt = j
      · have h3 : ¬ s.cnt + 1 = j := by omega
        simp only [if_neg h1, if_neg h1', if_neg h3, if_pos h2, if_pos h2.symm]
      · have h2' : ¬ j = s.cnt := fun e => h2 e.symm
        by_cases h3 : s.cnt + 1 = j
        · simp only [if_neg h1, if_neg h1', if_pos h3, if_neg h2', if_pos h3.symm]
        · have h3' : ¬ j = s.cnt + 1 := fun e => h3 e.symm
          simp only [if_neg h1, if_neg h1', if_neg h3, if_neg h3', if_neg h2', if_neg h2]
  rw [← hc0, ← hc1]
  generalize hnodes : ((((s.nodes.set idx { d with bvPos := s.bvSize }).set s.cnt c0).set idx (DNode.setChild { d with bvPos := s.bvSize } false s.cnt)).set (s.cnt + 1) c1).set idx
      (DNode.setChild ⟨s.bvSize, d.bvRank, d.parent, s.cnt, d.child1⟩ true (s.cnt + 1)) = nodes at hg
  have hlen : nodes.length = s.nodes.length := by rw [← hnodes]; simp
  have hcl := h.clen
  have happ : ∀ {j : Nat} {t : CT}, ts[j]? = some t → (ts ++ [l, r])[j]? = some t := by
    intro j t hj
    rw [List.getElem?_append_left (List.getElem?_eq_some_iff.1 hj).1, hj]
  have hapl : (ts ++ [l, r])[s.cnt]? = some l := by rw [← hcl, List.getElem?_append_right (Nat.le_refl _)]; simp
  have hapr : (ts ++ [l, r])[s.cnt + 1]? = some r := by rw [← hcl, List.getElem?_append_right (by omega)]; simp
  have hp : ∀ (i a : Nat), i < s.cnt → (∃ e, s.nodes[i]? = some e ∧ e.parent = a) → ∃ e, nodes[i]? = some e ∧ e.parent = a := by
    rintro i a hi ⟨e, h1, h2⟩
    rw [hg]
    by_cases hii : i = idx
    · rw [if_pos hii]; subst hii; rw [hd] at h1; cases h1; exact ⟨_, rfl, h2⟩
    · rw [if_neg hii, if_neg (by omega), if_neg (by omega)]; exact ⟨e, h1, h2⟩
  constructor
  · dsimp only; rw [hlen]; exact h.nlen
  · dsimp only; rw [List.length_append]; simp; omega
  · dsimp only
    rw [show s.cnt + 1 + 1 - (idx + 1) = s.cnt - (idx + 1) + 1 + 1 by omega, List.range'_1_concat, List.range'_1_concat]
    rw [show idx + 1 + (s.cnt - (idx + 1)) = s.cnt by omega, show idx + 1 + (s.cnt - (idx + 1) + 1) = s.cnt + 1 by omega]
  · dsimp only; omega
  · dsimp only; have := h.odd; omega
  · dsimp only
    rw [List.drop_append_of_le_length (by omega), List.map_append, List.sum_append]
    simp only [CT.size, List.map_cons, List.sum_cons, List.map_nil, List.sum_nil] at htot ⊢
    omega
  · intro j t hj hjt
    dsimp only
    rw [hg]
    by_cases hi : j = idx
    · subst hi
      rw [happ ht] at hjt; cases hjt
      rw [if_pos rfl]
      refine ⟨_, rfl, ?_, hlt, rfl, h.odd, hapl, hapr, ?_, ?_⟩
      · dsimp only
        rw [h.bv, start_append (by omega)]
      · dsimp only
        rw [hg, if_neg (by omega), if_pos rfl]
        exact ⟨_, rfl, by rw [hc0]⟩
      · dsimp only
        rw [hg, if_neg (by omega), if_neg (by omega), if_pos rfl]
        exact ⟨_, rfl, by rw [hc1]⟩
    · rw [if_neg hi, if_neg (by omega), if_neg (by omega)]
      rw [List.getElem?_append_left (by omega)] at hjt
      obtain ⟨e, h1, h2, h3⟩ := h.done j t (by omega) hjt
      refine ⟨e, h1, by rw [h2, start_append (by omega)], ?_⟩
      cases t with
      | leaf f s => exact h3
      | node l' r' =>
        obtain ⟨a1, a2, a3, a4, a5, a6, a7⟩ := h3
        have b4 := (List.getElem?_eq_some_iff.1 a4).1
        have b5 := (List.getElem?_eq_some_iff.1 a5).1
        exact ⟨a1, a2, a3, happ a4, happ a5, hp _ _ (by omega) a6, hp _ _ (by omega) a7⟩
  · intro j t hj hjt
    dsimp only
    rw [hg, if_neg (by omega)]
    by_cases h1 : j = s.cnt
    · subst h1
      rw [hapl] at hjt; cases hjt
      rw [if_pos rfl]
      exact ⟨_, rfl, by rw [hc0]; exact p02 idx⟩
    · rw [if_neg h1]
      by_cases h2 : j = s.cnt + 1
      · subst h2
        rw [hapr] at hjt; cases hjt
        rw [if_pos rfl]
        exact ⟨_, rfl, by rw [hc1]; exact p12 idx⟩
      · rw [if_neg h2]
        have h3 : j < ts.length := by
          have := (List.getElem?_eq_some_iff.1 hjt).1
          rw [List.length_append] at this
          simp at this
          omega
        rw [List.getElem?_append_left h3] at hjt
        exact h.todo j t (by omega) hjt
  · intro j h0 hj
    dsimp only at hj ⊢
    have hodd := h.odd
    have hgi : nodes[idx]? = some ⟨s.bvSize, d.bvRank, d.parent, s.cnt, s.cnt + 1⟩ := by rw [hg, if_pos rfl]
    by_cases h1 : j = s.cnt
    · refine ⟨c0, ⟨s.bvSize, d.bvRank, d.parent, s.cnt, s.cnt + 1⟩, by rw [hg, if_neg (by omega), if_pos h1], ?_, ?_, ?_⟩
      · rw [hc0]; dsimp only; omega
      · rw [hc0]; dsimp only; omega
      · rw [hc0]; dsimp only; exact ⟨hgi, by omega, by omega⟩
    · by_cases h2 : j = s.cnt + 1
      · refine ⟨c1, ⟨s.bvSize, d.bvRank, d.parent, s.cnt, s.cnt + 1⟩, by rw [hg, if_neg (by omega), if_neg h1, if_pos h2], ?_, ?_, ?_⟩
        · rw [hc1]; dsimp only; omega
        · rw [hc1]; dsimp only; omega
        · rw [hc1]; dsimp only; exact ⟨hgi, by omega, by omega⟩
      · obtain ⟨e, p, h1, h2, h3, h4, h5, h6⟩ := h.par j h0 (by omega)
        have h7 : nodes[e.parent]? = some p := by rw [hg, if_neg (by omega), if_neg (by omega), if_neg (by omega), h4]
        obtain ⟨e', h8, h9⟩ := hp j e.parent (by omega) ⟨e, h1, rfl⟩
        exact ⟨e', p, h8, by omega, by omega, by rw [h9]; exact h7, h5, h6⟩
  · constructor
    · intro h1
      dsimp only
      rw [if_neg (by omega)]
      exact h.last.1 (by omega)
    · intro h1
      dsimp only
      rw [if_pos (by omega), Nat.add_sub_cancel, hg, if_pos rfl]
      exact ⟨_, rfl, rfl⟩
  · dsimp only
    rw [start_succ (happ ht), start_append (by omega), h.bv, r1]; rfl
  · dsimp only
    rw [List.take_append_of_le_length (by omega), take_snoc ht, maxSym_snoc, h.maxC]

/-- The stored tree, in BFS order. -/
structure Stored (S : Strat) (nodes : List DNode) (ts : List CT) : Prop where
  len : nodes.length = ts.length
  done : ∀ j t, ts[j]? = some t → ∃ d, nodes[j]? = some d ∧ d.bvPos = start ts j ∧ DoneD S nodes ts j t d
  par : ∀ j, 0 < j → j < ts.length → ∃ d p, nodes[j]? = some d ∧ d.parent < j ∧ nodes[d.parent]? = some p ∧ p.child0 ≠ S.undef ∧ (p.child0 = j ∨ p.child1 = j)

theorem storeLoop_spec (hS : S.dfs = false) (hN : temp.length < S.undef) : ∀ (fuel : Nat) (s : BState) (ts : List CT) (idx : Nat), Inv S temp s ts idx → temp.length - idx < fuel →
    ∃ s' us, storeLoop S temp fuel s = some s' ∧ Stored S s'.nodes (ts ++ us) ∧ s'.bvSize = start (ts ++ us) (ts ++ us).length ∧ s'.maxC = maxSym (ts ++ us) ∧
      (ts ++ us).length = temp.length ∧ start (ts ++ us) (ts ++ us).length = start ts idx + ((ts.drop idx).map CT.cost).sum := by
  intro fuel
  induction fuel with
  | zero => intro s ts idx h hf; omega
  | succ fuel ih =>
    intro s ts idx h hf
    rw [storeLoop]
    unfold popQ
    rw [hS]
    simp only [Bool.false_eq_true, if_false]
    rw [h.q]
    by_cases hlt : idx < s.cnt
    · rw [show s.cnt - idx = s.cnt - (idx + 1) + 1 by omega, List.range'_succ]
      dsimp only
      have hle : s.cnt ≤ temp.length := by have := h.total; omega
      have hcl := h.clen
      have ht : ts[idx]? = some ts[idx] := List.getElem?_eq_getElem (by omega)
      cases hc : ts[idx] with
      | leaf f sy =>
        rw [hc] at ht
        obtain ⟨s', h1, h2⟩ := step_leaf h hN ht
        rw [h1, sbind]
        obtain ⟨s'', us, h3, h4, h5, h6, h7, h8⟩ := ih s' ts (idx + 1) h2 (by omega)
        refine ⟨s'', us, h3, h4, h5, h6, h7, ?_⟩
        rw [h8, start_succ ht, drop_cons ht, List.map_cons, List.sum_cons]
        simp [CT.bits, CT.cost]
      | node l r =>
        rw [hc] at ht
        obtain ⟨s', h1, h2⟩ := step_node h hN ht
        rw [h1, sbind]
        obtain ⟨s'', us, h3, h4, h5, h6, h7, h8⟩ := ih s' (ts ++ [l, r]) (idx + 1) h2 (by omega)
        refine ⟨s'', [l, r] ++ us, h3, ?_⟩
        rw [← List.append_assoc]
        refine ⟨h4, h5, h6, h7, ?_⟩
        have hlt' : idx + 1 ≤ ts.length := by omega
        rw [h8, start_append hlt', start_succ ht, drop_cons ht, List.drop_append_of_le_length hlt', List.map_append, List.sum_append, List.map_cons, List.sum_cons]
        simp only [CT.bits, CT.cost, List.map_cons, List.sum_cons, List.map_nil, List.sum_nil]
        omega
    · have he : idx = s.cnt := by have := h.le; omega
      rw [show s.cnt - idx = 0 by omega]
      dsimp only [List.range']
      have hcl := h.clen
      have htot := h.total
      rw [he, ← hcl, List.drop_length] at htot
      simp at htot
      refine ⟨s, [], rfl, ?_⟩
      rw [List.append_nil]
      refine ⟨⟨by rw [h.nlen, htot], ?_, ?_⟩, ?_, ?_, htot, by rw [he, ← hcl, List.drop_length]; simp⟩
      · intro j t hj
        exact h.done j t (by rw [he, ← hcl]; exact (List.getElem?_eq_some_iff.1 hj).1) hj
      · intro j h0 hj
        obtain ⟨d, p, h1, h2, h3, h4, h5, h6⟩ := h.par j h0 (by omega)
        refine ⟨d, p, h1, h3, h4, by omega, ?_⟩
        rcases Nat.mod_two_eq_zero_or_one j with hm | hm
        · right; omega
        · left; omega
      · rw [h.bv, he, hcl]
      · rw [h.maxC, he, ← hcl, List.take_length]

/-- The whole loop. -/
theorem store_spec (hS : S.dfs = false) (hN : temp.length < S.undef) {t : CT} (ht : Rep temp t (temp.length - 1)) (hsz : t.size = temp.length) :
    ∃ root nodes s' us, temp.getLast? = some root ∧ setList (List.replicate temp.length (⟨0, 0, S.undef, S.undef, S.undef⟩ : DNode)) 0 (DNode.ofPc S root) = some nodes ∧
      storeLoop S temp (temp.length + 1) ⟨nodes, 0, 1, S.undef, [0], 0⟩ = some s' ∧ Stored S s'.nodes (t :: us) ∧ s'.bvSize = start (t :: us) temp.length ∧ s'.maxC = maxSym (t :: us) ∧
      (t :: us).length = temp.length ∧ start (t :: us) (t :: us).length = t.cost := by
  have hl := ht.lt
  obtain ⟨p, h1, h2⟩ := repD_ofPc hN ht
  have h0 : setList (List.replicate temp.length (⟨0, 0, S.undef, S.undef, S.undef⟩ : DNode)) 0 (DNode.ofPc S p) =
      some ((List.replicate temp.length (⟨0, 0, S.undef, S.undef, S.undef⟩ : DNode)).set 0 (DNode.ofPc S p)) := setList_of_lt (by simp; omega)
  have hinv : Inv S temp ⟨(List.replicate temp.length (⟨0, 0, S.undef, S.undef, S.undef⟩ : DNode)).set 0 (DNode.ofPc S p), 0, 1, S.undef, [0], 0⟩ [t] 0 := by
    constructor
    · simp
    · rfl
    · rfl
    · exact Nat.zero_le _
    · rfl
    · have := t.size_pos
      simp; omega
    · intro j t hj; omega
    · intro j u hj hju
      have : j = 0 := by
        have := (List.getElem?_eq_some_iff.1 hju).1
        simp at this; omega
      subst this
      simp at hju
      subst hju
      refine ⟨DNode.ofPc S p, ?_, ?_⟩
      · dsimp only; rw [getElem?_set' (by simp; omega), if_pos rfl]
      · exact h2 (DNode.ofPc S p).parent
    · intro j h3 h4; dsimp only at h4; omega
    · exact ⟨fun _ => rfl, fun h => absurd h (by omega)⟩
    · rfl
    · rfl
  obtain ⟨s', us, h3, h4, h5, h6, h7, h8⟩ := storeLoop_spec hS hN (temp.length + 1) _ _ _ hinv (by omega)
  refine ⟨p, _, s', us, by rw [List.getLast?_eq_getElem?, h1], h0, h3, h4, ?_, h6, h7, ?_⟩
  · rw [h5, h7]; rfl
  · refine h8.trans ?_
    simp [start]

end store

end Sdsl.Wt
