/-
  `huff_shape` and `balanced_shape` build a code tree over the symbols that occur.
-/
import Verif.WtPcHuff
import Mathlib.Data.List.Basic

namespace Sdsl.Wt

open CT Spec

/-- The symbols that occur with their frequencies, in ascending order. -/
def present : List Nat → Nat → List (Nat × Nat)
  | [], _ => []
  | f :: C, i => if f > 0 then (i, f) :: present C (i + 1) else present C (i + 1)

theorem mem_present {s f : Nat} : ∀ {C : List Nat} {i : Nat}, (s, f) ∈ present C i ↔ i ≤ s ∧ C[s - i]? = some f ∧ 0 < f := by
  intro C
  induction C with
  | nil => intro i; simp [present]
  | cons g C ih =>
    intro i
    rw [present]
    have key : s ≠ i → i ≤ s → (g :: C)[s - i]? = C[s - (i + 1)]? := by
      intro h1 h2
      rw [show s - i = s - (i + 1) + 1 by omega, List.getElem?_cons_succ]
    by_cases hg : g > 0
    · rw [if_pos hg, List.mem_cons, ih]
      by_cases hs : s = i
      · subst hs
        simp
        constructor
        · rintro (h | h)
          · exact ⟨h.symm, by omega⟩
          · omega
        · rintro ⟨h, _⟩; left; exact h.symm
      · constructor
        · rintro (h | ⟨h1, h2, h3⟩)
          · exact absurd (congrArg Prod.fst h) hs
          · exact ⟨by omega, by rw [key hs (by omega)]; exact h2, h3⟩
        · rintro ⟨h1, h2, h3⟩
          rw [key hs h1] at h2
          exact Or.inr ⟨by omega, h2, h3⟩
    · rw [if_neg hg, ih]
      by_cases hs : s = i
      · subst hs
        simp
        constructor
        · omega
        · rintro ⟨h, _⟩; omega
      · constructor
        · rintro ⟨h1, h2, h3⟩
          exact ⟨by omega, by rw [key hs (by omega)]; exact h2, h3⟩
        · rintro ⟨h1, h2, h3⟩
          rw [key hs h1] at h2
          exact ⟨by omega, h2, h3⟩

theorem present_sorted : ∀ (C : List Nat) (i : Nat), ((present C i).map (·.1)).Pairwise (· < ·) := by
  intro C
  induction C with
  | nil => intro i; simp [present]
  | cons g C ih =>
    intro i
    rw [present]
    by_cases hg : g > 0
    · rw [if_pos hg, List.map_cons, List.pairwise_cons]
      refine ⟨?_, ih _⟩
      intro a ha
      rw [List.mem_map] at ha
      obtain ⟨⟨s, f⟩, h1, rfl⟩ := ha
      have := (mem_present.1 h1).1
      dsimp only; omega
    · rw [if_neg hg]; exact ih _

theorem present_nodup (C : List Nat) (i : Nat) : ((present C i).map (·.1)).Nodup := (present_sorted C i).imp (fun h => Nat.ne_of_lt h)

theorem present_length : ∀ (C : List Nat) (i : Nat), (present C i).length = C.countP (fun f => decide (f > 0)) := by
  intro C
  induction C with
  | nil => intro i; rfl
  | cons g C ih =>
    intro i
    rw [present, List.countP_cons]
    by_cases hg : g > 0
    · rw [if_pos hg, List.length_cons, ih]; simp [hg]
    · rw [if_neg hg, ih]; simp [hg]

theorem present_length_le (C : List Nat) (i : Nat) : (present C i).length ≤ C.length := by
  rw [present_length]; exact List.countP_le_length

/-! ### Huffman shape -/

theorem Rep.congr {nodes nodes' : List PcNode} (h : ∀ (j : Nat) (p : PcNode), nodes[j]? = some p → ∃ p' : PcNode, nodes'[j]? = some p' ∧ p'.freq = p.freq ∧ p'.sym = p.sym ∧ p'.child0 = p.child0 ∧ p'.child1 = p.child1) :
    ∀ {t : CT} {a : Nat}, Rep nodes t a → Rep nodes' t a := by
  intro t
  induction t with
  | leaf f s =>
    rintro a ⟨p, h1, h2, h3, h4, h5⟩
    obtain ⟨p', g1, g2, g3, g4, g5⟩ := h a p h1
    exact ⟨p', g1, by rw [g2, h2], by rw [g3, h3], by rw [g4, h4], by rw [g5, h5]⟩
  | node l r ih1 ih2 =>
    rintro a ⟨p, h1, h2, h3, h4⟩
    obtain ⟨p', g1, g2, g3, g4, g5⟩ := h a p h1
    exact ⟨p', g1, by rw [g2, h2], by rw [g4]; exact ih1 h3, by rw [g5]; exact ih2 h4⟩

namespace Huff

theorem popMin_map {α : Type} (g : α → Nat × Nat) : ∀ (F : List α), F ≠ [] → ∃ e F', popMin (F.map g) = some (g e, F'.map g) ∧ F.Perm (e :: F') ∧ ∀ e' ∈ F', (g e).1 ≤ (g e').1 := by
  intro F
  induction F with
  | nil => intro h; exact absurd rfl h
  | cons a F ih =>
    intro _
    rw [List.map_cons, popMin]
    cases F with
    | nil => exact ⟨a, [], by simp [popMin], List.Perm.refl _, by simp⟩
    | cons b F =>
      obtain ⟨e, F', h1, h2, h3⟩ := ih (by simp)
      rw [h1]
      dsimp only
      by_cases hle : le (g a) (g e) = true
      · rw [if_pos hle]
        refine ⟨a, b :: F, rfl, List.Perm.refl _, ?_⟩
        intro e' he'
        have hae : (g a).1 ≤ (g e).1 := by
          simp only [le, Bool.or_eq_true, Bool.and_eq_true, decide_eq_true_eq, beq_iff_eq] at hle
          omega
        rcases List.mem_cons.1 (h2.mem_iff.1 he') with rfl | h
        · exact hae
        · exact Nat.le_trans hae (h3 e' h)
      · rw [if_neg hle]
        refine ⟨e, a :: F', rfl, (h2.cons a).trans (List.Perm.swap e a F'), ?_⟩
        intro e' he'
        rcases List.mem_cons.1 he' with rfl | h
        · simp only [le, Bool.or_eq_true, Bool.and_eq_true, decide_eq_true_eq, beq_iff_eq] at hle
          omega
        · exact h3 e' h

/-- The queue holds the roots of a forest. -/
structure Inv (L : List (Nat × Nat)) (nodes : List PcNode) (F : List (CT × Nat × Nat)) : Prop where
  rep : ∀ e ∈ F, Rep nodes e.1 e.2.2 ∧ e.1.freq = e.2.1
  size : (F.map (fun e => e.1.size)).sum = nodes.length
  perm : (F.flatMap (fun e => e.1.leaves)).Perm L
  head : ∀ e F', F = e :: F' → e.2.2 = nodes.length - 1

theorem leaves_spec : ∀ (C : List Nat) (i : Nat) (L : List (Nat × Nat)) (nodes : List PcNode) (F : List (CT × Nat × Nat)), Inv L nodes F →
    ∃ F', (leaves C i nodes (F.map (·.2))).2 = F'.map (·.2) ∧ Inv (L ++ present C i) (leaves C i nodes (F.map (·.2))).1 F' ∧ F'.length = F.length + (present C i).length ∧
      ((∀ e ∈ F, ∃ f s, e.1 = CT.leaf f s ∧ 0 < f) → ∀ e ∈ F', ∃ f s, e.1 = CT.leaf f s ∧ 0 < f) := by
  intro C
  induction C with
  | nil => intro i L nodes F h; exact ⟨F, rfl, by simpa [present, leaves] using h, rfl, fun h => h⟩
  | cons f C ih =>
    intro i L nodes F h
    rw [leaves, present]
    by_cases hf : f > 0
    · rw [if_pos hf, if_pos hf]
      have h' : Inv (L ++ [(i, f)]) (nodes ++ [PcNode.leaf f i]) ((CT.leaf f i, f, nodes.length) :: F) := by
        constructor
        · intro e he
          rcases List.mem_cons.1 he with rfl | he
          · exact ⟨⟨PcNode.leaf f i, by simp, rfl, rfl, rfl, rfl⟩, rfl⟩
          · obtain ⟨h1, h2⟩ := h.rep e he
            refine ⟨Rep.congr ?_ h1, h2⟩
            intro j p hj
            exact ⟨p, by rw [List.getElem?_append_left (List.getElem?_eq_some_iff.1 hj).1, hj], rfl, rfl, rfl, rfl⟩
        · rw [List.map_cons, List.sum_cons, h.size, List.length_append]; simp [CT.size]; omega
        · rw [List.flatMap_cons]
          exact (h.perm.cons (i, f)).trans (List.perm_append_singleton _ _).symm
        · intro e F' he
          cases he; simp
      obtain ⟨F', h1, h2, h3, h4⟩ := ih (i + 1) _ _ _ h'
      refine ⟨F', h1, ?_, ?_, ?_⟩
      · rw [List.append_assoc] at h2; exact h2
      · rw [h3]; simp; omega
      · intro hF
        apply h4
        intro e he
        rcases List.mem_cons.1 he with rfl | he
        · exact ⟨f, i, rfl, hf⟩
        · exact hF e he
    · rw [if_neg hf, if_neg hf]
      exact ih (i + 1) L nodes F h

theorem loop_spec {L : List (Nat × Nat)} : ∀ (fuel : Nat) (nodes : List PcNode) (F : List (CT × Nat × Nat)), Inv L nodes F → Forest (F.map (·.1)) → F ≠ [] → F.length ≤ fuel →
    ∃ nodes' t, loop fuel nodes (F.map (·.2)) = some nodes' ∧ Rep nodes' t (nodes'.length - 1) ∧ t.size = nodes'.length ∧ t.leaves.Perm L ∧ fibN t.height ≤ t.freq ∧
      ∀ t' : CT, t'.weights.Perm (F.map (fun e => e.1.freq)) → t.cost ≤ t'.cost + (F.map (fun e => e.1.cost)).sum := by
  intro fuel
  induction fuel with
  | zero => intro nodes F h _ hne hf; cases F with | nil => exact absurd rfl hne | cons a F => simp at hf
  | succ fuel ih =>
    intro nodes F h hfo hne hf
    rw [loop]
    by_cases hl : 1 < F.length
    · rw [if_pos (by rw [List.length_map]; exact hl)]
      obtain ⟨e1, F1, p1, q1, m1⟩ := popMin_map (·.2) F hne
      have hl1 := q1.length_eq
      rw [List.length_cons] at hl1
      obtain ⟨e2, F2, p2, q2, m2⟩ := popMin_map (·.2) F1 (by intro h; rw [h] at hl1; simp at hl1; omega)
      have hl2 := q2.length_eq
      rw [List.length_cons] at hl2
      rw [p1, sbind]; dsimp only; rw [p2, sbind]; dsimp only
      have q : F.Perm (e1 :: e2 :: F2) := q1.trans (q2.cons e1)
      obtain ⟨r1, f1⟩ := h.rep e1 (q.mem_iff.2 (by simp))
      obtain ⟨r2, f2⟩ := h.rep e2 (q.mem_iff.2 (by simp))
      have l1 := r1.lt
      have l2 := r2.lt
      obtain ⟨a, ha'⟩ : ∃ a, nodes[e1.2.2]? = some a := ⟨_, List.getElem?_eq_getElem l1⟩
      rw [ha', sbind, setList_of_lt l1, sbind]
      generalize hn1 : nodes.set e1.2.2 { a with parent := nodes.length } = nodes1
      have hlen1 : nodes1.length = nodes.length := by rw [← hn1, List.length_set]
      have c1 : ∀ (j : Nat) (p : PcNode), nodes[j]? = some p → ∃ p' : PcNode, nodes1[j]? = some p' ∧ p'.freq = p.freq ∧ p'.sym = p.sym ∧ p'.child0 = p.child0 ∧ p'.child1 = p.child1 := by
        intro j p hj
        rw [← hn1, getElem?_set' l1]
        by_cases he : e1.2.2 = j
        · subst he; rw [ha'] at hj; cases hj
          rw [if_pos rfl]; exact ⟨_, rfl, rfl, rfl, rfl, rfl⟩
        · rw [if_neg he]; exact ⟨p, hj, rfl, rfl, rfl, rfl⟩
      obtain ⟨b, hb'⟩ : ∃ b, nodes1[e2.2.2]? = some b := ⟨_, List.getElem?_eq_getElem (by omega)⟩
      rw [hb', sbind, setList_of_lt (by omega), sbind, hlen1]
      generalize hn2 : nodes1.set e2.2.2 { b with parent := nodes.length } = nodes2
      have hlen2 : nodes2.length = nodes.length := by rw [← hn2, List.length_set, hlen1]
      have c2 : ∀ (j : Nat) (p : PcNode), nodes1[j]? = some p → ∃ p' : PcNode, nodes2[j]? = some p' ∧ p'.freq = p.freq ∧ p'.sym = p.sym ∧ p'.child0 = p.child0 ∧ p'.child1 = p.child1 := by
        intro j p hj
        rw [← hn2, getElem?_set' (by omega)]
        by_cases he : e2.2.2 = j
        · subst he; rw [hb'] at hj; cases hj
          rw [if_pos rfl]; exact ⟨_, rfl, rfl, rfl, rfl, rfl⟩
        · rw [if_neg he]; exact ⟨p, hj, rfl, rfl, rfl, rfl⟩
      have c3 : ∀ (j : Nat) (p : PcNode), nodes2[j]? = some p → ∃ p' : PcNode, (nodes2 ++ [⟨e1.2.1 + e2.2.1, 0, PcNode.undef, e1.2.2, e2.2.2⟩])[j]? = some p' ∧ p'.freq = p.freq ∧ p'.sym = p.sym ∧
          p'.child0 = p.child0 ∧ p'.child1 = p.child1 := by
        intro j p hj
        exact ⟨p, by rw [List.getElem?_append_left (List.getElem?_eq_some_iff.1 hj).1, hj], rfl, rfl, rfl, rfl⟩
      have hrep : ∀ e ∈ F, Rep (nodes2 ++ [⟨e1.2.1 + e2.2.1, 0, PcNode.undef, e1.2.2, e2.2.2⟩]) e.1 e.2.2 := fun e he => Rep.congr c3 (Rep.congr c2 (Rep.congr c1 (h.rep e he).1))
      have h' : Inv L (nodes2 ++ [⟨e1.2.1 + e2.2.1, 0, PcNode.undef, e1.2.2, e2.2.2⟩]) ((CT.node e1.1 e2.1, e1.2.1 + e2.2.1, nodes.length) :: F2) := by
        constructor
        · intro e he
          rcases List.mem_cons.1 he with rfl | he
          · refine ⟨⟨⟨e1.2.1 + e2.2.1, 0, PcNode.undef, e1.2.2, e2.2.2⟩, by rw [← hlen2]; simp, by dsimp only; rw [f1, f2], ?_, ?_⟩, ?_⟩
            · exact hrep e1 (q.mem_iff.2 (by simp))
            · exact hrep e2 (q.mem_iff.2 (by simp))
            · rw [CT.freq, f1, f2]
          · exact ⟨hrep e (q.mem_iff.2 (by simp [he])), (h.rep e (q.mem_iff.2 (by simp [he]))).2⟩
        · have h1 := h.size
          rw [(q.map (fun e => e.1.size)).sum_nat] at h1
          simp only [List.map_cons, List.sum_cons, CT.size, List.length_append, List.length_singleton] at h1 ⊢
          omega
        · have h1 := h.perm
          refine List.Perm.trans ?_ h1
          refine List.Perm.trans ?_ (q.flatMap_right _).symm
          simp only [List.flatMap_cons, CT.leaves, List.append_assoc]
          exact List.Perm.refl _
        · intro e F' he
          cases he
          rw [List.length_append, hlen2]; simp
      have hfr : ∀ e ∈ F, e.1.freq = e.2.1 := fun e he => (h.rep e he).2
      have k12 : e1.1.freq ≤ e2.1.freq := by rw [f1, f2]; exact m1 e2 (q2.mem_iff.2 (by simp))
      have k2 : ∀ e ∈ F2, e2.1.freq ≤ e.1.freq := by
        intro e he
        rw [f2, hfr e (q.mem_iff.2 (by simp [he]))]
        exact m2 e he
      have hfo1 := hfo.perm (q.map (·.1))
      simp only [List.map_cons] at hfo1
      have hfo2 := hfo1.merge k12 (by
        intro e he
        obtain ⟨e', g1, rfl⟩ := List.mem_map.1 he
        exact k2 e' g1)
      obtain ⟨nodes', t, u1, u2, u3, u4, u5, u6⟩ := ih _ _ h' hfo2 (by simp) (by rw [List.length_cons]; omega)
      rw [List.map_cons] at u1
      rw [hlen2]
      refine ⟨nodes', t, u1, u2, u3, u4, u5, ?_⟩
      intro t' ht'
      have hq1 := q.map (fun e => e.1.freq)
      simp only [List.map_cons] at hq1
      obtain ⟨t'', w1, w2⟩ := CT.merge (ht'.trans hq1) k12 (by
        intro w hw
        obtain ⟨e', g1, rfl⟩ := List.mem_map.1 hw
        exact k2 e' g1)
      have w3 := u6 t'' (by rw [List.map_cons]; exact w1)
      have w4 := (q.map (fun e => e.1.cost)).sum_nat
      simp only [List.map_cons, List.sum_cons, CT.cost] at w3 w4
      omega
    · rw [if_neg (by rw [List.length_map]; exact hl)]
      cases F with
      | nil => exact absurd rfl hne
      | cons e F =>
        have : F = [] := by
          rw [List.length_cons] at hl
          exact List.eq_nil_of_length_eq_zero (by omega)
        subst this
        have h1 := h.size
        have h2 := h.perm
        refine ⟨nodes, e.1, rfl, ?_, by simpa using h1, by simpa using h2, hfo.fib e.1 (by simp), ?_⟩
        swap
        · intro t' _; simp
        rw [← h.head e [] rfl]
        exact (h.rep e (by simp)).1

/-- The tree is as shallow as its frequency demands, and no tree with the same leaves is cheaper. -/
def Best (t : CT) : Prop := fibN t.height ≤ t.freq ∧ ∀ t' : CT, t'.weights.Perm t.weights → t.cost ≤ t'.cost

theorem tree_spec {C : List Nat} (hC : present C 0 ≠ []) :
    ∃ temp t, tree C = some temp ∧ Rep temp t (temp.length - 1) ∧ t.size = temp.length ∧ t.leaves.Perm (present C 0) ∧ Best t := by
  have h0 : Inv [] [] [] := ⟨by simp, rfl, by simp, by simp⟩
  obtain ⟨F, h1, h2, h3, h3'⟩ := leaves_spec C 0 [] [] [] h0
  rw [List.map_nil] at h1 h2
  rw [List.nil_append] at h2
  have := present_length_le C 0
  have h4 : F ≠ [] := by
    intro h; rw [h] at h3
    apply hC
    exact List.eq_nil_of_length_eq_zero (by simpa using h3.symm)
  have hlf := h3' (by simp)
  have hfo : Forest (F.map (·.1)) := by
    have hx : ∀ e ∈ F.map (·.1), ∃ f s, e = CT.leaf f s ∧ 0 < f := by
      intro e he
      obtain ⟨e', g1, rfl⟩ := List.mem_map.1 he
      exact hlf e' g1
    constructor
    · intro e he e' _
      obtain ⟨f, s, rfl, _⟩ := hx e he
      exact Nat.zero_le _
    · intro e he
      obtain ⟨f, s, rfl, hf⟩ := hx e he
      exact hf
    · intro e he
      obtain ⟨f, s, rfl, hf⟩ := hx e he
      exact hf
    · intro e he l r hlr
      obtain ⟨f, s, rfl, _⟩ := hx e he
      cases hlr
  obtain ⟨nodes', t, h5, h6, h7, h8, h9, h10⟩ := loop_spec (C.length + 1) _ F h2 hfo h4 (by rw [h3]; simp; omega)
  refine ⟨nodes', t, ?_, h6, h7, h8, h9, ?_⟩
  · rw [tree, h1]; exact h5
  · intro t' ht'
    have e1 : t.weights.Perm (F.map (fun e => e.1.freq)) := by
      have g1 := (h8.trans h2.perm.symm).map (·.2)
      refine g1.trans ?_
      have : ∀ G : List (CT × Nat × Nat), (∀ e ∈ G, ∃ f s, e.1 = CT.leaf f s ∧ 0 < f) → (G.flatMap (fun e => e.1.leaves)).map (·.2) = G.map (fun e => e.1.freq) := by
        intro G
        induction G with
        | nil => intro _; rfl
        | cons a G ih =>
          intro h
          obtain ⟨f, s, h1, _⟩ := h a (by simp)
          rw [List.flatMap_cons, List.map_append, ih (fun e he => h e (by simp [he])), List.map_cons, h1]
          rfl
      rw [this F hlf]
    have e2 : ∀ G : List (CT × Nat × Nat), (∀ e ∈ G, ∃ f s, e.1 = CT.leaf f s ∧ 0 < f) → (G.map (fun e => e.1.cost)).sum = 0 := by
      intro G
      induction G with
      | nil => intro _; rfl
      | cons a G ih =>
        intro h
        obtain ⟨f, s, h1, _⟩ := h a (by simp)
        rw [List.map_cons, List.sum_cons, ih (fun e he => h e (by simp [he])), h1]
        rfl
    have := h10 t' (ht'.trans e1)
    rw [e2 F hlf] at this
    omega

end Huff

/-! ### Balanced shape -/

/-- As `Rep`; the nodes have an index of at least `lo`, and children have a larger index than their parent. -/
def RepGe (lo : Nat) (temp : List PcNode) : CT → Nat → Prop
  | leaf f s, a => lo ≤ a ∧ ∃ p, temp[a]? = some p ∧ p.freq = f ∧ p.sym = s ∧ p.child0 = PcNode.undef ∧ p.child1 = PcNode.undef
  | node l r, a => lo ≤ a ∧ ∃ p, temp[a]? = some p ∧ p.freq = l.freq + r.freq ∧ a < p.child0 ∧ a < p.child1 ∧ RepGe lo temp l p.child0 ∧ RepGe lo temp r p.child1

theorem RepGe.lt {lo : Nat} {temp : List PcNode} {t : CT} {a : Nat} (h : RepGe lo temp t a) : lo ≤ a ∧ a < temp.length := by
  cases t with
  | leaf f s => obtain ⟨h0, p, h1, _⟩ := h; exact ⟨h0, (List.getElem?_eq_some_iff.1 h1).1⟩
  | node l r => obtain ⟨h0, p, h1, _⟩ := h; exact ⟨h0, (List.getElem?_eq_some_iff.1 h1).1⟩

theorem RepGe.congr {lo lo' : Nat} {nodes nodes' : List PcNode} (hlo : lo' ≤ lo) (h : ∀ j, lo ≤ j → j < nodes.length → nodes'[j]? = nodes[j]?) : ∀ {t : CT} {a : Nat},
    RepGe lo nodes t a → RepGe lo' nodes' t a := by
  intro t
  induction t with
  | leaf f s =>
    rintro a ⟨h0, p, h1, h2⟩
    exact ⟨by omega, p, by rw [h a h0 (List.getElem?_eq_some_iff.1 h1).1, h1], h2⟩
  | node l r ih1 ih2 =>
    rintro a ⟨h0, p, h1, h2, h3, h4, h5, h6⟩
    exact ⟨by omega, p, by rw [h a h0 (List.getElem?_eq_some_iff.1 h1).1, h1], h2, h3, h4, ih1 h5, ih2 h6⟩

namespace Blcd

theorem symbols_eq : ∀ (C : List Nat) (i : Nat), symbols C i = (present C i).map (·.1) := by
  intro C
  induction C with
  | nil => intro i; rfl
  | cons f C ih =>
    intro i
    rw [symbols, present]
    by_cases hf : f > 0
    · rw [if_pos hf, if_pos hf, List.map_cons, ih]
    · rw [if_neg hf, if_neg hf, ih]

theorem take_drop_add {α : Type} (l : List α) (a b c : Nat) (h : b ≤ c) : ((l.drop a).take b) ++ ((l.drop (a + b)).take (c - b)) = (l.drop a).take c := by
  have : c = b + (c - b) := by omega
  rw [this, List.take_add, List.drop_drop, Nat.add_sub_cancel_left]

theorem build_spec (C : List Nat) : ∀ (fuel parent lb sigma : Nat) (nodes : List PcNode), 0 < sigma → sigma ≤ fuel → lb + sigma ≤ (present C 0).length →
    ∃ nodes' t, build C (symbols C 0) fuel parent lb sigma nodes = some (nodes', t.freq, nodes.length) ∧ nodes'.length + 1 = nodes.length + 2 * sigma ∧
      (∀ j, j < nodes.length → nodes'[j]? = nodes[j]?) ∧ RepGe nodes.length nodes' t nodes.length ∧ t.leaves = ((present C 0).drop lb).take sigma ∧ t.size + 1 = 2 * sigma ∧
      ∀ k, sigma ≤ 2 ^ k → t.height ≤ k := by
  intro fuel
  induction fuel with
  | zero => intro parent lb sigma nodes h1 h2; omega
  | succ fuel ih =>
    intro parent lb sigma nodes h1 h2 h3
    rw [build]
    by_cases hs : sigma = 1
    · subst hs
      have hlb : lb < (present C 0).length := by omega
      rw [if_pos rfl, symbols_eq, List.getElem?_map, List.getElem?_eq_getElem hlb, Option.map_some, sbind]
      generalize he : (present C 0)[lb] = e
      obtain ⟨s, f⟩ := e
      have hm : (s, f) ∈ present C 0 := by rw [← he]; exact List.getElem_mem _
      obtain ⟨_, h4, _⟩ := mem_present.1 hm
      rw [Nat.sub_zero] at h4
      dsimp only
      rw [h4, sbind]
      refine ⟨_, CT.leaf f s, rfl, by simp, ?_, ⟨Nat.le_refl _, ⟨f, s, parent, PcNode.undef, PcNode.undef⟩, by simp, rfl, rfl, rfl, rfl⟩, ?_, rfl, fun k _ => Nat.zero_le k⟩
      · intro j hj; rw [List.getElem?_append_left hj]
      · rw [List.drop_eq_getElem_cons hlb, he]; rfl
    · rw [if_neg hs]
      dsimp only
      obtain ⟨n1, t1, a1, a2, a3, a4, a5, a6, a7⟩ := ih nodes.length lb ((sigma + 1) / 2) (nodes ++ [⟨0, 0, parent, PcNode.undef, PcNode.undef⟩]) (by omega) (by omega) (by omega)
      rw [List.length_append, List.length_singleton] at a1 a2 a3 a4
      rw [a1, sbind]
      dsimp only
      obtain ⟨n2, t2, b1, b2, b3, b4, b5, b6, b7⟩ := ih nodes.length (lb + (sigma + 1) / 2) (sigma - (sigma + 1) / 2) n1 (by omega) (by omega) (by omega)
      rw [b1, sbind]
      dsimp only
      have hid : n2[nodes.length]? = some ⟨0, 0, parent, PcNode.undef, PcNode.undef⟩ := by
        rw [b3 _ (by omega), a3 _ (by omega), List.getElem?_append_right (by omega)]; simp
      have hl2 := (List.getElem?_eq_some_iff.1 hid).1
      rw [hid, sbind, setList_of_lt hl2, sbind]
      refine ⟨_, CT.node t1 t2, rfl, by rw [List.length_set]; omega, ?_, ?_, ?_, ?_, ?_⟩
      · intro j hj
        rw [getElem?_set' hl2, if_neg (by omega), b3 _ (by omega), a3 _ (by omega), List.getElem?_append_left hj]
      · refine ⟨Nat.le_refl _, _, by rw [getElem?_set' hl2, if_pos rfl], rfl, by dsimp only; omega, by dsimp only; omega, ?_, ?_⟩
        · dsimp only
          refine RepGe.congr (by omega) ?_ a4
          intro j j1 j2
          rw [getElem?_set' hl2, if_neg (by omega), b3 _ j2]
        · dsimp only
          refine RepGe.congr (by omega) ?_ b4
          intro j j1 j2
          rw [getElem?_set' hl2, if_neg (by omega)]
      · rw [CT.leaves, a5, b5]
        exact take_drop_add _ _ _ _ (by omega)
      · rw [CT.size]; omega
      · intro k hk
        cases k with
        | zero => rw [Nat.pow_zero] at hk; omega
        | succ k =>
          rw [Nat.pow_succ] at hk
          have g1 := a7 k (by omega)
          have g2 := b7 k (by omega)
          rw [CT.height]
          omega

theorem rotate_rep {root : PcNode} {rest : List PcNode} (hN : rest.length + 1 < PcNode.undef) :
    ∀ {t : CT} {a : Nat}, RepGe 0 (root :: rest) t a →
      Rep (rest.map (fun d => { d with parent := (d.parent + (root :: rest).length - 1) % (root :: rest).length, child0 := dec d.child0, child1 := dec d.child1 }) ++
      [{ root with child0 := dec root.child0, child1 := dec root.child1 }]) t (if a = 0 then rest.length else a - 1) := by
  have hdec : ∀ c, 0 < c → c < rest.length + 1 → dec c = if c = 0 then rest.length else c - 1 := by
    intro c h1 h2
    rw [dec, if_neg (by omega), if_neg (by omega)]
  have hundef : dec PcNode.undef = PcNode.undef := by rw [dec, if_pos rfl]
  have key : ∀ (a : Nat) (p : PcNode), (root :: rest)[a]? = some p → ∃ p' : PcNode,
      (rest.map (fun d => { d with parent := (d.parent + (root :: rest).length - 1) % (root :: rest).length, child0 := dec d.child0, child1 := dec d.child1 }) ++
      [{ root with child0 := dec root.child0, child1 := dec root.child1 }])[if a = 0 then rest.length else a - 1]? = some p' ∧ p'.freq = p.freq ∧ p'.sym = p.sym ∧ p'.child0 = dec p.child0 ∧
      p'.child1 = dec p.child1 := by
    intro a p h
    cases a with
    | zero =>
      rw [List.getElem?_cons_zero] at h; cases h
      rw [if_pos rfl, List.getElem?_append_right (by simp)]
      simp
    | succ a =>
      rw [List.getElem?_cons_succ] at h
      have := (List.getElem?_eq_some_iff.1 h).1
      rw [if_neg (by omega), Nat.add_sub_cancel, List.getElem?_append_left (by simpa using this), List.getElem?_map, h]
      exact ⟨_, rfl, rfl, rfl, rfl, rfl⟩
  intro t
  induction t with
  | leaf f s =>
    rintro a ⟨_, p, h1, h2, h3, h4, h5⟩
    obtain ⟨p', g1, g2, g3, g4, g5⟩ := key a p h1
    exact ⟨p', g1, by rw [g2, h2], by rw [g3, h3], by rw [g4, h4, hundef], by rw [g5, h5, hundef]⟩
  | node l r ih1 ih2 =>
    rintro a ⟨_, p, h1, h2, h3, h4, h5, h6⟩
    obtain ⟨p', g1, g2, g3, g4, g5⟩ := key a p h1
    have k1 := h5.lt.2
    have k2 := h6.lt.2
    rw [List.length_cons] at k1 k2
    refine ⟨p', g1, by rw [g2, h2], ?_, ?_⟩
    · rw [g4, hdec _ (by omega) k1]; exact ih1 h5
    · rw [g5, hdec _ (by omega) k2]; exact ih2 h6

/-- The height is the least possible for a binary tree with this number of leaves. -/
def Flat (t : CT) : Prop := ∀ k, t.leaves.length ≤ 2 ^ k → t.height ≤ k

theorem tree_spec {C : List Nat} (hC : present C 0 ≠ []) (hN : 2 * (present C 0).length < 2 ^ 64) :
    ∃ temp t, tree C = some temp ∧ Rep temp t (temp.length - 1) ∧ t.size = temp.length ∧ t.leaves = present C 0 ∧ Flat t := by
  have hl : 0 < (present C 0).length := List.length_pos_of_ne_nil hC
  obtain ⟨nodes, t, h1, h2, h3, h4, h5, h6, h7⟩ := build_spec C (present C 0).length PcNode.undef 0 (present C 0).length [] hl (Nat.le_refl _) (by omega)
  have hsl : (symbols C 0).length = (present C 0).length := by rw [symbols_eq, List.length_map]
  rw [tree]
  dsimp only
  rw [hsl, if_pos hl, h1, sbind]
  dsimp only
  cases nodes with
  | nil => simp at h2; omega
  | cons root rest =>
    rw [rotate]
    have hr : rest.length + 1 < PcNode.undef := by
      unfold PcNode.undef
      simp only [List.length_cons, List.length_nil] at h2
      omega
    have h8 : t.leaves = present C 0 := by rw [h5]; simp
    refine ⟨_, t, rfl, ?_, ?_, h8, ?_⟩
    · have := rotate_rep hr h4
      rw [List.length_nil, if_pos rfl] at this
      simpa using this
    · simp at h2 ⊢; omega
    · intro k hk
      rw [h8] at hk
      exact h7 k hk

end Blcd

end Sdsl.Wt
