/-
  cst_sada as a suffix tree of a text: edge, child, sl, wl, sn.
-/
import Verif.CstSadaIds
import Verif.CstSct3CsaOps

namespace Sdsl.CstSada

set_option linter.unusedSectionVars false

open Csa Spec Props RmqSct SufTree
open CstSct3 (CsaI CsaIOk getCharPos getCharPos_ok inner_len child_occ next_le snoc_prefix row_cmp present lcp_facts occ_unique root_label back_rows)

section

variable {L : List Nat} {s : Cst} {S D : Nat} (ok : Ok L s S D) {i j a c : Nat}

local notation "W" => vals L
local notation "N" => L.length
local notation "O" => oP (vals L) L.length
local notation "X" => cP (vals L) L.length
local notation "B" => bitAt s.bp.mem

include ok

theorem Ok.someSuffix (h : IsNode L i j) : ∃ k, s.someSuffix (O i j) = some k ∧ i ≤ k ∧ k ≤ j := by
  rw [Cst.someSuffix, ok.isLeaf h, sbind]
  have hij := h.1
  by_cases e : i = j
  · rw [decide_eq_true e, if_pos rfl, ok.lb h]
    exact ⟨i, rfl, Nat.le_refl _, hij⟩
  · rw [decide_eq_false e, if_neg (by decide)]
    obtain ⟨c, g1, g2, g3, -⟩ := ok.first_min h (by omega)
    have := g1.1
    exact ⟨c + 1, g3, by omega, by omega⟩

theorem Ok.rightLeaf (h : IsNode L i j) (hij : i < j) : s.rightLeaf (O i j) = some j := by
  have h1 := ok.cin_node h hij
  have h2 : occ .p10 s.bp.mem (X i j) = false := by
    rw [Bool.eq_false_iff]
    intro g
    obtain ⟨g1, g2, g3⟩ := occ10_iff.1 g
    rw [cin, g2, show (X i j == 0) = false by rw [beq_eq_false_iff_ne]; omega] at h1
    simp at h1
  have h3 := leaves_cP ok.blk h
  have h4 : countTrue (occ .p10 s.bp.mem) (X i j + 1) = countTrue (occ .p10 s.bp.mem) (X i j) := by
    show _ + (occ .p10 s.bp.mem (X i j)).toNat = _
    rw [h2]; rfl
  rw [Cst.rightLeaf, ok.findClose h, sbind, ok.rank10 (by have := ok.xlt h; omega), sbind, ← h4, h3, sub_eq (by omega)]; rfl

theorem Ok.lastLeaf (h : IsNode L i j) : s.lastLeaf (O i j) i = some j := by
  rw [Cst.lastLeaf, ok.isLeaf h, sbind]
  have hij := h.1
  by_cases e : i = j
  · rw [decide_eq_true e, if_pos rfl, e]
  · rw [decide_eq_false e, if_neg (by decide), ok.rightLeaf h (by omega)]

end

section

variable {K : CsaI} {T SA L : List Nat} {Q : Nat → Prop} (h : CsaIOk K T SA Q) (hL : IsLcpArray T SA L) {s : Cst} {S D : Nat} (ok : Ok L s S D) {i j : Nat}

local notation "W" => vals L
local notation "N" => L.length
local notation "O" => oP (vals L) L.length
local notation "X" => cP (vals L) L.length
local notation "B" => bitAt s.bp.mem

include h hL ok

theorem Ok.edge (hn : IsNode L i j) {w : List Nat} (hw : IsLabel T SA i j w) {d : Nat} (h1 : 1 ≤ d) (h2 : d ≤ w.length) : s.edge K (O i j) d = w[d - 1]? := by
  have hl := hL.1
  have hj := hn.2.1
  obtain ⟨k, k1, k2, k3⟩ := ok.someSuffix hn
  have hpre := hw.1 k k2 k3
  have hle := hpre.length_le
  rw [suf_len] at hle
  have e : s.edge K (O i j) d = CstSct3.Cst.edge K ⟨k, k, 0, 0, 0⟩ d := by
    rw [Cst.edge, CstSct3.Cst.edge, k1, sbind]
  rw [e, CstSct3.edge_ok h h1 (by show k < _; omega) (by show sym SA k + _ < _; omega)]
  show some (sym T (sym SA k + (d - 1))) = _
  rw [← sym_getElem? (by omega), ← List.getElem?_drop]
  obtain ⟨z, hz⟩ : ∃ z, w ++ z = T.drop (sym SA k) := hpre
  rw [← hz, List.getElem?_append_left (by omega)]

/-- The loop of `child`, started at the child `[a..b]` of `[i..j]`. -/
theorem Ok.childLoop (hij : i < j) {w : List Nat} (hw : IsLabel T SA i j w) (ch : Nat) : ∀ (f a b : Nat), j - b < f → IsNode L a b → IsParent L a b i j →
    (∃ x y p, IsNode L x y ∧ IsParent L x y i j ∧ sym T (sym SA x + w.length) = ch ∧ s.childLoop K w.length (smaller T ch) (smaller T ch + T.count ch) f (O a b) = some (O x y, some p) ∧
      p < T.length ∧ ∃ k, x ≤ k ∧ k ≤ y ∧ sym SA p = sym SA k + w.length) ∨
    (∃ p, s.childLoop K w.length (smaller T ch) (smaller T ch + T.count ch) f (O a b) = some (0, some p)) ∧ ∀ k, a ≤ k → k ≤ j → sym T (sym SA k + w.length) ≠ ch
  | 0, _, _, hf, _, _ => by omega
  | f + 1, a, b, hf, hn, hp => by
    have hln := hL.1
    have hjn := hp.1.2.1
    have hab := hn.1
    have ha1 := hp.2.1
    have hb1 := hp.2.2.1
    have hlen : ∀ k, i ≤ k → k ≤ j → sym SA k + w.length < T.length := fun k k1 k2 => inner_len h.text h.isa' hij (by omega) hw.1 k1 k2
    have hocc := child_occ h.text h.isa' hL hij hw hn hp
    have hsame : ∀ k, a ≤ k → k ≤ b → sym T (sym SA k + w.length) = sym T (sym SA a + w.length) := fun k k1 k2 =>
      ((snoc_prefix (hw.1 k (by omega) (by omega))).1 ((hocc.2.2 k (by omega)).1 ⟨k1, k2⟩)).2
    obtain ⟨k, k1, k2, k3⟩ := ok.someSuffix hn
    obtain ⟨p, p1, p2, p3⟩ := getCharPos_ok h (idx := k) (d := w.length) (by omega) (hlen k (by omega) (by omega))
    have hc1 := row_cmp h.text h.isa' p2 ch
    rw [p3, hsame k k2 k3] at hc1
    rw [Cst.childLoop, k1, sbind, p1, sbind]
    by_cases b1 : p ≥ smaller T ch + T.count ch
    · rw [if_pos b1]
      have hlt := hc1.2.1 b1
      refine Or.inr ⟨⟨p, rfl⟩, fun x x1 x2 => ?_⟩
      have := next_le h.isa' x1 (by omega) (hw.1 a ha1 (by omega)) (hw.1 x (by omega) x2) (hlen a ha1 (by omega)) (hlen x (by omega) x2)
      omega
    · rw [if_neg b1]
      by_cases b2 : p ≥ smaller T ch
      · rw [if_pos b2]
        exact Or.inl ⟨a, b, p, hn, hp, by omega, rfl, p2, k, k2, k3, p3⟩
      · rw [if_neg b2]
        have hlt := hc1.1.1 (by omega)
        obtain ⟨g1, g2, g3⟩ := ok.sib hn hp
        rw [ok.findClose hn, sbind, ok.at' g1, sbind, g2]
        rcases Nat.eq_or_lt_of_le hb1 with e | e
        · rw [decide_eq_false (by omega), if_neg (by decide)]
          refine Or.inr ⟨⟨p, rfl⟩, fun x x1 x2 => ?_⟩
          rw [hsame x x1 (by omega)]; omega
        · rw [decide_eq_true e, if_pos rfl]
          obtain ⟨y, q1, q2, q3⟩ := g3 e
          have hby := q1.1
          clear g3
          rw [q2]
          have hfy : j - y < f := by clear hc1; omega
          rcases Ok.childLoop hij hw ch f (b + 1) y hfy q1 q3 with r | ⟨r1, r2⟩
          · exact Or.inl r
          · refine Or.inr ⟨r1, fun x x1 x2 => ?_⟩
            rcases Nat.lt_or_ge b x with c | c
            · exact r2 x c x2
            · rw [hsame x x1 c]; omega

/-- `child` for an inner node. -/
theorem Ok.child (hn : IsNode L i j) (hij : i < j) {w : List Nat} (hw : IsLabel T SA i j w) {ch : Nat} (hc : Q ch) :
    (∀ x y, IsOcc T SA (w ++ [ch]) x y → ∃ p, s.child K L (O i j) ch = some (O x y, some p) ∧ IsNode L x y ∧ IsParent L x y i j ∧ p < T.length ∧ ∃ k, x ≤ k ∧ k ≤ y ∧ sym SA p = sym SA k + w.length) ∧
    ((∀ k, k < T.length → ¬ w ++ [ch] <+: suf T SA k) → ∃ p, s.child K L (O i j) ch = some (0, p)) := by
  have hln := hL.1
  have hjn := hn.2.1
  have hocc := node_occ h.text h.isa' hL hn hw
  have start : s.child K L (O i j) ch = (do
      let cc ← K.alpha.char2comp ch
      if cc = 0 ∧ ch ≠ 0 then some (Cst.root, none) else do
        let cmax ← K.alpha.C (cc + 1)
        let cmin ← K.alpha.C cc
        let d ← s.depth L K.sa (O i j)
        s.childLoop K d cmin cmax (s.bp.n + 1) (O i j + 1)) := by
    rw [Cst.child, ok.isLeaf hn, sbind, decide_eq_false (by omega), if_neg (by decide)]
  by_cases hm : ch ∈ T
  swap
  · have hcc : K.alpha.char2comp ch = some 0 := h.alpha.absent ch hc (fun e => hm (h.isa'.bwt_perm.mem_iff.1 e))
    have h0 : ch ≠ 0 := by
      rintro rfl
      apply hm
      have := h.text.pos
      rw [← h.text.last]
      exact sym_mem (by omega)
    constructor
    · intro x y ho
      exfalso
      have h1 := (ho.2.2 x (by have := ho.1; have := ho.2.1; omega)).1 ⟨Nat.le_refl _, ho.1⟩
      apply hm
      exact List.mem_of_mem_drop (h1.subset (by simp))
    · intro _
      refine ⟨none, ?_⟩
      rw [start, hcc, sbind, if_pos ⟨rfl, h0⟩]; rfl
  obtain ⟨k, k1, k2, k3, k4, k5, k6⟩ := present h hm
  obtain ⟨d, d1, d2, d3⟩ := ok.depth_inner (fun _ => by
    have := (lcp_facts h.text h.isa' hL).2.2.2 (by omega)
    exact ⟨1, by omega, by omega, this⟩) hn hij K.sa
  have hdw : d = w.length := (label_len h.isa' hL hij (by omega) hw d2 d3).symm
  obtain ⟨c, f1, f2, f3, f4⟩ := ok.first hn hij
  have hN : N ≤ s.bp.n := by
    have := ok.count_leaf
    have := countTrue_le (occ .p10 s.bp.mem) s.bp.n
    omega
  have hstart : s.child K L (O i j) ch = s.childLoop K w.length (smaller T ch) (smaller T ch + T.count ch) (s.bp.n + 1) (O i c) := by
    rw [start, k1, sbind, if_neg (by intro hh; exact hh.2 (k6 hh.1)), k5, sbind, k4, sbind, d1, sbind, hdw, f3]
  rw [hstart]
  rcases ok.childLoop h hL hij hw ch (s.bp.n + 1) i c (by omega) f1 f4 with ⟨x, y, p, q1, q2, q3, q4, q5, q6⟩ | ⟨q1, q2⟩
  · have ho := child_occ h.text h.isa' hL hij hw q1 q2
    rw [q3] at ho
    refine ⟨fun x' y' ho' => ?_, fun hno => ?_⟩
    · obtain ⟨rfl, rfl⟩ := occ_unique ho ho'
      exact ⟨p, q4, q1, q2, q5, q6⟩
    · exfalso
      have := ho.1
      have := ho.2.1
      exact hno x (by omega) ((ho.2.2 x (by omega)).1 ⟨Nat.le_refl _, ho.1⟩)
  · refine ⟨fun x y ho => ?_, fun _ => ?_⟩
    · exfalso
      have h1 := (ho.2.2 x (by have := ho.1; have := ho.2.1; omega)).1 ⟨Nat.le_refl _, ho.1⟩
      have h2 := (hocc.2.2 x (by have := ho.1; have := ho.2.1; omega)).2 ((List.prefix_append _ _).trans h1)
      exact q2 x h2.1 h2.2 ((snoc_prefix (hw.1 x h2.1 h2.2)).1 h1).2
    · obtain ⟨p, hp⟩ := q1
      exact ⟨some p, hp⟩

/-- The node of the rows `n` symbols behind the borders of an inner node. -/
theorem Ok.two_rows (hn : IsNode L i j) (hij : i < j) {w0 : List Nat} (hw0 : IsLabel T SA i j w0) {n p q : Nat} (hl : n ≤ w0.length) (hp : p < T.length) (hq : q < T.length)
    (ep : sym SA p = sym SA i + n) (eq : sym SA q = sym SA j + n) : ∃ x y, s.lca (O p p) (O q q) = some (O x y) ∧ IsNode L x y ∧ IsLabel T SA x y (w0.drop n) := by
  have hln := hL.1
  have hjn := hn.2.1
  have split : ∀ k r, i ≤ k → k ≤ j → sym SA r = sym SA k + n → suf T SA k = w0.take n ++ suf T SA r ∧ w0.drop n <+: suf T SA r := by
    intro k r k1 k2 e
    have hk := hw0.1 k k1 k2
    obtain ⟨z, hz⟩ : ∃ z, w0 ++ z = suf T SA k := hk
    have hd : suf T SA r = (suf T SA k).drop n := by rw [suf, suf, e, ← List.drop_drop]
    have e1 : (suf T SA k).take n = w0.take n := by rw [← hz, List.take_append_of_le_length hl]
    refine ⟨by rw [hd, ← e1, List.take_append_drop], ?_⟩
    rw [hd, ← hz, List.drop_append_of_le_length hl]
    exact List.prefix_append _ _
  obtain ⟨s1, s2⟩ := split i p (Nat.le_refl _) hn.1 ep
  obtain ⟨t1, t2⟩ := split j q hn.1 (Nat.le_refl _) eq
  have hlt : p < q := by
    have h1 : suf T SA i < suf T SA j := h.isa'.sorted hij (by omega)
    rw [s1, t1] at h1
    have h2 : suf T SA p < suf T SA q := by
      generalize w0.take n = u at h1
      induction u with
      | nil => exact h1
      | cons a u ih =>
        rw [List.cons_append, List.cons_append, List.cons_lt_cons_iff] at h1
        rcases h1 with h1 | ⟨_, h1⟩
        · omega
        · exact ih h1
    rcases Nat.lt_trichotomy p q with c | c | c
    · exact c
    · rw [c] at h2; exact absurd h2 (List.lt_irrefl _)
    · exact absurd h2 (List.lt_asymm (h.isa'.sorted c hp))
  obtain ⟨x, y, e, u3, u4, u5, u6, u7, u8⟩ := ok.leaves_lca hlt (by omega)
  refine ⟨x, y, e, u3, ?_⟩
  have hun := u3.2.1
  obtain ⟨a, b, o, o1, o2⟩ := occ_exists h.isa' hp s2
  have hjo := (o.2.2 q hq).2 t2
  have hsub := u8 a b (occ_node h.isa' hL o) o1 o2 hjo.1 hjo.2
  refine ⟨fun k k1 k2 => (o.2.2 k (by omega)).1 ⟨by omega, by omega⟩, fun z hz => ?_⟩
  have hzp := hz p (by omega) (by omega)
  have hzq := hz q (by omega) (by omega)
  have := hw0.2 (w0.take n ++ z) (fun k k1 k2 => suf_between h.isa' k1 k2 (by omega) (by rw [s1, List.prefix_append_right_inj]; exact hzp) (by rw [t1, List.prefix_append_right_inj]; exact hzq))
  rw [List.length_append, List.length_take] at this
  rw [List.length_drop]
  omega

omit ok in
theorem leaf_len (hi : i < T.length) (h0 : i ≠ 0) : sym SA i + 1 < T.length := by
  rcases Nat.lt_or_ge (sym SA i + 1) T.length with c | c
  · exact c
  · exfalso
    have hp := h.isa'.sym_get_lt hi
    have h1 : sym T (sym SA i) = 0 := by rw [show sym SA i = T.length - 1 by omega, h.text.last]
    have h2 := CstSct3.sym_le h.isa' (i := 0) (j := i) (by omega) hi
    have h3 := h.text.eq_last (h.isa'.sym_get_lt (i := 0) (by omega)) (by omega)
    have := h.isa'.inj (i := 0) (j := i) (by omega) (by omega) (by omega)
    omega

omit ok in
theorem first_row : sym SA 0 = T.length - 1 := by
  have hpos := h.text.pos
  obtain ⟨x, x1, x2⟩ := h.isa'.surj (p := T.length - 1) (by omega)
  have h3 : sym T (sym SA x) = 0 := by rw [x2, h.text.last]
  have h4 : sym T (sym SA 0) ≤ sym T (sym SA x) := CstSct3.sym_le h.isa' (by omega) x1
  exact h.text.eq_last (h.isa'.sym_get_lt (i := 0) (by omega)) (by omega)

/-- `sl(v, n)` removes the first `n` symbols of the label. -/
theorem Ok.slN (hn : IsNode L i j) (hnr : ¬ (i = 0 ∧ j + 1 = N)) {w : List Nat} (hw : IsLabel T SA i j w) {n : Nat} (hl : n ≤ w.length) (hlf : i = j → n < w.length) :
    ∃ x y, s.slN K (O i j) n = some (O x y) ∧ IsNode L x y ∧ IsLabel T SA x y (w.drop n) := by
  have hln := hL.1
  have hjn := hn.2.1
  have hij := hn.1
  rw [Cst.slN, show Cst.root = 0 from rfl, if_neg (fun e => hnr ((ok.root_iff hn).1 e)), ok.lb hn, sbind, ok.isLeaf hn, sbind]
  by_cases e : i = j
  · rw [decide_eq_true e, if_pos rfl]
    subst e
    have hw' := label_unique (Nat.le_refl _) hw label_leaf
    have hlen : w.length = T.length - sym SA i := by rw [hw', suf_len]
    obtain ⟨p, p1, p2, p3⟩ := getCharPos_ok h (idx := i) (d := n) (by omega) (by have := hlf rfl; omega)
    rw [p1, sbind, ok.selectLeaf (by omega)]
    refine ⟨p, p, rfl, leaf_node (by omega), ?_⟩
    have : w.drop n = suf T SA p := by rw [hw', suf, suf, p3, ← List.drop_drop]
    rw [this]
    exact label_leaf
  · rw [decide_eq_false e, if_neg (by decide), ok.rightLeaf hn (by omega), sbind]
    have li := inner_len h.text h.isa' (k := i) (by omega) (by omega) hw.1 (Nat.le_refl _) hij
    have lj := inner_len h.text h.isa' (k := j) (by omega) (by omega) hw.1 hij (Nat.le_refl _)
    obtain ⟨p, p1, p2, p3⟩ := getCharPos_ok h (idx := i) (d := n) (by omega) (by omega)
    obtain ⟨q, q1, q2, q3⟩ := getCharPos_ok h (idx := j) (d := n) (by omega) (by omega)
    rw [p1, sbind, ok.selectLeaf (by omega), sbind, q1, sbind, ok.selectLeaf (by omega), sbind]
    exact ok.two_rows h hL hn (by omega) hw hl p2 q2 p3 q3

/-- `sl(v)` removes the first symbol of the label, except for the leaf of the sentinel. -/
theorem Ok.sl (hn : IsNode L i j) (hnr : ¬ (i = 0 ∧ j + 1 = N)) (hnl : ¬ (i = 0 ∧ j = 0)) :
    ∃ a w x y, IsLabel T SA i j (a :: w) ∧ s.sl K (O i j) = some (O x y) ∧ IsNode L x y ∧ IsLabel T SA x y w := by
  have hln := hL.1
  have hjn := hn.2.1
  have hij := hn.1
  have hn1 : 1 < T.length := by omega
  obtain ⟨w0, hw0⟩ := label_exists (T := T) h.isa' hij (by omega)
  cases w0 with
  | nil => exact absurd ((root_label h.text h.isa' hL hn1).2 _ _ hn hw0) (by rw [← hln]; exact hnr)
  | cons a w =>
    refine ⟨a, w, ?_⟩
    rw [Cst.sl, show Cst.root = 0 from rfl, if_neg (fun e => hnr ((ok.root_iff hn).1 e)), ok.lb hn, sbind, ok.isLeaf hn, sbind]
    obtain ⟨p, p1, p2, p3⟩ := h.psi i (by omega)
    by_cases e : i = j
    · rw [decide_eq_true e, if_pos rfl]
      subst e
      have hw' := label_unique (Nat.le_refl _) hw0 label_leaf
      rw [nxt_small (leaf_len h hL (by omega) (by omega))] at p3
      rw [p1, sbind, ok.selectLeaf (by omega)]
      refine ⟨p, p, hw0, rfl, leaf_node (by omega), ?_⟩
      have : w = suf T SA p := by
        have : (a :: w).drop 1 = suf T SA p := by rw [hw', suf, suf, p3, ← List.drop_drop]
        exact this
      rw [this]
      exact label_leaf
    · rw [decide_eq_false e, if_neg (by decide), ok.rightLeaf hn (by omega), sbind]
      have li := inner_len h.text h.isa' (k := i) (by omega) (by omega) hw0.1 (Nat.le_refl _) hij
      have lj := inner_len h.text h.isa' (k := j) (by omega) (by omega) hw0.1 hij (Nat.le_refl _)
      rw [List.length_cons] at li lj
      obtain ⟨q, q1, q2, q3⟩ := h.psi j (by omega)
      rw [nxt_small (by omega)] at p3 q3
      rw [p1, sbind, ok.selectLeaf (by omega), sbind, q1, sbind, ok.selectLeaf (by omega), sbind]
      obtain ⟨x, y, g1, g2, g3⟩ := ok.two_rows h hL hn (by omega) hw0 (n := 1) (by rw [List.length_cons]; omega) p2 q2 p3 q3
      exact ⟨x, y, hw0, g1, g2, g3⟩

/-- `sl` of the leaf of the sentinel: the leaf of the whole text. -/
theorem Ok.sl_sentinel (hn : 1 < N) : ∃ r, r < N ∧ sym SA r = 0 ∧ s.sl K (O 0 0) = some (O r r) := by
  have hln := hL.1
  have hl := leaf_node (L := L) (i := 0) (by omega)
  obtain ⟨p, p1, p2, p3⟩ := h.psi 0 (by omega)
  rw [first_row h hL] at p3
  have e : nxt T.length (T.length - 1) = 0 := by unfold nxt; rw [show T.length - 1 + 1 = T.length by omega, Nat.mod_self]
  refine ⟨p, by omega, by rw [p3]; exact e, ?_⟩
  rw [Cst.sl, show Cst.root = 0 from rfl, if_neg (fun e => by have := (ok.root_iff hl).1 e; omega), ok.lb hl, sbind, ok.isLeaf hl, sbind, decide_eq_true rfl, if_pos rfl, p1, sbind,
    ok.selectLeaf (by omega)]

/-- `wl` for a symbol that is not the sentinel. -/
theorem Ok.wl (hn : IsNode L i j) {w : List Nat} (hw : IsLabel T SA i j w) {c : Nat} (hc : Q c) (h0 : c ≠ 0) :
    (∀ x y, IsOcc T SA (c :: w) x y → s.wl K (O i j) c = some (O x y) ∧ IsNode L x y) ∧ ((∀ k, k < T.length → ¬ c :: w <+: suf T SA k) → s.wl K (O i j) c = some 0) := by
  have hln := hL.1
  have hvij := hn.1
  have hjn := hn.2.1
  have hocc := node_occ h.text h.isa' hL hn hw
  rw [Cst.wl, ok.lb hn, sbind, ok.lastLeaf hn, sbind, h.rank i c (by omega) hc, sbind, h.rank (j + 1) c (by omega) hc, sbind]
  obtain ⟨cl, hcl⟩ : ∃ x, x = ((bwtOf T SA).take i).count c := ⟨_, rfl⟩
  obtain ⟨cr, hcr⟩ : ∃ x, x = ((bwtOf T SA).take (j + 1)).count c := ⟨_, rfl⟩
  have hmn : cl ≤ cr := by rw [hcl, hcr]; exact count_take_mono _ (by omega) c
  have hrow : ∀ k, k < T.length → (smaller T c + cl ≤ k ∧ k < smaller T c + cr ↔ c :: w <+: suf T SA k) := by
    intro k hk
    have hp := h.isa'.sym_get_lt hk
    rw [hcl, hcr, back_rows h.text h.isa' (by omega) (by omega) hk, suf, drop_cons hp, List.cons_prefix_cons]
    constructor
    · rintro ⟨e1, x, x1, x2, x3⟩
      refine ⟨e1.symm, ?_⟩
      have hs : sym SA k + 1 < T.length := by
        rcases Nat.lt_or_ge (sym SA k + 1) T.length with d | d
        · exact d
        · exfalso; apply h0; rw [← e1, show sym SA k = T.length - 1 by omega, h.text.last]
      rw [nxt_small hs] at x3
      rw [← x3]
      exact (hocc.2.2 x (by omega)).1 ⟨x1, by omega⟩
    · rintro ⟨e1, e2⟩
      have hs : sym SA k + 1 < T.length := by
        rcases Nat.lt_or_ge (sym SA k + 1) T.length with d | d
        · exact d
        · exfalso; apply h0; rw [e1, show sym SA k = T.length - 1 by omega, h.text.last]
      obtain ⟨x, x1, x2⟩ := h.isa'.surj hs
      rw [← x2] at e2
      have := (hocc.2.2 x x1).2 e2
      exact ⟨e1.symm, x, this.1, by omega, by rw [nxt_small hs, x2]⟩
  rw [← hcl, ← hcr]
  by_cases e : cl = cr
  · rw [if_pos e]
    refine ⟨fun x y ho => ?_, fun _ => rfl⟩
    exfalso
    have := ho.1
    have := ho.2.1
    have := (hrow x (by omega)).2 ((ho.2.2 x (by omega)).1 ⟨Nat.le_refl _, by omega⟩)
    omega
  · rw [if_neg e]
    have hle : cr ≤ T.count c := by
      have := count_take_mono (bwtOf T SA) (show j + 1 ≤ (bwtOf T SA).length by rw [h.isa'.bwt_length]; omega) c
      rw [List.take_length, bwt_count h.isa'] at this
      omega
    have hlen := smaller_add_count_le_length T c
    have hm : c ∈ T := List.count_pos_iff.1 (by omega)
    obtain ⟨k, k1, _, _, k4, _, _⟩ := present h hm
    rw [k1, sbind, k4, sbind]
    have ho : IsOcc T SA (c :: w) (smaller T c + cl) (smaller T c + cr - 1) := by
      refine ⟨by omega, by omega, fun x hx => ?_⟩
      rw [← hrow x hx]
      omega
    refine ⟨fun x y ho' => ?_, fun hno => ?_⟩
    · obtain ⟨e1, e2⟩ := occ_unique ho ho'
      rw [← e1, ← e2, Cst.wlNode]
      refine ⟨?_, occ_node h.isa' hL ho⟩
      by_cases d : cl + 1 = cr
      · rw [if_pos d, ok.selectLeaf (by omega), show smaller T c + cr - 1 = smaller T c + cl by omega]
      · rw [if_neg d, sub_eq (by omega), sbind]
        exact ok.node (occ_node h.isa' hL ho)
    · exfalso
      exact hno _ (by omega) ((hrow (smaller T c + cl) (by omega)).1 ⟨Nat.le_refl _, by omega⟩)

theorem Ok.sn (hi : i < N) : s.sn K (O i i) = some (sym SA i) := by
  have hln := hL.1
  rw [Cst.sn, ok.lb (leaf_node hi), sbind, h.sa i (by omega)]

end

end Sdsl.CstSada
