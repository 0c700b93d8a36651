/-
  child, sl and wl of cst_sct3.
-/
import Verif.CstSct3CsaLemmas

namespace Sdsl.CstSct3

open Csa Props Spec SufTree

/-! ### Extending labels by a symbol -/

section
variable {T SA L : List Nat}

theorem snoc_prefix {w : List Nat} {k c : Nat} (h : w <+: suf T SA k) : w ++ [c] <+: suf T SA k ↔ sym SA k + w.length < T.length ∧ sym T (sym SA k + w.length) = c := by
  obtain ⟨z, hz⟩ : ∃ z, w ++ z = T.drop (sym SA k) := h
  have hd : T.drop (sym SA k + w.length) = z := by rw [← List.drop_drop, ← hz, List.drop_left]
  rw [suf, ← hz, List.prefix_append_right_inj]
  constructor
  · intro h1
    have hlt : sym SA k + w.length < T.length := by
      rcases Nat.lt_or_ge (sym SA k + w.length) T.length with c1 | c1
      · exact c1
      · rw [List.drop_eq_nil_of_le c1] at hd
        rw [← hd] at h1
        simp at h1
    rw [← hd, drop_cons hlt, List.cons_prefix_cons] at h1
    exact ⟨hlt, h1.1.symm⟩
  · rintro ⟨h1, h2⟩
    rw [← hd, drop_cons h1, h2, List.cons_prefix_cons]
    exact ⟨rfl, List.nil_prefix⟩

/-- All suffixes of an inner node are longer than the label. -/
theorem inner_len (hT : IsText T) (hS : IsSA T SA) {i j k : Nat} {w : List Nat} (hij : i < j) (hj : j < T.length) (h : ∀ k, i ≤ k → k ≤ j → w <+: suf T SA k) (h1 : i ≤ k) (h2 : k ≤ j) :
    sym SA k + w.length < T.length := by
  have hk := h k h1 h2
  have hle := hk.length_le
  have hp := hS.sym_get_lt (i := k) (by omega)
  rw [suf_len] at hle
  rcases Nat.lt_or_ge (sym SA k + w.length) T.length with c | c
  · exact c
  · have he : w = suf T SA k := hk.eq_of_length (by rw [suf_len]; omega)
    have h3 := suf_prefix hT hS (i := k) (k := i) (by omega) (by omega) (by rw [← he]; exact h i (Nat.le_refl _) (by omega))
    have h4 := suf_prefix hT hS (i := k) (k := j) (by omega) (by omega) (by rw [← he]; exact h j (by omega) (Nat.le_refl _))
    omega

/-- The symbols behind the label are sorted. -/
theorem next_le (hS : IsSA T SA) {k k' : Nat} {w : List Nat} (h1 : k ≤ k') (hk : k' < T.length) (hw : w <+: suf T SA k) (hw' : w <+: suf T SA k') (hl : sym SA k + w.length < T.length)
    (hl' : sym SA k' + w.length < T.length) : sym T (sym SA k + w.length) ≤ sym T (sym SA k' + w.length) := by
  rcases Nat.eq_or_lt_of_le h1 with e | e
  · rw [e]
  · have h2 := hS.sorted e hk
    obtain ⟨z, hz⟩ : ∃ z, w ++ z = T.drop (sym SA k) := hw
    obtain ⟨z', hz'⟩ : ∃ z, w ++ z = T.drop (sym SA k') := hw'
    have hd : T.drop (sym SA k + w.length) = z := by rw [← List.drop_drop, ← hz, List.drop_left]
    have hd' : T.drop (sym SA k' + w.length) = z' := by rw [← List.drop_drop, ← hz', List.drop_left]
    rw [← hz, ← hz'] at h2
    have h3 : z < z' := by
      clear hz hz' hd hd' hl hl'
      induction w with
      | nil => exact h2
      | cons a w ih =>
        rw [List.cons_append, List.cons_append, List.cons_lt_cons_iff] at h2
        rcases h2 with h2 | ⟨_, h2⟩
        · omega
        · exact ih h2
    rw [← hd, ← hd'] at h3
    exact sym_le_of_drop hl hl' h3

theorem occ_unique {w : List Nat} {i j i' j' : Nat} (h : IsOcc T SA w i j) (h' : IsOcc T SA w i' j') : i = i' ∧ j = j' := by
  obtain ⟨h1, h2, h3⟩ := h
  obtain ⟨g1, g2, g3⟩ := h'
  have a1 := (g3 i (by omega)).2 ((h3 i (by omega)).1 ⟨Nat.le_refl _, h1⟩)
  have a2 := (g3 j (by omega)).2 ((h3 j (by omega)).1 ⟨h1, Nat.le_refl _⟩)
  have a3 := (h3 i' (by omega)).2 ((g3 i' (by omega)).1 ⟨Nat.le_refl _, g1⟩)
  have a4 := (h3 j' (by omega)).2 ((g3 j' (by omega)).1 ⟨g1, Nat.le_refl _⟩)
  omega

/-- A child consists of the suffixes that start with the label of the node and one more symbol. -/
theorem child_occ (hT : IsText T) (hS : IsSA T SA) (hL : IsLcpArray T SA L) {i j a c : Nat} {w : List Nat} (hij : i < j) (hw : IsLabel T SA i j w) (hu : IsNode L a c)
    (hp : IsParent L a c i j) : IsOcc T SA (w ++ [sym T (sym SA a + w.length)]) a c := by
  have hln := hL.1
  have hn := hp.1
  have hj := hn.2.1
  have ha1 := hp.2.1
  have hac := hu.1
  have hc1 := hp.2.2.1
  have hlen : ∀ k, i ≤ k → k ≤ j → sym SA k + w.length < T.length := fun k k1 k2 => inner_len hT hS hij (by omega) hw.1 k1 k2
  have hocc := node_occ hT hS hL hn hw
  have hx : w ++ [sym T (sym SA a + w.length)] <+: suf T SA a := (snoc_prefix (hw.1 a ha1 (by omega))).2 ⟨hlen a ha1 (by omega), rfl⟩
  obtain ⟨p, q, o, o1, o2⟩ := occ_exists hS (by omega) hx
  have hpq := occ_node hS hL o
  have hsub : i ≤ p ∧ q ≤ j := by
    have h1 := (o.2.2 p (by have := o.1; have := o.2.1; omega)).1 ⟨Nat.le_refl _, o.1⟩
    have h2 := (o.2.2 q o.2.1).1 ⟨o.1, Nat.le_refl _⟩
    have h3 := (hocc.2.2 p (by have := o.1; have := o.2.1; omega)).2 ((List.prefix_append _ _).trans h1)
    have h4 := (hocc.2.2 q o.2.1).2 ((List.prefix_append _ _).trans h2)
    omega
  have hprop : ¬ (p = i ∧ q = j) := by
    rintro ⟨rfl, rfl⟩
    have := hw.2 _ (fun k k1 k2 => (o.2.2 k (by omega)).1 ⟨k1, k2⟩)
    rw [List.length_append, List.length_singleton] at this
    omega
  -- the child lies inside of these rows
  have hcq : c ≤ q := by
    rcases Nat.lt_or_ge q c with d | d
    · exfalso
      -- then the label of the child is that of the node
      obtain ⟨u, hul⟩ := label_exists (T := T) hS hac (by omega)
      have hou := node_occ hT hS hL hu hul
      have h1 : u.length ≤ w.length := by
        rcases Nat.lt_or_ge w.length u.length with e | e
        · exfalso
          have h2 : w ++ [sym T (sym SA a + w.length)] <+: u := List.prefix_of_prefix_length_le hx (hul.1 a (Nat.le_refl _) hac) (by rw [List.length_append, List.length_singleton]; exact e)
          have h3 := (o.2.2 c (by omega)).2 (h2.trans (hul.1 c hac (Nat.le_refl _)))
          omega
        · exact e
      have h2 : w.length ≤ u.length := hul.2 w (fun k k1 k2 => hw.1 k (by omega) (by omega))
      have h3 : u = w := (List.prefix_of_prefix_length_le (hul.1 a (Nat.le_refl _) hac) (hw.1 a ha1 (by omega)) h1).eq_of_length (by omega)
      rw [h3] at hou
      have := occ_unique hou hocc
      exact hp.2.2.2.1 ⟨by omega, by omega⟩
    · exact d
  by_cases e : p = a ∧ q = c
  · obtain ⟨rfl, rfl⟩ := e
    exact o
  · exfalso
    have := hp.2.2.2.2 p q hpq o1 hcq e
    omega

end

section
variable {K : CsaI} {T SA L : List Nat} {Q : Nat → Prop} (h : CsaIOk K T SA Q) (hL : IsLcpArray T SA L) {s : Cst} {S D : Nat} (ok : Ok L s S D) {v : Node}

include ok in
/-- What the binary search finds is the child. -/
theorem lidx_child (hv : Valid L (bitAt s.bp.mem) v) (hij : v.i < v.j) {d e : Nat} (hd : s.degree v = some d) (h1 : 1 ≤ e) (h2 : e + 1 < d) :
    ∃ k, s.selectL v e = some k ∧ s.childAt k.1 k.2.1 k.2.2 = s.selectChild v (e + 1) ∧ ∀ u, s.selectChild v (e + 1) = some u → u.i = k.1 := by
  obtain ⟨c, m, κ, hc, hd', hm1, hmr, ⟨hκ0, hκm⟩, hlt, hgt, hpr, hle, _, _, _⟩ := lidx_ok ok hv hij
  rw [hd] at hd'
  have hdm := Option.some.inj hd'
  obtain ⟨_, p1, g1, _⟩ := hpr 1 (Nat.le_refl _) hm1
  rw [show c - (1 - 1) = c by omega] at g1
  obtain ⟨_, p, g2, _⟩ := hpr e h1 (by omega)
  obtain ⟨_, p', g3, _⟩ := hpr (e + 1) (by omega) (by omega)
  have s1 := selectL_in ok hc (m := m) (by rw [hd, hdm]) g1 hmr h1 (by omega) g2
  have s2 := selectL_in ok hc (m := m) (by rw [hd, hdm]) g1 hmr (e := e + 1) (by omega) (by omega) g3
  have l1 := hlt e (by omega)
  have l2 := hlt (e + 1) (by omega)
  have l3 : ∀ t, e + 1 + t ≤ m + 1 → κ (e + 1) + t ≤ κ (e + 1 + t) := by
    intro t
    induction t with
    | zero => intro _; exact Nat.le_refl _
    | succ t ih =>
      intro ht
      have := ih (by omega)
      have := hlt (e + 1 + t) (by omega)
      show κ (e + 1) + (t + 1) ≤ κ (e + 1 + t + 1)
      omega
  have l4 := l3 (m - e) (by omega)
  rw [show e + 1 + (m - e) = m + 1 by omega, hκm] at l4
  have hjn := hv.node.2.1
  have hcp : 1 ≤ c - (e - 1) := by
    have := g2.2.1
    have := Pr.lt g2
    have := g3.lt
    rw [show c - (e + 1 - 1) = c - (e - 1) - 1 by omega] at g3
    omega
  rw [show c - (e + 1 - 1) = c - (e - 1) - 1 by omega] at g3 s2
  have hend : s.endPos (κ (e + 1) - 1) = some p' := by
    obtain ⟨x, x1, x2, x3⟩ := ok.endPos (j := κ (e + 1) - 1) (by omega)
    have := x3 (by omega)
    rw [x1]
    have h4 := ok.select g3
    unfold Cst.endPos at x1
    rw [ok.size, sub_eq (by omega), sbind, if_neg (by omega), show κ (e + 1) - 1 + 2 = κ (e + 1) + 1 by omega, h4] at x1
    exact x1.symm
  have hch : s.selectChild v (e + 1) = some ⟨κ e, κ (e + 1) - 1, p, c - (e - 1), p'⟩ := by
    rw [Cst.selectChild, if_neg (by rw [Cst.isLeaf, beq_iff_eq]; omega), if_neg (by omega), Nat.add_sub_cancel, s1, sbind]
    show (if κ e = v.j + 1 then _ else _) = _
    rw [if_neg (by omega), s2, sbind]
    show (do let q ← sub (κ (e + 1)) 1; _) = _
    rw [sub_eq (by omega), sbind]
    rfl
  refine ⟨_, s1, ?_, fun u hu => ?_⟩
  · rw [hch]
    show s.childAt (κ e) p (c - (e - 1)) = _
    rw [Cst.childAt, sub_eq hcp, sbind, ok.findOpen g3, sbind, ok.index g3, sbind, sub_eq (by omega), sbind, hend, sbind]
    rfl
  · rw [hch] at hu
    rw [← Option.some.inj hu]

include h hL ok

/-- The binary search over the children `l .. r-1` (counted from 1): it finds the child with the symbol `c`, or there is none. -/
theorem childSearch_ok (hv : Valid L (bitAt s.bp.mem) v) (hij : v.i < v.j) {w : List Nat} (hw : IsLabel T SA v.i v.j w) (c : Nat) {d : Nat} (hd : s.degree v = some d) {κ : Nat → Nat}
    (hch : ∀ e, e < d → ∃ u, s.selectChild v (e + 1) = some u ∧ Valid L (bitAt s.bp.mem) u ∧ u.i = κ e ∧ u.j + 1 = κ (e + 1) ∧ IsParent L u.i u.j v.i v.j)
    (hmono : ∀ e e', e ≤ e' → e' < d → sym T (sym SA (κ e) + w.length) ≤ sym T (sym SA (κ e') + w.length)) :
    ∀ (f l r cp : Nat), 1 ≤ f → r < f + l → 2 ≤ l → r ≤ d →
    (∃ e u p, l ≤ e + 1 ∧ e + 1 < r ∧ sym T (sym SA (κ e) + w.length) = c ∧ s.childSearch K v w.length (smaller T c) (smaller T c + T.count c) f l r cp = some (u, some p) ∧
      s.selectChild v (e + 1) = some u ∧ p < T.length ∧ sym SA p = sym SA u.i + w.length) ∨
    (∃ p, s.childSearch K v w.length (smaller T c) (smaller T c + T.count c) f l r cp = Cst.withPos s.root (some p)) ∧ ∀ e, l ≤ e + 1 → e + 1 < r → sym T (sym SA (κ e) + w.length) ≠ c := by
  have hln := hL.1
  have hjn := hv.node.2.1
  intro f
  induction f with
  | zero => intro l r cp h0; omega
  | succ f ih =>
    intro l r cp _ h1 h2 h3
    rw [Cst.childSearch]
    by_cases c1 : l < r
    · rw [if_pos c1]
      obtain ⟨m, hm⟩ : ∃ m, m = (l + r) / 2 := ⟨_, rfl⟩
      rw [← hm]
      obtain ⟨k, k1, k2, k3⟩ := lidx_child ok hv hij hd (e := m - 1) (by omega) (by omega)
      obtain ⟨u, u1, u2, u3, u4, u5⟩ := hch (m - 1) (by omega)
      have hk := k3 u u1
      have hu1 := u5.2.1
      have hu2 := u5.2.2.1
      have hu3 := u2.node.1
      obtain ⟨p, p1, p2, p3⟩ := getCharPos_ok h (idx := k.1) (d := w.length) (by omega) (by
        rw [← hk]
        exact inner_len h.text h.isa' hij (by omega) hw.1 hu1 (by omega))
      have hcmp := row_cmp h.text h.isa' p2 c
      rw [p3, ← hk, u3] at hcmp
      rw [k1, sbind, p1, sbind]
      by_cases c2 : smaller T c > p
      · rw [if_pos c2]
        have hlt := hcmp.1.1 c2
        rcases ih (m + 1) r p (by omega) (by omega) (by omega) h3 with ⟨e, u, p, e1, e2, e3⟩ | ⟨e1, e2⟩
        · exact Or.inl ⟨e, u, p, by omega, e2, e3⟩
        · refine Or.inr ⟨e1, fun e g1 g2 => ?_⟩
          rcases Nat.lt_or_ge m (e + 1) with c3 | c3
          · exact e2 e c3 g2
          · have := hmono e (m - 1) (by omega) (by omega)
            omega
      · rw [if_neg c2]
        by_cases c3 : smaller T c + T.count c ≤ p
        · rw [if_pos c3]
          have hlt := hcmp.2.1 c3
          rcases ih l m p (by omega) (by omega) (by omega) (by omega) with ⟨e, u, p, e1, e2, e3⟩ | ⟨e1, e2⟩
          · exact Or.inl ⟨e, u, p, e1, by omega, e3⟩
          · refine Or.inr ⟨e1, fun e g1 g2 => ?_⟩
            rcases Nat.lt_or_ge (e + 1) m with c4 | c4
            · exact e2 e g1 c4
            · have := hmono (m - 1) e (by omega) (by omega)
              omega
        · rw [if_neg c3, k2, u1, sbind]
          refine Or.inl ⟨m - 1, u, p, by omega, by omega, ?_, rfl, u1, p2, by rw [p3, hk]⟩
          omega
    · rw [if_neg c1]
      exact Or.inr ⟨⟨cp, rfl⟩, fun e e1 e2 => by omega⟩

/-- `child` for an inner node. -/
theorem child_ok (hv : Valid L (bitAt s.bp.mem) v) (hij : v.i < v.j) {w : List Nat} (hw : IsLabel T SA v.i v.j w) {c : Nat} (hc : Q c) :
    (∀ i j, IsOcc T SA (w ++ [c]) i j → ∃ u p, s.child K L v c = some (u, some p) ∧ Valid L (bitAt s.bp.mem) u ∧ u.i = i ∧ u.j = j ∧ IsParent L u.i u.j v.i v.j ∧ p < T.length ∧
      ∃ k, i ≤ k ∧ k ≤ j ∧ sym SA p = sym SA k + w.length) ∧
    ((∀ k, k < T.length → ¬ w ++ [c] <+: suf T SA k) → ∃ p, s.child K L v c = Cst.withPos s.root p) := by
  have hln := hL.1
  have hjn := hv.node.2.1
  have hocc := node_occ h.text h.isa' hL hv.node hw
  have hlen : ∀ k, v.i ≤ k → k ≤ v.j → sym SA k + w.length < T.length := fun k k1 k2 => inner_len h.text h.isa' hij (by omega) hw.1 k1 k2
  by_cases hm : c ∈ T
  swap
  · have hcc : K.alpha.char2comp c = some 0 := h.alpha.absent c hc (fun e => hm (h.isa'.bwt_perm.mem_iff.1 e))
    have h0 : c ≠ 0 := by
      rintro rfl
      apply hm
      have := h.text.pos
      rw [← h.text.last]
      exact sym_mem (by omega)
    constructor
    · intro i j ho
      exfalso
      have h1 := (ho.2.2 i (by have := ho.1; have := ho.2.1; omega)).1 ⟨Nat.le_refl _, ho.1⟩
      apply hm
      exact List.mem_of_mem_drop (h1.subset (by simp))
    · intro _
      refine ⟨none, ?_⟩
      rw [Cst.child, if_neg (by rw [Cst.isLeaf, beq_iff_eq]; omega), hcc, sbind, if_pos ⟨rfl, h0⟩]
  obtain ⟨k, k1, k2, k3, k4, k5, k6⟩ := present h hm
  obtain ⟨d, d1, d2, d3⟩ := depth_ok ok hv hij (by
    have := (lcp_facts h.text h.isa' hL).2.2.2 (by omega)
    exact ⟨1, by omega, by omega, this⟩) K.sa
  have hdw := label_len h.isa' hL hij (by omega) hw d2 d3
  have hstart : s.child K L v c = s.childFrom K v w.length (smaller T c) (smaller T c + T.count c) := by
    rw [Cst.child, if_neg (by rw [Cst.isLeaf, beq_iff_eq]; omega), k1, sbind, if_neg (by intro hh; exact hh.2 (k6 hh.1)), Nat.add_comm 1 k, k5, sbind, k4, sbind, d1, sbind, hdw]
  obtain ⟨cnt, κ, g1, g2, g3, g4, g5, g6, g7⟩ := children_ok ok hv hij
  have hκ : ∀ t e, e + t ≤ cnt → κ e + t ≤ κ (e + t) := by
    intro t
    induction t with
    | zero => intro e _; exact Nat.le_refl _
    | succ t ih =>
      intro e ht
      have := ih e (by omega)
      have := g5 (e + t) (by omega)
      show κ e + (t + 1) ≤ κ (e + t + 1)
      omega
  have hin : ∀ e, e < cnt → v.i ≤ κ e ∧ κ e ≤ v.j := by
    intro e he
    have h1 := hκ e 0 (by omega)
    have h2 := hκ (cnt - e) e (by omega)
    rw [show e + (cnt - e) = cnt by omega, g4] at h2
    rw [Nat.zero_add, g3] at h1
    omega
  have hmono : ∀ e e', e ≤ e' → e' < cnt → sym T (sym SA (κ e) + w.length) ≤ sym T (sym SA (κ e') + w.length) := by
    intro e e' h1 h2
    have h3 := hκ (e' - e) e (by omega)
    rw [show e + (e' - e) = e' by omega] at h3
    have h4 := hin e (by omega)
    have h5 := hin e' h2
    exact next_le h.isa' (by omega) (by omega) (hw.1 _ h4.1 h4.2) (hw.1 _ h5.1 h5.2) (hlen _ h4.1 h4.2) (hlen _ h5.1 h5.2)
  -- the child with a given symbol
  have hyes : ∀ e, e < cnt → sym T (sym SA (κ e) + w.length) = c → ∀ u p, s.selectChild v (e + 1) = some u → p < T.length → (∃ k, u.i ≤ k ∧ k ≤ u.j ∧ sym SA p = sym SA k + w.length) →
      (s.child K L v c = some (u, some p)) →
      ((∀ i j, IsOcc T SA (w ++ [c]) i j → ∃ u p, s.child K L v c = some (u, some p) ∧ Valid L (bitAt s.bp.mem) u ∧ u.i = i ∧ u.j = j ∧ IsParent L u.i u.j v.i v.j ∧ p < T.length ∧
        ∃ k, i ≤ k ∧ k ≤ j ∧ sym SA p = sym SA k + w.length) ∧
      ((∀ k, k < T.length → ¬ w ++ [c] <+: suf T SA k) → ∃ p, s.child K L v c = Cst.withPos s.root p)) := by
    intro e he h1 u p h2 h3 h4 h5
    obtain ⟨u', u1, u2, u3, u4, u5⟩ := g6 e he
    rw [h2] at u1
    obtain rfl := Option.some.inj u1
    have ho := child_occ h.text h.isa' hL hij hw u2.node u5
    rw [u3, h1] at ho
    rw [← u3] at ho
    constructor
    · intro i j ho'
      obtain ⟨e1, e2⟩ := occ_unique ho ho'
      exact ⟨u, p, h5, u2, e1, e2, u5, h3, by rw [← e1, ← e2]; exact h4⟩
    · intro hno
      exfalso
      have := ho.1
      have := ho.2.1
      exact hno u.i (by omega) ((ho.2.2 u.i (by omega)).1 ⟨Nat.le_refl _, by omega⟩)
  have hno : (∀ e, e < cnt → sym T (sym SA (κ e) + w.length) ≠ c) → (∃ p, s.child K L v c = Cst.withPos s.root p) →
      ((∀ i j, IsOcc T SA (w ++ [c]) i j → ∃ u p, s.child K L v c = some (u, some p) ∧ Valid L (bitAt s.bp.mem) u ∧ u.i = i ∧ u.j = j ∧ IsParent L u.i u.j v.i v.j ∧ p < T.length ∧
        ∃ k, i ≤ k ∧ k ≤ j ∧ sym SA p = sym SA k + w.length) ∧
      ((∀ k, k < T.length → ¬ w ++ [c] <+: suf T SA k) → ∃ p, s.child K L v c = Cst.withPos s.root p)) := by
    intro h1 h2
    refine ⟨fun i j ho => ?_, fun _ => h2⟩
    exfalso
    have hi := (ho.2.2 i (by have := ho.1; have := ho.2.1; omega)).1 ⟨Nat.le_refl _, ho.1⟩
    have hiv := (hocc.2.2 i (by have := ho.1; have := ho.2.1; omega)).2 ((List.prefix_append _ _).trans hi)
    -- the child that contains row i
    have hfind : ∀ t, t ≤ cnt → i < κ t → ∃ e, e < t ∧ κ e ≤ i ∧ i < κ (e + 1) := by
      intro t
      induction t with
      | zero => intro _ h'; omega
      | succ t ih =>
        intro h3 h4
        rcases Nat.lt_or_ge i (κ t) with c1 | c1
        · obtain ⟨e, e1, e2, e3⟩ := ih (by omega) c1
          exact ⟨e, by omega, e2, e3⟩
        · exact ⟨t, by omega, c1, h4⟩
    obtain ⟨e, e1, e2, e3⟩ := hfind cnt (Nat.le_refl _) (by omega)
    obtain ⟨u, u1, u2, u3, u4, u5⟩ := g6 e e1
    have hou := child_occ h.text h.isa' hL hij hw u2.node u5
    have h5 := (hou.2.2 i (by omega)).1 ⟨by omega, by omega⟩
    have h6 := ((snoc_prefix (hw.1 i hiv.1 hiv.2)).1 h5).2
    have h7 := ((snoc_prefix (hw.1 i hiv.1 hiv.2)).1 hi).2
    apply h1 e e1
    rw [← h7, h6, u3]
  obtain ⟨p, p1, p2, p3⟩ := getCharPos_ok h (idx := v.i) (d := w.length) (by omega) (hlen _ (Nat.le_refl _) (by omega))
  have hc1 := row_cmp h.text h.isa' p2 c
  rw [p3, ← g3] at hc1
  rw [Cst.childFrom, p1, sbind] at hstart
  by_cases b1 : p ≥ smaller T c + T.count c
  · rw [if_pos b1] at hstart
    have := hc1.2.1 b1
    exact hno (fun e he => by have := hmono 0 e (by omega) he; omega) ⟨_, hstart⟩
  rw [if_neg b1] at hstart
  by_cases b2 : p ≥ smaller T c
  · rw [if_pos b2] at hstart
    obtain ⟨u, u1, u2, u3, u4, u5⟩ := g6 0 (by omega)
    rw [show (0 + 1) = 1 from rfl] at u1
    rw [u1] at hstart
    exact hyes 0 (by omega) (by omega) u p u1 p2 ⟨u.i, Nat.le_refl _, u2.node.1, by rw [p3, u3, g3]⟩ hstart
  rw [if_neg b2, g1, sbind] at hstart
  have hlt := hc1.1.1 (by omega)
  obtain ⟨p', p1', p2', p3'⟩ := getCharPos_ok h (idx := v.j) (d := w.length) (by omega) (hlen _ (by omega) (Nat.le_refl _))
  have hc2 := row_cmp h.text h.isa' p2' c
  obtain ⟨ul, ul1, ul2, ul3, ul4, ul5⟩ := g6 (cnt - 1) (by omega)
  rw [show cnt - 1 + 1 = cnt by omega] at ul1 ul4
  have hoccl := child_occ h.text h.isa' hL hij hw ul2.node ul5
  have hlast : sym T (sym SA v.j + w.length) = sym T (sym SA (κ (cnt - 1)) + w.length) := by
    have h5 := (hoccl.2.2 v.j (by omega)).1 ⟨by have := (hin (cnt - 1) (by omega)).2; omega, by omega⟩
    rw [← ul3]
    exact ((snoc_prefix (hw.1 v.j (by omega) (Nat.le_refl _))).1 h5).2
  rw [p3', hlast] at hc2
  rw [p1', sbind] at hstart
  by_cases b3 : p' < smaller T c
  · rw [if_pos b3] at hstart
    have := hc2.1.1 b3
    exact hno (fun e he => by have := hmono e (cnt - 1) (by omega) (by omega); omega) ⟨_, hstart⟩
  rw [if_neg b3] at hstart
  by_cases b4 : p' < smaller T c + T.count c
  · rw [if_pos b4, ul1] at hstart
    refine hyes (cnt - 1) (by omega) (by omega) ul p' (by rw [show cnt - 1 + 1 = cnt by omega]; exact ul1) p2' ⟨v.j, ?_, by omega, p3'⟩ hstart
    have := (hin (cnt - 1) (by omega)).2
    omega
  rw [if_neg b4] at hstart
  have hgt := hc2.2.1 (by omega)
  rcases childSearch_ok h hL ok hv hij hw c g1 g6 hmono (cnt + 1) 2 cnt p' (by omega) (by omega) (by omega) (Nat.le_refl _) with ⟨e, u, q, q1, q2, q3, q4, q5, q6, q7⟩ | ⟨⟨q, q1⟩, q2⟩
  · rw [q4] at hstart
    obtain ⟨u', u1, u2, _⟩ := g6 e (by omega)
    rw [q5] at u1
    obtain rfl := Option.some.inj u1
    exact hyes e (by omega) q3 u q q5 q6 ⟨u.i, Nat.le_refl _, u2.node.1, q7⟩ hstart
  · rw [q1] at hstart
    refine hno (fun e he => ?_) ⟨_, hstart⟩
    rcases Nat.eq_zero_or_pos e with e0 | e0
    · rw [e0]; omega
    · rcases Nat.lt_or_ge (e + 1) cnt with e3 | e3
      · exact q2 e (by omega) e3
      · rw [show e = cnt - 1 by omega]; omega

end

section
variable {K : CsaI} {T SA L : List Nat} {Q : Nat → Prop} (h : CsaIOk K T SA Q) (hL : IsLcpArray T SA L) {s : Cst} {S D : Nat} (ok : Ok L s S D) {v : Node}

/-- The label of the root is empty, and only that one. -/
theorem root_label {T SA L : List Nat} (hT : IsText T) (hS : IsSA T SA) (hL : IsLcpArray T SA L) (h1 : 1 < T.length) : IsLabel T SA 0 (T.length - 1) [] ∧
    ∀ i j, IsNode L i j → IsLabel T SA i j [] → i = 0 ∧ j + 1 = T.length := by
  have hln := hL.1
  constructor
  · refine ⟨fun k _ _ => List.nil_prefix, fun u hu => ?_⟩
    have := le_lcp hS hL (w := u) (i := 0) (j := 1) (k := 1) (by omega) (Nat.le_refl _) h1 (hu 0 (by omega) (by omega)) (hu 1 (by omega) (by omega))
    rw [(lcp_facts hT hS hL).2.2.2 (by omega)] at this
    exact this
  · intro i j hn hl
    have ho := node_occ hT hS hL hn hl
    have g1 := (ho.2.2 0 (by omega)).2 List.nil_prefix
    have g2 := (ho.2.2 (T.length - 1) (by omega)).2 List.nil_prefix
    have := ho.2.1
    omega

include h hL ok in
/-- `sl` removes the first symbol of the label. -/
theorem sl_ok (hv : Valid L (bitAt s.bp.mem) v) : (v.i = 0 → v.j + 1 = L.length → s.sl K v = some v) ∧
    (¬ (v.i = 0 ∧ v.j + 1 = L.length) → ∃ a w u, IsLabel T SA v.i v.j (a :: w) ∧ s.sl K v = some u ∧ Valid L (bitAt s.bp.mem) u ∧ IsLabel T SA u.i u.j w) := by
  have hln := hL.1
  have hvij := hv.node.1
  have hjn := hv.node.2.1
  obtain ⟨r, r1, r2, r3⟩ := same_root ok v
  obtain ⟨r', r1', r4, r5, r6⟩ := root_ok ok
  rw [r1] at r1'
  obtain rfl := Option.some.inj r1'
  refine ⟨fun h1 h2 => ?_, fun hnr => ?_⟩
  · rw [Cst.sl, r1, sbind, if_pos (r3.2.2 ⟨h1, h2⟩), hv.ext r6 (by omega) (by omega)]
  rw [Cst.sl, r1, sbind, if_neg (fun e => hnr (r3.2.1 e))]
  have hn1 : 1 < T.length := by omega
  obtain ⟨i, i1, i2, i3⟩ := h.psi v.i (by omega)
  rw [i1, sbind]
  by_cases hij : v.i = v.j
  · rw [if_pos (by rw [Cst.isLeaf, beq_iff_eq]; exact hij)]
    have hp := h.isa'.sym_get_lt (i := v.i) (by omega)
    have hlab : IsLabel T SA v.i v.j (sym T (sym SA v.i) :: T.drop (sym SA v.i + 1)) := by
      rw [← drop_cons hp, ← hij]; exact label_leaf
    refine ⟨sym T (sym SA v.i), T.drop (sym SA v.i + 1), ?_⟩
    by_cases c0 : v.i = 0
    · rw [if_pos ⟨c0, by omega⟩]
      refine ⟨r, hlab, rfl, r6, ?_⟩
      have h0 : sym SA v.i = T.length - 1 := by
        obtain ⟨x, x1, x2⟩ := h.isa'.surj (p := T.length - 1) (by omega)
        have h3 : sym T (sym SA x) = 0 := by rw [x2, h.text.last]
        have h4 : sym T (sym SA 0) ≤ sym T (sym SA x) := sym_le h.isa' (by omega) x1
        have h5 := h.text.eq_last (h.isa'.sym_get_lt (i := 0) (by omega)) (by omega)
        rw [c0]; exact h5
      rw [h0, List.drop_eq_nil_of_le (by omega), r4, r5, hln]
      exact (root_label h.text h.isa' hL hn1).1
    · rw [if_neg (fun e => c0 e.1)]
      obtain ⟨u, u1, u2, u3, u4⟩ := leaf_ok ok (i := i + 1) (by omega) (by omega)
      refine ⟨u, hlab, u1, u4, ?_⟩
      have hne : sym SA v.i + 1 < T.length := by
        rcases Nat.lt_or_ge (sym SA v.i + 1) T.length with c | c
        · exact c
        · exfalso
          have h1 : sym T (sym SA v.i) = 0 := by rw [show sym SA v.i = T.length - 1 by omega, h.text.last]
          have h2 := sym_le h.isa' (i := 0) (j := v.i) (by omega) (by omega)
          have h3 := h.text.eq_last (h.isa'.sym_get_lt (i := 0) (by omega)) (by omega)
          have := h.isa'.inj (i := 0) (j := v.i) (by omega) (by omega) (by omega)
          omega
      rw [nxt_small hne] at i3
      rw [u2, u3, Nat.add_sub_cancel, ← i3]
      exact label_leaf
  · rw [if_neg (by rw [Cst.isLeaf, beq_iff_eq]; exact hij)]
    obtain ⟨j, j1, j2, j3⟩ := h.psi v.j (by omega)
    rw [j1, sbind]
    obtain ⟨w0, hw0⟩ := label_exists (T := T) h.isa' hvij (by omega)
    cases w0 with
    | nil => exact absurd ((root_label h.text h.isa' hL hn1).2 _ _ hv.node hw0) (by rw [← hln]; exact hnr)
    | cons a w =>
      have li := inner_len h.text h.isa' (k := v.i) (by omega) (by omega) hw0.1 (Nat.le_refl _) hvij
      have lj := inner_len h.text h.isa' (k := v.j) (by omega) (by omega) hw0.1 hvij (Nat.le_refl _)
      rw [List.length_cons] at li lj
      rw [nxt_small (by omega)] at i3 j3
      have hi := hw0.1 v.i (Nat.le_refl _) hvij
      have hj := hw0.1 v.j hvij (Nat.le_refl _)
      rw [suf, drop_cons (by omega), ← i3, List.cons_prefix_cons] at hi
      rw [suf, drop_cons (by omega), ← j3, List.cons_prefix_cons] at hj
      have hlt : i < j := by
        have h1 := h.isa'.sorted (i := v.i) (j := v.j) (by omega) (by omega)
        rw [drop_cons (show sym SA v.i < T.length by omega), drop_cons (show sym SA v.j < T.length by omega), ← hi.1, ← hj.1, ← i3, ← j3, List.cons_lt_cons_iff] at h1
        have h2 : T.drop (sym SA i) < T.drop (sym SA j) := by
          rcases h1 with h1 | ⟨_, h1⟩
          · omega
          · exact h1
        rcases Nat.lt_trichotomy i j with c | c | c
        · exact c
        · rw [c] at h2; exact absurd h2 (List.lt_irrefl _)
        · exact absurd h2 (List.lt_asymm (h.isa'.sorted c i2))
      obtain ⟨li', l1, l2, l3, l4⟩ := leaf_ok ok (i := i + 1) (by omega) (by omega)
      obtain ⟨lj', m1, m2, m3, m4⟩ := leaf_ok ok (i := j + 1) (by omega) (by omega)
      rw [Nat.add_sub_cancel] at l2 l3 m2 m3
      obtain ⟨u, u1, u2, u3, u4, u5, u6, u7, u8⟩ := lcaOrd_ok ok l4 m4 (by omega)
      rw [Cst.lcaOrd, if_neg (by omega), l2, m3] at u1
      rw [l2, l3, m2, m3] at u8
      refine ⟨a, w, u, hw0, u1, u2, ?_⟩
      have hun := u3.2.1
      obtain ⟨p, q, o, o1, o2⟩ := occ_exists h.isa' i2 hi.2
      have hjo := (o.2.2 j j2).2 hj.2
      have hsub := u8 p q (occ_node h.isa' hL o) o1 o2 hjo.1 hjo.2
      refine ⟨fun k k1 k2 => (o.2.2 k (by omega)).1 ⟨by omega, by omega⟩, fun x hx => ?_⟩
      have hxi := hx i (by omega) (by omega)
      have hxj := hx j (by omega) (by omega)
      have := hw0.2 (a :: x) (fun k k1 k2 => suf_between h.isa' k1 k2 (by omega)
        (by rw [suf, drop_cons (by omega), ← i3, ← hi.1, List.cons_prefix_cons]; exact ⟨rfl, hxi⟩) (by rw [suf, drop_cons (by omega), ← j3, ← hj.1, List.cons_prefix_cons]; exact ⟨rfl, hxj⟩))
      simpa using this

/-- The rows of a backward step. -/
theorem back_rows {T SA : List Nat} (hT : IsText T) (hS : IsSA T SA) {lo hi c j : Nat} (h1 : lo ≤ hi) (h2 : hi ≤ T.length) (hj : j < T.length) :
    (smaller T c + ((bwtOf T SA).take lo).count c ≤ j ∧ j < smaller T c + ((bwtOf T SA).take hi).count c ↔
      sym T (sym SA j) = c ∧ ∃ i, lo ≤ i ∧ i < hi ∧ sym SA i = nxt T.length (sym SA j)) := by
  have hbl := hS.bwt_length
  have him := count_image (L := bwtOf T SA) c lo hi h1 (by omega) (j - smaller T c)
  constructor
  · rintro ⟨h3, h4⟩
    obtain ⟨i, e1, e2, e3, e4⟩ := him.1 (by omega)
    obtain ⟨h5, h6⟩ := IsSA.lf hT hS (i := i) (by omega) c e3.symm
    rw [e4, show smaller T c + (j - smaller T c) = j by omega] at h6
    have hpi := hS.sym_get_lt (i := i) (by omega)
    refine ⟨?_, i, e1, e2, by rw [h6, nxt_prv hpi]⟩
    rw [h6, ← hS.bwt_sym (by omega)]
    exact e3
  · rintro ⟨h3, i, e1, e2, e3⟩
    have hp := hS.sym_get_lt hj
    have hb : sym (bwtOf T SA) i = c := by rw [hS.bwt_sym (by omega), e3, prv_nxt hp, h3]
    obtain ⟨g1, g2⟩ := IsSA.lf hT hS (i := i) (by omega) c hb.symm
    rw [e3, prv_nxt hp] at g2
    have g3 := hS.inj g1 hj g2
    have := him.2 ⟨i, e1, e2, hb, by omega⟩
    omega

include h hL ok in
/-- `wl` for a symbol that is not the sentinel. -/
theorem wl_ok (hv : Valid L (bitAt s.bp.mem) v) {w : List Nat} (hw : IsLabel T SA v.i v.j w) {c : Nat} (hc : Q c) (h0 : c ≠ 0) :
    (∀ i j, IsOcc T SA (c :: w) i j → ∃ u, s.wl K v c = some u ∧ Valid L (bitAt s.bp.mem) u ∧ u.i = i ∧ u.j = j) ∧ ((∀ k, k < T.length → ¬ c :: w <+: suf T SA k) → s.wl K v c = s.root) := by
  have hln := hL.1
  have hvij := hv.node.1
  have hjn := hv.node.2.1
  have hocc := node_occ h.text h.isa' hL hv.node hw
  rw [Cst.wl, h.rank v.i c (by omega) hc, sbind, h.rank (v.j + 1) c (by omega) hc, sbind]
  obtain ⟨cl, hcl⟩ : ∃ x, x = ((bwtOf T SA).take v.i).count c := ⟨_, rfl⟩
  obtain ⟨cr, hcr⟩ : ∃ x, x = ((bwtOf T SA).take (v.j + 1)).count c := ⟨_, rfl⟩
  have hmn : cl ≤ cr := by rw [hcl, hcr]; exact count_take_mono _ (by omega) c
  -- the rows
  have hrow : ∀ k, k < T.length → (smaller T c + cl ≤ k ∧ k < smaller T c + cr ↔ c :: w <+: suf T SA k) := by
    intro k hk
    have hp := h.isa'.sym_get_lt hk
    rw [hcl, hcr, back_rows h.text h.isa' (by omega) (by omega) hk, suf, drop_cons hp, List.cons_prefix_cons]
    constructor
    · rintro ⟨e1, x, x1, x2, x3⟩
      refine ⟨e1.symm, ?_⟩
      have hs : sym SA k + 1 < T.length := by
        rcases Nat.lt_or_ge (sym SA k + 1) T.length with d | d
        · exact d
        · exfalso; apply h0; rw [← e1, show sym SA k = T.length - 1 by omega, h.text.last]
      rw [nxt_small hs] at x3
      rw [← x3]
      exact (hocc.2.2 x (by omega)).1 ⟨x1, by omega⟩
    · rintro ⟨e1, e2⟩
      have hs : sym SA k + 1 < T.length := by
        rcases Nat.lt_or_ge (sym SA k + 1) T.length with d | d
        · exact d
        · exfalso; apply h0; rw [e1, show sym SA k = T.length - 1 by omega, h.text.last]
      obtain ⟨x, x1, x2⟩ := h.isa'.surj hs
      rw [← x2] at e2
      have := (hocc.2.2 x x1).2 e2
      exact ⟨e1.symm, x, this.1, by omega, by rw [nxt_small hs, x2]⟩
  rw [← hcl, ← hcr]
  by_cases e : cl = cr
  · rw [if_pos e]
    refine ⟨fun i j ho => ?_, fun _ => rfl⟩
    exfalso
    have := ho.1
    have := ho.2.1
    have := (hrow i (by omega)).2 ((ho.2.2 i (by omega)).1 ⟨Nat.le_refl _, by omega⟩)
    omega
  · rw [if_neg e]
    have hle : cr ≤ T.count c := by
      have := count_take_mono (bwtOf T SA) (show v.j + 1 ≤ (bwtOf T SA).length by rw [h.isa'.bwt_length]; omega) c
      rw [List.take_length, bwt_count h.isa'] at this
      omega
    have hlen := smaller_add_count_le_length T c
    have hm : c ∈ T := List.count_pos_iff.1 (by omega)
    obtain ⟨k, k1, _, _, k4, _, _⟩ := present h hm
    rw [k1, sbind, k4, sbind]
    have ho : IsOcc T SA (c :: w) (smaller T c + cl) (smaller T c + cr - 1) := by
      refine ⟨by omega, by omega, fun x hx => ?_⟩
      rw [← hrow x hx]
      omega
    refine ⟨fun i j ho' => ?_, fun hn => ?_⟩
    · obtain ⟨e1, e2⟩ := occ_unique ho ho'
      rw [← e1, ← e2, Cst.wlNode]
      by_cases d : cl + 1 = cr
      · rw [if_pos d]
        obtain ⟨u, u1, u2, u3, u4⟩ := leaf_ok ok (i := smaller T c + cl + 1) (by omega) (by omega)
        exact ⟨u, u1, u4, by omega, by omega⟩
      · rw [if_neg d, sub_eq (by omega), sbind]
        obtain ⟨u, u1, u2, u3, u4⟩ := node_ok ok (occ_node h.isa' hL ho)
        exact ⟨u, u1, u4, u2, u3⟩
    · exfalso
      exact hn _ (by omega) ((hrow (smaller T c + cl) (by omega)).1 ⟨Nat.le_refl _, by omega⟩)

end

end Sdsl.CstSct3
