/-
  The nodes of `wt_pc`: navigation, codes, and the generic algorithms.
-/
import Verif.WtPcOrder
import Verif.WtAlgList

namespace Sdsl.Wt

open CT Spec

namespace CT

/-- Along a prefix of a code there are nodes. -/
theorem sub_prefix : ∀ (t : CT) (bs : List Bool) (s : Nat), s ∈ t.syms → bs <+: t.code s → ∃ u, t.sub bs = some u ∧ s ∈ u.syms := by
  intro t
  induction t with
  | leaf f s' =>
    intro bs s hs hp
    rw [code, List.prefix_nil] at hp
    subst hp
    exact ⟨_, rfl, hs⟩
  | node l r ih1 ih2 =>
    intro bs s hs hp
    cases bs with
    | nil => exact ⟨_, rfl, hs⟩
    | cons b bs =>
      rw [code] at hp
      by_cases hl : s ∈ l.syms
      · rw [if_pos hl, List.cons_prefix_cons] at hp
        obtain ⟨rfl, hp⟩ := hp
        obtain ⟨u, h1, h2⟩ := ih1 bs s hl hp
        exact ⟨u, by simpa [sub] using h1, h2⟩
      · rw [if_neg hl, List.cons_prefix_cons] at hp
        obtain ⟨rfl, hp⟩ := hp
        have hr : s ∈ r.syms := by rw [syms_node, List.mem_append] at hs; exact hs.resolve_left hl
        obtain ⟨u, h1, h2⟩ := ih2 bs s hr hp
        exact ⟨u, by simpa [sub] using h1, h2⟩

/-- The node reached by `bs` holds the symbols whose code starts with `bs`. -/
theorem mem_sub {t u : CT} {bs : List Bool} (hn : t.syms.Nodup) (hu : t.sub bs = some u) {s : Nat} (hs : s ∈ t.syms) : s ∈ u.syms ↔ bs <+: t.code s := by
  constructor
  · intro h
    rw [code_sub _ _ _ hn hu s h]
    exact List.prefix_append _ _
  · intro h
    obtain ⟨u', h1, h2⟩ := sub_prefix t bs s hs h
    rw [hu] at h1; cases h1
    exact h2

end CT

/-- The directions as a number, first direction on top. -/
theorem pathVal_snoc (bs : List Bool) (b : Bool) : pathVal (bs ++ [b]) = 2 * pathVal bs + b.toNat := by
  rw [pathVal, List.foldl_append]; rfl

theorem pathVal_testBit (bs : List Bool) : ∀ i, (pathVal bs).testBit i = (decide (i < bs.length) && bs.getD (bs.length - 1 - i) false) := by
  induction bs using List.reverseRecOn with
  | nil => intro i; simp [pathVal]
  | append_singleton bs b ih =>
    intro i
    rw [pathVal_snoc, List.length_append, List.length_singleton]
    cases i with
    | zero =>
      rw [Nat.testBit_zero, show bs.length + 1 - 1 - 0 = bs.length by omega]
      cases b <;> simp <;> omega
    | succ i =>
      rw [Nat.testBit_succ, show (2 * pathVal bs + b.toNat) / 2 = pathVal bs by have := Bool.toNat_lt b; omega, ih]
      by_cases hi : i < bs.length
      · rw [show decide (i < bs.length) = true by simpa using hi, show decide (i + 1 < bs.length + 1) = true by simpa using hi, Bool.true_and, Bool.true_and,
          show bs.length + 1 - 1 - (i + 1) = bs.length - 1 - i by omega, List.getD_eq_getElem?_getD, List.getD_eq_getElem?_getD, List.getElem?_append_left (by omega)]
      · rw [show decide (i < bs.length) = false by simpa using hi, show decide (i + 1 < bs.length + 1) = false by simpa using hi]; rfl

namespace PcOk

variable {t : WtPc} {xs : List Word} {ct : CT} {ts : List CT} {M : Nat}

theorem expandR_spec (h : PcOk t xs ct ts M) (hn : xs.length < 2 ^ 64) {w : Nat} {l r : CT} (hw : ts[w]? = some (.node l r)) {i j : Nat} (hij : i ≤ j) (hj : j ≤ xs.length) :
    t.expandR w (rng (fun j => xs.getD j 0#64) (CT.node l r).mem i j) = some (rng (fun j => xs.getD j 0#64) l.mem i j, rng (fun j => xs.getD j 0#64) r.mem i j) := by
  obtain ⟨d, h1, h2⟩ := h.rank w l r hw
  obtain ⟨d', g1, g2, _⟩ := h.coded.stored.done w _ hw
  rw [h1] at g1; cases g1
  have hN := h.node w l r hw
  have := expandRange_spec hN hn hij hj
  rw [show (fun a => (CT.node l r).mem a && !r.mem a) = l.mem from funext (CT.mem_left (h.sub hw).1), show (fun a => (CT.node l r).mem a && r.mem a) = r.mem from funext CT.mem_right] at this
  rw [← this, WtPc.expandR, h1, sbind, expandRange, hN.rank_start, sbind, g2, h2]

theorem treeSize_spec (h : PcOk t xs ct ts M) {w : Nat} {l r : CT} (hw : ts[w]? = some (.node l r)) : t.tree.size t.S w = some (occ (fun j => xs.getD j 0#64) (CT.node l r).mem xs.length) := by
  obtain ⟨d, g1, g2, g3⟩ := h.coded.stored.done w _ hw
  have hc := (List.getElem?_eq_some_iff.1 g3.2.2.2.1).1
  have hlt := g3.1
  obtain ⟨u, hu⟩ : ∃ u, ts[w + 1]? = some u := ⟨_, List.getElem?_eq_getElem (by omega)⟩
  obtain ⟨e, e1, e2, _⟩ := h.coded.stored.done _ _ hu
  obtain ⟨s1, _⟩ := start_fit h.freq hw
  rw [PTree.size, g1, sbind, h.dfs]
  dsimp only
  rw [if_neg (by simp), PTree.bvPos, e1, Option.map_some, sbind, e2, g2, s1, Nat.add_sub_cancel_left]
  rfl

theorem parent_spec (h : PcOk t xs ct ts M) {w : Nat} (h0 : 0 < w) (hw : w < ts.length) : ∃ p l r b, t.tree.parent w = some p ∧ ts[p]? = some (.node l r) ∧ t.tree.child p b = some w ∧
    ts[w]? = some (if b then r else l) := by
  obtain ⟨d, p, h1, h2, h3, h4, h5⟩ := h.coded.stored.par w h0 hw
  obtain ⟨u, hu⟩ : ∃ u, ts[d.parent]? = some u := ⟨_, List.getElem?_eq_getElem (by omega)⟩
  cases u with
  | leaf f s =>
    obtain ⟨e, q1, q2, q3, q4⟩ := h.coded.stored.done _ _ hu
    rw [h3] at q1; cases q1
    exact absurd q4 h4
  | node l r =>
    have key : ∀ b : Bool, p.child b = w → ∃ p l r b, t.tree.parent w = some p ∧ ts[p]? = some (.node l r) ∧ t.tree.child p b = some w ∧ ts[w]? = some (if b then r else l) := by
      intro b hb
      obtain ⟨e, c, q1, q2, q3, q4, _⟩ := h.coded.stored.child hu b
      rw [h3] at q1; cases q1
      rw [hb] at q2; subst q2
      exact ⟨d.parent, l, r, b, by rw [PTree.parent, h1, Option.map_some], hu, by rw [PTree.child, h3, Option.map_some, hb], q4⟩
    rcases h5 with h5 | h5
    · exact key false h5
    · exact key true h5

theorem nodeSize_spec (h : PcOk t xs ct ts M) (hn : xs.length < 2 ^ 64) {w : Nat} {u : CT} (hw : ts[w]? = some u) : t.nodeSize w = some (occ (fun j => xs.getD j 0#64) u.mem xs.length) := by
  unfold WtPc.nodeSize
  cases u with
  | node l r => rw [(h.inner hw).1, sbind, if_neg (by simp), h.treeSize_spec hw]
  | leaf f s =>
    rw [(h.leafD hw).1, sbind, if_pos rfl]
    by_cases h0 : w = 0
    · subst h0
      have := h.coded.root
      rw [hw] at this; cases this
      rw [if_pos rfl, h.occ_root (Nat.le_refl _), h.size]; rfl
    · rw [if_neg h0]
      obtain ⟨p, l, r, b, p1, p2, p3, p4⟩ := h.parent_spec (w := w) (by omega) (List.getElem?_eq_some_iff.1 hw).1
      have hr : Range.mk 0 (occ (fun j => xs.getD j 0#64) (CT.node l r).mem xs.length) = rng (fun j => xs.getD j 0#64) (CT.node l r).mem 0 xs.length := by
        rw [rng, occ_zero, Nat.sub_zero]
      rw [p1, sbind, h.treeSize_spec p2, sbind, hr, h.expandR_spec hn p2 (Nat.zero_le _) (Nat.le_refl _), sbind]
      obtain ⟨d, c0, g1, g2, g3, g4, g5, g6, g7, g8⟩ := h.coded.stored.child p2 false
      have hc0 : t.tree.child p false = some c0 := by rw [PTree.child, g1, Option.map_some, g2]
      rw [hc0, sbind]
      dsimp only
      rw [rng_size hn (Nat.zero_le _) (Nat.le_refl _), rng_size hn (Nat.zero_le _) (Nat.le_refl _), occ_zero, occ_zero, Nat.sub_zero, Nat.sub_zero]
      cases b
      · rw [hc0] at p3
        rw [if_pos (Option.some.inj p3)]
        rw [hw] at p4
        rw [show l = CT.leaf f s by simpa using p4.symm]; rfl
      · have hne : c0 ≠ w := by
          intro e
          rw [PTree.child, g1, Option.map_some] at p3
          have : d.child1 = w := Option.some.inj p3
          rw [this, e] at g6
          simp at g6
        rw [if_neg hne]
        rw [hw] at p4
        rw [show r = CT.leaf f s by simpa using p4.symm]; rfl

/-- Node `v` holds the symbols with `P`. -/
def relPc (ts : List CT) (v : Nat) (P : Word → Bool) (d : Nat) : Prop := ∃ u, ts[v]? = some u ∧ P = u.mem ∧ u.size ≤ d

theorem refines (h : PcOk t xs ct ts M) (hn : xs.length < 2 ^ 64) : Refines t.nav (fun j => xs.getD j 0#64) xs.length (t.lex = true) (relPc ts) where
  small := hn
  root := ⟨ct.mem, ⟨ct, h.coded.root, rfl, by rw [h.coded.size]; exact Nat.le_of_eq h.coded.stored.len.symm⟩, fun j hj => h.mem_x hj⟩
  leaf := by
    rintro v P d ⟨u, h1, rfl, h2⟩ hl a
    cases u with
    | node l r => simp only [WtPc.nav, (h.inner h1).1, Option.getD_some, Bool.false_eq_true] at hl
    | leaf f s =>
      have hs := (h.sub h1).2 s (by simp [CT.syms_leaf])
      simp only [WtPc.nav, (h.leafD h1).2, Option.getD_some]
      rw [CT.mem_leaf, decide_eq_true_eq]
      constructor
      · intro e; exact BitVec.eq_of_toNat_eq (by rw [(h.val hs).2]; exact e)
      · intro e; rw [e, (h.val hs).2]
  size := by
    rintro v P d ⟨u, h1, rfl, h2⟩
    simp only [WtPc.nav, h.nodeSize_spec hn h1, Option.getD_some]
  inner := by
    rintro v P d ⟨u, h1, rfl, h2⟩ hl
    cases u with
    | leaf f s => simp only [WtPc.nav, (h.leafD h1).1, Option.getD_some, Bool.true_eq_false] at hl
    | node l r =>
      obtain ⟨i1, i2, i3, i4⟩ := h.inner h1
      obtain ⟨a, a1, a2, _⟩ := i4 false
      obtain ⟨b, b1, b2, _⟩ := i4 true
      have hnd := (h.sub h1).1
      have el : (fun a => (CT.node l r).mem a && !r.mem a) = l.mem := funext (CT.mem_left hnd)
      have er : (fun a => (CT.node l r).mem a && r.mem a) = r.mem := funext CT.mem_right
      rw [CT.size] at h2
      refine ⟨d - 1, r.mem, a, b, by omega, ?_, ⟨l, by simpa using a2, el, by omega⟩, ⟨r, by simpa using b2, er, by omega⟩, ?_, ?_, ?_⟩
      · simp only [WtPc.nav, a1, b1, sbind]; rfl
      · intro i j hij hj
        rw [el, er]
        exact h.expandR_spec hn h1 hij hj
      · intro j hj hp
        simp only [WtPc.nav, i2, sbind]
        exact (h.node v l r h1).get hj hp
      · intro hlex y z hy hz b1 b2
        have hs := h.sorted hlex h1
        rw [CT.syms_node, List.pairwise_append] at hs
        rw [CT.mem_node, b1, Bool.or_false, CT.mem, decide_eq_true_eq] at hy
        rw [CT.mem, decide_eq_true_eq] at b2
        rw [BitVec.lt_def]
        exact hs.2.2 _ hy _ b2

theorem descend_spec (h : PcOk t xs ct ts M) : ∀ (bs : List Bool) (v : Nat) (u u' : CT), ts[v]? = some u → u.sub bs = some u' → ∃ w, t.nav.descend v bs = some w ∧ ts[w]? = some u' := by
  intro bs
  induction bs with
  | nil => intro v u u' hv hu; simp only [CT.sub, Option.some.injEq] at hu; subst hu; exact ⟨v, rfl, hv⟩
  | cons b bs ih =>
    intro v u u' hv hu
    cases u with
    | leaf f s => simp [CT.sub] at hu
    | node l r =>
      rw [CT.sub] at hu
      obtain ⟨i1, i2, i3, i4⟩ := h.inner hv
      obtain ⟨c0, a1, a2, _⟩ := i4 false
      obtain ⟨c1, b1, b2, _⟩ := i4 true
      have he : t.nav.expand v = some (c0, c1) := by simp only [WtPc.nav, a1, b1, sbind]; rfl
      rw [Tree.descend, if_neg (by simp only [WtPc.nav, i1, Option.getD_some]; simp), he, sbind]
      dsimp only
      cases b
      · exact ih c0 l u' (by simpa using a2) (by simpa using hu)
      · exact ih c1 r u' (by simpa using b2) (by simpa using hu)

/-- `path(c)`: length and directions. -/
theorem path_spec (h : PcOk t xs ct ts M) (hs : t.sigma ≠ 1) {c : Word} (hc : c ∈ xs) : t.path c = some ((ct.code c.toNat).length, BitVec.ofNat 64 (pathVal (ct.code c.toNat))) := by
  have hc' := h.mem_iff.2 hc
  obtain ⟨p, p1, p2⟩ := h.coded.bitPath hc'
  have hpos := h.code_pos hs c.toNat
  have hd := h.coded.depth _ hc'
  rw [WtPc.path, p1, sbind]
  dsimp only
  rw [p2.len, shr_of_lt (by omega), sbind]
  show some _ = some _
  congr 2
  apply BitVec.eq_of_getLsbD_eq
  intro i hi
  rw [BitVec.getLsbD_ushiftRight, BitVec.getLsbD_ofNat, pathVal_testBit]
  by_cases hil : i < (ct.code c.toNat).length
  · rw [Bits.rev_getLsbD _ (by omega), show decide (i < (ct.code c.toNat).length) = true by simpa using hil, show decide (i < 64) = true by simpa using hi, Bool.true_and, Bool.true_and, ← p2.bits _ (by omega)]
    congr 1; omega
  · rw [show decide (i < (ct.code c.toNat).length) = false by simpa using hil, BitVec.getLsbD_of_ge _ _ (by omega)]
    simp

/-- Every prefix of a code leads to the node of the symbols with this prefix. -/
theorem nav_spec (h : PcOk t xs ct ts M) (hn : xs.length < 2 ^ 64) {c : Word} (hc : c ∈ xs) {bs : List Bool} (hbs : bs <+: ct.code c.toNat) :
    ∃ v, t.nav.descend t.nav.root bs = some v ∧ (t.nav.isLeaf v = true ↔ bs = ct.code c.toNat) ∧ (t.nav.isLeaf v = true → t.nav.sym v = c) ∧
      t.nav.size v = (xs.filter (fun b => decide (bs <+: ct.code b.toNat))).length ∧
      ∀ k (hk : k < (xs.filter (fun b => decide (bs <+: ct.code b.toNat))).length),
        t.nav.seq (t.nav.depth + 1) v k = some (xs.filter (fun b => decide (bs <+: ct.code b.toNat)))[k] := by
  have hc' := h.mem_iff.2 hc
  obtain ⟨u, u1, u2⟩ := CT.sub_prefix ct bs _ hc' hbs
  obtain ⟨v, v1, v2⟩ := h.descend_spec bs 0 ct u h.coded.root u1
  have hcode := CT.code_sub _ _ _ h.coded.nodup u1 _ u2
  have R := h.refines hn
  have hP : ∀ b ∈ xs, u.mem b = decide (bs <+: ct.code b.toNat) := by
    intro b hb
    rw [CT.mem, Bool.eq_iff_iff, decide_eq_true_eq, decide_eq_true_eq]
    exact CT.mem_sub h.coded.nodup u1 (h.mem_iff.2 hb)
  have hf : xs.filter (fun b => decide (bs <+: ct.code b.toNat)) = xs.filter u.mem := List.filter_congr (fun b hb => (hP b hb).symm)
  have hsize : u.size ≤ ts.length := by
    have := (CT.sub_leaves _ _ _ u1).length_le
    have h1 := CT.size_syms u
    have h2 := CT.size_syms ct
    have h3 := h.coded.size
    simp only [CT.syms, List.length_map] at h1 h2
    omega
  have hrel : relPc ts v u.mem t.nav.depth := ⟨u, v2, rfl, by rw [show t.nav.depth = ts.length from h.coded.stored.len]; exact hsize⟩
  have hleaf : t.nav.isLeaf v = true ↔ bs = ct.code c.toNat := by
    rw [hcode]
    cases u with
    | leaf f s => simp only [WtPc.nav, (h.leafD v2).1, Option.getD_some, CT.code, List.append_nil]
    | node l r =>
      simp only [WtPc.nav, (h.inner v2).1, Option.getD_some, Bool.false_eq_true, false_iff]
      rw [CT.code]
      intro e
      split at e
      · have := congrArg List.length e
        simp at this
      · have := congrArg List.length e
        simp at this
  refine ⟨v, v1, hleaf, ?_, ?_, ?_⟩
  · intro hl
    exact ((R.leaf hrel hl c).1 (by rw [CT.mem, decide_eq_true_eq]; exact u2)).symm
  · rw [R.size hrel, occ_countP _ (Nat.le_refl _), List.take_length, List.countP_eq_length_filter, hf]
  · rw [hf]
    intro k hk
    obtain ⟨j, hj, e1, e2, e3⟩ := filter_get _ xs k hk
    have := R.seq_spec hj _ _ _ hrel (by rw [getD_getElem hj]; exact e1)
    rw [occ_countP _ (by omega), e2, getD_getElem hj] at this
    rw [this, e3]

theorem intersect_list (h : PcOk t xs ct ts M) (hn : xs.length < 2 ^ 64) {R : List (Nat × Nat)} (hR : ∀ p ∈ R, p.1 ≤ p.2 ∧ p.2 < xs.length) {k : Nat} (ht : k ≤ R.length) :
    ∃ out, Tree.intersect t.nav R k = some out ∧ out.Pairwise (fun a b => a.1 ≠ b.1) ∧ (t.lex = true → out.Pairwise (fun a b => a.1 < b.1)) ∧
      ∀ c f, (c, f) ∈ out ↔ R ≠ [] ∧ (if k = 0 then R.length else k) ≤ (R.filter (fun p => decide (c ∈ slice xs p.1 p.2))).length ∧
        f = (R.map (fun p => (slice xs p.1 p.2).count c)).sum % 2 ^ 64 := by
  obtain ⟨out, h1, h0, h2, h3⟩ := (h.refines hn).intersect_spec hR ht
  refine ⟨out, h1, h0, h2, fun c f => ?_⟩
  rw [h3, List.length_pos_iff]
  have e1 : R.filter (fun p => decide (occ (fun j => xs.getD j 0#64) (fun b => b == c) p.1 < occ (fun j => xs.getD j 0#64) (fun b => b == c) (p.2 + 1))) = R.filter (fun p => decide (c ∈ slice xs p.1 p.2)) := by
    apply List.filter_congr
    intro p hp
    have := hR p hp
    rw [Bool.eq_iff_iff, decide_eq_true_eq, decide_eq_true_eq, slice_mem c this.1 this.2]
  have e2 : R.map (fun p => occ (fun j => xs.getD j 0#64) (fun b => b == c) (p.2 + 1) - occ (fun j => xs.getD j 0#64) (fun b => b == c) p.1) = R.map (fun p => (slice xs p.1 p.2).count c) := by
    apply List.map_congr_left
    intro p hp
    have := hR p hp
    exact slice_count c this.1 this.2
  rw [e1, e2]

theorem quantile_list (h : PcOk t xs ct ts M) (hn : xs.length < 2 ^ 64) (hlex : t.lex = true) {lb rb q : Nat} (hlr : lb ≤ rb) (hrb : rb < xs.length) (hq : q ≤ rb - lb) :
    ∃ c, Tree.quantileFreq t.nav lb rb q = some (c, (slice xs lb rb).count c) ∧ ∀ s : List Word, s.Perm (slice xs lb rb) → s.Pairwise (· ≤ ·) → s[q]? = some c := by
  obtain ⟨c, h1, h2, h3⟩ := (h.refines hn).quantileFreq_spec hlex hlr hrb hq
  rw [slice_count c hlr hrb] at h1 h3
  rw [slice_countP _ hlr hrb] at h2 h3
  refine ⟨c, h1, fun s hs hso => sorted_get s q hso ?_ ?_⟩
  · rw [hs.countP_eq]; exact h2
  · rw [hs.countP_eq, hs.count_eq]; exact h3

end PcOk

end Sdsl.Wt
