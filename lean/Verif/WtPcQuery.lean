/-
  Queries on `wt_pc`: access, rank, select, interval_symbols.
-/
import Verif.WtPcOk

namespace Sdsl.Wt

open CT Spec

theorem occ_node {x : Nat → Word} {l r : CT} (hn : (CT.node l r).syms.Nodup) (i : Nat) : occ x (CT.node l r).mem i = occ x l.mem i + occ x r.mem i := by
  rw [occ_split (CT.node l r).mem r.mem, Nat.add_comm]
  congr 1
  · exact occ_congr (fun j _ => CT.mem_left hn _)
  · exact occ_congr (fun j _ => CT.mem_right _)

namespace PcOk

variable {t : WtPc} {xs : List Word} {ct : CT} {ts : List CT} {M : Nat}

/-- Symbols of the value type. -/
def Valid (t : WtPc) (c : Word) : Prop := t.S.byte = true → c.toNat < 256

theorem sub (h : PcOk t xs ct ts M) {w : Nat} {u : CT} (hw : ts[w]? = some u) : u.syms.Nodup ∧ ∀ s ∈ u.syms, s ∈ ct.syms := by
  obtain ⟨bs, u', a1, a2, a3⟩ := h.coded.stored.reach h.coded.root w (List.getElem?_eq_some_iff.1 hw).1
  rw [hw] at a2; cases a2
  have := (CT.sub_leaves _ _ _ a1).map (·.1)
  exact ⟨this.nodup h.coded.nodup, CT.sub_syms _ _ _ a1⟩

theorem val (h : PcOk t xs ct ts M) {s : Nat} (hs : s ∈ ct.syms) : t.S.val s = BitVec.ofNat 64 s ∧ (t.S.val s).toNat = s := by
  have h1 := h.small s hs
  have h2 : t.S.val s = BitVec.ofNat 64 s := by
    unfold Strat.val
    cases hb : t.S.byte
    · rfl
    · simp only [hb, if_true] at h1
      rw [if_pos rfl, Nat.mod_eq_of_lt h1]
  refine ⟨h2, ?_⟩
  rw [h2, BitVec.toNat_ofNat, Nat.mod_eq_of_lt]
  cases hb : t.S.byte
  · simp only [hb, Bool.false_eq_true, if_false] at h1; omega
  · simp only [hb, if_true] at h1; omega

theorem val_eq (h : PcOk t xs ct ts M) {c : Word} (hs : c.toNat ∈ ct.syms) : t.S.val c.toNat = c := BitVec.eq_of_toNat_eq (h.val hs).2

theorem mem_x (h : PcOk t xs ct ts M) {j : Nat} (hj : j < xs.length) : ct.mem (xs.getD j 0#64) = true := by
  rw [CT.mem, decide_eq_true_eq, h.mem, getD_getElem hj]
  exact ⟨_, List.getElem_mem _, rfl⟩

theorem occ_root (h : PcOk t xs ct ts M) {i : Nat} (hi : i ≤ xs.length) : occ (fun j => xs.getD j 0#64) ct.mem i = i := by
  rw [occ_congr (Q := fun _ => true) (fun j hj => h.mem_x (by omega)), occ_true]

theorem mem_iff (h : PcOk t xs ct ts M) {c : Word} : c.toNat ∈ ct.syms ↔ c ∈ xs := by
  rw [h.mem]
  constructor
  · rintro ⟨a, ha, he⟩; rwa [← BitVec.eq_of_toNat_eq he]
  · intro hc; exact ⟨c, hc, rfl⟩

/-- Data of an inner node. -/
theorem inner (h : PcOk t xs ct ts M) {w : Nat} {l r : CT} (hw : ts[w]? = some (.node l r)) : t.tree.isLeaf t.S w = some false ∧ t.tree.bvPos w = some (start ts w) ∧
    t.tree.bvRank w = some (Bv.cnt true t.bv (start ts w)) ∧ (∀ b : Bool, ∃ c, t.tree.child w b = some c ∧ ts[c]? = some (if b then r else l) ∧ t.tree.parent c = some w ∧ w < c) := by
  obtain ⟨d, h1, h2⟩ := h.rank w l r hw
  obtain ⟨d', c, g1, g2, g3, g4, g5, g6, g7, g8⟩ := h.coded.stored.child hw true
  rw [h1] at g1; cases g1
  refine ⟨by rw [PTree.isLeaf, h1, Option.map_some, beq_false_of_ne g7], by rw [PTree.bvPos, h1, Option.map_some, g8], by rw [PTree.bvRank, h1, Option.map_some, h2], ?_⟩
  intro b
  obtain ⟨d', c, g1, g2, g3, g4, ⟨e, g5, g5'⟩, g6, g7, g8⟩ := h.coded.stored.child hw b
  exact ⟨c, by rw [PTree.child, g1, Option.map_some, g2], g4, by rw [PTree.parent, g5, Option.map_some, g5'], g3⟩

/-- Data of a leaf. -/
theorem leafD (h : PcOk t xs ct ts M) {w f s : Nat} (hw : ts[w]? = some (.leaf f s)) : t.tree.isLeaf t.S w = some true ∧ t.tree.bvRank w = some s := by
  obtain ⟨d, h1, h2, h3⟩ := h.coded.stored.done w _ hw
  exact ⟨by rw [PTree.isLeaf, h1, Option.map_some, h3.2, beq_self_eq_true], by rw [PTree.bvRank, h1, Option.map_some, h3.1]⟩

theorem ones (h : PcOk t xs ct ts M) {w : Nat} {l r : CT} (hw : ts[w]? = some (.node l r)) {i : Nat} (hi : i ≤ xs.length) :
    t.ones w (occ (fun j => xs.getD j 0#64) (CT.node l r).mem i) = some (occ (fun j => xs.getD j 0#64) r.mem i) := by
  obtain ⟨h1, h2, h3, h4⟩ := h.inner hw
  rw [WtPc.ones, h2, sbind, (h.node w l r hw).rank hi, sbind, h3, sbind, Nat.add_sub_cancel_left]
  congr 1
  exact occ_congr (fun j _ => CT.mem_right _)

theorem code_pos (h : PcOk t xs ct ts M) (h1 : t.sigma ≠ 1) (c : Nat) : 0 < (ct.code c).length := by
  have h2 := h.sigma
  cases ct with
  | leaf f s => rw [CT.syms_leaf] at h2; exact absurd h2 h1
  | node l r => rw [CT.code]; split <;> simp

theorem sigma_one (h : PcOk t xs ct ts M) (h1 : t.sigma = 1) : ∃ f s, ct = .leaf f s := by
  have h2 := h.sigma
  rw [h1] at h2
  cases ct with
  | leaf f s => exact ⟨f, s, rfl⟩
  | node l r =>
    rw [CT.syms_node, List.length_append] at h2
    have := List.length_pos_of_ne_nil l.syms_ne
    have := List.length_pos_of_ne_nil r.syms_ne
    omega

theorem leafOf_mem (h : PcOk t xs ct ts M) {c : Word} (hc : c.toNat ∈ ct.syms) : ∃ w f, t.tree.leafOf t.S c = some w ∧ w ≠ t.S.undef ∧ ts[w]? = some (.leaf f c.toNat) ∧
    desc t.tree.nodes 0 (ct.code c.toNat) = some w := by
  obtain ⟨w, f, h1, h2⟩ := h.coded.stored.leaf_of_mem h.coded.root hc
  have hl := (List.getElem?_eq_some_iff.1 h1).1
  have h3 := h.coded.leaf.leaf w f _ hl h1
  have hlt := h.coded.lt _ hc
  refine ⟨w, f, ?_, by have := h.coded.small; omega, h1, h2⟩
  unfold PTree.leafOf
  rw [h3, h.coded.leaf.len]
  simp only [ge_iff_le, show ¬ M ≤ c.toNat by omega, if_false, ite_self]

theorem leafOf_none (h : PcOk t xs ct ts M) {c : Word} (hv : Valid t c) (hc : c.toNat ∉ ct.syms) : t.tree.leafOf t.S c = some t.S.undef := by
  unfold PTree.leafOf
  have hb := h.coded.bound
  have hno : c.toNat < M → t.tree.cToLeaf[c.toNat]? = some t.S.undef := fun hlt =>
    h.coded.leaf.none _ hlt (fun w f _ hw => hc (h.coded.stored.mem_of_leaf h.coded.root hw))
  cases hbb : t.S.byte
  · simp only [Bool.false_eq_true, if_false]
    rw [h.coded.leaf.len]
    by_cases hlt : c.toNat < M
    · rw [if_neg (by omega), hno hlt]
    · rw [if_pos (by omega)]
  · simp only [hbb, if_true] at hb
    rw [if_pos rfl, hno (by have := hv hbb; omega)]

/-! ### access -/

theorem walk_spec (h : PcOk t xs ct ts M) {j : Nat} (hj : j < xs.length) : ∀ (u : CT) (fuel w : Nat), ts[w]? = some u → u.mem (xs.getD j 0#64) = true → u.size ≤ fuel →
    ∃ w' f, t.walk fuel w (occ (fun j => xs.getD j 0#64) u.mem j) = some (occ (fun j => xs.getD j 0#64) (fun b => b == xs.getD j 0#64) j, w') ∧ ts[w']? = some (.leaf f (xs.getD j 0#64).toNat) := by
  intro u
  induction u with
  | leaf f s =>
    intro fuel w hw hm hf
    obtain ⟨fuel, rfl⟩ : ∃ k, fuel = k + 1 := ⟨fuel - 1, by simp [CT.size] at hf; omega⟩
    rw [WtPc.walk, (h.leafD hw).1, sbind, if_pos rfl]
    rw [CT.mem_leaf, decide_eq_true_eq] at hm
    refine ⟨w, f, ?_, by rw [hm]; exact hw⟩
    congr 2
    apply occ_congr
    intro k _
    rw [CT.mem_leaf, ← hm, Bool.eq_iff_iff, decide_eq_true_eq, beq_iff_eq]
    exact ⟨BitVec.eq_of_toNat_eq, fun e => by rw [e]⟩
  | node l r ih1 ih2 =>
    intro fuel w hw hm hf
    obtain ⟨fuel, rfl⟩ : ∃ k, fuel = k + 1 := ⟨fuel - 1, by simp [CT.size] at hf; omega⟩
    rw [CT.size] at hf
    obtain ⟨h1, h2, h3, h4⟩ := h.inner hw
    have hn := (h.sub hw).1
    rw [WtPc.walk, h1, sbind, if_neg (by simp), h2, sbind, (h.node w l r hw).get hj hm, sbind, h.ones hw (by omega), sbind]
    obtain ⟨c, c1, c2, _⟩ := h4 (r.mem (xs.getD j 0#64))
    rw [c1, sbind]
    cases hr : r.mem (xs.getD j 0#64)
    · rw [hr] at c2
      rw [if_neg (by simp), occ_node hn, Nat.add_sub_cancel]
      have hl : l.mem (xs.getD j 0#64) = true := by rw [CT.mem_node, hr, Bool.or_false] at hm; exact hm
      exact ih1 fuel c (by simpa using c2) hl (by omega)
    · rw [hr] at c2
      rw [if_pos rfl]
      exact ih2 fuel c (by simpa using c2) hr (by omega)

theorem inverseSelect_spec (h : PcOk t xs ct ts M) {i : Nat} (hi : i < xs.length) :
    t.inverseSelect i = some (occ (fun j => xs.getD j 0#64) (fun b => b == xs.getD i 0#64) i, xs.getD i 0#64) := by
  obtain ⟨w, f, h1, h2⟩ := h.walk_spec hi ct (t.tree.nodes.length + 1) 0 h.coded.root (h.mem_x hi) (by rw [h.coded.size, h.coded.stored.len]; omega)
  rw [h.occ_root (by omega)] at h1
  have hm : (xs.getD i 0#64).toNat ∈ ct.syms := by have := h.mem_x hi; rwa [CT.mem, decide_eq_true_eq] at this
  rw [WtPc.inverseSelect, h1, sbind]
  dsimp only
  rw [(h.leafD h2).2, sbind, h.val_eq hm]
  rfl

/-! ### rank -/

theorem occ_leaf {x : Nat → Word} (f : Nat) (c : Word) (i : Nat) : occ x (CT.leaf f c.toNat).mem i = occ x (fun b => b == c) i := by
  apply occ_congr
  intro k _
  rw [CT.mem_leaf, Bool.eq_iff_iff, decide_eq_true_eq, beq_iff_eq]
  exact ⟨BitVec.eq_of_toNat_eq, fun e => by rw [e]⟩

/-- Number of occurrences of a symbol of a subtree. -/
theorem occ_sym_le {x : Nat → Word} {u : CT} {c : Word} (hc : c.toNat ∈ u.syms) (i : Nat) : occ x (fun b => b == c) i ≤ occ x u.mem i := by
  apply occ_imp_le
  intro a ha
  rw [beq_iff_eq] at ha
  rw [ha, CT.mem, decide_eq_true_eq]
  exact hc

theorem rankLoop_spec (h : PcOk t xs ct ts M) {c : Word} {i : Nat} (hi : i ≤ xs.length) : ∀ (u : CT) (w : Nat) (p : Word), ts[w]? = some u → c.toNat ∈ u.syms →
    (∀ k, k < (u.code c.toNat).length → p.getLsbD k = (u.code c.toNat).getD k false) →
    t.rankLoop (u.code c.toNat).length w p (occ (fun j => xs.getD j 0#64) u.mem i) = some (occ (fun j => xs.getD j 0#64) (fun b => b == c) i) := by
  intro u
  induction u with
  | leaf f s =>
    intro w p hw hc hp
    rw [CT.syms_leaf, List.mem_singleton] at hc
    subst hc
    rw [CT.code, List.length_nil, WtPc.rankLoop, occ_leaf]
  | node l r ih1 ih2 =>
    intro w p hw hc hp
    obtain ⟨h1, h2, h3, h4⟩ := h.inner hw
    have hn := (h.sub hw).1
    by_cases hz : occ (fun j => xs.getD j 0#64) (CT.node l r).mem i = 0
    · have := occ_sym_le (x := fun j => xs.getD j 0#64) hc i
      have hlen : 0 < ((CT.node l r).code c.toNat).length := by rw [CT.code]; split <;> simp
      obtain ⟨k, hk⟩ : ∃ k, ((CT.node l r).code c.toNat).length = k + 1 := ⟨_, (Nat.succ_pred_eq_of_pos hlen).symm⟩
      rw [hk, WtPc.rankLoop, if_pos hz]
      congr 1; omega
    · by_cases hl : c.toNat ∈ l.syms
      · rw [CT.code, if_pos hl] at hp ⊢
        obtain ⟨p0, p1⟩ := isPath_tail hp
        obtain ⟨w', c1, c2, _⟩ := h4 false
        rw [List.length_cons, WtPc.rankLoop, if_neg hz, h.ones hw hi, sbind]
        dsimp only
        rw [p0, c1, sbind, if_neg (by simp), occ_node hn, Nat.add_sub_cancel]
        exact ih1 w' (p >>> 1) (by simpa using c2) hl p1
      · rw [CT.code, if_neg hl] at hp ⊢
        have hr : c.toNat ∈ r.syms := by rw [CT.syms_node, List.mem_append] at hc; exact hc.resolve_left hl
        obtain ⟨p0, p1⟩ := isPath_tail hp
        obtain ⟨w', c1, c2, _⟩ := h4 true
        rw [List.length_cons, WtPc.rankLoop, if_neg hz, h.ones hw hi, sbind]
        dsimp only
        rw [p0, c1, sbind, if_pos rfl]
        exact ih2 w' (p >>> 1) (by simpa using c2) hr p1

theorem occ_absent (h : PcOk t xs ct ts M) {c : Word} (hc : c.toNat ∉ ct.syms) {i : Nat} (hi : i ≤ xs.length) : occ (fun j => xs.getD j 0#64) (fun b => b == c) i = 0 := by
  rw [occ_eq_zero]
  intro j hj
  have := h.mem_x (j := j) (by omega)
  rw [CT.mem, decide_eq_true_eq] at this
  rw [beq_eq_false_iff_ne]
  intro e
  rw [e] at this
  exact hc this

/-- A tree with one symbol. -/
theorem occ_single (h : PcOk t xs ct ts M) {f s : Nat} (he : ct = .leaf f s) {c : Word} (hc : c.toNat = s) {i : Nat} (hi : i ≤ xs.length) : occ (fun j => xs.getD j 0#64) (fun b => b == c) i = i := by
  rw [← occ_leaf f c, hc, ← he]
  exact h.occ_root hi

theorem rank_spec (h : PcOk t xs ct ts M) {i : Nat} (hi : i ≤ xs.length) {c : Word} (hv : Valid t c) : t.rank i c = some (occ (fun j => xs.getD j 0#64) (fun b => b == c) i) := by
  unfold WtPc.rank
  by_cases hc : c.toNat ∈ ct.syms
  · obtain ⟨w, f, h1, h2, h3, h4⟩ := h.leafOf_mem hc
    rw [h1, sbind, if_neg h2]
    by_cases hs : t.sigma = 1
    · obtain ⟨g, s, he⟩ := h.sigma_one hs
      rw [if_pos hs, h.occ_single he (by rw [he, CT.syms_leaf, List.mem_singleton] at hc; exact hc) hi]; rfl
    · rw [if_neg hs]
      obtain ⟨p, p1, p2⟩ := h.coded.bitPath hc
      rw [p1, sbind, p2.len]
      have := h.rankLoop_spec hi ct 0 p h.coded.root hc p2.bits
      rw [h.occ_root hi] at this
      exact this
  · rw [h.leafOf_none hv hc, sbind, if_pos rfl, h.occ_absent hc hi]; rfl

/-! ### select -/

/-- The high bits of `p` are the directions. -/
def TopBits (p : Word) (bs : List Bool) : Prop := ∀ i, i < bs.length → p.getLsbD (64 - bs.length + i) = bs.getD i false

theorem selectLoop_spec (h : PcOk t xs ct ts M) {j : Nat} (hj : j < xs.length) : ∀ (bs : List Bool) (u u' : CT) (v w : Nat) (p : Word) (k : Nat), ts[v]? = some u → u.sub bs = some u' →
    desc t.tree.nodes v bs = some w → u'.mem (xs.getD j 0#64) = true → bs.length ≤ 64 → TopBits p bs →
    t.selectLoop (k + bs.length) w p (occ (fun j => xs.getD j 0#64) u'.mem j) = t.selectLoop k v (p <<< bs.length) (occ (fun j => xs.getD j 0#64) u.mem j) := by
  intro bs
  induction bs with
  | nil =>
    intro u u' v w p k hv hu hd hm _ _
    simp only [CT.sub, Option.some.injEq] at hu
    simp only [desc, Option.some.injEq] at hd
    subst hu; subst hd
    simp
  | cons b bs ih =>
    intro u u' v w p k hv hu hd hm hl hp
    rw [List.length_cons] at hl
    cases u with
    | leaf f s => simp [CT.sub] at hu
    | node l r =>
      rw [CT.sub] at hu
      obtain ⟨d, c, g1, g2, g3, g4, ⟨e, g5, g5'⟩, g6, g7, g8⟩ := h.coded.stored.child hv b
      rw [desc, g1, Option.bind_some, g2] at hd
      have hp' : TopBits p bs := by
        intro i hi
        have := hp (i + 1) (by simpa using hi)
        rw [List.getD_cons_succ, List.length_cons] at this
        rw [← this]; congr 1; omega
      rw [List.length_cons, show k + (bs.length + 1) = k + 1 + bs.length by omega, ih _ u' c w p (k + 1) g4 hu hd hm (by omega) hp']
      have hb : (p <<< bs.length).getLsbD 63 = b := by
        have := hp 0 (by simp)
        rw [List.length_cons, Nat.add_zero] at this
        rw [BitVec.getLsbD_shiftLeft]
        simp only [List.getD_cons_zero] at this
        rw [show 63 - bs.length = 64 - (bs.length + 1) by omega, this]
        simp; omega
      obtain ⟨h1, h2, h3, h4⟩ := h.inner hv
      have hn := (h.sub hv).1
      have hmc : (if b then r else l).mem (xs.getD j 0#64) = true := by
        simp only [CT.mem, decide_eq_true_eq] at hm ⊢
        exact CT.sub_syms _ _ _ hu _ hm
      have hmn : (CT.node l r).mem (xs.getD j 0#64) = true := by
        rw [CT.mem_node]
        cases b
        · rw [show l.mem (xs.getD j 0#64) = true by simpa using hmc]; rfl
        · rw [show r.mem (xs.getD j 0#64) = true by simpa using hmc]; simp
      rw [WtPc.selectLoop, PTree.parent, g5, Option.map_some, g5', sbind, h2, sbind, h3, sbind, hb]
      have hN := h.node v l r hv
      have hcc := Bv.cnt_compl t.bv (start ts v)
      cases b
      · have hl : l.mem (xs.getD j 0#64) = true := by simpa using hmc
        have hr : r.mem (xs.getD j 0#64) = false := by
          have := CT.mem_left hn (xs.getD j 0#64)
          rw [hmn, hl] at this
          simpa using this
        have := hN.select_zero hj hmn hr
        rw [occ_congr (Q := l.mem) (fun k _ => CT.mem_left hn _)] at this
        simp only [Bool.false_eq_true, if_false]
        rw [show start ts v - Bv.cnt true t.bv (start ts v) + occ (fun j => xs.getD j 0#64) l.mem j + 1 = Bv.cnt false t.bv (start ts v) + (occ (fun j => xs.getD j 0#64) l.mem j + 1) by omega,
          this, sbind, Nat.add_sub_cancel_left, BitVec.shiftLeft_add]
      · have hr : r.mem (xs.getD j 0#64) = true := by simpa using hmc
        have := hN.select_one hj hmn hr
        rw [occ_congr (Q := r.mem) (fun k _ => CT.mem_right _)] at this
        simp only [if_true]
        rw [Nat.add_assoc, this, sbind, Nat.add_sub_cancel_left, BitVec.shiftLeft_add]

theorem select_spec (h : PcOk t xs ct ts M) {j : Nat} (hj : j < xs.length) :
    t.select (occ (fun j => xs.getD j 0#64) (fun b => b == xs.getD j 0#64) j + 1) (xs.getD j 0#64) = some j := by
  have hm := h.mem_x hj
  have hc : (xs.getD j 0#64).toNat ∈ ct.syms := by rwa [CT.mem, decide_eq_true_eq] at hm
  obtain ⟨w, f, h1, h2, h3, h4⟩ := h.leafOf_mem hc
  unfold WtPc.select
  rw [h1, sbind, if_neg h2]
  by_cases hs : t.sigma = 1
  · obtain ⟨g, s, he⟩ := h.sigma_one hs
    rw [if_pos hs, h.occ_single he (by rw [he, CT.syms_leaf, List.mem_singleton] at hc; exact hc) (by omega), h.size, Nat.add_sub_cancel, Nat.min_eq_left (by omega)]; rfl
  · rw [if_neg hs]
    obtain ⟨p, p1, p2⟩ := h.coded.bitPath hc
    have hpos := h.code_pos hs (xs.getD j 0#64).toNat
    have hd := h.coded.depth _ hc
    obtain ⟨f', hsub⟩ := CT.sub_code ct hc
    rw [p1, sbind]
    dsimp only
    rw [p2.len, shl_of_lt (by omega), sbind, Nat.add_sub_cancel]
    have hu : CT.leaf f (xs.getD j 0#64).toNat = CT.leaf f' (xs.getD j 0#64).toNat := by
      obtain ⟨w', g1, g2⟩ := h.coded.stored.desc_sub _ 0 ct _ h.coded.root hsub
      rw [h4] at g1; cases g1
      rw [h3] at g2; exact Option.some.inj g2
    have := h.selectLoop_spec hj (ct.code (xs.getD j 0#64).toNat) ct _ 0 w (p <<< (64 - (ct.code (xs.getD j 0#64).toNat).length)) 0 h.coded.root hsub h4 (by rw [CT.mem_leaf]; simp) (by omega) (by
      intro i hi
      rw [BitVec.getLsbD_shiftLeft, ← p2.bits i hi, Nat.add_sub_cancel_left, show decide (64 - (ct.code (xs.getD j 0#64).toNat).length + i < 64) = true by rw [decide_eq_true_eq]; omega,
        show decide (64 - (ct.code (xs.getD j 0#64).toNat).length + i < 64 - (ct.code (xs.getD j 0#64).toNat).length) = false by rw [decide_eq_false_iff_not]; omega]
      rfl)
    rw [occ_leaf, Nat.zero_add] at this
    rw [this, WtPc.selectLoop, h.occ_root (by omega)]

theorem select_absent (h : PcOk t xs ct ts M) {c : Word} (hv : Valid t c) (hc : c ∉ xs) (i : Nat) : t.select i c = some xs.length := by
  have hc' : c.toNat ∉ ct.syms := by rw [h.mem_iff]; exact hc
  unfold WtPc.select
  rw [h.leafOf_none hv hc', sbind, if_pos rfl, h.size]; rfl

/-! ### interval_symbols -/

/-- The entries of the symbols of a subtree, in the order of its leaves. -/
def entriesPc (x : Nat → Word) (i j : Nat) (syms : List Nat) : List (Word × Nat × Nat) :=
  syms.filterMap (fun s => if occ x (fun b => b == BitVec.ofNat 64 s) i < occ x (fun b => b == BitVec.ofNat 64 s) j then
    some (BitVec.ofNat 64 s, occ x (fun b => b == BitVec.ofNat 64 s) i, occ x (fun b => b == BitVec.ofNat 64 s) j) else none)

theorem entriesPc_nil {x : Nat → Word} {i j : Nat} {u : CT} (hij : i ≤ j) (hu : ∀ s ∈ u.syms, s < 2 ^ 64) (he : occ x u.mem i = occ x u.mem j) : entriesPc x i j u.syms = [] := by
  rw [entriesPc, List.filterMap_eq_nil_iff]
  intro s hs
  rw [if_neg]
  intro hlt
  have h1 : (BitVec.ofNat 64 s).toNat = s := by rw [BitVec.toNat_ofNat, Nat.mod_eq_of_lt (hu s hs)]
  have h2 : ∀ k, occ x u.mem k = occ x (fun a => u.mem a && (a == BitVec.ofNat 64 s)) k + occ x (fun a => u.mem a && !(a == BitVec.ofNat 64 s)) k := fun k => occ_split _ _ k
  have h3 : ∀ k, occ x (fun a => u.mem a && (a == BitVec.ofNat 64 s)) k = occ x (fun b => b == BitVec.ofNat 64 s) k := by
    intro k
    apply occ_congr
    intro q _
    cases hq : (x q == BitVec.ofNat 64 s)
    · simp
    · rw [beq_iff_eq] at hq
      rw [hq, Bool.and_true, CT.mem, h1, decide_eq_true_eq]; exact hs
  have h4 := occ_mono (x := x) (fun a => u.mem a && !(a == BitVec.ofNat 64 s)) hij
  have a1 := h2 i
  have a2 := h2 j
  rw [h3] at a1 a2
  omega

theorem intervalRec_spec (h : PcOk t xs ct ts M) {i j : Nat} (hij : i ≤ j) (hj : j ≤ xs.length) : ∀ (u : CT) (fuel w : Nat), ts[w]? = some u → (∃ l r, u = .node l r) → u.size ≤ fuel →
    t.intervalRec fuel w (occ (fun j => xs.getD j 0#64) u.mem i) (occ (fun j => xs.getD j 0#64) u.mem j) = some (entriesPc (fun j => xs.getD j 0#64) i j u.syms) := by
  intro u
  induction u with
  | leaf f s => rintro fuel w _ ⟨l, r, he⟩; cases he
  | node l r ih1 ih2 =>
    intro fuel w hw _ hf
    obtain ⟨fuel, rfl⟩ : ∃ k, fuel = k + 1 := ⟨fuel - 1, by simp [CT.size] at hf; omega⟩
    rw [CT.size] at hf
    obtain ⟨h1, h2, h3, h4⟩ := h.inner hw
    have hn := h.sub hw
    rw [WtPc.intervalRec, h.ones hw (by omega), sbind, h.ones hw hj, sbind]
    dsimp only
    rw [occ_node hn.1, occ_node hn.1, Nat.add_sub_cancel, Nat.add_sub_cancel]
    have key : ∀ (b : Bool) (u : CT), u = (if b then r else l) → (∀ (fuel w : Nat), ts[w]? = some u → (∃ l r, u = .node l r) → u.size ≤ fuel →
        t.intervalRec fuel w (occ (fun j => xs.getD j 0#64) u.mem i) (occ (fun j => xs.getD j 0#64) u.mem j) = some (entriesPc (fun j => xs.getD j 0#64) i j u.syms)) →
        (if occ (fun j => xs.getD j 0#64) u.mem i ≠ occ (fun j => xs.getD j 0#64) u.mem j then do
          let c ← t.tree.child w b
          let l ← t.tree.isLeaf t.S c
          if l then do
            let s ← t.tree.bvRank c
            pure [(t.S.val s, occ (fun j => xs.getD j 0#64) u.mem i, occ (fun j => xs.getD j 0#64) u.mem j)]
          else t.intervalRec fuel c (occ (fun j => xs.getD j 0#64) u.mem i) (occ (fun j => xs.getD j 0#64) u.mem j)
        else some []) = some (entriesPc (fun j => xs.getD j 0#64) i j u.syms) := by
      intro b u hu ih
      obtain ⟨c, c1, c2, _⟩ := h4 b
      rw [← hu] at c2
      have hus := (h.sub c2).2
      have hlt : ∀ s ∈ u.syms, s < 2 ^ 64 := by
        intro s hs
        have := (h.val (hus s hs)).2
        rw [← this]; exact (t.S.val s).isLt
      by_cases he : occ (fun j => xs.getD j 0#64) u.mem i = occ (fun j => xs.getD j 0#64) u.mem j
      · rw [if_neg (by simpa using he), entriesPc_nil hij hlt he]
      · rw [if_pos he, c1, sbind]
        cases u with
        | leaf f s =>
          obtain ⟨l1, l2⟩ := h.leafD c2
          have hs := hus s (by simp [CT.syms_leaf])
          obtain ⟨v1, v2⟩ := h.val hs
          have hm := occ_mono (x := fun j => xs.getD j 0#64) (CT.leaf f s).mem hij
          have ho : ∀ k, occ (fun j => xs.getD j 0#64) (CT.leaf f s).mem k = occ (fun j => xs.getD j 0#64) (fun b => b == BitVec.ofNat 64 s) k := by
            intro k
            rw [← v1, ← occ_leaf f, v2]
          rw [l1, sbind, if_pos rfl, l2, sbind, CT.syms_leaf, v1, ho, ho]
          rw [ho, ho] at hm he
          rw [entriesPc, List.filterMap_cons, if_pos (by omega)]
          rfl
        | node l' r' =>
          obtain ⟨l1, _⟩ := h.inner c2
          rw [l1, sbind, if_neg (by simp)]
          have hsz : (CT.node l' r').size ≤ fuel := by
            rw [hu]
            cases b
            · simp only [Bool.false_eq_true, if_false]; omega
            · simp only [if_true]; omega
          exact ih fuel c c2 ⟨l', r', rfl⟩ hsz
    rw [key false l (by simp) ih1, sbind, key true r (by simp) ih2, sbind, CT.syms_node]
    rw [entriesPc, entriesPc, entriesPc, List.filterMap_append]
    rfl

theorem mem_entriesPc (h : PcOk t xs ct ts M) {i j : Nat} (hj : j ≤ xs.length) (c : Word) (ri rj : Nat) : (c, ri, rj) ∈ entriesPc (fun j => xs.getD j 0#64) i j ct.syms ↔
    occ (fun j => xs.getD j 0#64) (fun b => b == c) i < occ (fun j => xs.getD j 0#64) (fun b => b == c) j ∧ ri = occ (fun j => xs.getD j 0#64) (fun b => b == c) i ∧
      rj = occ (fun j => xs.getD j 0#64) (fun b => b == c) j := by
  rw [entriesPc, List.mem_filterMap]
  constructor
  · rintro ⟨s, hs, he⟩
    by_cases hlt : occ (fun j => xs.getD j 0#64) (fun b => b == BitVec.ofNat 64 s) i < occ (fun j => xs.getD j 0#64) (fun b => b == BitVec.ofNat 64 s) j
    · rw [if_pos hlt] at he
      cases he
      exact ⟨hlt, rfl, rfl⟩
    · rw [if_neg hlt] at he; cases he
  · rintro ⟨hlt, rfl, rfl⟩
    have hc : c.toNat ∈ ct.syms := by
      apply Classical.byContradiction
      intro hc
      rw [h.occ_absent hc hj] at hlt
      omega
    refine ⟨c.toNat, hc, ?_⟩
    rw [BitVec.ofNat_toNat, BitVec.setWidth_eq, if_pos hlt]

theorem entriesPc_pairwise {x : Nat → Word} {i j : Nat} {R : Nat → Nat → Prop} {Q : Word → Word → Prop} {syms : List Nat} (hR : syms.Pairwise R)
    (hRQ : ∀ a ∈ syms, ∀ b ∈ syms, R a b → Q (BitVec.ofNat 64 a) (BitVec.ofNat 64 b)) : (entriesPc x i j syms).Pairwise (fun a b => Q a.1 b.1) := by
  rw [entriesPc, List.pairwise_filterMap]
  have : syms.Pairwise (fun a b => a ∈ syms ∧ b ∈ syms ∧ R a b) := by
    have := hR.imp_of_mem (S := fun a b => a ∈ syms ∧ b ∈ syms ∧ R a b) (fun ha hb hr => ⟨ha, hb, hr⟩)
    exact this
  refine this.imp ?_
  rintro a b ⟨ha, hb, hr⟩ p hp q hq
  split at hp
  · cases hp
    split at hq
    · cases hq
      exact hRQ a ha b hb hr
    · cases hq
  · cases hp

theorem ofNat_inj (h : PcOk t xs ct ts M) {a b : Nat} (ha : a ∈ ct.syms) (hb : b ∈ ct.syms) (he : BitVec.ofNat 64 a = BitVec.ofNat 64 b) : a = b := by
  obtain ⟨a1, a2⟩ := h.val ha
  obtain ⟨b1, b2⟩ := h.val hb
  rw [← a2, ← b2, a1, b1, he]

theorem ofNat_lt (h : PcOk t xs ct ts M) {a b : Nat} (ha : a ∈ ct.syms) (hb : b ∈ ct.syms) (he : a < b) : BitVec.ofNat 64 a < BitVec.ofNat 64 b := by
  obtain ⟨a1, a2⟩ := h.val ha
  obtain ⟨b1, b2⟩ := h.val hb
  rw [← a1, ← b1, BitVec.lt_def, a2, b2]
  exact he

theorem intervalSymbols_spec (h : PcOk t xs ct ts M) {i j : Nat} (hij : i ≤ j) (hj : j ≤ xs.length) :
    ∃ out, t.intervalSymbols i j = some out ∧ out.Pairwise (fun a b => a.1 ≠ b.1) ∧ (t.lex = true → out.Pairwise (fun a b => a.1 < b.1)) ∧
      ∀ c ri rj, (c, ri, rj) ∈ out ↔ occ (fun j => xs.getD j 0#64) (fun b => b == c) i < occ (fun j => xs.getD j 0#64) (fun b => b == c) j ∧
        ri = occ (fun j => xs.getD j 0#64) (fun b => b == c) i ∧ rj = occ (fun j => xs.getD j 0#64) (fun b => b == c) j := by
  have hone : ∀ (k : Nat) (c : Word), occ (fun j => xs.getD j 0#64) (fun b => b == c) (k + 1) = occ (fun j => xs.getD j 0#64) (fun b => b == c) k + if xs.getD k 0#64 = c then 1 else 0 := by
    intro k c
    rw [occ_succ]
    by_cases he : xs.getD k 0#64 = c
    · rw [if_pos he, show (xs.getD k 0#64 == c) = true by rw [beq_iff_eq]; exact he]; rfl
    · rw [if_neg he, show (xs.getD k 0#64 == c) = false by rw [beq_eq_false_iff_ne]; exact he]; rfl
  unfold WtPc.intervalSymbols
  by_cases h0 : i = j
  · subst h0
    rw [if_pos rfl]
    exact ⟨[], rfl, List.Pairwise.nil, fun _ => List.Pairwise.nil, fun c ri rj => by simp⟩
  rw [if_neg h0]
  by_cases hs : t.sigma = 1
  · obtain ⟨f, s, he⟩ := h.sigma_one hs
    have hr := h.coded.root
    rw [he] at hr
    rw [if_pos hs, (h.leafD hr).2, sbind]
    have hsm : s ∈ ct.syms := by rw [he, CT.syms_leaf]; simp
    obtain ⟨v1, v2⟩ := h.val hsm
    refine ⟨_, rfl, List.pairwise_singleton _ _, fun _ => List.pairwise_singleton _ _, ?_⟩
    intro c ri rj
    rw [List.mem_singleton, Prod.mk.injEq, Prod.mk.injEq, h.size, Nat.min_eq_left (by omega), Nat.min_eq_left (by omega)]
    by_cases hc : c.toNat = s
    · rw [h.occ_single he hc (by omega), h.occ_single he hc hj]
      have : c = t.S.val s := BitVec.eq_of_toNat_eq (by rw [v2, hc])
      simp [this]; omega
    · have hc' : c.toNat ∉ ct.syms := by rw [he, CT.syms_leaf]; simpa using hc
      rw [h.occ_absent hc' (by omega), h.occ_absent hc' hj]
      constructor
      · rintro ⟨e, _⟩; rw [e, v2] at hc; exact absurd rfl hc
      · omega
  rw [if_neg hs]
  by_cases h1 : j - i = 1
  · obtain rfl : j = i + 1 := by omega
    rw [if_pos h1, h.inverseSelect_spec (by omega), sbind]
    refine ⟨_, rfl, List.pairwise_singleton _ _, fun _ => List.pairwise_singleton _ _, ?_⟩
    intro c ri rj
    rw [List.mem_singleton, Prod.mk.injEq, Prod.mk.injEq, hone]
    dsimp only
    by_cases he : xs.getD i 0#64 = c
    · subst he; rw [if_pos rfl]; simp
    · rw [if_neg he]
      constructor
      · rintro ⟨e, _⟩; exact absurd e.symm he
      · omega
  rw [if_neg h1]
  by_cases h2 : j - i = 2
  · obtain rfl : j = i + 1 + 1 := by omega
    rw [if_pos h2, h.inverseSelect_spec (by omega), sbind, h.inverseSelect_spec (by omega), sbind]
    dsimp only
    have hone2 : ∀ c, occ (fun j => xs.getD j 0#64) (fun b => b == c) (i + 1 + 1) = occ (fun j => xs.getD j 0#64) (fun b => b == c) i + (if xs.getD i 0#64 = c then 1 else 0) +
        (if xs.getD (i + 1) 0#64 = c then 1 else 0) := by
      intro c; rw [hone, hone]
    rw [hone i (xs.getD (i + 1) 0#64)]
    generalize xs.getD i 0#64 = a at *
    generalize xs.getD (i + 1) 0#64 = b at *
    by_cases hab : a = b
    · subst hab
      rw [if_pos rfl]
      refine ⟨_, rfl, List.pairwise_singleton _ _, fun _ => List.pairwise_singleton _ _, ?_⟩
      intro c ri rj
      rw [List.mem_singleton, Prod.mk.injEq, Prod.mk.injEq, hone2]
      by_cases he : a = c
      · subst he; rw [if_pos rfl]
        constructor
        · rintro ⟨_, e1, e2⟩; exact ⟨by omega, e1, by omega⟩
        · rintro ⟨_, e1, e2⟩; exact ⟨rfl, e1, by omega⟩
      · rw [if_neg he]
        constructor
        · rintro ⟨e, _⟩; exact absurd e.symm he
        · omega
    · rw [if_neg hab, if_neg hab, Nat.add_zero]
      have hmem : ∀ (c : Word) (ri rj : Nat), ((c, ri, rj) = (a, occ (fun j => xs.getD j 0#64) (fun b => b == a) i, occ (fun j => xs.getD j 0#64) (fun b => b == a) i + 1) ∨
          (c, ri, rj) = (b, occ (fun j => xs.getD j 0#64) (fun x => x == b) i, occ (fun j => xs.getD j 0#64) (fun x => x == b) i + 1)) ↔
          occ (fun j => xs.getD j 0#64) (fun b => b == c) i < occ (fun j => xs.getD j 0#64) (fun b => b == c) (i + 1 + 1) ∧
            ri = occ (fun j => xs.getD j 0#64) (fun b => b == c) i ∧ rj = occ (fun j => xs.getD j 0#64) (fun b => b == c) (i + 1 + 1) := by
        intro c ri rj
        simp only [Prod.mk.injEq]
        rw [hone2]
        by_cases he : a = c
        · subst he
          rw [if_pos rfl, if_neg (fun e => hab e.symm)]
          constructor
          · rintro (⟨_, e1, e2⟩ | ⟨e, _⟩)
            · exact ⟨by omega, e1, e2⟩
            · exact absurd e hab
          · rintro ⟨_, e1, e2⟩; exact Or.inl ⟨rfl, e1, e2⟩
        · rw [if_neg he]
          by_cases he2 : b = c
          · subst he2
            rw [if_pos rfl]
            constructor
            · rintro (⟨e, _⟩ | ⟨_, e1, e2⟩)
              · exact absurd e.symm he
              · exact ⟨by omega, e1, by omega⟩
            · rintro ⟨_, e1, e2⟩; exact Or.inr ⟨rfl, e1, by omega⟩
          · rw [if_neg he2]
            constructor
            · rintro (⟨e, _⟩ | ⟨e, _⟩)
              · exact absurd e.symm he
              · exact absurd e.symm he2
            · omega
      by_cases hlex : (t.lex && decide (b < a)) = true
      · rw [if_pos hlex]
        rw [Bool.and_eq_true, decide_eq_true_eq] at hlex
        refine ⟨_, rfl, ?_, ?_, ?_⟩
        · rw [List.pairwise_pair]; exact fun e => hab e.symm
        · intro _; rw [List.pairwise_pair]; exact hlex.2
        · intro c ri rj
          rw [List.mem_cons, List.mem_singleton, ← hmem c ri rj, or_comm]
      · rw [if_neg hlex]
        refine ⟨_, rfl, ?_, ?_, ?_⟩
        · rw [List.pairwise_pair]; exact hab
        · intro hl
          rw [List.pairwise_pair]
          rw [hl, Bool.true_and, decide_eq_true_eq] at hlex
          rw [BitVec.lt_def] at hlex ⊢
          have : a.toNat ≠ b.toNat := fun e => hab (BitVec.eq_of_toNat_eq e)
          dsimp only
          omega
        · intro c ri rj
          rw [List.mem_cons, List.mem_singleton, ← hmem c ri rj]
  rw [if_neg h2]
  have hnode : ∃ l r, ct = .node l r := by
    have hsig := h.sigma
    cases ct with
    | leaf f s => rw [CT.syms_leaf] at hsig; exact absurd hsig hs
    | node l r => exact ⟨l, r, rfl⟩
  have hr := h.intervalRec_spec hij hj ct (t.tree.nodes.length + 1) 0 h.coded.root hnode (by rw [h.coded.size, h.coded.stored.len]; omega)
  rw [h.occ_root (by omega), h.occ_root hj] at hr
  refine ⟨_, hr, ?_, ?_, fun c ri rj => h.mem_entriesPc hj c ri rj⟩
  · exact entriesPc_pairwise h.coded.nodup (fun a ha b hb hne he => hne (h.ofNat_inj ha hb he))
  · intro hl
    exact entriesPc_pairwise (h.lex hl) (fun a ha b hb hlt => h.ofNat_lt ha hb hlt)

end PcOk

end Sdsl.Wt
