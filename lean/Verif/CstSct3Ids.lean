/-
  Lemmas for cst_sct3: depths, ids and the construction.
-/
import Verif.CstSct3Nav

namespace Sdsl.CstSct3

open Spec Props Bits RmqSct

section
variable {L : List Nat} {s : Cst} {S D : Nat} (ok : Ok L s S D) {v : Node}
include ok

theorem same_root (v : Node) : ∃ r, s.root = some r ∧ Valid L (bitAt s.bp.mem) r ∧ (r.i = 0 ∧ r.j = L.length - 1) ∧ (v.same r = true ↔ v.i = 0 ∧ v.j + 1 = L.length) := by
  obtain ⟨r, r1, r2, r3, r4⟩ := root_ok ok
  refine ⟨r, r1, r4, ⟨r2, r3⟩, ?_⟩
  rw [Node.same, Bool.and_eq_true, beq_iff_eq, beq_iff_eq, r2, r3]
  have := ok.n0
  omega

theorem nodeDepth_ok : ∀ k v, L.length - (v.j - v.i) ≤ k → Valid L (bitAt s.bp.mem) v → ∃ d, NodeDepth L v.i v.j d ∧ d < L.length - (v.j - v.i) ∧ ∀ f acc, d < f → s.nodeDepth f v acc = some (acc + d)
  | k, v, hk, hv => by
    have h1 := hv.node.1
    have h2 := hv.node.2.1
    obtain ⟨r, r1, r2, r3, r4⟩ := same_root ok v
    by_cases c : v.i = 0 ∧ v.j + 1 = L.length
    · refine ⟨0, ?_, by omega, fun f acc hf => ?_⟩
      · rw [c.1, show v.j = L.length - 1 by omega]; exact .root
      · obtain ⟨f', rfl⟩ : ∃ f', f = f' + 1 := ⟨f - 1, by omega⟩
        rw [Cst.nodeDepth, r1, sbind, if_pos (r4.2 c)]; rfl
    · obtain ⟨w, w1, w2, _, w3, _⟩ := parent_ok ok hv
      have hp := w3 c
      have g1 := hp.2.1
      have g2 := hp.2.2.1
      have g3 := hp.2.2.2.1
      cases k with
      | zero => omega
      | succ k =>
        obtain ⟨d, d1, d2, d3⟩ := nodeDepth_ok k w (by omega) w2
        refine ⟨d + 1, .step hp d1, by omega, fun f acc hf => ?_⟩
        obtain ⟨f', rfl⟩ : ∃ f', f = f' + 1 := ⟨f - 1, by omega⟩
        rw [Cst.nodeDepth, r1, sbind, if_neg (fun h => c (r4.1 h)), w1, sbind, d3 f' (acc + 1) (by omega)]
        congr 1; omega

/-- `depth` of an inner node. -/
theorem depth_ok (hv : Valid L (bitAt s.bp.mem) v) (hij : v.i < v.j) (hz : ∃ k, 0 < k ∧ k < L.length ∧ V L k = 0) (sa : Nat → Option Nat) :
    ∃ d, s.depth L sa v = some d ∧ (∃ k, v.i < k ∧ k ≤ v.j ∧ V L k = d) ∧ ∀ k, v.i < k → k ≤ v.j → d ≤ V L k := by
  have h2 := hv.node.2.1
  obtain ⟨r, r1, r2, r3, r4⟩ := same_root ok v
  rw [Cst.depth, if_neg (by omega), r1, sbind]
  by_cases c : v.i = 0 ∧ v.j + 1 = L.length
  · rw [if_pos (r4.2 c)]
    obtain ⟨k, k1, k2, k3⟩ := hz
    exact ⟨0, rfl, ⟨k, by omega, by omega, k3⟩, fun _ _ _ => Nat.zero_le _⟩
  · obtain ⟨c', k, p, hc, hk, hik, hkj, hbef, haft, hcnt⟩ := firstL_ok ok hv hij
    have hkn := hk.idx ok.sc
    rw [if_neg (fun h => c (r4.1 h)), Cst.selectL, hc, sbind, if_pos rfl, ok.findOpen hk, sbind, ok.index hk, sbind]
    dsimp only
    refine ⟨V L k, ?_, ⟨k, hik, hkj, rfl⟩, fun x x1 x2 => ?_⟩
    · show ((pure (k, p, c') : Option _) >>= fun x => L[x.1]?) = _
      rw [show (pure (k, p, c') : Option (Nat × Nat × Nat)) = some (k, p, c') from rfl, sbind, V, List.getD_eq_getElem?_getD, List.getElem?_eq_getElem hkn]
      rfl
    · rcases Nat.lt_trichotomy x k with h | h | h
      · have := hbef x x1 h; omega
      · rw [h]
      · exact haft x h x2

/-! ### id and inv_id -/

theorem id_inner (hij : v.i < v.j) {c k p : Nat} (hc : Cst.closingPos v = some c) (hk : Pr L (bitAt s.bp.mem) k p c) :
    s.id v = some (L.length + countTrue (bitAt s.fc) (c - countTrue (bitAt s.bp.mem) c)) := by
  have := z_bound ok.sc hk
  rw [Cst.id, if_neg (by rw [Cst.isLeaf, beq_iff_eq]; omega), hc, sbind, ok.rank0 hk, sbind, ok.fcRank (by omega), sbind, ok.size]; rfl

/-- The first child bit of a node other than the root. -/
theorem fc_node (hv : Valid L (bitAt s.bp.mem) v) (hr : ¬ (v.i = 0 ∧ v.j + 1 = L.length)) {c k p : Nat} (hk : Pr L (bitAt s.bp.mem) k p c) (hik : v.i < k) (hkj : k ≤ v.j)
    (hbef : ∀ x, v.i < x → x < k → V L k < V L x) : bitAt s.fc (c - countTrue (bitAt s.bp.mem) c) = true := by
  cases h : bitAt s.fc (c - countTrue (bitAt s.bp.mem) c) with
  | true => rfl
  | false =>
    obtain ⟨t, pt, t1, t2, t3, t4⟩ := fc_zero ok.sc ok.fch hk h
    have hn := hv.node.2.2 k hik hkj
    have hjn := hv.node.2.1
    rcases Nat.lt_trichotomy t v.i with c1 | c1 | c1
    · have := t4 v.i c1 hik
      simp only [V] at *
      omega
    · subst c1
      have : v.i = 0 := by simp only [V] at *; omega
      rw [this, ok.v0] at t3
      simp only [V] at *
      omega
    · have := hbef t c1 t2; omega

/-- The position of the first child bit that stands for an inner node. -/
theorem id_ok (hv : Valid L (bitAt s.bp.mem) v) (hij : v.i < v.j) (hz : ∃ k, 0 < k ∧ k < L.length ∧ V L k = 0) : ∃ r t p q, Pr L (bitAt s.bp.mem) t p q ∧ r = q - countTrue (bitAt s.bp.mem) q ∧ r < L.length ∧
    bitAt s.fc r = true ∧ s.id v = some (L.length + countTrue (bitAt s.fc) r) ∧ (v.i = 0 ∧ v.j + 1 = L.length ∧ t = 0 ∨ ¬ (v.i = 0 ∧ v.j + 1 = L.length) ∧ v.i < t ∧ t ≤ v.j ∧ countTrue (bitAt s.bp.mem) q = v.j + 1 ∧
      (∀ x, v.i < x → x < t → V L t < V L x) ∧ V L v.i ≤ V L t) := by
  obtain ⟨c, k, p, hc, hk, hik, hkj, hbef, haft, hcnt⟩ := firstL_ok ok hv hij
  have hid := id_inner ok hij hc hk
  by_cases hr : v.i = 0 ∧ v.j + 1 = L.length
  · have h0 := ok.root_pr
    have hct : countTrue (bitAt s.bp.mem) (2 * L.length - 1) = L.length := by
      have h2 := ok.sc.cnt
      have := ok.n0
      rw [show 2 * L.length = 2 * L.length - 1 + 1 by omega, cnt_close h0.cls] at h2
      exact h2
    have hl := hv.last hr.2
    have hclt := hv.clt
    -- the first zero behind the first position
    have hVk : V L k = 0 := by
      obtain ⟨x, x1, x2, x3⟩ := hz
      rcases Nat.lt_trichotomy x k with h | h | h
      · have := hbef x (by omega) h; omega
      · rw [← h]; exact x3
      · have := haft x h (by omega); omega
    have hci : v.cipos = 2 * L.length - 1 := by
      have h1 := hv.pr
      rw [hr.1] at h1
      exact (pr_unique_idx h1 h0).2
    have hcc : c = 2 * L.length - 2 := by
      rw [Cst.closingPos, if_neg (by omega), sub_eq (by omega)] at hc
      injection hc with hc
      omega
    have hf : bitAt s.fc (L.length - 2) = false := by
      have := (ok.fch k p c hk.1 hk.2.1 hk.2.2).2 ⟨0, by omega, by show V L 0 = V L k; rw [ok.v0, hVk], fun x _ _ => by show V L k ≤ V L x; omega⟩
      rwa [hcnt, hcc, show 2 * L.length - 2 - (v.j + 1) = L.length - 2 by omega] at this
    have hf1 := fc_root ok.sc ok.fch ok.n0 ok.v0
    refine ⟨L.length - 1, 0, 0, 2 * L.length - 1, h0, by rw [hct]; omega, by have := ok.n0; omega, hf1, ?_, Or.inl ⟨hr.1, hr.2, rfl⟩⟩
    rw [hid, hcnt, hcc, show 2 * L.length - 2 - (v.j + 1) = L.length - 2 by omega, show L.length - 1 = L.length - 2 + 1 by omega, cnt_close hf]
  · refine ⟨_, k, p, c, hk, rfl, z_bound ok.sc hk, fc_node ok hv hr hk hik hkj hbef, hid, Or.inr ⟨hr, hik, hkj, hcnt, hbef, ok.node_le hv k hik hkj⟩⟩

omit ok in
theorem rank_inj {f : Nat → Bool} {x y : Nat} (hx : f x = true) (hy : f y = true) (e : countTrue f x = countTrue f y) : x = y := by
  rcases Nat.lt_trichotomy x y with c | c | c
  · have := countTrue_lt_of_true c hx; omega
  · exact c
  · have := countTrue_lt_of_true c hy; omega

omit ok in
theorem id_leaf (h : v.i = v.j) : s.id v = some v.i := by
  rw [Cst.id, if_pos (by rw [Cst.isLeaf, beq_iff_eq]; exact h)]

theorem id_inj {w : Node} (hz : 1 < L.length → ∃ k, 0 < k ∧ k < L.length ∧ V L k = 0) (hv : Valid L (bitAt s.bp.mem) v) (hw : Valid L (bitAt s.bp.mem) w) (e : s.id v = s.id w) : v = w := by
  have h1 := hv.node.1
  have h2 := hv.node.2.1
  have h3 := hw.node.1
  have h4 := hw.node.2.1
  rcases Nat.eq_or_lt_of_le h1 with c1 | c1
  · rw [id_leaf c1] at e
    rcases Nat.eq_or_lt_of_le h3 with c2 | c2
    · rw [id_leaf c2] at e
      injection e with e
      exact hv.ext hw e (by omega)
    · obtain ⟨r, t, p, q, _, _, _, _, g, _⟩ := id_ok ok hw c2 (hz (by omega))
      rw [g] at e
      injection e with e
      omega
  · obtain ⟨r, t, p, q, f1, f2, _, f3, f4, f5⟩ := id_ok ok hv c1 (hz (by omega))
    rcases Nat.eq_or_lt_of_le h3 with c2 | c2
    · rw [id_leaf c2, f4] at e
      injection e with e
      omega
    · obtain ⟨r', t', p', q', g1, g2, _, g3, g4, g5⟩ := id_ok ok hw c2 (hz (by omega))
      rw [f4, g4] at e
      injection e with e
      have hr := rank_inj f3 g3 (by omega)
      have hq := z_inj f1.cls g1.cls (by omega)
      subst hq
      obtain ⟨ht, _⟩ := pr_unique_close f1 g1
      subst ht
      rcases f5 with ⟨a1, a2, a3⟩ | ⟨_, a1, a2, a3, a4, a5⟩ <;> rcases g5 with ⟨b1, b2, b3⟩ | ⟨_, b1, b2, b3, b4, b5⟩
      · exact hv.ext hw (by omega) (by omega)
      · omega
      · omega
      · refine hv.ext hw ?_ (by omega)
        rcases Nat.lt_trichotomy v.i w.i with c | c | c
        · have := a4 w.i c b1; omega
        · exact c
        · have := b4 v.i c a1; omega

omit ok in
theorem search_ok {arg : Nat → Option Nat} {g : Nat → Nat} {x : Nat} : ∀ f lb rb, rb - lb ≤ f → lb < rb → (∀ k, lb < k → k < rb → arg k = some (g k)) → g lb < x → x ≤ g rb →
    ∃ y, Cst.search arg x f lb rb = some y ∧ lb ≤ y ∧ y < rb ∧ g y < x ∧ x ≤ g (y + 1)
  | 0, lb, rb, h, hl, _, _, _ => by omega
  | f + 1, lb, rb, h, hl, ha, h1, h2 => by
    rw [Cst.search]
    by_cases c : rb - lb > 1
    · rw [if_pos c, ha _ (by omega) (by omega), sbind]
      by_cases c1 : g (lb + (rb - lb) / 2) < x
      · rw [if_pos c1]
        obtain ⟨y, y1, y2, y3, y4⟩ := search_ok f (lb + (rb - lb) / 2) rb (by omega) (by omega) (fun k k1 k2 => ha k (by omega) k2) c1 h2
        exact ⟨y, y1, by omega, y3, y4⟩
      · rw [if_neg c1]
        obtain ⟨y, y1, y2, y3, y4⟩ := search_ok f lb (lb + (rb - lb) / 2) (by omega) (by omega) (fun k k1 k2 => ha k k1 (by omega)) h1 (by omega)
        exact ⟨y, y1, y2, by omega, y4⟩
    · rw [if_neg c]
      have : rb = lb + 1 := by omega
      subst this
      exact ⟨lb, rfl, Nat.le_refl _, by omega, h1, h2⟩

/-- The node of a closing parenthesis of a first child. -/
theorem invAt_ok {t p q : Nat} (hn : 1 < L.length) (hz : ∃ k, 0 < k ∧ k < L.length ∧ V L k = 0) (h : Pr L (bitAt s.bp.mem) t p q) (hf : bitAt s.fc (q - countTrue (bitAt s.bp.mem) q) = true) :
    ∃ v, s.invAt q = some v ∧ Valid L (bitAt s.bp.mem) v ∧ s.id v = some (L.length + countTrue (bitAt s.fc) (q - countTrue (bitAt s.bp.mem) q)) := by
  unfold Cst.invAt
  have hq := h.2.2
  rw [ok.bpn, sub_eq (by omega), sbind]
  by_cases c : q = 2 * L.length - 1
  · rw [if_pos c]
    obtain ⟨r, r1, r2, r3, r4⟩ := root_ok ok
    obtain ⟨r', t', p', q', g1, g2, _, _, g3, g4⟩ := id_ok ok r4 (by omega) hz
    refine ⟨r, r1, r4, ?_⟩
    rcases g4 with ⟨_, _, g5⟩ | ⟨g5, _⟩
    · subst g5
      have := (pr_unique_idx g1 ok.root_pr).2
      rw [g3, g2, this, c]
    · exact absurd ⟨r2, by omega⟩ g5
  · have ht : 0 < t := by
      rcases Nat.eq_zero_or_pos t with e | e
      · subst e
        exact absurd (pr_unique_idx h ok.root_pr).2 c
      · exact e
    have htn := h.idx ok.sc
    have hns := pr_nsv ok.sc h
    rw [if_neg c, ok.at' (by omega), sbind]
    cases hb : bitAt s.bp.mem (q + 1) with
    | true =>
      obtain ⟨⟨q', h2⟩, hlt⟩ := close_open ok.sc h (by omega) hb
      have hun := h2.idx ok.sc
      obtain ⟨ke, hke⟩ := encloses_exists ok.sc h ok.root_pr ht (by have := h.lt; omega)
      obtain ⟨t', qe, g1, g2, g3, g4, g5⟩ := pr_encloses ok.sc h hke
      have g6 := fc_one ok.fch h hf g2 g4 g5
      have hkp := (pr_lt_iff g1 h).1 g2
      have hqe : q + 1 < qe := by
        have : qe ≠ q + 1 := by intro e; have := g1.cls; rw [e, hb] at this; cases this
        rcases match_nest g1.2.1 h.2.1 hkp with c1 | c1 <;> omega
      rw [if_pos rfl, ok.rankC h, sbind, sub_eq (by omega), sbind, ok.findOpen h, sbind, ok.enclose h hke, sbind, ok.findClose g1, sbind, rankC_eq (by have := g1.1.1; omega), sbind, g1.cnt]
      obtain ⟨hnode, _⟩ := interval_node (x := t') htn g2 (Or.inr g6) (fun y y1 y2 => by have := g5 y y1 y2; omega) hns.1 hns.2.1 hns.2.2.1 hns.2.2.2
      refine ⟨_, rfl, ⟨hnode, g1.1, g1.2.1, g1.2.2, fun h' => ?_, fun h' => ?_⟩, ?_⟩
      · simp only at h'; omega
      · show IsSelect _ _ (countTrue (bitAt s.bp.mem) q - 1 + 2) _
        rw [show countTrue (bitAt s.bp.mem) q - 1 + 2 = countTrue (bitAt s.bp.mem) q + 1 by omega]; exact h2.1
      · refine id_inner ok (show t' < countTrue (bitAt s.bp.mem) q - 1 by omega) ?_ h
        rw [Cst.closingPos, if_pos hqe, sub_eq (by simp)]; rfl
    | false =>
      obtain ⟨t', p', h2⟩ := pr_of_close ok.sc (q := q + 1) (by omega) hb
      obtain ⟨g2, g3, g4, g5⟩ := close_close ok.sc h h2
      have g6 := fc_one ok.fch h hf g2 g4 g5
      have hct := cnt_close h.cls
      rw [if_neg (by decide), ok.findOpen h2, sbind, rankC_eq (by have := h2.1.1; omega), sbind, h2.cnt, ok.nsv h2, sbind, hct, sub_eq (by omega), sbind]
      obtain ⟨e, e1, e2, e3⟩ := ok.endPos (j := countTrue (bitAt s.bp.mem) q - 1) (by omega)
      rw [e1, sbind]
      obtain ⟨hnode, _⟩ := interval_node (x := t') htn g2 (Or.inr g6) (fun y y1 y2 => by have := g5 y y1 y2; omega) hns.1 hns.2.1 hns.2.2.1 hns.2.2.2
      refine ⟨_, rfl, ⟨hnode, h2.1, h2.2.1, h2.2.2, e2, e3⟩, ?_⟩
      refine id_inner ok (show t' < countTrue (bitAt s.bp.mem) q - 1 by omega) ?_ h
      have : ¬ (q + 1 > e) := by
        intro hlt
        rcases Nat.lt_or_ge (countTrue (bitAt s.bp.mem) q) L.length with c1 | c1
        · have h3 := e3 (by omega)
          have h4 := countTrue_lt_of_true (f := bitAt s.bp.mem) hlt h3.2.1
          have h5 := h3.2.2
          omega
        · have := e2 (by omega); omega
      rw [Cst.closingPos, if_neg this, sub_eq (by simp)]; rfl

theorem invId_ok {x : Nat} (hz : 1 < L.length → ∃ k, 0 < k ∧ k < L.length ∧ V L k = 0) (hx : x < L.length ∨ 1 < L.length ∧ x < L.length + countTrue (bitAt s.fc) L.length) :
    ∃ v, s.invId x = some v ∧ Valid L (bitAt s.bp.mem) v ∧ s.id v = some x := by
  unfold Cst.invId
  rw [ok.size]
  by_cases c : x < L.length
  · rw [if_pos c]
    obtain ⟨v, v1, v2, v3, v4⟩ := leaf_ok ok (i := x + 1) (by omega) (by omega)
    refine ⟨v, v1, v4, ?_⟩
    rw [id_leaf (by omega), v2]; rfl
  · rw [if_neg c]
    obtain ⟨hn, hx⟩ := hx.resolve_left c
    have h1 : ∃ y, Cst.search s.fcRank (x - L.length + 1) (s.bp.n + 1) 0 s.bp.n = some y ∧ y < L.length ∧ countTrue (bitAt s.fc) y < x - L.length + 1 ∧ x - L.length + 1 ≤ countTrue (bitAt s.fc) (y + 1) := by
      rw [ok.bpn, Cst.search, if_pos (by omega), show 0 + (2 * L.length - 0) / 2 = L.length by omega, ok.fcRank (Nat.le_refl _), sbind, if_neg (by omega)]
      obtain ⟨y, y1, _, y3, y4⟩ := search_ok (arg := s.fcRank) (g := countTrue (bitAt s.fc)) (x := x - L.length + 1) (2 * L.length) 0 L.length (by omega) (by omega) (fun k _ k2 => ok.fcRank (by omega))
        (by show 0 < _; omega) (by omega)
      exact ⟨y, y1, y3, y4⟩
    obtain ⟨y, y1, y2, y3, y4⟩ := h1
    have hy : bitAt s.fc y = true := by
      cases hb : bitAt s.fc y with
      | true => rfl
      | false => rw [cnt_close hb] at y4; omega
    rw [cnt_open hy] at y4
    rw [y1, sbind]
    obtain ⟨t, p, q, h2, h3⟩ := z_exists ok.sc y2
    obtain ⟨q', z1, _, z2, z3, z4⟩ := search_ok (arg := fun mid => do
      let r ← rankC (bitAt s.bp.mem) s.bp.n mid
      sub mid r) (g := fun k => k - countTrue (bitAt s.bp.mem) k) (x := y + 1) (s.bp.n + 1) 0 s.bp.n (by omega) (by rw [ok.bpn]; omega)
      (fun k _ k2 => by rw [ok.bpn] at k2 ⊢; rw [rankC_eq (by omega), sbind, sub_eq (countTrue_le _ _)]) (by simp) (by rw [ok.bpn, ok.sc.cnt]; omega)
    rw [z1, sbind]
    rw [ok.bpn] at z2
    have hb : bitAt s.bp.mem q' = false := by
      cases hb : bitAt s.bp.mem q' with
      | false => rfl
      | true =>
        rw [cnt_open hb] at z4; omega
    rw [cnt_close hb] at z4
    have e : q' = q := z_inj hb h2.cls (by omega)
    subst e
    obtain ⟨v, v1, v2, v3⟩ := invAt_ok ok hn (hz hn) h2 (by rw [h3]; exact hy)
    refine ⟨v, v1, v2, ?_⟩
    rw [v3, h3]
    congr 1; omega

theorem id_lt (hz : 1 < L.length → ∃ k, 0 < k ∧ k < L.length ∧ V L k = 0) (hv : Valid L (bitAt s.bp.mem) v) :
    ∃ x, s.id v = some x ∧ (x < L.length ∨ 1 < L.length ∧ x < L.length + countTrue (bitAt s.fc) L.length) := by
  have h1 := hv.node.1
  have h2 := hv.node.2.1
  rcases Nat.eq_or_lt_of_le h1 with c1 | c1
  · exact ⟨_, id_leaf c1, Or.inl (by omega)⟩
  · obtain ⟨r, t, p, q, f1, f2, f6, f3, f4, f5⟩ := id_ok ok hv c1 (hz (by omega))
    have := countTrue_lt_of_true f6 f3
    exact ⟨_, f4, Or.inr ⟨by omega, by omega⟩⟩

/-! ### tlcp_idx -/

theorem tlcp_eq {t p q : Nat} (h : Pr L (bitAt s.bp.mem) t p q) : s.tlcpIdx t = some (countTrue (bitAt s.fc) (q - countTrue (bitAt s.bp.mem) q)) := by
  obtain ⟨h1, h2, _⟩ := h.2.1.2.2.exc
  have h3 := h.cnt
  have h4 := h.lt
  rw [count_exc, count_exc, cnt_open h.opn] at h2
  have h5 := countTrue_le (bitAt s.bp.mem) q
  have h6 := countTrue_le (bitAt s.bp.mem) p
  have h7 := z_bound ok.sc h
  rw [Cst.tlcpIdx, ok.select h, sbind, ok.findClose h, sbind, sub_eq (by omega), sbind, show (p + q - 1) / 2 - t = q - countTrue (bitAt s.bp.mem) q by omega, ok.fcRank (by omega)]

omit ok in
theorem cnt_zeros {f : Nat → Bool} : ∀ d a, (∀ x, a ≤ x → x < a + d → f x = false) → countTrue f (a + d) = countTrue f a
  | 0, _, _ => rfl
  | d + 1, a, h => by rw [show a + (d + 1) = a + d + 1 by omega, cnt_close (h _ (by omega) (by omega)), cnt_zeros d a (fun x x1 x2 => h x x1 (by omega))]

theorem tlcp_ok (hv : Valid L (bitAt s.bp.mem) v) {k : Nat} (hik : v.i < k) (hkj : k ≤ v.j) (hmin : ∀ x, v.i < x → x ≤ v.j → V L k ≤ V L x) :
    ∃ y, s.tlcpIdx k = some y ∧ s.id v = some (L.length + y) := by
  obtain ⟨c, m, κ, hc, hd, hm1, hmr, ⟨hκ0, hκm⟩, hlt, hgt, hpr, hle, hz, _, hcnt⟩ := lidx_ok ok hv (by omega)
  obtain ⟨_, p1, h1, _⟩ := hpr 1 (Nat.le_refl _) hm1
  rw [show c - (1 - 1) = c by omega] at h1
  have hfind : ∀ d', d' ≤ m + 1 → k < κ d' → ∃ e, e < d' ∧ κ e ≤ k ∧ k < κ (e + 1) := by
    intro d'
    induction d' with
    | zero => intro _ h'; omega
    | succ d' ih =>
      intro h1 h3
      rcases Nat.lt_or_ge k (κ d') with c1 | c1
      · obtain ⟨e, e1, e2⟩ := ih (by omega) c1
        exact ⟨e, by omega, e2⟩
      · exact ⟨d', by omega, c1, h3⟩
  obtain ⟨e, e1, e2, e3⟩ := hfind (m + 1) (Nat.le_refl _) (by omega)
  have hκ1 : v.i < κ 1 := by have := hlt 0 (by omega); simpa [hκ0] using this
  have hek : k = κ e := by
    rcases Nat.eq_or_lt_of_le e2 with c1 | c1
    · exact c1.symm
    · have g1 := hgt e (by omega) k c1 e3
      have g2 := (pr_nsv ok.sc h1).1
      have := hmin (κ 1) hκ1 (by omega)
      omega
  have he1 : 1 ≤ e := by
    rcases Nat.eq_zero_or_pos e with c1 | c1
    · subst c1; omega
    · exact c1
  obtain ⟨_, p, hp, hzz⟩ := hpr e he1 (by omega)
  rw [hek]
  refine ⟨_, tlcp_eq ok hp, ?_⟩
  rw [id_inner ok (by omega) hc h1, hzz]
  congr 2
  have := cnt_zeros (f := bitAt s.fc) (e - 1) (c - countTrue (bitAt s.bp.mem) c - (e - 1)) (fun x x1 x2 => by
    have := hz (c - countTrue (bitAt s.bp.mem) c - x) (by omega) (by omega)
    rwa [show c - countTrue (bitAt s.bp.mem) c - (c - countTrue (bitAt s.bp.mem) c - x) = x by omega] at this)
  rwa [show c - countTrue (bitAt s.bp.mem) c - (e - 1) + (e - 1) = c - countTrue (bitAt s.bp.mem) c by omega] at this

end

/-! ### The construction -/

theorem new_ok {L : List Nat} {W Wfc S D : Nat} (n0 : 0 < L.length) (v0 : V L 0 = 0) (hv : ∀ x ∈ L, x ≤ L.length) (hn : 4 * L.length + 2 < 2 ^ 64) (hW : 2 * L.length ≤ 64 * W) (hW' : L.length ≤ 64 * Wfc)
    (pS : 0 < S) (bS : S + 2 < 2 ^ 64) (h8 : S % 8 = 0) (hD : 2 ≤ D) :
    ∃ s, CstSct3.new L (countTrue (fun k => V L k == 0) L.length) W Wfc S D = some s ∧ Ok L s S D ∧ s.nodes = if L.length = 1 then 1 else L.length + countTrue (bitAt s.fc) L.length := by
  obtain ⟨m, fc, h1, h2, h3, h4, h5, _, h6⟩ := C60_first_child L (by omega) hv (by intro e; rw [e] at n0; exact absurd n0 (by decide)) hW hW'
  obtain ⟨sp, e1, e2⟩ := C59_construct (mem := m) (n := 2 * L.length) (S := S) (D := D) (by omega) (by omega) pS bS (by omega)
  have e3 := sadaNew_mem (by omega) (by omega) pS bS (by omega) e1
  subst e3
  rw [CstSct3.new, h1, sbind]
  dsimp only
  rw [e1, sbind]
  refine ⟨_, rfl, ⟨n0, v0, e2, by simp only; omega, by omega, pS, bS, h8, hD, e1, h4, h5, by simp only; omega, h6, rfl⟩, ?_⟩
  show (if 2 * L.length = 2 then 1 else _) = _
  by_cases c : L.length = 1
  · rw [if_pos (by omega), if_pos c]
  · rw [if_neg (by omega), if_neg c, Nat.add_comm]

end Sdsl.CstSct3
