/-
  Lemmas for cst_sct3: nodes.
-/
import Verif.CstSct3Ops
import Verif.SpecCst

namespace Sdsl.CstSct3

open Spec Props Bits RmqSct

/-! ### LCP intervals -/

section
variable {L : List Nat} {i j a c i' j' : Nat}

/-- Two nodes are nested or apart. -/
theorem laminar (h : IsNode L i j) (h' : IsNode L a c) (h1 : i < a) (h2 : a ≤ j) : c ≤ j := by
  rcases Nat.lt_or_ge j c with c1 | c1
  · have e1 := (h.2.2 a h1 h2).2
    have e2 := (h'.2.2 (j + 1) (by omega) (by omega)).1
    have := h'.2.1
    omega
  · exact c1

/-- How to recognise the parent: the borders that differ from its own are positions of its minimum. -/
theorem isParent_intro (hp : IsNode L i' j') (h : IsNode L a c) (h1 : i' ≤ a) (h2 : c ≤ j') (h3 : ¬ (i' = a ∧ j' = c)) {l : Nat}
    (hl : ∀ k, i' < k → k ≤ j' → l ≤ V L k) (ha : a = i' ∨ V L a = l) (hc : c = j' ∨ V L (c + 1) = l) : IsParent L a c i' j' := by
  refine ⟨hp, h1, h2, h3, fun x y hxy x1 y1 hne => ?_⟩
  have hac := h.1
  have hpn := hp.2.1
  constructor
  · rcases Nat.lt_or_ge i' x with c1 | c1
    · exfalso
      have ha : V L a = l := by omega
      rcases Nat.lt_or_ge x a with c2 | c2
      · have g1 := (hxy.2.2 a c2 (by omega)).1
        have g2 := hl x c1 (by omega)
        simp only [V] at *
        omega
      · have e : x = a := by omega
        subst e
        have hcy : c < y := by omega
        have hy := laminar hp hxy c1 (by omega)
        have hc : V L (c + 1) = l := by omega
        have g1 := (hxy.2.2 (c + 1) (by omega) (by omega)).1
        simp only [V] at *
        omega
    · exact c1
  · rcases Nat.lt_or_ge y j' with c1 | c1
    · exfalso
      have hc : V L (c + 1) = l := by omega
      have g0 := hl (y + 1) (by omega) (by omega)
      rcases Nat.lt_or_ge c y with c2 | c2
      · have g1 := (hxy.2.2 (c + 1) (by omega) (by omega)).2
        simp only [V] at *
        omega
      · have e : y = c := by omega
        subst e
        have hxa : x < a := by omega
        have g1 := (hxy.2.2 a (by omega) (by omega)).2
        have ha : a = i' := by
          rcases ha with e | e
          · exact e
          · simp only [V] at *
            omega
        subst ha
        have g2 := (hp.2.2 (y + 1) (by omega) (by omega)).1
        simp only [V] at *
        omega
    · exact c1

theorem parent_unique {i'' j'' : Nat} (h : IsParent L i j i' j') (h' : IsParent L i j i'' j'') : i' = i'' ∧ j' = j'' := by
  have h1 := h.2.2.2.2 i'' j'' h'.1 h'.2.1 h'.2.2.1 h'.2.2.2.1
  have h2 := h'.2.2.2.2 i' j' h.1 h.2.1 h.2.2.1 h.2.2.2.1
  omega

theorem isNode_root (h : 0 < L.length) : IsNode L 0 (L.length - 1) := ⟨by omega, by omega, fun k _ _ => ⟨Or.inl rfl, Or.inl (by omega)⟩⟩

theorem isNode_leaf (h : i < L.length) : IsNode L i i := ⟨by omega, h, fun k _ _ => by omega⟩

theorem root_no_parent (h : IsParent L 0 (L.length - 1) i' j') : False := by
  have := h.1.2.1
  have := h.1.1
  have := h.2.1
  have := h.2.2.1
  have := h.2.2.2.1
  omega

end

/-- `v` is the node `[v.i..v.j]` with the right positions of its three parentheses. -/
structure Valid (L : List Nat) (b : Nat → Bool) (v : Node) : Prop where
  node : IsNode L v.i v.j
  ipos : IsSelect b (2 * L.length) (v.i + 1) v.ipos
  cipos : Match b v.ipos v.cipos
  clt : v.cipos < 2 * L.length
  last : v.j + 1 = L.length → v.jp1pos = 2 * L.length
  jp1pos : v.j + 1 < L.length → IsSelect b (2 * L.length) (v.j + 2) v.jp1pos

section
variable {L : List Nat} {s : Cst} {S D : Nat} (ok : Ok L s S D) {v : Node}

theorem Valid.pr {b : Nat → Bool} (h : Valid L b v) : Pr L b v.i v.ipos v.cipos := ⟨h.ipos, h.cipos, h.clt⟩

theorem Valid.ext {b : Nat → Bool} {w : Node} (h : Valid L b v) (h' : Valid L b w) (e1 : v.i = w.i) (e2 : v.j = w.j) : v = w := by
  have h1 := h.pr
  have h2 := h'.pr
  rw [e1] at h1
  obtain ⟨e3, e4⟩ := pr_unique_idx h1 h2
  have e5 : v.jp1pos = w.jp1pos := by
    have := h.node.2.1
    rcases Nat.lt_or_ge (v.j + 1) L.length with c | c
    · have g1 := h.jp1pos c
      have g2 := h'.jp1pos (by omega)
      have e6 := g1.2.2
      have e7 := g2.2.2
      rcases Nat.lt_trichotomy v.jp1pos w.jp1pos with c1 | c1 | c1
      · have := countTrue_lt_of_true (f := b) c1 g1.2.1; omega
      · exact c1
      · have := countTrue_lt_of_true (f := b) c1 g2.2.1; omega
    · rw [h.last (by omega), h'.last (by omega)]
  cases v
  cases w
  simp only at *
  subst e1 e2 e3 e4 e5
  rfl

include ok

/-- The next opening parenthesis. -/
theorem Ok.jp (h : Valid L (bitAt s.bp.mem) v) (hj : v.j + 1 < L.length) : ∃ q, Pr L (bitAt s.bp.mem) (v.j + 1) v.jp1pos q := by
  have h1 := h.jp1pos hj
  obtain ⟨q, hq⟩ := pr_of_open ok.sc h1.1 h1.2.1
  have := h1.2.2
  rw [show countTrue (bitAt s.bp.mem) v.jp1pos = v.j + 1 by omega] at hq
  exact ⟨q, hq⟩

theorem Ok.endPos {j : Nat} (hj : j < L.length) : ∃ e, s.endPos j = some e ∧ (j + 1 = L.length → e = 2 * L.length) ∧ (j + 1 < L.length → IsSelect (bitAt s.bp.mem) (2 * L.length) (j + 2) e) := by
  unfold Cst.endPos
  rw [ok.size, sub_eq (by omega), sbind, ok.bpn]
  by_cases c : j = L.length - 1
  · rw [if_pos c]
    exact ⟨_, rfl, fun _ => rfl, fun _ => by omega⟩
  · rw [if_neg c]
    obtain ⟨p, q, h⟩ := pr_exists ok.sc (t := j + 1) (by omega)
    exact ⟨p, ok.select h, fun _ => by omega, fun _ => h.1⟩

theorem root_ok : ∃ r, s.root = some r ∧ r.i = 0 ∧ r.j = L.length - 1 ∧ Valid L (bitAt s.bp.mem) r := by
  have h0 := ok.n0
  have h1 := ok.root_pr
  unfold Cst.root
  rw [ok.size, sub_eq (by omega), sbind, ok.bpn, sub_eq (by omega), sbind]
  exact ⟨_, rfl, rfl, rfl, isNode_root h0, h1.1, h1.2.1, h1.2.2, fun _ => rfl, fun h => by simp only at h; omega⟩

theorem node_ok {i j : Nat} (h : IsNode L i j) : ∃ v, s.node i j = some v ∧ v.i = i ∧ v.j = j ∧ Valid L (bitAt s.bp.mem) v := by
  have hij := h.1
  obtain ⟨p, q, h1⟩ := pr_exists ok.sc (t := i) (by have := h.2.1; omega)
  obtain ⟨e, e1, e2, e3⟩ := ok.endPos h.2.1
  unfold Cst.node
  rw [ok.select h1, sbind, e1, sbind, ok.findClose h1, sbind]
  exact ⟨_, rfl, rfl, rfl, h, h1.1, h1.2.1, h1.2.2, e2, e3⟩

theorem leaf_ok {i : Nat} (h1 : 1 ≤ i) (h2 : i ≤ L.length) : ∃ v, s.selectLeaf i = some v ∧ v.i = i - 1 ∧ v.j = i - 1 ∧ Valid L (bitAt s.bp.mem) v := by
  obtain ⟨p, q, h3⟩ := pr_exists ok.sc (t := i - 1) (by omega)
  have hs := ok.select h3
  rw [show i - 1 + 1 = i by omega] at hs
  have he : ∃ e, s.leafEnd i p = some e ∧ (i = L.length → e = 2 * L.length) ∧ (i < L.length → IsSelect (bitAt s.bp.mem) (2 * L.length) (i + 1) e) := by
    unfold Cst.leafEnd
    rw [ok.size, ok.bpn]
    by_cases c : i = L.length
    · rw [if_pos c]
      exact ⟨_, rfl, fun _ => rfl, fun _ => by omega⟩
    · have h4 := h3.lt
      have h5 := h3.2.2
      rw [if_neg c, ok.at' (by omega), sbind]
      cases hb : bitAt s.bp.mem (p + 1) with
      | true =>
        rw [if_pos rfl]
        exact ⟨_, rfl, fun e => absurd e c, fun _ => ⟨by omega, hb, by rw [cnt_open h3.opn, h3.cnt]; omega⟩⟩
      | false =>
        obtain ⟨p', q', h6⟩ := pr_exists ok.sc (t := i) (by omega)
        rw [if_neg (by decide), ok.select h6]
        exact ⟨p', rfl, fun e => absurd e c, fun _ => h6.1⟩
  obtain ⟨e, e1, e2, e3⟩ := he
  unfold Cst.selectLeaf
  rw [hs, sbind, e1, sbind, ok.findClose h3, sbind, sub_eq h1, sbind]
  refine ⟨_, rfl, rfl, rfl, isNode_leaf (show i - 1 < L.length by omega), h3.1, h3.2.1, h3.2.2, fun h => e2 ?_, fun h => ?_⟩
  · simp only at h; omega
  · have := e3 (by simp only at h; omega)
    rwa [show i + 1 = i - 1 + 2 by omega] at this

theorem Ok.node_le (h : Valid L (bitAt s.bp.mem) v) : ∀ k, v.i < k → k ≤ v.j → V L v.i ≤ V L k := by
  intro k k1 k2
  rcases (h.node.2.2 k k1 k2).1 with e | e
  · rw [e, ok.v0]; omega
  · simp only [V]; omega

/-- The position of the closing parenthesis of the first l-index. -/
theorem firstL_ok (hv : Valid L (bitAt s.bp.mem) v) (hij : v.i < v.j) :
    ∃ c k p, Cst.closingPos v = some c ∧ Pr L (bitAt s.bp.mem) k p c ∧ v.i < k ∧ k ≤ v.j ∧ (∀ x, v.i < x → x < k → V L k < V L x) ∧ (∀ x, k < x → x ≤ v.j → V L k ≤ V L x) ∧
      countTrue (bitAt s.bp.mem) c = v.j + 1 := by
  have hi := hv.pr
  have hil := hi.lt
  have hjn := hv.node.2.1
  have hle := ok.node_le hv
  unfold Cst.closingPos
  by_cases cA : v.cipos > v.jp1pos
  · rw [if_pos cA]
    have hj : v.j + 1 < L.length := by
      rcases Nat.lt_or_ge (v.j + 1) L.length with c | c
      · exact c
      · have := hv.last (by omega)
        have := hv.clt; omega
    obtain ⟨q', h2⟩ := ok.jp hv hj
    have hp := (pr_lt_iff hi h2).1 (by omega)
    rw [sub_eq (by omega)]
    have hlt : ∀ x, v.i < x → x ≤ v.j → V L (v.j + 1) < V L x := by
      intro x x1 x2
      rcases (hv.node.2.2 x x1 x2).2 with e | e
      · omega
      · exact e
    have hcl : bitAt s.bp.mem (v.jp1pos - 1) = false := by
      cases hb : bitAt s.bp.mem (v.jp1pos - 1) with
      | false => rfl
      | true =>
        obtain ⟨qx, hx⟩ := pr_of_open ok.sc (p := v.jp1pos - 1) (by have := h2.1.1; omega) hb
        have e := h2.cnt
        have e' := cnt_open hb
        rw [show v.jp1pos - 1 + 1 = v.jp1pos by omega] at e'
        rw [show countTrue (bitAt s.bp.mem) (v.jp1pos - 1) = v.j by omega] at hx
        have h3 := hx.lt
        rcases pr_nest ok.sc hx h2 (by omega) with ⟨c, _⟩ | ⟨_, _, c⟩
        · omega
        · have := c (v.j + 1) (by omega) (Nat.le_refl _)
          have := hlt v.j hij (Nat.le_refl _)
          omega
    obtain ⟨k, p, hk⟩ := pr_of_close ok.sc (q := v.jp1pos - 1) (by have := h2.1.1; omega) hcl
    have hcnt : countTrue (bitAt s.bp.mem) (v.jp1pos - 1) = v.j + 1 := by
      have e := h2.cnt
      have e' := cnt_close hcl
      rw [show v.jp1pos - 1 + 1 = v.jp1pos by omega] at e'
      omega
    have hn := pr_nsv ok.sc hk
    rw [hcnt] at hn
    have hik : v.i < k := by
      rcases Nat.lt_trichotomy v.i k with c | c | c
      · exact c
      · rw [← c] at hk
        have := (pr_unique_idx hi hk).2; omega
      · have hpp := (pr_lt_iff hk hi).1 c
        have : v.ipos ≠ v.jp1pos - 1 := by intro e; have := hi.opn; rw [e, hcl] at this; cases this
        rcases match_nest hk.2.1 hi.2.1 hpp with c1 | c1 <;> omega
    refine ⟨_, k, p, rfl, hk, hik, by omega, between_gt ok.sc hk fun x px qx x1 x2 hx => ?_, fun x x1 x2 => hn.2.2.1 x x1 (by omega), hcnt⟩
    have h4 : qx < v.jp1pos := by
      rcases pr_nest ok.sc hx h2 (by omega) with ⟨c, _⟩ | ⟨_, _, c⟩
      · exact c
      · have := c (v.j + 1) (by omega) (Nat.le_refl _)
        have := hlt x x1 (by omega)
        omega
    have h5 : qx ≠ v.jp1pos - 1 := by
      intro e
      rw [e] at hx
      have := (pr_unique_close hx hk).1; omega
    rcases match_nest hx.2.1 hk.2.1 ((pr_lt_iff hx hk).1 x2) with c1 | c1 <;> omega
  · rw [if_neg cA, sub_eq (by omega)]
    obtain ⟨p1, q1, h1⟩ := pr_exists ok.sc (t := v.i + 1) (by omega)
    have hp1 := (pr_lt_iff hi h1).1 (by omega)
    have hne : v.cipos ≠ v.ipos + 1 := by
      have := (pr_around ok.sc hi h1 (by omega)).2 (fun k k1 k2 => hle k k1 (by omega))
      omega
    obtain ⟨hcl, hlt⟩ := (before_close ok.sc hi).resolve_left hne
    obtain ⟨k, p, hk⟩ := pr_of_close ok.sc (q := v.cipos - 1) (by have := hv.clt; omega) hcl
    have hcnt : countTrue (bitAt s.bp.mem) (v.cipos - 1) = v.j + 1 := by
      have e' := cnt_close hcl
      rw [show v.cipos - 1 + 1 = v.cipos by omega] at e'
      rw [← e']
      have hn := pr_nsv ok.sc hi
      rcases Nat.lt_trichotomy (countTrue (bitAt s.bp.mem) v.cipos) (v.j + 1) with c | c | c
      · have := hn.2.2.2 (by omega)
        have := hle _ hn.1 (by omega)
        omega
      · exact c
      · obtain ⟨q', h2⟩ := ok.jp hv (by omega)
        have e := h2.cnt
        rcases Nat.lt_or_ge v.jp1pos v.cipos with c1 | c1
        · omega
        · have := countTrue_mono (bitAt s.bp.mem) c1; omega
    have hn := pr_nsv ok.sc hk
    rw [hcnt] at hn
    have hik : v.i < k := by
      rcases Nat.lt_trichotomy v.i k with c | c | c
      · exact c
      · rw [← c] at hk
        have := (pr_unique_idx hi hk).2; omega
      · have hpp := (pr_lt_iff hk hi).1 c
        rcases match_nest hk.2.1 hi.2.1 hpp with c1 | c1 <;> omega
    refine ⟨_, k, p, rfl, hk, hik, by omega, between_gt ok.sc hk fun x px qx x1 x2 hx => ?_, fun x x1 x2 => hn.2.2.1 x x1 (by omega), hcnt⟩
    have h4 : qx < v.cipos := by
      rcases pr_nest ok.sc hi hx x1 with ⟨_, y, y1, y2, y3⟩ | ⟨_, c, _⟩
      · have := hle y y1 (by omega); omega
      · exact c
    have h5 : qx ≠ v.cipos - 1 := by
      intro e
      rw [e] at hx
      have := (pr_unique_close hx hk).1; omega
    rcases match_nest hx.2.1 hk.2.1 ((pr_lt_iff hx hk).1 x2) with c1 | c1 <;> omega

/-! ### parent -/

/-- The two cases of the order of the parentheses. -/
theorem side (hv : Valid L (bitAt s.bp.mem) v) :
    v.cipos > v.jp1pos ∧ v.j + 1 < L.length ∧ V L v.i ≤ V L (v.j + 1) ∨ v.cipos < v.jp1pos ∧ (v.j + 1 = L.length ∨ V L (v.j + 1) < V L v.i) := by
  have hi := hv.pr
  have hc := hv.clt
  rcases Nat.lt_or_ge (v.j + 1) L.length with c | c
  · obtain ⟨q', h2⟩ := ok.jp hv c
    have hij := hv.node.1
    rcases pr_nest ok.sc hi h2 (by omega) with ⟨c1, k, k1, k2, k3⟩ | ⟨c1, _, c2⟩
    · refine Or.inr ⟨c1, Or.inr ?_⟩
      rcases Nat.lt_or_ge v.j k with c3 | c3
      · rwa [show v.j + 1 = k by omega]
      · have := ok.node_le hv k k1 c3; omega
    · exact Or.inl ⟨c1, c, c2 _ (by omega) (Nat.le_refl _)⟩
  · have e : v.j + 1 = L.length := by have := hv.node.2.1; omega
    have := hv.last e
    exact Or.inr ⟨by omega, Or.inl e⟩

omit ok in
/-- The interval of the values around position `k` that are not smaller. -/
theorem interval_node {k u x : Nat} (hk : k < L.length) (hx : x < k) (h1 : x = 0 ∨ V L x < V L k) (h2 : ∀ y, x < y → y < k → V L k ≤ V L y)
    (h3 : k < u) (hu : u ≤ L.length) (h4 : ∀ y, k < y → y < u → V L k ≤ V L y) (h5 : u < L.length → V L u < V L k) : IsNode L x (u - 1) ∧ ∀ y, x < y → y ≤ u - 1 → V L k ≤ V L y := by
  have h6 : ∀ y, x < y → y ≤ u - 1 → V L k ≤ V L y := by
    intro y y1 y2
    rcases Nat.lt_trichotomy y k with c | c | c
    · exact h2 y y1 c
    · rw [c]
    · exact h4 y c (by omega)
  refine ⟨⟨by omega, by omega, fun y y1 y2 => ⟨?_, ?_⟩⟩, h6⟩
  · have := h6 y y1 y2
    simp only [V] at *
    omega
  · have := h6 y y1 y2
    rcases Nat.lt_or_ge u L.length with c | c
    · have := h5 c
      rw [show u - 1 + 1 = u by omega]
      simp only [V] at *
      omega
    · exact Or.inl (by omega)

theorem parent_ok (hv : Valid L (bitAt s.bp.mem) v) :
    ∃ w, s.parent v = some w ∧ Valid L (bitAt s.bp.mem) w ∧ (v.i = 0 → v.j + 1 = L.length → w.i = 0 ∧ w.j = v.j) ∧ (¬ (v.i = 0 ∧ v.j + 1 = L.length) → IsParent L v.i v.j w.i w.j) ∧
      (v.cipos < v.jp1pos → w.j = v.j) := by
  have hi := hv.pr
  have hij := hv.node.1
  unfold Cst.parent
  rcases side ok hv with ⟨c, hj, hle⟩ | ⟨c, hle⟩
  · obtain ⟨q', h2⟩ := ok.jp hv hj
    rw [if_pos c, ok.findClose h2, sbind]
    obtain ⟨k, pk, qk, e1, hk, _, hk2⟩ := psv_ok ok h2
    obtain ⟨k1, k2, k3⟩ := hk2 (by omega)
    have hn := pr_nsv ok.sc h2
    rw [e1, sbind]
    dsimp only
    rw [ok.nsv h2, sbind, sub_eq (by omega), sbind]
    obtain ⟨e, e2, e3, e4⟩ := ok.endPos (j := countTrue (bitAt s.bp.mem) q' - 1) (by omega)
    rw [e2, sbind]
    obtain ⟨hnode, hmin⟩ := interval_node hj k1 k2 k3 hn.1 hn.2.1 hn.2.2.1 hn.2.2.2
    refine ⟨_, rfl, ⟨hnode, hk.1, hk.2.1, hk.2.2, e3, e4⟩, fun _ _ => by omega, fun _ => ?_, fun h => by omega⟩
    have hki : k ≤ v.i := by
      rcases Nat.lt_or_ge v.i k with c1 | c1
      · have := (hv.node.2.2 k c1 (by omega)).2
        simp only [V] at *
        omega
      · exact c1
    refine isParent_intro hnode hv.node hki (show v.j ≤ countTrue (bitAt s.bp.mem) q' - 1 by omega) (show ¬ (k = v.i ∧ countTrue (bitAt s.bp.mem) q' - 1 = v.j) by omega) hmin ?_ (Or.inr rfl)
    rcases Nat.eq_or_lt_of_le hki with e5 | e5
    · exact Or.inl e5.symm
    · have := k3 v.i e5 (by omega)
      exact Or.inr (by omega)
  · rw [if_neg (by omega)]
    obtain ⟨k, pk, qk, e1, hk, hk0, hk2⟩ := psv_ok ok hi
    rw [e1, sbind]
    dsimp only
    rcases Nat.eq_zero_or_pos v.i with c0 | c0
    · have hroot : v.j + 1 = L.length := by
        rcases hle with e | e
        · exact e
        · rw [c0, ok.v0] at e; omega
      have e0 := hk0 c0
      subst e0
      refine ⟨_, rfl, ⟨?_, hk.1, hk.2.1, hk.2.2, hv.last, hv.jp1pos⟩, fun _ _ => ⟨rfl, rfl⟩, fun h => absurd ⟨c0, hroot⟩ h, fun _ => rfl⟩
      have := hv.node
      rwa [c0] at this
    · obtain ⟨k1, k2, k3⟩ := hk2 c0
      have hit := hi.idx ok.sc
      obtain ⟨hnode, hmin⟩ := interval_node (u := v.j + 1) hit k1 k2 k3 (by omega) (by have := hv.node.2.1; omega) (fun y y1 y2 => ok.node_le hv y y1 (by omega)) (fun h => by omega)
      rw [Nat.add_sub_cancel] at hnode hmin
      exact ⟨_, rfl, ⟨hnode, hk.1, hk.2.1, hk.2.2, hv.last, hv.jp1pos⟩, fun h => by omega,
        fun _ => isParent_intro hnode hv.node (by simp only; omega) (Nat.le_refl _) (by simp only; omega) hmin (Or.inr rfl) (Or.inl rfl), fun _ => rfl⟩

end

end Sdsl.CstSct3
