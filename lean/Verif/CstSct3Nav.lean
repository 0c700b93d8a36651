/-
  Lemmas for cst_sct3: children, siblings and lowest common ancestors.
-/
import Verif.CstSct3Nodes

namespace Sdsl.CstSct3

open Spec Props Bits RmqSct

section
variable {L : List Nat} {s : Cst} {S D : Nat} (ok : Ok L s S D) {v : Node}
include ok

/-- The l-indices of an inner node and its borders. -/
theorem lidx_ok (hv : Valid L (bitAt s.bp.mem) v) (hij : v.i < v.j) : ∃ (c m : Nat) (κ : Nat → Nat), Cst.closingPos v = some c ∧ s.degree v = some (m + 1) ∧ 1 ≤ m ∧ m ≤ c - countTrue (bitAt s.bp.mem) c + 1 ∧
    (κ 0 = v.i ∧ κ (m + 1) = v.j + 1) ∧ (∀ e, e ≤ m → κ e < κ (e + 1)) ∧ (∀ e, e ≤ m → ∀ x, κ e < x → x < κ (e + 1) → V L (κ 1) < V L x) ∧
    (∀ e, 1 ≤ e → e ≤ m → V L (κ e) = V L (κ 1) ∧ ∃ p, Pr L (bitAt s.bp.mem) (κ e) p (c - (e - 1)) ∧
      c - (e - 1) - countTrue (bitAt s.bp.mem) (c - (e - 1)) = c - countTrue (bitAt s.bp.mem) c - (e - 1)) ∧
    (∀ x, v.i < x → x ≤ v.j → V L (κ 1) ≤ V L x) ∧ (∀ e, 1 ≤ e → e < m → bitAt s.fc (c - countTrue (bitAt s.bp.mem) c - e) = false) ∧
    (m ≤ c - countTrue (bitAt s.bp.mem) c → bitAt s.fc (c - countTrue (bitAt s.bp.mem) c - m) = true) ∧ countTrue (bitAt s.bp.mem) c = v.j + 1 := by
  obtain ⟨c, k1, p1, hc, hk1, hik, hkj, hbef, haft, hcnt⟩ := firstL_ok ok hv hij
  obtain ⟨r, hr⟩ : ∃ r, r = c - countTrue (bitAt s.bp.mem) c := ⟨_, rfl⟩
  obtain ⟨m, hdeg, hm1, hmr, hz, ho⟩ := degreeAt_ok ok hk1 hr
  have hd : s.degree v = some (m + 1) := by
    rw [Cst.degree, if_neg (by rw [Cst.isLeaf, beq_iff_eq]; omega), hc, sbind, hdeg]
  have hcc := countTrue_le (bitAt s.bp.mem) c
  have key : ∀ e, 1 ≤ e → e ≤ m → ∃ k p, Pr L (bitAt s.bp.mem) k p (c - (e - 1)) ∧ c - (e - 1) - countTrue (bitAt s.bp.mem) (c - (e - 1)) = r - (e - 1) ∧ V L k = V L k1 ∧ k1 ≤ k := by
    intro e
    induction e with
    | zero => intro h; omega
    | succ e ih =>
      intro _ h2
      rcases Nat.eq_zero_or_pos e with c0 | c0
      · subst c0
        exact ⟨k1, p1, hk1, hr.symm, rfl, Nat.le_refl _⟩
      · obtain ⟨k, p, g1, g2, g3, g4⟩ := ih c0 (by omega)
        obtain ⟨s', p', f1, f2, f3, f4, _⟩ := run_down ok.sc ok.fch g1 (by omega) (by rw [g2, show r - (e - 1) - 1 = r - e by omega]; exact hz e c0 (by omega))
        rw [show c - (e - 1) - 1 = c - (e + 1 - 1) by omega] at f1 f2
        exact ⟨s', p', f1, by omega, by omega, by omega⟩
  have key' : ∀ e, ∃ k, 1 ≤ e → e ≤ m → ∃ p, Pr L (bitAt s.bp.mem) k p (c - (e - 1)) ∧ c - (e - 1) - countTrue (bitAt s.bp.mem) (c - (e - 1)) = r - (e - 1) ∧ V L k = V L k1 ∧ k1 ≤ k := by
    intro e
    by_cases h : 1 ≤ e ∧ e ≤ m
    · obtain ⟨k, p, g⟩ := key e h.1 h.2
      exact ⟨k, fun _ _ => ⟨p, g⟩⟩
    · exact ⟨0, fun h1 h2 => absurd ⟨h1, h2⟩ h⟩
  obtain ⟨κ', hκ⟩ := Classical.axiomOfChoice key'
  have e1 : κ' 1 = k1 := by
    obtain ⟨p, g, _⟩ := hκ 1 (Nat.le_refl _) hm1
    exact (pr_unique_close g hk1).1
  have hle : ∀ x, v.i < x → x ≤ v.j → V L k1 ≤ V L x := by
    intro x x1 x2
    rcases Nat.lt_trichotomy x k1 with h | h | h
    · have := hbef x x1 h; omega
    · rw [h]
    · exact haft x h x2
  have hstep : ∀ e, 1 ≤ e → e < m → κ' e < κ' (e + 1) ∧ ∀ x, κ' e < x → x < κ' (e + 1) → V L k1 < V L x := by
    intro e h1 h2
    obtain ⟨p, g1, g2, g3, g4⟩ := hκ e h1 (by omega)
    obtain ⟨s', p', f1, f2, f3, f4, f5⟩ := run_down ok.sc ok.fch g1 (by omega) (by rw [g2, show r - (e - 1) - 1 = r - e by omega]; exact hz e h1 h2)
    obtain ⟨p'', g1', _⟩ := hκ (e + 1) (by omega) (by omega)
    rw [show c - (e - 1) - 1 = c - (e + 1 - 1) by omega] at f1
    have := (pr_unique_close f1 g1').1
    subst this
    exact ⟨f3, fun x x1 x2 => by rw [← g3]; exact f5 x x1 x2⟩
  have hlast : κ' m ≤ v.j ∧ ∀ x, κ' m < x → x ≤ v.j → V L k1 < V L x := by
    obtain ⟨p, g1, g2, g3, g4⟩ := hκ m hm1 (Nat.le_refl _)
    have hn := (pr_nsv ok.sc g1).1
    have hct : countTrue (bitAt s.bp.mem) (c - (m - 1)) = v.j + 1 := by
      have := countTrue_le (bitAt s.bp.mem) (c - (m - 1))
      omega
    refine ⟨by omega, fun x => ?_⟩
    induction x using Nat.strongRecOn with
    | _ x ih =>
      intro x1 x2
      have hge := hle x (by omega) x2
      rcases Nat.lt_or_ge (V L k1) (V L x) with h | h
      · exact h
      · exfalso
        have := run_down' ok.sc ok.fch g1 x1 (by have := hv.node.2.1; omega) (by omega) (fun k k2 k3 => by rw [g3]; exact ih k k3 k2 (by omega))
        rw [g2, show r - (m - 1) - 1 = r - m by omega, ho (by omega)] at this
        simp at this
  subst hr
  refine ⟨c, m, fun e => if e = 0 then v.i else if e ≤ m then κ' e else v.j + 1, hc, hd, hm1, hmr, ⟨if_pos rfl, ?_⟩, ?_, ?_, ?_, ?_, hz, ho, hcnt⟩
  · show (if m + 1 = 0 then v.i else if m + 1 ≤ m then κ' (m + 1) else v.j + 1) = _
    rw [if_neg (by omega), if_neg (by omega)]
  · intro e he
    dsimp only
    rw [if_neg (show ¬ e + 1 = 0 by omega)]
    by_cases h0 : e = 0
    · subst h0
      rw [if_pos rfl, if_pos (by omega), e1]; exact hik
    · rw [if_neg h0, if_pos he]
      by_cases h1 : e + 1 ≤ m
      · rw [if_pos h1]; exact (hstep e (by omega) h1).1
      · have : e = m := by omega
        subst this
        rw [if_neg h1]; have := hlast.1; omega
  · intro e he x
    dsimp only
    rw [if_neg (show ¬ e + 1 = 0 by omega), if_neg (show ¬ 1 = 0 by omega), if_pos hm1, e1]
    by_cases h0 : e = 0
    · subst h0
      rw [if_pos rfl, if_pos (by omega), e1]; exact hbef x
    · rw [if_neg h0, if_pos he]
      by_cases h1 : e + 1 ≤ m
      · rw [if_pos h1]; exact (hstep e (by omega) h1).2 x
      · have : e = m := by omega
        subst this
        rw [if_neg h1]
        exact fun x1 x2 => hlast.2 x x1 (by omega)
  · intro e he1 he2
    dsimp only
    rw [if_neg (show ¬ e = 0 by omega), if_pos he2, if_neg (show ¬ 1 = 0 by omega), if_pos hm1, e1]
    obtain ⟨p, g1, g2, g3, g4⟩ := hκ e he1 he2
    exact ⟨g3, p, g1, g2⟩
  · dsimp only
    rw [if_neg (show ¬ 1 = 0 by omega), if_pos hm1, e1]; exact hle

theorem selectLEnd_ok (hv : Valid L (bitAt s.bp.mem) v) : ∃ q, s.selectLEnd v = some (v.j + 1, v.jp1pos, q) := by
  have : ∃ q, s.closeOrEnd v.jp1pos = some q := by
    unfold Cst.closeOrEnd
    rw [ok.bpn]
    by_cases c : v.jp1pos < 2 * L.length
    · rw [if_pos c]
      have hj : v.j + 1 < L.length := by
        have := hv.node.2.1
        rcases Nat.lt_or_ge (v.j + 1) L.length with h | h
        · exact h
        · have := hv.last (by omega); omega
      obtain ⟨q, h⟩ := ok.jp hv hj
      exact ⟨q, ok.findClose h⟩
    · rw [if_neg c]; exact ⟨_, rfl⟩
  obtain ⟨q, hq⟩ := this
  exact ⟨q, by rw [Cst.selectLEnd, hq, sbind]; rfl⟩

theorem selectL_in {c m e k p : Nat} (hc : Cst.closingPos v = some c) (hd : s.degree v = some (m + 1)) {k1 p1 : Nat} (h1 : Pr L (bitAt s.bp.mem) k1 p1 c)
    (hm : m ≤ c - countTrue (bitAt s.bp.mem) c + 1) (he : 1 ≤ e) (hem : e ≤ m) (hk : Pr L (bitAt s.bp.mem) k p (c - (e - 1))) : s.selectL v e = some (k, p, c - (e - 1)) := by
  rw [Cst.selectL, hc, sbind]
  by_cases c1 : 1 = e
  · subst c1
    rw [show c - (1 - 1) = c by omega] at hk ⊢
    rw [if_pos rfl, ok.findOpen hk, sbind, ok.index hk]; rfl
  · have := countTrue_le (bitAt s.bp.mem) c
    rw [if_neg c1, ok.rank0 h1, sbind, if_pos (by omega), hd, sbind, if_pos (by omega), sub_eq (by omega), sbind, ok.findOpen hk, sbind, ok.index hk]; rfl

theorem selectL_out (hv : Valid L (bitAt s.bp.mem) v) {c m e : Nat} (hc : Cst.closingPos v = some c) (hd : s.degree v = some (m + 1)) {k1 p1 : Nat} (h1 : Pr L (bitAt s.bp.mem) k1 p1 c)
    (hm1 : 1 ≤ m) (hem : m < e) : ∃ q, s.selectL v e = some (v.j + 1, v.jp1pos, q) := by
  obtain ⟨q, hq⟩ := selectLEnd_ok ok hv
  refine ⟨q, ?_⟩
  rw [Cst.selectL, hc, sbind, if_neg (by omega), ok.rank0 h1, sbind]
  by_cases c1 : c - countTrue (bitAt s.bp.mem) c + 1 ≥ e
  · rw [if_pos c1, hd, sbind, if_neg (by omega), hq]
  · rw [if_neg c1, hq]

/-- The children of an inner node. -/
theorem children_ok (hv : Valid L (bitAt s.bp.mem) v) (hij : v.i < v.j) : ∃ (d : Nat) (κ : Nat → Nat), s.degree v = some d ∧ 2 ≤ d ∧ κ 0 = v.i ∧ κ d = v.j + 1 ∧ (∀ e, e < d → κ e < κ (e + 1)) ∧
    (∀ e, e < d → ∃ w, s.selectChild v (e + 1) = some w ∧ Valid L (bitAt s.bp.mem) w ∧ w.i = κ e ∧ w.j + 1 = κ (e + 1) ∧ IsParent L w.i w.j v.i v.j) ∧
    (∀ e, d ≤ e → s.selectChild v (e + 1) = s.root) := by
  obtain ⟨c, m, κ, hc, hd, hm1, hmr, ⟨hκ0, hκm⟩, hlt, hgt, hpr, hle, _, _, _⟩ := lidx_ok ok hv hij
  obtain ⟨_, p1, h1, _⟩ := hpr 1 (Nat.le_refl _) hm1
  rw [show c - (1 - 1) = c by omega] at h1
  have hleaf : ¬ Cst.isLeaf v = true := by rw [Cst.isLeaf, beq_iff_eq]; omega
  -- the l-index behind the child
  have hsel : ∀ e, 1 ≤ e → e ≤ m + 1 → ∃ p q, s.selectL v e = some (κ e, p, q) ∧ (e ≤ m → Pr L (bitAt s.bp.mem) (κ e) p q) ∧ (e = m + 1 → p = v.jp1pos) := by
    intro e he1 he2
    rcases Nat.lt_or_ge m e with c1 | c1
    · obtain ⟨q, hq⟩ := selectL_out ok hv hc hd h1 hm1 c1
      have : e = m + 1 := by omega
      subst this
      exact ⟨_, q, by rw [hκm]; exact hq, fun h => by omega, fun _ => rfl⟩
    · obtain ⟨_, p, hp, _⟩ := hpr e he1 c1
      exact ⟨p, _, selectL_in ok hc hd h1 hmr he1 c1 hp, fun _ => hp, fun h => by omega⟩
  have hmono : ∀ e, e ≤ m + 1 → v.i + e ≤ κ e := by
    intro e
    induction e with
    | zero => intro _; omega
    | succ e ih => intro he; have := ih (by omega); have := hlt e (by omega); omega
  have hup : ∀ d e, e + d = m + 1 → κ e + d ≤ v.j + 1 := by
    intro d
    induction d with
    | zero => intro e he; have : e = m + 1 := by omega
              subst this; omega
    | succ d ih => intro e he; have := ih (e + 1) (by omega); have := hlt e (by omega); omega
  have hjn := hv.node.2.1
  have hnode : ∀ e, e ≤ m → IsNode L (κ e) (κ (e + 1) - 1) := by
    intro e he
    have g1 := hlt e he
    have g2 := hup (m + 1 - (e + 1)) (e + 1) (by omega)
    have g3 := hmono e (by omega)
    refine ⟨by omega, by omega, fun x x1 x2 => ?_⟩
    have g4 := hgt e he x x1 (by omega)
    constructor
    · rcases Nat.eq_zero_or_pos e with c0 | c0
      · subst c0
        rw [hκ0] at x1 ⊢
        exact (hv.node.2.2 x x1 (by omega)).1
      · have := (hpr e c0 he).1
        refine Or.inr ?_
        simp only [V] at *
        omega
    · rw [show κ (e + 1) - 1 + 1 = κ (e + 1) by omega]
      rcases Nat.lt_or_ge e m with c1 | c1
      · have := (hpr (e + 1) (by omega) c1).1
        refine Or.inr ?_
        simp only [V] at *
        omega
      · have : e = m := by omega
        subst this
        rw [hκm]
        exact (hv.node.2.2 x (by omega) (by omega)).2
  have hpar : ∀ e, e ≤ m → IsParent L (κ e) (κ (e + 1) - 1) v.i v.j := by
    intro e he
    have g1 := hlt e he
    have g2 := hup (m + 1 - (e + 1)) (e + 1) (by omega)
    have g3 := hmono e (by omega)
    refine isParent_intro hv.node (hnode e he) (by omega) (by omega) ?_ hle ?_ ?_
    · intro h
      rcases Nat.eq_zero_or_pos e with c0 | c0
      · subst c0
        have := hup (m + 1 - 1) 1 (by omega)
        simp only [Nat.zero_add] at h
        omega
      · omega
    · rcases Nat.eq_zero_or_pos e with c0 | c0
      · subst c0; exact Or.inl hκ0
      · exact Or.inr (hpr e c0 he).1
    · rw [show κ (e + 1) - 1 + 1 = κ (e + 1) by omega]
      rcases Nat.lt_or_ge e m with c1 | c1
      · exact Or.inr (hpr (e + 1) (by omega) c1).1
      · have : e = m := by omega
        subst this
        rw [hκm]; exact Or.inl rfl
  refine ⟨m + 1, κ, hd, by omega, hκ0, hκm, fun e he => hlt e (by omega), fun e he => ?_, fun e he => ?_⟩
  · obtain ⟨p2, q2, s1, s2, s3⟩ := hsel (e + 1) (by omega) (by omega)
    have g1 := hlt e (by omega)
    have g2 := hup (m + 1 - (e + 1)) (e + 1) (by omega)
    -- the end of the child
    have hend : (κ (e + 1) - 1 + 1 = L.length → p2 = 2 * L.length) ∧ (κ (e + 1) - 1 + 1 < L.length → IsSelect (bitAt s.bp.mem) (2 * L.length) (κ (e + 1) - 1 + 2) p2) := by
      rw [show κ (e + 1) - 1 + 1 = κ (e + 1) by omega, show κ (e + 1) - 1 + 2 = κ (e + 1) + 1 by omega]
      rcases Nat.lt_or_ge e m with c1 | c1
      · have h2 := s2 (by omega)
        have := h2.idx ok.sc
        exact ⟨fun h => by omega, fun _ => h2.1⟩
      · have : e = m := by omega
        subst this
        rw [s3 rfl, hκm]
        exact ⟨hv.last, hv.jp1pos⟩
    unfold Cst.selectChild
    rw [if_neg hleaf]
    rcases Nat.eq_zero_or_pos e with c0 | c0
    · subst c0
      simp only [Nat.zero_add] at *
      rw [if_pos trivial, s1, sbind]
      dsimp only
      rw [sub_eq (by omega), sbind]
      have hn := hnode 0 (by omega)
      have hp := hpar 0 (by omega)
      rw [hκ0] at hn hp
      exact ⟨_, rfl, ⟨hn, hv.ipos, hv.cipos, hv.clt, hend.1, hend.2⟩, hκ0.symm, show κ 1 - 1 + 1 = κ 1 by omega, hp⟩
    · obtain ⟨p1', q1', t1, t2, _⟩ := hsel e c0 (by omega)
      have h2 := t2 (by omega)
      rw [if_neg (by omega), Nat.add_sub_cancel, t1, sbind]
      dsimp only
      rw [if_neg (by omega), s1, sbind]
      dsimp only
      rw [sub_eq (by omega), sbind]
      exact ⟨_, rfl, ⟨hnode e (by omega), h2.1, h2.2.1, h2.2.2, hend.1, hend.2⟩, rfl, show κ (e + 1) - 1 + 1 = κ (e + 1) by omega, hpar e (by omega)⟩
  · unfold Cst.selectChild
    obtain ⟨q, hq⟩ := selectL_out ok hv hc hd h1 hm1 (e := e) (by omega)
    rw [if_neg hleaf, if_neg (by omega), Nat.add_sub_cancel, hq, sbind]
    dsimp only
    rw [if_pos rfl]

omit ok in
/-- Every child is one of the parts. -/
theorem all_children {i j d : Nat} {κ : Nat → Nat} (h0 : κ 0 = i) (hd : κ d = j + 1) (hlt : ∀ e, e < d → κ e < κ (e + 1)) (hp : ∀ e, e < d → IsParent L (κ e) (κ (e + 1) - 1) i j)
    (hn : ∀ e, e < d → IsNode L (κ e) (κ (e + 1) - 1)) {a c : Nat} (hac : IsNode L a c) (h : IsParent L a c i j) : ∃ e, e < d ∧ a = κ e ∧ c + 1 = κ (e + 1) := by
  have hfind : ∀ d', d' ≤ d → a < κ d' → ∃ e, e < d' ∧ κ e ≤ a ∧ a < κ (e + 1) := by
    intro d'
    induction d' with
    | zero => intro _ h'; have := h.2.1; omega
    | succ d' ih =>
      intro h1 h3
      rcases Nat.lt_or_ge a (κ d') with c1 | c1
      · obtain ⟨e, e1, e2⟩ := ih (by omega) c1
        exact ⟨e, by omega, e2⟩
      · exact ⟨d', by omega, c1, h3⟩
  have h1 := hac.1
  have h3 := h.2.2.1
  obtain ⟨e, e1, e2, e3⟩ := hfind d (Nat.le_refl _) (by omega)
  refine ⟨e, e1, ?_⟩
  have hw := hn e e1
  have hpe := hp e e1
  have hel := hlt e e1
  have hpe1 := hpe.2.1
  have hpe2 := hpe.2.2.1
  -- strictly inside the part
  have inside : a ≥ κ e → c ≤ κ (e + 1) - 1 → ¬ (κ e = a ∧ κ (e + 1) - 1 = c) → False := by
    intro x1 x2 x3
    have := h.2.2.2.2 _ _ hw x1 x2 x3
    have := hpe.2.2.2.1
    omega
  rcases Nat.lt_or_ge (κ e) a with c1 | c1
  · exact (inside (by omega) (laminar hw hac c1 (by omega)) (by omega)).elim
  · have ea : a = κ e := by omega
    refine ⟨ea, ?_⟩
    rcases Nat.lt_trichotomy (c + 1) (κ (e + 1)) with c2 | c2 | c2
    · exact (inside (by omega) (by omega) (by omega)).elim
    · exact c2
    · have g1 := hpe.2.2.2.2 a c hac (by omega) (by omega) (by omega)
      have g2 := h.2.2.2.1
      have g3 := h.2.1
      omega

/-! ### sibling -/

/-- The parent if a right sibling exists. -/
theorem parentA (hv : Valid L (bitAt s.bp.mem) v) (hj : v.j + 1 < L.length) (hle : V L v.i ≤ V L (v.j + 1)) {q' : Nat} (h2 : Pr L (bitAt s.bp.mem) (v.j + 1) v.jp1pos q') :
    ∃ k, k < v.j + 1 ∧ IsNode L k (countTrue (bitAt s.bp.mem) q' - 1) ∧ (∀ y, k < y → y ≤ countTrue (bitAt s.bp.mem) q' - 1 → V L (v.j + 1) ≤ V L y) ∧
      IsParent L v.i v.j k (countTrue (bitAt s.bp.mem) q' - 1) := by
  have hij := hv.node.1
  obtain ⟨k, pk, qk, e1, hk, _, hk2⟩ := psv_ok ok h2
  obtain ⟨k1, k2, k3⟩ := hk2 (by omega)
  have hn := pr_nsv ok.sc h2
  obtain ⟨hnode, hmin⟩ := interval_node hj k1 k2 k3 hn.1 hn.2.1 hn.2.2.1 hn.2.2.2
  have hki : k ≤ v.i := by
    rcases Nat.lt_or_ge v.i k with c1 | c1
    · have := (hv.node.2.2 k c1 (by omega)).2
      simp only [V] at *
      omega
    · exact c1
  refine ⟨k, k1, hnode, hmin, isParent_intro hnode hv.node hki (by omega) (by omega) hmin ?_ (Or.inr rfl)⟩
  rcases Nat.eq_or_lt_of_le hki with e5 | e5
  · exact Or.inl e5.symm
  · have := k3 v.i e5 (by omega)
    exact Or.inr (by omega)

theorem sibling_ok (hv : Valid L (bitAt s.bp.mem) v) :
    (∀ i' j', IsParent L v.i v.j i' j' → v.j < j' → ∃ w, s.sibling v = some w ∧ Valid L (bitAt s.bp.mem) w ∧ w.i = v.j + 1 ∧ IsParent L w.i w.j i' j') ∧
    (∀ i', IsParent L v.i v.j i' v.j → s.sibling v = s.root) ∧ (v.i = 0 → v.j + 1 = L.length → s.sibling v = s.root) := by
  unfold Cst.sibling
  rcases side ok hv with ⟨c, hj, hle⟩ | ⟨c, hle⟩
  · rw [if_neg (by omega)]
    obtain ⟨q', h2⟩ := ok.jp hv hj
    obtain ⟨k, hkl, hnode, hmin, hpar⟩ := parentA ok hv hj hle h2
    have hn := pr_nsv ok.sc h2
    have hpl := h2.lt
    refine ⟨fun i' j' hp _ => ?_, fun i' hp => ?_, fun _ h => by omega⟩
    · obtain ⟨e1, e2⟩ := parent_unique hpar hp
      subst e1 e2
      rw [ok.findClose h2, sbind, sub_eq (by omega), sbind]
      -- the decision
      have hlast : s.lastChild (q' - 1) = some (bitAt s.bp.mem (q' - 1) || bitAt s.fc (q' - countTrue (bitAt s.bp.mem) q' - 1)) := by
        have := h2.2.2
        unfold Cst.lastChild
        rw [ok.at' (by omega), sbind]
        cases hb : bitAt s.bp.mem (q' - 1) with
        | true => rfl
        | false =>
          obtain ⟨t, p, h3⟩ := pr_of_close ok.sc (q := q' - 1) (by omega) hb
          have hz := z_bound ok.sc h3
          have hct := cnt_close hb
          rw [show q' - 1 + 1 = q' by omega] at hct
          rw [if_neg (by decide), ok.rank0 h3, sbind, ok.size, if_pos hz, hct, Bool.false_or, show q' - 1 - countTrue (bitAt s.bp.mem) (q' - 1) = q' - countTrue (bitAt s.bp.mem) (q' - 1) - 1 by omega]
      rw [hlast, sbind]
      by_cases hb : (bitAt s.bp.mem (q' - 1) || bitAt s.fc (q' - countTrue (bitAt s.bp.mem) q' - 1)) = true
      · rw [if_pos hb, ok.nsv h2, sbind, sub_eq (by omega), sbind]
        obtain ⟨e, e1, e2, e3⟩ := ok.endPos (j := countTrue (bitAt s.bp.mem) q' - 1) (by omega)
        rw [e1, sbind]
        have hgt : ∀ x, v.j + 1 < x → x < countTrue (bitAt s.bp.mem) q' → V L (v.j + 1) < V L x := by
          intro x
          induction x using Nat.strongRecOn with
          | _ x ih =>
            intro x1 x2
            rcases Nat.lt_or_ge (V L (v.j + 1)) (V L x) with h | h
            · exact h
            · exfalso
              have hge := hn.2.2.1 x x1 x2
              have := run_down' ok.sc ok.fch h2 x1 (by omega) (by omega) (fun y y1 y2 => ih y y2 y1 (by omega))
              rw [this.2.1, this.2.2] at hb
              simp at hb
        have hw : IsNode L (v.j + 1) (countTrue (bitAt s.bp.mem) q' - 1) := by
          refine ⟨by omega, by omega, fun x x1 x2 => ?_⟩
          have h3 := hgt x x1 (by omega)
          refine ⟨Or.inr h3, ?_⟩
          rw [show countTrue (bitAt s.bp.mem) q' - 1 + 1 = countTrue (bitAt s.bp.mem) q' by omega]
          have := hn.2.1
          rcases Nat.lt_or_ge (countTrue (bitAt s.bp.mem) q') L.length with c1 | c1
          · have := hn.2.2.2 c1
            simp only [V] at *
            omega
          · exact Or.inl (by omega)
        exact ⟨_, rfl, ⟨hw, h2.1, h2.2.1, h2.2.2, e2, e3⟩, rfl, isParent_intro hnode hw (show k ≤ v.j + 1 by omega) (Nat.le_refl _) (show ¬ (k = v.j + 1 ∧ _) by omega) hmin (Or.inr rfl) (Or.inl rfl)⟩
      · rw [if_neg hb]
        simp only [Bool.or_eq_true, not_or, Bool.not_eq_true] at hb
        have hz : 0 < q' - countTrue (bitAt s.bp.mem) q' := by
          rcases Nat.eq_zero_or_pos (q' - countTrue (bitAt s.bp.mem) q') with c1 | c1
          · have := z_lt hb.1 (show q' - 1 < q' by omega)
            omega
          · exact c1
        obtain ⟨t, p, h3, _, ht, hval, hgt⟩ := run_down ok.sc ok.fch h2 hz hb.2
        have htn := h3.idx ok.sc
        rw [ok.findOpen h3, sbind, ok.rankO h3, sbind, sub_eq (by omega), sbind, show t + 1 - 2 + 2 = t + 1 by omega, ok.select h3, sbind, show t + 1 - 2 = t - 1 by omega]
        have hct : countTrue (bitAt s.bp.mem) (q' - 1) = countTrue (bitAt s.bp.mem) q' := by
          have := cnt_close hb.1
          rw [show q' - 1 + 1 = q' by omega] at this
          exact this.symm
        have hns := (pr_nsv ok.sc h3).1
        rw [hct] at hns
        have hw : IsNode L (v.j + 1) (t - 1) := by
          refine ⟨by omega, by omega, fun x x1 x2 => ?_⟩
          have h4 := hgt x x1 (by omega)
          rw [show t - 1 + 1 = t by omega]
          refine ⟨Or.inr h4, Or.inr ?_⟩
          simp only [V] at *
          omega
        refine ⟨_, rfl, ⟨hw, h2.1, h2.2.1, h2.2.2, fun h => ?_, fun _ => ?_⟩, rfl, isParent_intro hnode hw (show k ≤ v.j + 1 by omega) (show t - 1 ≤ countTrue (bitAt s.bp.mem) q' - 1 by omega) (show ¬ (k = v.j + 1 ∧ countTrue (bitAt s.bp.mem) q' - 1 = t - 1) by omega) hmin (Or.inr rfl) (Or.inr ?_)⟩
        · simp only at h; omega
        · show IsSelect _ _ (t - 1 + 2) _
          rw [show t - 1 + 2 = t + 1 by omega]; exact h3.1
        · show V L (t - 1 + 1) = _
          rw [show t - 1 + 1 = t by omega]; exact hval
    · have := parent_unique hpar hp
      omega
  · rw [if_pos c]
    refine ⟨fun i' j' hp hlt => ?_, fun _ _ => rfl, fun _ _ => rfl⟩
    obtain ⟨w, _, _, hw1, hw2, hw3⟩ := parent_ok ok hv
    have e := hw3 c
    by_cases hroot : v.i = 0 ∧ v.j + 1 = L.length
    · have := hp.1.2.1; omega
    · have := parent_unique (hw2 hroot) hp
      omega

/-! ### lca -/

theorem around_ok {m : Nat} (h0 : 0 < m) (hm : m < L.length) : ∃ w, s.around m = some w ∧ Valid L (bitAt s.bp.mem) w ∧ w.i < m ∧ m ≤ w.j ∧
    (∀ x, w.i < x → x ≤ w.j → V L m ≤ V L x) ∧ (w.i = 0 ∨ V L w.i < V L m) ∧ (w.j + 1 = L.length ∨ V L (w.j + 1) < V L m) := by
  obtain ⟨p, q, h⟩ := pr_exists ok.sc hm
  have hsig := sigma_test ok.sc ok.n0 ok.v0 ok.sig h
  have hs : s.sigma ≤ L.length := by rw [ok.sig]; exact countTrue_le _ _
  unfold Cst.around
  rw [ok.select h, sbind, ok.findClose h, sbind, ok.bpn, sub_eq (by omega), sbind]
  by_cases c : q ≥ 2 * L.length - s.sigma
  · have hz := hsig.1 (by omega)
    obtain ⟨r, r1, r2, r3, r4⟩ := root_ok ok
    rw [if_pos c]
    exact ⟨r, r1, r4, by omega, by omega, fun x _ _ => by omega, Or.inl r2, Or.inl (by omega)⟩
  · obtain ⟨k, pk, qk, e1, hk, _, hk2⟩ := psv_ok ok h
    obtain ⟨k1, k2, k3⟩ := hk2 h0
    have hn := pr_nsv ok.sc h
    obtain ⟨hnode, hmin⟩ := interval_node hm k1 k2 k3 hn.1 hn.2.1 hn.2.2.1 hn.2.2.2
    obtain ⟨e, e3, e4, e5⟩ := ok.endPos (j := countTrue (bitAt s.bp.mem) q - 1) (by omega)
    rw [if_neg c, ok.nsv h, sbind, sub_eq (by omega), sbind, e1, sbind]
    dsimp only
    rw [e3, sbind]
    refine ⟨_, rfl, ⟨hnode, hk.1, hk.2.1, hk.2.2, e4, e5⟩, k1, show m ≤ countTrue (bitAt s.bp.mem) q - 1 by omega, hmin, k2, ?_⟩
    show countTrue (bitAt s.bp.mem) q - 1 + 1 = _ ∨ V L (countTrue (bitAt s.bp.mem) q - 1 + 1) < _
    rw [show countTrue (bitAt s.bp.mem) q - 1 + 1 = countTrue (bitAt s.bp.mem) q by omega]
    have := hn.2.1
    rcases Nat.lt_or_ge (countTrue (bitAt s.bp.mem) q) L.length with c1 | c1
    · exact Or.inr (hn.2.2.2 c1)
    · exact Or.inl (by omega)

theorem lcaOrd_ok {w : Node} (hv : Valid L (bitAt s.bp.mem) v) (hw : Valid L (bitAt s.bp.mem) w) (h : v.i < w.i ∨ v.i = w.i ∧ w.j ≤ v.j) :
    ∃ x, s.lcaOrd v w = some x ∧ Valid L (bitAt s.bp.mem) x ∧ IsLca L v.i v.j w.i w.j x.i x.j := by
  have h1 := hv.node.1
  have h2 := hw.node.1
  unfold Cst.lcaOrd
  by_cases c : v.j ≥ w.j
  · rw [if_pos c]
    exact ⟨v, rfl, hv, hv.node, by omega, by omega, by omega, by omega, fun a b _ h3 h4 _ _ => ⟨h3, h4⟩⟩
  · rw [if_neg c]
    have hwn := hw.node.2.1
    obtain ⟨m, m1, m2, m3, m4, _⟩ := rmq_ok ok (l := v.i + 1) (r := w.j) (by omega) hwn
    obtain ⟨x, x1, x2, x3, x4, x5, x6, x7⟩ := around_ok ok (m := m) (by omega) (by omega)
    rw [m1, sbind, x1]
    have g1 : x.i ≤ v.i := by
      rcases Nat.lt_or_ge v.i x.i with c1 | c1
      · have := m4 x.i (by omega) (by omega); omega
      · exact c1
    have g2 : w.j ≤ x.j := by
      rcases Nat.lt_or_ge x.j w.j with c1 | c1
      · have := m4 (x.j + 1) (by omega) (by omega); omega
      · exact c1
    refine ⟨x, rfl, x2, x2.node, g1, by omega, by omega, g2, fun a b hab a1 b1 a2 b2 => ?_⟩
    have hk := hab.2.2 m (by omega) (by omega)
    have hbn := hab.2.1
    constructor
    · rcases Nat.lt_or_ge x.i a with c1 | c1
      · have := x5 a c1 (by omega)
        simp only [V] at *
        omega
      · exact c1
    · rcases Nat.lt_or_ge b x.j with c1 | c1
      · have := x5 (b + 1) (by omega) (by omega)
        have := x2.node.2.1
        simp only [V] at *
        omega
      · exact c1

theorem lca_ok {w : Node} (hv : Valid L (bitAt s.bp.mem) v) (hw : Valid L (bitAt s.bp.mem) w) : ∃ x, s.lca v w = some x ∧ Valid L (bitAt s.bp.mem) x ∧ IsLca L v.i v.j w.i w.j x.i x.j := by
  unfold Cst.lca
  by_cases c : v.i > w.i ∨ (v.i = w.i ∧ v.j < w.j)
  · rw [if_pos c]
    obtain ⟨x, x1, x2, x3, x4, x5, x6, x7, x8⟩ := lcaOrd_ok ok hw hv (by omega)
    exact ⟨x, x1, x2, x3, x6, x7, x4, x5, fun a b hab h1 h2 h3 h4 => x8 a b hab h3 h4 h1 h2⟩
  · rw [if_neg c]
    exact lcaOrd_ok ok hv hw (by omega)

end

end Sdsl.CstSct3
