/-
  Order queries on `wt_pc`: symbol_gte, symbol_lte, lex_count, lex_smaller_count.
-/
import Verif.WtPcQuery

namespace Sdsl.Wt

open CT Spec

theorem prevOf_spec (P : Nat → Bool) : ∀ (n : Nat), (P (prevOf P n) = true ∧ prevOf P n < n ∧ ∀ k, prevOf P n < k → k < n → P k = false) ∨ (prevOf P n = 0 ∧ ∀ k, k < n → P k = false) := by
  intro n
  induction n with
  | zero => right; exact ⟨rfl, fun k hk => by omega⟩
  | succ n ih =>
    rw [prevOf]
    by_cases hp : P n = true
    · rw [if_pos hp]; left; exact ⟨hp, by omega, fun k h1 h2 => by omega⟩
    · rw [if_neg hp]
      have hp' : P n = false := by simpa using hp
      rcases ih with ⟨h1, h2, h3⟩ | ⟨h1, h2⟩
      · left
        refine ⟨h1, by omega, fun k h4 h5 => ?_⟩
        by_cases hk : k = n
        · rw [hk]; exact hp'
        · exact h3 k h4 (by omega)
      · right
        refine ⟨h1, fun k hk => ?_⟩
        by_cases hk' : k = n
        · rw [hk']; exact hp'
        · exact h2 k (by omega)

namespace PcOk

variable {t : WtPc} {xs : List Word} {ct : CT} {ts : List CT} {M : Nat}

/-! ### symbol_gte, symbol_lte -/

theorem ctl_get (h : PcOk t xs ct ts M) {s : Nat} (hs : s < M) : ∃ v, t.tree.cToLeaf[s]? = some v ∧ (v ≠ t.S.undef ↔ s ∈ ct.syms) := by
  by_cases hm : s ∈ ct.syms
  · obtain ⟨w, f, h1, h2⟩ := h.coded.stored.leaf_of_mem h.coded.root hm
    have hl := (List.getElem?_eq_some_iff.1 h1).1
    exact ⟨w, h.coded.leaf.leaf w f _ hl h1, ⟨fun _ => hm, fun _ => by have := h.coded.small; omega⟩⟩
  · exact ⟨_, h.coded.leaf.none _ hs (fun w f _ hw => hm (h.coded.stored.mem_of_leaf h.coded.root hw)), ⟨fun he => absurd rfl he, fun hm' => absurd hm' hm⟩⟩

theorem gteLoop_spec (h : PcOk t xs ct ts M) : ∀ (k i : Nat), i + k = M → (∃ s, s ∈ ct.syms ∧ i ≤ s ∧ (∀ s' ∈ ct.syms, i ≤ s' → s ≤ s') ∧ PTree.gteLoop t.S t.tree k i = some (true, t.S.val s)) ∨
    ((∀ s ∈ ct.syms, ¬ i ≤ s) ∧ PTree.gteLoop t.S t.tree k i = some (false, 0#64)) := by
  intro k
  induction k with
  | zero =>
    intro i hi
    right
    exact ⟨fun s hs hle => by have := h.coded.lt s hs; omega, rfl⟩
  | succ k ih =>
    intro i hi
    obtain ⟨v, h1, h2⟩ := h.ctl_get (s := i) (by omega)
    rw [PTree.gteLoop, h1, sbind]
    by_cases hv : v ≠ t.S.undef
    · rw [if_pos hv]
      left
      exact ⟨i, h2.1 hv, Nat.le_refl _, fun s' _ hle => hle, rfl⟩
    · rw [if_neg hv]
      have hni : i ∉ ct.syms := fun hm => hv (h2.2 hm)
      have hne : ∀ s ∈ ct.syms, i ≤ s → i + 1 ≤ s := by
        intro s hs hle
        rcases Nat.lt_or_ge i s with h3 | h3
        · exact h3
        · have : s = i := by omega
          rw [this] at hs; exact absurd hs hni
      rcases ih (i + 1) (by omega) with ⟨s, a1, a2, a3, a4⟩ | ⟨a1, a2⟩
      · left
        exact ⟨s, a1, by omega, fun s' hs' hle => a3 s' hs' (hne s' hs' hle), a4⟩
      · right
        exact ⟨fun s hs hle => a1 s hs (hne s hs hle), a2⟩

theorem symbolGte_spec (h : PcOk t xs ct ts M) {c : Word} (hv : Valid t c) :
    (∃ m ∈ xs, t.tree.symbolGte t.S c = some (true, m) ∧ c ≤ m ∧ ∀ y ∈ xs, c ≤ y → m ≤ y) ∨ (t.tree.symbolGte t.S c = some (false, 0#64) ∧ ∀ y ∈ xs, ¬ c ≤ y) := by
  have hb := h.coded.bound
  have key : c.toNat ≤ M → ∃ r, PTree.gteLoop t.S t.tree (M - c.toNat) c.toNat = some r ∧ ((∃ m ∈ xs, r = (true, m) ∧ c ≤ m ∧ ∀ y ∈ xs, c ≤ y → m ≤ y) ∨ (r = (false, 0#64) ∧ ∀ y ∈ xs, ¬ c ≤ y)) := by
    intro hle
    rcases h.gteLoop_spec (M - c.toNat) c.toNat (by omega) with ⟨s, a1, a2, a3, a4⟩ | ⟨a1, a2⟩
    · obtain ⟨v1, v2⟩ := h.val a1
      refine ⟨_, a4, Or.inl ⟨t.S.val s, h.mem_iff.1 (by rw [v2]; exact a1), rfl, by rw [BitVec.le_def, v2]; exact a2, fun y hy hcy => ?_⟩⟩
      rw [BitVec.le_def, v2]
      exact a3 _ (h.mem_iff.2 hy) (BitVec.le_def.1 hcy)
    · exact ⟨_, a2, Or.inr ⟨rfl, fun y hy hcy => a1 _ (h.mem_iff.2 hy) (BitVec.le_def.1 hcy)⟩⟩
  have fin : ∀ {o : Option (Bool × Word)} {r : Bool × Word}, o = some r → ((∃ m ∈ xs, r = (true, m) ∧ c ≤ m ∧ ∀ y ∈ xs, c ≤ y → m ≤ y) ∨ (r = (false, 0#64) ∧ ∀ y ∈ xs, ¬ c ≤ y)) →
      (∃ m ∈ xs, o = some (true, m) ∧ c ≤ m ∧ ∀ y ∈ xs, c ≤ y → m ≤ y) ∨ (o = some (false, 0#64) ∧ ∀ y ∈ xs, ¬ c ≤ y) := by
    rintro o r rfl (⟨m, hm, rfl, h1⟩ | ⟨rfl, h1⟩)
    · exact Or.inl ⟨m, hm, rfl, h1⟩
    · exact Or.inr ⟨rfl, h1⟩
  unfold PTree.symbolGte
  cases hbb : t.S.byte
  · rw [if_neg (by simp), h.coded.leaf.len]
    by_cases hge : c.toNat ≥ M
    · rw [if_pos hge]
      right
      refine ⟨rfl, fun y hy hcy => ?_⟩
      have h1 := h.coded.lt _ (h.mem_iff.2 hy)
      have h2 := BitVec.le_def.1 hcy
      omega
    · rw [if_neg hge]
      obtain ⟨r, r1, r2⟩ := key (by omega)
      exact fin r1 r2
  · simp only [hbb, if_true] at hb
    have := hv hbb
    obtain ⟨r, r1, r2⟩ := key (by omega)
    rw [if_pos rfl, ← hb]
    exact fin r1 r2

theorem lteLoop_spec (h : PcOk t xs ct ts M) : ∀ (i : Nat), i < M → (∃ s, s ∈ ct.syms ∧ s ≤ i ∧ (∀ s' ∈ ct.syms, s' ≤ i → s' ≤ s) ∧ PTree.lteLoop t.S t.tree i = some (true, t.S.val s)) ∨
    ((∀ s ∈ ct.syms, ¬ s ≤ i) ∧ PTree.lteLoop t.S t.tree i = some (false, 0#64)) := by
  intro i
  induction i with
  | zero =>
    intro hi
    obtain ⟨v, h1, h2⟩ := h.ctl_get (s := 0) (by omega)
    rw [PTree.lteLoop, h1, sbind]
    by_cases hv : v ≠ t.S.undef
    · rw [if_pos hv]
      left
      have hm := h2.1 hv
      exact ⟨0, hm, Nat.le_refl _, fun s' _ hle => hle, by rw [(h.val hm).1]; rfl⟩
    · rw [if_neg hv]
      right
      refine ⟨fun s hs hle => ?_, rfl⟩
      have : s = 0 := by omega
      rw [this] at hs; exact hv (h2.2 hs)
  | succ i ih =>
    intro hi
    obtain ⟨v, h1, h2⟩ := h.ctl_get (s := i + 1) (by omega)
    rw [PTree.lteLoop, h1, sbind]
    by_cases hv : v ≠ t.S.undef
    · rw [if_pos hv]
      left
      exact ⟨i + 1, h2.1 hv, Nat.le_refl _, fun s' _ hle => hle, rfl⟩
    · rw [if_neg hv]
      have hni : i + 1 ∉ ct.syms := fun hm => hv (h2.2 hm)
      have hne : ∀ s ∈ ct.syms, s ≤ i + 1 → s ≤ i := by
        intro s hs hle
        rcases Nat.lt_or_ge s (i + 1) with h3 | h3
        · omega
        · have : s = i + 1 := by omega
          rw [this] at hs; exact absurd hs hni
      rcases ih (by omega) with ⟨s, a1, a2, a3, a4⟩ | ⟨a1, a2⟩
      · left
        exact ⟨s, a1, by omega, fun s' hs' hle => a3 s' hs' (hne s' hs' hle), a4⟩
      · right
        exact ⟨fun s hs hle => a1 s hs (hne s hs hle), a2⟩

theorem symbolLte_spec (h : PcOk t xs ct ts M) {c : Word} (hv : Valid t c) :
    (∃ m ∈ xs, t.tree.symbolLte t.S c = some (true, m) ∧ m ≤ c ∧ ∀ y ∈ xs, y ≤ c → y ≤ m) ∨ (t.tree.symbolLte t.S c = some (false, 0#64) ∧ ∀ y ∈ xs, ¬ y ≤ c) := by
  have hb := h.coded.bound
  have key : ∀ i, i < M → (∀ s ∈ ct.syms, s ≤ i ↔ s ≤ c.toNat) →
      (∃ m ∈ xs, PTree.lteLoop t.S t.tree i = some (true, m) ∧ m ≤ c ∧ ∀ y ∈ xs, y ≤ c → y ≤ m) ∨ (PTree.lteLoop t.S t.tree i = some (false, 0#64) ∧ ∀ y ∈ xs, ¬ y ≤ c) := by
    intro i hi hic
    rcases h.lteLoop_spec i hi with ⟨s, a1, a2, a3, a4⟩ | ⟨a1, a2⟩
    · obtain ⟨v1, v2⟩ := h.val a1
      refine Or.inl ⟨t.S.val s, h.mem_iff.1 (by rw [v2]; exact a1), a4, by rw [BitVec.le_def, v2]; exact (hic s a1).1 a2, fun y hy hcy => ?_⟩
      rw [BitVec.le_def, v2]
      exact a3 _ (h.mem_iff.2 hy) ((hic _ (h.mem_iff.2 hy)).2 (BitVec.le_def.1 hcy))
    · exact Or.inr ⟨a2, fun y hy hcy => a1 _ (h.mem_iff.2 hy) ((hic _ (h.mem_iff.2 hy)).2 (BitVec.le_def.1 hcy))⟩
  unfold PTree.symbolLte
  cases hbb : t.S.byte
  · simp only [hbb, Bool.false_eq_true, if_false] at hb
    have hM : M - 1 < 2 ^ 56 := by
      have := h.small _ hb.2
      simpa [hbb] using this
    rw [if_neg (by simp), h.coded.leaf.len]
    by_cases hge : c.toNat ≥ M
    · rw [if_pos hge]
      have : (M + (2 ^ 64 - 1)) % 2 ^ 64 = M - 1 := by
        rw [show M + (2 ^ 64 - 1) = M - 1 + 2 ^ 64 by omega, Nat.add_mod_right, Nat.mod_eq_of_lt (by omega)]
      rw [this]
      apply key _ (by omega)
      intro s hs
      have := h.coded.lt s hs
      omega
    · rw [if_neg hge]
      exact key _ (by omega) (fun s _ => Iff.rfl)
  · simp only [hbb, if_true] at hb
    have := hv hbb
    rw [if_pos rfl]
    exact key _ (by omega) (fun s _ => Iff.rfl)

/-! ### lex_count and lex_smaller_count -/

/-- The path of a symbol that does not occur is the previous symbol, or 0. -/
theorem bitPath_none (h : PcOk t xs ct ts M) {c : Word} (hv : Valid t c) (hc : c.toNat ∉ ct.syms) :
    ∃ p, t.tree.bitPath t.S c = some (BitVec.ofNat 64 p) ∧ (if t.S.byte then p < 256 else p < 2 ^ 56) ∧ p ≤ c.toNat ∧
      ((p ∈ ct.syms ∧ p < c.toNat ∧ ∀ s ∈ ct.syms, s ≤ p ∨ c.toNat < s) ∨ (p = 0 ∧ 0 ∉ ct.syms ∧ ∀ s ∈ ct.syms, c.toNat < s)) := by
  have hb := h.coded.bound
  have hin : c.toNat < M → ∃ p, t.tree.path[c.toNat]? = some (BitVec.ofNat 64 p) ∧ (if t.S.byte then p < 256 else p < 2 ^ 56) ∧ p ≤ c.toNat ∧
      ((p ∈ ct.syms ∧ p < c.toNat ∧ ∀ s ∈ ct.syms, s ≤ p ∨ c.toNat < s) ∨ (p = 0 ∧ 0 ∉ ct.syms ∧ ∀ s ∈ ct.syms, c.toNat < s)) := by
    intro hlt
    obtain ⟨p, p1, _, p2⟩ := h.coded.path _ hlt
    refine ⟨_, by rw [p1, p2 hc], ?_, prevOf_le _ _, ?_⟩
    · rcases prevOf_spec (fun s => decide (s ∈ ct.syms)) c.toNat with ⟨a1, _⟩ | ⟨a1, _⟩
      · exact h.small _ (by simpa using a1)
      · rw [a1]; split <;> omega
    · rcases prevOf_spec (fun s => decide (s ∈ ct.syms)) c.toNat with ⟨a1, a2, a3⟩ | ⟨a1, a2⟩
      · left
        refine ⟨by simpa using a1, a2, fun s hs => ?_⟩
        rcases Nat.lt_or_ge c.toNat s with h1 | h1
        · right; exact h1
        · left
          apply Classical.byContradiction
          intro h2
          have h3 : s ≠ c.toNat := fun e => hc (e ▸ hs)
          have := a3 s (by omega) (by omega)
          simp only [decide_eq_false_iff_not] at this
          exact this hs
      · right
        have hall : ∀ s ∈ ct.syms, c.toNat < s := by
          intro s hs
          apply Classical.byContradiction
          intro h2
          have h3 : s ≠ c.toNat := fun e => hc (e ▸ hs)
          have := a2 s (by omega)
          simp only [decide_eq_false_iff_not] at this
          exact this hs
        exact ⟨a1, fun h0 => by have := hall 0 h0; omega, hall⟩
  unfold PTree.bitPath
  cases hbb : t.S.byte
  · simp only [hbb, Bool.false_eq_true, if_false] at hb hin ⊢
    rw [h.coded.plen]
    by_cases hge : c.toNat ≥ M
    · rw [if_pos hge]
      have hsm := h.small _ hb.2
      simp only [hbb, Bool.false_eq_true, if_false] at hsm
      refine ⟨M - 1, ?_, hsm, by omega, Or.inl ⟨hb.2, by omega, fun s hs => Or.inl (by have := h.coded.lt s hs; omega)⟩⟩
      congr 1
      apply BitVec.eq_of_toNat_eq
      rw [BitVec.toNat_sub_of_le, BitVec.toNat_ofNat, BitVec.toNat_ofNat, BitVec.toNat_ofNat]
      · rw [Nat.mod_eq_of_lt (show M < 2 ^ 64 by omega), Nat.mod_eq_of_lt (show M - 1 < 2 ^ 64 by omega)]
      · rw [BitVec.le_def, BitVec.toNat_ofNat, BitVec.toNat_ofNat, Nat.mod_eq_of_lt (show M < 2 ^ 64 by omega)]
        omega
    · rw [if_neg hge]
      exact hin (by omega)
  · simp only [hbb, if_true] at hb hin ⊢
    exact hin (by have := hv hbb; omega)

/-- Number of symbols in `[i..j-1]` that satisfy `P`. -/
def occR (xs : List Word) (P : Word → Bool) (i j : Nat) : Nat := occ (fun j => xs.getD j 0#64) P j - occ (fun j => xs.getD j 0#64) P i

theorem occ_lt_node {x : Nat → Word} {l r : CT} (Q : Word → Bool) (hn : (CT.node l r).syms.Nodup) (i : Nat) :
    occ x (fun a => (CT.node l r).mem a && Q a) i = occ x (fun a => l.mem a && Q a) i + occ x (fun a => r.mem a && Q a) i := by
  rw [occ_split _ r.mem, Nat.add_comm]
  congr 1
  · apply occ_congr
    intro j _
    rw [← CT.mem_left hn, Bool.and_right_comm]
  · apply occ_congr
    intro j _
    rw [Bool.and_right_comm, CT.mem_right]

theorem mem_lt {u : CT} {c : Word} (hu : ∀ s ∈ u.syms, s < c.toNat) (a : Word) : (u.mem a && decide (a < c)) = u.mem a := by
  cases hm : u.mem a
  · rfl
  · rw [CT.mem, decide_eq_true_eq] at hm
    rw [Bool.true_and, decide_eq_true_eq, BitVec.lt_def]
    exact hu _ hm

theorem mem_lt_none {u : CT} {c : Word} (hu : ∀ s ∈ u.syms, c.toNat < s) (a : Word) : (u.mem a && decide (a < c)) = false := by
  cases hm : u.mem a
  · rfl
  · rw [CT.mem, decide_eq_true_eq] at hm
    rw [Bool.true_and, decide_eq_false_iff_not, BitVec.lt_def]
    have := hu _ hm
    omega

theorem mem_gt {u : CT} {c : Word} (hu : ∀ s ∈ u.syms, c.toNat < s) (a : Word) : (u.mem a && decide (c < a)) = u.mem a := by
  cases hm : u.mem a
  · rfl
  · rw [CT.mem, decide_eq_true_eq] at hm
    rw [Bool.true_and, decide_eq_true_eq, BitVec.lt_def]
    exact hu _ hm

theorem mem_gt_none {u : CT} {c : Word} (hu : ∀ s ∈ u.syms, s < c.toNat) (a : Word) : (u.mem a && decide (c < a)) = false := by
  cases hm : u.mem a
  · rfl
  · rw [CT.mem, decide_eq_true_eq] at hm
    rw [Bool.true_and, decide_eq_false_iff_not, BitVec.lt_def]
    have := hu _ hm
    omega

theorem occ_false {x : Nat → Word} (i : Nat) : occ x (fun _ => false) i = 0 := by rw [occ_eq_zero]; intro j _; rfl

theorem sorted (h : PcOk t xs ct ts M) (hl : t.lex = true) {w : Nat} {u : CT} (hw : ts[w]? = some u) : u.syms.Pairwise (· < ·) := by
  obtain ⟨bs, u', a1, a2, a3⟩ := h.coded.stored.reach h.coded.root w (List.getElem?_eq_some_iff.1 hw).1
  rw [hw] at a2; cases a2
  have := (CT.sub_leaves _ _ _ a1).map (·.1)
  exact (h.lex hl).sublist this

theorem lexLoop_spec (h : PcOk t xs ct ts M) (hl : t.lex = true) {c : Word} {i j : Nat} (hij : i ≤ j) (hj : j ≤ xs.length) : ∀ (u : CT) (w : Nat) (p : Word) (sm gr : Nat), ts[w]? = some u → c.toNat ∈ u.syms →
    (∀ k, k < (u.code c.toNat).length → p.getLsbD k = (u.code c.toNat).getD k false) →
    t.lexLoop (u.code c.toNat).length w p (occ (fun j => xs.getD j 0#64) u.mem i) (occ (fun j => xs.getD j 0#64) u.mem j) sm gr =
      some (occ (fun j => xs.getD j 0#64) (fun b => b == c) i, sm + occR xs (fun a => u.mem a && decide (a < c)) i j, gr + occR xs (fun a => u.mem a && decide (c < a)) i j) := by
  intro u
  induction u with
  | leaf f s =>
    intro w p sm gr hw hc hp
    rw [CT.syms_leaf, List.mem_singleton] at hc
    subst hc
    have e1 : (fun a => (CT.leaf f c.toNat).mem a && decide (a < c)) = fun _ => false := by
      funext a
      rw [CT.mem_leaf]
      by_cases he : a.toNat = c.toNat
      · rw [BitVec.eq_of_toNat_eq he]; simp
      · simp [he]
    have e2 : (fun a => (CT.leaf f c.toNat).mem a && decide (c < a)) = fun _ => false := by
      funext a
      rw [CT.mem_leaf]
      by_cases he : a.toNat = c.toNat
      · rw [BitVec.eq_of_toNat_eq he]; simp
      · simp [he]
    rw [CT.code, List.length_nil, WtPc.lexLoop, occ_leaf, e1, e2, occR, occ_false, occ_false]
    simp
  | node l r ih1 ih2 =>
    intro w p sm gr hw hc hp
    obtain ⟨h1, h2, h3, h4⟩ := h.inner hw
    have hn := (h.sub hw).1
    have hs := h.sorted hl hw
    rw [CT.syms_node, List.pairwise_append] at hs
    have ml := occ_mono (x := fun j => xs.getD j 0#64) l.mem hij
    have mr := occ_mono (x := fun j => xs.getD j 0#64) r.mem hij
    by_cases hcl : c.toNat ∈ l.syms
    · rw [CT.code, if_pos hcl] at hp ⊢
      obtain ⟨p0, p1⟩ := isPath_tail hp
      obtain ⟨w', c1, c2, _⟩ := h4 false
      rw [List.length_cons, WtPc.lexLoop, h.ones hw (by omega), sbind, h.ones hw hj, sbind]
      dsimp only
      rw [p0, c1, sbind, if_neg (by simp), occ_node hn, occ_node hn, Nat.add_sub_cancel, Nat.add_sub_cancel, ih1 w' (p >>> 1) _ _ (by simpa using c2) hcl p1]
      have hr : ∀ s ∈ r.syms, c.toNat < s := fun s hs' => hs.2.2 _ hcl s hs'
      unfold occR
      rw [occ_lt_node _ hn, occ_lt_node _ hn, occ_lt_node _ hn, occ_lt_node _ hn]
      rw [show (fun a => r.mem a && decide (a < c)) = fun _ => false from funext (mem_lt_none hr), show (fun a => r.mem a && decide (c < a)) = r.mem from funext (mem_gt hr), occ_false, occ_false]
      have mg := occ_mono (x := fun j => xs.getD j 0#64) (fun a => l.mem a && decide (c < a)) hij
      congr 3
      omega
    · have hcr : c.toNat ∈ r.syms := by rw [CT.syms_node, List.mem_append] at hc; exact hc.resolve_left hcl
      rw [CT.code, if_neg hcl] at hp ⊢
      obtain ⟨p0, p1⟩ := isPath_tail hp
      obtain ⟨w', c1, c2, _⟩ := h4 true
      rw [List.length_cons, WtPc.lexLoop, h.ones hw (by omega), sbind, h.ones hw hj, sbind]
      dsimp only
      rw [p0, c1, sbind, if_pos rfl, occ_node hn, occ_node hn, ih2 w' (p >>> 1) _ _ (by simpa using c2) hcr p1]
      have hlt : ∀ s ∈ l.syms, s < c.toNat := fun s hs' => hs.2.2 s hs' _ hcr
      unfold occR
      rw [occ_lt_node _ hn, occ_lt_node _ hn, occ_lt_node _ hn, occ_lt_node _ hn]
      rw [show (fun a => l.mem a && decide (a < c)) = l.mem from funext (mem_lt hlt), show (fun a => l.mem a && decide (c < a)) = fun _ => false from funext (mem_gt_none hlt), occ_false, occ_false]
      have mg := occ_mono (x := fun j => xs.getD j 0#64) (fun a => r.mem a && decide (a < c)) hij
      congr 3
      · omega
      · omega

theorem occR_root (h : PcOk t xs ct ts M) (Q : Word → Bool) {i j : Nat} (hi : i ≤ xs.length) (hj : j ≤ xs.length) : occR xs (fun a => ct.mem a && Q a) i j = occR xs Q i j := by
  unfold occR
  rw [occ_congr (Q := Q) (i := i) (fun k hk => by rw [h.mem_x (by omega)]; rfl), occ_congr (Q := Q) (i := j) (fun k hk => by rw [h.mem_x (by omega)]; rfl)]

theorem occR_congr (h : PcOk t xs ct ts M) {Q R : Word → Bool} {i j : Nat} (hi : i ≤ xs.length) (hj : j ≤ xs.length) (hQR : ∀ a, a.toNat ∈ ct.syms → Q a = R a) : occR xs Q i j = occR xs R i j := by
  have hm : ∀ k, k < xs.length → (xs.getD k 0#64).toNat ∈ ct.syms := by
    intro k hk
    have := h.mem_x hk
    rwa [CT.mem, decide_eq_true_eq] at this
  unfold occR
  rw [occ_congr (Q := R) (i := i) (fun k hk => hQR _ (hm k (by omega))), occ_congr (Q := R) (i := j) (fun k hk => hQR _ (hm k (by omega)))]

/-- Every symbol of the interval is smaller than, equal to or greater than `c`. -/
theorem occR_total {xs : List Word} (c : Word) {i j : Nat} (hij : i ≤ j) : occR xs (fun a => decide (a < c)) i j + occR xs (fun a => a == c) i j + occR xs (fun a => decide (c < a)) i j = j - i := by
  have key : ∀ k, occ (fun j => xs.getD j 0#64) (fun a => decide (a < c)) k + occ (fun j => xs.getD j 0#64) (fun a => a == c) k + occ (fun j => xs.getD j 0#64) (fun a => decide (c < a)) k = k := by
    intro k
    induction k with
    | zero => rfl
    | succ k ih =>
      rw [occ_succ, occ_succ, occ_succ]
      have : (decide (xs.getD k 0#64 < c)).toNat + (xs.getD k 0#64 == c).toNat + (decide (c < xs.getD k 0#64)).toNat = 1 := by
        generalize xs.getD k 0#64 = a
        by_cases h1 : a.toNat < c.toNat
        · rw [show decide (a < c) = true by simpa [BitVec.lt_def] using h1, show decide (c < a) = false by simp [BitVec.lt_def]; omega,
            show (a == c) = false by rw [beq_eq_false_iff_ne]; intro e; rw [e] at h1; omega]; rfl
        · by_cases h2 : c.toNat < a.toNat
          · rw [show decide (c < a) = true by simpa [BitVec.lt_def] using h2, show decide (a < c) = false by simp [BitVec.lt_def]; omega,
              show (a == c) = false by rw [beq_eq_false_iff_ne]; intro e; rw [e] at h2; omega]; rfl
          · have : a = c := BitVec.eq_of_toNat_eq (by omega)
            subst this
            simp
      omega
  have k1 := key i
  have k2 := key j
  have m1 := occ_mono (x := fun j => xs.getD j 0#64) (fun a => decide (a < c)) hij
  have m2 := occ_mono (x := fun j => xs.getD j 0#64) (fun a => a == c) hij
  have m3 := occ_mono (x := fun j => xs.getD j 0#64) (fun a => decide (c < a)) hij
  unfold occR
  omega

theorem occR_false {xs : List Word} {i j : Nat} : occR xs (fun _ => false) i j = 0 := by rw [occR, occ_false, occ_false]

theorem occR_true {xs : List Word} {i j : Nat} : occR xs (fun _ => true) i j = j - i := by rw [occR, occ_true, occ_true]

theorem occR_eq_self {xs : List Word} (P : Word → Bool) (i : Nat) : occR xs P i i = 0 := by rw [occR, Nat.sub_self]

/-- `sigma = 1`: the only symbol. -/
theorem single (h : PcOk t xs ct ts M) (h1 : t.sigma = 1) : ∃ f s, ct = .leaf f s ∧ t.tree.bvRank 0 = some s ∧ (t.S.val s).toNat = s := by
  obtain ⟨f, s, he⟩ := h.sigma_one h1
  have hr := h.coded.root
  rw [he] at hr
  exact ⟨f, s, he, (h.leafD hr).2, (h.val (by rw [he, CT.syms_leaf]; simp)).2⟩

/-- The path of a symbol that does not occur has length 0. -/
theorem path_small {p : Nat} (hp : p < 2 ^ 56) : ((BitVec.ofNat 64 p : Word) >>> 56).toNat = 0 ∧ (BitVec.ofNat 64 p : Word).toNat = p := by
  have : (BitVec.ofNat 64 p : Word).toNat = p := by rw [BitVec.toNat_ofNat, Nat.mod_eq_of_lt (by omega)]
  refine ⟨?_, this⟩
  rw [BitVec.toNat_ushiftRight, this, Nat.shiftRight_eq_div_pow, Nat.div_eq_of_lt hp]

theorem val_small {S : Strat} {p : Nat} (hp : if S.byte then p < 256 else p < 2 ^ 56) : S.val p = BitVec.ofNat 64 p ∧ p < 2 ^ 56 := by
  unfold Strat.val
  cases hb : S.byte
  · simp only [hb, Bool.false_eq_true, if_false] at hp
    exact ⟨rfl, hp⟩
  · simp only [hb, if_true] at hp
    rw [if_pos rfl, Nat.mod_eq_of_lt hp]
    exact ⟨rfl, by omega⟩

theorem lexCountGo_mem (h : PcOk t xs ct ts M) (hl : t.lex = true) (hs : t.sigma ≠ 1) {i j : Nat} (hij : i < j) (hj : j ≤ xs.length) {c : Word} (hc : c.toNat ∈ ct.syms) (fuel : Nat) :
    t.lexCountGo (fuel + 1) i j c = some (occ (fun j => xs.getD j 0#64) (fun b => b == c) i, occR xs (fun a => decide (a < c)) i j, occR xs (fun a => decide (c < a)) i j) := by
  rw [WtPc.lexCountGo, if_neg hs, if_neg (by omega)]
  obtain ⟨p, p1, p2⟩ := h.coded.bitPath hc
  have hpos := h.code_pos hs c.toNat
  rw [p1, sbind, p2.len, if_neg (by omega)]
  have := h.lexLoop_spec hl (by omega : i ≤ j) hj ct 0 p 0 0 h.coded.root hc p2.bits
  rw [h.occ_root (by omega), h.occ_root hj, h.occR_root _ (by omega) hj, h.occR_root _ (by omega) hj, Nat.zero_add, Nat.zero_add] at this
  exact this

theorem lexCount_spec (h : PcOk t xs ct ts M) (hl : t.lex = true) {i j : Nat} (hij : i ≤ j) (hj : j ≤ xs.length) {c : Word} (hv : Valid t c) :
    t.lexCount i j c = some (occ (fun j => xs.getD j 0#64) (fun b => b == c) i, occR xs (fun a => decide (a < c)) i j, occR xs (fun a => decide (c < a)) i j) := by
  unfold WtPc.lexCount
  by_cases hs : t.sigma = 1
  · obtain ⟨f, s, he, e1, e2⟩ := h.single hs
    have hsy : ∀ a : Word, a.toNat ∈ ct.syms → a.toNat = s := by intro a ha; rw [he, CT.syms_leaf, List.mem_singleton] at ha; exact ha
    rw [WtPc.lexCountGo, if_pos hs, e1, sbind]
    by_cases hcs : c = t.S.val s
    · rw [if_pos hcs]
      have hcn : c.toNat = s := by rw [hcs, e2]
      rw [h.occ_single he hcn (by omega), h.occR_congr (R := fun _ => false) (by omega) hj (fun a ha => by have := hsy a ha; simp [BitVec.lt_def]; omega),
        h.occR_congr (Q := fun a => decide (c < a)) (R := fun _ => false) (by omega) hj (fun a ha => by have := hsy a ha; simp [BitVec.lt_def]; omega), occR_false]
      rfl
    · rw [if_neg hcs]
      have hcn : c.toNat ≠ s := by intro e; apply hcs; apply BitVec.eq_of_toNat_eq; rw [e2]; exact e
      rw [h.occ_absent (by rw [he, CT.syms_leaf]; simpa using hcn) (by omega)]
      by_cases hlt : c < t.S.val s
      · have hlt' := hlt
        rw [BitVec.lt_def, e2] at hlt'
        rw [if_pos hlt, h.occR_congr (R := fun _ => false) (by omega) hj (fun a ha => by have := hsy a ha; simp [BitVec.lt_def]; omega),
          h.occR_congr (Q := fun a => decide (c < a)) (R := fun _ => true) (by omega) hj (fun a ha => by have := hsy a ha; simp [BitVec.lt_def]; omega), occR_false, occR_true]
        rfl
      · have hlt' := hlt
        rw [BitVec.lt_def, e2] at hlt'
        rw [if_neg hlt, h.occR_congr (R := fun _ => true) (by omega) hj (fun a ha => by have := hsy a ha; simp [BitVec.lt_def]; omega),
          h.occR_congr (Q := fun a => decide (c < a)) (R := fun _ => false) (by omega) hj (fun a ha => by have := hsy a ha; simp [BitVec.lt_def]; omega), occR_false, occR_true]
        rfl
  by_cases he : i = j
  · subst he
    rw [WtPc.lexCountGo, if_neg hs, if_pos rfl, h.rank_spec hj hv, sbind, occR_eq_self, occR_eq_self]; rfl
  by_cases hc : c.toNat ∈ ct.syms
  · exact h.lexCountGo_mem hl hs (by omega) hj hc 2
  · obtain ⟨p, p1, p2, p3, p4⟩ := h.bitPath_none hv hc
    obtain ⟨v1, v2⟩ := val_small p2
    obtain ⟨q1, q2⟩ := path_small v2
    rw [WtPc.lexCountGo, if_neg hs, if_neg he, p1, sbind]
    dsimp only
    rw [q1, if_pos rfl, q2, v1, h.occ_absent hc (by omega)]
    have hpv : Valid t (BitVec.ofNat 64 p) := by intro hb; simp only [hb, if_true] at p2; rw [q2]; exact p2
    rcases p4 with ⟨a1, a2, a3⟩ | ⟨a1, a2, a3⟩
    · rw [if_neg (by intro e; rw [e, q2] at a2; omega), h.lexCountGo_mem hl hs (by omega) hj (by rw [q2]; exact a1) 1, sbind]
      dsimp only
      have htot := occR_total (xs := xs) (BitVec.ofNat 64 p) hij
      have htot' := occR_total (xs := xs) c hij
      have z : occR xs (fun a => a == c) i j = 0 := by
        rw [h.occR_congr (R := fun _ => false) (by omega) hj (fun a ha => by rw [beq_eq_false_iff_ne]; intro e; rw [e] at ha; exact hc ha), occR_false]
      have g : occR xs (fun a => decide (BitVec.ofNat 64 p < a)) i j = occR xs (fun a => decide (c < a)) i j := by
        apply h.occR_congr (by omega) hj
        intro a ha
        rw [Bool.eq_iff_iff, decide_eq_true_eq, decide_eq_true_eq, BitVec.lt_def, BitVec.lt_def, q2]
        rcases a3 _ ha with h1 | h1 <;> omega
      rw [g]
      show some _ = some _
      congr 3
      omega
    · have hgt : occR xs (fun a => decide (a < c)) i j = 0 ∧ occR xs (fun a => decide (c < a)) i j = j - i := by
        rw [h.occR_congr (R := fun _ => false) (by omega) hj (fun a ha => by have := a3 _ ha; simp [BitVec.lt_def]; omega),
          h.occR_congr (Q := fun a => decide (c < a)) (R := fun _ => true) (by omega) hj (fun a ha => by have := a3 _ ha; simp [BitVec.lt_def]; omega), occR_false, occR_true]
        exact ⟨rfl, rfl⟩
      rw [hgt.1, hgt.2]
      by_cases hcp : c = BitVec.ofNat 64 p
      · rw [if_pos hcp]; rfl
      · rw [if_neg hcp]
        subst a1
        have h0 : (BitVec.ofNat 64 0 : Word).toNat ∉ ct.syms := a2
        obtain ⟨p', p1', p2', p3', p4'⟩ := h.bitPath_none hpv h0
        have hp0 : p' = 0 := by have : (BitVec.ofNat 64 0 : Word).toNat = 0 := rfl; omega
        subst hp0
        rw [WtPc.lexCountGo, if_neg hs, if_neg he, p1', sbind]
        dsimp only
        rw [q1, if_pos rfl, q2, v1, if_pos rfl]
        show some (0, j - i - (j - i), j - i) = _
        rw [Nat.sub_self]

theorem smallerLoop_spec (h : PcOk t xs ct ts M) (hl : t.lex = true) {c : Word} {i : Nat} (hi : i ≤ xs.length) : ∀ (u : CT) (w : Nat) (p : Word) (res : Nat), ts[w]? = some u → c.toNat ∈ u.syms →
    (∀ k, k < (u.code c.toNat).length → p.getLsbD k = (u.code c.toNat).getD k false) →
    t.smallerLoop (u.code c.toNat).length w p (occ (fun j => xs.getD j 0#64) u.mem i) res =
      some (occ (fun j => xs.getD j 0#64) (fun b => b == c) i, res + occ (fun j => xs.getD j 0#64) (fun a => u.mem a && decide (a < c)) i) := by
  intro u
  induction u with
  | leaf f s =>
    intro w p res hw hc hp
    rw [CT.syms_leaf, List.mem_singleton] at hc
    subst hc
    have e1 : (fun a => (CT.leaf f c.toNat).mem a && decide (a < c)) = fun _ => false := by
      funext a
      rw [CT.mem_leaf]
      by_cases he : a.toNat = c.toNat
      · rw [BitVec.eq_of_toNat_eq he]; simp
      · simp [he]
    rw [CT.code, List.length_nil, WtPc.smallerLoop, occ_leaf, e1, occ_false, Nat.add_zero]
  | node l r ih1 ih2 =>
    intro w p res hw hc hp
    obtain ⟨h1, h2, h3, h4⟩ := h.inner hw
    have hn := (h.sub hw).1
    have hs := h.sorted hl hw
    rw [CT.syms_node, List.pairwise_append] at hs
    by_cases hz : occ (fun j => xs.getD j 0#64) (CT.node l r).mem i = 0
    · have hle := occ_sym_le (x := fun j => xs.getD j 0#64) hc i
      have hle2 := occ_imp_le (x := fun j => xs.getD j 0#64) (P := fun a => (CT.node l r).mem a && decide (a < c)) (Q := (CT.node l r).mem) (fun a ha => by rw [Bool.and_eq_true] at ha; exact ha.1) i
      have hlen : 0 < ((CT.node l r).code c.toNat).length := by rw [CT.code]; split <;> simp
      obtain ⟨k, hk⟩ : ∃ k, ((CT.node l r).code c.toNat).length = k + 1 := ⟨_, (Nat.succ_pred_eq_of_pos hlen).symm⟩
      rw [hk, WtPc.smallerLoop, if_pos hz]
      congr 2 <;> omega
    by_cases hcl : c.toNat ∈ l.syms
    · rw [CT.code, if_pos hcl] at hp ⊢
      obtain ⟨p0, p1⟩ := isPath_tail hp
      obtain ⟨w', c1, c2, _⟩ := h4 false
      rw [List.length_cons, WtPc.smallerLoop, if_neg hz, h.ones hw hi, sbind]
      dsimp only
      rw [p0, c1, sbind, if_neg (by simp), occ_node hn, Nat.add_sub_cancel, ih1 w' (p >>> 1) _ (by simpa using c2) hcl p1]
      have hr : ∀ s ∈ r.syms, c.toNat < s := fun s hs' => hs.2.2 _ hcl s hs'
      rw [occ_lt_node _ hn, show (fun a => r.mem a && decide (a < c)) = fun _ => false from funext (mem_lt_none hr), occ_false, Nat.add_zero]
    · have hcr : c.toNat ∈ r.syms := by rw [CT.syms_node, List.mem_append] at hc; exact hc.resolve_left hcl
      rw [CT.code, if_neg hcl] at hp ⊢
      obtain ⟨p0, p1⟩ := isPath_tail hp
      obtain ⟨w', c1, c2, _⟩ := h4 true
      rw [List.length_cons, WtPc.smallerLoop, if_neg hz, h.ones hw hi, sbind]
      dsimp only
      rw [p0, c1, sbind, if_pos rfl, occ_node hn, Nat.add_sub_cancel, ih2 w' (p >>> 1) _ (by simpa using c2) hcr p1]
      have hlt : ∀ s ∈ l.syms, s < c.toNat := fun s hs' => hs.2.2 s hs' _ hcr
      rw [occ_lt_node _ hn, show (fun a => l.mem a && decide (a < c)) = l.mem from funext (mem_lt hlt), Nat.add_assoc]

theorem lexSmallerGo_mem (h : PcOk t xs ct ts M) (hl : t.lex = true) (hs : t.sigma ≠ 1) {i : Nat} (hi : i ≤ xs.length) {c : Word} (hc : c.toNat ∈ ct.syms) (fuel : Nat) :
    t.lexSmallerGo (fuel + 1) i c = some (occ (fun j => xs.getD j 0#64) (fun b => b == c) i, occ (fun j => xs.getD j 0#64) (fun a => decide (a < c)) i) := by
  rw [WtPc.lexSmallerGo, if_neg hs]
  obtain ⟨p, p1, p2⟩ := h.coded.bitPath hc
  have hpos := h.code_pos hs c.toNat
  rw [p1, sbind, p2.len, if_neg (by omega)]
  have := h.smallerLoop_spec hl hi ct 0 p 0 h.coded.root hc p2.bits
  rw [h.occ_root hi, occ_congr (P := fun a => ct.mem a && decide (a < c)) (Q := fun a => decide (a < c)) (fun k hk => by rw [h.mem_x (by omega)]; rfl), Nat.zero_add] at this
  exact this

theorem lexSmaller_spec (h : PcOk t xs ct ts M) (hl : t.lex = true) {i : Nat} (hi : i ≤ xs.length) {c : Word} (hv : Valid t c) :
    t.lexSmallerCount i c = some (occ (fun j => xs.getD j 0#64) (fun b => b == c) i, occ (fun j => xs.getD j 0#64) (fun a => decide (a < c)) i) := by
  have hR : ∀ P : Word → Bool, occ (fun j => xs.getD j 0#64) P i = occR xs P 0 i := fun P => by rw [occR, occ_zero, Nat.sub_zero]
  unfold WtPc.lexSmallerCount
  by_cases hs : t.sigma = 1
  · obtain ⟨f, s, he, e1, e2⟩ := h.single hs
    have hsy : ∀ a : Word, a.toNat ∈ ct.syms → a.toNat = s := by intro a ha; rw [he, CT.syms_leaf, List.mem_singleton] at ha; exact ha
    rw [WtPc.lexSmallerGo, if_pos hs, e1, sbind, hR (fun a => decide (a < c))]
    by_cases hcs : c = t.S.val s
    · rw [if_pos hcs]
      have hcn : c.toNat = s := by rw [hcs, e2]
      rw [h.occ_single he hcn hi, h.occR_congr (R := fun _ => false) (by omega) hi (fun a ha => by have := hsy a ha; simp [BitVec.lt_def]; omega), occR_false]
      rfl
    · rw [if_neg hcs]
      have hcn : c.toNat ≠ s := by intro e; apply hcs; apply BitVec.eq_of_toNat_eq; rw [e2]; exact e
      rw [h.occ_absent (by rw [he, CT.syms_leaf]; simpa using hcn) hi]
      by_cases hlt : c < t.S.val s
      · have hlt' := hlt
        rw [BitVec.lt_def, e2] at hlt'
        rw [if_pos hlt, h.occR_congr (R := fun _ => false) (by omega) hi (fun a ha => by have := hsy a ha; simp [BitVec.lt_def]; omega), occR_false]
        rfl
      · have hlt' := hlt
        rw [BitVec.lt_def, e2] at hlt'
        rw [if_neg hlt, h.occR_congr (R := fun _ => true) (by omega) hi (fun a ha => by have := hsy a ha; simp [BitVec.lt_def]; omega), occR_true]
        rfl
  by_cases hc : c.toNat ∈ ct.syms
  · exact h.lexSmallerGo_mem hl hs hi hc 2
  · obtain ⟨p, p1, p2, p3, p4⟩ := h.bitPath_none hv hc
    obtain ⟨v1, v2⟩ := val_small p2
    obtain ⟨q1, q2⟩ := path_small v2
    rw [WtPc.lexSmallerGo, if_neg hs, p1, sbind]
    dsimp only
    rw [q1, if_pos rfl, q2, v1, h.occ_absent hc hi, hR (fun a => decide (a < c))]
    have hpv : Valid t (BitVec.ofNat 64 p) := by intro hb; simp only [hb, if_true] at p2; rw [q2]; exact p2
    rcases p4 with ⟨a1, a2, a3⟩ | ⟨a1, a2, a3⟩
    · rw [if_neg (by intro e; rw [e, q2] at a2; omega), h.lexSmallerGo_mem hl hs hi (by rw [q2]; exact a1) 1, sbind]
      dsimp only
      have htot := occR_total (xs := xs) (BitVec.ofNat 64 p) (Nat.zero_le i)
      have htot' := occR_total (xs := xs) c (Nat.zero_le i)
      have z : occR xs (fun a => a == c) 0 i = 0 := by
        rw [h.occR_congr (R := fun _ => false) (by omega) hi (fun a ha => by rw [beq_eq_false_iff_ne]; intro e; rw [e] at ha; exact hc ha), occR_false]
      have g : occR xs (fun a => decide (BitVec.ofNat 64 p < a)) 0 i = occR xs (fun a => decide (c < a)) 0 i := by
        apply h.occR_congr (by omega) hi
        intro a ha
        rw [Bool.eq_iff_iff, decide_eq_true_eq, decide_eq_true_eq, BitVec.lt_def, BitVec.lt_def, q2]
        rcases a3 _ ha with h1 | h1 <;> omega
      rw [hR, hR]
      show some _ = some _
      congr 2
      omega
    · have hgt : occR xs (fun a => decide (a < c)) 0 i = 0 := by
        rw [h.occR_congr (R := fun _ => false) (by omega) hi (fun a ha => by have := a3 _ ha; simp [BitVec.lt_def]; omega), occR_false]
      rw [hgt]
      by_cases hcp : c = BitVec.ofNat 64 p
      · rw [if_pos hcp]; rfl
      · rw [if_neg hcp]
        subst a1
        have h0 : (BitVec.ofNat 64 0 : Word).toNat ∉ ct.syms := a2
        obtain ⟨p', p1', p2', p3', p4'⟩ := h.bitPath_none hpv h0
        have hp0 : p' = 0 := by have : (BitVec.ofNat 64 0 : Word).toNat = 0 := rfl; omega
        subst hp0
        rw [WtPc.lexSmallerGo, if_neg hs, p1', sbind]
        dsimp only
        rw [q1, if_pos rfl, q2, v1, if_pos rfl]
        rfl

end PcOk

end Sdsl.Wt
