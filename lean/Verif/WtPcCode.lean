/-
  Codes, the leaf table and the path table of `wt_pc`.
-/
import Verif.WtPcShape
import Verif.WtNode
import Mathlib.Data.List.Induction

namespace Sdsl.Wt

open CT

namespace CT

/-- The subtree that is reached by a sequence of directions. -/
def sub : CT → List Bool → Option CT
  | t, [] => some t
  | .leaf _ _, _ :: _ => none
  | .node l r, b :: bs => (if b then r else l).sub bs

/-- The directions to the leaf of symbol `s`. -/
def code : CT → Nat → List Bool
  | .leaf _ _, _ => []
  | .node l r, s => if s ∈ l.syms then false :: l.code s else true :: r.code s

theorem sub_snoc : ∀ (bs : List Bool) (t l r : CT) (b : Bool), t.sub bs = some (.node l r) → t.sub (bs ++ [b]) = some (if b then r else l) := by
  intro bs
  induction bs with
  | nil =>
    intro t l r b h
    simp only [sub, Option.some.injEq] at h
    subst h
    cases b <;> simp [sub]
  | cons c bs ih =>
    intro t l r b h
    cases t with
    | leaf f s => simp [sub] at h
    | node l' r' => rw [List.cons_append, sub]; rw [sub] at h; exact ih _ _ _ _ h

theorem sub_syms : ∀ (bs : List Bool) (t u : CT), t.sub bs = some u → ∀ s ∈ u.syms, s ∈ t.syms := by
  intro bs
  induction bs with
  | nil => intro t u h; simp only [sub, Option.some.injEq] at h; subst h; exact fun s h => h
  | cons c bs ih =>
    intro t u h s hs
    cases t with
    | leaf f s => simp [sub] at h
    | node l r =>
      rw [sub] at h
      have := ih _ _ h s hs
      rw [syms_node, List.mem_append]
      cases c
      · left; simpa using this
      · right; simpa using this

theorem sub_leaves : ∀ (bs : List Bool) (t u : CT), t.sub bs = some u → u.leaves.Sublist t.leaves := by
  intro bs
  induction bs with
  | nil => intro t u h; simp only [sub, Option.some.injEq] at h; subst h; exact List.Sublist.refl _
  | cons c bs ih =>
    intro t u h
    cases t with
    | leaf f s => simp [sub] at h
    | node l r =>
      rw [sub] at h
      have := ih _ _ h
      rw [leaves]
      cases c
      · exact (this.trans (by simp)).trans (List.sublist_append_left l.leaves r.leaves)
      · exact (this.trans (by simp)).trans (List.sublist_append_right l.leaves r.leaves)

theorem nodup_left {l r : CT} (h : (node l r).syms.Nodup) : l.syms.Nodup := by
  rw [syms_node] at h; exact (List.nodup_append.1 h).1

theorem nodup_right {l r : CT} (h : (node l r).syms.Nodup) : r.syms.Nodup := by
  rw [syms_node] at h; exact (List.nodup_append.1 h).2.1

theorem disj {l r : CT} (h : (node l r).syms.Nodup) {s : Nat} (h1 : s ∈ l.syms) : s ∉ r.syms := by
  rw [syms_node] at h; exact fun h2 => (List.nodup_append.1 h).2.2 s h1 s h2 rfl

/-- A subtree that contains `s` lies on the path to the leaf of `s`. -/
theorem code_sub : ∀ (bs : List Bool) (t u : CT), t.syms.Nodup → t.sub bs = some u → ∀ s ∈ u.syms, t.code s = bs ++ u.code s := by
  intro bs
  induction bs with
  | nil => intro t u _ h s _; simp only [sub, Option.some.injEq] at h; subst h; rfl
  | cons c bs ih =>
    intro t u hn h s hs
    cases t with
    | leaf f s => simp [sub] at h
    | node l r =>
      rw [sub] at h
      have h1 := sub_syms _ _ _ h s hs
      rw [code]
      cases c
      · simp only [Bool.false_eq_true, if_false] at h h1
        rw [if_pos h1, ih _ _ (nodup_left hn) h s hs]; rfl
      · simp only [if_true] at h h1
        rw [if_neg (fun h2 => disj hn h2 h1), ih _ _ (nodup_right hn) h s hs]; rfl

theorem sub_code : ∀ (t : CT) {s : Nat}, s ∈ t.syms → ∃ f, t.sub (t.code s) = some (.leaf f s) := by
  intro t
  induction t with
  | leaf f s' => intro s h; rw [syms_leaf, List.mem_singleton] at h; subst h; exact ⟨f, rfl⟩
  | node l r ih1 ih2 =>
    intro s h
    rw [code]
    by_cases hl : s ∈ l.syms
    · rw [if_pos hl]; exact ih1 hl
    · rw [if_neg hl]
      rw [syms_node, List.mem_append] at h
      exact ih2 (h.resolve_left hl)

theorem code_length_lt : ∀ (t : CT) (s : Nat), (t.code s).length < t.size := by
  intro t
  induction t with
  | leaf f s' => intro s; simp [code, size]
  | node l r ih1 ih2 =>
    intro s
    rw [code, size]
    have := ih1 s
    have := ih2 s
    by_cases hl : s ∈ l.syms
    · rw [if_pos hl, List.length_cons]; omega
    · rw [if_neg hl, List.length_cons]; omega

end CT

section nodes

variable {S : Strat} {nodes : List DNode} {ts : List CT}

/-- Follows child pointers. -/
def desc (nodes : List DNode) : Nat → List Bool → Option Nat
  | v, [] => some v
  | v, b :: bs => nodes[v]?.bind fun d => desc nodes (d.child b) bs

theorem desc_snoc : ∀ (bs : List Bool) (v w : Nat) (b : Bool), desc nodes v bs = some w → desc nodes v (bs ++ [b]) = nodes[w]?.map (·.child b) := by
  intro bs
  induction bs with
  | nil =>
    intro v w b h
    simp only [desc, Option.some.injEq] at h
    subst h
    simp only [List.nil_append, desc]
    cases nodes[v]? <;> rfl
  | cons c bs ih =>
    intro v w b h
    rw [List.cons_append, desc]
    rw [desc] at h
    cases hd : nodes[v]? with
    | none => rw [hd] at h; simp at h
    | some d => rw [hd] at h; exact ih _ _ _ h

theorem Stored.child (h : Stored S nodes ts) {v : Nat} {l r : CT} (hv : ts[v]? = some (.node l r)) (b : Bool) :
    ∃ d c, nodes[v]? = some d ∧ d.child b = c ∧ v < c ∧ ts[c]? = some (if b then r else l) ∧ (∃ e, nodes[c]? = some e ∧ e.parent = v) ∧ (decide (d.child1 = c) = b) ∧ d.child0 ≠ S.undef ∧
      d.bvPos = start ts v := by
  obtain ⟨d, h1, h2, h3, h4, h5, h6, h7, h8, h9⟩ := h.done v _ hv
  have hu : d.child0 ≠ S.undef := by
    intro he
    obtain ⟨e, h10, h11⟩ := h8
    obtain ⟨e', p, p1, p2, p3, p4, p5⟩ := h.par d.child0 (by omega) (List.getElem?_eq_some_iff.1 h6).1
    rw [p1] at h10; cases h10
    rw [h11, h1] at p3; cases p3
    exact p4 he
  cases b
  · exact ⟨d, d.child0, h1, rfl, h3, by simpa using h6, h8, by simp; omega, hu, h2⟩
  · exact ⟨d, d.child1, h1, rfl, by omega, by simpa using h7, h9, by simp, hu, h2⟩

theorem Stored.desc_sub (h : Stored S nodes ts) : ∀ (bs : List Bool) (v : Nat) (t u : CT), ts[v]? = some t → t.sub bs = some u → ∃ w, desc nodes v bs = some w ∧ ts[w]? = some u := by
  intro bs
  induction bs with
  | nil => intro v t u hv hu; simp only [CT.sub, Option.some.injEq] at hu; subst hu; exact ⟨v, rfl, hv⟩
  | cons c bs ih =>
    intro v t u hv hu
    cases t with
    | leaf f s => simp [CT.sub] at hu
    | node l r =>
      rw [CT.sub] at hu
      obtain ⟨d, w, h1, h2, _, h3, _⟩ := h.child hv c
      rw [desc, h1, Option.bind_some, h2]
      exact ih w _ _ h3 hu

theorem Stored.reach (h : Stored S nodes ts) {t : CT} (h0 : ts[0]? = some t) : ∀ (v : Nat), v < ts.length → ∃ bs u, t.sub bs = some u ∧ ts[v]? = some u ∧ desc nodes 0 bs = some v := by
  intro v
  induction v using Nat.strongRecOn with
  | ind v ih =>
    intro hv
    by_cases hz : v = 0
    · subst hz; exact ⟨[], t, rfl, h0, rfl⟩
    · obtain ⟨d, p, h1, h2, h3, h4, h5⟩ := h.par v (by omega) hv
      obtain ⟨bs, u, g1, g2, g3⟩ := ih d.parent h2 (by omega)
      cases u with
      | leaf f s =>
        obtain ⟨e, q1, q2, q3, q4⟩ := h.done _ _ g2
        rw [h3] at q1; cases q1
        exact absurd q4 h4
      | node l r =>
        have key : ∀ b : Bool, p.child b = v → ∃ bs u, t.sub bs = some u ∧ ts[v]? = some u ∧ desc nodes 0 bs = some v := by
          intro b hb
          obtain ⟨e, c, q1, q2, q3, q4, _⟩ := h.child g2 b
          rw [h3] at q1; cases q1
          rw [hb] at q2; subst q2
          exact ⟨bs ++ [b], _, CT.sub_snoc _ _ _ _ b g1, q4, by rw [desc_snoc _ _ _ _ g3, h3, Option.map_some, hb]⟩
        rcases h5 with h5 | h5
        · exact key false h5
        · exact key true h5

/-- Every symbol has one leaf. -/
theorem Stored.leaf_unique (h : Stored S nodes ts) {t : CT} (h0 : ts[0]? = some t) (hn : t.syms.Nodup) {v w f g s : Nat} (hv : ts[v]? = some (.leaf f s)) (hw : ts[w]? = some (.leaf g s)) : v = w := by
  obtain ⟨bs, u, a1, a2, a3⟩ := h.reach h0 v (List.getElem?_eq_some_iff.1 hv).1
  obtain ⟨cs, u', b1, b2, b3⟩ := h.reach h0 w (List.getElem?_eq_some_iff.1 hw).1
  rw [hv] at a2; cases a2
  rw [hw] at b2; cases b2
  have c1 := CT.code_sub _ _ _ hn a1 s (by simp [CT.syms_leaf])
  have c2 := CT.code_sub _ _ _ hn b1 s (by simp [CT.syms_leaf])
  simp only [CT.code, List.append_nil] at c1 c2
  rw [← c1, c2, b3] at a3
  exact (Option.some.inj a3).symm

theorem Stored.leaf_of_mem (h : Stored S nodes ts) {t : CT} (h0 : ts[0]? = some t) {s : Nat} (hs : s ∈ t.syms) : ∃ v f, ts[v]? = some (.leaf f s) ∧ desc nodes 0 (t.code s) = some v := by
  obtain ⟨f, hf⟩ := CT.sub_code t hs
  obtain ⟨w, h1, h2⟩ := h.desc_sub _ 0 t _ h0 hf
  exact ⟨w, f, h2, h1⟩

theorem Stored.mem_of_leaf (h : Stored S nodes ts) {t : CT} (h0 : ts[0]? = some t) {v f s : Nat} (hv : ts[v]? = some (.leaf f s)) : s ∈ t.syms := by
  obtain ⟨bs, u, a1, a2, a3⟩ := h.reach h0 v (List.getElem?_eq_some_iff.1 hv).1
  rw [hv] at a2; cases a2
  exact CT.sub_syms _ _ _ a1 s (by simp [CT.syms_leaf])

/-! ### The leaf table -/

/-- Contents of the leaf table after the nodes `< v` have been processed. -/
structure LeafInv (S : Strat) (ts : List CT) (M v : Nat) (ctl : List Nat) : Prop where
  len : ctl.length = M
  leaf : ∀ w f s, w < v → ts[w]? = some (.leaf f s) → ctl[s]? = some w
  none : ∀ s, s < M → (∀ w f, w < v → ts[w]? ≠ some (.leaf f s)) → ctl[s]? = some S.undef

theorem Stored.fillLeaves (h : Stored S nodes ts) {t : CT} (h0 : ts[0]? = some t) (hn : t.syms.Nodup) (hN : ts.length < S.undef) {M : Nat} (hM : ∀ s ∈ t.syms, s < M) (hb : S.byte = true → M = 256) :
    ∀ (k v : Nat) (ctl : List Nat), k + v = ts.length → LeafInv S ts M v ctl → ∃ ctl', fillLeaves S (nodes.drop v) v ctl = some ctl' ∧ LeafInv S ts M ts.length ctl' := by
  intro k
  induction k with
  | zero =>
    intro v ctl hk hi
    rw [List.drop_eq_nil_of_le (by rw [h.len]; omega)]
    rw [show v = ts.length by omega] at hi
    exact ⟨ctl, rfl, hi⟩
  | succ k ih =>
    intro v ctl hk hi
    have hv : v < ts.length := by omega
    have hvn : v < nodes.length := by rw [h.len]; omega
    obtain ⟨d, h1, h2, h3⟩ := h.done v ts[v] (List.getElem?_eq_getElem hv)
    have hd : nodes[v] = d := by rw [List.getElem?_eq_getElem hvn] at h1; exact Option.some.inj h1
    rw [List.drop_eq_getElem_cons hvn, hd, Wt.fillLeaves]
    cases ht : ts[v] with
    | leaf f s =>
      rw [ht] at h3
      have hv' : ts[v]? = some (.leaf f s) := by rw [List.getElem?_eq_getElem hv, ht]
      have hs := hM s (h.mem_of_leaf h0 hv')
      have hsm : (if S.byte then d.bvRank % 256 else d.bvRank) = s := by
        rw [h3.1]
        cases hbb : S.byte
        · rfl
        · rw [if_pos rfl]; have := hb hbb; exact Nat.mod_eq_of_lt (by omega)
      rw [if_pos h3.2, hsm, node_of_lt (by omega), setList_of_lt (by rw [hi.len]; exact hs), sbind]
      apply ih (v + 1) _ (by omega)
      have hlt : s < ctl.length := by rw [hi.len]; exact hs
      constructor
      · rw [List.length_set, hi.len]
      · intro w g s' hw hws
        rw [getElem?_set' hlt]
        by_cases he : s = s'
        · subst he
          rw [if_pos rfl, h.leaf_unique h0 hn hv' hws]
        · rw [if_neg he]
          by_cases hwv : w = v
          · subst hwv; rw [hv'] at hws; cases hws; exact absurd rfl he
          · exact hi.leaf w g s' (by omega) hws
      · intro s' hs' hno
        have he : s ≠ s' := by
          intro he; subst he
          exact hno v f (by omega) hv'
        rw [getElem?_set' hlt, if_neg he]
        exact hi.none s' hs' (fun w g hw => hno w g (by omega))
    | node l r =>
      rw [ht] at h3
      have hv' : ts[v]? = some (.node l r) := by rw [List.getElem?_eq_getElem hv, ht]
      obtain ⟨d', c, g1, _, _, _, _, _, g7, _⟩ := h.child hv' true
      rw [h1] at g1; cases g1
      rw [if_neg g7]
      apply ih (v + 1) _ (by omega)
      constructor
      · exact hi.len
      · intro w g s' hw hws
        by_cases hwv : w = v
        · subst hwv; rw [hv'] at hws; cases hws
        · exact hi.leaf w g s' (by omega) hws
      · intro s' hs' hno
        exact hi.none s' hs' (fun w g hw => hno w g (by omega))

/-! ### Paths -/

/-- The low bits of `p` are the directions `bs`. -/
def Rp (p : Word) (bs : List Bool) : Prop := ∀ i, i < 64 → p.getLsbD i = bs.getD i false

theorem Rp.cons {p : Word} {bs : List Bool} (h : Rp p bs) (b : Bool) : Rp (if b then p <<< 1 ||| 1#64 else p <<< 1) (b :: bs) := by
  intro i hi
  cases i with
  | zero => cases b <;> simp
  | succ i =>
    have := h i (by omega)
    rw [List.getD_cons_succ, ← this]
    rw [BitVec.getLsbD_eq_getElem (by omega : i < 64)]
    cases b <;> simp [hi]

theorem Stored.upPath (h : Stored S nodes ts) : ∀ (bs : List Bool) (v w : Nat) (t u : CT), ts[v]? = some t → t.sub bs = some u → desc nodes v bs = some w → ∀ (fuel : Nat) (pw : Word) (cs : List Bool),
    Rp pw cs → ∃ pw', Rp pw' (bs ++ cs) ∧ upPath nodes (fuel + bs.length) w pw cs.length = upPath nodes fuel v pw' (bs ++ cs).length := by
  intro bs
  induction bs with
  | nil =>
    intro v w t u hv hu hd fuel pw cs hp
    simp only [desc, Option.some.injEq] at hd
    subst hd
    exact ⟨pw, hp, rfl⟩
  | cons b bs ih =>
    intro v w t u hv hu hd fuel pw cs hp
    cases t with
    | leaf f s => simp [CT.sub] at hu
    | node l r =>
      rw [CT.sub] at hu
      obtain ⟨d, c, h1, h2, h3, h4, ⟨e, h5, h6⟩, h7, _⟩ := h.child hv b
      rw [desc, h1, Option.bind_some, h2] at hd
      obtain ⟨pw1, g1, g2⟩ := ih c w _ u h4 hu hd (fuel + 1) pw cs hp
      refine ⟨_, g1.cons b, ?_⟩
      rw [List.length_cons, show fuel + (bs.length + 1) = fuel + 1 + bs.length by omega, g2, Wt.upPath, if_neg (by omega), h5, sbind, h6, h1, sbind]
      dsimp only
      congr 1
      cases b
      · rw [if_neg (by simpa using h7)]; rfl
      · rw [if_pos (by simpa using h7)]; rfl

theorem Stored.upPath_leaf (h : Stored S nodes ts) {t : CT} (h0 : ts[0]? = some t) (hsz : t.size = ts.length) {s v f : Nat} (hn : t.syms.Nodup) (hv : ts[v]? = some (.leaf f s)) :
    ∃ pw, Rp pw (t.code s) ∧ Wt.upPath nodes (nodes.length + 1) v 0#64 0 = some (pw, (t.code s).length) := by
  have hs := h.mem_of_leaf h0 hv
  obtain ⟨g, hg⟩ := CT.sub_code t hs
  obtain ⟨w, f', g1, g2⟩ := h.leaf_of_mem h0 hs
  have := h.leaf_unique h0 hn hv g1
  subst this
  have hl := CT.code_length_lt t s
  obtain ⟨pw, p1, p2⟩ := h.upPath (t.code s) 0 v t _ h0 hg g2 (nodes.length + 1 - (t.code s).length) 0#64 [] (by intro i hi; simp)
  rw [List.append_nil] at p1 p2
  refine ⟨pw, p1, ?_⟩
  have hlen := h.len
  rw [show nodes.length + 1 - (t.code s).length + (t.code s).length = nodes.length + 1 by omega] at p2
  rw [List.length_nil] at p2
  rw [p2, show nodes.length + 1 - (t.code s).length = nodes.length - (t.code s).length + 1 by omega, Wt.upPath, if_pos rfl]

/-- The largest `c < n` with `P c`, or 0. -/
def prevOf (P : Nat → Bool) : Nat → Nat
  | 0 => 0
  | n + 1 => if P n then n else prevOf P n

theorem prevOf_le (P : Nat → Bool) (n : Nat) : prevOf P n ≤ n := by
  induction n with
  | zero => simp [prevOf]
  | succ n ih => rw [prevOf]; split <;> omega

/-- The entry of the path table for a symbol with code `bs`. -/
structure IsPath (p : Word) (bs : List Bool) : Prop where
  len : (p >>> 56).toNat = bs.length
  bits : ∀ i, i < bs.length → p.getLsbD i = bs.getD i false

theorem isPath_mk {pw : Word} {bs : List Bool} (h : Rp pw bs) (hl : bs.length ≤ 56) : IsPath (pw ||| BitVec.ofNat 64 bs.length <<< 56) bs := by
  have h1 : (BitVec.ofNat 64 bs.length : Word).toNat = bs.length := by
    rw [BitVec.toNat_ofNat, Nat.mod_eq_of_lt (by omega)]
  constructor
  · have : (pw ||| BitVec.ofNat 64 bs.length <<< 56) >>> 56 = BitVec.ofNat 64 bs.length := by
      apply BitVec.eq_of_getLsbD_eq
      intro i hi
      rw [BitVec.getLsbD_ushiftRight, BitVec.getLsbD_or, BitVec.getLsbD_shiftLeft]
      by_cases h8 : i < 8
      · rw [h (56 + i) (by omega), List.getD_eq_getElem?_getD, List.getElem?_eq_none (by omega)]
        simp
        intro _; omega
      · rw [BitVec.getLsbD_of_ge _ (56 + i) (by omega)]
        symm
        simp only [Bool.false_or]
        rw [BitVec.getLsbD_ofNat, Nat.testBit_lt_two_pow]
        · simp; omega
        · calc bs.length < 2 ^ 8 := by omega
            _ ≤ 2 ^ i := Nat.pow_le_pow_right (by omega) (by omega)
    rw [this, h1]
  · intro i hi
    rw [BitVec.getLsbD_or, BitVec.getLsbD_shiftLeft, h i (by omega)]
    simp
    omega

theorem Stored.fillPaths_ok (h : Stored S nodes ts) {t : CT} (h0 : ts[0]? = some t) (hsz : t.size = ts.length) (hn : t.syms.Nodup) (hN : ts.length < S.undef) {M : Nat} {ctl : List Nat}
    (hi : LeafInv S ts M ts.length ctl) (hd : ∀ s ∈ t.syms, (t.code s).length ≤ 56) : ∀ (k c : Nat), k + c = M →
    ∃ ps, fillPaths S nodes (ctl.drop c) c (prevOf (fun s => decide (s ∈ t.syms)) c) = some (.ok ps) ∧ ps.length = k ∧
      ∀ i, i < k → ∃ p, ps[i]? = some p ∧ (c + i ∈ t.syms → IsPath p (t.code (c + i))) ∧ (c + i ∉ t.syms → p = BitVec.ofNat 64 (prevOf (fun s => decide (s ∈ t.syms)) (c + i))) := by
  have hlen := hi.len
  intro k
  induction k with
  | zero =>
    intro c hc
    rw [List.drop_eq_nil_of_le (by omega)]
    exact ⟨[], rfl, rfl, fun i hi => by omega⟩
  | succ k ih =>
    intro c hc
    have hcl : c < ctl.length := by omega
    rw [List.drop_eq_getElem_cons hcl, fillPaths]
    obtain ⟨ps, p1, p2, p3⟩ := ih (c + 1) (by omega)
    by_cases hs : c ∈ t.syms
    · obtain ⟨v, f, g1, g2⟩ := h.leaf_of_mem h0 hs
      have hv := (List.getElem?_eq_some_iff.1 g1).1
      have hctl : ctl[c] = v := by
        have := hi.leaf v f c hv g1
        rw [List.getElem?_eq_getElem hcl] at this
        exact Option.some.inj this
      rw [hctl, if_pos (by omega)]
      obtain ⟨pw, q1, q2⟩ := h.upPath_leaf h0 hsz hn g1
      rw [q2, sbind]
      dsimp only
      have hpv : prevOf (fun s => decide (s ∈ t.syms)) (c + 1) = c := by rw [prevOf, if_pos (by simpa using hs)]
      rw [hpv] at p1
      rw [if_neg (by have := hd c hs; omega), p1, sbind]
      refine ⟨_, rfl, by rw [List.length_cons, p2], ?_⟩
      intro i hik
      cases i with
      | zero => exact ⟨_, rfl, fun _ => isPath_mk q1 (hd c hs), fun hns => absurd hs hns⟩
      | succ i =>
        obtain ⟨p, r1, r2, r3⟩ := p3 i (by omega)
        rw [show c + (i + 1) = c + 1 + i by omega]
        exact ⟨p, r1, r2, r3⟩
    · have hctl : ctl[c] = S.undef := by
        have := hi.none c (by omega) (fun w f hw hww => hs (h.mem_of_leaf h0 hww))
        rw [List.getElem?_eq_getElem hcl] at this
        exact Option.some.inj this
      rw [hctl, if_neg (by simp)]
      have hpv : prevOf (fun s => decide (s ∈ t.syms)) (c + 1) = prevOf (fun s => decide (s ∈ t.syms)) c := by rw [prevOf, if_neg (by simpa using hs)]
      rw [hpv] at p1
      rw [p1, sbind]
      refine ⟨_, rfl, by rw [List.length_cons, p2], ?_⟩
      intro i hik
      cases i with
      | zero => exact ⟨_, rfl, fun hs' => absurd hs' hs, fun _ => rfl⟩
      | succ i =>
        obtain ⟨p, r1, r2, r3⟩ := p3 i (by omega)
        rw [show c + (i + 1) = c + 1 + i by omega]
        exact ⟨p, r1, r2, r3⟩

theorem Stored.fillPaths_error (h : Stored S nodes ts) {t : CT} (h0 : ts[0]? = some t) (hsz : t.size = ts.length) (hn : t.syms.Nodup) (hN : ts.length < S.undef) {M : Nat} {ctl : List Nat}
    (hM : ∀ s ∈ t.syms, s < M) (hi : LeafInv S ts M ts.length ctl) : ∀ (k c prev : Nat), k + c = M → (∃ s ∈ t.syms, c ≤ s ∧ 56 < (t.code s).length) →
    fillPaths S nodes (ctl.drop c) c prev = some (.error "Code depth greater than 56!!!") := by
  have hlen := hi.len
  intro k
  induction k with
  | zero =>
    rintro c prev hc ⟨s, s1, s2, _⟩
    have := hM s s1
    omega
  | succ k ih =>
    rintro c prev hc ⟨s, s1, s2, s3⟩
    have hcl : c < ctl.length := by omega
    rw [List.drop_eq_getElem_cons hcl, fillPaths]
    by_cases hs : c ∈ t.syms
    · obtain ⟨v, f, g1, g2⟩ := h.leaf_of_mem h0 hs
      have hv := (List.getElem?_eq_some_iff.1 g1).1
      have hctl : ctl[c] = v := by
        have := hi.leaf v f c hv g1
        rw [List.getElem?_eq_getElem hcl] at this
        exact Option.some.inj this
      rw [hctl, if_pos (by omega)]
      obtain ⟨pw, q1, q2⟩ := h.upPath_leaf h0 hsz hn g1
      rw [q2, sbind]
      dsimp only
      by_cases hcs : 56 < (t.code c).length
      · rw [if_pos hcs]; rfl
      · rw [if_neg hcs, ih (c + 1) c (by omega) ⟨s, s1, by
          rcases Nat.lt_or_ge c s with h | h
          · exact h
          · have : c = s := by omega
            subst this; exact absurd s3 hcs, s3⟩, sbind]
        rfl
    · have hctl : ctl[c] = S.undef := by
        have := hi.none c (by omega) (fun w f hw hww => hs (h.mem_of_leaf h0 hww))
        rw [List.getElem?_eq_getElem hcl] at this
        exact Option.some.inj this
      rw [hctl, if_neg (by simp), ih (c + 1) prev (by omega) ⟨s, s1, by
          rcases Nat.lt_or_ge c s with h | h
          · exact h
          · have : c = s := by omega
            subst this; exact absurd s1 hs, s3⟩, sbind]
      rfl

end nodes

/-- The finished tree structure. -/
structure Coded (S : Strat) (T : PTree) (t : CT) (ts : List CT) (M : Nat) : Prop where
  stored : Stored S T.nodes ts
  root : ts[0]? = some t
  size : t.size = ts.length
  cost : start ts ts.length = t.cost
  nodup : t.syms.Nodup
  small : ts.length < S.undef
  lt : ∀ s ∈ t.syms, s < M
  bound : if S.byte then M = 256 else 0 < M ∧ M - 1 ∈ t.syms
  leaf : LeafInv S ts M ts.length T.cToLeaf
  depth : ∀ s ∈ t.syms, (t.code s).length ≤ 56
  plen : T.path.length = M
  path : ∀ s, s < M → ∃ p, T.path[s]? = some p ∧ (s ∈ t.syms → IsPath p (t.code s)) ∧ (s ∉ t.syms → p = BitVec.ofNat 64 (prevOf (fun s => decide (s ∈ t.syms)) s))

theorem maxSym_spec : ∀ (ts : List CT), (∀ (v f s : Nat), ts[v]? = some (CT.leaf f s) → s ≤ maxSym ts) ∧ (maxSym ts = 0 ∨ ∃ v f : Nat, ts[v]? = some (CT.leaf f (maxSym ts))) := by
  intro ts
  induction ts using List.reverseRecOn with
  | nil => exact ⟨by intro v f s h; simp at h, Or.inl rfl⟩
  | append_singleton ts t ih =>
    obtain ⟨ih1, ih2⟩ := ih
    rw [maxSym_snoc]
    have hold : ∀ {v : Nat} {u : CT}, ts[v]? = some u → (ts ++ [t])[v]? = some u := fun h => by
      rw [List.getElem?_append_left (List.getElem?_eq_some_iff.1 h).1, h]
    have hcases : ∀ {v : Nat} {u : CT}, (ts ++ [t])[v]? = some u → ts[v]? = some u ∨ u = t := by
      intro v u h
      rcases Nat.lt_or_ge v ts.length with h1 | h1
      · left; rwa [List.getElem?_append_left h1] at h
      · right
        rw [List.getElem?_append_right h1] at h
        have : v - ts.length = 0 := by
          have := (List.getElem?_eq_some_iff.1 h).1
          simp at this; omega
        rw [this] at h
        exact (Option.some.inj h).symm
    cases t with
    | leaf f s =>
      dsimp only
      constructor
      · intro v g s' h
        rcases hcases h with h | h
        · have := ih1 v g s' h; omega
        · cases h; omega
      · rcases Nat.le_total (maxSym ts) s with hle | hle
        · right
          refine ⟨ts.length, f, ?_⟩
          rw [show max (maxSym ts) s = s by omega]
          simp
        · rw [show max (maxSym ts) s = maxSym ts by omega]
          rcases ih2 with h | ⟨v, g, h⟩
          · exact Or.inl h
          · exact Or.inr ⟨v, g, hold h⟩
    | node l r =>
      dsimp only
      constructor
      · intro v g s' h
        rcases hcases h with h | h
        · exact ih1 v g s' h
        · cases h
      · rcases ih2 with h | ⟨v, g, h⟩
        · exact Or.inl h
        · exact Or.inr ⟨v, g, hold h⟩

theorem ptree_new {S : Strat} {temp : List PcNode} {t : CT} (hS : S.dfs = false) (hN : temp.length < S.undef) (hr : Rep temp t (temp.length - 1)) (hsz : t.size = temp.length) (hn : t.syms.Nodup)
    (hbyte : S.byte = true → ∀ s ∈ t.syms, s < 256) :
    ((∃ s ∈ t.syms, 56 < (t.code s).length) ∧ PTree.new S temp = some (.error "Code depth greater than 56!!!")) ∨
      (∃ T ts M, PTree.new S temp = some (.ok (T, start ts ts.length)) ∧ Coded S T t ts M) := by
  obtain ⟨root, nodes, s', us, h1, h2, h3, h4, h5, h6, h7, h8⟩ := store_spec hS hN hr hsz
  have h0 : (t :: us)[0]? = some t := rfl
  generalize t :: us = ts at *
  obtain ⟨hm1, hm2⟩ := maxSym_spec ts
  have hM : ∀ s ∈ t.syms, s < (if S.byte then 256 else s'.maxC + 1) := by
    intro s hs
    cases hb : S.byte
    · obtain ⟨v, f, g1, _⟩ := h4.leaf_of_mem h0 hs
      have := hm1 v f s g1
      rw [h6]; simp; omega
    · simpa using hbyte hb s hs
  have hbound : if S.byte then (if S.byte then 256 else s'.maxC + 1) = 256 else 0 < (if S.byte then 256 else s'.maxC + 1) ∧ (if S.byte then 256 else s'.maxC + 1) - 1 ∈ t.syms := by
    cases hb : S.byte
    · simp only [Bool.false_eq_true, if_false, Nat.add_sub_cancel]
      refine ⟨by omega, ?_⟩
      rw [h6]
      rcases hm2 with hz | ⟨v, f, hv⟩
      · obtain ⟨s, hs⟩ : ∃ s, s ∈ t.syms := List.exists_mem_of_ne_nil _ t.syms_ne
        obtain ⟨v, f, g1, _⟩ := h4.leaf_of_mem h0 hs
        have := hm1 v f s g1
        rw [hz] at this ⊢
        have : s = 0 := by omega
        rwa [this] at hs
      · exact h4.mem_of_leaf h0 hv
    · simp
  obtain ⟨ctl, c1, c2⟩ := h4.fillLeaves h0 hn (by omega) hM (fun hb => by simp [hb]) ts.length 0 (List.replicate (if S.byte then 256 else s'.maxC + 1) S.undef) (by omega)
    ⟨by simp, fun w f s hw => by omega, fun s hs _ => by rw [List.getElem?_replicate, if_pos hs]⟩
  rw [List.drop_zero] at c1
  unfold PTree.new
  rw [h1, sbind, h2, sbind, h3, sbind, c1, sbind]
  by_cases hd : ∃ s ∈ t.syms, 56 < (t.code s).length
  · left
    refine ⟨hd, ?_⟩
    have := h4.fillPaths_error h0 (by omega) hn (by omega) hM c2 _ 0 0 rfl (by obtain ⟨s, s1, s2⟩ := hd; exact ⟨s, s1, Nat.zero_le _, s2⟩)
    rw [List.drop_zero] at this
    rw [this, sbind]; rfl
  · right
    have hd' : ∀ s ∈ t.syms, (t.code s).length ≤ 56 := by
      intro s hs
      apply Classical.byContradiction
      intro hc
      exact hd ⟨s, hs, by omega⟩
    obtain ⟨ps, p1, p2, p3⟩ := h4.fillPaths_ok h0 (by omega) hn (by omega) c2 hd' _ 0 rfl
    rw [List.drop_zero] at p1
    rw [show prevOf (fun s => decide (s ∈ t.syms)) 0 = 0 from rfl] at p1
    rw [p1, sbind]
    refine ⟨⟨s'.nodes, ctl, ps⟩, ts, _, by rw [h5, h7]; rfl, h4, h0, by omega, h8, hn, by omega, hM, hbound, c2, hd', p2, ?_⟩
    intro s hs
    have := p3 s hs
    rw [Nat.zero_add] at this
    exact this

end Sdsl.Wt
