/-
  The bit vector of `wt_pc`.
-/
import Verif.WtPcCode

namespace Sdsl.Wt

open CT Spec

namespace CT

/-- The symbol belongs to the tree. -/
def mem (t : CT) (a : Word) : Bool := decide (a.toNat ∈ t.syms)

theorem mem_node (l r : CT) (a : Word) : (node l r).mem a = (l.mem a || r.mem a) := by
  simp only [mem, syms_node, List.mem_append, Bool.decide_or]

theorem mem_right {l r : CT} (a : Word) : ((node l r).mem a && r.mem a) = r.mem a := by
  rw [mem_node]; cases l.mem a <;> cases r.mem a <;> rfl

theorem mem_left {l r : CT} (hn : (node l r).syms.Nodup) (a : Word) : ((node l r).mem a && !r.mem a) = l.mem a := by
  rw [mem_node]
  cases hl : l.mem a
  · cases r.mem a <;> rfl
  · have : r.mem a = false := by
      simp only [mem, decide_eq_true_eq] at hl
      simp only [mem, decide_eq_false_iff_not]
      exact disj hn hl
    rw [this]; rfl

theorem mem_leaf (f s : Nat) (a : Word) : (leaf f s).mem a = decide (a.toNat = s) := by
  simp only [mem, syms_leaf, List.mem_singleton]

end CT

/-- A run of equal symbols. -/
theorem occ_run {x : Nat → Word} {k : Nat} {c : Word} (P : Word → Bool) : ∀ (i : Nat), (∀ j, k ≤ j → j < k + i → x j = c) → occ x P (k + i) = occ x P k + if P c then i else 0 := by
  intro i
  induction i with
  | zero => intro _; simp
  | succ i ih =>
    intro h
    rw [← Nat.add_assoc, occ_succ, ih (fun j h1 h2 => h j h1 (by omega)), h (k + i) (by omega) (by omega)]
    cases P c
    · simp
    · simp; omega

theorem setOnes_spec : ∀ (times : Nat) (bv : List Bool) (pos : Nat), pos + times ≤ bv.length →
    ∃ bv', WtPc.setOnes bv pos times = some bv' ∧ bv'.length = bv.length ∧ ∀ q, Bv.bit bv' q = true ↔ Bv.bit bv q = true ∨ (pos ≤ q ∧ q < pos + times) := by
  intro times
  induction times with
  | zero => intro bv pos _; exact ⟨bv, rfl, rfl, fun q => ⟨Or.inl, fun h => h.resolve_right (by omega)⟩⟩
  | succ times ih =>
    intro bv pos h
    rw [WtPc.setOnes, Bv.set_of_lt (by omega), sbind]
    obtain ⟨bv', h1, h2, h3⟩ := ih (bv.set pos true) (pos + 1) (by rw [List.length_set]; omega)
    refine ⟨bv', h1, by rw [h2, List.length_set], ?_⟩
    intro q
    rw [h3, Bv.bit_set (by omega)]
    by_cases hq : q = pos
    · rw [if_pos hq]
      exact ⟨fun _ => Or.inr (by omega), fun _ => Or.inl rfl⟩
    · rw [if_neg hq]
      constructor
      · rintro (h | h)
        · exact Or.inl h
        · exact Or.inr (by omega)
      · rintro (h | h)
        · exact Or.inl h
        · exact Or.inr (by omega)

/-- The nodes that are visited on the way, with the direction taken. -/
def Vis (nodes : List DNode) : Nat → List Bool → Nat → Bool → Prop
  | _, [], _, _ => False
  | v, b :: bs, w, b' => (w = v ∧ b' = b) ∨ ∃ d, nodes[v]? = some d ∧ Vis nodes (d.child b) bs w b'

section

variable {S : Strat} {nodes : List DNode} {ts : List CT}

theorem Stored.vis_ge (h : Stored S nodes ts) : ∀ (bs : List Bool) (v w : Nat) (t u : CT) (b : Bool), ts[v]? = some t → t.sub bs = some u → Vis nodes v bs w b → v ≤ w := by
  intro bs
  induction bs with
  | nil => intro v w t u b _ _ hv; exact absurd hv (by simp [Vis])
  | cons c bs ih =>
    intro v w t u b ht hs hv
    cases t with
    | leaf f s => simp [CT.sub] at hs
    | node l r =>
      rw [CT.sub] at hs
      obtain ⟨d, w', h1, h2, h3, h4, _⟩ := h.child ht c
      rcases hv with ⟨h5, _⟩ | ⟨d', h5, h6⟩
      · omega
      · rw [h1] at h5; cases h5
        rw [h2] at h6
        have := ih w' w _ u b h4 hs h6
        omega

theorem Stored.vis_code (h : Stored S nodes ts) {c : Nat} : ∀ (t : CT) (v w : Nat) (b : Bool), ts[v]? = some t → t.syms.Nodup → c ∈ t.syms → Vis nodes v (t.code c) w b →
    ∃ l r, ts[w]? = some (.node l r) ∧ c ∈ (CT.node l r).syms ∧ b = decide (c ∈ r.syms) := by
  intro t
  induction t with
  | leaf f s => intro v w b _ _ _ hv; exact absurd hv (by simp [CT.code, Vis])
  | node l r ih1 ih2 =>
    intro v w b ht hn hc hv
    rw [CT.code] at hv
    by_cases hl : c ∈ l.syms
    · rw [if_pos hl] at hv
      rcases hv with ⟨h5, h6⟩ | ⟨d', h5, h6⟩
      · subst h5; subst h6
        exact ⟨l, r, ht, hc, by simp [CT.disj hn hl]⟩
      · obtain ⟨d, w', h1, h2, h3, h4, _⟩ := h.child ht false
        rw [h1] at h5; cases h5
        rw [h2] at h6
        exact ih1 w' w b (by simpa using h4) (CT.nodup_left hn) hl h6
    · rw [if_neg hl] at hv
      have hr : c ∈ r.syms := by rw [CT.syms_node, List.mem_append] at hc; exact hc.resolve_left hl
      rcases hv with ⟨h5, h6⟩ | ⟨d', h5, h6⟩
      · subst h5; subst h6
        exact ⟨l, r, ht, hc, by simp [hr]⟩
      · obtain ⟨d, w', h1, h2, h3, h4, _⟩ := h.child ht true
        rw [h1] at h5; cases h5
        rw [h2] at h6
        exact ih2 w' w b (by simpa using h4) (CT.nodup_right hn) hr h6

theorem vis_of_desc : ∀ (bs cs : List Bool) (v w : Nat) (b : Bool), desc nodes v bs = some w → Vis nodes v (bs ++ b :: cs) w b := by
  intro bs
  induction bs with
  | nil => intro cs v w b h; simp only [desc, Option.some.injEq] at h; exact Or.inl ⟨h.symm, rfl⟩
  | cons c bs ih =>
    intro cs v w b h
    rw [desc] at h
    cases hd : nodes[v]? with
    | none => rw [hd] at h; simp at h
    | some d =>
      rw [hd, Option.bind_some] at h
      exact Or.inr ⟨d, hd, ih cs _ _ _ h⟩

theorem Stored.vis_root (h : Stored S nodes ts) {t : CT} (h0 : ts[0]? = some t) (hn : t.syms.Nodup) {c : Nat} (hc : c ∈ t.syms) (w : Nat) (b : Bool) :
    Vis nodes 0 (t.code c) w b ↔ ∃ l r, ts[w]? = some (.node l r) ∧ c ∈ (CT.node l r).syms ∧ b = decide (c ∈ r.syms) := by
  constructor
  · exact h.vis_code t 0 w b h0 hn hc
  · rintro ⟨l, r, h1, h2, h3⟩
    obtain ⟨bs, u, a1, a2, a3⟩ := h.reach h0 w (List.getElem?_eq_some_iff.1 h1).1
    rw [h1] at a2; cases a2
    rw [CT.code_sub _ _ _ hn a1 c h2, CT.code]
    have hn' : (CT.node l r).syms.Nodup := by
      have := (CT.sub_leaves _ _ _ a1).map (·.1)
      exact this.nodup hn
    by_cases hl : c ∈ l.syms
    · rw [if_pos hl]
      have : b = false := by rw [h3]; simp [CT.disj hn' hl]
      rw [this]
      exact vis_of_desc _ _ _ _ _ a3
    · rw [if_neg hl]
      have hr : c ∈ r.syms := by rw [CT.syms_node, List.mem_append] at h2; exact h2.resolve_left hl
      have : b = true := by rw [h3]; simp [hr]
      rw [this]
      exact vis_of_desc _ _ _ _ _ a3

theorem isPath_tail {p : Word} {b : Bool} {bs : List Bool} (h : ∀ i, i < (b :: bs).length → p.getLsbD i = (b :: bs).getD i false) :
    p.getLsbD 0 = b ∧ ∀ i, i < bs.length → (p >>> 1).getLsbD i = bs.getD i false := by
  refine ⟨by simpa using h 0 (by simp), ?_⟩
  intro i hi
  have := h (i + 1) (by simpa using hi)
  rw [List.getD_cons_succ] at this
  rw [← this, BitVec.getLsbD_ushiftRight, Nat.add_comm]

theorem Stored.insertLoop (h : Stored S nodes ts) {T : PTree} (hT : T.nodes = nodes) {times N : Nat} : ∀ (bs : List Bool) (v : Nat) (t u : CT) (p : Word) (pos : List Nat) (bv : List Bool),
    ts[v]? = some t → t.sub bs = some u → (∀ i, i < bs.length → p.getLsbD i = bs.getD i false) → pos.length = ts.length → bv.length = N →
    (∀ w o, Vis nodes v bs w true → pos[w]? = some o → o + times ≤ N) →
    ∃ pos' bv', WtPc.insertLoop T times bs.length v p pos bv = some (pos', bv') ∧ pos'.length = ts.length ∧ bv'.length = N ∧
      (∀ w b, Vis nodes v bs w b → pos'[w]? = pos[w]?.map (· + times)) ∧ (∀ w, (∀ b, ¬ Vis nodes v bs w b) → pos'[w]? = pos[w]?) ∧
      ∀ q, Bv.bit bv' q = true ↔ Bv.bit bv q = true ∨ ∃ w o, Vis nodes v bs w true ∧ pos[w]? = some o ∧ o ≤ q ∧ q < o + times := by
  intro bs
  induction bs with
  | nil =>
    intro v t u p pos bv _ _ _ hpl hbl _
    refine ⟨pos, bv, rfl, hpl, hbl, ?_, fun _ _ => rfl, ?_⟩
    · intro w b hv; exact absurd hv (by simp [Vis])
    · intro q; simp [Vis]
  | cons b bs ih =>
    intro v t u p pos bv ht hs hp hpl hbl hfit
    cases t with
    | leaf f s => simp [CT.sub] at hs
    | node l r =>
      rw [CT.sub] at hs
      obtain ⟨d, c, h1, h2, h3, h4, _⟩ := h.child ht b
      have hvl : v < pos.length := by rw [hpl]; exact (List.getElem?_eq_some_iff.1 ht).1
      obtain ⟨hp0, hp1⟩ := isPath_tail hp
      have hvo : pos[v]? = some pos[v] := List.getElem?_eq_getElem hvl
      generalize pos[v] = o at hvo
      have hset : ∃ bv1, (if b then WtPc.setOnes bv o times else some bv) = some bv1 ∧ bv1.length = N ∧ ∀ q, Bv.bit bv1 q = true ↔ Bv.bit bv q = true ∨ (b = true ∧ o ≤ q ∧ q < o + times) := by
        cases b
        · exact ⟨bv, rfl, hbl, by simp⟩
        · obtain ⟨bv1, g1, g2, g3⟩ := setOnes_spec times bv o (by rw [hbl]; exact hfit v o (Or.inl ⟨rfl, rfl⟩) hvo)
          exact ⟨bv1, g1, by rw [g2, hbl], by simpa using g3⟩
      obtain ⟨bv1, g1, g2, g3⟩ := hset
      have hch : T.child v b = some c := by rw [PTree.child, hT, h1, Option.map_some, h2]
      have hge : ∀ w b', Vis nodes c bs w b' → w ≠ v := by
        intro w b' hv
        have := h.vis_ge bs c w _ u b' h4 hs hv
        omega
      have hother : ∀ w, w ≠ v → (pos.set v (o + times))[w]? = pos[w]? := by
        intro w hw
        rw [getElem?_set' hvl, if_neg (fun e => hw e.symm)]
      have hvis : ∀ w b', Vis nodes v (b :: bs) w b' ↔ (w = v ∧ b' = b) ∨ Vis nodes c bs w b' := by
        intro w b'
        rw [Vis]
        constructor
        · rintro (hh | ⟨d', q1, q2⟩)
          · exact Or.inl hh
          · rw [h1] at q1; cases q1
            rw [h2] at q2; exact Or.inr q2
        · rintro (hh | hh)
          · exact Or.inl hh
          · exact Or.inr ⟨d, h1, by rw [h2]; exact hh⟩
      obtain ⟨pos', bv', r1, r2, r3, r4, r5, r6⟩ := ih c _ u (p >>> 1) (pos.set v (o + times)) bv1 h4 hs hp1 (by rw [List.length_set, hpl]) g2 (by
        intro w o' hv ho
        rw [hother w (hge w _ hv)] at ho
        exact hfit w o' ((hvis w true).2 (Or.inr hv)) ho)
      refine ⟨pos', bv', ?_, r2, r3, ?_, ?_, ?_⟩
      · rw [List.length_cons, WtPc.insertLoop, hvo, sbind]
        dsimp only
        rw [hp0, g1, Option.bind_some, setList_of_lt hvl, sbind, hch, sbind]
        exact r1
      · intro w b' hv
        rcases (hvis w b').1 hv with ⟨hw, _⟩ | hv'
        · subst hw
          rw [r5 w (fun b' hv => hge w b' hv rfl), getElem?_set' hvl, if_pos rfl, hvo]; rfl
        · rw [r4 w b' hv', hother w (hge w _ hv')]
      · intro w hv
        have hw : w ≠ v := fun hw => hv b ((hvis w b).2 (Or.inl ⟨hw, rfl⟩))
        rw [r5 w (fun b' hv' => hv b' ((hvis w b').2 (Or.inr hv'))), hother w hw]
      · intro q
        rw [r6, g3]
        constructor
        · rintro ((hh | ⟨e, q1, q2⟩) | ⟨w, o', q1, q2, q3⟩)
          · exact Or.inl hh
          · exact Or.inr ⟨v, o, (hvis v true).2 (Or.inl ⟨rfl, e.symm⟩), hvo, q1, q2⟩
          · rw [hother w (hge w _ q1)] at q2
            exact Or.inr ⟨w, o', (hvis w true).2 (Or.inr q1), q2, q3⟩
        · rintro (hh | ⟨w, o', q1, q2, q3⟩)
          · exact Or.inl (Or.inl hh)
          · rcases (hvis w true).1 q1 with ⟨hw, hb⟩ | hv'
            · subst hw
              rw [hvo] at q2; cases q2
              exact Or.inl (Or.inr ⟨hb.symm, q3⟩)
            · exact Or.inr ⟨w, o', hv', by rw [hother w (hge w _ hv')]; exact q2, q3⟩

end

/-! ### Filling the bit vector -/

/-- The first `k` symbols have been inserted. -/
structure Filled (ts : List CT) (x : Nat → Word) (k : Nat) (pos : List Nat) (bv : List Bool) : Prop where
  plen : pos.length = ts.length
  blen : bv.length = start ts ts.length
  pos : ∀ w l r, ts[w]? = some (.node l r) → pos[w]? = some (start ts w + occ x (CT.node l r).mem k)
  bits : ∀ q, Bv.bit bv q = true ↔ ∃ w l r j, ts[w]? = some (.node l r) ∧ j < k ∧ (CT.node l r).mem (x j) = true ∧ r.mem (x j) = true ∧ q = start ts w + occ x (CT.node l r).mem j

section fill

variable {S : Strat} {T : PTree} {t : CT} {ts : List CT} {M n : Nat} {x : Nat → Word}

theorem start_fit (hf : ∀ (w : Nat) (u : CT), ts[w]? = some u → u.freq = occ x u.mem n) {w : Nat} {l r : CT} (hw : ts[w]? = some (.node l r)) :
    start ts (w + 1) = start ts w + occ x (CT.node l r).mem n ∧ start ts (w + 1) ≤ start ts ts.length := by
  refine ⟨?_, start_mono ts (by have := (List.getElem?_eq_some_iff.1 hw).1; omega)⟩
  rw [start_succ hw, ← hf w _ hw]; rfl

theorem Coded.bitPath (h : Coded S T t ts M) {c : Word} (hc : c.toNat ∈ t.syms) : ∃ p, T.bitPath S c = some p ∧ IsPath p (t.code c.toNat) := by
  have hlt := h.lt _ hc
  obtain ⟨p, h1, h2, _⟩ := h.path _ hlt
  refine ⟨p, ?_, h2 hc⟩
  unfold PTree.bitPath
  rw [h1, h.plen]
  simp only [ge_iff_le, show ¬ M ≤ c.toNat by omega, if_false, ite_self]

theorem Coded.insertChar (h : Coded S T t ts M) (hf : ∀ (w : Nat) (u : CT), ts[w]? = some u → u.freq = occ x u.mem n) {c : Word} (hc : c.toNat ∈ t.syms) {k times : Nat} (hk : k + times ≤ n)
    (hrun : ∀ j, k ≤ j → j < k + times → x j = c) {pos : List Nat} {bv : List Bool} (hfi : Filled ts x k pos bv) :
    ∃ pos' bv', WtPc.insertChar S T c pos times bv = some (pos', bv') ∧ Filled ts x (k + times) pos' bv' := by
  obtain ⟨p, p1, p2⟩ := h.bitPath hc
  obtain ⟨f, hs⟩ := CT.sub_code t hc
  have hvr := fun w b => h.stored.vis_root h.root h.nodup hc w b
  obtain ⟨pos', bv', r1, r2, r3, r4, r5, r6⟩ := h.stored.insertLoop rfl (times := times) (N := start ts ts.length) (t.code c.toNat) 0 t _ p pos bv h.root hs p2.bits hfi.plen hfi.blen (by
    intro w o hv ho
    obtain ⟨l, r, g1, g2, g3⟩ := (hvr w true).1 hv
    rw [hfi.pos w l r g1] at ho
    cases ho
    obtain ⟨s1, s2⟩ := start_fit hf g1
    have h2 := occ_run (x := x) (CT.node l r).mem times hrun
    rw [if_pos (by simpa [CT.mem] using g2)] at h2
    have h3 := occ_mono (x := x) (CT.node l r).mem hk
    omega)
  refine ⟨pos', bv', ?_, r2, r3, ?_, ?_⟩
  · rw [WtPc.insertChar, p1, sbind, p2.len]; exact r1
  · intro w l r hw
    have h2 := occ_run (x := x) (CT.node l r).mem times hrun
    by_cases hcm : c.toNat ∈ (CT.node l r).syms
    · rw [if_pos (by simpa [CT.mem] using hcm)] at h2
      rw [r4 w _ ((hvr w _).2 ⟨l, r, hw, hcm, rfl⟩), hfi.pos w l r hw, h2, Option.map_some, Nat.add_assoc]
    · rw [if_neg (by simpa [CT.mem] using hcm)] at h2
      rw [r5 w ?_, hfi.pos w l r hw, h2, Nat.add_zero]
      intro b hv
      obtain ⟨l', r', g1, g2, _⟩ := (hvr w b).1 hv
      rw [hw] at g1; cases g1
      exact hcm g2
  · intro q
    rw [r6, hfi.bits]
    constructor
    · rintro (⟨w, l, r, j, a1, a2, a3⟩ | ⟨w, o, a1, a2, a3, a4⟩)
      · exact ⟨w, l, r, j, a1, by omega, a3⟩
      · obtain ⟨l, r, g1, g2, g3⟩ := (hvr w true).1 a1
        rw [hfi.pos w l r g1] at a2
        cases a2
        have hm : (CT.node l r).mem c = true := by simpa [CT.mem] using g2
        obtain ⟨i, hi⟩ : ∃ i, q = start ts w + occ x (CT.node l r).mem k + i := ⟨q - (start ts w + occ x (CT.node l r).mem k), by omega⟩
        have hx : x (k + i) = c := hrun _ (by omega) (by omega)
        have h2 := occ_run (x := x) (CT.node l r).mem i (fun j h1 h2 => hrun j h1 (by omega))
        rw [if_pos hm] at h2
        refine ⟨w, l, r, k + i, g1, by omega, by rw [hx]; exact hm, ?_, by omega⟩
        rw [hx]
        simpa [CT.mem] using g3.symm
    · rintro ⟨w, l, r, j, a1, a2, a3, a4, a5⟩
      by_cases hj : j < k
      · exact Or.inl ⟨w, l, r, j, a1, hj, a3, a4, a5⟩
      · right
        have hx : x j = c := hrun j (by omega) a2
        rw [hx] at a3 a4
        have h2 := occ_run (x := x) (k := k) (CT.node l r).mem (j - k) (fun j' h1 h2 => hrun j' h1 (by omega))
        rw [if_pos a3, show k + (j - k) = j by omega] at h2
        refine ⟨w, _, (hvr w true).2 ⟨l, r, a1, by simpa [CT.mem] using a3, ?_⟩, hfi.pos w l r a1, by omega, by omega⟩
        simpa [CT.mem] using a4

theorem Coded.fillLoop (h : Coded S T t ts M) (hf : ∀ (w : Nat) (u : CT), ts[w]? = some u → u.freq = occ x u.mem n) (hmem : ∀ j, j < n → (x j).toNat ∈ t.syms) :
    ∀ (xs : List Word) (old : Word) (times k : Nat) (pos : List Nat) (bv : List Bool), Filled ts x k pos bv → k + times + xs.length = n → (∀ i, i < xs.length → xs[i]? = some (x (k + times + i))) →
      (∀ j, k ≤ j → j < k + times → x j = old) → old.toNat ∈ t.syms →
      ∃ bv' pos', WtPc.fillLoop S T xs old times pos bv = some bv' ∧ Filled ts x n pos' bv' := by
  intro xs
  induction xs with
  | nil =>
    intro old times k pos bv hfi hn hxs hrun hold
    rw [List.length_nil, Nat.add_zero] at hn
    rw [WtPc.fillLoop]
    by_cases ht : times > 0
    · rw [if_pos ht]
      obtain ⟨pos', bv', r1, r2⟩ := h.insertChar hf hold (by omega) hrun hfi
      rw [r1, hn] at *
      exact ⟨bv', pos', rfl, r2⟩
    · rw [if_neg ht]
      rw [show k = n by omega] at hfi
      exact ⟨bv, pos, rfl, hfi⟩
  | cons c xs ih =>
    intro old times k pos bv hfi hn hxs hrun hold
    rw [List.length_cons] at hn
    have hx0 : x (k + times) = c := by
      have := hxs 0 (by simp)
      simpa using this.symm
    have hxt : ∀ i, i < xs.length → xs[i]? = some (x (k + times + 1 + i)) := by
      intro i hi
      have := hxs (i + 1) (by simpa using hi)
      rw [List.getElem?_cons_succ] at this
      rw [this]; congr 2; omega
    rw [WtPc.fillLoop]
    by_cases hc : c ≠ old
    · rw [if_pos hc]
      obtain ⟨pos', bv', r1, r2⟩ := h.insertChar hf hold (by omega) hrun hfi
      rw [r1, sbind]
      refine ih c 1 (k + times) pos' bv' r2 (by omega) hxt ?_ (by rw [← hx0]; exact hmem _ (by omega))
      intro j h1 h2
      rw [show j = k + times by omega, hx0]
    · rw [if_neg hc]
      have hco : c = old := Classical.byContradiction hc
      have hrun' : ∀ j, k ≤ j → j < k + (times + 1) → x j = old := by
        intro j h1 h2
        by_cases hj : j < k + times
        · exact hrun j h1 hj
        · rw [show j = k + times by omega, hx0, hco]
      by_cases h64 : times + 1 = 64
      · rw [if_pos h64]
        obtain ⟨pos', bv', r1, r2⟩ := h.insertChar hf hold (by omega) hrun' hfi
        rw [r1, sbind]
        refine ih old 0 (k + (times + 1)) pos' bv' r2 (by omega) ?_ (fun j h1 h2 => by omega) hold
        intro i hi
        rw [hxt i hi]; congr 2
      · rw [if_neg h64]
        exact ih old (times + 1) k pos bv hfi (by omega) (fun i hi => by rw [hxt i hi]; congr 2) hrun' hold

/-- The bits of an inner node. -/
theorem Filled.node (hf : ∀ (w : Nat) (u : CT), ts[w]? = some u → u.freq = occ x u.mem n) {pos : List Nat} {bv : List Bool} (hfi : Filled ts x n pos bv) {w : Nat} {l r : CT}
    (hw : ts[w]? = some (.node l r)) : Node bv x n (CT.node l r).mem r.mem (start ts w) := by
  obtain ⟨s1, s2⟩ := start_fit hf hw
  refine ⟨by rw [hfi.blen]; omega, ?_⟩
  intro j hj hm
  rw [Bool.eq_iff_iff, hfi.bits]
  constructor
  · rintro ⟨w', l', r', j', a1, a2, a3, a4, a5⟩
    obtain ⟨s1', s2'⟩ := start_fit hf a1
    have o1 := occ_lt (x := x) hj hm
    have o2 := occ_lt (x := x) a2 a3
    have hww : w = w' := by
      rcases Nat.lt_trichotomy w w' with hlt | he | hgt
      · have := start_mono ts (show w + 1 ≤ w' from hlt); omega
      · exact he
      · have := start_mono ts (show w' + 1 ≤ w from hgt); omega
    subst hww
    rw [hw] at a1; cases a1
    have hjj : j = j' := by
      rcases Nat.lt_trichotomy j j' with hlt | he | hgt
      · have := occ_lt (x := x) hlt hm; omega
      · exact he
      · have := occ_lt (x := x) hgt a3; omega
    subst hjj
    exact a4
  · intro hr
    exact ⟨w, l, r, j, hw, hj, hm, hr, rfl⟩

/-- The frequencies of the subtrees. -/
theorem freq_occ : ∀ (u : CT), u.syms.Nodup → (∀ s f, (s, f) ∈ u.leaves → f = occ x (fun a => decide (a.toNat = s)) n) → u.freq = occ x u.mem n := by
  intro u
  induction u with
  | leaf f s =>
    intro _ h
    rw [CT.freq, h s f (by simp [CT.leaves])]
    exact occ_congr (fun j _ => (CT.mem_leaf f s _).symm)
  | node l r ih1 ih2 =>
    intro hn h
    rw [CT.freq, ih1 (CT.nodup_left hn) (fun s f hm => h s f (by rw [CT.leaves]; exact List.mem_append_left _ hm)),
      ih2 (CT.nodup_right hn) (fun s f hm => h s f (by rw [CT.leaves]; exact List.mem_append_right _ hm)), occ_split (CT.node l r).mem r.mem, Nat.add_comm]
    congr 1
    · exact occ_congr (fun j _ => (CT.mem_right _).symm)
    · exact occ_congr (fun j _ => (CT.mem_left hn _).symm)

theorem Stored.freqs {nodes : List DNode} (h : Stored S nodes ts) (h0 : ts[0]? = some t) (hn : t.syms.Nodup) (hl : ∀ s f, (s, f) ∈ t.leaves → f = occ x (fun a => decide (a.toNat = s)) n) :
    ∀ (w : Nat) (u : CT), ts[w]? = some u → u.freq = occ x u.mem n := by
  intro w u hw
  obtain ⟨bs, u', a1, a2, a3⟩ := h.reach h0 w (List.getElem?_eq_some_iff.1 hw).1
  rw [hw] at a2; cases a2
  have hsub := CT.sub_leaves _ _ _ a1
  have hn' : u.syms.Nodup := by
    have := hsub.map (·.1)
    exact this.nodup hn
  exact freq_occ u hn' (fun s f hm => hl s f (hsub.subset hm))

theorem initRanks_spec {bv : List Bool} : ∀ (nodes : List DNode), (∀ d ∈ nodes, d.bvPos ≤ bv.length) → ∃ nodes', PTree.initRanks S bv nodes = some nodes' ∧ nodes'.length = nodes.length ∧
    ∀ (j : Nat) (d : DNode), nodes[j]? = some d → nodes'[j]? = some (if d.child0 ≠ S.undef then { d with bvRank := Bv.cnt true bv d.bvPos } else d) := by
  intro nodes
  induction nodes with
  | nil => intro _; exact ⟨[], rfl, rfl, fun j d h => by simp at h⟩
  | cons d nodes ih =>
    intro h
    obtain ⟨nodes', h1, h2, h3⟩ := ih (fun e he => h e (List.mem_cons_of_mem _ he))
    refine ⟨(if d.child0 ≠ S.undef then { d with bvRank := Bv.cnt true bv d.bvPos } else d) :: nodes', ?_, by simp [h2], ?_⟩
    · rw [PTree.initRanks, Bv.rank_of_le (h d (by simp)), h1]
      by_cases hc : d.child0 ≠ S.undef
      · rw [if_pos hc, if_pos hc]; rfl
      · rw [if_neg hc, if_neg hc]; rfl
    · intro j e he
      cases j with
      | zero => rw [List.getElem?_cons_zero] at he ⊢; cases he; rfl
      | succ j => rw [List.getElem?_cons_succ] at he ⊢; exact h3 j e he

end fill

end Sdsl.Wt
