/-
  Construction of `wt_pc`.
-/
import Verif.WtPcFill
import Verif.WtList
import Mathlib.Data.List.Perm.Subperm
import Mathlib.Data.List.Nodup

namespace Sdsl.Wt

open CT Spec

/-- A shape builds a code tree over the symbols that occur; `lex` shapes keep the order of the symbols. -/
structure Shape.Ok (sh : Shape) (Q : CT → Prop) : Prop where
  tree : ∀ C, present C 0 ≠ [] → 2 * (present C 0).length < 2 ^ 64 → ∃ temp t, sh.tree C = some temp ∧ Rep temp t (temp.length - 1) ∧ t.size = temp.length ∧ t.leaves.Perm (present C 0) ∧
    (sh.lex = true → t.leaves = present C 0) ∧ Q t

theorem Huff.ok : Huff.shape.Ok Huff.Best := by
  constructor
  intro C h1 h2
  obtain ⟨temp, t, a1, a2, a3, a4, a5⟩ := Huff.tree_spec h1
  exact ⟨temp, t, a1, a2, a3, a4, fun h => by simp [Huff.shape] at h, a5⟩

theorem Blcd.ok : Blcd.shape.Ok Blcd.Flat := by
  constructor
  intro C h1 h2
  obtain ⟨temp, t, a1, a2, a3, a4, a5⟩ := Blcd.tree_spec h1 h2
  exact ⟨temp, t, a1, a2, a3, by rw [a4], fun _ => a4, a5⟩

/-! ### Counting -/

theorem countLoop_spec : ∀ (xs : List Word) (C : List Nat), (∀ c ∈ xs, c.toNat < 2 ^ 64 - 1) →
    ∃ C', WtPc.countLoop xs C = some C' ∧ ∀ s, C'.getD s 0 = C.getD s 0 + xs.countP (fun c => decide (c.toNat = s)) := by
  intro xs
  induction xs with
  | nil => intro C _; exact ⟨C, rfl, fun s => rfl⟩
  | cons c xs ih =>
    intro C h
    have hc := h c (by simp)
    rw [WtPc.countLoop]
    rw [Nat.mod_eq_of_lt (show c.toNat + 1 < 2 ^ 64 by omega)]
    generalize hC1 : (if c.toNat ≥ C.length then C.take (c.toNat + 1) ++ List.replicate (c.toNat + 1 - C.length) 0 else C) = C1
    have hlen : c.toNat < C1.length := by
      rw [← hC1]
      by_cases hg : c.toNat ≥ C.length
      · rw [if_pos hg, List.length_append, List.length_take, List.length_replicate]; omega
      · rw [if_neg hg]; omega
    have hget : ∀ s, C1.getD s 0 = C.getD s 0 := by
      intro s
      rw [← hC1]
      by_cases hg : c.toNat ≥ C.length
      · rw [if_pos hg, List.take_of_length_le (by omega)]
        rw [List.getD_eq_getElem?_getD, List.getD_eq_getElem?_getD]
        rcases Nat.lt_or_ge s C.length with hs | hs
        · rw [List.getElem?_append_left hs]
        · rw [List.getElem?_append_right hs, List.getElem?_eq_none hs, List.getElem?_replicate]
          split <;> rfl
      · rw [if_neg hg]
    rw [List.getElem?_eq_getElem hlen, sbind, setList_of_lt hlen, sbind]
    obtain ⟨C', h1, h2⟩ := ih (C1.set c.toNat (C1[c.toNat] + 1)) (fun d hd => h d (List.mem_cons_of_mem _ hd))
    refine ⟨C', h1, ?_⟩
    intro s
    rw [h2, List.countP_cons, ← hget s]
    rw [List.getD_eq_getElem?_getD, getElem?_set' hlen, List.getD_eq_getElem?_getD]
    by_cases hs : c.toNat = s
    · subst hs
      rw [if_pos rfl, List.getElem?_eq_getElem hlen]
      simp; omega
    · rw [if_neg hs]
      simp [hs]

/-- `wt_pc` holds the sequence `xs`; `ct` is the code tree, `ts` its nodes in BFS order. -/
structure PcOk (t : WtPc) (xs : List Word) (ct : CT) (ts : List CT) (M : Nat) : Prop where
  coded : Coded t.S t.tree ct ts M
  dfs : t.S.dfs = false
  node : ∀ w l r, ts[w]? = some (.node l r) → Node t.bv (fun j => xs.getD j 0#64) xs.length (CT.node l r).mem r.mem (start ts w)
  rank : ∀ w l r, ts[w]? = some (.node l r) → ∃ d, t.tree.nodes[w]? = some d ∧ d.bvRank = Bv.cnt true t.bv (start ts w)
  freq : ∀ (w : Nat) (u : CT), ts[w]? = some u → u.freq = occ (fun j => xs.getD j 0#64) u.mem xs.length
  blen : t.bv.length = start ts ts.length
  size : t.size = xs.length
  sigma : t.sigma = ct.syms.length
  mem : ∀ s, s ∈ ct.syms ↔ ∃ a ∈ xs, a.toNat = s
  lex : t.lex = true → ct.syms.Pairwise (· < ·)
  small : ∀ s ∈ ct.syms, if t.S.byte then s < 256 else s < 2 ^ 56

theorem Stored.ranks {S : Strat} {bv : List Bool} {nodes nodes' : List DNode} {ts : List CT} (h : Stored S nodes ts) (h2 : nodes'.length = nodes.length)
    (h3 : ∀ (j : Nat) (d : DNode), nodes[j]? = some d → nodes'[j]? = some (if d.child0 ≠ S.undef then { d with bvRank := Bv.cnt true bv d.bvPos } else d)) : Stored S nodes' ts := by
  have hex : ∀ (j : Nat) (d : DNode), nodes[j]? = some d → ∃ d', nodes'[j]? = some d' ∧ d'.bvPos = d.bvPos ∧ d'.parent = d.parent ∧ d'.child0 = d.child0 ∧ d'.child1 = d.child1 ∧
      (d.child0 = S.undef → d'.bvRank = d.bvRank) := by
    intro j d hd
    refine ⟨_, h3 j d hd, ?_⟩
    by_cases hc : d.child0 ≠ S.undef
    · rw [if_pos hc]; exact ⟨rfl, rfl, rfl, rfl, fun he => absurd he hc⟩
    · rw [if_neg hc]; exact ⟨rfl, rfl, rfl, rfl, fun _ => rfl⟩
  constructor
  · rw [h2, h.len]
  · intro j t ht
    obtain ⟨d, a1, a2, a3⟩ := h.done j t ht
    obtain ⟨d', b1, b2, b3, b4, b5, b6⟩ := hex j d a1
    refine ⟨d', b1, by rw [b2, a2], ?_⟩
    cases t with
    | leaf f s => exact ⟨by rw [b6 a3.2, a3.1], by rw [b4, a3.2]⟩
    | node l r =>
      obtain ⟨c1, c2, c3, c4, c5, ⟨e, e1, e2⟩, ⟨g, g1, g2⟩⟩ := a3
      obtain ⟨e', e3, _, e4, _⟩ := hex _ e e1
      obtain ⟨g', g3, _, g4, _⟩ := hex _ g g1
      unfold DoneD
      dsimp only
      rw [b4, b5]
      exact ⟨c1, c2, c3, c4, c5, ⟨e', e3, by rw [e4, e2]⟩, ⟨g', g3, by rw [g4, g2]⟩⟩
  · intro j h0 hj
    obtain ⟨d, p, a1, a2, a3, a4, a5⟩ := h.par j h0 hj
    obtain ⟨d', b1, _, b3, _⟩ := hex j d a1
    obtain ⟨p', c1, _, _, c4, c5, _⟩ := hex _ p a3
    exact ⟨d', p', b1, by rw [b3]; exact a2, by rw [b3]; exact c1, by rw [c4]; exact a4, by rw [c4, c5]; exact a5⟩

theorem length_le_of_lt {l : List Nat} {m : Nat} (hn : l.Nodup) (h : ∀ s ∈ l, s < m) : l.length ≤ m := by
  have : l.Subperm (List.range m) := hn.subperm (fun s hs => List.mem_range.2 (h s hs))
  simpa using this.length_le

/-- The construction either throws because a code is longer than 56 or builds a tree for the sequence. -/
theorem new_spec {S : Strat} {sh : Shape} {Q : CT → Prop} (hsh : sh.Ok Q) (hS : S.dfs = false) {buf : List Word} {size : Nat} (h0 : 0 < size) (hsz : size ≤ buf.length)
    (hb : ∀ a ∈ buf.take size, if S.byte then a.toNat < 256 else a.toNat < 2 ^ 56) :
    ∃ (C : List Nat) (temp : List PcNode) (ct : CT), sh.tree C = some temp ∧ Rep temp ct (temp.length - 1) ∧ ct.size = temp.length ∧ ct.leaves.Perm (present C 0) ∧ Q ct ∧ ct.leaves.length ≤ 2 ^ 56 ∧
      (∀ s f, (s, f) ∈ ct.leaves ↔ f = (buf.take size).countP (fun a => decide (a.toNat = s)) ∧ 0 < f) ∧
      (((∃ s ∈ ct.syms, 56 < (ct.code s).length) ∧ WtPc.new S sh buf size = some (.error "Code depth greater than 56!!!")) ∨
        ∃ t ts M, WtPc.new S sh buf size = some (.ok t) ∧ t.S = S ∧ t.lex = sh.lex ∧ PcOk t (buf.take size) ct ts M) := by
  generalize hxs : buf.take size = xs at *
  have hlen : xs.length = size := by rw [← hxs, List.length_take]; omega
  have hsmall : ∀ a ∈ xs, a.toNat < 2 ^ 56 := by
    intro a ha
    have := hb a ha
    cases hbb : S.byte
    · simpa [hbb] using this
    · simp only [hbb, if_true] at this; omega
  obtain ⟨C, c1, c2⟩ := countLoop_spec xs [] (fun a ha => by have := hsmall a ha; omega)
  have hpres : ∀ s f, (s, f) ∈ present C 0 ↔ f = xs.countP (fun a => decide (a.toNat = s)) ∧ 0 < f := by
    intro s f
    have h2 := c2 s
    rw [List.getD_nil, Nat.zero_add, List.getD_eq_getElem?_getD] at h2
    rw [mem_present, Nat.sub_zero, ← h2]
    cases hcs : C[s]? with
    | none => simp
    | some g => simp; intro _; constructor <;> exact fun h => h.symm
  have hsyms : ∀ s, s ∈ (present C 0).map (·.1) ↔ ∃ a ∈ xs, a.toNat = s := by
    intro s
    rw [List.mem_map]
    constructor
    · rintro ⟨⟨s', f⟩, h1, rfl⟩
      obtain ⟨h2, h3⟩ := (hpres s' f).1 h1
      rw [h2] at h3
      obtain ⟨a, ha, hp⟩ := List.countP_pos_iff.1 h3
      exact ⟨a, ha, by simpa using hp⟩
    · rintro ⟨a, ha, rfl⟩
      exact ⟨(a.toNat, _), (hpres _ _).2 ⟨rfl, List.countP_pos_iff.2 ⟨a, ha, by simp⟩⟩, rfl⟩
  have hne : present C 0 ≠ [] := by
    intro he
    obtain ⟨a, ha⟩ : ∃ a, a ∈ xs := List.exists_mem_of_length_pos (by omega)
    have := (hsyms a.toNat).2 ⟨a, ha, rfl⟩
    rw [he] at this
    simp at this
  have hpn := present_nodup C 0
  have hpl : (present C 0).length ≤ (if S.byte then 256 else 2 ^ 56) := by
    have := length_le_of_lt hpn (m := if S.byte then 256 else 2 ^ 56) (by
      intro s hs
      obtain ⟨a, ha, rfl⟩ := (hsyms s).1 hs
      have := hb a ha
      cases hbb : S.byte
      · simpa [hbb] using this
      · simpa [hbb] using this)
    simpa using this
  have hpl' : (present C 0).length ≤ 2 ^ 56 := by
    cases hbb : S.byte
    · simpa [hbb] using hpl
    · simp only [hbb, if_true] at hpl; omega
  obtain ⟨temp, ct, t1, t2, t3, t4, t5, t6⟩ := hsh.tree C hne (by omega)
  refine ⟨C, temp, ct, t1, t2, t3, t4, t6, by rw [t4.length_eq]; exact hpl', fun s f => by rw [t4.mem_iff]; exact hpres s f, ?_⟩
  have hsp : ct.syms.Perm ((present C 0).map (·.1)) := t4.map _
  have hnd : ct.syms.Nodup := hsp.nodup_iff.2 hpn
  have hslen : ct.syms.length = (present C 0).length := by rw [hsp.length_eq, List.length_map]
  have hN : temp.length < S.undef := by
    have h1 := ct.size_syms
    unfold Strat.undef
    cases hbb : S.byte
    · simp only [Bool.false_eq_true, if_false]; omega
    · simp only [hbb, if_true] at hpl ⊢; omega
  have hbs : ∀ s ∈ ct.syms, if S.byte then s < 256 else s < 2 ^ 56 := by
    intro s hs
    obtain ⟨a, ha, rfl⟩ := (hsyms s).1 (hsp.mem_iff.1 hs)
    exact hb a ha
  unfold WtPc.new
  rw [if_neg (by omega), if_neg (by omega), hxs]
  dsimp only
  rw [c1, sbind, t1, sbind]
  rcases ptree_new hS hN t2 t3 hnd (fun hbb s hs => by simpa [hbb] using hbs s hs) with ⟨hd, he⟩ | ⟨T, ts, M, hT, hco⟩
  · left
    exact ⟨hd, by rw [he, sbind]; rfl⟩
  · right
    rw [hT, sbind]
    dsimp only
    have hx : ∀ i, i < xs.length → xs[i]? = some (xs.getD i 0#64) := by
      intro i hi
      rw [getD_getElem hi, List.getElem?_eq_getElem hi]
    rw [hx 0 (by omega), sbind]
    have hmemx : ∀ j, j < xs.length → (xs.getD j 0#64).toNat ∈ ct.syms := by
      intro j hj
      rw [getD_getElem hj]
      exact hsp.mem_iff.2 ((hsyms _).2 ⟨_, List.getElem_mem _, rfl⟩)
    have hfr := hco.stored.freqs (x := fun j => xs.getD j 0#64) (n := xs.length) hco.root hnd (by
      intro s f hm
      rw [((hpres s f).1 (t4.mem_iff.1 hm)).1, occ_countP _ (Nat.le_refl _), List.take_length])
    have hpos0 : Filled ts (fun j => xs.getD j 0#64) 0 (T.nodes.map (·.bvPos)) (List.replicate (start ts ts.length) false) := by
      constructor
      · rw [List.length_map, hco.stored.len]
      · rw [List.length_replicate]
      · intro w l r hw
        obtain ⟨d, d1, d2, _⟩ := hco.stored.done w _ hw
        rw [List.getElem?_map, d1, Option.map_some, d2, occ_zero]; rfl
      · intro q
        rw [Bv.bit_replicate]
        constructor
        · intro h; cases h
        · rintro ⟨w, l, r, j, _, h, _⟩; omega
    obtain ⟨bv, pos', f1, f2⟩ := hco.fillLoop hfr hmemx xs (xs.getD 0 0#64) 0 0 _ _ hpos0 (by omega) (fun i hi => by rw [hx i hi]; congr 2; omega) (fun j h1 h2 => by omega) (hmemx 0 (by omega))
    rw [f1, sbind]
    obtain ⟨nodes', r1, r2, r3⟩ := initRanks_spec (S := S) (bv := bv) T.nodes (by
      intro d hd
      obtain ⟨j, hj, hjd⟩ := List.mem_iff_getElem.1 hd
      have hjt : j < ts.length := by rw [← hco.stored.len]; exact hj
      obtain ⟨d', d1, d2, _⟩ := hco.stored.done j _ (List.getElem?_eq_getElem hjt)
      rw [List.getElem?_eq_getElem hj, hjd] at d1
      cases d1
      rw [d2, f2.blen]
      exact start_mono ts (by omega))
    rw [r1, sbind]
    refine ⟨_, ts, M, rfl, rfl, rfl, ?_⟩
    constructor
    · exact ⟨hco.stored.ranks r2 r3, hco.root, hco.size, hco.cost, hco.nodup, hco.small, hco.lt, hco.bound, hco.leaf, hco.depth, hco.plen, hco.path⟩
    · exact hS
    · intro w l r hw
      exact f2.node hfr hw
    · intro w l r hw
      obtain ⟨d, c, d1, _, _, _, _, _, d2, d3⟩ := hco.stored.child hw true
      refine ⟨_, r3 w d d1, ?_⟩
      rw [if_pos d2, d3]
    · exact hfr
    · exact f2.blen
    · exact hlen.symm
    · dsimp only
      rw [hslen, present_length]; rfl
    · intro s
      rw [hsp.mem_iff]; exact hsyms s
    · intro hl
      rw [CT.syms, t5 hl]
      exact present_sorted C 0
    · exact hbs

end Sdsl.Wt
