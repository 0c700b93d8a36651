/-
  C35: the prefix-code wavelet tree `wt_pc`.
-/
import Verif.WtPcSize
import Verif.Props.WtInt

namespace Sdsl.Props

open Wt

/-- The symbols of the strategy: bytes, or integers below `2^56`. -/
def PcSyms (S : Strat) (xs : List Word) : Prop := ∀ a ∈ xs, if S.byte then a.toNat < 256 else a.toNat < 2 ^ 56

/-- The queries that every shape supports. A symbol `c` that is asked for must be a byte for a `byte_tree`; it need not occur. -/
structure PcQueries (t : WtPc) (xs : List Word) : Prop where
  size : t.size = xs.length
  sigma : ∃ l : List Word, l.Nodup ∧ (∀ c, c ∈ l ↔ c ∈ xs) ∧ t.sigma = l.length
  get : ∀ i (h : i < xs.length), t.get i = some xs[i]
  rank : ∀ i c, i ≤ xs.length → (t.S.byte = true → c.toNat < 256) → t.rank i c = some ((xs.take i).count c)
  select : ∀ i c, 0 < i → i ≤ xs.count c → ∃ p, ∃ h : p < xs.length, t.select i c = some p ∧ xs[p] = c ∧ (xs.take p).count c + 1 = i
  absent : ∀ i c, c ∉ xs → (t.S.byte = true → c.toNat < 256) → t.select i c = some xs.length
  inverse : ∀ i (h : i < xs.length), t.inverseSelect i = some ((xs.take i).count xs[i], xs[i])
  interval : ∀ i j, i ≤ j → j ≤ xs.length → ∃ l, t.intervalSymbols i j = some l ∧ l.Pairwise (fun a b => a.1 ≠ b.1) ∧
    ∀ c ri rj, (c, ri, rj) ∈ l ↔ c ∈ (xs.take j).drop i ∧ ri = (xs.take i).count c ∧ rj = (xs.take j).count c
  gte : ∀ c, (t.S.byte = true → c.toNat < 256) →
    (∃ m ∈ xs, t.tree.symbolGte t.S c = some (true, m) ∧ c ≤ m ∧ ∀ y ∈ xs, c ≤ y → m ≤ y) ∨ (t.tree.symbolGte t.S c = some (false, 0#64) ∧ ∀ y ∈ xs, ¬ c ≤ y)
  lte : ∀ c, (t.S.byte = true → c.toNat < 256) →
    (∃ m ∈ xs, t.tree.symbolLte t.S c = some (true, m) ∧ m ≤ c ∧ ∀ y ∈ xs, y ≤ c → y ≤ m) ∨ (t.tree.symbolLte t.S c = some (false, 0#64) ∧ ∀ y ∈ xs, ¬ y ≤ c)

/-- Navigation: `code` is a prefix-free code for the symbols that occur; `path` returns it, a prefix of a code leads to the node of all symbols whose codes start with it, the node of the
    whole code is the leaf of the symbol, and the bit vector has the length of the encoded text. `intersect` is as in C55. -/
def PcNav (t : WtPc) (xs : List Word) (code : Word → List Bool) : Prop :=
  (∀ a ∈ xs, ∀ b ∈ xs, a ≠ b → ¬ code a <+: code b) ∧
  (t.sigma ≠ 1 → ∀ c ∈ xs, t.path c = some ((code c).length, BitVec.ofNat 64 (pathVal (code c)))) ∧
  (∀ c ∈ xs, ∀ bs, bs <+: code c → ∃ v, t.nav.descend t.nav.root bs = some v ∧ (t.nav.isLeaf v = true ↔ bs = code c) ∧ (t.nav.isLeaf v = true → t.nav.sym v = c) ∧
    t.nav.size v = (xs.filter (fun b => decide (bs <+: code b))).length ∧
    ∀ k (hk : k < (xs.filter (fun b => decide (bs <+: code b))).length), t.nav.seq (t.nav.depth + 1) v k = some (xs.filter (fun b => decide (bs <+: code b)))[k]) ∧
  t.bv.length = (xs.map (fun x => (code x).length)).sum ∧
  ∀ (R : List (Nat × Nat)) (k : Nat), (∀ p ∈ R, p.1 ≤ p.2 ∧ p.2 < xs.length) → k ≤ R.length → ∃ out, t.nav.intersect R k = some out ∧ out.Pairwise (fun a b => a.1 ≠ b.1) ∧
    ∀ c f, (c, f) ∈ out ↔ R ≠ [] ∧ (if k = 0 then R.length else k) ≤ (R.filter (fun p => decide (c ∈ slice xs p.1 p.2))).length ∧
      f = (R.map (fun p => (slice xs p.1 p.2).count c)).sum % 2 ^ 64

/-- The queries of a shape that keeps the order of the symbols. -/
structure PcOrdered (t : WtPc) (xs : List Word) : Prop where
  lexCount : ∀ i j c, i ≤ j → j ≤ xs.length → (t.S.byte = true → c.toNat < 256) → t.lexCount i j c =
    some ((xs.take i).count c, ((xs.take j).drop i).countP (fun b => decide (b < c)), ((xs.take j).drop i).countP (fun b => decide (c < b)))
  lexSmaller : ∀ i c, i ≤ xs.length → (t.S.byte = true → c.toNat < 256) → t.lexSmallerCount i c = some ((xs.take i).count c, (xs.take i).countP (fun b => decide (b < c)))
  interval : ∀ i j, i ≤ j → j ≤ xs.length → ∃ l, t.intervalSymbols i j = some l ∧ l.Pairwise (fun a b => a.1 < b.1)
  quantile : xs.length < 2 ^ 64 → ∀ lb rb q, lb ≤ rb → rb < xs.length → q ≤ rb - lb → ∃ c, t.nav.quantileFreq lb rb q = some (c, (slice xs lb rb).count c) ∧
    ∀ s : List Word, s.Perm (slice xs lb rb) → s.Pairwise (· ≤ ·) → s[q]? = some c

section

variable {t : WtPc} {xs : List Word} {ct : CT} {ts : List CT} {M : Nat}

theorem pcQueries (h : PcOk t xs ct ts M) : PcQueries t xs := by
  constructor
  · exact h.size
  · refine ⟨ct.syms.map (BitVec.ofNat 64), ?_, ?_, by rw [List.length_map]; exact h.sigma⟩
    · have hn := h.coded.nodup
      rw [List.Nodup, List.pairwise_map]
      exact List.Pairwise.imp_of_mem (fun ha hb hab he => hab (h.ofNat_inj ha hb he)) hn
    · intro c
      rw [List.mem_map]
      constructor
      · rintro ⟨s, hs, rfl⟩
        rw [← h.mem_iff, ← (h.val hs).1, (h.val hs).2]
        exact hs
      · intro hc
        exact ⟨c.toNat, h.mem_iff.2 hc, by rw [BitVec.ofNat_toNat, BitVec.setWidth_eq]⟩
  · intro i hi
    rw [WtPc.get, h.inverseSelect_spec hi, getD_getElem hi]; rfl
  · intro i c hi hv
    rw [h.rank_spec hi hv, occ_count c hi]
  · intro i c h0 hi
    obtain ⟨j, hj, h5, h6⟩ := exists_occ c xs i h0 hi
    have := h.select_spec hj
    rw [getD_getElem hj, h5, occ_count c (by omega), h6] at this
    exact ⟨j, hj, this, h5, h6⟩
  · intro i c hc hv
    exact h.select_absent hv hc i
  · intro i hi
    rw [h.inverseSelect_spec hi, getD_getElem hi, occ_count _ (by omega)]
  · intro i j hij hj
    obtain ⟨l, h1, h2, h3, h4⟩ := h.intervalSymbols_spec hij hj
    refine ⟨l, h1, h2, ?_⟩
    intro c ri rj
    rw [h4, occ_count c (by omega), occ_count c hj, count_pos_range hij c]
  · intro c hv; exact h.symbolGte_spec hv
  · intro c hv; exact h.symbolLte_spec hv

theorem pcNav (h : PcOk t xs ct ts M) (hn : xs.length < 2 ^ 64) (hl : ∀ s f, (s, f) ∈ ct.leaves ↔ f = xs.countP (fun a => decide (a.toNat = s)) ∧ 0 < f) :
    PcNav t xs (fun c => ct.code c.toNat) := by
  refine ⟨?_, fun hs c hc => h.path_spec hs hc, fun c hc bs hb => h.nav_spec hn hc hb, h.cost_eq hl, ?_⟩
  · intro a ha b hb hab hp
    obtain ⟨u, u1, u2⟩ := CT.sub_prefix ct _ _ (h.mem_iff.2 hb) hp
    obtain ⟨f, u3⟩ := CT.sub_code ct (h.mem_iff.2 ha)
    rw [u3] at u1
    cases u1
    rw [CT.syms_leaf, List.mem_singleton] at u2
    exact hab (BitVec.eq_of_toNat_eq u2.symm)
  · intro R k hR hk
    obtain ⟨out, h1, h2, _, h3⟩ := h.intersect_list hn hR hk
    exact ⟨out, h1, h2, h3⟩

theorem pcOrdered (h : PcOk t xs ct ts M) (hl : t.lex = true) : PcOrdered t xs := by
  constructor
  · intro i j c hij hj hv
    rw [h.lexCount_spec hl hij hj hv, occ_count c (by omega), PcOk.occR, PcOk.occR, occ_countP _ hj, occ_countP _ (by omega), countP_range _ hij, occ_countP _ hj, occ_countP _ (by omega), countP_range _ hij]
  · intro i c hi hv
    rw [h.lexSmaller_spec hl hi hv, occ_count c hi, occ_countP _ hi]
  · intro i j hij hj
    obtain ⟨l, h1, h2, h3, h4⟩ := h.intervalSymbols_spec hij hj
    exact ⟨l, h1, h3 hl⟩
  · intro hn lb rb q e1 e2 e3
    exact h.quantile_list hn hl e1 e2 e3

end

/-- C35 for every shape that builds a code tree over the symbols that occur, BFS order (partial: the alphabet of `PcSyms`, non-empty sequences): the constructor succeeds and the queries answer
    as the sequence does, unless a code is longer than 56, in which case the constructor throws. Missing: DFS order, the empty tree, symbols from `2^56` on (`C35_symbols_undefined`). -/
theorem C35_wt_pc_partial (S : Strat) (sh : Shape) (hsh : sh.Ok (fun _ => True)) (hS : S.dfs = false) (buf : List Word) (size : Nat) (h0 : 0 < size) (hsz : size ≤ buf.length)
    (hb : PcSyms S (buf.take size)) :
    WtPc.new S sh buf size = some (.error "Code depth greater than 56!!!") ∨
      ∃ t, WtPc.new S sh buf size = some (.ok t) ∧ t.S = S ∧ PcQueries t (buf.take size) ∧ (sh.lex = true → PcOrdered t (buf.take size)) := by
  obtain ⟨C, temp, ct, h1, h2, h3, h4, h5, h6, h7, h8⟩ := new_spec hsh hS h0 hsz hb
  rcases h8 with ⟨_, h9⟩ | ⟨t, ts, M, g1, g2, g3, g4⟩
  · exact Or.inl h9
  · exact Or.inr ⟨t, g1, g2, pcQueries g4, fun hl => pcOrdered g4 (g3.trans hl)⟩

/-- C35 for `wt_huff` (`huff_shape`; partial as above): no exception for less than 956722026041 symbols; the queries answer as the sequence does; and the bit vector is as short as
    possible: no prefix-free code encodes the text in fewer bits. -/
theorem C35_huff_partial (S : Strat) (hS : S.dfs = false) (buf : List Word) (size : Nat) (h0 : 0 < size) (hsz : size ≤ buf.length) (hlen : size < 956722026041) (hb : PcSyms S (buf.take size)) :
    ∃ t, WtPc.new S Huff.shape buf size = some (.ok t) ∧ t.S = S ∧ PcQueries t (buf.take size) ∧ (∃ code, PcNav t (buf.take size) code) ∧
      ∀ code : Word → List Bool, (∀ a ∈ buf.take size, ∀ b ∈ buf.take size, a ≠ b → ¬ code a <+: code b) → t.bv.length ≤ ((buf.take size).map (fun x => (code x).length)).sum := by
  obtain ⟨ct, t, ts, M, h1, h2, h3, h4, h5, h6⟩ := huff_new hS h0 hsz hlen hb
  refine ⟨t, h1, h2, pcQueries h4, ⟨_, pcNav h4 (by rw [List.length_take]; omega) h6⟩, ?_⟩
  intro code hc
  exact h4.optimal h6 h5.2 code hc

/-- C35 for `wt_blcd` (`balanced_shape`; partial as above): never an exception, also the queries on the order of the symbols, and no code is longer than `⌈log2 σ⌉`. -/
theorem C35_blcd_partial (S : Strat) (hS : S.dfs = false) (buf : List Word) (size : Nat) (h0 : 0 < size) (hsz : size ≤ buf.length) (hb : PcSyms S (buf.take size)) :
    ∃ t, WtPc.new S Blcd.shape buf size = some (.ok t) ∧ t.S = S ∧ PcQueries t (buf.take size) ∧ PcOrdered t (buf.take size) ∧
      (size < 2 ^ 64 → ∃ code, PcNav t (buf.take size) code ∧ ∀ k, t.sigma ≤ 2 ^ k → ∀ c, (code c).length ≤ k) := by
  obtain ⟨ct, t, ts, M, h1, h2, h3, h4, h5, h6⟩ := blcd_new hS h0 hsz hb
  refine ⟨t, h1, h2, pcQueries h4, pcOrdered h4 h3, fun hn => ⟨_, pcNav h4 (by rw [List.length_take]; omega) h6, ?_⟩⟩
  intro k hk c
  refine Nat.le_trans (CT.code_le_height _ _) (h5 k ?_)
  rw [h4.sigma, CT.syms, List.length_map] at hk
  exact hk

/-- The two shapes of the library that are modelled meet the hypothesis of `C35_wt_pc_partial`. -/
theorem pcShapes : Huff.shape.Ok (fun _ => True) ∧ Blcd.shape.Ok (fun _ => True) := by
  constructor
  · constructor
    intro C h1 h2
    obtain ⟨temp, t, a1, a2, a3, a4, a5, a6⟩ := Huff.ok.tree C h1 h2
    exact ⟨temp, t, a1, a2, a3, a4, a5, trivial⟩
  · constructor
    intro C h1 h2
    obtain ⟨temp, t, a1, a2, a3, a4, a5, a6⟩ := Blcd.ok.tree C h1 h2
    exact ⟨temp, t, a1, a2, a3, a4, a5, trivial⟩

/-- The result of a query on the tree of a sequence. -/
def pcRun {α : Type} (S : Strat) (sh : Shape) (xs : List Word) (f : WtPc → Option α) : Option α :=
  (WtPc.new S sh xs xs.length).bind fun r => match r with | .ok t => f t | .error _ => none

/-- C35 fails for the DFS order of the nodes: in `[3,1,4,1,5,9,2,6,5,3]` five symbols are smaller than 4 and four are greater, but `lex_count` of the balanced shape returns 3 and 6. -/
theorem C35_dfs_order_wrong : pcRun ⟨true, true⟩ Blcd.shape wtSample (fun t => t.lexCount 0 10 4#64) = some (0, 3, 6) ∧
    wtSample.countP (fun b => decide (b < 4#64)) = 5 ∧ wtSample.countP (fun b => decide (4#64 < b)) = 4 := by decide +kernel

/-- C35 fails for the DFS order of the nodes: the root stands for the 10 symbols of the sequence, but its size is 17. -/
theorem C35_dfs_size_wrong : pcRun ⟨true, true⟩ Blcd.shape wtSample (fun t => some (t.nav.size t.nav.root)) = some 17 ∧ wtSample.length = 10 := by decide +kernel

/-- C35 fails for `path`: for a symbol that does not occur, and for the only symbol of a sequence, `bits::rev(path) >> 64` is evaluated. -/
theorem C35_path_undefined : pcRun ⟨true, false⟩ Huff.shape wtSample (fun t => t.path 7#64) = none ∧ pcRun ⟨true, false⟩ Huff.shape [5#64, 5#64] (fun t => t.path 5#64) = none := by decide +kernel

/-- C35 fails for the empty `byte_tree`: the arrays are uninitialised, and `rank`, `select` and `symbol_gte` read them. -/
theorem C35_empty_undefined (sh : Shape) (buf : List Word) : ∃ t, WtPc.new ⟨true, false⟩ sh buf 0 = some (.ok t) ∧ ∀ c : Word, c.toNat < 256 → t.rank 0 c = none ∧ t.select 1 c = none ∧ t.tree.symbolGte t.S c = none := by
  refine ⟨⟨⟨true, false⟩, sh.lex, 0, 0, [], ⟨[], [], []⟩⟩, rfl, ?_⟩
  intro c hc
  refine ⟨rfl, rfl, ?_⟩
  simp only [PTree.symbolGte, if_true]
  obtain ⟨k, hk⟩ : ∃ k, 256 - c.toNat = k + 1 := ⟨255 - c.toNat, by omega⟩
  rw [hk]
  rfl

/-- C35 fails for the symbol `2^64 - 1`: `C.resize(c+1, 0)` empties the table of frequencies, and `++C[c]` writes behind it. -/
theorem C35_symbols_undefined (S : Strat) (sh : Shape) (xs : List Word) : WtPc.new S sh (BitVec.ofNat 64 (2 ^ 64 - 1) :: xs) (xs.length + 1) = none := by
  unfold WtPc.new
  rw [if_neg (by omega), if_neg (by simp)]
  rw [List.take_of_length_le (by simp)]
  have : WtPc.countLoop (BitVec.ofNat 64 (2 ^ 64 - 1) :: xs) [] = none := by
    rw [WtPc.countLoop]
    rfl
  dsimp only
  rw [this]
  rfl

example : PcSyms ⟨true, false⟩ (wtSample.take 10) ∧ PcSyms ⟨false, false⟩ ([5#64, 70000#64, 5#64].take 3) ∧ 0 < 10 ∧ 10 ≤ wtSample.length ∧ 10 < 956722026041 := by
  refine ⟨?_, ?_, by decide, by decide, by decide⟩
  · intro a ha
    simp only [wtSample, List.take, List.mem_cons, List.not_mem_nil, or_false] at ha
    rcases ha with rfl | rfl | rfl | rfl | rfl | rfl | rfl | rfl | rfl | rfl <;> decide
  · intro a ha
    simp only [List.take, List.mem_cons, List.not_mem_nil, or_false] at ha
    rcases ha with rfl | rfl | rfl <;> decide

example : pcRun ⟨true, false⟩ Huff.shape wtSample (fun t => some t.bv.length) = some 28 ∧ pcRun ⟨true, false⟩ Blcd.shape wtSample (fun t => some t.bv.length) = some 29 := by decide +kernel

example : pcRun ⟨true, false⟩ Huff.shape wtSample (fun t => t.select 2 5#64) = some 8 ∧ pcRun ⟨true, false⟩ Huff.shape wtSample (fun t => t.inverseSelect 8) = some (1, 5#64) ∧
    pcRun ⟨true, false⟩ Huff.shape wtSample (fun t => t.rank 9 7#64) = some 0 ∧ pcRun ⟨true, false⟩ Huff.shape wtSample (fun t => t.path 9#64) = some (3, 5#64) := by decide +kernel

example : pcRun ⟨false, false⟩ Blcd.shape wtSample (fun t => t.lexCount 2 9 5#64) = some (0, 3, 2) ∧ pcRun ⟨false, false⟩ Blcd.shape wtSample (fun t => t.lexCount 0 10 7#64) = some (0, 9, 1) ∧
    pcRun ⟨false, false⟩ Blcd.shape wtSample (fun t => t.tree.symbolLte t.S 8#64) = some (true, 6#64) := by decide +kernel

end Sdsl.Props
