/-
  C89: search and extraction on suffix trees (include/sdsl/suffix_tree_algorithm.hpp), for cst_sct3 and cst_sada.

  `Locus At T SA v w cp`: the node `v` and the row `cp` represent the string `w`: the rows `[i..j]` of `v` are those of the suffixes that start with `w`, and `cp` is the row of the suffix that starts with the
  last symbol of one of these occurrences of `w` (0 if `w` is empty). `occs T P` is the number of positions where `P` occurs (Props/Csa).
-/
import Verif.TreeSearchLemmas
import Verif.Props.CstSadaText

namespace Sdsl.Props

open Csa Spec CstSct3 SufTree TreeSearch

/-- `v` is the node `[i..j]` of a `cst_sct3`. -/
def AtSct3 (L : List Nat) (s : CstSct3.Cst) (v : CstSct3.Node) (i j : Nat) : Prop := Valid L (Par s) v ∧ v.i = i ∧ v.j = j

theorem occ_occs {T SA P : List Nat} (hS : IsSA T SA) {x y : Nat} (h : IsOcc T SA P x y) : y + 1 - x = occs T P :=
  interval_count hS (R := fun p => P <+: T.drop p) (by have := h.1; omega) (by have := h.2.1; omega) (fun i hi => by
    rw [← h.2.2 i hi]
    omega)

theorem no_occs {T SA P : List Nat} (hS : IsSA T SA) (h : ∀ k, k < T.length → ¬ P <+: suf T SA k) : occs T P = 0 := by
  rw [← show 0 - 0 = occs T P from interval_count hS (R := fun p => P <+: T.drop p) (Nat.le_refl _) (Nat.zero_le _) (fun i hi => ⟨fun h' => by omega, fun h' => absurd h' (h i hi)⟩)]

theorem treeSearch_spec {N : Type} {t : TreeI N} {At : N → Nat → Nat → Prop} {T SA L : List Nat} {Q : Nat → Prop} {K : CsaI} (ht : TreeOk t At T SA L Q) (hK : CsaIOk K T SA Q) (hL : IsLcpArray T SA L)
    (hn : T.length < 2 ^ 63) {v : N} {w P : List Nat} {cp : Nat} (hl : Locus At T SA v w cp) (hP : ∀ c ∈ P, Q c) :
    ∃ u cp', TreeSearch.forwardSearch t K v w.length P cp = some (occs T (w ++ P), u, cp') ∧ (occs T (w ++ P) ≠ 0 → Locus At T SA u (w ++ P) cp') := by
  have hS := hK.isa'
  rw [TreeSearch.forwardSearch]
  by_cases e : P = []
  · subst e
    obtain ⟨i, j, h1, h2, h3⟩ := hl
    rw [if_pos rfl, ht.size v i j h1, sbind, List.append_nil, occ_occs hS h2]
    exact ⟨v, cp, rfl, fun _ => ⟨i, j, h1, h2, h3⟩⟩
  · rw [if_neg e]
    obtain ⟨g1, g2⟩ := loop_spec ht hK hL (by omega) P v w cp 0 e hl hP
    by_cases hex : ∃ k, k < T.length ∧ w ++ P <+: suf T SA k
    · obtain ⟨k, k1, k2⟩ := hex
      obtain ⟨x, y, hxy, _⟩ := occ_exists hS k1 k2
      obtain ⟨u, cp', u1, u2⟩ := g1 x y hxy
      exact ⟨u, cp', by rw [u1, occ_occs hS hxy], fun _ => u2⟩
    · have hno : ∀ k, k < T.length → ¬ w ++ P <+: suf T SA k := fun k k1 k2 => hex ⟨k, k1, k2⟩
      obtain ⟨u, cp', u1⟩ := g2 hno
      exact ⟨u, cp', by rw [u1, no_occs hS hno], fun h => absurd (no_occs hS hno) h⟩

theorem start_locus {N : Type} {t : TreeI N} {At : N → Nat → Nat → Prop} {T SA L : List Nat} {Q : Nat → Prop} (ht : TreeOk t At T SA L Q) (hT : IsText T) : ∃ r, t.root = some r ∧ Locus At T SA r [] 0 := by
  obtain ⟨r, r1, r2⟩ := ht.root
  have := hT.pos
  exact ⟨r, r1, 0, T.length - 1, r2, ⟨Nat.zero_le _, by omega, fun k hk => ⟨fun _ => List.nil_prefix, fun _ => by omega⟩⟩, by omega, Or.inl ⟨rfl, rfl⟩⟩

theorem sct3_ok {tk : TreeKind} {ak : AlphaKind} {T SA L : List Nat} {s : CstSct3.Cst} {K : CsaI} (h : TreeOf tk ak T SA L s K) : TreeOk (sct3 s K L) (AtSct3 L s) T SA L (SymOk tk ak) := by
  have hl := h.lcp.1
  have hn := fits_len h.fits
  obtain ⟨r, r1, r2, r3, r4⟩ := C62_root (C64_cst h).1
  refine ⟨?_, ⟨r, r1, r2, r3, by omega⟩, ?_, ?_, ?_, ?_, ?_, ?_⟩
  · rintro v _ _ ⟨h1, rfl, rfl⟩
    exact h1.node
  · rintro v _ _ v' _ _ ⟨_, rfl, rfl⟩ ⟨_, rfl, rfl⟩
    simp [sct3, CstSct3.Node.same]
  · rintro v _ _ w ⟨h1, rfl, rfl⟩ hw
    obtain ⟨w', w1, w2⟩ := C64_depth h h1
    rw [label_unique h1.node.1 hw w1]
    exact w2
  · rintro v _ _ ⟨h1, rfl, rfl⟩
    have a1 := h1.node.1
    have a2 := h1.node.2.1
    show some (add64 (sub64 v.j v.i) 1) = _
    rw [sub64_eq a1 (by omega), add64_eq (by omega), show v.j - v.i + 1 = v.j + 1 - v.i by omega]
  · rintro v _ _ ⟨h1, rfl, rfl⟩
    rfl
  · rintro v i c ⟨h1, h2, h3⟩
    exact C64_child_leaf h (by omega) c
  · rintro v _ _ w c ⟨h1, rfl, rfl⟩ hij hw hc
    obtain ⟨g1, g2⟩ := C64_child h h1 hij hw hc
    refine ⟨fun x y ho => ?_, g2⟩
    obtain ⟨u, p, a1, a2, a3, a4, _, a5, a6⟩ := g1 x y ho
    exact ⟨u, p, a1, ⟨a2, a3, a4⟩, a5, a6⟩

theorem sadaTree_ok {tk : TreeKind} {ak : AlphaKind} {T SA L : List Nat} {s : CstSada.Cst} {K : CsaI} (h : SadaTreeOf tk ak T SA L s K) (h1 : 1 < T.length) :
    TreeOk (sada s K L) (NodeAt L s) T SA L (SymOk tk ak) := by
  have hl := h.lcp.1
  have hr := C83_root (C85_cst h).1
  rw [hl] at hr
  obtain ⟨S, D, ok⟩ := (C85_cst h).1.ok
  refine ⟨fun v i j hv => hv.1, ⟨_, rfl, hr⟩, ?_, ?_, ?_, ?_, ?_, ?_⟩
  · intro v i j v' i' j' hv hv'
    show (v == v') = true ↔ _
    rw [beq_iff_eq]
    constructor
    · rintro rfl
      obtain ⟨a1, a2⟩ := C83_bounds (C85_cst h).1 hv
      obtain ⟨b1, b2⟩ := C83_bounds (C85_cst h).1 hv'
      rw [a1] at b1
      rw [a2] at b2
      exact ⟨Option.some.inj b1, Option.some.inj b2⟩
    · rintro ⟨rfl, rfl⟩
      rw [nodeAt_eq ok hv, nodeAt_eq ok hv']
  · intro v i j w hv hw
    obtain ⟨w', w1, w2⟩ := C85_depth h hv h1
    rw [label_unique hv.1.1 hw w1]
    exact w2
  · exact fun v i j hv => C83_leaves (C85_cst h).1 hv
  · exact fun v i j hv => (C83_bounds (C85_cst h).1 hv).1
  · exact fun v i c hv => ⟨_, rfl, C85_child_leaf h hv rfl c⟩
  · intro v i j w c hv hij hw hc
    obtain ⟨g1, g2⟩ := C85_child h hv hij hw hc
    refine ⟨fun x y ho => ?_, fun hno => ?_⟩
    · obtain ⟨u, p, a1, a2, _, a3, a4⟩ := g1 x y ho
      exact ⟨u, p, a1, a2, a3, a4⟩
    · obtain ⟨p, hp⟩ := g2 hno
      exact ⟨_, p, rfl, hp⟩

/-- **C89** `forward_search` on `cst_sct3`: from the place of `w` to the place of `w P`; the result is the number of occurrences of `w P`. The pattern may contain the sentinel. -/
theorem C89_search_sct3 {tk : TreeKind} {ak : AlphaKind} {T SA L : List Nat} {s : CstSct3.Cst} {K : CsaI} (h : TreeOf tk ak T SA L s K) {v : CstSct3.Node} {w P : List Nat} {cp : Nat}
    (hv : Locus (AtSct3 L s) T SA v w cp) (hP : ∀ c ∈ P, SymOk tk ak c) :
    ∃ u cp', TreeSearch.forwardSearch (sct3 s K L) K v w.length P cp = some (occs T (w ++ P), u, cp') ∧ (occs T (w ++ P) ≠ 0 → Locus (AtSct3 L s) T SA u (w ++ P) cp') :=
  treeSearch_spec (sct3_ok h) h.csaOk h.lcp (fits_len h.fits) hv hP

/-- **C89** The search starts at the root, with depth 0 and `char_pos` 0. -/
theorem C89_start_sct3 {tk : TreeKind} {ak : AlphaKind} {T SA L : List Nat} {s : CstSct3.Cst} {K : CsaI} (h : TreeOf tk ak T SA L s K) : ∃ r, s.root = some r ∧ Locus (AtSct3 L s) T SA r [] 0 :=
  start_locus (sct3_ok h) h.text

/-- **C89** (partial: the text is not only the sentinel) `forward_search` on `cst_sada`. -/
theorem C89_search_sada_partial {tk : TreeKind} {ak : AlphaKind} {T SA L : List Nat} {s : CstSada.Cst} {K : CsaI} (h : SadaTreeOf tk ak T SA L s K) (h1 : 1 < T.length) {v : Nat} {w P : List Nat} {cp : Nat}
    (hv : Locus (NodeAt L s) T SA v w cp) (hP : ∀ c ∈ P, SymOk tk ak c) :
    ∃ u cp', TreeSearch.forwardSearch (sada s K L) K v w.length P cp = some (occs T (w ++ P), u, cp') ∧ (occs T (w ++ P) ≠ 0 → Locus (NodeAt L s) T SA u (w ++ P) cp') :=
  treeSearch_spec (sadaTree_ok h h1) h.csaOk h.lcp (fits_len h.fits) hv hP

/-- **C89** The start for `cst_sada`. -/
theorem C89_start_sada {tk : TreeKind} {ak : AlphaKind} {T SA L : List Nat} {s : CstSada.Cst} {K : CsaI} (h : SadaTreeOf tk ak T SA L s K) (h1 : 1 < T.length) : Locus (NodeAt L s) T SA CstSada.Cst.root [] 0 := by
  obtain ⟨r, r1, r2⟩ := start_locus (sadaTree_ok h h1) h.text
  rw [← Option.some.inj r1] at r2
  exact r2

/-- **C89** `extract(cst, v)` of `cst_sct3` is the label of `v`, for every node but the root; for the root it is empty. `ext` is `extract` of the CSA, see C57, C66, C67. -/
theorem C89_extract_sct3 {tk : TreeKind} {ak : AlphaKind} {T SA L : List Nat} {s : CstSct3.Cst} {K : CsaI} (h : TreeOf tk ak T SA L s K) {ext : Nat → Nat → Option (List Nat)}
    (he : ∀ b e, b ≤ e → e < T.length → ext b e = some ((T.drop b).take (e - b + 1))) {v : CstSct3.Node} (hv : Valid L (Par s) v) :
    (¬ (v.i = 0 ∧ v.j + 1 = T.length) → ∃ w, IsLabel T SA v.i v.j w ∧ TreeSearch.extract (sct3 s K L) K ext v = some w) ∧
    (v.i = 0 ∧ v.j + 1 = T.length → TreeSearch.extract (sct3 s K L) K ext v = some []) := by
  have hl := h.lcp.1
  constructor
  · intro hr
    obtain ⟨w, hw⟩ := label_exists (T := T) h.sa hv.node.1 (by have := hv.node.2.1; omega)
    exact ⟨w, hw, TreeSearch.extract_spec (sct3_ok h) h.csaOk h.lcp he (fits_len h.fits) ⟨hv, rfl, rfl⟩ hr hw⟩
  · rintro ⟨e1, e2⟩
    obtain ⟨r, r1, r2⟩ := (sct3_ok h).root
    rw [TreeSearch.extract, r1, sbind, if_pos (((sct3_ok h).same _ _ _ _ _ _ ⟨hv, rfl, rfl⟩ r2).2 ⟨e1, by omega⟩)]
    rfl

/-- **C89** `extract(cst, v)` of `cst_sada`. -/
theorem C89_extract_sada {tk : TreeKind} {ak : AlphaKind} {T SA L : List Nat} {s : CstSada.Cst} {K : CsaI} (h : SadaTreeOf tk ak T SA L s K) (h1 : 1 < T.length) {ext : Nat → Nat → Option (List Nat)}
    (he : ∀ b e, b ≤ e → e < T.length → ext b e = some ((T.drop b).take (e - b + 1))) {v i j : Nat} (hv : NodeAt L s v i j) :
    ∃ w, IsLabel T SA i j w ∧ TreeSearch.extract (sada s K L) K ext v = some w := by
  have hl := h.lcp.1
  have hj := hv.1.2.1
  by_cases hr : i = 0 ∧ j + 1 = T.length
  · obtain ⟨e1, e2⟩ := hr
    obtain ⟨r, r1, r2⟩ := (sadaTree_ok h h1).root
    refine ⟨[], ?_, ?_⟩
    · rw [e1, show j = T.length - 1 by omega]
      exact (root_label h.text h.sa h.lcp h1).1
    · rw [TreeSearch.extract, r1, sbind, if_pos (((sadaTree_ok h h1).same _ _ _ _ _ _ hv r2).2 ⟨e1, by omega⟩)]
      rfl
  · obtain ⟨w, hw⟩ := label_exists (T := T) h.sa hv.1.1 (by omega)
    exact ⟨w, hw, TreeSearch.extract_spec (sadaTree_ok h h1) h.csaOk h.lcp he (fits_len h.fits) hv hr hw⟩

/-- **C89** fails for the other `extract(cst, v, text)`: it has no `return` for nodes other than the root, so that every call for such a node is undefined. -/
theorem C89_extract_to_undefined {N : Type} (t : TreeI N) (K : CsaI) (ext : Nat → Nat → Option (List Nat)) {v r : N} (hr : t.root = some r) (hv : t.same v r = false) : TreeSearch.extractTo t K ext v = none := by
  rw [TreeSearch.extractTo, hr, sbind, if_neg (by rw [hv]; decide)]
  cases t.lb v with
  | none => rfl
  | some l =>
    rw [sbind]
    cases K.sa l with
    | none => rfl
    | some b =>
      rw [sbind]
      cases t.depth v with
      | none => rfl
      | some d =>
        rw [sbind]
        cases ext b (sub64 (add64 b d) 1) with
        | none => rfl
        | some x => rfl

/-- **C89** fails for `cst_sada` and the text `0`: the depth of the only node is 0 instead of 1, and the pattern `0` is not found. -/
theorem C89_sada_one_wrong : sadaTreeRun (.huff true) .byte [0] [0] [0] (fun s K => (TreeSearch.forwardSearch (sada s K [0]) K 0 0 [0] 0).map (·.1)) = some 0 ∧ occs [0] [0] = 1 ∧
    treeRun (.huff true) .byte [0] [0] [0] (fun s K => do let r ← s.root; let x ← TreeSearch.forwardSearch (sct3 s K [0]) K r 0 [0] 0; pure x.1) = some 1 := by decide +kernel

/-- The search for `4 1` in `csaText` (two occurrences), from there for `4 4` (one occurrence, on the edge to a leaf), and for `2` (none); a pattern that ends with the sentinel. -/
example : treeRun (.huff true) .byte csaText csaSA csaLcp (fun s K => do
    let r ← s.root
    let x ← TreeSearch.forwardSearch (sct3 s K csaLcp) K r 0 [4, 1] 0
    let y ← TreeSearch.forwardSearch (sct3 s K csaLcp) K x.2.1 2 [4, 4] x.2.2
    let z ← TreeSearch.forwardSearch (sct3 s K csaLcp) K x.2.1 2 [2] x.2.2
    let e ← TreeSearch.forwardSearch (sct3 s K csaLcp) K r 0 [1, 0] 0
    pure (x.1, y.1, z.1, e.1)) = some (occs csaText [4, 1], occs csaText [4, 1, 4, 4], occs csaText [4, 1, 2], occs csaText [1, 0]) := by decide +kernel

example : sadaTreeRun (.huff true) .byte csaText csaSA csaLcp (fun s K => do
    let x ← TreeSearch.forwardSearch (sada s K csaLcp) K 0 0 [4, 1] 0
    let y ← TreeSearch.forwardSearch (sada s K csaLcp) K x.2.1 2 [4, 4] x.2.2
    let e ← TreeSearch.forwardSearch (sada s K csaLcp) K 0 0 [1, 0] 0
    let l ← TreeSearch.extract (sada s K csaLcp) K (fun b e => some ((csaText.drop b).take (e - b + 1))) x.2.1
    pure (x.1, y.1, e.1, l)) = some (2, 1, 1, [4, 1]) := by decide +kernel

example : occs csaText [4, 1] = 2 ∧ occs csaText [4, 1, 4, 4] = 1 ∧ occs csaText [4, 1, 2] = 0 ∧ occs csaText [1, 0] = 1 := by decide +kernel

end Sdsl.Props
