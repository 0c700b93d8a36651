/-
  C64, C65: cst_sct3 as a suffix tree of a text: depth, edge, child, sl, wl (include/sdsl/cst_sct3.hpp, get_char_pos in
  include/sdsl/suffix_tree_helper.hpp), on top of a csa_wt, csa_sada or csa_bitcompressed.
-/
import Verif.CstSct3CsaOps
import Verif.Props.CstSct3
import Verif.Props.CsaPsi

namespace Sdsl.Props

open Csa Spec CstSct3 SufTree

/-- The part of a Psi-based CSA that the tree uses. -/
def psiI (K : PsiCsa) (dens : Nat) : CsaI := ⟨K.psi, K.sa, K.isa, K.rank, K.alpha, dens⟩

/-- `K` is a `csa_wt`, a `csa_sada` or a `csa_bitcompressed` of the text, see C36 - C38, C57, C66, C67. -/
def IsCsa (tk : TreeKind) (ak : AlphaKind) (T SA : List Nat) (K : CsaI) : Prop :=
  (∃ W A S I fuel dens, csaWt tk ak T SA = some (W, A) ∧ IsSaSampling SA S ∧ IsIsaSampling SA I ∧ T.length ≤ fuel + 1 ∧ K = csaWtI W A S I fuel dens) ∨
  (∃ K' dens, IsSada ak T SA K' ∧ K = psiI K' dens) ∨
  ∃ K' dens, newBit ak T SA = some K' ∧ K = psiI K' dens

/-- `K` is a CSA of the text and `s` the suffix tree constructed for its LCP array, see `CstOf`. -/
structure TreeOf (tk : TreeKind) (ak : AlphaKind) (T SA L : List Nat) (s : Cst) (K : CsaI) : Prop where
  text : IsText T
  sa : IsSA T SA
  lcp : IsLcpArray T SA L
  fits : Fits tk ak T
  csa : IsCsa tk ak T SA K
  tree : ∃ W Wfc S D, 2 * T.length ≤ 64 * W ∧ T.length ≤ 64 * Wfc ∧ 0 < S ∧ S + 2 < 2 ^ 64 ∧ S % 8 = 0 ∧ 2 ≤ D ∧ 4 * T.length + 2 < 2 ^ 64 ∧
    CstSct3.new L K.alpha.sigma W Wfc S D = some s

theorem fits_len {tk : TreeKind} {ak : AlphaKind} {T : List Nat} (h : Fits tk ak T) : T.length < 2 ^ 63 := by
  obtain ⟨_, _, _, h4⟩ := h
  have := (TreeKind.bounds_le tk).2.1
  omega

theorem fits_wm {tk : TreeKind} {ak : AlphaKind} {T : List Nat} (h : Fits tk ak T) : Fits .wmInt ak T := by
  have hn := fits_len h
  refine ⟨fun h' => h.1 ?_, h.2.2.1, h.2.2.1, hn⟩
  rcases h' with h' | h' | h' <;> simp_all [TreeKind.isByte]

theorem psiI_ok {K : PsiCsa} {T SA : List Nat} {tk : TreeKind} {ak : AlphaKind} (h : PsiCsaOk K T SA (SymOk .wmInt ak)) (dens : Nat) : CsaIOk (psiI K dens) T SA (SymOk tk ak) := by
  obtain ⟨ps, p1, p2⟩ := h.psi
  have hQ : ∀ c, SymOk tk ak c → SymOk .wmInt ak c := fun c hc => ⟨hc.1, fun h' => hc.2 (by rcases h' with h' | h' | h' <;> simp_all [TreeKind.isByte])⟩
  exact ⟨h.text, h.suf, h.alpha.weaken hQ, fun i hi => ⟨ps i, p2 i hi, p1 i hi⟩, h.sa, h.isa, fun i c hi hc => h.rank i c hi (hQ c hc)⟩

theorem isCsa_ok {tk : TreeKind} {ak : AlphaKind} {T SA : List Nat} {K : CsaI} (hT : IsText T) (hS : IsSA T SA) (hF : Fits tk ak T) (h : IsCsa tk ak T SA K) : CsaIOk K T SA (SymOk tk ak) := by
  have hn := fits_len hF
  rcases h with ⟨W, A, S, I, fuel, dens, e1, e2, e3, e4, rfl⟩ | ⟨K', dens, e1, rfl⟩ | ⟨K', dens, e1, rfl⟩
  · obtain ⟨W', A', g1, g2, _⟩ := csaWt_spec hT hS hF
    rw [g1] at e1
    have := Option.some.inj e1
    rw [Prod.mk.injEq] at this
    obtain ⟨rfl, rfl⟩ := this
    exact csaWtI_ok g2 (saSampling_ok hT hS (by omega) e2) (isaSampling_ok hT hS (by omega) e3) (by omega) e4
  · exact psiI_ok (sada_ok hT hS (fits_wm hF) e1) dens
  · exact psiI_ok (bit_ok hT hS (fits_wm hF) e1) dens

theorem TreeOf.csaOk {tk : TreeKind} {ak : AlphaKind} {T SA L : List Nat} {s : Cst} {K : CsaI} (h : TreeOf tk ak T SA L s K) : CsaIOk K T SA (SymOk tk ak) := isCsa_ok h.text h.sa h.fits h.csa

/-- The tree of the text is a tree for the LCP array, so that all of C62 and C63 applies. -/
theorem C64_cst {tk : TreeKind} {ak : AlphaKind} {T SA L : List Nat} {s : Cst} {K : CsaI} (h : TreeOf tk ak T SA L s K) : CstOf L s ∧ (1 < L.length → ∃ k, 0 < k ∧ k < L.length ∧ L.getD k 0 = 0) := by
  have hl := h.lcp.1
  obtain ⟨g1, g2, g3, g4⟩ := lcp_facts h.text h.sa h.lcp
  obtain ⟨W, Wfc, S, D, e1, e2, e3, e4, e5, e6, e7, e8⟩ := h.tree
  rw [sigma_zeros h.csaOk h.lcp] at e8
  exact ⟨⟨g1, g2, W, Wfc, S, D, by omega, by omega, e3, e4, e5, e6, by omega, g3, e8⟩, fun h1 => ⟨1, by omega, h1, g4 h1⟩⟩

/-- **C64** Every text has such a tree, for each of its CSAs. -/
theorem C64_construct (tk : TreeKind) (ak : AlphaKind) {T SA L : List Nat} {K : CsaI} (hT : IsText T) (hS : IsSA T SA) (hL : IsLcpArray T SA L) (hF : Fits tk ak T) (hK : IsCsa tk ak T SA K) (hn : 4 * T.length + 2 < 2 ^ 64)
    {W Wfc S D : Nat} (hW : 2 * T.length ≤ 64 * W) (hW' : T.length ≤ 64 * Wfc) (pS : 0 < S) (bS : S + 2 < 2 ^ 64) (h8 : S % 8 = 0) (hD : 2 ≤ D) :
    ∃ s, CstSct3.new L K.alpha.sigma W Wfc S D = some s ∧ TreeOf tk ak T SA L s K := by
  have hl := hL.1
  obtain ⟨f1, f2, f3, f4⟩ := lcp_facts hT hS hL
  obtain ⟨s, e, _⟩ := C62_construct L f1 f2 f3 (by omega) (W := W) (Wfc := Wfc) (S := S) (D := D) (by omega) (by omega) pS bS h8 hD
  rw [← sigma_zeros (isCsa_ok hT hS hF hK) hL] at e
  exact ⟨s, e, hT, hS, hL, hF, hK, W, Wfc, S, D, hW, hW', pS, bS, h8, hD, hn, e⟩

/-- **C64** and such CSAs exist: `csa_wt`s for all densities `d1`, `d2` of the samples (`csa_sada`: `C66_construct`; `csa_bitcompressed`: C67). -/
theorem C64_csa (tk : TreeKind) (ak : AlphaKind) {T SA : List Nat} (hT : IsText T) (hS : IsSA T SA) (hF : Fits tk ak T) {d1 d2 : Nat} (h1 : 0 < d1) (h2 : 0 < d2) :
    ∃ w A S a, csaWt tk ak T SA = some (w, A) ∧ saOrder d1 SA = some S ∧ isaSampling d2 SA = some a ∧ IsCsa tk ak T SA (csaWtI w A S (isaSample d2 a) T.length (d1 + d2)) := by
  have hlen := fits_len hF
  obtain ⟨w, A, g1, g2, _⟩ := csaWt_spec hT hS hF
  obtain ⟨S', a1, a2, _⟩ := saOrder_spec hT hS h1 (by omega)
  obtain ⟨a, b1, b2⟩ := isaSampling_spec hT hS h2 (by omega)
  exact ⟨w, A, S', a, g1, a1, b1, Or.inl ⟨w, A, S', _, _, _, g1, Or.inl ⟨d1, h1, a1⟩, Or.inl ⟨d2, a, h2, b1, rfl⟩, by omega, rfl⟩⟩

/-- **C64** The nodes are exactly the intervals of the suffixes that start with some string, and the string can be taken to be the label. -/
theorem C64_nodes {T SA L : List Nat} (hT : IsText T) (hS : IsSA T SA) (hL : IsLcpArray T SA L) (i j : Nat) :
    (IsNode L i j ↔ ∃ w, IsOcc T SA w i j) ∧ (IsNode L i j → ∃ w, IsLabel T SA i j w ∧ IsOcc T SA w i j) := by
  have key : IsNode L i j → ∃ w, IsLabel T SA i j w ∧ IsOcc T SA w i j := by
    intro hn
    have hl := hL.1
    obtain ⟨w, hw⟩ := label_exists (T := T) hS hn.1 (by have := hn.2.1; omega)
    exact ⟨w, hw, node_occ hT hS hL hn hw⟩
  refine ⟨⟨fun hn => ?_, ?_⟩, key⟩
  · obtain ⟨w, _, h⟩ := key hn
    exact ⟨w, h⟩
  · rintro ⟨w, h⟩
    exact occ_node hS hL h

section
variable {tk : TreeKind} {ak : AlphaKind} {T SA L : List Nat} {s : Cst} {K : CsaI} (h : TreeOf tk ak T SA L s K) {v : Node} (hv : Valid L (Par s) v)
include h hv

/-- **C64** `depth` is the length of the label. -/
theorem C64_depth : ∃ w, IsLabel T SA v.i v.j w ∧ s.depth L K.sa v = some w.length := by
  have hl := h.lcp.1
  have hj := hv.node.2.1
  have hij := hv.node.1
  obtain ⟨c1, c2⟩ := C64_cst h
  have hp := h.sa.sym_get_lt (i := v.i) (by omega)
  obtain ⟨g1, g2⟩ := C62_depth c1 c2 hv (x := sym SA v.i) (by omega) (h.csaOk.sa v.i (by omega))
  obtain ⟨w, hw⟩ := label_exists (T := T) h.sa hij (by omega)
  refine ⟨w, hw, ?_⟩
  rcases Nat.eq_or_lt_of_le hij with e | e
  · rw [g1 e]
    rw [← e] at hw
    rw [label_unique (Nat.le_refl _) hw label_leaf, suf_len, hl]
  · obtain ⟨d, d1, d2, d3⟩ := g2 e
    rw [d1, label_len h.sa h.lcp e (by omega) hw d2 d3]

/-- **C64** `edge(v, d)` is the `d`-th symbol of the label. -/
theorem C64_edge {w : List Nat} (hw : IsLabel T SA v.i v.j w) {d : Nat} (h1 : 1 ≤ d) (h2 : d ≤ w.length) : Cst.edge K v d = w[d - 1]? := by
  have hl := h.lcp.1
  have hj := hv.node.2.1
  have hij := hv.node.1
  have hpre := hw.1 v.i (Nat.le_refl _) hij
  have hle := hpre.length_le
  rw [suf_len] at hle
  rw [edge_ok h.csaOk h1 (by omega) (by omega), ← sym_getElem? (by omega), ← List.getElem?_drop]
  obtain ⟨z, hz⟩ : ∃ z, w ++ z = T.drop (sym SA v.i) := hpre
  rw [← hz, List.getElem?_append_left (by omega)]

/-- **C64** `child(v, c)` of an inner node is the child whose suffixes start with the label of `v` and `c`; `char_pos` becomes the row of a suffix of the text that starts with
this `c`. If no suffix starts so, the result is the root. -/
theorem C64_child (hi : v.i < v.j) {w : List Nat} (hw : IsLabel T SA v.i v.j w) {c : Nat} (hc : SymOk tk ak c) :
    (∀ i j, IsOcc T SA (w ++ [c]) i j → ∃ u p, s.child K L v c = some (u, some p) ∧ Valid L (Par s) u ∧ u.i = i ∧ u.j = j ∧ IsParent L u.i u.j v.i v.j ∧ p < T.length ∧
      ∃ k, i ≤ k ∧ k ≤ j ∧ sym SA p = sym SA k + w.length) ∧
    ((∀ k, k < T.length → ¬ w ++ [c] <+: suf T SA k) → ∃ r p, s.root = some r ∧ s.child K L v c = some (r, p)) := by
  obtain ⟨c1, _⟩ := C64_cst h
  obtain ⟨S, D, ok, _⟩ := c1.ok
  obtain ⟨g1, g2⟩ := child_ok h.csaOk h.lcp ok hv hi hw hc
  refine ⟨g1, fun hn => ?_⟩
  obtain ⟨p, hp⟩ := g2 hn
  obtain ⟨r, r1, _⟩ := C62_root c1
  exact ⟨r, p, r1, by rw [hp, r1]; rfl⟩

omit hv in
/-- **C64** A leaf has no children. -/
theorem C64_child_leaf (hi : v.i = v.j) (c : Nat) : ∃ r, s.root = some r ∧ s.child K L v c = some (r, none) := by
  obtain ⟨r, r1, _⟩ := C62_root (C64_cst h).1
  refine ⟨r, r1, ?_⟩
  rw [Cst.child, if_pos (by rw [Cst.isLeaf, beq_iff_eq]; exact hi), r1]; rfl

/-- **C64** The suffix link `sl(v)` is the node whose label is that of `v` without its first symbol; that of the root is the root. -/
theorem C64_sl : (v.i = 0 → v.j + 1 = L.length → s.sl K v = some v) ∧
    (¬ (v.i = 0 ∧ v.j + 1 = L.length) → ∃ a w u, IsLabel T SA v.i v.j (a :: w) ∧ s.sl K v = some u ∧ Valid L (Par s) u ∧ IsLabel T SA u.i u.j w) := by
  obtain ⟨S, D, ok, _⟩ := (C64_cst h).1.ok
  exact sl_ok h.csaOk h.lcp ok hv

/-- **C65** (partial: `c` is not the sentinel 0) The Weiner link `wl(v, c)` is the node of the suffixes that start with `c` and the label of `v`, or the root if there are none. -/
theorem C65_wl_partial {w : List Nat} (hw : IsLabel T SA v.i v.j w) {c : Nat} (hc : SymOk tk ak c) (h0 : c ≠ 0) :
    (∀ i j, IsOcc T SA (c :: w) i j → ∃ u, s.wl K v c = some u ∧ Valid L (Par s) u ∧ u.i = i ∧ u.j = j) ∧ ((∀ k, k < T.length → ¬ c :: w <+: suf T SA k) → s.wl K v c = s.root) := by
  obtain ⟨S, D, ok, _⟩ := (C64_cst h).1.ok
  exact wl_ok h.csaOk h.lcp ok hv hw hc h0

end

/-- **C65** Weiner links undo suffix links: if the label of `v` is `a w` then `wl(sl(v), a)` is `v`. -/
theorem C65_wl_sl {tk : TreeKind} {ak : AlphaKind} {T SA L : List Nat} {s : Cst} {K : CsaI} (h : TreeOf tk ak T SA L s K) {v : Node} (hv : Valid L (Par s) v) (hr : ¬ (v.i = 0 ∧ v.j + 1 = L.length))
    {a : Nat} {w : List Nat} (hw : IsLabel T SA v.i v.j (a :: w)) (ha : a ≠ 0) : ∃ u, s.sl K v = some u ∧ s.wl K u a = some v := by
  obtain ⟨a', w', u, e1, e2, e3, e4⟩ := (C64_sl h hv).2 hr
  have he := label_unique hv.node.1 e1 hw
  rw [List.cons.injEq] at he
  obtain ⟨rfl, rfl⟩ := he
  have ho := node_occ h.text h.sa h.lcp hv.node hw
  have hsym : SymOk tk ak a' := by
    have hmem : a' ∈ T := List.mem_of_mem_drop ((hw.1 v.i (Nat.le_refl _) hv.node.1).subset (by simp))
    obtain ⟨f1, f2, f3, _⟩ := h.fits
    exact ⟨by have := f3 a' hmem; omega, fun hh => f1 hh a' hmem⟩
  obtain ⟨x, x1, x2, x3, x4⟩ := (C65_wl_partial h e3 e4 hsym ha).1 _ _ ho
  exact ⟨u, e2, by rw [x1, x2.ext hv x3 x4]⟩

/-! ### Examples -/

/-- The tree of `T` with density 2 for both samples. -/
def treeRun {α : Type} (tk : TreeKind) (ak : AlphaKind) (T SA L : List Nat) (f : Cst → CsaI → Option α) : Option α := do
  let (w, A) ← csaWt tk ak T SA
  let S ← saOrder 2 SA
  let a ← isaSampling 2 SA
  let s ← CstSct3.new L A.sigma 1 1 8 2
  f s (csaWtI w A S (isaSample 2 a) T.length 4)

/-- **C65** fails for the sentinel: in the tree of `1 1 0` the Weiner link of the node with label `1` for the symbol 0 is the leaf of the suffix `0`, although `0 1` does not occur in the text:
the suffix array is searched as if the text were a cycle. -/
theorem C65_wl_sentinel_wrong : IsText [1, 1, 0] ∧ IsSA [1, 1, 0] [2, 1, 0] ∧ IsLabel [1, 1, 0] [2, 1, 0] 1 2 [1] ∧ (∀ k, k < 3 → ¬ [0, 1] <+: suf [1, 1, 0] [2, 1, 0] k) ∧
    treeRun (.huff true) .byte [1, 1, 0] [2, 1, 0] [0, 0, 1] (fun s K => do let v ← s.node 1 2; let w ← s.wl K v 0; let r ← s.root; pure (w.i, w.j, r.i, r.j)) = some (0, 0, 0, 2) := by
  refine ⟨⟨[1, 1], rfl, by decide⟩, ⟨by decide, by decide⟩, ⟨?_, ?_⟩, by decide, by decide +kernel⟩
  · intro k h1 h2
    have : k = 1 ∨ k = 2 := by omega
    rcases this with rfl | rfl <;> decide
  · intro u hu
    have h1 := (hu 1 (by omega) (by omega)).length_le
    have h2 := hu 1 (by omega) (by omega)
    have h3 := hu 2 (by omega) (by omega)
    have e1 : suf [1, 1, 0] [2, 1, 0] 1 = [1, 0] := rfl
    have e2 : suf [1, 1, 0] [2, 1, 0] 2 = [1, 1, 0] := rfl
    rw [e1] at h2
    rw [e2] at h3
    match u, h2, h3 with
    | [], _, _ => simp
    | [a], _, _ => simp
    | a :: b :: u, h2, h3 =>
      rw [List.cons_prefix_cons, List.cons_prefix_cons] at h2 h3
      omega

/-- The LCP array of `csaText`. -/
def csaLcp : List Nat := [0, 0, 1, 1, 4, 0, 0, 1, 0, 2, 1, 3]

example : IsText csaText ∧ IsSA csaText csaSA ∧ 4 * csaText.length + 2 < 2 ^ 64 ∧ 2 * csaText.length ≤ 64 * 1 := ⟨csaText_isText, csaSA_isSA, by decide, by decide⟩
example : (Lcp.constructKasai csaText ⟨4, csaSA⟩).map (·.xs) = some csaLcp := by decide +kernel
/-- The node `[8..11]` with label `s`: its child for `i` is `[8..9]`, with label `si` at depth 2; `edge` reads the labels; suffix link and Weiner link. -/
example : treeRun (.huff true) .byte csaText csaSA csaLcp (fun s K => do let v ← s.node 8 11; let w ← s.child K csaLcp v 1; let e ← Cst.edge K w.1 2; let d ← s.depth csaLcp K.sa w.1; pure (w.1.i, w.1.j, e, d)) = some (8, 9, 1, 2) := by decide +kernel
example : treeRun (.huff true) .byte csaText csaSA csaLcp (fun s K => do let v ← s.node 10 11; let u ← s.sl K v; let x ← s.wl K u 4; pure (u.i, u.j, x.i, x.j)) = some (8, 9, 10, 11) := by decide +kernel

end Sdsl.Props
