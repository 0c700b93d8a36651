/-
  C85: cst_sada as a suffix tree of a text: depth, edge, child, sl, wl, sn (include/sdsl/cst_sada.hpp, get_char_pos in
  include/sdsl/suffix_tree_helper.hpp), on top of a csa_wt, csa_sada or csa_bitcompressed.
-/
import Verif.CstSadaText
import Verif.Props.CstSada
import Verif.Props.CstSct3Text

namespace Sdsl.Props

open Csa Spec SufTree
open CstSct3 (CsaI CsaIOk lcp_facts csaWtI)
open CstSada (Cst leaf_node)

/-- `K` is a CSA of the text and `s` the suffix tree constructed for its LCP array, see `SadaOf`. -/
structure SadaTreeOf (tk : TreeKind) (ak : AlphaKind) (T SA L : List Nat) (s : Cst) (K : CsaI) : Prop where
  text : IsText T
  sa : IsSA T SA
  lcp : IsLcpArray T SA L
  fits : Fits tk ak T
  csa : IsCsa tk ak T SA K
  tree : ∃ junk S D, 0 < S ∧ S + 2 < 2 ^ 64 ∧ S % 8 = 0 ∧ 2 ≤ D ∧ 8 * T.length + 8 < 2 ^ 64 ∧ CstSada.new junk L S D = some s

theorem SadaTreeOf.csaOk {tk : TreeKind} {ak : AlphaKind} {T SA L : List Nat} {s : Cst} {K : CsaI} (h : SadaTreeOf tk ak T SA L s K) : CsaIOk K T SA (SymOk tk ak) := isCsa_ok h.text h.sa h.fits h.csa

/-- The tree of the text is a tree for the LCP array, so that all of C82 - C84 applies. -/
theorem C85_cst {tk : TreeKind} {ak : AlphaKind} {T SA L : List Nat} {s : Cst} {K : CsaI} (h : SadaTreeOf tk ak T SA L s K) :
    SadaOf L s ∧ (1 < L.length → ∃ k, 0 < k ∧ k < L.length ∧ L.getD k 0 = 0) := by
  have hl := h.lcp.1
  obtain ⟨g1, g2, g3, g4⟩ := lcp_facts h.text h.sa h.lcp
  obtain ⟨junk, S, D, e3, e4, e5, e6, e7, e8⟩ := h.tree
  exact ⟨⟨g1, junk, S, D, e3, e4, e5, e6, by omega, g3, e8⟩, fun h1 => ⟨1, by omega, h1, g4 h1⟩⟩

/-- **C85** Every text has such a tree, for each of its CSAs (which exist: `C64_csa`). -/
theorem C85_construct (tk : TreeKind) (ak : AlphaKind) {T SA L : List Nat} {K : CsaI} (hT : IsText T) (hS : IsSA T SA) (hL : IsLcpArray T SA L) (hF : Fits tk ak T) (hK : IsCsa tk ak T SA K)
    (hn : 8 * T.length + 8 < 2 ^ 64) (junk : Nat → Word) {S D : Nat} (pS : 0 < S) (bS : S + 2 < 2 ^ 64) (h8 : S % 8 = 0) (hD : 2 ≤ D) :
    ∃ s, CstSada.new junk L S D = some s ∧ SadaTreeOf tk ak T SA L s K := by
  have hl := hL.1
  obtain ⟨f1, f2, f3, f4⟩ := lcp_facts hT hS hL
  obtain ⟨s, e, _⟩ := C82_construct junk L f1 f3 (by omega) (S := S) (D := D) pS bS h8 hD
  exact ⟨s, e, hT, hS, hL, hF, hK, junk, S, D, pS, bS, h8, hD, hn, e⟩

section
variable {tk : TreeKind} {ak : AlphaKind} {T SA L : List Nat} {s : Cst} {K : CsaI} (h : SadaTreeOf tk ak T SA L s K) {v i j : Nat} (hv : NodeAt L s v i j)
include h hv

/-- **C85** `depth` is the length of the label, if the text is not only the sentinel (then it is 0 instead of 1). -/
theorem C85_depth (hn : 1 < T.length) : ∃ w, IsLabel T SA i j w ∧ s.depth L K.sa v = some w.length := by
  have hl := h.lcp.1
  have hj := hv.1.2.1
  have hij := hv.1.1
  obtain ⟨c1, c2⟩ := C85_cst h
  have hp := h.sa.sym_get_lt (i := i) (by omega)
  obtain ⟨g1, g2, -⟩ := C83_depth c1 c2 hv (x := sym SA i) (by omega) (h.csaOk.sa i (by omega))
  obtain ⟨w, hw⟩ := label_exists (T := T) h.sa hij (by omega)
  refine ⟨w, hw, ?_⟩
  rcases Nat.eq_or_lt_of_le hij with e | e
  · rw [g1 e (by omega)]
    rw [← e] at hw
    rw [label_unique (Nat.le_refl _) hw label_leaf, suf_len, hl]
  · obtain ⟨d, d1, d2, d3⟩ := g2 e
    rw [d1, label_len h.sa h.lcp e (by omega) hw d2 d3]

/-- **C85** `edge(v, d)` is the `d`-th symbol of the label. -/
theorem C85_edge {w : List Nat} (hw : IsLabel T SA i j w) {d : Nat} (h1 : 1 ≤ d) (h2 : d ≤ w.length) : s.edge K v d = w[d - 1]? := by
  obtain ⟨S, D, ok⟩ := (C85_cst h).1.ok
  rw [nodeAt_eq ok hv]
  exact ok.edge h.csaOk h.lcp hv.1 hw h1 h2

/-- **C85** `child(v, c)` of an inner node is the child whose suffixes start with the label of `v` and `c`; `char_pos` becomes the row of a suffix of the text that starts with
this `c`. If no suffix starts so, the result is the root. -/
theorem C85_child (hi : i < j) {w : List Nat} (hw : IsLabel T SA i j w) {c : Nat} (hc : SymOk tk ak c) :
    (∀ x y, IsOcc T SA (w ++ [c]) x y → ∃ u p, s.child K L v c = some (u, some p) ∧ NodeAt L s u x y ∧ IsParent L x y i j ∧ p < T.length ∧ ∃ k, x ≤ k ∧ k ≤ y ∧ sym SA p = sym SA k + w.length) ∧
    ((∀ k, k < T.length → ¬ w ++ [c] <+: suf T SA k) → ∃ p, s.child K L v c = some (Cst.root, p)) := by
  obtain ⟨S, D, ok⟩ := (C85_cst h).1.ok
  rw [nodeAt_eq ok hv]
  obtain ⟨g1, g2⟩ := ok.child h.csaOk h.lcp hv.1 hi hw hc
  refine ⟨fun x y ho => ?_, g2⟩
  obtain ⟨p, p1, p2, p3⟩ := g1 x y ho
  exact ⟨_, p, p1, nodeAt_of ok p2, p3⟩

/-- **C85** A leaf has no children. -/
theorem C85_child_leaf (hi : i = j) (c : Nat) : s.child K L v c = some (Cst.root, none) := by
  rw [Cst.child, C83_is_leaf (C85_cst h).1 hv, sbind, decide_eq_true hi, if_pos rfl]

/-- **C85** (partial: not for the leaf of the sentinel) The suffix link `sl(v)` is the node whose label is that of `v` without its first symbol; that of the
root is the root. -/
theorem C85_sl_partial : (i = 0 → j + 1 = L.length → s.sl K v = some v) ∧
    (¬ (i = 0 ∧ j + 1 = L.length) → ¬ (i = 0 ∧ j = 0) → ∃ a w u x y, IsLabel T SA i j (a :: w) ∧ s.sl K v = some u ∧ NodeAt L s u x y ∧ IsLabel T SA x y w) := by
  obtain ⟨S, D, ok⟩ := (C85_cst h).1.ok
  rw [nodeAt_eq ok hv]
  refine ⟨fun h1 h2 => ?_, fun h1 h2 => ?_⟩
  · rw [(ok.root_iff hv.1).2 ⟨h1, h2⟩, Cst.sl, if_pos (show 0 = Cst.root from rfl)]; rfl
  · obtain ⟨a, w, x, y, g1, g2, g3, g4⟩ := ok.sl h.csaOk h.lcp hv.1 h1 h2
    exact ⟨a, w, _, x, y, g1, g2, nodeAt_of ok g3, g4⟩

/-- **C85** `sl(v, n)` is the node whose label is that of `v` without its first `n` symbols (for a leaf: fewer than the length of its suffix). -/
theorem C85_sl_n (hr : ¬ (i = 0 ∧ j + 1 = L.length)) {w : List Nat} (hw : IsLabel T SA i j w) {n : Nat} (hl : n ≤ w.length) (hlf : i = j → n < w.length) :
    ∃ u x y, s.slN K v n = some u ∧ NodeAt L s u x y ∧ IsLabel T SA x y (w.drop n) := by
  obtain ⟨S, D, ok⟩ := (C85_cst h).1.ok
  rw [nodeAt_eq ok hv]
  obtain ⟨x, y, g1, g2, g3⟩ := ok.slN h.csaOk h.lcp hv.1 hr hw hl hlf
  exact ⟨_, x, y, g1, nodeAt_of ok g2, g3⟩

/-- **C85** (partial: `c` is not the sentinel 0) The Weiner link `wl(v, c)` is the node of the suffixes that start with `c` and the label of `v`, or the root if there are none. -/
theorem C85_wl_partial {w : List Nat} (hw : IsLabel T SA i j w) {c : Nat} (hc : SymOk tk ak c) (h0 : c ≠ 0) :
    (∀ x y, IsOcc T SA (c :: w) x y → ∃ u, s.wl K v c = some u ∧ NodeAt L s u x y) ∧ ((∀ k, k < T.length → ¬ c :: w <+: suf T SA k) → s.wl K v c = some Cst.root) := by
  obtain ⟨S, D, ok⟩ := (C85_cst h).1.ok
  rw [nodeAt_eq ok hv]
  obtain ⟨g1, g2⟩ := ok.wl h.csaOk h.lcp hv.1 hw hc h0
  refine ⟨fun x y ho => ?_, g2⟩
  obtain ⟨q1, q2⟩ := g1 x y ho
  exact ⟨_, q1, nodeAt_of ok q2⟩

/-- **C85** `sn` of a leaf is the position of its suffix. -/
theorem C85_sn (hi : i = j) : s.sn K v = some (sym SA i) := by
  obtain ⟨S, D, ok⟩ := (C85_cst h).1.ok
  subst hi
  rw [nodeAt_eq ok hv]
  exact ok.sn h.csaOk h.lcp (CstSada.Nd_lt hv.1)

end

/-- **C85** The claim for `sl` fails for the leaf of the sentinel of every text with another symbol: the label is one symbol, so the result should be the root, but it is
the leaf of the whole text. -/
theorem C85_sl_sentinel_wrong {tk : TreeKind} {ak : AlphaKind} {T SA L : List Nat} {s : Cst} {K : CsaI} (h : SadaTreeOf tk ak T SA L s K) (hn : 1 < T.length) {v : Nat} (hv : NodeAt L s v 0 0) :
    IsLabel T SA 0 0 [0] ∧ ∃ u r, s.sl K v = some u ∧ NodeAt L s u r r ∧ IsLabel T SA r r T ∧ u ≠ Cst.root := by
  have hl := h.lcp.1
  obtain ⟨S, D, ok⟩ := (C85_cst h).1.ok
  have h0 := CstSada.first_row h.csaOk h.lcp
  constructor
  · have e : suf T SA 0 = [0] := by
      rw [suf, h0, drop_cons (by omega), h.text.last, List.drop_eq_nil_of_le (by omega)]
    rw [← e]; exact label_leaf
  · obtain ⟨r, r1, r2, r3⟩ := ok.sl_sentinel h.csaOk h.lcp (by omega)
    rw [nodeAt_eq ok hv]
    refine ⟨_, r, r3, nodeAt_of ok (leaf_node r1), ?_, fun e => ?_⟩
    · have e : suf T SA r = T := by rw [suf, r2, List.drop_zero]
      have := label_leaf (T := T) (SA := SA) (i := r)
      rw [e] at this; exact this
    · have := (ok.root_iff (leaf_node r1)).1 e
      omega

/-- **C85** Weiner links undo suffix links: if the label of `v` is `a w` then `wl(sl(v), a)` is `v`. -/
theorem C85_wl_sl {tk : TreeKind} {ak : AlphaKind} {T SA L : List Nat} {s : Cst} {K : CsaI} (h : SadaTreeOf tk ak T SA L s K) {v i j : Nat} (hv : NodeAt L s v i j) (hr : ¬ (i = 0 ∧ j + 1 = L.length))
    {a : Nat} {w : List Nat} (hw : IsLabel T SA i j (a :: w)) (ha : a ≠ 0) : ∃ u, s.sl K v = some u ∧ s.wl K u a = some v := by
  have hn0 : ¬ (i = 0 ∧ j = 0) := by
    rintro ⟨rfl, rfl⟩
    have hl := h.lcp.1
    have hpos := h.text.pos
    have e : suf T SA 0 = [0] := by
      rw [suf, CstSada.first_row h.csaOk h.lcp, drop_cons (by omega), h.text.last, List.drop_eq_nil_of_le (by omega)]
    have := label_unique (Nat.le_refl _) hw label_leaf
    rw [e, List.cons.injEq] at this
    exact ha this.1
  obtain ⟨a', w', u, x, y, e1, e2, e3, e4⟩ := (C85_sl_partial h hv).2 hr hn0
  have he := label_unique hv.1.1 e1 hw
  rw [List.cons.injEq] at he
  obtain ⟨rfl, rfl⟩ := he
  have ho := node_occ h.text h.sa h.lcp hv.1 hw
  have hsym : SymOk tk ak a' := by
    have hmem : a' ∈ T := List.mem_of_mem_drop ((hw.1 i (Nat.le_refl _) hv.1.1).subset (by simp))
    obtain ⟨f1, f2, f3, _⟩ := h.fits
    exact ⟨by have := f3 a' hmem; omega, fun hh => f1 hh a' hmem⟩
  obtain ⟨z, z1, z2⟩ := (C85_wl_partial h e3 e4 hsym ha).1 _ _ ho
  obtain ⟨_, _, g⟩ := C82_node (C85_cst h).1 hv.1
  exact ⟨u, e2, by rw [z1, g z z2, g v hv]⟩

/-! ### Examples -/

/-- The tree of `T` with density 2 for both samples. -/
def sadaTreeRun {α : Type} (tk : TreeKind) (ak : AlphaKind) (T SA L : List Nat) (f : Cst → CsaI → Option α) : Option α := do
  let (w, A) ← csaWt tk ak T SA
  let S ← saOrder 2 SA
  let a ← isaSampling 2 SA
  let s ← CstSada.new (fun _ => 0xdeadbeef#64) L 8 2
  f s (csaWtI w A S (isaSample 2 a) T.length 4)

/-- **C85** fails for the Weiner links of the sentinel: in the tree of `1 1 0` the Weiner link of the node with label `1` for the symbol 0 is the leaf of the suffix `0`, although `0 1` does
not occur in the text (see `C65_wl_sentinel_wrong`). -/
theorem C85_wl_sentinel_wrong : IsText [1, 1, 0] ∧ IsSA [1, 1, 0] [2, 1, 0] ∧ IsLabel [1, 1, 0] [2, 1, 0] 1 2 [1] ∧ (∀ k, k < 3 → ¬ [0, 1] <+: suf [1, 1, 0] [2, 1, 0] k) ∧
    sadaTreeRun (.huff true) .byte [1, 1, 0] [2, 1, 0] [0, 0, 1] (fun s K => do let v ← s.node 1 2; let w ← s.wl K v 0; pure (← s.lb w, ← s.rb w, w)) = some (0, 0, 1) :=
  ⟨C65_wl_sentinel_wrong.1, C65_wl_sentinel_wrong.2.1, C65_wl_sentinel_wrong.2.2.1, C65_wl_sentinel_wrong.2.2.2.1, by decide +kernel⟩

example : IsText csaText ∧ IsSA csaText csaSA ∧ 8 * csaText.length + 8 < 2 ^ 64 := ⟨csaText_isText, csaSA_isSA, by decide⟩
/-- The node `[8..11]` with label `s`: its child for `i` is `[8..9]`, with label `si` at depth 2; `edge` reads the labels; suffix links and Weiner link; the leaf of the sentinel. -/
example : sadaTreeRun (.huff true) .byte csaText csaSA csaLcp (fun s K => do let v ← s.node 8 11; let w ← s.child K csaLcp v 1; let e ← s.edge K w.1 2; let d ← s.depth csaLcp K.sa w.1; pure (← s.lb w.1, ← s.rb w.1, e, d)) = some (8, 9, 1, 2) := by decide +kernel
example : sadaTreeRun (.huff true) .byte csaText csaSA csaLcp (fun s K => do let v ← s.node 10 11; let u ← s.sl K v; let x ← s.wl K u 4; pure (← s.lb u, ← s.rb u, ← s.lb x, ← s.rb x)) = some (8, 9, 10, 11) := by decide +kernel
example : sadaTreeRun (.huff true) .byte csaText csaSA csaLcp (fun s K => do let v ← s.node 10 11; let u ← s.slN K v 2; let z ← s.node 0 0; let y ← s.sl K z; pure (← s.lb u, ← s.rb u, ← s.sn K y)) = some (1, 4, 0) := by decide +kernel

end Sdsl.Props
