/-
  C68 - C70: the representations of the LCP array: lcp_bitcompressed, lcp_byte, lcp_wt, lcp_support_sada, lcp_support_tree and
  lcp_support_tree2 (include/sdsl/lcp_*.hpp), the last two on top of the suffix tree cst_sct3.
-/
import Verif.LcpTree2
import Verif.Props.CstSct3Text

namespace Sdsl.Props

open Csa Spec CstSct3 LcpRep

/-- **C68** `lcp_bitcompressed<w>` represents every array of values that fit into `w` bits (`w` is clamped to `1..64`, and 0 stands for 64). -/
theorem C68_bitcompressed (L : List Nat) (w : Nat) (hL : ∀ x ∈ L, x < 2 ^ IntVec.clampWidth w) :
    ∃ a, bitNew w L = some a ∧ a.xs.length = L.length ∧ ∀ i (h : i < L.length), a.get i = some L[i] := by
  obtain ⟨a, h1, h2, h3⟩ := copyLoop_spec (L := L) L 0 (Arr.new L.length 0 w) rfl (Nat.zero_le _) (new_len _ _ _) (by rw [new_width]; exact hL) (fun j hj => absurd hj (Nat.not_lt_zero _))
  exact ⟨a, h1, h2, fun i h => by rw [h3 i h, sym_lt h]⟩

/-- **C68** `lcp_byte` represents every array of 64-bit values. -/
theorem C68_byte (L : List Nat) (hL : ∀ x ∈ L, x < 2 ^ 64) (hn : L.length < 2 ^ 64) :
    ∃ s, byteNew L = some s ∧ s.small.xs.length = L.length ∧ ∀ i (h : i < L.length), s.get i = some L[i] := by
  obtain ⟨s, h1, h2, h3⟩ := byte_ok hL hn
  exact ⟨s, h1, h2, fun i h => by rw [h3 i h, sym_lt h]⟩

/-- **C68** `lcp_wt` represents every nonempty array of 64-bit values; the length is bounded as for the Huffman shape (C36). -/
theorem C68_wt (L : List Nat) (hL : ∀ x ∈ L, x < 2 ^ 64) (h0 : L ≠ []) (hn : L.length < 956722026041) :
    ∃ s, wtNew L = some s ∧ s.small.size = L.length ∧ ∀ i (h : i < L.length), s.get i = some L[i] := by
  obtain ⟨s, h1, h2, h3⟩ := wt_ok hL h0 hn
  exact ⟨s, h1, h2, fun i h => by rw [h3 i h, sym_lt h]⟩

theorem isLcp_unique {x y : List Nat} {a b : Nat} (h1 : IsLcp x y a) (h2 : IsLcp x y b) : a = b := by
  obtain ⟨⟨p, p1, p2, p3⟩, h1⟩ := h1
  obtain ⟨⟨q, q1, q2, q3⟩, h2⟩ := h2
  have := h1 q q1 q2
  have := h2 p p1 p2
  omega

theorem lcp_plcp {T SA L : List Nat} (hT : IsText T) (hS : IsSA T SA) (hL : IsLcpArray T SA L) (h1 : 1 < T.length) {r : Nat} (hr : r < T.length) : sym L r = Lcp.plcpOf T SA (sym SA r) := by
  cases r with
  | zero =>
    rw [Lcp.sa_zero hT hS, Lcp.plcp_last hT hS h1, sym, List.getD_eq_getElem?_getD, hL.2.1]; rfl
  | succ r =>
    obtain ⟨l, e1, e2⟩ := hL.2.2 r hr
    rw [Lcp.plcp_sym hS hr, sym, List.getD_eq_getElem?_getD, e1]
    exact isLcp_unique e2 (isLcp_lcp _ _)

/-- **C68** `lcp_support_sada` answers with the LCP array: `lcp` and `isa` are the arrays from which it is constructed, `sa` is the access to the CSA (C36, C57, C66, C67). -/
theorem C68_sada {T SA L : List Nat} (hT : IsText T) (hS : IsSA T SA) (hL : IsLcpArray T SA L) (hn : 2 * T.length < 2 ^ 64) {lcp isa : Arr} (hl : lcp.xs = L) (hi : constructIsa SA = some isa) :
    ∃ data, sadaNew lcp isa = some data ∧ data.length = 2 * T.length - 1 ∧
      ∀ sa : Nat → Option Nat, (∀ i (h : i < SA.length), sa i = some SA[i]) → ∀ i (h : i < L.length), sadaGet sa data i = some L[i] := by
  have hlen := hL.1
  have hSl := hS.length
  have h0 := hT.pos
  obtain ⟨b, b1, b2, b3⟩ := constructIsa_spec hS (by omega)
  obtain rfl := Option.some.inj (b1.symm.trans hi)
  have hsym : ∀ i, i < T.length → L[i]? = some (sym L i) := fun i h => sym_getElem? (by omega)
  obtain ⟨P, hP1, hP2, hP3⟩ : ∃ P : Nat → Nat, (∀ r, r < T.length → sym L r = P (sym SA r)) ∧ (∀ j, j + 1 < T.length → P j ≤ P (j + 1) + 1) ∧ ∀ j, j < T.length → j + P j < T.length := by
    by_cases c : T.length = 1
    · refine ⟨fun _ => 0, fun r hr => ?_, fun _ _ => Nat.zero_le _, fun j hj => hj⟩
      have : r = 0 := by omega
      rw [this, sym, List.getD_eq_getElem?_getD, hL.2.1]; rfl
    · exact ⟨Lcp.plcpOf T SA, fun r hr => lcp_plcp hT hS hL (by omega) hr, fun j hj => Lcp.plcp_step hT hS (by omega) hj, fun j hj => Lcp.plcp_lt hT hS (by omega) hj⟩
  obtain ⟨data, d1, d2, d3⟩ := LcpRep.sada_ok (lcp := lcp) (isa := b) (P := P) (by rw [hl]; omega) (by rw [hl]; omega) (by
    rw [hl, hlen]
    intro j hj
    obtain ⟨r, r1, r2⟩ := hS.surj hj
    refine ⟨r, by rw [← r2]; exact b3 r r1, ?_⟩
    show lcp.xs[r]? = _
    rw [hl, hsym r r1, hP1 r r1, r2]) (by rw [hl, hlen]; exact hP2) (by rw [hl, hlen]; exact hP3)
  refine ⟨data, d1, by rw [d2, hl, hlen], fun sa hsa i h => ?_⟩
  have hi : i < SA.length := by omega
  rw [d3 sa i _ (hsa i hi) (by rw [hl, hlen, ← sym_lt hi]; exact hS.sym_get_lt (by omega)), ← sym_lt hi, ← hP1 i (by omega), sym_lt h]

/-- **C69** `lcp_support_tree`: one value per inner node is stored, and the values for all positions are answered; `t` is any exact representation of the stored values, for example the ones of C68. -/
theorem C69_tree {L : List Nat} {s : Cst} (h : CstOf L s) :
    ∃ a, firstChildLcp L = some a ∧ (1 < L.length → L.length + a.xs.length = s.nodes) ∧
      ∀ t : Nat → Option Nat, (∀ k (h : k < a.xs.length), t k = some a.xs[k]) → ∀ i (h : i < L.length), treeGet t s i = some L[i] := by
  obtain ⟨S, D, ok, hnod⟩ := h.ok
  obtain ⟨W, Wfc, S', D', h1, h2, h3, h4, h5, h6, h7, h8, h9⟩ := h.made
  obtain ⟨a, a1, a2, a3⟩ := tree_ok ok (by omega) h8
  refine ⟨a, a1, fun c => by rw [hnod, if_neg (by omega), a2], fun t ht i hi => ?_⟩
  obtain ⟨k, k1, k2, k3⟩ := a3 i hi
  rw [treeGet, k1, sbind, ht k k2, ← sym_lt hi, ← k3]
  exact (List.getElem?_eq_getElem k2).symm

/-- **C69** with the default `lcp_wt<>`. -/
theorem C69_tree_wt {L : List Nat} {s : Cst} (h : CstOf L s) (hn : L.length < 956722026041) :
    ∃ a t, firstChildLcp L = some a ∧ wtNew a.xs = some t ∧ ∀ i (h : i < L.length), treeGet t.get s i = some L[i] := by
  obtain ⟨S, D, ok, _⟩ := h.ok
  obtain ⟨W, Wfc, S', D', h1, h2, h3, h4, h5, h6, h7, h8, h9⟩ := h.made
  obtain ⟨a, a1, a2, a3⟩ := C69_tree h
  obtain ⟨a', b1, b2, b3⟩ := tree_ok ok (by omega) h8
  obtain rfl := Option.some.inj (a1.symm.trans b1)
  have hle := countTrue_le (bitAt s.fc) L.length
  have hv : ∀ x ∈ a.xs, x < 2 ^ 64 := by
    intro x hx
    obtain ⟨a', c1, c2⟩ := firstChildLcp_ok (vs := L) (by omega) h8
    obtain rfl := Option.some.inj (a1.symm.trans c1)
    rw [c2] at hx
    have := FL_val h8 _ x hx
    omega
  have hne : a.xs ≠ [] := fun e => by
    obtain ⟨k, _, k2, _⟩ := b3 0 h.pos
    rw [e] at k2; exact absurd k2 (Nat.not_lt_zero _)
  obtain ⟨t, t1, _, t3⟩ := C68_wt a.xs hv hne (by omega)
  exact ⟨a, t, a1, t1, fun i hi => a3 t.get t3 i hi⟩

/-- The position cannot be derived from the preceding suffixes, or its value is sampled. -/
def Irr (dens : Nat) (T SA L : List Nat) (i : Nat) : Prop := i = 0 ∨ sym (bwtOf T SA) (i - 1) ≠ sym (bwtOf T SA) i ∨ L.getD i 0 % dens = 0

/-- **C70** (partial) `lcp_support_tree2` answers with the LCP array, provided that among the values of at least 254 that are not followed by a smaller one, equal ones are irreducible only if the first is.
    The missing part is false: `C70_wrong`. -/
theorem C70_tree2_partial {T SA L : List Nat} {s : Cst} {dens : Nat} (hT : IsText T) (hS : IsSA T SA) (hL : IsLcpArray T SA L) (h : CstOf L s) (hd : 0 < dens) (hn : T.length < 956722026041)
    (hE : ∀ b i, b < i → i < L.length → L.getD b 0 = L.getD i 0 → 254 ≤ L.getD i 0 → (∀ k, b < k → k < L.length → L.getD b 0 ≤ L.getD k 0) → Irr dens T SA L i → Irr dens T SA L b) :
    ∃ t, tree2New dens L (bwtOf T SA) = some t ∧ ∀ lf : Nat → Option Nat, (∀ i, i < T.length → ∃ j, lf i = some j ∧ j < T.length ∧ sym SA j = (sym SA i + (T.length - 1)) % T.length) →
      ∀ i f (hi : i < L.length), T.length < f → tree2Get t s lf f i 0 = some L[i] := by
  obtain ⟨S, D, ok, _⟩ := h.ok
  have hE' : EndOk (irrB dens L (bwtOf T SA)) L := by
    intro b i hb hi e1 e2 e3 e4
    rw [irrB, decide_eq_true_iff] at e4 ⊢
    exact ⟨by rw [e1]; exact e2, hE b i hb hi e1 e2 e3 e4.2⟩
  obtain ⟨t, t1, _⟩ := tree2_ok (lf := fun i => if i < T.length then some (SA.idxOf (prv T.length (sym SA i))) else none) hT hS hL ok hd hn hE' (by
    intro i hi
    obtain ⟨r, r1, r2⟩ := hS.surj (prv_lt (n := T.length) (p := sym SA i) hT.pos)
    exact ⟨r, by rw [if_pos hi, ← r2, Lcp.idxOf_sym hS r1], r1, r2⟩)
  refine ⟨t, t1, fun lf hlf i f hi hf => ?_⟩
  obtain ⟨t', t2, t3⟩ := tree2_ok hT hS hL ok hd hn hE' hlf
  obtain rfl := Option.some.inj (t1.symm.trans t2)
  rw [t3 i f (by rw [← hL.1]; exact hi) hf, Sct.val, List.getElem?_eq_getElem hi]; rfl

/-- **C70** (partial) in particular if the last value of the LCP array is smaller than 254. -/
theorem C70_tree2_last_partial {T SA L : List Nat} {s : Cst} {dens : Nat} (hT : IsText T) (hS : IsSA T SA) (hL : IsLcpArray T SA L) (h : CstOf L s) (hd : 0 < dens) (hn : T.length < 956722026041)
    (hE : L.getD (L.length - 1) 0 < 254) :
    ∃ t, tree2New dens L (bwtOf T SA) = some t ∧ ∀ lf : Nat → Option Nat, (∀ i, i < T.length → ∃ j, lf i = some j ∧ j < T.length ∧ sym SA j = (sym SA i + (T.length - 1)) % T.length) →
      ∀ i f (hi : i < L.length), T.length < f → tree2Get t s lf f i 0 = some L[i] := by
  refine C70_tree2_partial hT hS hL h hd hn (fun b i hb hi e1 e2 e3 _ => ?_)
  have := e3 (L.length - 1) (by omega) (by omega)
  omega

/-- Values above and below 255, which `lcp_byte` and `lcp_wt` store in different places. -/
def exVals : List Nat := [0, 3, 255, 254, 1000, 0, 256, 1000]

example : (∀ x ∈ exVals, x < 2 ^ IntVec.clampWidth 10) ∧ (∀ x ∈ exVals, x < 2 ^ 64) ∧ exVals ≠ [] ∧ exVals.length < 956722026041 := by decide
example : (byteNew exVals).bind (fun s => (List.range 8).mapM s.get) = some exVals := by decide +kernel
example : (wtNew exVals).bind (fun s => (List.range 8).mapM s.get) = some exVals := by decide +kernel
example : (bitNew 10 exVals).bind (fun s => (List.range 8).mapM s.get) = some exVals := by decide +kernel
example : IsText csaText ∧ IsSA csaText csaSA ∧ 2 * csaText.length < 2 ^ 64 := ⟨csaText_isText, csaSA_isSA, by decide⟩
example : (do let isa ← constructIsa csaSA; let d ← sadaNew ⟨4, csaLcp⟩ isa; (List.range 12).mapM (sadaGet (fun i => csaSA[i]?) d)) = some csaLcp := by decide +kernel
example : (do let s ← CstSct3.new exL 4 1 1 8 2; let a ← firstChildLcp exL; let t ← wtNew a.xs; (List.range 12).mapM (treeGet t.get s)) = some exL := by decide +kernel
example : (do let t ← tree2New 16 csaLcp (bwtOf csaText csaSA); treeRun (.huff true) .byte csaText csaSA csaLcp (fun s _ => (List.range 12).mapM fun i => tree2Get t s (fun _ => none) 13 i 0)) = some csaLcp := by decide +kernel
example : csaLcp.getD (csaLcp.length - 1) 0 < 254 := by decide

/-! ### A text for which `lcp_support_tree2` is wrong -/

/-- `x` is smaller than `y`, and their longest common prefix has length `l`. -/
def cmpLcp : List Nat → List Nat → Nat → Bool
  | a :: x, b :: y, l => if a = b then l != 0 && cmpLcp x y (l - 1) else decide (a < b) && l == 0
  | [], _ :: _, l => l == 0
  | _, [], _ => false

theorem cmpLcp_spec : ∀ {x y : List Nat} {l : Nat}, cmpLcp x y l = true → x < y ∧ Lcp.lcp x y = l
  | a :: x, b :: y, l, h => by
    rw [cmpLcp] at h
    rw [Lcp.lcp]
    by_cases e : a = b
    · rw [if_pos e] at h ⊢
      simp only [Bool.and_eq_true, bne_iff_ne, ne_eq] at h
      obtain ⟨h1, h2⟩ := cmpLcp_spec h.2
      exact ⟨by rw [List.cons_lt_cons_iff]; exact Or.inr ⟨e, h1⟩, by omega⟩
    · rw [if_neg e] at h ⊢
      simp only [Bool.and_eq_true, decide_eq_true_eq, beq_iff_eq] at h
      exact ⟨by rw [List.cons_lt_cons_iff]; exact Or.inl h.1, h.2.symm⟩
  | [], b :: y, l, h => by
    rw [cmpLcp, beq_iff_eq] at h
    exact ⟨List.nil_lt_cons _ _, by rw [h]; rfl⟩
  | [], [], l, h => by simp [cmpLcp] at h
  | a :: x, [], l, h => by simp [cmpLcp] at h

/-- Compares the neighbours. -/
def chkLcp (T : List Nat) : List Nat → List Nat → Bool
  | a :: b :: r, l :: ls => cmpLcp (T.drop a) (T.drop b) l && chkLcp T (b :: r) ls
  | [_], [] => true
  | _, _ => false

theorem chkLcp_spec {T : List Nat} : ∀ {SA ls : List Nat}, chkLcp T SA ls = true → SA.length = ls.length + 1 ∧ SA.IsChain (fun a b => T.drop a < T.drop b) ∧
    ∀ r, r < ls.length → Lcp.lcp (T.drop (sym SA r)) (T.drop (sym SA (r + 1))) = sym ls r
  | a :: b :: r, l :: ls, h => by
    rw [chkLcp, Bool.and_eq_true] at h
    obtain ⟨h1, h2⟩ := cmpLcp_spec h.1
    obtain ⟨h3, h4, h5⟩ := chkLcp_spec h.2
    refine ⟨by simpa using h3, List.IsChain.cons_cons h1 h4, fun k hk => ?_⟩
    cases k with
    | zero => exact h2
    | succ k => exact h5 k (by simpa using hk)
  | [a], [], _ => ⟨rfl, List.IsChain.singleton _, fun r hr => absurd hr (Nat.not_lt_zero _)⟩
  | [], _, h => by simp [chkLcp] at h
  | [_], _ :: _, h => by simp [chkLcp] at h
  | _ :: _ :: _, [], h => by simp [chkLcp] at h

/-- `4 z 1 4 z 2 5 z 3 0` with `z` = 254 times 6. -/
def badT : List Nat := [4] ++ List.replicate 254 6 ++ [1, 4] ++ List.replicate 254 6 ++ [2, 5] ++ List.replicate 254 6 ++ [3, 0]
def badSA : List Nat := [768, 255, 511, 767, 0, 256, 512] ++ (List.range 254).flatMap fun k => [254 - k, 510 - k, 766 - k]
def badL : List Nat := [0, 0, 0, 0, 0, 255, 0] ++ (List.range 254).flatMap fun k => [k, k + 1, k + 1]

theorem bad_chk : chkLcp badT badSA badL.tail = true := by decide +kernel
theorem bad_text : IsText badT := ⟨badT.take 768, by decide +kernel, by decide +kernel⟩

theorem bad_sa : IsSA badT badSA := by
  have : IsTrans Nat (fun a b => badT.drop a < badT.drop b) := ⟨fun a b c h1 h2 => List.lt_trans h1 h2⟩
  have hp := List.isChain_iff_pairwise.1 (chkLcp_spec bad_chk).2.1
  refine ⟨?_, hp⟩
  have hd : badSA.Nodup := hp.imp (fun h e => by rw [e] at h; exact absurd h (List.lt_irrefl _))
  have hs : badSA.all (fun x => decide (x < badT.length)) = true := by decide +kernel
  refine (hd.subperm (fun x hx => List.mem_range.2 ?_)).perm_of_length_le (by rw [List.length_range]; decide +kernel)
  simpa using List.all_eq_true.1 hs x hx

theorem bad_lcp : IsLcpArray badT badSA badL := by
  have hl : badL.length = badT.length := by decide +kernel
  refine ⟨hl, by decide +kernel, fun r hr => ?_⟩
  obtain ⟨h1, _, h3⟩ := chkLcp_spec bad_chk
  have h4 := h3 r (by rw [List.length_tail]; omega)
  refine ⟨sym badL (r + 1), sym_getElem? (by omega), ?_⟩
  have h5 : sym badL.tail r = sym badL (r + 1) := by
    rw [sym, sym, List.getD_eq_getElem?_getD, List.getD_eq_getElem?_getD, List.getElem?_tail]
  rw [← h5, ← h4]
  exact isLcp_lcp _ _

/-- With density 2 this text satisfies the hypothesis of `C70_tree2_partial`, and its last LCP value is 254. -/
example : badL.getD 768 0 = 254 ∧ ∀ b i, b < i → i < badL.length → badL.getD b 0 = badL.getD i 0 → 254 ≤ badL.getD i 0 → (∀ k, b < k → k < badL.length → badL.getD b 0 ≤ badL.getD k 0) →
    Irr 2 badT badSA badL i → Irr 2 badT badSA badL b := by
  have h : badL.getD 768 0 = 254 := by decide +kernel
  have hl : badL.length = 769 := by decide +kernel
  refine ⟨h, fun b i h1 h2 h3 h4 h5 _ => Or.inr (Or.inr ?_)⟩
  have := h5 768 (by omega) (by omega)
  have : badL.getD b 0 = 254 := by omega
  rw [this]

/-- **C70** The full claim is false: for this text of length 769, every tree for its LCP array and all sampling densities that do not divide 254, the last LCP value is 254 and `lcp_support_tree2` returns 0. -/
theorem C70_wrong : ∃ T SA L : List Nat, IsText T ∧ IsSA T SA ∧ IsLcpArray T SA L ∧ L.length = 769 ∧ (∃ s, CstOf L s) ∧ ∀ s, CstOf L s → ∀ dens, 0 < dens → 254 % dens ≠ 0 →
    ∃ t, tree2New dens L (bwtOf T SA) = some t ∧ L[768]? = some 254 ∧
      ∀ lf : Nat → Option Nat, (∀ i, i < T.length → ∃ j, lf i = some j ∧ j < T.length ∧ sym SA j = (sym SA i + (T.length - 1)) % T.length) → ∀ f, 1 < f → tree2Get t s lf f 768 0 = some 0 := by
  have hl : badL.length = 769 := by decide +kernel
  have hTl : badT.length = 769 := by rw [← bad_lcp.1, hl]
  obtain ⟨f1, f2, f3, f4⟩ := lcp_facts bad_text bad_sa bad_lcp
  refine ⟨badT, badSA, badL, bad_text, bad_sa, bad_lcp, hl, ?_, ?_⟩
  · obtain ⟨s, _, h⟩ := C62_construct badL f1 f2 f3 (by omega) (W := 26) (Wfc := 13) (S := 256) (D := 32) (by omega) (by omega) (by decide) (by decide) (by decide) (by decide)
    exact ⟨s, h⟩
  · intro s h dens hd hm
    obtain ⟨S, D, ok, _⟩ := h.ok
    obtain ⟨W, big, t1, t2, _⟩ := tree2_new bad_text bad_sa bad_lcp ok hd (by omega)
    refine ⟨_, t1, by decide +kernel, fun lf hlf f hf => ?_⟩
    obtain ⟨f, rfl⟩ : ∃ g, f = g + 2 := ⟨f - 2, by omega⟩
    have v768 : Sct.val badL 768 = 254 := by decide +kernel
    have v767 : Sct.val badL 767 = 254 := by decide +kernel
    have hR : irrB dens badL (bwtOf badT badSA) 767 = false := by
      rw [irrB, decide_eq_false_iff_not, v767]
      rintro ⟨_, c | c | c⟩
      · cases c
      · exact c (by decide +kernel)
      · exact hm c
    obtain ⟨k, k1, k2, k3⟩ := slot_last ok (R := irrB dens badL (bwtOf badT badSA)) (i := 768) (b := 767) (by omega) f3 (by omega) (by omega)
      (fun k hk e => by
        have h : (badL.take 767).all (fun x => x != 254) = true := by decide +kernel
        rcases Nat.lt_or_ge k 767 with c | c
        · have hk' : k < (badL.take 767).length := by rw [List.length_take]; omega
          have := List.all_eq_true.1 h _ (List.getElem_mem hk')
          rw [v768, Sct.val, List.getElem?_eq_getElem hk] at e
          rw [List.getElem_take, bne_iff_ne] at this
          exact absurd e this
        · exact c)
      (fun k h1 h2 => by
        have : k = 767 ∨ k = 768 := by omega
        rcases this with e | e <;> rw [e]
        rw [v767, v768])
    rw [hR, v768] at k3
    obtain ⟨j, j1, j2, j3⟩ := hlf 768 (by omega)
    have hj : j = 6 := by
      refine bad_sa.inj j2 (by omega) ?_
      rw [j3, hTl]
      decide +kernel
    have v6 : Sct.val badL 6 = 0 := by decide +kernel
    obtain ⟨p, q, hp⟩ := pr_exists ok.sc (show 6 < badL.length by omega)
    obtain ⟨_, m, g, m1, m2, m3, _⟩ := slot_gen ok (by omega) f3 (irrB dens badL (bwtOf badT badSA)) hp
    have e1 := Option.some.inj ((sym_getElem? k2).symm.trans k3)
    have e2 := Option.some.inj ((sym_getElem? m2).symm.trans m3)
    rw [v6] at e2
    rw [tree2Get, k1, sbind, t2.get k k2, sbind, e1]
    show (do let i ← lf 768; tree2Get ⟨W, big⟩ s lf (f + 1) i (0 + 1)) = some 0
    rw [j1, sbind, hj, tree2Get, m1, sbind, t2.get m m2, sbind, e2]
    rfl

end Sdsl.Props
