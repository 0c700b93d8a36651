/-
  The operations of cst_sada on the tree.
-/
import Verif.CstSadaTree
import Verif.CstSct3Nodes
import Verif.RmqSctLemmas

namespace Sdsl.CstSada

set_option linter.unusedSectionVars false

open Spec Props RmqSct

/-- The object belongs to the LCP array `L`. -/
structure Ok (L : List Nat) (s : Cst) (S D : Nat) : Prop where
  n0 : 0 < L.length
  bpn : s.bp.n = P (vals L) L.length L.length
  hl : s.bp.n ≤ 64 * s.bp.mem.length
  hb : 2 * s.bp.n + 2 < 2 ^ 64
  pS : 0 < S
  bS : S + 2 < 2 ^ 64
  h8 : S % 8 = 0
  hD : 2 ≤ D
  new : Bp.Sada.new s.bp.mem s.bp.n S D = some s.bp
  blk : Blk (vals L) L.length s.bp.mem L.length
  csz : s.csaSize = L.length

theorem nd_iff {L : List Nat} {i j : Nat} : IsNode L i j ↔ Nd (vals L) L.length i j := Iff.rfl

theorem new_ok {L : List Nat} {S D : Nat} (junk : Nat → Word) (hn : 0 < L.length) (hle : ∀ x ∈ L, x ≤ L.length) (hb : 8 * L.length + 8 < 2 ^ 64) (pS : 0 < S) (bS : S + 2 < 2 ^ 64)
    (h8 : S % 8 = 0) (hD : 2 ≤ D) : ∃ s, new junk L S D = some s ∧ Ok L s S D := by
  have hle' : ∀ k, k < L.length → vals L k ≤ L.length := fun k hk => hle _ (by
    rw [vals, List.getD_eq_getElem?_getD, List.getElem?_eq_getElem hk]; exact List.getElem_mem hk)
  obtain ⟨v, h1, h2, h3, h4⟩ := parens_ok hle' (by omega) junk hn
  have hP := P_le (V := vals L) hn (i := L.length) (Nat.le_refl _)
  obtain ⟨b, g1, -⟩ := C59_construct (mem := v.data) (n := v.size) (S := S) (D := D) (by omega) (by omega) pS bS (by omega)
  have hpos : 0 < v.size := by
    rw [h2]
    have := P_succ (vals L) L.length 0
    have := P_mono (V := vals L) (n := L.length) (show 1 ≤ L.length by omega)
    have : 0 < co (vals L) L.length 0 := by unfold co; omega
    rw [Nat.zero_add] at *
    omega
  obtain ⟨K, e1, e2, e3, e4, -⟩ := Props.new_ok (mem := v.data) (by omega) (by omega) pS bS (by omega) hpos g1
  refine ⟨⟨b, L.length⟩, ?_, hn, ?_, ?_, ?_, pS, bS, h8, hD, ?_, ?_, rfl⟩
  · rw [CstSada.new, h1, sbind, g1]; rfl
  · show b.n = _; rw [e2, h2]
  · show b.n ≤ 64 * b.mem.length; rw [e1, e2]; omega
  · show 2 * b.n + 2 < _; rw [e2]; omega
  · show Bp.Sada.new b.mem b.n S D = some b; rw [e1, e2]; exact g1
  · show Blk _ _ b.mem _; rw [e1]; exact h4

section

variable {L : List Nat} {s : Cst} {S D : Nat} (ok : Ok L s S D) {i j a c : Nat}

local notation "W" => vals L
local notation "N" => L.length
local notation "O" => oP (vals L) L.length
local notation "X" => cP (vals L) L.length
local notation "B" => bitAt s.bp.mem

include ok

theorem Ok.bal : Balanced B 0 s.bp.n := by rw [ok.bpn]; exact bp_balanced ok.blk

theorem Ok.mtch (h : IsNode L i j) : Match B (O i j) (X i j) := node_match ok.blk h

theorem Ok.xlt (h : IsNode L i j) : X i j < s.bp.n := by rw [ok.bpn]; exact cP_lt_n h

theorem Ok.ox (h : IsNode L i j) : O i j < X i j := (oP_lt_cP (V := W) h h).2 h.1

theorem Ok.olt (h : IsNode L i j) : O i j < s.bp.n := by have := ok.xlt h; have := ok.ox h; omega

theorem Ok.oopen (h : IsNode L i j) : B (O i j) = true := (ok.mtch h).1

theorem Ok.findClose (h : IsNode L i j) : s.bp.findClose (O i j) = some (X i j) :=
  C59_find_close ok.hl ok.hb ok.pS ok.bS (by have := ok.hD; omega) ok.new (ok.mtch h) (ok.xlt h)

theorem Ok.rank10 {q : Nat} (h : q ≤ s.bp.n) : s.rank10 q = some (countTrue (occ .p10 s.bp.mem) q) := rankC_eq h

theorem Ok.rank {q : Nat} (h : q < s.bp.n) : s.rank q = some (countTrue B (q + 1)) := rankC_eq h

theorem Ok.at' {q : Nat} (h : q < s.bp.n) : s.at' q = some (B q) := by unfold Cst.at'; rw [if_pos h]

theorem Ok.lb (h : IsNode L i j) : s.rank10 (O i j) = some i := by
  rw [ok.rank10 (by have := ok.olt h; omega), leaves_oP ok.blk h]

theorem Ok.rb1 (h : IsNode L i j) : s.rank10 (X i j + 1) = some (j + 1) := by
  rw [ok.rank10 (by have := ok.xlt h; omega), leaves_cP ok.blk h]

theorem Ok.open_node {p : Nat} (hp : p < s.bp.n) (h : B p = true) : ∃ i j, IsNode L i j ∧ p = O i j := CstSada.open_node ok.blk (by rw [← ok.bpn]; exact hp) h

theorem Ok.close_node {p : Nat} (hp : p < s.bp.n) (h : B p = false) : ∃ i j, IsNode L i j ∧ p = X i j := CstSada.close_node ok.blk (by rw [← ok.bpn]; exact hp) h

omit ok in
theorem leaf_node (h : i < N) : IsNode L i i := ⟨Nat.le_refl _, h, fun k _ _ => by omega⟩

omit ok in
theorem leaf_oP (_ : i < N) : O i i + 1 = P W N i + co W N i := by
  have e : countTrue (fun j => ndB W N i j) i = 0 := by
    rw [countTrue_congr (g := fun _ => false) (fun k hk => ?_), countTrue_false]
    rw [Bool.eq_false_iff]
    intro h
    have := (ndB_iff.1 h).1
    omega
  have hco : 0 < co W N i := by unfold co; omega
  unfold oP
  rw [e]; omega

omit ok in
theorem Nd_lt (h : IsNode L i j) : i < N := by have := h.1; have := h.2.1; omega

/-- The parenthesis behind an opening one. -/
theorem Ok.next (h : IsNode L i j) : O i j + 1 < s.bp.n ∧ B (O i j + 1) = decide (i < j) := by
  have hi := Nd_lt h
  have h1 := leaf_oP hi
  have h2 := oP_bound (V := W) h
  have h3 := P_succ W N i
  have h4 := P_mono (V := W) (n := N) (show i + 1 ≤ N by omega)
  have h5 := ok.bpn
  have hcc : 0 < cc W N i := by unfold cc; omega
  refine ⟨by omega, ?_⟩
  rcases Nat.eq_or_lt_of_le h.1 with g | g
  · subst g
    rw [decide_eq_false (by omega)]
    exact bit_close ok.blk hi (by omega) (by omega)
  · rw [decide_eq_true g]
    have := oP_lt_same (V := W) (leaf_node hi) h g
    exact bit_open ok.blk hi (by omega) (by omega)

theorem Ok.isLeaf (h : IsNode L i j) : s.isLeaf (O i j) = some (decide (i = j)) := by
  obtain ⟨h1, h2⟩ := ok.next h
  rw [Cst.isLeaf, ok.at' h1, sbind, h2]
  have := h.1
  show some (!decide (i < j)) = _
  by_cases g : i = j
  · rw [decide_eq_true g, decide_eq_false (by omega)]; rfl
  · rw [decide_eq_false g, decide_eq_true (by omega)]; rfl

theorem Ok.select10 (h : i < N) : s.select10 (i + 1) = some (O i i + 1) := by
  refine selectC_eq ⟨?_, ?_, ?_⟩
  · have := (ok.next (leaf_node h)).1; omega
  · have e := leaf_oP h
    have h3 := P_succ W N i
    have hcc : 0 < cc W N i := by unfold cc; omega
    rw [occ10_block ok.blk h (by omega) (by omega)]
    exact decide_eq_true e
  · have e := leaf_oP h
    rw [e, leaves_open ok.blk h (by omega) (Nat.le_refl _)]

theorem Ok.selectLeaf (h : i < N) : s.selectLeaf (i + 1) = some (O i i) := by
  rw [Cst.selectLeaf, ok.select10 h, sbind, sub_eq (by omega)]; rfl

theorem Ok.leftmost (h : IsNode L i j) : s.leftmostLeaf (O i j) = some (O i i) := by
  rw [Cst.leftmostLeaf, ok.lb h, sbind, ok.select10 (Nd_lt h), sbind, sub_eq (by omega)]; rfl

theorem Ok.rightmost (h : IsNode L i j) : s.rightmostLeaf (O i j) = some (O j j) := by
  rw [Cst.rightmostLeaf, ok.findClose h, sbind, ok.rb1 h, sbind, ok.select10 h.2.1, sbind, sub_eq (by omega)]; rfl

theorem Ok.rb (h : IsNode L i j) : s.rb (O i j) = some j := by
  rw [Cst.rb, ok.findClose h, sbind, ok.rb1 h, sbind, sub_eq (by omega)]; rfl

theorem Ok.sizeOf' (h : IsNode L i j) : s.sizeOf' (O i j) = some (j + 1 - i) := by
  rw [Cst.sizeOf', ok.findClose h, sbind, ok.rb1 h, sbind, ok.lb h, sbind, sub_eq (by have := h.1; omega)]

theorem Ok.root : O 0 (N - 1) = 0 := by
  have h0 := ok.n0
  have hr : IsNode L 0 (N - 1) := CstSct3.isNode_root h0
  have hco := co_eq (V := W) (n := N) (i := 0) (by omega)
  have h1 : countTrue (fun j => ndB W N 0 j) N = countTrue (fun j => ndB W N 0 j) (N - 1) + 1 := by
    have : countTrue (fun j => ndB W N 0 j) (N - 1 + 1) = countTrue (fun j => ndB W N 0 j) (N - 1) + (ndB W N 0 (N - 1)).toNat := rfl
    rw [show N - 1 + 1 = N by omega, ndB_iff.2 (nd_iff.1 hr)] at this
    exact this
  have e : P W N 0 = 0 := rfl
  unfold oP
  rw [e]; omega

theorem Ok.root_iff (h : IsNode L i j) : O i j = 0 ↔ i = 0 ∧ j + 1 = N := by
  have h0 := ok.n0
  have hr : IsNode L 0 (N - 1) := CstSct3.isNode_root h0
  constructor
  · intro e
    have := oP_inj (V := W) h hr (by rw [e, ok.root])
    omega
  · rintro ⟨e1, e2⟩
    rw [e1, show j = N - 1 by omega]; exact ok.root

/-! ### Containment -/

theorem Ok.around (h : IsNode L i j) (h' : IsNode L a c) : Around B (O a c) (O i j) ↔ a ≤ i ∧ j ≤ c ∧ ¬ (a = i ∧ c = j) := by
  have h1 := oP_lt_iff (V := W) h' h
  have h2 := cP_lt_iff (V := W) h h'
  constructor
  · rintro ⟨g1, m, m', g2, g3, g4⟩
    obtain ⟨x, -, -, hx⟩ := C48_match_open ok.bal (ok.olt h) (ok.oopen h)
    obtain ⟨y, -, -, hy⟩ := C48_match_open ok.bal (ok.olt h') (ok.oopen h')
    have e1 : m' = X i j := by rw [hx _ g3, hx _ (ok.mtch h)]
    have e2 : m = X a c := by rw [hy _ g2, hy _ (ok.mtch h')]
    rw [e1, e2] at g4
    omega
  · rintro ⟨g1, g2, g3⟩
    exact ⟨by omega, X a c, X i j, ok.mtch h', ok.mtch h, by omega⟩

theorem Ok.uncl (h : IsNode L i j) (h' : IsNode L a c) : Uncl B (O a c) (O i j) ↔ a ≤ i ∧ j ≤ c ∧ ¬ (a = i ∧ c = j) := by
  rw [← around_iff ok.bal (ok.olt h) (ok.oopen h)]; exact ok.around h h'

omit ok in
/-- Two nodes around the same position: the one that begins first contains the other. -/
theorem contains_of_le {x y : Nat} (h : IsNode L x y) (h' : IsNode L a c) (hle : O x y ≤ O a c) (h1 : a ≤ y) : x ≤ a ∧ c ≤ y := by
  rcases Nat.eq_or_lt_of_le hle with e | e
  · obtain ⟨rfl, rfl⟩ := oP_inj (V := W) h h' e
    exact ⟨Nat.le_refl _, Nat.le_refl _⟩
  · rw [oP_lt_iff (V := W) h h'] at e
    rcases e with e | e
    · exact ⟨by omega, laminar' (V := W) h h' e h1⟩
    · omega

theorem Ok.has_parent (h : IsNode L i j) (hr : ¬ (i = 0 ∧ j + 1 = N)) : ∃ i' j', IsParent L i j i' j' ∧ Encloses B (O i' j') (O i j) := by
  have h0 := ok.n0
  have hroot : IsNode L 0 (N - 1) := CstSct3.isNode_root h0
  have hu : Uncl B (O 0 (N - 1)) (O i j) := (ok.uncl h hroot).2 ⟨by omega, by have := h.2.1; omega, by omega⟩
  obtain ⟨k, hk⟩ := hu.enclosed
  have hkl := hk.uncl.2.1
  obtain ⟨a, c, h1, rfl⟩ := ok.open_node (p := k) (by have := ok.olt h; omega) hk.1
  have h2 := (ok.uncl h h1).1 hk.uncl
  refine ⟨a, c, ⟨h1, h2.1, h2.2.1, h2.2.2, fun x y g1 g2 g3 g4 => ?_⟩, hk⟩
  have g5 := ((ok.uncl h g1).2 ⟨g2, g3, g4⟩).le hk
  exact contains_of_le g1 h1 g5 (by have := h.1; omega)

theorem Ok.encl {i' j' : Nat} (h : IsNode L i j) (hp : IsParent L i j i' j') : Encloses B (O i' j') (O i j) := by
  have hr : ¬ (i = 0 ∧ j + 1 = N) := by
    rintro ⟨rfl, e⟩
    obtain rfl : j = N - 1 := by omega
    exact CstSct3.root_no_parent hp
  obtain ⟨a, c, h1, h2⟩ := ok.has_parent h hr
  obtain ⟨rfl, rfl⟩ := CstSct3.parent_unique h1 hp
  exact h2

theorem Ok.enclose {i' j' : Nat} (h : IsNode L i j) (hp : IsParent L i j i' j') : s.bp.enclose (O i j) = some (O i' j') :=
  C59_enclose ok.hl ok.hb ok.pS ok.bS ok.h8 ok.hD ok.new (ok.olt h) (ok.encl h hp)

theorem Ok.parent_root : s.parent 0 = some 0 := by rw [Cst.parent, show Cst.root = 0 from rfl, if_pos rfl]

theorem Ok.parent {i' j' : Nat} (h : IsNode L i j) (hp : IsParent L i j i' j') : s.parent (O i j) = some (O i' j') := by
  have hr : ¬ (O i j = 0) := by
    rw [ok.root_iff h]
    rintro ⟨rfl, e⟩
    obtain rfl : j = N - 1 := by omega
    exact CstSct3.root_no_parent hp
  rw [Cst.parent, show Cst.root = 0 from rfl, if_neg hr, ok.enclose h hp]

/-! ### Children -/

/-- The block of a parenthesis is determined. -/
theorem Ok.block_eq {x y q : Nat} (h1 : P W N x ≤ q) (h2 : q < P W N (x + 1)) (h3 : P W N y ≤ q) (h4 : q < P W N (y + 1)) : x = y := by
  rcases Nat.lt_trichotomy x y with g | g | g
  · have := P_mono (V := W) (n := N) (show x + 1 ≤ y by omega); omega
  · exact g
  · have := P_mono (V := W) (n := N) (show y + 1 ≤ x by omega); omega

/-- The first child of an inner node. -/
theorem Ok.first (h : IsNode L i j) (hij : i < j) : ∃ c, IsNode L i c ∧ c < j ∧ O i c = O i j + 1 ∧ IsParent L i c i j := by
  obtain ⟨g1, g2⟩ := ok.next h
  rw [decide_eq_true hij] at g2
  obtain ⟨a, c, h1, h2⟩ := ok.open_node g1 g2
  have hi := Nd_lt h
  have b1 := oP_bound (V := W) h
  have b2 := oP_bound (V := W) h1
  have b3 := oP_bound (V := W) (leaf_node hi)
  have b4 := oP_lt_same (V := W) (leaf_node hi) h hij
  have e1 := P_succ W N i
  have e2 := P_succ W N a
  obtain rfl : i = a := ok.block_eq (q := O i j + 1) (by omega) (by omega) (by omega) (by omega)
  have h3 := (oP_lt_iff (V := W) h h1).1 (by omega)
  refine ⟨c, h1, by omega, h2.symm, h, Nat.le_refl _, by omega, by omega, fun x y k1 k2 k3 k4 => ?_⟩
  rcases Nat.eq_or_lt_of_le k2 with rfl | k5
  · have k6 := (oP_lt_iff (V := W) k1 h1).2 (Or.inr ⟨rfl, by omega⟩)
    refine ⟨Nat.le_refl _, ?_⟩
    rcases Nat.lt_or_ge y j with k7 | k7
    · have := oP_lt_same (V := W) k1 h k7; omega
    · exact k7
  · exact ⟨k2, laminar' (V := W) k1 h k5 (by have := h1.1; omega)⟩

/-- The parenthesis behind a node that is not the root. -/
theorem Ok.sib {i' j' : Nat} (h : IsNode L i j) (hp : IsParent L i j i' j') : X i j + 1 < s.bp.n ∧ B (X i j + 1) = decide (j < j') ∧
    (j < j' → ∃ c, IsNode L (j + 1) c ∧ X i j + 1 = O (j + 1) c ∧ IsParent L (j + 1) c i' j') := by
  obtain ⟨p1, p2, p3, p4, p5⟩ := hp
  have hj := h.2.1
  have hj' := p1.2.1
  have hx := (cP_lt_iff (V := W) h p1).2 (by omega)
  have hn := ok.xlt p1
  have b1 := cP_bound (V := W) h
  refine ⟨by omega, ?_, fun hlt => ?_⟩
  · cases hb : B (X i j + 1) with
    | false =>
      obtain ⟨a, c, k1, k2⟩ := ok.close_node (show X i j + 1 < s.bp.n by omega) hb
      have b2 := cP_bound (V := W) k1
      have e1 := P_succ W N j
      have k3 : j = c := by
        rcases Nat.lt_or_ge (X i j + 1) (P W N (j + 1)) with g | g
        · exact ok.block_eq (q := X i j + 1) (by omega) g (by omega) (by omega)
        · have g1 : X i j + 1 = P W N (j + 1) := by omega
          have hco : 0 < co W N (j + 1) := by unfold co; omega
          have e2 := P_succ W N (j + 1)
          rcases Nat.lt_or_ge (j + 1) N with g2 | g2
          · rw [bit_open ok.blk g2 (by omega) (by omega)] at hb; exact absurd hb (by decide)
          · have : j + 1 = N := by omega
            have := ok.bpn
            rw [← ‹j + 1 = N›] at this
            have e3 : s.bp.n = P W N N := ok.bpn
            rw [‹j + 1 = N›] at g1
            omega
      subst k3
      have k4 := (cP_lt_iff (V := W) h k1).1 (by omega)
      have := p5 a j k1 (by omega) (Nat.le_refl _) (by omega)
      rw [decide_eq_false (by omega)]
    | true =>
      obtain ⟨a, c, k1, k2⟩ := ok.open_node (show X i j + 1 < s.bp.n by omega) hb
      rw [decide_eq_true]
      rcases Nat.lt_or_ge j j' with g | g
      · exact g
      · obtain rfl : j' = j := by omega
        have b3 := cP_bound (V := W) p1
        rw [bit_close ok.blk hj (by omega) (by omega)] at hb
        exact absurd hb (by decide)
  · have key : X i j + 1 = P W N (j + 1) := by
      rcases Nat.lt_or_ge (X i j + 1) (P W N (j + 1)) with g | g
      · exfalso
        have hb := bit_close ok.blk hj (q := X i j + 1) (by omega) g
        obtain ⟨a, c, k1, k2⟩ := ok.close_node (show X i j + 1 < s.bp.n by omega) hb
        have b2 := cP_bound (V := W) k1
        obtain rfl : j = c := ok.block_eq (q := X i j + 1) (by omega) g (by omega) (by omega)
        have k4 := (cP_lt_iff (V := W) h k1).1 (by omega)
        have := p5 a j k1 (by omega) (Nat.le_refl _) (by omega)
        omega
      · omega
    have hco : 0 < co W N (j + 1) := by unfold co; omega
    have e2 := P_succ W N (j + 1)
    have hb := bit_open ok.blk (i := j + 1) (q := X i j + 1) (by omega) (by omega) (by omega)
    obtain ⟨a, c, k1, k2⟩ := ok.open_node (show X i j + 1 < s.bp.n by omega) hb
    have b2 := oP_bound (V := W) k1
    have e3 := P_succ W N a
    obtain rfl : j + 1 = a := ok.block_eq (q := X i j + 1) (by omega) (by omega) (by omega) (by omega)
    have hmax : ∀ y, IsNode L (j + 1) y → y ≤ c := by
      intro y hy
      rcases Nat.lt_or_ge c y with g | g
      · have := oP_lt_same (V := W) k1 hy g
        have := oP_bound (V := W) hy
        omega
      · exact g
    have hij := h.1
    refine ⟨c, k1, k2, p1, by omega, laminar' (V := W) p1 k1 (by omega) (by omega), by omega, fun x y g1 g2 g3 g4 => ?_⟩
    have hc := k1.1
    rcases Nat.lt_or_ge j x with g5 | g5
    · obtain rfl : x = j + 1 := by omega
      have := hmax y g1
      omega
    · have g6 : x ≤ i := by
        rcases Nat.lt_or_ge i x with g | g
        · have := laminar' (V := W) h g1 g g5; omega
        · exact g
      exact p5 x y g1 g6 (by omega) (by omega)

theorem Ok.sibling {i' j' : Nat} (h : IsNode L i j) (hp : IsParent L i j i' j') :
    (j < j' → ∃ c, IsNode L (j + 1) c ∧ s.sibling (O i j) = some (O (j + 1) c) ∧ IsParent L (j + 1) c i' j') ∧ (j' = j → s.sibling (O i j) = some 0) := by
  have hr : ¬ (O i j = 0) := by
    rw [ok.root_iff h]
    rintro ⟨rfl, e⟩
    obtain rfl : j = N - 1 := by omega
    exact CstSct3.root_no_parent hp
  obtain ⟨g1, g2, g3⟩ := ok.sib h hp
  have e : s.sibling (O i j) = if B (X i j + 1) = true then some (X i j + 1) else some 0 := by
    rw [Cst.sibling, show Cst.root = 0 from rfl, if_neg hr, ok.findClose h, sbind, ok.at' g1, sbind]
  rw [e, g2]
  refine ⟨fun hlt => ?_, fun he => ?_⟩
  · obtain ⟨c, k1, k2, k3⟩ := g3 hlt
    rw [decide_eq_true hlt, if_pos rfl, k2]
    exact ⟨c, k1, rfl, k3⟩
  · rw [decide_eq_false (by omega), if_neg (by decide)]

/-- The children from `[a..c]` on. -/
theorem Ok.kids : ∀ (w a c : Nat), j - c ≤ w → IsNode L a c → IsParent L a c i j → ∃ (d : Nat) (κ : Nat → Nat), 1 ≤ d ∧ κ 0 = a ∧ κ 1 = c + 1 ∧ κ d = j + 1 ∧
    (∀ e, e < d → κ e < κ (e + 1)) ∧ (∀ e, e < d → IsNode L (κ e) (κ (e + 1) - 1) ∧ IsParent L (κ e) (κ (e + 1) - 1) i j) ∧
    (∀ f res, d < f → s.degreeLoop f (O a c) res = some (res + d)) ∧
    (∀ e, e < d → s.selectChildLoop e (O a c) = some (O (κ e) (κ (e + 1) - 1))) ∧ ∀ e, d ≤ e → s.selectChildLoop e (O a c) = some 0 := by
  intro w
  induction w with
  | zero =>
    intro a c hw h hp
    have hcj := hp.2.2.1
    obtain rfl : c = j := by omega
    obtain ⟨g1, g2, -⟩ := ok.sib h hp
    rw [decide_eq_false (by omega)] at g2
    have hac := h.1
    refine ⟨1, fun e => if e = 0 then a else c + 1, Nat.le_refl _, rfl, rfl, rfl, fun e he => ?_, fun e he => ?_, fun f res hf => ?_, fun e he => ?_, fun e he => ?_⟩
    · obtain rfl : e = 0 := by omega
      show a < c + 1; omega
    · obtain rfl : e = 0 := by omega
      exact ⟨h, hp⟩
    · obtain ⟨f, rfl⟩ : ∃ f', f = f' + 2 := ⟨f - 2, by omega⟩
      rw [Cst.degreeLoop, ok.at' (ok.olt h), sbind, ok.oopen h, if_pos rfl, ok.findClose h, sbind, Cst.degreeLoop, ok.at' g1, sbind, g2, if_neg (by decide)]
    · obtain rfl : e = 0 := by omega
      rw [Cst.selectChildLoop]; rfl
    · obtain ⟨e, rfl⟩ : ∃ e', e = e' + 1 := ⟨e - 1, by omega⟩
      rw [Cst.selectChildLoop, ok.findClose h, sbind, ok.at' g1, sbind, g2, if_neg (by decide)]; rfl
  | succ w ih =>
    intro a c hw h hp
    have hcj := hp.2.2.1
    have hac := h.1
    rcases Nat.eq_or_lt_of_le hcj with hcj' | hlt
    · exact ih a c (by omega) h hp
    · obtain ⟨g1, g2, g3⟩ := ok.sib h hp
      obtain ⟨y, k1, k2, k3⟩ := g3 hlt
      rw [decide_eq_true hlt] at g2
      have hy := k1.1
      obtain ⟨d, κ, q1, q2, q3, q4, q5, q6, q7, q8, q9⟩ := ih (c + 1) y (by omega) k1 k3
      refine ⟨d + 1, fun e => if e = 0 then a else κ (e - 1), by omega, rfl, q2, ?_, fun e he => ?_, fun e he => ?_, fun f res hf => ?_, fun e he => ?_, fun e he => ?_⟩
      · show κ (d + 1 - 1) = _
        exact q4
      · rcases Nat.eq_zero_or_pos e with rfl | he'
        · show a < κ 0; rw [q2]; omega
        · show (if e = 0 then a else κ (e - 1)) < κ (e + 1 - 1)
          rw [if_neg (by omega)]
          have := q5 (e - 1) (by omega)
          rw [show e - 1 + 1 = e by omega] at this
          exact this
      · rcases Nat.eq_zero_or_pos e with rfl | he'
        · show IsNode L a (κ 0 - 1) ∧ IsParent L a (κ 0 - 1) i j
          rw [q2]; exact ⟨h, hp⟩
        · have := q6 (e - 1) (by omega)
          rw [show e - 1 + 1 = e by omega] at this
          show IsNode L (if e = 0 then a else κ (e - 1)) (κ (e + 1 - 1) - 1) ∧ IsParent L (if e = 0 then a else κ (e - 1)) (κ (e + 1 - 1) - 1) i j
          rw [if_neg (by omega)]
          exact this
      · obtain ⟨f, rfl⟩ : ∃ f', f = f' + 1 := ⟨f - 1, by omega⟩
        rw [Cst.degreeLoop, ok.at' (ok.olt h), sbind, ok.oopen h, if_pos rfl, ok.findClose h, sbind, k2, q7 f (res + 1) (by omega)]
        congr 1; omega
      · rcases Nat.eq_zero_or_pos e with rfl | he'
        · rw [Cst.selectChildLoop]
          show some _ = some (O a (κ 0 - 1))
          rw [q2]; rfl
        · have := q8 (e - 1) (by omega)
          rw [show e - 1 + 1 = e by omega] at this
          obtain ⟨e, rfl⟩ : ∃ e', e = e' + 1 := ⟨e - 1, by omega⟩
          rw [Cst.selectChildLoop, ok.findClose h, sbind, ok.at' g1, sbind, g2, if_pos rfl, k2]
          exact this
      · obtain ⟨e, rfl⟩ : ∃ e', e = e' + 1 := ⟨e - 1, by omega⟩
        rw [Cst.selectChildLoop, ok.findClose h, sbind, ok.at' g1, sbind, g2, if_pos rfl, k2]
        exact q9 e (by omega)

omit ok in
theorem kids_complete {d : Nat} {κ : Nat → Nat} (h0 : κ 0 = i) (hd : κ d = j + 1) (hk : ∀ e, e < d → IsNode L (κ e) (κ (e + 1) - 1) ∧ IsParent L (κ e) (κ (e + 1) - 1) i j)
    (hm : ∀ e, e < d → κ e < κ (e + 1)) (h : IsNode L a c) (hp : IsParent L a c i j) : ∃ e, e < d ∧ a = κ e ∧ c + 1 = κ (e + 1) := by
  have hac := h.1
  have ha : i ≤ a ∧ a < j + 1 := by have := hp.2.1; have := hp.2.2.1; omega
  have key : ∀ m, m ≤ d → a < κ m → ∃ e, e < m ∧ κ e ≤ a ∧ a < κ (e + 1) := by
    intro m
    induction m with
    | zero => intro _ h; omega
    | succ m ih =>
      intro hmd hlt
      rcases Nat.lt_or_ge a (κ m) with g | g
      · obtain ⟨e, e1, e2⟩ := ih (by omega) g
        exact ⟨e, by omega, e2⟩
      · exact ⟨m, by omega, g, hlt⟩
  obtain ⟨e, e1, e2, e3⟩ := key d (Nat.le_refl _) (by omega)
  obtain ⟨k1, k2⟩ := hk e e1
  have k3 := hm e e1
  refine ⟨e, e1, ?_⟩
  obtain ⟨p1, p2, p3, p4, p5⟩ := hp
  obtain ⟨q1, q2, q3, q4, q5⟩ := k2
  -- the child that contains `a` cannot be larger than `[a..c]`
  have no1 : ¬ (κ e ≤ a ∧ c ≤ κ (e + 1) - 1 ∧ ¬ (κ e = a ∧ κ (e + 1) - 1 = c)) := by
    rintro ⟨r1, r2, r3⟩
    have := p5 _ _ k1 r1 r2 r3
    omega
  rcases Nat.eq_or_lt_of_le e2 with g | g
  · rcases Nat.lt_or_ge (κ (e + 1) - 1) c with g' | g'
    · have := q5 a c h (by omega) (by omega) (by omega)
      omega
    · omega
  · have := laminar' (V := W) k1 h g (by omega)
    omega

/-- Degree and children of an inner node. -/
theorem Ok.children (h : IsNode L i j) (hij : i < j) : ∃ (d : Nat) (κ : Nat → Nat), s.degree (O i j) = some d ∧ 2 ≤ d ∧ κ 0 = i ∧ κ d = j + 1 ∧ (∀ e, e < d → κ e < κ (e + 1)) ∧
    (∀ e, e < d → IsNode L (κ e) (κ (e + 1) - 1) ∧ s.selectChild (O i j) (e + 1) = some (O (κ e) (κ (e + 1) - 1)) ∧ IsParent L (κ e) (κ (e + 1) - 1) i j) ∧
    (∀ e, d ≤ e → s.selectChild (O i j) (e + 1) = some 0) ∧ ∀ a c, IsNode L a c → IsParent L a c i j → ∃ e, e < d ∧ a = κ e ∧ c + 1 = κ (e + 1) := by
  obtain ⟨c, f1, f2, f3, f4⟩ := ok.first h hij
  obtain ⟨d, κ, q1, q2, q3, q4, q5, q6, q7, q8, q9⟩ := ok.kids _ i c (Nat.le_refl _) f1 f4
  have hd : ∀ e, e ≤ d → e + κ 0 ≤ κ e := by
    intro e
    induction e with
    | zero => intro _; omega
    | succ e ih => intro he; have := ih (by omega); have := q5 e (by omega); omega
  have hdn := hd d (Nat.le_refl _)
  have hjn := h.2.1
  have hN : N ≤ s.bp.n := by
    have h1 := leaves_P ok.blk N (Nat.le_refl _)
    have h2 := countTrue_le (occ .p10 s.bp.mem) (P W N N)
    have := ok.bpn
    omega
  have hsel : ∀ e, s.selectChild (O i j) (e + 1) = s.selectChildLoop e (O i c) := fun e => by
    rw [Cst.selectChild, ok.isLeaf h, sbind, decide_eq_false (by omega), if_neg (by decide), f3]; rfl
  refine ⟨d, κ, ?_, ?_, q2, q4, q5, fun e he => ⟨(q6 e he).1, by rw [hsel, q8 e he], (q6 e he).2⟩, fun e he => by rw [hsel, q9 e he], fun a c' k1 k2 => kids_complete q2 q4 q6 q5 k1 k2⟩
  · rw [Cst.degree, ← f3, q7 _ 0 (by omega), Nat.zero_add]
  · rcases Nat.lt_or_ge d 2 with g | g
    · obtain rfl : d = 1 := by omega
      omega
    · exact g

theorem Ok.degree_leaf (h : i < N) : s.degree (O i i) = some 0 := by
  obtain ⟨h1, h2⟩ := ok.next (leaf_node h)
  rw [decide_eq_false (by omega)] at h2
  rw [Cst.degree, Cst.degreeLoop, ok.at' h1, sbind, h2, if_neg (by decide)]

theorem Ok.selectChild_leaf (h : i < N) (e : Nat) : s.selectChild (O i i) e = some 0 := by
  rw [Cst.selectChild, ok.isLeaf (leaf_node h), sbind, decide_eq_true rfl, if_pos rfl]; rfl

/-! ### Lowest common ancestors -/

/-- Two nodes beside each other. -/
theorem Ok.double (h : IsNode L i j) (h' : IsNode L a c) (hja : j < a) : ∃ x y, s.bp.doubleEnclose (O i j) (O a c) = some (O x y) ∧ IsLca L i j a c x y := by
  have h0 := ok.n0
  have hroot : IsNode L 0 (N - 1) := CstSct3.isNode_root h0
  have hij := h.1
  have hac := h'.1
  have hcn := h'.2.1
  have hxo : X i j < O a c := by
    rcases Nat.lt_or_ge (X i j) (O a c) with g | g
    · exact g
    · have g1 := (oP_lt_cP (V := W) h h').1 (by
        have : O a c ≠ X i j := fun e => by
          have e1 := ok.oopen h'
          have e2 := (ok.mtch h).2.1
          rw [e, e2] at e1; exact absurd e1 (by decide)
        omega)
      omega
  obtain ⟨k, e, hk⟩ := C59_double_enclose ok.hl ok.hb ok.pS ok.bS ok.h8 ok.hD ok.new ok.bal (ok.mtch h) hxo (ok.olt h') (ok.oopen h')
  have hr1 : Around B (O 0 (N - 1)) (O a c) := (ok.around h' hroot).2 ⟨by omega, by omega, by omega⟩
  have hr2 : O 0 (N - 1) < O i j := (oP_lt_iff (V := W) hroot h).2 (by omega)
  rcases hk with ⟨k1, k2, k3, k4⟩ | ⟨k1, k2⟩
  · obtain ⟨x, y, g1, rfl⟩ := ok.open_node (p := k) (by have := ok.olt h; omega) (by obtain ⟨-, m, m', g, -⟩ := k2; exact g.1)
    have q1 := (ok.around h g1).1 k2
    have q2 := (ok.around h' g1).1 k3
    refine ⟨x, y, e, g1, q1.1, q1.2.1, q2.1, q2.2.1, fun u v r1 r2 r3 r4 r5 => ?_⟩
    refine contains_of_le r1 g1 ?_ (by omega)
    rcases Nat.lt_or_ge (O x y) (O u v) with r6 | r6
    · exact absurd ((ok.around h' r1).2 ⟨r4, r5, by omega⟩) (k4 _ r6 ((oP_lt_iff (V := W) r1 h).2 (by omega)))
    · exact r6
  · exact absurd hr1 (k2 _ hr2)

omit ok in
theorem lca_comm {x y : Nat} (h : IsLca L a c i j x y) : IsLca L i j a c x y := by
  obtain ⟨h1, h2, h3, h4, h5, h6⟩ := h
  exact ⟨h1, h4, h5, h2, h3, fun u v g1 g2 g3 g4 g5 => h6 u v g1 g4 g5 g2 g3⟩

/-- `lca` of nodes beside each other. -/
theorem Ok.lca_disjoint (h : IsNode L i j) (h' : IsNode L a c) (hja : j < a) : ∃ x y, s.lca (O i j) (O a c) = some (O x y) ∧ s.lca (O a c) (O i j) = some (O x y) ∧ IsLca L i j a c x y := by
  have hij := h.1
  have hac := h'.1
  have hlt : O i j < O a c := (oP_lt_iff (V := W) h h').2 (by omega)
  have hr : O i j ≠ 0 := by
    intro e
    have := (ok.root_iff h).1 e
    have := h'.2.1
    omega
  obtain ⟨x, y, e, g⟩ := ok.double h h' hja
  refine ⟨x, y, ?_, ?_, g⟩
  · rw [Cst.lca, if_neg (by omega), if_neg (by omega), if_neg (by exact hr), e]
  · rw [Cst.lca, if_pos hlt, if_neg (by exact hr), e]

/-- `lca` of a node and a proper descendant: the parent of the descendant, except for the root. -/
theorem Ok.lca_nested {i' j' : Nat} (h : IsNode L i j) (h' : IsNode L a c) (h1 : a ≤ i) (h2 : j ≤ c) (h3 : ¬ (a = i ∧ c = j)) (hr : ¬ (a = 0 ∧ c + 1 = N)) (hp : IsParent L i j i' j') :
    s.lca (O a c) (O i j) = some (O i' j') ∧ s.lca (O i j) (O a c) = some (O i' j') := by
  have hlt : O a c < O i j := (oP_lt_iff (V := W) h' h).2 (by omega)
  have hr : O a c ≠ 0 := fun e => hr ((ok.root_iff h').1 e)
  have hx : O i j < X a c := (oP_lt_cP (V := W) h' h).2 (by have := h.1; omega)
  have e : s.bp.doubleEnclose (O a c) (O i j) = some (O i' j') := by
    have e1 : s.bp.rrEnclose (O a c) (O i j) = some s.bp.n := by
      rw [Bp.Sada.rrEnclose, ok.findClose h', sbind, if_pos (by omega)]
    rw [Bp.Sada.doubleEnclose, e1, sbind, if_pos rfl, ok.enclose h hp]
  constructor
  · rw [Cst.lca, if_neg (by omega), if_neg (by omega), if_neg (by exact hr), e]
  · rw [Cst.lca, if_pos hlt, if_neg (by exact hr), e]

theorem Ok.lca_self (v : Nat) : s.lca v v = some v := by rw [Cst.lca, if_neg (by omega), if_pos rfl]

theorem Ok.lca_root (v : Nat) : s.lca 0 v = some 0 ∧ s.lca v 0 = some 0 := by
  constructor
  · rw [Cst.lca, if_neg (by omega)]
    by_cases c : 0 = v
    · rw [if_pos c]
    · rw [if_neg c, show Cst.root = 0 from rfl, if_pos rfl]
  · rw [Cst.lca]
    by_cases c : v > 0
    · rw [if_pos c, show Cst.root = 0 from rfl, if_pos rfl]
    · rw [if_neg c, if_pos (by omega)]; congr 1; omega

/-- The node of two leaves. -/
theorem Ok.leaves_lca (h1 : i < j) (h2 : j < N) : ∃ x y, s.lca (O i i) (O j j) = some (O x y) ∧ IsLca L i i j j x y := by
  obtain ⟨x, y, e, -, g⟩ := ok.lca_disjoint (leaf_node (show i < N by omega)) (leaf_node h2) h1
  exact ⟨x, y, e, g⟩

theorem Ok.node (h : IsNode L i j) : s.node i j = some (O i j) := by
  have hij := h.1
  rw [Cst.node, ok.selectLeaf (Nd_lt h), sbind, ok.selectLeaf h.2.1, sbind]
  rcases Nat.eq_or_lt_of_le hij with rfl | hlt
  · exact ok.lca_self _
  · obtain ⟨x, y, e, g1, g2, g3, g4, g5, g6⟩ := ok.leaves_lca hlt h.2.1
    have := g6 i j h (Nat.le_refl _) (by omega) (by omega) (Nat.le_refl _)
    rw [e, show x = i by omega, show y = j by omega]

end

end Sdsl.CstSada
