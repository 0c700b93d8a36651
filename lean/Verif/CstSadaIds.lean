/-
  cst_sada: depths, ids and the indices of the LCP values.
-/
import Verif.CstSadaOps

namespace Sdsl.CstSada

set_option linter.unusedSectionVars false

open Spec Props RmqSct

/-- The opening parenthesis of an inner node. -/
def inn (b : Nat → Bool) (q : Nat) : Bool := b q && b (q + 1)

/-- The closing parenthesis of an inner node. -/
def cin (b : Nat → Bool) (q : Nat) : Bool := !b q && (q == 0 || !b (q - 1))

theorem exc_count (b : Nat → Bool) : ∀ p, Bp.exc b p = 2 * (countTrue b p : Int) - p
  | 0 => rfl
  | p + 1 => by
    have ih := exc_count b p
    show Bp.exc b p + Bp.sgn (b p) = 2 * ((countTrue b p + (b p).toNat : Nat) : Int) - ((p + 1 : Nat) : Int)
    rw [ih]
    cases b p
    · show _ + (-1 : Int) = _; simp only [Bool.toNat_false]; omega
    · show _ + (1 : Int) = _; simp only [Bool.toNat_true]; omega

theorem count_inn (m : Mem) : ∀ p, countTrue (bitAt m) p = countTrue (inn (bitAt m)) p + countTrue (occ .p10 m) p + (occ .p10 m p).toNat
  | 0 => by
    have : occ .p10 m 0 = false := by
      rw [Bool.eq_false_iff]; intro h; have := (occ10_iff.1 h).1; omega
    rw [this]; rfl
  | p + 1 => by
    have ih := count_inn m p
    have e : (inn (bitAt m) p).toNat + (occ .p10 m (p + 1)).toNat = (bitAt m p).toNat := by
      cases h : occ .p10 m (p + 1) with
      | true =>
        obtain ⟨-, h1, h2⟩ := occ10_iff.1 h
        rw [show p + 1 - 1 = p by omega] at h1
        rw [inn, h1, h2]; rfl
      | false =>
        have h1 : ¬ (bitAt m p = true ∧ bitAt m (p + 1) = false) := fun h2 => by
          rw [occ10_iff.2 ⟨by omega, h2.1, h2.2⟩] at h; exact absurd h (by decide)
        rw [inn]
        cases h3 : bitAt m p
        · rfl
        · cases h4 : bitAt m (p + 1)
          · exact absurd ⟨h3, h4⟩ h1
          · rfl
    show countTrue (bitAt m) p + (bitAt m p).toNat = countTrue (inn (bitAt m)) p + (inn (bitAt m) p).toNat + (countTrue (occ .p10 m) p + (occ .p10 m p).toNat) + _
    omega

theorem count_cin (m : Mem) : ∀ p, countTrue (bitAt m) p + (countTrue (cin (bitAt m)) p + countTrue (occ .p10 m) p) = p
  | 0 => rfl
  | p + 1 => by
    have ih := count_cin m p
    have e : (bitAt m p).toNat + ((cin (bitAt m) p).toNat + (occ .p10 m p).toNat) = 1 := by
      cases h : occ .p10 m p with
      | true =>
        obtain ⟨h0, h1, h2⟩ := occ10_iff.1 h
        rw [cin, h1, h2, show (p == 0) = false by rw [beq_eq_false_iff_ne]; omega]; rfl
      | false =>
        have h1 : ¬ (1 ≤ p ∧ bitAt m (p - 1) = true ∧ bitAt m p = false) := fun h2 => by
          rw [occ10_iff.2 h2] at h; exact absurd h (by decide)
        rw [cin]
        cases h3 : bitAt m p
        · cases h4 : bitAt m (p - 1)
          · simp
          · have : p = 0 := by
              rcases Nat.eq_zero_or_pos p with g | g
              · exact g
              · exact absurd ⟨g, h4, h3⟩ h1
            subst this; rfl
        · rfl
    show countTrue (bitAt m) p + (bitAt m p).toNat + (countTrue (cin (bitAt m)) p + (cin (bitAt m) p).toNat + (countTrue (occ .p10 m) p + (occ .p10 m p).toNat)) = _
    omega

section

variable {L : List Nat} {s : Cst} {S D : Nat} (ok : Ok L s S D) {i j a c : Nat}

local notation "W" => vals L
local notation "N" => L.length
local notation "O" => oP (vals L) L.length
local notation "X" => cP (vals L) L.length
local notation "B" => bitAt s.bp.mem

include ok

/-! ### Depths -/

theorem Ok.has_depth : ∀ (w i j : Nat), O i j ≤ w → IsNode L i j → ∃ d : Nat, NodeDepth L i j d ∧ Bp.exc B (O i j) = d := by
  intro w
  induction w with
  | zero =>
    intro i j hw h
    obtain ⟨rfl, e⟩ := (ok.root_iff h).1 (by omega)
    obtain rfl : j = N - 1 := by omega
    exact ⟨0, NodeDepth.root, by rw [ok.root]; rfl⟩
  | succ w ih =>
    intro i j hw h
    by_cases c : i = 0 ∧ j + 1 = N
    · obtain ⟨rfl, e⟩ := c
      obtain rfl : j = N - 1 := by omega
      exact ⟨0, NodeDepth.root, by rw [ok.root]; rfl⟩
    · obtain ⟨a, b, g1, g2⟩ := ok.has_parent h c
      have := g2.uncl.2.1
      obtain ⟨d, k1, k2⟩ := ih a b (by omega) g1.1
      refine ⟨d + 1, NodeDepth.step g1 k1, ?_⟩
      obtain ⟨-, e, -⟩ := g2.2.exc
      have e2 : Bp.sgn (B (O a b)) = 1 := by rw [g2.1]; rfl
      rw [e, Bp.exc_succ, k2, e2]; rfl

theorem Ok.nodeDepth (h : IsNode L i j) : ∃ d, s.nodeDepth (O i j) = some d ∧ NodeDepth L i j d := by
  obtain ⟨d, h1, h2⟩ := ok.has_depth _ i j (Nat.le_refl _) h
  refine ⟨d, ?_, h1⟩
  rw [exc_count] at h2
  have e : countTrue B (O i j + 1) = countTrue B (O i j) + 1 := by
    show countTrue B (O i j) + (B (O i j)).toNat = _
    rw [ok.oopen h]; rfl
  rw [Cst.nodeDepth, ok.rank (ok.olt h), sbind, e, sub_eq (by omega)]
  congr 1; omega

/-- The first child ends in front of the first smallest value. -/
theorem Ok.first_min (h : IsNode L i j) (hij : i < j) : ∃ c, IsNode L i c ∧ c < j ∧ s.inorder (O i j) = some (c + 1) ∧ IsParent L i c i j ∧ ∀ k, i < k → k ≤ j → W (c + 1) ≤ W k := by
  obtain ⟨c, f1, f2, f3, f4⟩ := ok.first h hij
  have hic := f1.1
  refine ⟨c, f1, f2, by rw [Cst.inorder, ← f3, ok.findClose f1, sbind, ok.rb1 f1], f4, ?_⟩
  -- a position of the smallest value, the first one
  have ex : ∀ m, i + 1 ≤ m → m ≤ j → ∃ k0, i < k0 ∧ k0 ≤ m ∧ (∀ k, i < k → k ≤ m → W k0 ≤ W k) ∧ ∀ k, i < k → k < k0 → W k0 < W k := by
    intro m
    induction m with
    | zero => intro h _; omega
    | succ m ih =>
      intro h1 h2
      rcases Nat.eq_or_lt_of_le h1 with e | h3
      · exact ⟨m + 1, by omega, Nat.le_refl _, fun k g1 g2 => by rw [show k = m + 1 by omega], fun k g1 g2 => by omega⟩
      · obtain ⟨k0, g1, g2, g3, g4⟩ := ih (by omega) (by omega)
        rcases Nat.lt_or_ge (W (m + 1)) (W k0) with g | g
        · refine ⟨m + 1, by omega, Nat.le_refl _, fun k k1 k2 => ?_, fun k k1 k2 => ?_⟩
          · rcases Nat.lt_or_ge m k with k3 | k3
            · rw [show k = m + 1 by omega]
            · have := g3 k k1 k3; omega
          · have := g3 k k1 (by omega); omega
        · refine ⟨k0, g1, by omega, fun k k1 k2 => ?_, g4⟩
          rcases Nat.lt_or_ge m k with k3 | k3
          · rw [show k = m + 1 by omega]; exact g
          · exact g3 k k1 k3
  obtain ⟨k0, g1, g2, g3, g4⟩ := ex j (by omega) (Nat.le_refl _)
  have hjn := h.2.1
  have hn : IsNode L i (k0 - 1) := by
    refine ⟨by omega, by omega, fun k k1 k2 => ⟨(h.2.2 k k1 (by omega)).1, Or.inr ?_⟩⟩
    rw [show k0 - 1 + 1 = k0 by omega]
    exact g4 k k1 (by omega)
  have h1 : k0 - 1 ≤ c := by
    rcases Nat.lt_or_ge c (k0 - 1) with g | g
    · have h1 := oP_lt_same (V := W) f1 hn g
      have h2 := oP_lt_same (V := W) hn h (by omega)
      omega
    · exact g
  rcases Nat.lt_or_ge (k0 - 1) c with h2 | h2
  · exfalso
    have h3 : W (c + 1) < W k0 := (f1.2.2 k0 g1 (by omega)).2.resolve_left (by omega)
    have := g3 (c + 1) (by omega) (by omega)
    omega
  · rw [show c + 1 = k0 by omega]; exact g3

theorem Ok.depth_inner (hz : 1 < N → ∃ k, 0 < k ∧ k < N ∧ W k = 0) (h : IsNode L i j) (hij : i < j) (sa : Nat → Option Nat) :
    ∃ d, s.depth L sa (O i j) = some d ∧ (∃ k, i < k ∧ k ≤ j ∧ W k = d) ∧ ∀ k, i < k → k ≤ j → d ≤ W k := by
  have hjn := h.2.1
  rw [Cst.depth, show Cst.root = 0 from rfl]
  by_cases hr : O i j = 0
  · rw [if_pos hr]
    obtain ⟨e1, e2⟩ := (ok.root_iff h).1 hr
    obtain ⟨k, k1, k2, k3⟩ := hz (by omega)
    exact ⟨0, rfl, ⟨k, by omega, by omega, k3⟩, fun _ _ _ => Nat.zero_le _⟩
  · rw [if_neg hr, ok.isLeaf h, sbind, decide_eq_false (by omega), if_neg (by decide)]
    obtain ⟨c, g1, g2, g3, g4, g5⟩ := ok.first_min h hij
    have := g1.1
    refine ⟨W (c + 1), ?_, ⟨c + 1, by omega, by omega, rfl⟩, g5⟩
    rw [g3, sbind, vals, List.getD_eq_getElem?_getD, List.getElem?_eq_getElem (by omega)]; rfl

theorem Ok.depth_leaf (h : i < N) (hn : 1 < N) {sa : Nat → Option Nat} {x : Nat} (hx : x ≤ N) (hs : sa i = some x) : s.depth L sa (O i i) = some (N - x) := by
  have hl := leaf_node h
  rw [Cst.depth, show Cst.root = 0 from rfl, if_neg (fun e => by have := (ok.root_iff hl).1 e; omega), ok.isLeaf hl, sbind, decide_eq_true rfl, if_pos rfl, ok.lb hl, sbind, hs, sbind,
    Cst.size, ok.csz, sub_eq hx]

theorem Ok.depth_root (lcp : List Nat) (sa : Nat → Option Nat) : s.depth lcp sa 0 = some 0 := by rw [Cst.depth, show Cst.root = 0 from rfl, if_pos rfl]

/-! ### Ids -/

theorem Ok.count_open : 2 * countTrue B s.bp.n = s.bp.n := by
  obtain ⟨-, h2, -⟩ := ok.bal.exc
  have := exc_count B s.bp.n
  have e : Bp.exc B 0 = 0 := rfl
  omega

theorem Ok.nodes_eq : s.nodes = countTrue B s.bp.n := by
  have := ok.count_open
  unfold Cst.nodes; omega

theorem Ok.last : B (s.bp.n - 1) = false := by
  have h0 := ok.n0
  have h := P_succ W N (N - 1)
  rw [show N - 1 + 1 = N by omega, ← ok.bpn] at h
  have hcc : 0 < cc W N (N - 1) := by unfold cc; omega
  refine bit_close ok.blk (i := N - 1) (by omega) (by omega) ?_
  rw [show N - 1 + 1 = N by omega, ← ok.bpn]; omega

theorem Ok.npos : 0 < s.bp.n := by
  have := ok.olt (leaf_node ok.n0); omega

theorem Ok.count_leaf : countTrue (occ .p10 s.bp.mem) s.bp.n = N := by
  rw [ok.bpn]; exact leaves_P ok.blk N (Nat.le_refl _)

theorem Ok.occ_n : occ .p10 s.bp.mem s.bp.n = false := by
  rw [Bool.eq_false_iff]
  intro h
  have := (occ10_iff.1 h).2.1
  rw [ok.last] at this; exact absurd this (by decide)

theorem Ok.nodes_inn : s.nodes = N + countTrue (inn B) s.bp.n := by
  have h1 := count_inn s.bp.mem s.bp.n
  rw [ok.occ_n, ok.count_leaf] at h1
  rw [ok.nodes_eq, h1]; simp only [Bool.toNat_false]; omega

theorem Ok.inn_node (h : IsNode L i j) (hij : i < j) : inn B (O i j) = true := by
  rw [inn, ok.oopen h, (ok.next h).2, decide_eq_true hij]; rfl

theorem Ok.occ_open {p : Nat} (h : B p = true) : occ .p10 s.bp.mem p = false := by
  rw [Bool.eq_false_iff]
  intro h'
  have := (occ10_iff.1 h').2.2
  rw [h] at this; exact absurd this (by decide)

theorem Ok.id_leaf (h : i < N) : s.id (O i i) = some i := by
  obtain ⟨h1, h2⟩ := ok.next (leaf_node h)
  rw [decide_eq_false (by omega)] at h2
  rw [Cst.id, ok.at' h1, sbind, h2, if_neg (by decide), ok.lb (leaf_node h)]

theorem Ok.id_inner (h : IsNode L i j) (hij : i < j) : s.id (O i j) = some (N + countTrue (inn B) (O i j)) := by
  obtain ⟨h1, h2⟩ := ok.next h
  rw [decide_eq_true hij] at h2
  have e : countTrue B (O i j + 1) = countTrue B (O i j) + 1 := by
    show countTrue B (O i j) + (B (O i j)).toNat = _
    rw [ok.oopen h]; rfl
  have e2 := count_inn s.bp.mem (O i j)
  rw [ok.occ_open (ok.oopen h)] at e2
  simp only [Bool.toNat_false] at e2
  rw [Cst.id, ok.at' h1, sbind, h2, if_pos rfl, ok.rank (ok.olt h), sbind, e, sub_eq (by omega), sbind, ok.rank10 (by have := ok.olt h; omega), sbind, Cst.size, ok.csz, sub_eq (by omega)]
  congr 1; omega

/-- The step over a leaf. -/
theorem Ok.step {mid : Nat} (h0 : 0 < mid) (h : mid < s.bp.n) : ∃ m, s.stepOver mid = some m ∧ occ .p10 s.bp.mem m = false ∧ (m = mid ∨ m = mid + 1 ∧ B mid = false ∧ B (mid - 1) = true) := by
  rw [Cst.stepOver, ok.at' h, sbind]
  cases h1 : B mid with
  | true => exact ⟨mid, by rw [if_pos rfl], ok.occ_open h1, Or.inl rfl⟩
  | false =>
    rw [if_neg (by decide), sub_eq (by omega), sbind, ok.at' (by omega), sbind]
    cases h2 : B (mid - 1) with
    | true =>
      refine ⟨mid + 1, by rw [if_pos rfl], ?_, Or.inr ⟨rfl, rfl, rfl⟩⟩
      rw [Bool.eq_false_iff]
      intro h'
      have := (occ10_iff.1 h').2.1
      rw [show mid + 1 - 1 = mid by omega, h1] at this; exact absurd this (by decide)
    | false =>
      refine ⟨mid, by rw [if_neg (by decide)], ?_, Or.inl rfl⟩
      rw [Bool.eq_false_iff]
      intro h'
      have := (occ10_iff.1 h').2.1
      rw [h2] at this; exact absurd this (by decide)

theorem Ok.invIdLoop (k : Nat) : ∀ (f lb rb : Nat), rb - lb < f → rb ≤ s.bp.n → countTrue (inn B) lb < k → k ≤ countTrue (inn B) rb →
    ∃ p, s.invIdLoop k f lb rb = some p ∧ p < s.bp.n ∧ inn B p = true ∧ countTrue (inn B) p + 1 = k
  | 0, _, _, h, _, _, _ => by omega
  | f + 1, lb, rb, h, hr, h1, h2 => by
    have hlr : lb < rb := by
      rcases Nat.lt_or_ge lb rb with g | g
      · exact g
      · have := countTrue_mono (inn B) g; omega
    rw [Cst.invIdLoop]
    by_cases c : rb - lb > 1
    · rw [if_pos c]
      have hm1 : lb < lb + (rb - lb) / 2 := by omega
      have hm2 : lb + (rb - lb) / 2 < rb := by omega
      generalize hmid : lb + (rb - lb) / 2 = mid at hm1 hm2
      have hup : mid + 1 = rb → mid - 1 = lb := by omega
      obtain ⟨m, g1, g2, g3⟩ := ok.step (mid := mid) (by omega) (by omega)
      have hmr : m < rb := by
        rcases g3 with rfl | ⟨rfl, q1, q2⟩
        · exact hm2
        · rcases Nat.lt_or_ge (mid + 1) rb with g | g
          · exact g
          · exfalso
            have e := hup (by omega)
            have e1 : countTrue (inn B) rb = countTrue (inn B) lb := by
              rw [show rb = lb + 1 + 1 by omega]
              show countTrue (inn B) lb + (inn B lb).toNat + (inn B (lb + 1)).toNat = _
              rw [e] at q2
              rw [show mid = lb + 1 by omega] at q1
              have e1 : inn B lb = false := by rw [inn, q2, q1]; rfl
              have e2 : inn B (lb + 1) = false := by rw [inn, q1]; rfl
              rw [e1, e2]; rfl
            omega
      have hml : lb < m := by rcases g3 with rfl | ⟨rfl, -⟩ <;> omega
      have e2 := count_inn s.bp.mem m
      rw [g2] at e2
      simp only [Bool.toNat_false] at e2
      rw [g1, sbind, sub_eq (by omega), sbind, ok.rank (by omega), sbind, show m - 1 + 1 = m by omega, ok.rank10 (by omega), sbind, sub_eq (by omega), sbind,
        show countTrue B m - countTrue (occ .p10 s.bp.mem) m = countTrue (inn B) m by omega]
      by_cases c2 : countTrue (inn B) m < k
      · rw [if_pos c2]; exact Ok.invIdLoop k f m rb (by omega) hr c2 h2
      · rw [if_neg c2]; exact Ok.invIdLoop k f lb m (by omega) (by omega) h1 (by omega)
    · rw [if_neg c]
      obtain rfl : rb = lb + 1 := by omega
      have h3 : countTrue (inn B) (lb + 1) = countTrue (inn B) lb + (inn B lb).toNat := rfl
      refine ⟨lb, rfl, by omega, ?_, ?_⟩
      · cases h4 : inn B lb
        · rw [h4] at h3; simp only [Bool.toNat_false] at h3; omega
        · rfl
      · have := Bool.toNat_le (inn B lb); omega

theorem Ok.invId {x : Nat} (hx : x < s.nodes) : ∃ i j, IsNode L i j ∧ s.invId x = some (O i j) ∧ s.id (O i j) = some x := by
  rw [ok.nodes_inn] at hx
  rw [Cst.invId, Cst.size, ok.csz]
  by_cases c : x < N
  · rw [if_pos c, ok.selectLeaf c]
    exact ⟨x, x, leaf_node c, rfl, ok.id_leaf c⟩
  · rw [if_neg c]
    obtain ⟨p, h1, h2, h3, h4⟩ := ok.invIdLoop (x + 1 - N) (s.bp.n + 1) 0 s.bp.n (by omega) (Nat.le_refl _) (by show 0 < _; omega) (by omega)
    have h3' := h3
    rw [inn, Bool.and_eq_true] at h3
    obtain ⟨i, j, k1, rfl⟩ := ok.open_node h2 h3.1
    have k2 := (ok.next k1).2
    rw [h3.2] at k2
    have k3 : i < j := of_decide_eq_true k2.symm
    refine ⟨i, j, k1, h1, ?_⟩
    rw [ok.id_inner k1 k3]
    congr 1; omega

theorem Ok.id_lt (h : IsNode L i j) : ∃ x, s.id (O i j) = some x ∧ x < s.nodes := by
  rw [ok.nodes_inn]
  rcases Nat.eq_or_lt_of_le h.1 with rfl | g
  · exact ⟨i, ok.id_leaf (Nd_lt h), by have := Nd_lt h; omega⟩
  · exact ⟨_, ok.id_inner h g, by have := countTrue_lt_of_true (ok.olt h) (ok.inn_node h g); omega⟩

theorem Ok.id_inj (h : IsNode L i j) (h' : IsNode L a c) (e : s.id (O i j) = s.id (O a c)) : O i j = O a c := by
  rcases Nat.eq_or_lt_of_le h.1 with g | g <;> rcases Nat.eq_or_lt_of_le h'.1 with g' | g'
  · subst g; subst g'
    rw [ok.id_leaf (Nd_lt h), ok.id_leaf (Nd_lt h')] at e
    rw [Option.some.inj e]
  · subst g
    rw [ok.id_leaf (Nd_lt h), ok.id_inner h' g'] at e
    have := Option.some.inj e; have := Nd_lt h; omega
  · subst g'
    rw [ok.id_leaf (Nd_lt h'), ok.id_inner h g] at e
    have := Option.some.inj e; have := Nd_lt h'; omega
  · rw [ok.id_inner h g, ok.id_inner h' g'] at e
    have e := Option.some.inj e
    rcases Nat.lt_trichotomy (O i j) (O a c) with q | q | q
    · have := countTrue_lt_of_true q (ok.inn_node h g); omega
    · exact q
    · have := countTrue_lt_of_true q (ok.inn_node h' g'); omega

/-! ### The indices of the LCP values -/

theorem Ok.cin_node (h : IsNode L i j) (hij : i < j) : cin B (X i j) = true := by
  have hj := h.2.1
  have h1 := (ok.mtch h).2.1
  have h2 := (cP_lt_iff (V := W) (leaf_node hj) h).2 (Or.inr ⟨rfl, hij⟩)
  have b1 := cP_bound (V := W) h
  have b2 := cP_bound (V := W) (leaf_node hj)
  have h3 := bit_close ok.blk hj (q := X i j - 1) (by omega) (by omega)
  rw [cin, h1, h3]; simp

theorem Ok.tlcp_of {k v : Nat} (h : IsNode L i j) (hv : v = O i j) (hk : s.tlcpNode k = some v) : s.tlcpIdx k = some (countTrue (cin B) (X i j)) := by
  subst hv
  have h1 := (ok.mtch h).2.1
  have e : countTrue B (X i j + 1) = countTrue B (X i j) := by
    show countTrue B (X i j) + (B (X i j)).toNat = _
    rw [h1]; rfl
  have e2 := count_cin s.bp.mem (X i j)
  rw [Cst.tlcpIdx, hk, sbind, ok.findClose h, sbind, ok.rank (ok.xlt h), sbind, e, ok.rank10 (by have := ok.xlt h; omega), sbind, sub_eq (by omega), sbind, sub_eq (by omega)]
  congr 1; omega

theorem Ok.tlcpNode_zero : s.tlcpNode 0 = some 0 := by rw [Cst.tlcpNode, if_neg (by omega)]

theorem Ok.tlcpNode {k : Nat} (h : IsNode L i j) (hik : i < k) (hkj : k ≤ j) (hm : ∀ x, i < x → x ≤ j → W k ≤ W x) : s.tlcpNode k = some (O i j) := by
  have hj := h.2.1
  obtain ⟨x, y, e, g1, g2, g3, g4, g5, g6⟩ := ok.double (leaf_node (show k - 1 < N by omega)) (leaf_node (show k < N by omega)) (by omega)
  obtain ⟨q1, q2⟩ := g6 i j h (by omega) (by omega) (by omega) hkj
  have sel := ok.select10 (show k - 1 < N by omega)
  rw [show k - 1 + 1 = k by omega] at sel
  rw [Cst.tlcpNode, if_pos (by omega), sel, sbind, sub_eq (by omega), sbind, ok.select10 (show k < N by omega), sbind, sub_eq (by omega), sbind,
    show O (k - 1) (k - 1) + 1 - 1 = O (k - 1) (k - 1) by omega, show O k k + 1 - 1 = O k k by omega, e]
  have nd := g1.2.2 k (by omega) (by omega)
  have hx : x = i := by
    rcases Nat.lt_or_ge i x with g | g
    · rcases nd.1 with n1 | n1
      · omega
      · have := hm x g (by omega)
        have : W x < W k := n1
        omega
    · omega
  have hy : y = j := by
    rcases Nat.lt_or_ge y j with g | g
    · rcases nd.2 with n1 | n1
      · omega
      · have := hm (y + 1) (by omega) (by omega)
        have : W (y + 1) < W k := n1
        omega
    · omega
  rw [hx, hy]

theorem Ok.cin_total : N + countTrue (cin B) s.bp.n = s.nodes := by
  have h1 := count_cin s.bp.mem s.bp.n
  rw [ok.count_leaf] at h1
  have := ok.count_open
  rw [ok.nodes_eq]; omega

theorem Ok.tlcp_lt (h : IsNode L i j) (hij : i < j) : N + countTrue (cin B) (X i j) < s.nodes := by
  rw [← ok.cin_total]
  have := countTrue_lt_of_true (ok.xlt h) (ok.cin_node h hij)
  omega

theorem Ok.tlcp_order (h : IsNode L i j) (hij : i < j) (h' : IsNode L a c) : countTrue (cin B) (X i j) < countTrue (cin B) (X a c) ↔ j < c ∨ j = c ∧ a < i := by
  rw [← cP_lt_iff (V := W) h h']
  constructor
  · intro g
    rcases Nat.lt_or_ge (X i j) (X a c) with q | q
    · exact q
    · have := countTrue_mono (cin B) q; omega
  · intro q
    have := countTrue_lt_of_true q (ok.cin_node h hij); omega

end

end Sdsl.CstSada
