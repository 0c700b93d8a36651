/-
  Construction of bp_support_sada: the small blocks and the nodes of the tree hold the minimum and maximum of the excess over the positions they cover.
-/
import Verif.BpSada
import Verif.BpScan
import Verif.CsaSample
import Verif.SelectBuild

namespace Sdsl.Bp

open Spec

/-- `x` is the minimum of `N` and the values of `f` on `[a, e)`. -/
def LoV (f : Nat → Int) (N : Int) (a e : Nat) (x : Int) : Prop :=
  x ≤ N ∧ (∀ q, a ≤ q → q < e → x ≤ f q) ∧ (x = N ∨ ∃ q, a ≤ q ∧ q < e ∧ f q = x)

/-- `x` is the maximum of `N` and the values of `f` on `[a, e)`. -/
def HiV (f : Nat → Int) (N : Int) (a e : Nat) (x : Int) : Prop :=
  N ≤ x ∧ (∀ q, a ≤ q → q < e → f q ≤ x) ∧ (x = N ∨ ∃ q, a ≤ q ∧ q < e ∧ f q = x)

theorem LoV.empty {f : Nat → Int} {N : Int} {a e : Nat} (h : e ≤ a) : LoV f N a e N := ⟨Int.le_refl _, fun q h1 h2 => by omega, Or.inl rfl⟩
theorem HiV.empty {f : Nat → Int} {N : Int} {a e : Nat} (h : e ≤ a) : HiV f N a e N := ⟨Int.le_refl _, fun q h1 h2 => by omega, Or.inl rfl⟩

theorem LoV.eq_of_empty {f : Nat → Int} {N x : Int} {a e : Nat} (h : LoV f N a e x) (he : e ≤ a) : x = N := by
  rcases h.2.2 with h1 | ⟨q, h1, h2, _⟩
  · exact h1
  · omega

theorem HiV.eq_of_empty {f : Nat → Int} {N x : Int} {a e : Nat} (h : HiV f N a e x) (he : e ≤ a) : x = N := by
  rcases h.2.2 with h1 | ⟨q, h1, h2, _⟩
  · exact h1
  · omega

/-- Joining two ranges: keep the smaller value. -/
theorem LoV.join {f : Nat → Int} {N x y : Int} {a e g : Nat} (h : LoV f N a e x) (h' : LoV f N e g y) (hae : a ≤ e) (heg : e ≤ g) :
    (x ≤ y → LoV f N a g x) ∧ (y ≤ x → LoV f N a g y) := by
  obtain ⟨h1, h2, h3⟩ := h
  obtain ⟨h4, h5, h6⟩ := h'
  constructor
  · intro hxy
    refine ⟨h1, fun q h7 h8 => ?_, ?_⟩
    · rcases Nat.lt_or_ge q e with h9 | h9
      · exact h2 q h7 h9
      · have := h5 q h9 h8; omega
    · rcases h3 with h3 | ⟨q, h7, h8, h9⟩
      · exact Or.inl h3
      · exact Or.inr ⟨q, h7, by omega, h9⟩
  · intro hxy
    refine ⟨h4, fun q h7 h8 => ?_, ?_⟩
    · rcases Nat.lt_or_ge q e with h9 | h9
      · have := h2 q h7 h9; omega
      · exact h5 q h9 h8
    · rcases h6 with h3 | ⟨q, h7, h8, h9⟩
      · exact Or.inl h3
      · exact Or.inr ⟨q, by omega, h8, h9⟩

theorem HiV.join {f : Nat → Int} {N x y : Int} {a e g : Nat} (h : HiV f N a e x) (h' : HiV f N e g y) (hae : a ≤ e) (heg : e ≤ g) :
    (y ≤ x → HiV f N a g x) ∧ (x ≤ y → HiV f N a g y) := by
  obtain ⟨h1, h2, h3⟩ := h
  obtain ⟨h4, h5, h6⟩ := h'
  constructor
  · intro hxy
    refine ⟨h1, fun q h7 h8 => ?_, ?_⟩
    · rcases Nat.lt_or_ge q e with h9 | h9
      · exact h2 q h7 h9
      · have := h5 q h9 h8; omega
    · rcases h3 with h3 | ⟨q, h7, h8, h9⟩
      · exact Or.inl h3
      · exact Or.inr ⟨q, h7, by omega, h9⟩
  · intro hxy
    refine ⟨h4, fun q h7 h8 => ?_, ?_⟩
    · rcases Nat.lt_or_ge q e with h9 | h9
      · have := h2 q h7 h9; omega
      · exact h5 q h9 h8
    · rcases h6 with h3 | ⟨q, h7, h8, h9⟩
      · exact Or.inl h3
      · exact Or.inr ⟨q, by omega, h8, h9⟩

theorem LoV.single {f : Nat → Int} {N : Int} {a : Nat} (h : f a ≤ N) : LoV f N a (a + 1) (f a) :=
  ⟨h, fun q h1 h2 => by obtain rfl : q = a := by omega
                        exact Int.le_refl _, Or.inr ⟨a, by omega, by omega, rfl⟩⟩

theorem HiV.single {f : Nat → Int} {N : Int} {a : Nat} (h : N ≤ f a) : HiV f N a (a + 1) (f a) :=
  ⟨h, fun q h1 h2 => by obtain rfl : q = a := by omega
                        exact Int.le_refl _, Or.inr ⟨a, by omega, by omega, rfl⟩⟩

/-- The excess after position `q`. -/
def ex1 (mem : Mem) (q : Nat) : Int := exc (bitAt mem) (q + 1)

theorem exc_abs (b : Nat → Bool) (n : Nat) : -(n : Int) ≤ exc b n ∧ exc b n ≤ n := by
  have := exc_bounds b 0 n
  rw [Nat.zero_add, show exc b 0 = 0 by rfl] at this
  omega

/-- Minimum and maximum of a small block. -/
structure SmlOk (mem : Mem) (n S : Nat) (sml : Arr) (k : Nat) : Prop where
  ok : ∃ x y, sml.get (2 * k) = some x ∧ sml.get (2 * k + 1) = some y ∧
    LoV (ex1 mem) (exc (bitAt mem) (k * S) + 1) (k * S) (min ((k + 1) * S) n) (exc (bitAt mem) (k * S) + 1 - x) ∧
    HiV (ex1 mem) (exc (bitAt mem) (k * S) - 1) (k * S) (min ((k + 1) * S) n) (exc (bitAt mem) (k * S) + y - 1)

/-- The entries of node `v` hold the minimum and maximum over `[a, e)`. -/
structure NodeOk (mem : Mem) (n : Nat) (med : Arr) (v a e : Nat) : Prop where
  ok : ∃ x y, med.get (2 * v) = some x ∧ med.get (2 * v + 1) = some y ∧ LoV (ex1 mem) n a e ((n : Int) - x) ∧ HiV (ex1 mem) (-(n : Int)) a e ((y : Int) - n)

structure BInv (mem : Mem) (n S D inner mb i c : Nat) (st : BuildSt) : Prop where
  hc : c ≤ i
  h1 : i < n → c = i / S * S
  h2 : i = n → c = n
  abs : st.abs = exc (bitAt mem) c
  rel : st.rel = exc (bitAt mem) i - exc (bitAt mem) c
  lo : LoV (ex1 mem) (exc (bitAt mem) c + 1) c i (exc (bitAt mem) c + st.minEx)
  hi : HiV (ex1 mem) (exc (bitAt mem) c - 1) c i (exc (bitAt mem) c + st.maxEx)
  smlLen : st.sml.xs.length = 2 * ((n + S - 1) / S)
  smlW : S + 2 < 2 ^ st.sml.width
  sml : ∀ k, k * S < c → SmlOk mem n S st.sml k
  medLen : st.med.xs.length = 2 * (mb + inner)
  medW : 2 * n + 2 < 2 ^ st.med.width
  leaf : ∀ m, m < mb → NodeOk mem n st.med (inner + m) (m * (S * D)) (min ((m + 1) * (S * D)) c)
  node : ∀ v, v < inner → st.med.get (2 * v) = some 0 ∧ st.med.get (2 * v + 1) = some 0

theorem SmlOk.congr {mem : Mem} {n S k : Nat} {a b : Arr} (h : SmlOk mem n S a k) (h1 : b.get (2 * k) = a.get (2 * k)) (h2 : b.get (2 * k + 1) = a.get (2 * k + 1)) : SmlOk mem n S b k := by
  obtain ⟨x, y, h3, h4, h5⟩ := h.ok
  exact ⟨x, y, by rw [h1, h3], by rw [h2, h4], h5⟩

theorem NodeOk.congr {mem : Mem} {n v l e : Nat} {a b : Arr} (h : NodeOk mem n a v l e) (h1 : b.get (2 * v) = a.get (2 * v)) (h2 : b.get (2 * v + 1) = a.get (2 * v + 1)) : NodeOk mem n b v l e := by
  obtain ⟨x, y, h3, h4, h5⟩ := h.ok
  exact ⟨x, y, by rw [h1, h3], by rw [h2, h4], h5⟩

/-- Updating the minimum of a node. -/
theorem upd_lo {mem : Mem} {n v a e g : Nat} {med : Arr} {m : Int} {x : Nat} (hx : med.get (2 * v) = some x) (hl : LoV (ex1 mem) n a e ((n : Int) - x)) (hm : LoV (ex1 mem) n e g m)
    (hae : a ≤ e) (heg : e ≤ g) (hw : 2 * n + 2 < 2 ^ med.width) (hm2 : -(n : Int) ≤ m) :
    ∃ med' x', setIf (decide (-m + n > x)) med (2 * v) (-m + n).toNat = some med' ∧ med'.xs.length = med.xs.length ∧ med'.width = med.width ∧
      (∀ t, t ≠ 2 * v → med'.get t = med.get t) ∧ med'.get (2 * v) = some x' ∧ LoV (ex1 mem) n a g ((n : Int) - x') := by
  have hj := hl.join hm hae heg
  have hmn := hm.1
  unfold setIf
  split <;> rename_i hif <;> rw [decide_eq_true_iff] at hif
  · have hlen : 2 * v < med.xs.length := (List.getElem?_eq_some_iff.1 hx).1
    obtain ⟨b, h1, h2, h3, h4⟩ := Csa.set_spec (a := med) (i := 2 * v) (x := (-m + n).toNat) hlen (by omega)
    exact ⟨b, (-m + n).toNat, h1, h2, h3, fun t ht => by rw [h4, if_neg ht], by rw [h4, if_pos rfl],
      by rw [show (n : Int) - ((-m + n).toNat : Nat) = m by omega]; exact hj.2 (by omega)⟩
  · exact ⟨med, x, rfl, rfl, rfl, fun _ _ => rfl, hx, hj.1 (by omega)⟩

theorem upd_hi {mem : Mem} {n v a e g : Nat} {med : Arr} {m : Int} {x : Nat} (hx : med.get (2 * v + 1) = some x) (hl : HiV (ex1 mem) (-(n : Int)) a e ((x : Int) - n))
    (hm : HiV (ex1 mem) (-(n : Int)) e g m)
    (hae : a ≤ e) (heg : e ≤ g) (hw : 2 * n + 2 < 2 ^ med.width) (hm2 : m ≤ n) :
    ∃ med' x', setIf (decide (m + n > x)) med (2 * v + 1) (m + n).toNat = some med' ∧ med'.xs.length = med.xs.length ∧ med'.width = med.width ∧
      (∀ t, t ≠ 2 * v + 1 → med'.get t = med.get t) ∧ med'.get (2 * v + 1) = some x' ∧ HiV (ex1 mem) (-(n : Int)) a g ((x' : Int) - n) := by
  have hj := hl.join hm hae heg
  have hmn := hm.1
  unfold setIf
  split <;> rename_i hif <;> rw [decide_eq_true_iff] at hif
  · have hlen : 2 * v + 1 < med.xs.length := (List.getElem?_eq_some_iff.1 hx).1
    obtain ⟨b, h1, h2, h3, h4⟩ := Csa.set_spec (a := med) (i := 2 * v + 1) (x := (m + n).toNat) hlen (by omega)
    exact ⟨b, (m + n).toNat, h1, h2, h3, fun t ht => by rw [h4, if_neg ht], by rw [h4, if_pos rfl],
      by rw [show (((m + n).toNat : Nat) : Int) - n = m by omega]; exact hj.2 (by omega)⟩
  · exact ⟨med, x, rfl, rfl, rfl, fun _ _ => rfl, hx, hj.1 (by omega)⟩

theorem LoV.attained {mem : Mem} {c e : Nat} {x : Int} (h : LoV (ex1 mem) (exc (bitAt mem) c + 1) c e x) (hce : c < e) : ∃ q, c ≤ q ∧ q < e ∧ ex1 mem q = x := by
  rcases h.2.2 with h1 | h1
  · refine ⟨c, by omega, hce, ?_⟩
    have h2 := h.2.1 c (by omega) hce
    have h3 := exc_step (bitAt mem) c
    rw [ex1] at h2 ⊢
    omega
  · exact h1

theorem HiV.attained {mem : Mem} {c e : Nat} {x : Int} (h : HiV (ex1 mem) (exc (bitAt mem) c - 1) c e x) (hce : c < e) : ∃ q, c ≤ q ∧ q < e ∧ ex1 mem q = x := by
  rcases h.2.2 with h1 | h1
  · refine ⟨c, by omega, hce, ?_⟩
    have h2 := h.2.1 c (by omega) hce
    have h3 := exc_step (bitAt mem) c
    rw [ex1] at h2 ⊢
    omega
  · exact h1

theorem ex1_abs {mem : Mem} {n q : Nat} (h : q < n) : -(n : Int) ≤ ex1 mem q ∧ ex1 mem q ≤ n := by
  have := exc_abs (bitAt mem) (q + 1)
  rw [ex1]
  omega

theorem LoV.widen {mem : Mem} {n c e : Nat} {x : Int} (h : LoV (ex1 mem) (exc (bitAt mem) c + 1) c e x) (hce : c < e) (hen : e ≤ n) : LoV (ex1 mem) n c e x := by
  obtain ⟨q, h1, h2, h3⟩ := h.attained hce
  exact ⟨by have := (ex1_abs (mem := mem) (n := n) (q := q) (by omega)).2; omega, h.2.1, Or.inr ⟨q, h1, h2, h3⟩⟩

theorem HiV.widen {mem : Mem} {n c e : Nat} {x : Int} (h : HiV (ex1 mem) (exc (bitAt mem) c - 1) c e x) (hce : c < e) (hen : e ≤ n) : HiV (ex1 mem) (-(n : Int)) c e x := by
  obtain ⟨q, h1, h2, h3⟩ := h.attained hce
  exact ⟨by have := (ex1_abs (mem := mem) (n := n) (q := q) (by omega)).1; omega, h.2.1, Or.inr ⟨q, h1, h2, h3⟩⟩

theorem lt_ceil {n B k : Nat} (hB : 0 < B) (h : k * B < n) : k < (n + B - 1) / B := by
  have : k + 1 ≤ (n + B - 1) / B := by rw [Nat.le_div_iff_mul_le hB, Nat.add_mul]; omega
  omega

theorem blockEnd_ok {mem : Mem} {n S D inner mb i c : Nat} {st : BuildSt} (hS : 0 < S) (hD : 0 < D) (hmb : mb = (n + S * D - 1) / (S * D)) (hi : i < n) (hci : c = i / S * S)
    (hend : (i + 1) % S = 0 ∨ i + 1 = n)
    (abs : st.abs = exc (bitAt mem) c) (rel : st.rel = exc (bitAt mem) (i + 1) - exc (bitAt mem) c)
    (lo : LoV (ex1 mem) (exc (bitAt mem) c + 1) c (i + 1) (exc (bitAt mem) c + st.minEx)) (hiv : HiV (ex1 mem) (exc (bitAt mem) c - 1) c (i + 1) (exc (bitAt mem) c + st.maxEx))
    (smlLen : st.sml.xs.length = 2 * ((n + S - 1) / S)) (smlW : S + 2 < 2 ^ st.sml.width) (sml : ∀ k, k * S < c → SmlOk mem n S st.sml k)
    (medLen : st.med.xs.length = 2 * (mb + inner)) (medW : 2 * n + 2 < 2 ^ st.med.width)
    (leaf : ∀ m, m < mb → NodeOk mem n st.med (inner + m) (m * (S * D)) (min ((m + 1) * (S * D)) c))
    (node : ∀ v, v < inner → st.med.get (2 * v) = some 0 ∧ st.med.get (2 * v + 1) = some 0) :
    ∃ st', blockEnd n D inner (i / S) st = some st' ∧ BInv mem n S D inner mb (i + 1) (i + 1) st' := by
  have e1 : i / S * S ≤ i := Nat.div_mul_le_self i S
  have e2 : i < (i / S + 1) * S := by
    have := Nat.lt_mul_div_succ i hS
    rw [Nat.mul_comm]; exact this
  have e3 : i + 1 = min ((i / S + 1) * S) n := by
    rcases hend with h | h
    · have h5 : (i + 1) / S * S = i + 1 := by
        have := Nat.div_add_mod (i + 1) S
        rw [h, Nat.mul_comm] at this; omega
      have h6 : (i + 1) / S = i / S + 1 := by
        apply Nat.le_antisymm
        · have : (i + 1) / S < i / S + 2 := by
            rw [Nat.div_lt_iff_lt_mul hS, show i / S + 2 = i / S + 1 + 1 by omega, Nat.add_mul]; omega
          omega
        · rcases Nat.lt_or_ge ((i + 1) / S) (i / S + 1) with h8 | h8
          · have h7 := Nat.mul_le_mul_right S (Nat.le_of_lt_succ h8)
            omega
          · exact h8
      rw [h6] at h5
      omega
    · omega
  have e4 := lt_ceil (n := n) hS (show i / S * S < n by omega)
  have f1 : i / S / D * D ≤ i / S := Nat.div_mul_le_self _ _
  have f2 : i / S + 1 ≤ (i / S / D + 1) * D := by
    have := Nat.lt_mul_div_succ (i / S) hD
    rw [Nat.mul_comm] at this; exact this
  have g1 : i / S / D * (S * D) ≤ i / S * S := by
    rw [Nat.mul_comm S D, ← Nat.mul_assoc]; exact Nat.mul_le_mul_right S f1
  have g2 : (i / S + 1) * S ≤ (i / S / D + 1) * (S * D) := by
    rw [Nat.mul_comm S D, ← Nat.mul_assoc]; exact Nat.mul_le_mul_right S f2
  have g3 : i / S / D < mb := by rw [hmb]; exact lt_ceil (Nat.mul_pos hS hD) (by omega)
  have hM : 0 < S * D := Nat.mul_pos hS hD
  generalize hk : i / S = k at *
  generalize hm : k / D = m at *
  subst hci
  obtain ⟨q1, a1, a2, a3⟩ := lo.attained (by omega)
  obtain ⟨q2, b1, b2, b3⟩ := hiv.attained (by omega)
  have a4 := exc_bounds (bitAt mem) (k * S) (q1 + 1 - k * S)
  have b4 := exc_bounds (bitAt mem) (k * S) (q2 + 1 - k * S)
  rw [show k * S + (q1 + 1 - k * S) = q1 + 1 by omega] at a4
  rw [show k * S + (q2 + 1 - k * S) = q2 + 1 by omega] at b4
  have a5 := ex1_abs (mem := mem) (n := n) (q := q1) (by omega)
  have b5 := ex1_abs (mem := mem) (n := n) (q := q2) (by omega)
  rw [ex1] at a3 b3 a5 b5
  rw [Nat.add_mul] at e2
  have lo1 := lo.1
  have hi1 := hiv.1
  unfold blockEnd
  dsimp only
  obtain ⟨s1, c1, c2, c3, c4⟩ := Csa.set_spec (a := st.sml) (i := 2 * k) (x := (-(st.minEx - 1)).toNat) (by omega) (by omega)
  rw [c1, sbind]
  obtain ⟨s2, d1, d2, d3, d4⟩ := Csa.set_spec (a := s1) (i := 2 * k + 1) (x := (st.maxEx + 1).toNat) (by omega) (by rw [c3]; omega)
  rw [d1, sbind, hm]
  obtain ⟨x, y, l1, l2, l3, l4⟩ := (leaf m g3).ok
  rw [show min ((m + 1) * (S * D)) (k * S) = k * S by omega] at l3 l4
  rw [l1, sbind]
  obtain ⟨m1, x', t1, t2, t3, t4, t5, t6⟩ := upd_lo l1 l3 (lo.widen (n := n) (by omega) (by omega)) g1 (by omega) medW (by omega)
  rw [abs, t1, sbind, t4 _ (by omega), l2, sbind]
  obtain ⟨m2, y', u1, u2, u3, u4, u5, u6⟩ := upd_hi (med := m1) (v := inner + m) (x := y) (by rw [t4 _ (by omega), l2]) l4 (hiv.widen (n := n) (by omega) (by omega)) g1 (by omega) (by rw [t3]; exact medW)
    (by omega)
  rw [u1, sbind]
  refine ⟨_, rfl, ⟨Nat.le_refl _, ?_, fun h => h, ?_, ?_, LoV.empty (Nat.le_refl _), ?_, ?_, ?_, ?_, ?_, ?_, ?_, ?_⟩⟩
  · intro h
    rcases hend with h' | h'
    · have := Nat.div_add_mod (i + 1) S
      rw [h', Nat.mul_comm] at this; omega
    · omega
  · dsimp only; omega
  · dsimp only; omega
  · exact HiV.empty (Nat.le_refl _)
  · dsimp only; omega
  · dsimp only; rw [d3, c3]; exact smlW
  · intro k' hk'
    dsimp only
    rcases Nat.lt_or_ge k' k with h | h
    · refine (sml k' ?_).congr ?_ ?_
      · have := Nat.mul_le_mul_right S (show k' + 1 ≤ k by omega)
        rw [Nat.add_mul] at this; omega
      · rw [d4, if_neg (by omega), c4, if_neg (by omega)]
      · rw [d4, if_neg (by omega), c4, if_neg (by omega)]
    · have : k' = k := by
        rcases Nat.lt_or_ge k k' with h' | h'
        · have := Nat.mul_le_mul_right S (show k + 1 ≤ k' by omega)
          rw [Nat.add_mul] at this; omega
        · omega
      subst this
      refine ⟨_, _, by rw [d4, if_neg (by omega), c4, if_pos rfl], by rw [d4, if_pos rfl], ?_, ?_⟩
      · rw [← e3, show exc (bitAt mem) (k' * S) + 1 - ((-(st.minEx - 1)).toNat : Nat) = exc (bitAt mem) (k' * S) + st.minEx by omega]; exact lo
      · rw [← e3, show exc (bitAt mem) (k' * S) + ((st.maxEx + 1).toNat : Nat) - 1 = exc (bitAt mem) (k' * S) + st.maxEx by omega]; exact hiv
  · dsimp only; omega
  · dsimp only; rw [u3, t3]; exact medW
  · intro m' hm'
    dsimp only
    rcases Nat.lt_or_ge m' m with h | h
    · have h5 := Nat.mul_le_mul_right (S * D) (show m' + 1 ≤ m by omega)
      have := leaf m' hm'
      rw [show min ((m' + 1) * (S * D)) (i + 1) = min ((m' + 1) * (S * D)) (k * S) by omega]
      refine this.congr ?_ ?_
      · rw [u4 _ (by omega), t4 _ (by omega)]
      · rw [u4 _ (by omega), t4 _ (by omega)]
    · rcases Nat.lt_or_ge m m' with h' | h'
      · have h5 := Nat.mul_le_mul_right (S * D) (show m + 1 ≤ m' by omega)
        obtain ⟨x2, y2, z1, z2, z3, z4⟩ := (leaf m' hm').ok
        have z5 := z3.eq_of_empty (by omega)
        have z6 := z4.eq_of_empty (by omega)
        refine ⟨x2, y2, ?_, ?_, ?_, ?_⟩
        · rw [u4 _ (by omega), t4 _ (by omega), z1]
        · rw [u4 _ (by omega), t4 _ (by omega), z2]
        · rw [z5]; exact LoV.empty (by omega)
        · rw [z6]; exact HiV.empty (by omega)
      · obtain rfl : m' = m := by omega
        rw [show min ((m' + 1) * (S * D)) (i + 1) = i + 1 by omega]
        exact ⟨x', y', by rw [u4 _ (by omega), t5], u5, t6, u6⟩
  · intro v hv
    dsimp only
    rw [u4 _ (by omega), t4 _ (by omega), u4 _ (by omega), t4 _ (by omega)]
    exact node v hv

theorem buildStep_ok {mem : Mem} {n S D inner mb i c : Nat} {st : BuildSt} (hS : 0 < S) (hD : 0 < D) (hmb : mb = (n + S * D - 1) / (S * D)) (hn : n ≤ 64 * mem.length) (hi : i < n)
    (h : BInv mem n S D inner mb i c st) : ∃ st' c', buildStep mem n S D inner i st = some st' ∧ BInv mem n S D inner mb (i + 1) c' st' := by
  unfold buildStep
  rw [bit_eq (show i < 64 * mem.length by omega), sbind]
  have hc := h.h1 hi
  have hr : st.rel + sgn (bitAt mem i) = exc (bitAt mem) (i + 1) - exc (bitAt mem) c := by rw [exc_succ, h.rel]; omega
  rw [hr]
  have hs := exc_step (bitAt mem) i
  have hlo : LoV (ex1 mem) (exc (bitAt mem) c + 1) c (i + 1) (exc (bitAt mem) c + if exc (bitAt mem) (i + 1) - exc (bitAt mem) c < st.minEx then exc (bitAt mem) (i + 1) - exc (bitAt mem) c else st.minEx) := by
    obtain ⟨h1, h2, h3⟩ := h.lo
    split
    · refine ⟨by omega, fun q h4 h5 => ?_, Or.inr ⟨i, h.hc, by omega, by rw [ex1]; omega⟩⟩
      rcases Nat.lt_or_ge q i with h6 | h6
      · have := h2 q h4 h6; omega
      · obtain rfl : q = i := by omega
        rw [ex1]; omega
    · refine ⟨h1, fun q h4 h5 => ?_, ?_⟩
      · rcases Nat.lt_or_ge q i with h6 | h6
        · exact h2 q h4 h6
        · obtain rfl : q = i := by omega
          rw [ex1]; omega
      · rcases h3 with h3 | ⟨q, h3, h4, h5⟩
        · exact Or.inl h3
        · exact Or.inr ⟨q, h3, by omega, h5⟩
  have hhi : HiV (ex1 mem) (exc (bitAt mem) c - 1) c (i + 1) (exc (bitAt mem) c + if exc (bitAt mem) (i + 1) - exc (bitAt mem) c > st.maxEx then exc (bitAt mem) (i + 1) - exc (bitAt mem) c else st.maxEx) := by
    obtain ⟨h1, h2, h3⟩ := h.hi
    split
    · refine ⟨by omega, fun q h4 h5 => ?_, Or.inr ⟨i, h.hc, by omega, by rw [ex1]; omega⟩⟩
      rcases Nat.lt_or_ge q i with h6 | h6
      · have := h2 q h4 h6; omega
      · obtain rfl : q = i := by omega
        rw [ex1]; omega
    · refine ⟨h1, fun q h4 h5 => ?_, ?_⟩
      · rcases Nat.lt_or_ge q i with h6 | h6
        · exact h2 q h4 h6
        · obtain rfl : q = i := by omega
          rw [ex1]; omega
      · rcases h3 with h3 | ⟨q, h3, h4, h5⟩
        · exact Or.inl h3
        · exact Or.inr ⟨q, h3, by omega, h5⟩
  dsimp only
  split
  · rename_i hend
    obtain ⟨st', e, hb⟩ := blockEnd_ok (st := { st with rel := exc (bitAt mem) (i + 1) - exc (bitAt mem) c, maxEx := (if exc (bitAt mem) (i + 1) - exc (bitAt mem) c > st.maxEx then exc (bitAt mem) (i + 1) - exc (bitAt mem) c else st.maxEx), minEx := (if exc (bitAt mem) (i + 1) - exc (bitAt mem) c < st.minEx then exc (bitAt mem) (i + 1) - exc (bitAt mem) c else st.minEx) }) (inner := inner) hS hD hmb hi hc hend h.abs rfl hlo hhi
      h.smlLen h.smlW h.sml h.medLen h.medW h.leaf h.node
    exact ⟨st', i + 1, e, hb⟩
  · rename_i hend
    refine ⟨_, c, rfl, ⟨by have := h.hc; omega, fun _ => ?_, fun hh => by omega, h.abs, rfl, hlo, hhi, h.smlLen, h.smlW, h.sml, h.medLen, h.medW, h.leaf, h.node⟩⟩
    rw [hc]
    congr 1
    rw [Nat.succ_div_of_not_dvd (fun hd => hend (Or.inl (Nat.mod_eq_zero_of_dvd hd)))]

theorem buildLoop_ok {mem : Mem} {n S D inner mb : Nat} (hS : 0 < S) (hD : 0 < D) (hmb : mb = (n + S * D - 1) / (S * D)) (hn : n ≤ 64 * mem.length) :
    ∀ (k i c : Nat) (st : BuildSt), i + k = n → BInv mem n S D inner mb i c st → ∃ st', buildLoop mem n S D inner k i st = some st' ∧ BInv mem n S D inner mb n n st'
  | 0, i, c, st, hk, h => by
    obtain rfl : i = n := by omega
    obtain rfl := h.h2 rfl
    exact ⟨st, rfl, h⟩
  | k + 1, i, c, st, hk, h => by
    obtain ⟨st', c', e, h'⟩ := buildStep_ok hS hD hmb hn (by omega) h
    rw [buildLoop, e, sbind]
    exact buildLoop_ok hS hD hmb hn k (i + 1) c' st' (by omega) h'

theorem binv_init {mem : Mem} {n S D inner mb w1 w2 : Nat} (h1 : S + 2 < 2 ^ w1) (h2 : 2 * n + 2 < 2 ^ w2)
    (c1 : IntVec.clampWidth w1 = w1) (c2 : IntVec.clampWidth w2 = w2) :
    BInv mem n S D inner mb 0 0 ⟨1, -1, 0, 0, Arr.new (2 * ((n + S - 1) / S)) 0 w1, Arr.new (2 * (mb + inner)) 0 w2⟩ := by
  refine ⟨Nat.le_refl _, fun _ => by rw [Nat.zero_div, Nat.zero_mul], fun h => h, rfl, rfl, LoV.empty (Nat.le_refl _), HiV.empty (Nat.le_refl _), ?_, ?_, fun k hk => by omega, ?_, ?_, ?_, ?_⟩
  · dsimp only; rw [Select.Arr.new_xs]
  · show S + 2 < 2 ^ IntVec.clampWidth w1
    rw [c1]; exact h1
  · dsimp only; rw [Select.Arr.new_xs]
  · show 2 * n + 2 < 2 ^ IntVec.clampWidth w2
    rw [c2]; exact h2
  · intro m hm
    refine ⟨0, 0, ?_, ?_, ?_, ?_⟩
    · dsimp only; rw [Csa.new_get _ _ (by omega), Nat.zero_mod]
    · dsimp only; rw [Csa.new_get _ _ (by omega), Nat.zero_mod]
    · exact LoV.empty (by omega)
    · rw [show ((0 : Nat) : Int) - n = -(n : Int) by omega]; exact HiV.empty (by omega)
  · intro v hv
    dsimp only
    rw [Csa.new_get _ _ (by omega), Csa.new_get _ _ (by omega), Nat.zero_mod]
    exact ⟨rfl, rfl⟩

/-! ### The tree -/

/-- Node `u` (heap order, root 1) has height `h` in the complete tree with `2^K` leaves. -/
def Lev (K u h : Nat) : Prop := ∃ d, K = d + h ∧ 2 ^ d ≤ u ∧ u < 2 ^ (d + 1)

/-- First position of leaf `x` (heap order). -/
def pos (K M x : Nat) : Nat := (x - 2 ^ K) * M

theorem pos_mono {K M x y : Nat} (h : x ≤ y) : pos K M x ≤ pos K M y := Nat.mul_le_mul_right M (by omega)

theorem lev_exists : ∀ (K u : Nat), 0 < u → u < 2 ^ (K + 1) → ∃ h, Lev K u h
  | 0, u, h1, h2 => ⟨0, 0, rfl, h1, h2⟩
  | K + 1, u, h1, h2 => by
    rcases Nat.lt_or_ge u (2 ^ (K + 1)) with h | h
    · obtain ⟨e, d, h3, h4⟩ := lev_exists K u h1 h
      exact ⟨e + 1, d, by omega, h4⟩
    · exact ⟨0, K + 1, rfl, h, h2⟩

theorem Lev.parent {K u h : Nat} (hl : Lev K u h) (hu : 2 ≤ u) : Lev K (u / 2) (h + 1) := by
  obtain ⟨d, h1, h2, h3⟩ := hl
  match d, h1, h2, h3 with
  | 0, h1, h2, h3 => rw [Nat.zero_add, Nat.pow_one] at h3; omega
  | d + 1, h1, h2, h3 =>
    rw [Nat.pow_succ] at h2 h3
    exact ⟨d, by omega, by omega, by omega⟩

theorem Lev.child {K u h : Nat} (hl : Lev K u (h + 1)) : Lev K (2 * u) h ∧ Lev K (2 * u + 1) h := by
  obtain ⟨d, h1, h2, h3⟩ := hl
  rw [Nat.pow_succ] at h3
  refine ⟨⟨d + 1, by omega, ?_, ?_⟩, ⟨d + 1, by omega, ?_, ?_⟩⟩ <;> simp only [Nat.pow_succ] <;> omega

theorem Lev.pos {K u h : Nat} (hl : Lev K u h) : 0 < u := by
  obtain ⟨d, h1, h2, h3⟩ := hl
  have := Nat.two_pow_pos d
  omega

theorem Lev.zero_iff {K u : Nat} : Lev K u 0 ↔ 2 ^ K ≤ u ∧ u < 2 ^ (K + 1) := by
  constructor
  · rintro ⟨d, h1, h2, h3⟩
    obtain rfl : d = K := by omega
    exact ⟨h2, h3⟩
  · rintro ⟨h2, h3⟩
    exact ⟨K, rfl, h2, h3⟩

/-- Nodes of positive height lie before the leaves. -/
theorem Lev.inner {K u h : Nat} (hl : Lev K u (h + 1)) : u < 2 ^ K ∧ (0 < h → 2 * u + 1 < 2 ^ K) := by
  obtain ⟨d, h1, h2, h3⟩ := hl
  constructor
  · exact Nat.lt_of_lt_of_le h3 (Nat.pow_le_pow_right (by omega) (by omega))
  · intro hh
    have : 2 ^ (d + 2) ≤ 2 ^ K := Nat.pow_le_pow_right (by omega) (by omega)
    rw [show d + 2 = (d + 1) + 1 by omega, Nat.pow_succ 2 (d + 1)] at this
    omega

/-- Height is determined by the node. -/
theorem Lev.unique {K u h h' : Nat} (hl : Lev K u h) (hl' : Lev K u h') : h = h' := by
  obtain ⟨d, h1, h2, h3⟩ := hl
  obtain ⟨d', h1', h2', h3'⟩ := hl'
  have a : d < d' + 1 := (Nat.pow_lt_pow_iff_right (by omega : 1 < 2)).1 (show 2 ^ d < 2 ^ (d' + 1) by omega)
  have b : d' < d + 1 := (Nat.pow_lt_pow_iff_right (by omega : 1 < 2)).1 (show 2 ^ d' < 2 ^ (d + 1) by omega)
  omega

/-- After the nodes with index above `v` have been folded into their parents. -/
structure TInv (mem : Mem) (n K M mb v : Nat) (a : Arr) : Prop where
  len : a.xs.length = 2 * (2 ^ K - 1 + mb)
  w : 2 * n + 2 < 2 ^ a.width
  leaf : ∀ u, Lev K u 0 → u < 2 ^ K + mb → NodeOk mem n a (u - 1) (pos K M u) (min (pos K M (u + 1)) n)
  node : ∀ u h, Lev K u (h + 1) → NodeOk mem n a (u - 1) (pos K M (max (2 * u) (min (v + 2) (2 * u + 2)) * 2 ^ h)) (min (pos K M ((2 * u + 2) * 2 ^ h)) n)

/-- A node whose children have been folded in. -/
theorem TInv.done {mem : Mem} {n K M mb v : Nat} {a : Arr} (h : TInv mem n K M mb v a) {u e : Nat} (hl : Lev K u e) (hu : u < 2 ^ K + mb) (hv : v + 2 ≤ 2 * u) :
    NodeOk mem n a (u - 1) (pos K M (u * 2 ^ e)) (min (pos K M ((u + 1) * 2 ^ e)) n) := by
  match e, hl with
  | 0, hl =>
    rw [Nat.pow_zero, Nat.mul_one, Nat.mul_one]
    exact h.leaf u hl hu
  | e + 1, hl =>
    have := h.node u e hl
    rw [show max (2 * u) (min (v + 2) (2 * u + 2)) = 2 * u by omega] at this
    rw [show u * 2 ^ (e + 1) = 2 * u * 2 ^ e by rw [Nat.pow_succ, Nat.mul_comm 2 u, Nat.mul_assoc, Nat.mul_comm (2 ^ e) 2],
      show (u + 1) * 2 ^ (e + 1) = (2 * u + 2) * 2 ^ e by rw [Nat.pow_succ, show 2 * u + 2 = (u + 1) * 2 by omega, Nat.mul_assoc, Nat.mul_comm (2 ^ e) 2]]
    exact this

theorem LoV.ge {mem : Mem} {n a e : Nat} {x : Int} (h : LoV (ex1 mem) n a e x) (he : e ≤ n) : -(n : Int) ≤ x := by
  rcases h.2.2 with h1 | ⟨q, h1, h2, h3⟩
  · omega
  · have := ex1_abs (mem := mem) (n := n) (q := q) (by omega); omega

theorem HiV.le {mem : Mem} {n a e : Nat} {x : Int} (h : HiV (ex1 mem) (-(n : Int)) a e x) (he : e ≤ n) : x ≤ n := by
  rcases h.2.2 with h1 | ⟨q, h1, h2, h3⟩
  · omega
  · have := ex1_abs (mem := mem) (n := n) (q := q) (by omega); omega

theorem LoV.join' {f : Nat → Int} {N x y : Int} {a e e' g G : Nat} (h : LoV f N a e x) (h' : LoV f N e' g y) (hq : ∀ q, (a ≤ q ∧ q < G) ↔ ((a ≤ q ∧ q < e) ∨ (e' ≤ q ∧ q < g))) :
    (x ≤ y → LoV f N a G x) ∧ (y ≤ x → LoV f N a G y) := by
  obtain ⟨h1, h2, h3⟩ := h
  obtain ⟨h4, h5, h6⟩ := h'
  have hb : ∀ q, a ≤ q → q < G → x ≤ f q ∨ y ≤ f q := by
    intro q h7 h8
    rcases (hq q).1 ⟨h7, h8⟩ with ⟨h9, h10⟩ | ⟨h9, h10⟩
    · exact Or.inl (h2 q h9 h10)
    · exact Or.inr (h5 q h9 h10)
  constructor
  · intro hxy
    refine ⟨h1, fun q h7 h8 => ?_, ?_⟩
    · have := hb q h7 h8; omega
    · rcases h3 with h3 | ⟨q, h7, h8, h9⟩
      · exact Or.inl h3
      · have := (hq q).2 (Or.inl ⟨h7, h8⟩)
        exact Or.inr ⟨q, this.1, this.2, h9⟩
  · intro hxy
    refine ⟨h4, fun q h7 h8 => ?_, ?_⟩
    · have := hb q h7 h8; omega
    · rcases h6 with h3 | ⟨q, h7, h8, h9⟩
      · exact Or.inl h3
      · have := (hq q).2 (Or.inr ⟨h7, h8⟩)
        exact Or.inr ⟨q, this.1, this.2, h9⟩

theorem HiV.join' {f : Nat → Int} {N x y : Int} {a e e' g G : Nat} (h : HiV f N a e x) (h' : HiV f N e' g y) (hq : ∀ q, (a ≤ q ∧ q < G) ↔ ((a ≤ q ∧ q < e) ∨ (e' ≤ q ∧ q < g))) :
    (y ≤ x → HiV f N a G x) ∧ (x ≤ y → HiV f N a G y) := by
  obtain ⟨h1, h2, h3⟩ := h
  obtain ⟨h4, h5, h6⟩ := h'
  have hb : ∀ q, a ≤ q → q < G → f q ≤ x ∨ f q ≤ y := by
    intro q h7 h8
    rcases (hq q).1 ⟨h7, h8⟩ with ⟨h9, h10⟩ | ⟨h9, h10⟩
    · exact Or.inl (h2 q h9 h10)
    · exact Or.inr (h5 q h9 h10)
  constructor
  · intro hxy
    refine ⟨h1, fun q h7 h8 => ?_, ?_⟩
    · have := hb q h7 h8; omega
    · rcases h3 with h3 | ⟨q, h7, h8, h9⟩
      · exact Or.inl h3
      · have := (hq q).2 (Or.inl ⟨h7, h8⟩)
        exact Or.inr ⟨q, this.1, this.2, h9⟩
  · intro hxy
    refine ⟨h4, fun q h7 h8 => ?_, ?_⟩
    · have := hb q h7 h8; omega
    · rcases h6 with h3 | ⟨q, h7, h8, h9⟩
      · exact Or.inl h3
      · have := (hq q).2 (Or.inr ⟨h7, h8⟩)
        exact Or.inr ⟨q, this.1, this.2, h9⟩

/-- Folding node `w` (over `[a, e)`) into node `p` (over `[e, g)`). -/
theorem fold_ok {mem : Mem} {n w p l e g : Nat} {a : Arr} (hw : NodeOk mem n a w l (min e n)) (hp : NodeOk mem n a p e (min g n)) (hle : l ≤ e) (heg : e ≤ g) (hwid : 2 * n + 2 < 2 ^ a.width)
    {β : Type} (k : Arr → Option β) :
    ∃ a', (do
      let x ← a.get (2 * w)
      let y ← a.get (2 * p)
      let a ← setIf (decide ((n : Int) - x < (n : Int) - y)) a (2 * p) x
      let x ← a.get (2 * w + 1)
      let y ← a.get (2 * p + 1)
      let a ← setIf (decide ((x : Int) - n > (y : Int) - n)) a (2 * p + 1) x
      k a) = k a' ∧ a'.xs.length = a.xs.length ∧ a'.width = a.width ∧
      (∀ t, t ≠ 2 * p → t ≠ 2 * p + 1 → a'.get t = a.get t) ∧ NodeOk mem n a' p l (min g n) := by
  obtain ⟨x, y, a1, a2, a3, a4⟩ := hw.ok
  obtain ⟨x', y', b1, b2, b3, b4⟩ := hp.ok
  have a5 := a3.ge (by omega)
  have a6 := a4.le (by omega)
  rw [a1, sbind, b1, sbind]
  have hj := a3.join' (G := min g n) b3 (by omega)
  have hj' := a4.join' (G := min g n) b4 (by omega)
  have lx : 2 * p < a.xs.length := (List.getElem?_eq_some_iff.1 b1).1
  have ly : 2 * p + 1 < a.xs.length := (List.getElem?_eq_some_iff.1 b2).1
  have s1 : ∃ a' x2, setIf (decide ((n : Int) - x < (n : Int) - x')) a (2 * p) x = some a' ∧ a'.xs.length = a.xs.length ∧ a'.width = a.width ∧
      (∀ t, t ≠ 2 * p → a'.get t = a.get t) ∧ a'.get (2 * p) = some x2 ∧ LoV (ex1 mem) n l (min g n) ((n : Int) - x2) := by
    unfold setIf
    split <;> rename_i hif <;> rw [decide_eq_true_iff] at hif
    · obtain ⟨b, h1, h2, h3, h4⟩ := Csa.set_spec (a := a) (i := 2 * p) (x := x) lx (by omega)
      exact ⟨b, x, h1, h2, h3, fun t ht => by rw [h4, if_neg ht], by rw [h4, if_pos rfl], hj.1 (by omega)⟩
    · exact ⟨a, x', rfl, rfl, rfl, fun _ _ => rfl, b1, hj.2 (by omega)⟩
  obtain ⟨a', x2, c1, c2, c3, c4, c5, c6⟩ := s1
  rw [c1, sbind, c4 _ (by omega), a2, sbind, c4 _ (by omega), b2, sbind]
  unfold setIf
  split <;> rename_i hif <;> rw [decide_eq_true_iff] at hif
  · obtain ⟨b, h1, h2, h3, h4⟩ := Csa.set_spec (a := a') (i := 2 * p + 1) (x := y) (by omega) (by rw [c3]; omega)
    rw [h1, sbind]
    exact ⟨b, rfl, by omega, by rw [h3, c3], fun t ht ht' => by rw [h4, if_neg ht', c4 _ ht],
      ⟨x2, y, by rw [h4, if_neg (by omega), c5], by rw [h4, if_pos rfl], c6, hj'.1 (by omega)⟩⟩
  · exact ⟨a', rfl, c2, c3, fun t ht ht' => c4 _ ht, ⟨x2, y', c5, by rw [c4 _ (by omega), b2], c6, hj'.2 (by omega)⟩⟩

theorem treeLoop_ok {mem : Mem} {n K M mb : Nat} (hmb : mb ≤ 2 ^ K) : ∀ (v : Nat) (a : Arr), v < 2 ^ K - 1 + mb → TInv mem n K M mb v a → ∃ a', treeLoop n v a = some a' ∧ TInv mem n K M mb 0 a'
  | 0, a, _, h => ⟨a, rfl, h⟩
  | v + 1, a, hv, h => by
    have hK := Nat.two_pow_pos K
    obtain ⟨e, hl⟩ := lev_exists K (v + 2) (by omega) (by rw [Nat.pow_succ]; omega)
    have hd := h.done hl (by omega) (by omega)
    have hlp := hl.parent (by omega)
    have hp := h.node _ _ hlp
    rw [show max (2 * ((v + 2) / 2)) (min (v + 1 + 2) (2 * ((v + 2) / 2) + 2)) = v + 2 + 1 by omega, show (v + 2) / 2 - 1 = v / 2 by omega] at hp
    rw [show v + 2 - 1 = v + 1 by omega] at hd
    obtain ⟨a', e1, e2, e3, e4, e5⟩ := fold_ok hd hp (pos_mono (Nat.mul_le_mul_right _ (by omega))) (pos_mono (Nat.mul_le_mul_right _ (by omega))) h.w (treeLoop n v)
    rw [treeLoop, e1]
    refine treeLoop_ok hmb v a' (by omega) ⟨by rw [e2, h.len], by rw [e3]; exact h.w, ?_, ?_⟩
    · intro u hu hum
      have := (Lev.zero_iff.1 hu).1
      have h3 := hlp.inner.1
      exact (h.leaf u hu hum).congr (e4 _ (by omega) (by omega)) (e4 _ (by omega) (by omega))
    · intro u e' hu
      rcases Nat.lt_trichotomy u ((v + 2) / 2) with hlt | heq | hgt
      · have h0 := hu.pos
        have := (h.node u e' hu).congr (e4 _ (by omega) (by omega)) (e4 _ (by omega) (by omega))
        rw [show max (2 * u) (min (v + 1 + 2) (2 * u + 2)) = max (2 * u) (min (v + 2) (2 * u + 2)) by omega] at this
        exact this
      · subst heq
        have := hlp.unique hu
        obtain rfl : e = e' := by omega
        rw [show max (2 * ((v + 2) / 2)) (min (v + 2) (2 * ((v + 2) / 2) + 2)) = v + 2 by omega, show (v + 2) / 2 - 1 = v / 2 by omega]
        exact e5
      · have := (h.node u e' hu).congr (e4 _ (by omega) (by omega)) (e4 _ (by omega) (by omega))
        rw [show max (2 * u) (min (v + 1 + 2) (2 * u + 2)) = max (2 * u) (min (v + 2) (2 * u + 2)) by omega] at this
        exact this

theorem pow2Loop_ok (m : Nat) : ∀ (f j : Nat), ∃ K, pow2Loop m f (2 ^ j) = 2 ^ K ∧ (m ≤ 2 ^ K ∨ K = j + f)
  | 0, j => ⟨j, rfl, Or.inr rfl⟩
  | f + 1, j => by
    rw [pow2Loop]
    split
    · rw [show 2 * 2 ^ j = 2 ^ (j + 1) by rw [Nat.pow_succ, Nat.mul_comm]]
      obtain ⟨K, h1, h2⟩ := pow2Loop_ok m f (j + 1)
      exact ⟨K, h1, by omega⟩
    · exact ⟨j, rfl, Or.inl (by omega)⟩

/-- What the constructor establishes. -/
structure SadaOk (s : Sada) (K : Nat) : Prop where
  hn : s.n ≤ 64 * s.mem.length
  pn : 0 < s.n
  pS : 0 < s.S
  pD : 0 < s.D
  bound : 2 * s.n + 2 < 2 ^ 64
  sb : s.smlBlocks = (s.n + s.S - 1) / s.S
  mb : s.medBlocks = (s.n + s.S * s.D - 1) / (s.S * s.D)
  inner : s.inner = 2 ^ K - 1
  hmb : s.medBlocks ≤ 2 ^ K
  smlLen : s.sml.xs.length = 2 * s.smlBlocks
  medLen : s.med.xs.length = 2 * (2 ^ K - 1 + s.medBlocks)
  sml : ∀ k, k * s.S < s.n → SmlOk s.mem s.n s.S s.sml k
  node : ∀ u h, Lev K u h → u < 2 ^ K + s.medBlocks → NodeOk s.mem s.n s.med (u - 1) (pos K (s.S * s.D) (u * 2 ^ h)) (min (pos K (s.S * s.D) ((u + 1) * 2 ^ h)) s.n)

theorem ceil_mul {n B : Nat} (hB : 0 < B) : n ≤ (n + B - 1) / B * B := by
  have := Nat.lt_mul_div_succ (n + B - 1) hB
  rw [Nat.mul_add, Nat.mul_comm] at this
  omega

theorem Sada.new_ok {mem : Mem} {n S D : Nat} (hn : n ≤ 64 * mem.length) (pn : 0 < n) (pS : 0 < S) (pD : 0 < D) (b1 : S + 2 < 2 ^ 64) (b2 : 2 * n + 2 < 2 ^ 64) :
    ∃ s K, Sada.new mem n S D = some s ∧ s.mem = mem ∧ s.n = n ∧ s.S = S ∧ s.D = D ∧ SadaOk s K := by
  unfold Sada.new
  rw [if_neg (by omega)]
  have hM : 0 < S * D := Nat.mul_pos pS pD
  obtain ⟨K, k1, k2⟩ := pow2Loop_ok ((n + S * D - 1) / (S * D)) 64 0
  rw [Nat.pow_zero] at k1
  have hmbn : (n + S * D - 1) / (S * D) ≤ n := by
    apply Nat.le_of_lt_succ
    rw [Nat.div_lt_iff_lt_mul hM, Nat.succ_mul]
    have := Nat.le_mul_of_pos_right n hM
    omega
  have k3 : (n + S * D - 1) / (S * D) ≤ 2 ^ K := by
    rcases k2 with k2 | k2
    · exact k2
    · rw [k2]; omega
  have k4 : 0 < (n + S * D - 1) / (S * D) := Nat.div_pos (by omega) hM
  have k5 := ceil_mul (n := n) hM
  have hK := Nat.two_pow_pos K
  dsimp only
  obtain ⟨w1, w2, w3⟩ := Select.hiWidth b1
  obtain ⟨w4, w5, w6⟩ := Select.hiWidth b2
  rw [k1, w1, sbind, w4, sbind]
  obtain ⟨st, e, hb⟩ := buildLoop_ok (inner := 2 ^ K - 1) pS pD rfl hn n 0 0 _ (by omega) (binv_init (mem := mem) (n := n) (S := S) (D := D) (inner := 2 ^ K - 1) (mb := (n + S * D - 1) / (S * D)) w2 w5 w3 w6)
  rw [e, sbind]
  generalize hmb : (n + S * D - 1) / (S * D) = mb at *
  obtain ⟨a, e', ht⟩ := treeLoop_ok (mem := mem) (n := n) (M := S * D) k3 (st.med.xs.length / 2 - 1) st.med (by rw [hb.medLen]; omega) ⟨by rw [hb.medLen, Nat.add_comm], hb.medW, by
      intro u hu hum
      obtain ⟨h1, h2⟩ := Lev.zero_iff.1 hu
      have := hb.leaf (u - 2 ^ K) (by omega)
      rw [show 2 ^ K - 1 + (u - 2 ^ K) = u - 1 by omega] at this
      rw [pos, pos, show u + 1 - 2 ^ K = u - 2 ^ K + 1 by omega]
      exact this, by
      intro u h hl
      obtain ⟨i1, i2⟩ := hl.inner
      have h0 := hl.pos
      rw [hb.medLen, show 2 * (mb + (2 ^ K - 1)) / 2 - 1 + 2 = 2 ^ K + mb by omega]
      obtain ⟨z1, z2⟩ := hb.node (u - 1) (by omega)
      have hemp : min (pos K (S * D) ((2 * u + 2) * 2 ^ h)) n ≤ pos K (S * D) (max (2 * u) (min (2 ^ K + mb) (2 * u + 2)) * 2 ^ h) := by
        rcases Nat.lt_or_ge (2 ^ K + mb) (2 * u + 2) with h7 | h7
        · have h8 : h = 0 := by
            rcases Nat.eq_zero_or_pos h with h8 | h8
            · exact h8
            · have := i2 h8; omega
          subst h8
          refine Nat.le_trans (Nat.min_le_right _ _) (Nat.le_trans k5 ?_)
          rw [Nat.pow_zero, Nat.mul_one, pos]
          exact Nat.mul_le_mul_right _ (by omega)
        · rw [show max (2 * u) (min (2 ^ K + mb) (2 * u + 2)) = 2 * u + 2 by omega]
          exact Nat.min_le_left _ _
      exact ⟨0, 0, z1, z2, LoV.empty hemp, by rw [show ((0 : Nat) : Int) - n = -(n : Int) by omega]; exact HiV.empty hemp⟩⟩
  rw [e', sbind]
  refine ⟨_, K, rfl, rfl, rfl, rfl, rfl, ⟨hn, pn, pS, pD, b2, rfl, hmb.symm, rfl, k3, hb.smlLen, ht.len, hb.sml, ?_⟩⟩
  intro u h hl hu
  have := hl.pos
  exact ht.done hl hu (by omega)

end Sdsl.Bp
