/-
  The construction of a k²-tree from edges (K2.lean).
-/
import Verif.K2Sort

namespace Sdsl.K2

open Csa Spec

/-- The matrix of a list of edges. -/
def ofEdges (es : List (Nat × Nat)) (i j : Nat) : Bool := decide ((i, j) ∈ es)

/-- A point of a square. -/
def InSq (r c s : Nat) (p : Nat × Nat) : Prop := r ≤ p.1 ∧ p.1 < r + s ∧ c ≤ p.2 ∧ p.2 < c + s

theorem has_edges {es : List (Nat × Nat)} {r c s : Nat} : has (ofEdges es) r c s = true ↔ ∃ p ∈ es, InSq r c s p := by
  rw [has_iff]
  constructor
  · rintro ⟨a, b, h1, h2, h3⟩
    exact ⟨(r + a, c + b), by simpa [ofEdges] using h3, by dsimp only; omega, by dsimp only; omega, by dsimp only; omega, by dsimp only; omega⟩
  · rintro ⟨⟨a, b⟩, h1, h2, h3, h4, h5⟩
    dsimp only at h2 h3 h4 h5
    refine ⟨a - r, b - c, by omega, by omega, ?_⟩
    rw [show r + (a - r) = a by omega, show c + (b - c) = b by omega]
    simpa [ofEdges] using h1

section
variable {k : Nat} (hk2 : 2 ≤ k) (hk255 : k ≤ 255)
include hk2 hk255

/-- The chunk of a point. -/
theorem chunkIdx_ok {x : Nd} {p : Nat × Nat} (hp : InSq x.r x.c (k ^ (x.e + 1)) p) (h1 : p.1 < 2 ^ 64) (h2 : p.2 < 2 ^ 64) : chunkIdx k (k ^ x.e) x.r x.c p < k * k ∧
    ∀ it, it < k * k → (chunkIdx k (k ^ x.e) x.r x.c p = it ↔ InSq (x.r + it / k * k ^ x.e) (x.c + it % k * k ^ x.e) (k ^ x.e) p) := by
  obtain ⟨a1, a2, a3, a4⟩ := hp
  have hpos : 0 < k ^ x.e := Nat.pow_pos (by omega)
  have s1 : sub64 p.1 x.r = p.1 - x.r := by
    rw [sub64, show p.1 + 2 ^ 64 - x.r = p.1 - x.r + 2 ^ 64 by omega, Nat.add_mod_right, Nat.mod_eq_of_lt (by omega)]
  have s2 : sub64 p.2 x.c = p.2 - x.c := by
    rw [sub64, show p.2 + 2 ^ 64 - x.c = p.2 - x.c + 2 ^ 64 by omega, Nat.add_mod_right, Nat.mod_eq_of_lt (by omega)]
  have d1 := div_lt_k (k := k) (e := x.e) (i := p.1 - x.r) (by omega)
  have d2 := div_lt_k (k := k) (e := x.e) (i := p.2 - x.c) (by omega)
  obtain ⟨c1, c2, c3⟩ := chunk_lt d1 d2
  have hkk := Nat.mul_le_mul hk255 hk255
  have hc : chunkIdx k (k ^ x.e) x.r x.c p = k * ((p.1 - x.r) / k ^ x.e) + (p.2 - x.c) / k ^ x.e := by
    rw [chunkIdx, s1, s2, Nat.mul_comm _ k, Nat.mod_eq_of_lt (by omega)]
  rw [hc]
  refine ⟨c1, fun it hit => ⟨fun h => ?_, fun h => ?_⟩⟩
  · subst h
    rw [c2, c3]
    have e1 := Nat.div_add_mod' (p.1 - x.r) (k ^ x.e)
    have e2 := Nat.div_add_mod' (p.2 - x.c) (k ^ x.e)
    have l1 := Nat.mod_lt (p.1 - x.r) hpos
    have l2 := Nat.mod_lt (p.2 - x.c) hpos
    obtain ⟨y1, hy1⟩ : ∃ z, z = (p.1 - x.r) % k ^ x.e := ⟨_, rfl⟩
    obtain ⟨y2, hy2⟩ : ∃ z, z = (p.2 - x.c) % k ^ x.e := ⟨_, rfl⟩
    rw [← hy1] at e1 l1
    rw [← hy2] at e2 l2
    refine ⟨?_, ?_, ?_, ?_⟩ <;> omega
  · obtain ⟨b1, b2, b3, b4⟩ := h
    have q1 : (p.1 - x.r) / k ^ x.e = it / k := by
      rw [Nat.div_eq_iff hpos]
      constructor <;> omega
    have q2 : (p.2 - x.c) / k ^ x.e = it % k := by
      rw [Nat.div_eq_iff hpos]
      constructor <;> omega
    rw [q1, q2, Nat.div_add_mod]

/-- The squares of the parts lie in the square of the node. -/
theorem InSq.part {x : Nd} {p : Nat × Nat} {it : Nat} (hit : it < k * k) (h : InSq (x.r + it / k * k ^ x.e) (x.c + it % k * k ^ x.e) (k ^ x.e) p) : InSq x.r x.c (k ^ (x.e + 1)) p := by
  obtain ⟨b1, b2, b3, b4⟩ := h
  have hsq : k ^ (x.e + 1) = k * k ^ x.e := by rw [Nat.pow_succ, Nat.mul_comm]
  have m1 := Nat.mul_le_mul_right (k ^ x.e) (show it / k + 1 ≤ k from Nat.div_lt_of_lt_mul hit)
  have m2 := Nat.mul_le_mul_right (k ^ x.e) (show it % k + 1 ≤ k from Nat.mod_lt _ (by omega))
  rw [Nat.succ_mul] at m1 m2
  refine ⟨?_, ?_, ?_, ?_⟩ <;> omega

end

/-! ### The bits of a node -/

theorem set_next (pre : List Bool) (n : Nat) : (pre ++ List.replicate (n + 1) false).set pre.length true = pre ++ [true] ++ List.replicate n false := by
  rw [List.set_append_right _ _ (Nat.le_refl _), Nat.sub_self, List.replicate_succ, List.set_cons_zero, List.append_assoc]
  rfl

theorem leafLoop_ok (a : Nat → Nat) : ∀ c it n pre, leafLoop ((List.range' it c).map a) pre.length (pre ++ List.replicate (c + n) false) = some (pre ++ (List.range' it c).map (fun q => decide (a q ≠ 0)) ++ List.replicate n false)
  | 0, it, n, pre => by simp [leafLoop]
  | c + 1, it, n, pre => by
    rw [List.range'_succ, List.map_cons, leafLoop, setIf, List.map_cons]
    have hl : pre.length < (pre ++ List.replicate (c + 1 + n) false).length := by
      rw [List.length_append, List.length_replicate]; omega
    by_cases h : a it = 0
    · rw [if_neg (by omega), sbind, show c + 1 + n = (c + n) + 1 by omega, List.replicate_succ]
      have := leafLoop_ok a c (it + 1) n (pre ++ [false])
      rw [List.length_append, List.length_singleton, List.append_assoc, List.singleton_append] at this
      rw [this]
      simp [h]
    · rw [if_pos h, Bv.set_of_lt hl, sbind, show c + 1 + n = (c + n) + 1 by omega, set_next]
      have := leafLoop_ok a c (it + 1) n (pre ++ [true])
      rw [List.length_append, List.length_singleton] at this
      rw [this]
      simp [h]

theorem resize_left (A B : List Bool) : resize (A ++ B) A.length = A := by
  rw [resize, List.take_left, show A.length - (A ++ B).length = 0 by rw [List.length_append]; omega]
  simp

/-- An entry of the queue with its node. -/
structure QE where
  x : Nd
  i : Nat
  j : Nat

/-- The entry. -/
def QE.part (k : Nat) (w : QE) : Part := ⟨w.i, w.j, k ^ w.x.e, w.x.r, w.x.c⟩

/-- The new entries. -/
def newQE (k : Nat) (x : Nd) (st : Nat → Nat) (l : List Nat) : List QE := l.map fun it => ⟨kid k x it, st it, st (it + 1)⟩

theorem pushLoop_ok {k : Nat} (hk2 : 2 ≤ k) {x : Nd} (he : 1 ≤ x.e) (a st : Nat → Nat) : ∀ c it n pre W, pushLoop k (k ^ x.e) x.r x.c ((List.range' it c).map a) ((List.range' it (c + 1)).map st) it pre.length (pre ++ List.replicate (c + n) false) (W.map (QE.part k)) =
    some (pre ++ (List.range' it c).map (fun q => decide (a q ≠ 0)) ++ List.replicate n false, (W ++ newQE k x st ((List.range' it c).filter (fun q => decide (a q ≠ 0)))).map (QE.part k))
  | 0, it, n, pre, W => by simp [pushLoop, newQE]
  | c + 1, it, n, pre, W => by
    have hl : pre.length < (pre ++ List.replicate (c + 1 + n) false).length := by
      rw [List.length_append, List.length_replicate]; omega
    have hp : (List.range' it (c + 1 + 1)).map st = st it :: st (it + 1) :: (List.range' (it + 1 + 1) c).map st := by
      rw [List.range'_succ, List.range'_succ]; rfl
    have hp' : (List.range' (it + 1) (c + 1)).map st = st (it + 1) :: (List.range' (it + 1 + 1) c).map st := by
      rw [List.range'_succ]; rfl
    have hq : k ^ x.e / k = k ^ (x.e - 1) := by
      conv_lhs => rw [show x.e = x.e - 1 + 1 by omega, Nat.pow_succ, Nat.mul_div_cancel _ (by omega)]
    rw [hp, List.range'_succ, List.map_cons, pushLoop, ← hp', List.map_cons, List.filter_cons]
    by_cases h : a it = 0
    · have hd : decide (a it ≠ 0) = false := by simp [h]
      rw [if_neg (by omega), show c + 1 + n = (c + n) + 1 by omega, List.replicate_succ, hd, if_neg (by simp)]
      have := pushLoop_ok hk2 he a st c (it + 1) n (pre ++ [false]) W
      rw [List.length_append, List.length_singleton, List.append_assoc, List.singleton_append] at this
      rw [this]
      simp
    · have hd : decide (a it ≠ 0) = true := by simp [h]
      rw [if_pos h, Bv.set_of_lt hl, sbind, show c + 1 + n = (c + n) + 1 by omega, set_next, hd, if_pos rfl]
      have := pushLoop_ok hk2 he a st c (it + 1) n (pre ++ [true]) (W ++ [⟨kid k x it, st it, st (it + 1)⟩])
      rw [List.length_append, List.length_singleton, List.map_append] at this
      rw [show [(⟨st it, st (it + 1), k ^ x.e / k, x.r + it / k * k ^ x.e, x.c + it % k * k ^ x.e⟩ : Part)] = [(⟨kid k x it, st it, st (it + 1)⟩ : QE)].map (QE.part k) by rw [hq]; rfl, this]
      simp [newQE]

/-! ### The main loop -/

/-- The edges of the entry are those of its square. -/
structure Cov (k : Nat) (es E : List (Nat × Nat)) (w : QE) : Prop where
  lt : w.i < w.j
  le : w.j ≤ E.length
  iff : ∀ p, p ∈ slice E w.i w.j ↔ p ∈ es ∧ InSq w.x.r w.x.c (k ^ (w.x.e + 1)) p

/-- The weight of an entry. -/
def wt (w : QE) : Nat := (w.x.e + 1) * (w.j - w.i)

/-- The entries have disjoint edges. -/
def Disj (a b : QE) : Prop := a.j ≤ b.i ∨ b.j ≤ a.i

/-- The state while inner nodes are processed: `P` are the processed nodes. -/
structure Inv1 (k h : Nat) (es : List (Nat × Nat)) (P : List Nd) (W : List QE) (s : St) : Prop where
  order : P ++ W.map QE.x = ⟨0, 0, h - 1⟩ :: P.flatMap (kids (ofEdges es) k)
  inner : ∀ x ∈ P, 1 ≤ x.e
  desc : W.Pairwise (fun a b => b.x.e ≤ a.x.e)
  near : ∀ a ∈ W.head?, ∀ b ∈ W, a.x.e ≤ b.x.e + 1
  cov : ∀ w ∈ W, Cov k es s.E w
  disj : W.Pairwise Disj
  kt : s.kt = P.flatMap (bits (ofEdges es) k) ++ List.replicate ((h * es.length - P.length) * (k * k)) false
  t : s.t = P.length * (k * k)
  last : s.last = 0
  pot : P.length + (W.map wt).sum ≤ h * es.length
  ne : W ≠ []

/-- The state while the nodes of the last level are processed. -/
structure Inv2 (k h : Nat) (es : List (Nat × Nat)) (I F : List Nd) (W : List QE) (s : St) : Prop where
  order : I ++ (F ++ W.map QE.x) = ⟨0, 0, h - 1⟩ :: I.flatMap (kids (ofEdges es) k)
  inner : ∀ x ∈ I, 1 ≤ x.e
  lastF : ∀ x ∈ F, x.e = 0
  lastW : ∀ w ∈ W, w.x.e = 0
  cov : ∀ w ∈ W, Cov k es s.E w
  kt : s.kt = I.flatMap (bits (ofEdges es) k)
  kl : s.kl = F.flatMap (bits (ofEdges es) k) ++ List.replicate ((h * es.length - I.length - F.length) * (k * k)) false
  t : s.t = F.length * (k * k)
  last : s.last = 1
  pot : I.length + F.length + W.length ≤ h * es.length

section
variable {k h : Nat} {es : List (Nat × Nat)}

theorem cov_chunk (hk2 : 2 ≤ k) (hk255 : k ≤ 255) (hes : ∀ p ∈ es, p.1 < 2 ^ 64 ∧ p.2 < 2 ^ 64) {E : List (Nat × Nat)} {w : QE} (hc : Cov k es E w) :
    (∀ p ∈ slice E w.i w.j, chunkIdx k (k ^ w.x.e) w.x.r w.x.c p < k * k) ∧
    (∀ it, it < k * k → ∀ p, (p ∈ slice E w.i w.j ∧ chunkIdx k (k ^ w.x.e) w.x.r w.x.c p = it) ↔ (p ∈ es ∧ InSq (w.x.r + it / k * k ^ w.x.e) (w.x.c + it % k * k ^ w.x.e) (k ^ w.x.e) p)) ∧
    ∀ it, it < k * k → decide (amt (chunkIdx k (k ^ w.x.e) w.x.r w.x.c) E w.i w.j it ≠ 0) = cbit (ofEdges es) k w.x it := by
  have h1 : ∀ p ∈ slice E w.i w.j, chunkIdx k (k ^ w.x.e) w.x.r w.x.c p < k * k := by
    intro p hp
    obtain ⟨a, b⟩ := (hc.iff p).1 hp
    exact (chunkIdx_ok hk2 hk255 b (hes p a).1 (hes p a).2).1
  have h2 : ∀ it, it < k * k → ∀ p, (p ∈ slice E w.i w.j ∧ chunkIdx k (k ^ w.x.e) w.x.r w.x.c p = it) ↔ (p ∈ es ∧ InSq (w.x.r + it / k * k ^ w.x.e) (w.x.c + it % k * k ^ w.x.e) (k ^ w.x.e) p) := by
    intro it hit p
    rw [hc.iff]
    constructor
    · rintro ⟨⟨a, b⟩, c⟩
      exact ⟨a, ((chunkIdx_ok hk2 hk255 b (hes p a).1 (hes p a).2).2 it hit).1 c⟩
    · rintro ⟨a, c⟩
      have b := InSq.part hk2 hk255 hit c
      exact ⟨⟨a, b⟩, ((chunkIdx_ok hk2 hk255 b (hes p a).1 (hes p a).2).2 it hit).2 c⟩
  refine ⟨h1, h2, fun it hit => ?_⟩
  rw [Bool.eq_iff_iff, decide_eq_true_iff, cbit, has_edges, amt, ← Nat.pos_iff_ne_zero, List.countP_pos_iff]
  constructor
  · rintro ⟨p, p1, p2⟩
    have := (h2 it hit p).1 ⟨p1, by simpa using p2⟩
    exact ⟨p, this.1, this.2⟩
  · rintro ⟨p, p1, p2⟩
    have := (h2 it hit p).2 ⟨p1, p2⟩
    exact ⟨p, this.1, by simpa using this.2⟩

/-- The counts of the chunks. -/
theorem amount_ok {E : List (Nat × Nat)} {w : QE} {f : Nat × Nat → Nat} {K : Nat} (hc : Cov k es E w) (hf : ∀ p ∈ slice E w.i w.j, f p < K) :
    amountLoop f E (w.j - w.i) w.i (List.replicate K 0) = some ((List.range K).map (amt f E w.i w.j)) := by
  have hlt := hc.lt
  have hle := hc.le
  have := amountLoop_ok (f := f) (E := E) (K := K) (w.j - w.i) w.i (fun _ => 0) (by omega) hf
  rw [List.map_const', List.length_range] at this
  rw [this]
  congr 1
  apply List.map_congr_left
  intro q _
  rw [Nat.zero_add]
  rfl

/-- The weights of the new entries. -/
theorem newQE_wt (x : Nd) (st : Nat → Nat) (hst : ∀ c, st c ≤ st (c + 1)) (he : 1 ≤ x.e) : ∀ c, ((newQE k x st ((List.range c).filter (fun q => decide (st (q + 1) - st q ≠ 0)))).map wt).sum = x.e * (st c - st 0)
  | 0 => by simp [newQE]
  | c + 1 => by
    have ih := newQE_wt x st hst he c
    have hm : ∀ d, st 0 ≤ st d := by
      intro d
      induction d with
      | zero => exact Nat.le_refl _
      | succ d ihd => exact Nat.le_trans ihd (hst d)
    have h1 := hst c
    have h0 := hm c
    rw [List.range_succ, List.filter_append, newQE, List.map_append, List.map_append, List.sum_append]
    rw [newQE] at ih
    rw [ih, show st (c + 1) - st 0 = (st c - st 0) + (st (c + 1) - st c) by omega, Nat.mul_add]
    congr 1
    by_cases g : st (c + 1) - st c = 0
    · simp [g]
    · rw [List.filter_cons, if_pos (by simpa using g)]
      simp only [List.filter_nil, List.map_cons, List.map_nil, List.sum_cons, List.sum_nil, wt, kid]
      rw [show x.e - 1 + 1 = x.e by omega]
      omega

variable (hk2 : 2 ≤ k) (hk255 : k ≤ 255) (hes : ∀ p ∈ es, p.1 < 2 ^ 64 ∧ p.2 < 2 ^ 64)

theorem Cov.wt_pos {E : List (Nat × Nat)} {w : QE} (hc : Cov k es E w) : 1 ≤ wt w := by
  have := hc.lt
  rw [wt]
  exact Nat.mul_pos (by omega) (by omega)

include hk2 hk255 hes

/-- An inner node. -/
theorem inner_step {P : List Nd} {w : QE} {W : List QE} {s : St} (hI : Inv1 k h es P (w :: W) s) (he : 1 ≤ w.x.e) :
    ∃ s' W', partStep k (w.part k) (W.map (QE.part k)) s = some (s', W'.map (QE.part k)) ∧ Inv1 k h es (P ++ [w.x]) W' s' := by
  have hcov := hI.cov w (by simp)
  obtain ⟨k1, k2, k3⟩ := cov_chunk hk2 hk255 hes hcov
  have hlt := hcov.lt
  have hle := hcov.le
  obtain ⟨f, hf⟩ : ∃ f, f = chunkIdx k (k ^ w.x.e) w.x.r w.x.c := ⟨_, rfl⟩
  rw [← hf] at k1 k2 k3
  obtain ⟨a, ha⟩ : ∃ a, a = amt f s.E w.i w.j := ⟨_, rfl⟩
  obtain ⟨st, hst⟩ : ∃ a, a = start f s.E w.i w.j := ⟨_, rfl⟩
  have hamount := amount_ok (f := f) hcov k1
  obtain ⟨E', s1, s2, s3, s4, s5⟩ := sort_ok hle (by omega) k1
  have st0 : st 0 = w.i := by rw [hst, start_zero]
  have stl : st (k * k) = w.j := by rw [hst]; exact start_last hle (by omega) k1
  have sts : ∀ c, st (c + 1) = st c + a c := fun c => by rw [hst, ha]; exact start_succ f s.E w.i w.j c
  have stm : ∀ {c d}, c ≤ d → st c ≤ st d := fun hcd => by rw [hst]; exact start_mono f s.E w.i w.j hcd
  rw [← hst, ← ha] at s1
  rw [← hst] at s5
  rw [← ha] at hamount k3
  have hpos : posList w.i ((List.range (k * k)).map a) ++ [w.j] = (List.range (k * k + 1)).map st := by
    have := posList_ok (f := f) (E0 := s.E) (i := w.i) (j := w.j) (k * k) 0
    rw [← hst, ← ha, st0, ← List.range_eq_range'] at this
    rw [this, List.range_succ, List.map_append, List.map_singleton, stl]
  have hwt := hcov.wt_pos
  have hpot := hI.pot
  rw [List.map_cons, List.sum_cons] at hpot
  have hkt : s.kt = P.flatMap (bits (ofEdges es) k) ++ List.replicate (k * k + (h * es.length - (P.length + 1)) * (k * k)) false := by
    rw [hI.kt, show h * es.length - P.length = (h * es.length - (P.length + 1)) + 1 by omega, Nat.succ_mul, Nat.add_comm (k * k)]
  have hpush := pushLoop_ok hk2 he a st (k * k) 0 ((h * es.length - (P.length + 1)) * (k * k)) (P.flatMap (bits (ofEdges es) k)) W
  rw [← hkt, length_blocks bits_length, ← hI.t, ← List.range_eq_range', ← List.range_eq_range'] at hpush
  have hfilter : (List.range (k * k)).filter (fun q => decide (a q ≠ 0)) = (List.range (k * k)).filter (cbit (ofEdges es) k w.x) := by
    apply List.filter_congr
    intro q hq
    exact k3 q (List.mem_range.1 hq)
  have hbits : (List.range (k * k)).map (fun q => decide (a q ≠ 0)) = bits (ofEdges es) k w.x := by
    rw [bits]
    apply List.map_congr_left
    intro q hq
    exact k3 q (List.mem_range.1 hq)
  obtain ⟨N, hN⟩ : ∃ N, N = newQE k w.x st ((List.range (k * k)).filter (fun q => decide (a q ≠ 0))) := ⟨_, rfl⟩
  rw [← hN, hbits] at hpush
  have hNx : N.map QE.x = kids (ofEdges es) k w.x := by
    rw [hN, newQE, List.map_map, hfilter, kids]
    rfl
  have hmemN : ∀ v ∈ N, ∃ it, it < k * k ∧ a it ≠ 0 ∧ v = ⟨kid k w.x it, st it, st (it + 1)⟩ := by
    intro v hv
    rw [hN, newQE, List.mem_map] at hv
    obtain ⟨it, h1, rfl⟩ := hv
    rw [List.mem_filter, List.mem_range] at h1
    exact ⟨it, h1.1, by simpa using h1.2, rfl⟩
  have hdisj := List.pairwise_cons.1 hI.disj
  have hdesc := List.pairwise_cons.1 hI.desc
  have hnear := hI.near w (by simp)
  have hall : ∀ v ∈ W ++ N, v.x.e ≤ w.x.e ∧ w.x.e ≤ v.x.e + 1 := by
    intro v hv
    rcases List.mem_append.1 hv with hv | hv
    · exact ⟨hdesc.1 v hv, hnear v (by simp [hv])⟩
    · obtain ⟨it, _, _, rfl⟩ := hmemN v hv
      dsimp only [kid]
      omega
  refine ⟨⟨P.flatMap (bits (ofEdges es) k) ++ bits (ofEdges es) k w.x ++ List.replicate ((h * es.length - (P.length + 1)) * (k * k)) false, s.kl, s.t + k * k, s.last, E'⟩, W ++ N, ?_, ?_⟩
  · rw [partStep, show (w.part k).l = k ^ w.x.e from rfl, show (w.part k).r0 = w.x.r from rfl, show (w.part k).c0 = w.x.c from rfl, show (w.part k).i = w.i from rfl, show (w.part k).j = w.j from rfl, ← hf, hamount, sbind,
      if_neg (by have := Nat.one_lt_pow (show w.x.e ≠ 0 by omega) (show 1 < k by omega); omega)]
    dsimp only
    rw [hpos, hpush, sbind]
    dsimp only
    rw [s1, sbind]
    rfl
  · refine ⟨?_, ?_, ?_, ?_, ?_, ?_, ?_, ?_, hI.last, ?_, ?_⟩
    · have := hI.order
      rw [List.map_cons] at this
      rw [List.append_assoc, List.map_append, hNx, List.flatMap_append, ← List.cons_append, ← this]
      simp
    · intro x hx
      rcases List.mem_append.1 hx with hx | hx
      · exact hI.inner x hx
      · rw [List.mem_singleton.1 hx]; exact he
    · rw [List.pairwise_append]
      refine ⟨hdesc.2, ?_, ?_⟩
      · rw [hN, newQE, List.pairwise_map]
        exact List.pairwise_of_forall (fun _ _ => Nat.le_refl _)
      · intro u hu v hv
        obtain ⟨it, _, _, rfl⟩ := hmemN v hv
        have := (hall u (by simp [hu])).2
        dsimp only [kid]
        omega
    · intro u hu v hv
      have hu' : u ∈ W ++ N := List.mem_of_mem_head? hu
      have := (hall u hu').1
      have := (hall v hv).2
      omega
    · intro v hv
      dsimp only
      rcases List.mem_append.1 hv with hv | hv
      · have hc := hI.cov v (by simp [hv])
        have hd := hdisj.1 v hv
        have hsl : ∀ p, p ∈ slice E' v.i v.j ↔ p ∈ slice s.E v.i v.j := by
          intro p
          rw [mem_slice, mem_slice]
          constructor
          · rintro ⟨m, m1, m2, m3⟩
            rw [s3 m (by rcases hd with hd | hd <;> omega)] at m3
            exact ⟨m, m1, m2, m3⟩
          · rintro ⟨m, m1, m2, m3⟩
            rw [← s3 m (by rcases hd with hd | hd <;> omega)] at m3
            exact ⟨m, m1, m2, m3⟩
        exact ⟨hc.lt, by rw [s2]; exact hc.le, fun p => by rw [hsl, hc.iff]⟩
      · obtain ⟨it, i1, i2, rfl⟩ := hmemN v hv
        have h1 := sts it
        have h2 := stm (show it + 1 ≤ k * k from i1)
        refine ⟨by dsimp only; omega, by dsimp only; omega, fun p => ?_⟩
        rw [s5 it i1, k2 it i1]
        dsimp only [kid]
        rw [show w.x.e - 1 + 1 = w.x.e by omega]
    · rw [List.pairwise_append]
      refine ⟨hdisj.2, ?_, ?_⟩
      · rw [hN, newQE, List.pairwise_map]
        refine (List.Pairwise.filter _ List.pairwise_lt_range).imp ?_
        intro c d hcd
        exact .inl (stm hcd)
      · intro u hu v hv
        obtain ⟨it, i1, _, rfl⟩ := hmemN v hv
        have h0 := stm (Nat.zero_le it)
        have h2 := stm (show it + 1 ≤ k * k from i1)
        have hd := hdisj.1 u hu
        rw [Disj] at hd ⊢
        dsimp only
        omega
    · dsimp only
      rw [List.flatMap_append, List.length_append, List.length_singleton]
      simp
    · dsimp only
      rw [hI.t, List.length_append, List.length_singleton, Nat.succ_mul]
    · have hw : (N.map wt).sum = w.x.e * (w.j - w.i) := by
        have hfeq : (fun q => decide (a q ≠ 0)) = (fun q => decide (st (q + 1) - st q ≠ 0)) := by
          funext q
          rw [sts, Nat.add_sub_cancel_left]
        have := newQE_wt (k := k) w.x st (fun c => stm (by omega)) he (k * k)
        rw [hN, hfeq, this, stl, st0]
      rw [List.length_append, List.length_singleton, List.map_append, List.sum_append, hw]
      rw [wt, Nat.add_mul, Nat.one_mul] at hpot
      omega
    · intro hnil
      have hx : w.i < s.E.length := by omega
      have hp : s.E[w.i] ∈ slice s.E w.i w.j := mem_slice.2 ⟨w.i, by omega, by omega, List.getElem?_eq_getElem hx⟩
      have hc := k1 _ hp
      have h3 : a (f s.E[w.i]) ≠ 0 := by
        rw [ha, amt, ← Nat.pos_iff_ne_zero, List.countP_pos_iff]
        exact ⟨_, hp, by simp⟩
      have : N = [] := (List.append_eq_nil_iff.1 hnil).2
      rw [hN, newQE, List.map_eq_nil_iff, List.filter_eq_nil_iff] at this
      exact this _ (List.mem_range.2 hc) (by simpa using h3)

/-- A node of the last level. -/
theorem leaf_step {I F : List Nd} {w : QE} {W : List QE} {s : St} (hI : Inv2 k h es I F (w :: W) s) :
    ∃ s', partStep k (w.part k) (W.map (QE.part k)) s = some (s', W.map (QE.part k)) ∧ Inv2 k h es I (F ++ [w.x]) W s' := by
  have hcov := hI.cov w (by simp)
  have he := hI.lastW w (by simp)
  obtain ⟨k1, k2, k3⟩ := cov_chunk hk2 hk255 hes hcov
  have hamount := amount_ok hcov k1
  have hpot := hI.pot
  rw [List.length_cons] at hpot
  have hkl : s.kl = F.flatMap (bits (ofEdges es) k) ++ List.replicate (k * k + (h * es.length - I.length - (F.length + 1)) * (k * k)) false := by
    rw [hI.kl, show h * es.length - I.length - F.length = (h * es.length - I.length - (F.length + 1)) + 1 by omega, Nat.succ_mul, Nat.add_comm (k * k)]
  have hleaf := leafLoop_ok (amt (chunkIdx k (k ^ w.x.e) w.x.r w.x.c) s.E w.i w.j) (k * k) 0 ((h * es.length - I.length - (F.length + 1)) * (k * k)) (F.flatMap (bits (ofEdges es) k))
  have hbits : (List.range (k * k)).map (fun q => decide (amt (chunkIdx k (k ^ w.x.e) w.x.r w.x.c) s.E w.i w.j q ≠ 0)) = bits (ofEdges es) k w.x := by
    rw [bits]
    apply List.map_congr_left
    intro q hq
    exact k3 q (List.mem_range.1 hq)
  rw [← hkl, length_blocks bits_length, ← hI.t, ← List.range_eq_range', hbits] at hleaf
  refine ⟨{ s with kl := F.flatMap (bits (ofEdges es) k) ++ bits (ofEdges es) k w.x ++ List.replicate ((h * es.length - I.length - (F.length + 1)) * (k * k)) false, t := s.t + k * k }, ?_, ?_⟩
  · rw [partStep, show (w.part k).l = k ^ w.x.e from rfl, show (w.part k).r0 = w.x.r from rfl, show (w.part k).c0 = w.x.c from rfl, show (w.part k).i = w.i from rfl, show (w.part k).j = w.j from rfl, hamount, sbind,
      if_pos (by rw [he]; rfl)]
    dsimp only
    rw [if_neg (by rw [hI.last]; omega), hleaf, sbind]
    rfl
  · refine ⟨?_, hI.inner, ?_, fun v hv => hI.lastW v (by simp [hv]), fun v hv => hI.cov v (by simp [hv]), hI.kt, ?_, ?_, hI.last, ?_⟩
    · have := hI.order
      rw [List.map_cons] at this
      rw [← this]
      simp
    · intro x hx
      rcases List.mem_append.1 hx with hx | hx
      · exact hI.lastF x hx
      · rw [List.mem_singleton.1 hx]; exact he
    · dsimp only
      rw [List.flatMap_append, List.length_append, List.length_singleton]
      simp
    · dsimp only
      rw [hI.t, List.length_append, List.length_singleton, Nat.succ_mul]
    · rw [List.length_append, List.length_singleton]
      omega

/-- The last level. -/
theorem loop2 : ∀ f I F W s, Inv2 k h es I F W s → W.length < f → ∃ s' F', partLoop k f (W.map (QE.part k)) s = some s' ∧ Inv2 k h es I F' [] s'
  | 0, _, _, _, _, _, hf => by omega
  | f + 1, I, F, [], s, hI, _ => ⟨s, F, rfl, hI⟩
  | f + 1, I, F, w :: W, s, hI, hf => by
    obtain ⟨s', r1, r2⟩ := leaf_step hk2 hk255 hes hI
    obtain ⟨s2, F2, q1, q2⟩ := loop2 f I (F ++ [w.x]) W s' r2 (by rw [List.length_cons] at hf; omega)
    refine ⟨s2, F2, ?_, q2⟩
    rw [List.map_cons, partLoop, r1, sbind]
    exact q1

omit hk2 hk255 hes in
theorem length_le_wt {E : List (Nat × Nat)} : ∀ W : List QE, (∀ w ∈ W, Cov k es E w) → W.length ≤ (W.map wt).sum
  | [], _ => by simp
  | w :: W, h => by
    have := (h w (by simp)).wt_pos
    have := length_le_wt W (fun v hv => h v (by simp [hv]))
    rw [List.length_cons, List.map_cons, List.sum_cons]
    omega

omit hk2 hk255 hes in
/-- The first node of the last level. -/
theorem switch {P : List Nd} {w : QE} {W : List QE} {s : St} (hI : Inv1 k h es P (w :: W) s) (he : w.x.e = 0) :
    ∃ s', Inv2 k h es P [] (w :: W) s' ∧ ∀ f Q, partLoop k f (w.part k :: Q) s = partLoop k f (w.part k :: Q) s' := by
  have hlen := length_le_wt (w :: W) hI.cov
  have hpot := hI.pot
  refine ⟨{ s with kl := List.replicate (s.kt.length - s.t) false, kt := resize s.kt s.t, last := 1, t := 0 }, ⟨?_, hI.inner, by simp, ?_, hI.cov, ?_, ?_, by simp, rfl, ?_⟩, fun f Q => ?_⟩
  · simpa using hI.order
  · intro v hv
    have hd := List.pairwise_cons.1 hI.desc
    rcases List.mem_cons.1 hv with hv | hv
    · rw [hv]; exact he
    · have := hd.1 v hv
      omega
  · dsimp only
    have h1 : s.t = (P.flatMap (bits (ofEdges es) k)).length := by rw [hI.t, length_blocks bits_length]
    rw [hI.kt, h1, resize_left]
  · dsimp only
    rw [hI.kt, List.length_append, length_blocks bits_length, List.length_replicate, hI.t, Nat.add_sub_cancel_left]
    simp
  · rw [List.length_nil]
    omega
  · cases f with
    | zero => rfl
    | succ f =>
      rw [partLoop, partLoop, partStep, partStep]
      have hl : (w.part k).l = 1 := by
        show k ^ w.x.e = 1
        rw [he]; rfl
      dsimp only
      cases amountLoop (chunkIdx k (w.part k).l (w.part k).r0 (w.part k).c0) s.E ((w.part k).j - (w.part k).i) (w.part k).i (List.replicate (k * k) 0) with
      | none => rfl
      | some a =>
        rw [sbind, sbind, if_pos hl, if_pos hl, if_pos hI.last, if_neg (by omega)]

/-- The inner nodes. -/
theorem loop1 : ∀ f P W s, Inv1 k h es P W s → h * es.length + 1 ≤ P.length + f → ∃ s' I F, partLoop k f (W.map (QE.part k)) s = some s' ∧ Inv2 k h es I F [] s'
  | f, P, [], s, hI, _ => absurd rfl hI.ne
  | 0, P, w :: W, s, hI, hf => by
    have := hI.pot
    omega
  | f + 1, P, w :: W, s, hI, hf => by
    by_cases he : w.x.e = 0
    · obtain ⟨s', r1, r2⟩ := switch hI he
      have hpot := r1.pot
      rw [List.length_nil] at hpot
      obtain ⟨s2, F, q1, q2⟩ := loop2 hk2 hk255 hes (f + 1) P [] (w :: W) s' r1 (by omega)
      refine ⟨s2, P, F, ?_, q2⟩
      rw [List.map_cons, r2, ← List.map_cons]
      exact q1
    · obtain ⟨s', W', r1, r2⟩ := inner_step hk2 hk255 hes hI (by omega)
      obtain ⟨s2, I, F, q1, q2⟩ := loop1 f (P ++ [w.x]) W' s' r2 (by rw [List.length_append, List.length_singleton]; omega)
      refine ⟨s2, I, F, ?_, q2⟩
      rw [List.map_cons, partLoop, r1, sbind]
      exact q1

omit hes in
/-- The constructor. -/
theorem newEdges_ok {lg fuel : Nat} (hh : h = if lg > 1 then lg else 1) (hs : k ^ h ≤ 2 ^ 53) (hne : es ≠ []) (hes : ∀ p ∈ es, p.1 < k ^ h ∧ p.2 < k ^ h) (hfuel : h * es.length + 1 ≤ fuel) :
    ∃ t, newEdges k lg fuel es = some t ∧ t.k = k ∧ t.height = h ∧ (∃ I F, Shape (ofEdges es) k h I F t.T t.L) ∧ t.T.length + t.L.length ≤ k * k * (h * es.length) := by
  have h1 : 1 ≤ h := by rw [hh]; split <;> omega
  have hes' : ∀ p ∈ es, p.1 < 2 ^ 64 ∧ p.2 < 2 ^ 64 := fun p hp => by have := hes p hp; omega
  have hlen : 0 < es.length := List.length_pos_iff.2 hne
  have hk1 : k ^ 2 = k * k := Nat.pow_two k
  have hkk := Nat.mul_le_mul hk255 hk255
  have hp1 : k ^ (h - 1) ≤ k ^ h := Nat.pow_le_pow_right (by omega) (by omega)
  have hI : Inv1 k h es [] [⟨⟨0, 0, h - 1⟩, 0, es.length⟩] ⟨List.replicate (k ^ 2 * h * es.length) false, [], 0, 0, es⟩ := by
    refine ⟨rfl, by simp, by simp, ?_, ?_, by simp, ?_, by simp, rfl, ?_, by simp⟩
    · intro a ha b hb
      simp only [List.head?_cons, Option.mem_def, Option.some.injEq] at ha
      rw [List.mem_singleton.1 hb, ← ha]
      omega
    · intro w hw
      rw [List.mem_singleton.1 hw]
      refine ⟨hlen, Nat.le_refl _, fun p => ?_⟩
      dsimp only
      rw [slice, List.drop_zero, Nat.sub_zero, List.take_length, show h - 1 + 1 = h by omega]
      constructor
      · intro hp
        have := hes p hp
        exact ⟨hp, Nat.zero_le _, by omega, Nat.zero_le _, by omega⟩
      · exact fun hp => hp.1
    · dsimp only
      rw [hk1, List.flatMap_nil, List.nil_append, List.length_nil, Nat.sub_zero, Nat.mul_assoc, Nat.mul_comm (k * k)]
    · simp only [List.length_nil, List.map_cons, List.map_nil, List.sum_cons, List.sum_nil, wt]
      rw [show h - 1 + 1 = h by omega, Nat.sub_zero]
      omega
  obtain ⟨s, I, F, r1, r2⟩ := loop1 hk2 hk255 hes' fuel [] _ _ hI (by rw [List.length_nil]; omega)
  refine ⟨⟨s.kt, resize s.kl s.t, k, h⟩, ?_, rfl, rfl, ⟨I, F, r2.kt, ?_, ?_, r2.inner, r2.lastF⟩, ?_⟩
  · rw [newEdges]
    rw [← hh, fpow_eq (by omega), sbind, fpow_eq (by omega), sbind]
    rw [show [(⟨0, es.length, k ^ (h - 1), 0, 0⟩ : Part)] = [(⟨⟨0, 0, h - 1⟩, 0, es.length⟩ : QE)].map (QE.part k) from rfl, r1, sbind]
    rfl
  · dsimp only
    rw [r2.kl, r2.t, ← length_blocks (bits_length (E := ofEdges es) (k := k)), resize_left]
  · have := r2.order
    simpa using this
  · dsimp only
    have hp := Nat.mul_le_mul_left (k * k) r2.pot
    rw [List.length_nil, Nat.add_zero, Nat.mul_add] at hp
    rw [r2.kt, r2.kl, r2.t, ← length_blocks (bits_length (E := ofEdges es) (k := k)), resize_left, length_blocks bits_length, length_blocks bits_length, Nat.mul_comm, Nat.mul_comm F.length]
    exact hp

end
end Sdsl.K2
